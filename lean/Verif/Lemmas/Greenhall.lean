import Verif.Spec.Greenhall
import Verif.Lemmas.Tab
import Verif.Lemmas.Gradev

/-!
# Lemmas: the Greenhall functions
-/

namespace AT

open Spec Finset Real

theorem greenhall_sw_eq (t : ℝ) (alpha : ℤ) (h0 : -4 ≤ alpha) (h1 : alpha ≤ 2) :
    greenhall_sw t alpha = .ok (ghSw alpha t) := by
  have hc : ∀ n : ℕ, |t ^ n| = |t| ^ n := fun n => abs_pow t n
  have hl : ∀ n : ℕ, n ≠ 0 → (if t = 0 then (0 : ℝ) else t ^ n * log |t|) = t ^ n * log |t| := by
    intro n hn
    split
    · next h => simp [h, hn]
    · rfl
  unfold greenhall_sw ghSw
  rw [hl 2 two_ne_zero, hl 4 (by norm_num), hl 6 (by norm_num), hc, hc, hc]
  split_ifs <;> first | rfl | (exfalso; omega)

theorem ghSw_even (alpha : ℤ) (t : ℝ) : ghSw alpha (-t) = ghSw alpha t := by
  unfold ghSw
  simp only [abs_neg]
  have h2 : (-t) ^ 2 = t ^ 2 := by ring
  have h4 : (-t) ^ 4 = t ^ 4 := by ring
  have h6 : (-t) ^ 6 = t ^ 6 := by ring
  rw [h2, h4, h6]

/-- the noise exponents for which the kernel `sx` is defined -/
def ghOk (F : FArg) (alpha : ℤ) : Prop :=
  match F with
  | .inf => -6 ≤ alpha ∧ alpha ≤ 0
  | .fin F => -4 ≤ alpha ∧ alpha ≤ 2 ∧ F ≠ 0

theorem greenhall_sx_eq (t : ℝ) (F : FArg) (alpha : ℤ) (h : ghOk F alpha) :
    greenhall_sx t F alpha = .ok (ghSx F alpha t) := by
  cases F with
  | inf => exact greenhall_sw_eq t (alpha + 2) (by have := h.1; omega) (by have := h.2; omega)
  | fin F =>
    obtain ⟨h0, h1, hF⟩ := h
    simp only [greenhall_sx, greenhall_sw_eq _ _ h0 h1, pyDiv_ne hF, ok_bind, ghSx]

theorem ghSx_even (F : FArg) (alpha : ℤ) (t : ℝ) : ghSx F alpha (-t) = ghSx F alpha t := by
  cases F with
  | inf => exact ghSw_even _ _
  | fin F =>
    simp only [ghSx]
    rw [ghSw_even, show -t - 1 / F = -(t + 1 / F) by ring, show -t + 1 / F = -(t - 1 / F) by ring,
      ghSw_even, ghSw_even]
    ring

theorem greenhall_sz_eq (t : ℝ) (F : FArg) (alpha : ℤ) (d : ℕ) (h : ghOk F alpha)
    (hd : 1 ≤ d) (hd3 : d ≤ 3) : greenhall_sz t F alpha d = .ok (ghSz F alpha d t) := by
  unfold greenhall_sz
  simp only [greenhall_sx_eq _ _ _ h, ok_bind]
  obtain rfl | rfl | rfl : d = 1 ∨ d = 2 ∨ d = 3 := by omega
  · rw [if_pos rfl]
    congr 1
    simp only [ghSz, sum_range_succ, sum_range_zero]
    have c : ((2 * 1).choose 0 = 1) ∧ ((2 * 1).choose 1 = 2) ∧ ((2 * 1).choose 2 = 1) := by decide
    rw [c.1, c.2.1, c.2.2]
    push_cast
    norm_num
    rw [show t + 2 - 1 = t + 1 by ring]
    ring
  · rw [if_neg (by norm_num), if_pos rfl]
    congr 1
    simp only [ghSz, sum_range_succ, sum_range_zero]
    have c : ((2 * 2).choose 0 = 1) ∧ ((2 * 2).choose 1 = 4) ∧ ((2 * 2).choose 2 = 6) ∧
      ((2 * 2).choose 3 = 4) ∧ ((2 * 2).choose 4 = 1) := by decide
    rw [c.1, c.2.1, c.2.2.1, c.2.2.2.1, c.2.2.2.2]
    push_cast
    norm_num
    rw [show t + 1 - 2 = t - 1 by ring, show t + 3 - 2 = t + 1 by ring,
      show t + 4 - 2 = t + 2 by ring]
    ring
  · rw [if_neg (by norm_num), if_neg (by norm_num), if_pos rfl]
    congr 1
    simp only [ghSz, sum_range_succ, sum_range_zero]
    have c : ((2 * 3).choose 0 = 1) ∧ ((2 * 3).choose 1 = 6) ∧ ((2 * 3).choose 2 = 15) ∧
      ((2 * 3).choose 3 = 20) ∧ ((2 * 3).choose 4 = 15) ∧ ((2 * 3).choose 5 = 6) ∧
      ((2 * 3).choose 6 = 1) := by decide
    rw [c.1, c.2.1, c.2.2.1, c.2.2.2.1, c.2.2.2.2.1, c.2.2.2.2.2.1, c.2.2.2.2.2.2]
    push_cast
    norm_num
    rw [show t + 1 - 3 = t - 2 by ring, show t + 2 - 3 = t - 1 by ring,
      show t + 4 - 3 = t + 1 by ring, show t + 5 - 3 = t + 2 by ring, show t + 6 - 3 = t + 3 by ring]
    ring

theorem ghSz_even (F : FArg) (alpha : ℤ) (d : ℕ) (t : ℝ) : ghSz F alpha d (-t) = ghSz F alpha d t := by
  unfold ghSz
  rw [← sum_range_reflect]
  refine sum_congr rfl fun k hk => ?_
  have hk' : k ≤ 2 * d := by have := mem_range.1 hk; omega
  have e1 : 2 * d + 1 - 1 - k = 2 * d - k := by omega
  rw [e1, Nat.choose_symm hk']
  have e2 : (-1 : ℝ) ^ (d + (2 * d - k)) = (-1) ^ (d + k) := by
    refine neg_one_pow_congr ?_
    rw [Nat.even_iff, Nat.even_iff]
    omega
  rw [e2]
  congr 1
  rw [← ghSx_even]
  congr 1
  rw [Nat.cast_sub hk']
  push_cast
  ring

theorem greenhall_BasicSum_eq (J : ℕ) (M S : ℝ) (F : FArg) (alpha : ℤ) (d : ℕ) (h : ghOk F alpha)
    (hd : 1 ≤ d) (hd3 : d ≤ 3) (hM : M ≠ 0) (hS : S ≠ 0) :
    greenhall_BasicSum J M S F alpha d = .ok (ghSum J M S F alpha d) := by
  unfold greenhall_BasicSum
  simp only [greenhall_sz_eq _ _ _ _ h hd hd3, ok_bind, pyDiv_ne hM, pyDiv_ne hS]
  have e : (⌊(J : ℝ)⌋ - 1).toNat = J - 1 := by rw [Int.floor_natCast]; omega
  rw [e, forRange_eq (fun n => ∑ i ∈ range n, 2 * (1 - ((i : ℝ) + 1) / M) *
    ghSz F alpha d (((i : ℝ) + 1) / S) ^ 2) (by simp) (fun i _ => by simp [sum_range_succ])]
  simp only [ok_bind, ghSum]
  congr 2
  rw [sum_Ico_eq_sum_range]
  refine sum_congr rfl fun i _ => ?_
  push_cast
  rw [add_comm (1 : ℝ) i]

end AT
