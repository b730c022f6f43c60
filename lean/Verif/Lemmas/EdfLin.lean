import Verif.Lemmas.Quartic

/-!
# Equivalent degrees of freedom of a sum of squares of stationary linear forms
-/

namespace AT

open Spec Finset MeasureTheory ProbabilityTheory
open scoped NNReal ENNReal

variable {Ω : Type} [MeasurableSpace Ω] {P : Measure Ω}

/-- a double sum of a function of the lag -/
theorem lag_sum (C : ℕ → ℕ → ℝ) (f : ℕ → ℝ) (M : ℕ) (h1 : ∀ i j, i ≤ j → j < M → C i j = f (j - i))
    (h2 : ∀ i j, C i j = C j i) :
    ∑ i ∈ range M, ∑ j ∈ range M, C i j = M * f 0 + 2 * ∑ l ∈ Ico 1 M, ((M : ℝ) - l) * f l := by
  induction M with
  | zero => simp
  | succ M ih =>
    have ih := ih (fun i j hij hj => h1 i j hij (by omega))
    rw [sum_range_succ]
    simp only [sum_range_succ (fun j => C _ j)]
    rw [sum_add_distrib, ih]
    have e1 : ∑ j ∈ range M, C M j = ∑ i ∈ range M, C i M := sum_congr rfl (fun j _ => h2 _ _)
    have e2 : ∑ i ∈ range M, C i M = ∑ l ∈ Ico 1 (M + 1), f l := by
      rw [sum_Ico_eq_sum_range, ← sum_range_reflect]
      refine sum_congr (by simp) (fun i hi => ?_)
      rw [mem_range] at hi
      rw [h1 _ _ (by omega) (by omega)]
      congr 1
      omega
    have e3 : ∑ l ∈ Ico 1 (M + 1), (((M + 1 : ℕ) : ℝ) - l) * f l
        = ∑ l ∈ Ico 1 M, ((M : ℝ) - l) * f l + ∑ l ∈ Ico 1 (M + 1), f l := by
      have e4 : ∑ l ∈ Ico 1 (M + 1), ((M : ℝ) - l) * f l = ∑ l ∈ Ico 1 M, ((M : ℝ) - l) * f l := by
        rcases Nat.eq_zero_or_pos M with rfl | hM
        · simp
        · rw [sum_Ico_succ_top (by omega)]
          simp
      rw [← e4, ← sum_add_distrib]
      refine sum_congr rfl (fun l _ => ?_)
      push_cast
      ring
    rw [e3, e1, e2, h1 M M le_rfl (by omega), Nat.sub_self]
    push_cast
    ring

variable [IsProbabilityMeasure P]

/-- degrees of freedom of a sum of squares of linear forms whose covariances depend on the lag -/
theorem edf_lin {W : ℕ → Ω → ℝ} {s2 : ℝ≥0} (h : NormalNoise P W s2) (hs : 0 < s2) (n M : ℕ) (hM : 0 < M)
    (a : ℕ → ℕ → ℝ) (g : ℕ → ℝ) (hg : ∀ i j, i ≤ j → j < M → ∑ k ∈ range n, a i k * a j k = g (j - i))
    (g0 : g 0 ≠ 0) (c : ℝ) (hc : 0 < c) :
    HasEdf P (fun ω => c * ∑ i ∈ range M, Lin W n (a i) ω ^ 2)
      (M ^ 2 * g 0 ^ 2 / (M * g 0 ^ 2 + 2 * ∑ l ∈ Ico 1 M, ((M : ℝ) - l) * g l ^ 2)) := by
  have hA : AllLp P (fun ω => c * ∑ i ∈ range M, Lin W n (a i) ω ^ 2) :=
    (AllLp.sum fun i _ => (lin_allLp h n (a i)).pow 2).const_mul c
  have hm2 : MemLp (fun ω => c * ∑ i ∈ range M, Lin W n (a i) ω ^ 2) 2 P := by exact_mod_cast hA 2
  have hs' : (0 : ℝ) < s2 := by exact_mod_cast hs
  have hM' : (0 : ℝ) < M := by exact_mod_cast hM
  have sq : ∀ i < M, ∑ k ∈ range n, a i k ^ 2 = g 0 := fun i hi => by
    have := hg i i le_rfl hi
    rw [Nat.sub_self] at this
    simpa only [pow_two] using this
  have m1 : ∫ ω, c * ∑ i ∈ range M, Lin W n (a i) ω ^ 2 ∂P = c * (M * (s2 * g 0)) := by
    rw [integral_const_mul, integral_finsetSum _ (fun i _ => ((lin_allLp h n (a i)).pow 2).int)]
    congr 1
    rw [sum_congr rfl (g := fun _ => s2 * g 0)]
    · simp
    · intro i hi
      have := lin_prod h n (a i) (a i)
      simp only [← pow_two] at this
      rw [this, sq i (mem_range.1 hi)]
  have dbl : ∑ i ∈ range M, ∑ j ∈ range M, (∑ k ∈ range n, a i k * a j k) ^ 2
      = M * g 0 ^ 2 + 2 * ∑ l ∈ Ico 1 M, ((M : ℝ) - l) * g l ^ 2 :=
    lag_sum (fun i j => (∑ k ∈ range n, a i k * a j k) ^ 2) (fun l => g l ^ 2) M
      (fun i j hij hj => by rw [hg i j hij hj]) (fun i j => by simp only [mul_comm])
  have m2 : ∫ ω, (c * ∑ i ∈ range M, Lin W n (a i) ω ^ 2) ^ 2 ∂P
      = c ^ 2 * s2 ^ 2 * (M ^ 2 * g 0 ^ 2 + 2 * (M * g 0 ^ 2 + 2 * ∑ l ∈ Ico 1 M, ((M : ℝ) - l) * g l ^ 2)) := by
    have e : ∀ ω, (c * ∑ i ∈ range M, Lin W n (a i) ω ^ 2) ^ 2
        = c ^ 2 * ∑ i ∈ range M, ∑ j ∈ range M, Lin W n (a i) ω ^ 2 * Lin W n (a j) ω ^ 2 := by
      intro ω
      rw [mul_pow, pow_two (∑ i ∈ range M, _), sum_mul_sum]
    have hi : ∀ i j, Integrable (fun ω => Lin W n (a i) ω ^ 2 * Lin W n (a j) ω ^ 2) P := fun i j =>
      (((lin_allLp h n (a i)).pow 2).mul ((lin_allLp h n (a j)).pow 2)).int
    simp only [e]
    rw [integral_const_mul, integral_finsetSum _ (fun i _ => integrable_finsetSum _ (fun j _ => hi i j)), ← dbl]
    have e2 : ∀ i ∈ range M, ∫ ω, ∑ j ∈ range M, Lin W n (a i) ω ^ 2 * Lin W n (a j) ω ^ 2 ∂P
        = ∑ j ∈ range M, (s2 : ℝ) ^ 2 * (g 0 ^ 2 + 2 * (∑ k ∈ range n, a i k * a j k) ^ 2) := by
      intro i h1
      rw [integral_finsetSum _ (fun j _ => hi i j)]
      refine sum_congr rfl (fun j h2 => ?_)
      rw [lin_quartic h, sq i (mem_range.1 h1), sq j (mem_range.1 h2), pow_two (g 0)]
    rw [sum_congr rfl e2]
    simp only [mul_add, sum_add_distrib, sum_const, card_range, nsmul_eq_mul, ← mul_sum]
    ring
  have pos : 0 < M * g 0 ^ 2 + 2 * ∑ l ∈ Ico 1 M, ((M : ℝ) - l) * g l ^ 2 := by
    have h1 : 0 < M * g 0 ^ 2 := by positivity
    have h2 : 0 ≤ ∑ l ∈ Ico 1 M, ((M : ℝ) - l) * g l ^ 2 := sum_nonneg fun l hl => by
      have : (l : ℝ) ≤ M := by exact_mod_cast (mem_Ico.1 hl).2.le
      exact mul_nonneg (by linarith) (sq_nonneg _)
    linarith
  have hv : Var[fun ω => c * ∑ i ∈ range M, Lin W n (a i) ω ^ 2; P]
      = 2 * (c * s2) ^ 2 * (M * g 0 ^ 2 + 2 * ∑ l ∈ Ico 1 M, ((M : ℝ) - l) * g l ^ 2) := by
    rw [variance_eq_sub hm2]
    simp only [Pi.pow_apply]
    rw [m1, m2]
    ring
  refine ⟨hm2, ?_, ?_⟩
  · rw [hv]
    positivity
  · rw [hv, m1]
    have := pos.ne'
    field_simp

/-- the coefficients of a moving filter -/
def shiftCoef (A : ℕ → ℝ) (S i p : ℕ) : ℝ := if i * S ≤ p then A (p - i * S) else 0

omit [MeasurableSpace Ω] in
theorem shift_lin (W : ℕ → Ω → ℝ) (A : ℕ → ℝ) (K S i n : ℕ) (hK : ∀ k, K ≤ k → A k = 0) (hn : i * S + K ≤ n) (ω : Ω) :
    Lin W n (shiftCoef A S i) ω = ∑ k ∈ range K, A k * W (i * S + k) ω := by
  unfold Lin
  obtain ⟨r, rfl⟩ : ∃ r, n = i * S + (K + r) := ⟨n - (i * S + K), by omega⟩
  rw [sum_range_add, sum_range_add (n := K)]
  have z1 : ∑ p ∈ range (i * S), shiftCoef A S i p * W p ω = 0 := sum_eq_zero fun p hp => by
    rw [mem_range] at hp
    rw [shiftCoef, if_neg (by omega), zero_mul]
  have z2 : ∑ p ∈ range r, shiftCoef A S i (i * S + (K + p)) * W (i * S + (K + p)) ω = 0 := sum_eq_zero fun p hp => by
    rw [shiftCoef, if_pos (by omega), hK _ (by omega), zero_mul]
  rw [z1, z2, zero_add, add_zero]
  refine sum_congr rfl fun k _ => ?_
  rw [shiftCoef, if_pos (by omega), Nat.add_sub_cancel_left]

theorem shift_cov (A : ℕ → ℝ) (K S i j n : ℕ) (hK : ∀ k, K ≤ k → A k = 0) (hij : i ≤ j) (hn : j * S + K ≤ n) :
    ∑ p ∈ range n, shiftCoef A S i p * shiftCoef A S j p = ∑ k ∈ range K, A k * A (k + (j - i) * S) := by
  obtain ⟨r, rfl⟩ : ∃ r, n = j * S + (K + r) := ⟨n - (j * S + K), by omega⟩
  have hS : i * S ≤ j * S := Nat.mul_le_mul_right S hij
  rw [sum_range_add, sum_range_add (n := K)]
  have z1 : ∑ p ∈ range (j * S), shiftCoef A S i p * shiftCoef A S j p = 0 := sum_eq_zero fun p hp => by
    rw [mem_range] at hp
    rw [shiftCoef, shiftCoef, if_neg (show ¬ j * S ≤ p by omega), mul_zero]
  have z2 : ∑ p ∈ range r, shiftCoef A S i (j * S + (K + p)) * shiftCoef A S j (j * S + (K + p)) = 0 :=
    sum_eq_zero fun p hp => by
      rw [shiftCoef, shiftCoef, if_pos (show j * S ≤ j * S + (K + p) by omega), Nat.add_sub_cancel_left,
        hK (K + p) (by omega), mul_zero]
  rw [z1, z2, zero_add, add_zero]
  refine sum_congr rfl fun k _ => ?_
  rw [shiftCoef, shiftCoef, if_pos (by omega), if_pos (by omega), Nat.add_sub_cancel_left, mul_comm]
  congr 2
  rw [Nat.sub_mul]
  omega

/-- the covariance of a moving filter at the lag `l` -/
def filterCov (A : ℕ → ℝ) (K S l : ℕ) : ℝ := ∑ k ∈ range K, A k * A (k + l * S)

/-- degrees of freedom of the mean square of a moving filter -/
theorem edf_filter {W : ℕ → Ω → ℝ} {s2 : ℝ≥0} (h : NormalNoise P W s2) (hs : 0 < s2) (M : ℕ) (hM : 0 < M)
    (A : ℕ → ℝ) (K S : ℕ) (hK : ∀ k, K ≤ k → A k = 0) (g0 : filterCov A K S 0 ≠ 0) (c : ℝ) (hc : 0 < c) :
    HasEdf P (fun ω => c * ∑ i ∈ range M, (∑ k ∈ range K, A k * W (i * S + k) ω) ^ 2)
      (M ^ 2 * filterCov A K S 0 ^ 2 /
        (M * filterCov A K S 0 ^ 2 + 2 * ∑ l ∈ Ico 1 M, ((M : ℝ) - l) * filterCov A K S l ^ 2)) := by
  have hb : ∀ i < M, i * S + K ≤ M * S + K := fun i hi => by
    have := Nat.mul_le_mul_right S hi.le
    omega
  have h1 := edf_lin h hs (M * S + K) M hM (shiftCoef A S) (filterCov A K S)
    (fun i j hij hj => shift_cov A K S i j _ hK hij (hb j hj)) g0 c hc
  have e : (fun ω => c * ∑ i ∈ range M, Lin W (M * S + K) (shiftCoef A S i) ω ^ 2)
      = fun ω => c * ∑ i ∈ range M, (∑ k ∈ range K, A k * W (i * S + k) ω) ^ 2 := by
    funext ω
    congr 1
    refine sum_congr rfl fun i hi => ?_
    rw [shift_lin W A K S i _ hK (hb i (mem_range.1 hi))]
  rwa [e] at h1

end AT
