import Verif.Model.Tau
import Verif.Lemmas.Tau
import Verif.Lemmas.Tab
import Mathlib.Analysis.SpecialFunctions.Log.Base

/-!
# C59: tau_reduction
-/

namespace AT

open Finset Spec

/-- the position of `m` on the logarithmic grid with `n` points per decade -/
noncomputable def Spec.gridPos (n m : ℕ) : ℤ := npRound (n * Real.logb 10 m)

theorem isRound_mono {x y : ℝ} {j k : ℤ} (h : x ≤ y) (hj : IsRound x j) (hk : IsRound y k) : j ≤ k := by
  by_contra hlt
  push Not at hlt
  have h1 := abs_le.1 hj.1
  have h2 := abs_le.1 hk.1
  have h3 : (k : ℝ) + 1 ≤ j := by exact_mod_cast hlt
  have hxy : x = y := by linarith
  subst hxy
  exact absurd (isRound_unique hj hk) (by omega)

theorem npRound_mono {x y : ℝ} (h : x ≤ y) : npRound x ≤ npRound y :=
  isRound_mono h (npRound_isRound x) (npRound_isRound y)

theorem gridPos_mono (n : ℕ) {a b : ℕ} (ha : 0 < a) (h : a ≤ b) : gridPos n a ≤ gridPos n b := by
  apply npRound_mono
  have ha' : (0 : ℝ) < a := by exact_mod_cast ha
  have hb : (a : ℝ) ≤ b := by exact_mod_cast h
  exact mul_le_mul_of_nonneg_left (Real.logb_le_logb_of_le (by norm_num) ha' hb) (by positivity)

theorem gridPos_pow (n k : ℕ) : gridPos n (10 ^ k) = n * k := by
  have h : (n : ℝ) * Real.logb 10 ((10 ^ k : ℕ) : ℝ) = ((n * k : ℤ) : ℝ) := by
    push_cast
    rw [Real.logb_pow, Real.logb_self_eq_one (by norm_num), mul_one]
  rw [gridPos, h]
  exact isRound_unique (npRound_isRound _) (isRound_intCast _)

/-- C59: for the contiguous list 1, ..., M the result consists of those `m < M` whose grid position
differs from that of `m + 1`, in order, and the times are `m/rate` -/
theorem tau_reduction_eq (M : ℕ) (rate : ℝ) (n : ℕ) :
    tau_reduction (tab M (fun i => i + 1)) rate n =
      .ok ((tab (M - 1) (fun i => i + 1)).filter (fun m => decide (gridPos n (m + 1) ≠ gridPos n m)),
        ((tab (M - 1) (fun i => i + 1)).filter (fun m => decide (gridPos n (m + 1) ≠ gridPos n m))).map
          (fun m : ℕ => (m : ℝ) / rate)) := by
  unfold tau_reduction
  have h1 : sliceFrom (tab M (fun i => i + 1)) 1 = tab (M - 1) (fun i => i + 1 + 1) := by
    have := sliceFrom_nat (tab M (fun i => i + 1)) 1
    rw [Nat.cast_one] at this
    rw [this, drop_tab]
    apply tab_congr
    intro i _
    ring
  have h2 : sliceTo (tab M (fun i => i + 1)) (-1) = tab (M - 1) (fun i => i + 1) := by
    have := sliceTo_neg (tab M (fun i => i + 1)) 1 one_pos
    rw [Nat.cast_one] at this
    rw [this, tab_length, take_tab, min_eq_left (Nat.sub_le _ _)]
  rw [h1, h2]
  simp only [map_tab, vop_tab, ok_bind, tab_length, pyAssert_true]
  have h3 : (tab (M - 1) fun i => decide (npRound (↑n * Real.logb 10 ((i + 1 + 1 : ℕ) : ℝ)) -
        npRound (↑n * Real.logb 10 ((i + 1 : ℕ) : ℝ)) ≠ 0)) =
      (tab (M - 1) (fun i => i + 1)).map (fun m => decide (gridPos n (m + 1) ≠ gridPos n m)) := by
    rw [map_tab]
    apply tab_congr
    intro i _
    exact decide_eq_decide.2 sub_ne_zero
  rw [h3, maskSel_map]
  rfl

/-- the values that are kept -/
def Spec.Kept (n M m : ℕ) : Prop := 0 < m ∧ m < M ∧ gridPos n (m + 1) ≠ gridPos n m

/-- C59: the result in words -/
theorem tau_reduction_spec (M : ℕ) (rate : ℝ) (n : ℕ) :
    ∃ l : List ℕ, tau_reduction (tab M (fun i => i + 1)) rate n = .ok (l, l.map (fun m : ℕ => (m : ℝ) / rate)) ∧
      l.Pairwise (· < ·) ∧ l.Sublist (tab M (fun i => i + 1)) ∧ (∀ m, m ∈ l ↔ Kept n M m) ∧ M ∉ l ∧
      ∀ k : ℕ, (l.filter (fun m => decide (10 ^ k ≤ m ∧ m < 10 ^ (k + 1)))).length ≤ n := by
  refine ⟨_, tau_reduction_eq M rate n, ?_, ?_, ?_, ?_, ?_⟩
  all_goals
    have hsort : (tab (M - 1) (fun i => i + 1)).Pairwise (· < ·) := by
      rw [tab, List.pairwise_map]
      exact List.pairwise_lt_range.imp (fun h => by omega)
    have hmem : ∀ m, m ∈ (tab (M - 1) (fun i => i + 1)).filter
        (fun m => decide (gridPos n (m + 1) ≠ gridPos n m)) ↔ Kept n M m := fun m => by
      rw [List.mem_filter, tab, List.mem_map, decide_eq_true_iff, Kept]
      constructor
      · rintro ⟨⟨i, hi, rfl⟩, h⟩
        have := List.mem_range.1 hi
        exact ⟨by omega, by omega, h⟩
      · rintro ⟨h0, h1, h2⟩
        exact ⟨⟨m - 1, List.mem_range.2 (by omega), by omega⟩, h2⟩
  · exact hsort.filter _
  · refine List.Sublist.trans List.filter_sublist ?_
    rcases M with - | M
    · simp
    · rw [Nat.add_sub_cancel, tab_succ]
      exact List.sublist_append_left _ _
  · exact hmem
  · rw [hmem]
    rintro ⟨-, h, -⟩
    exact lt_irrefl _ h
  · intro k
    set l := ((tab (M - 1) (fun i => i + 1)).filter (fun m => decide (gridPos n (m + 1) ≠ gridPos n m))).filter
      (fun m => decide (10 ^ k ≤ m ∧ m < 10 ^ (k + 1))) with hl
    have hls : l.Pairwise (· < ·) := (hsort.filter _).filter _
    have hlm : ∀ m ∈ l, Kept n M m ∧ 10 ^ k ≤ m ∧ m < 10 ^ (k + 1) := fun m hm => by
      rw [hl, List.mem_filter, hmem] at hm
      exact ⟨hm.1, of_decide_eq_true hm.2⟩
    have hnd : l.Nodup := hls.imp (fun h => ne_of_lt h)
    have hstep : ∀ m ∈ l, gridPos n m < gridPos n (m + 1) := fun m hm =>
      lt_of_le_of_ne (gridPos_mono n (hlm m hm).1.1 (Nat.le_succ m)) (hlm m hm).1.2.2.symm
    have hlow : ∀ m ∈ l, (n * k : ℤ) ≤ gridPos n m := fun m hm => by
      have h := gridPos_mono n (Nat.pow_pos (by norm_num)) (hlm m hm).2.1
      rwa [gridPos_pow] at h
    have hhigh : ∀ m ∈ l, gridPos n m < (n * k : ℤ) + n := fun m hm => by
      have h := gridPos_mono n (Nat.succ_pos m) (Nat.succ_le_of_lt (hlm m hm).2.2)
      rw [gridPos_pow] at h
      have h' := hstep m hm
      push_cast at h
      have h2 : gridPos n (m + 1) ≤ n * (k + 1) := h
      rw [mul_add, mul_one] at h2
      omega
    have hinj : Set.InjOn (gridPos n) {m | m ∈ l} := by
      intro a ha b hb hab
      by_contra hne
      rcases lt_or_gt_of_ne hne with h | h
      · have h1 := hstep a ha
        have h2 := gridPos_mono n (Nat.succ_pos a) (Nat.succ_le_of_lt h)
        have : gridPos n (a + 1) ≤ gridPos n b := h2
        omega
      · have h1 := hstep b hb
        have h2 := gridPos_mono n (Nat.succ_pos b) (Nat.succ_le_of_lt h)
        have : gridPos n (b + 1) ≤ gridPos n a := h2
        omega
    rw [← List.toFinset_card_of_nodup hnd]
    have hcard : l.toFinset.card ≤ (Finset.Ico (n * k : ℤ) (n * k + n)).card := by
      apply Finset.card_le_card_of_injOn (gridPos n)
      · intro m hm
        have hm' : m ∈ l := by simpa using hm
        simp only [Finset.coe_Ico, Set.mem_Ico]
        exact ⟨hlow m hm', hhigh m hm'⟩
      · intro a ha b hb h
        exact hinj (by simpa using ha) (by simpa using hb) h
    rw [Int.card_Ico] at hcard
    have : ((n * k : ℤ) + n - n * k).toNat = n := by omega
    omega

/-- one point per decade: of 1, ..., 5 the value 3 is kept, since 10^0.5 lies between 3 and 4 -/
example : Kept 1 5 3 := by
  have l3 : Real.logb 10 3 < 1 / 2 := by
    rw [Real.logb_lt_iff_lt_rpow (by norm_num) (by norm_num), ← Real.sqrt_eq_rpow]
    exact Real.lt_sqrt_of_sq_lt (by norm_num)
  have l3' : 0 ≤ Real.logb 10 3 := Real.logb_nonneg (by norm_num) (by norm_num)
  have l4 : 1 / 2 < Real.logb 10 4 := by
    rw [Real.lt_logb_iff_rpow_lt (by norm_num) (by norm_num), ← Real.sqrt_eq_rpow]
    exact (Real.sqrt_lt' (by norm_num)).2 (by norm_num)
  have l4' : Real.logb 10 4 ≤ 1 := by
    rw [Real.logb_le_iff_le_rpow (by norm_num) (by norm_num), Real.rpow_one]
    norm_num
  have h3 : gridPos 1 3 = 0 := by
    refine isRound_unique (npRound_isRound _) ⟨abs_le.2 ?_, fun h => ⟨0, rfl⟩⟩
    push_cast
    constructor <;> linarith
  have h4 : gridPos 1 4 = 1 := by
    have e : |((1 : ℕ) : ℝ) * Real.logb 10 ((4 : ℕ) : ℝ) - ((1 : ℤ) : ℝ)| < 1 / 2 := by
      push_cast
      rw [abs_lt]
      constructor <;> linarith
    exact isRound_unique (npRound_isRound _) ⟨e.le, fun h => absurd h e.ne⟩
  exact ⟨by norm_num, by norm_num, by rw [h3, h4]; norm_num⟩

end AT
