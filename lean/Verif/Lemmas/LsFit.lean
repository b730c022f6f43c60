import Verif.Lemmas.AcfDet
import Verif.Props.NoiseIdWrong

/-!
# Detrended data: what the fit removes
-/

namespace AT

open Spec Finset

theorem d3_quad (e : ℕ → ℝ) (A B C : ℝ) (L i : ℕ) : d3 (fun i => e i - quad A B C i) L i = d3 e L i := by
  unfold d3 quad
  push_cast
  ring

theorem shift_sum_le (f : ℕ → ℝ) (hf : ∀ i, 0 ≤ f i) {a b n : ℕ} (h : a + b ≤ n) :
    ∑ i ∈ range a, f (i + b) ≤ ∑ i ∈ range n, f i := by
  calc ∑ i ∈ range a, f (i + b) ≤ ∑ i ∈ range b, f i + ∑ i ∈ range a, f (b + i) := by
        simp only [add_comm b]
        linarith [sum_nonneg fun i (_ : i ∈ range b) => hf i]
    _ = ∑ i ∈ range (b + a), f i := (sum_range_add _ _ _).symm
    _ ≤ _ := sum_le_sum_of_subset_of_nonneg (range_subset_range.2 (by omega)) fun i _ _ => hf i

/-- the third differences bound the variance from below -/
theorem den_ge_d3 (y : ℕ → ℝ) {n L k : ℕ} (hk : k + 3 * L ≤ n) :
    ∑ i ∈ range k, d3 y L i ^ 2 ≤ 80 * acfDen y n := by
  set μ := seqMean y n
  set z : ℕ → ℝ := fun i => (y i - μ) ^ 2 with hz
  have hz0 : ∀ i, 0 ≤ z i := fun i => sq_nonneg _
  have h1 : ∀ i ∈ range k, d3 y L i ^ 2 ≤ 20 * (z (i + 3 * L) + z (i + 2 * L) + z (i + L) + z (i + 0)) := by
    intro i _
    simp only [d3, hz, add_zero]
    set a := y (i + 3 * L) - μ with ha
    set b := y (i + 2 * L) - μ with hb
    set c := y (i + L) - μ with hc
    set d := y i - μ with hd
    have e : y (i + 3 * L) - 3 * y (i + 2 * L) + 3 * y (i + L) - y i = a - 3 * b + 3 * c - d := by
      rw [ha, hb, hc, hd]
      ring
    rw [e]
    nlinarith [sq_nonneg (3 * a + b), sq_nonneg (3 * a - c), sq_nonneg (a + d), sq_nonneg (b + c), sq_nonneg (b - 3 * d), sq_nonneg (c + 3 * d)]
  have h2 := sum_le_sum h1
  rw [← mul_sum, sum_add_distrib, sum_add_distrib, sum_add_distrib] at h2
  have e : acfDen y n = ∑ i ∈ range n, z i := rfl
  rw [e]
  have k1 := shift_sum_le z hz0 (a := k) (b := 3 * L) (n := n) (by omega)
  have k2 := shift_sum_le z hz0 (a := k) (b := 2 * L) (n := n) (by omega)
  have k3 := shift_sum_le z hz0 (a := k) (b := L) (n := n) (by omega)
  have k4 := shift_sum_le z hz0 (a := k) (b := 0) (n := n) (by omega)
  linarith

/-- blocks of `L` samples -/
theorem block_sum (f : ℕ → ℝ) (L J : ℕ) : ∑ j ∈ range J, ∑ u ∈ range L, f (j * L + u) = ∑ i ∈ range (J * L), f i := by
  induction J with
  | zero => simp
  | succ J ih => rw [sum_range_succ, ih, Nat.succ_mul, sum_range_add]

/-- the third differences of a series in steps of `L` bound the variance of its first differences from below -/
theorem den_diff_ge_d3 (r : ℕ → ℝ) {n L J : ℕ} (hJ : (J + 2) * L ≤ n) :
    ∑ j ∈ range J, d3 r L (j * L) ^ 2 ≤ 18 * L * acfDen (fun i => r (i + 1) - r i) n := by
  set v : ℕ → ℝ := fun i => r (i + 1) - r i with hv
  set μ := seqMean v n
  set z : ℕ → ℝ := fun i => (v i - μ) ^ 2 with hz
  have hz0 : ∀ i, 0 ≤ z i := fun i => sq_nonneg _
  have tel : ∀ a, ∑ u ∈ range L, v (a + u) = r (a + L) - r a := fun a => by
    have := sum_range_sub (fun u => r (a + u)) L
    simp only [add_zero] at this
    rw [← this]
    exact sum_congr rfl fun u _ => by simp only [hv, add_assoc]
  have h1 : ∀ j ∈ range J, d3 r L (j * L) ^ 2 ≤ 6 * L * (∑ u ∈ range L, z (j * L + u + 2 * L) + ∑ u ∈ range L, z (j * L + u + L)
      + ∑ u ∈ range L, z (j * L + u + 0)) := by
    intro j _
    have e : d3 r L (j * L) = ∑ u ∈ range L, ((v (j * L + u + 2 * L) - μ) - 2 * (v (j * L + u + L) - μ) + (v (j * L + u) - μ)) := by
      have e1 : ∑ u ∈ range L, ((v (j * L + u + 2 * L) - μ) - 2 * (v (j * L + u + L) - μ) + (v (j * L + u) - μ))
          = ∑ u ∈ range L, v (j * L + 2 * L + u) - 2 * ∑ u ∈ range L, v (j * L + L + u) + ∑ u ∈ range L, v (j * L + u) := by
        rw [mul_sum, ← sum_sub_distrib, ← sum_add_distrib]
        refine sum_congr rfl fun u _ => ?_
        rw [show j * L + u + 2 * L = j * L + 2 * L + u by ring, show j * L + u + L = j * L + L + u by ring]
        ring
      rw [e1, tel, tel, tel]
      unfold d3
      rw [show j * L + 2 * L + L = j * L + 3 * L by ring, show j * L + L + L = j * L + 2 * L by ring]
      ring
    rw [e]
    refine (sq_sum_le _ _).trans ?_
    rw [show (6 : ℝ) * L = L * 6 by ring, mul_assoc]
    refine mul_le_mul_of_nonneg_left ?_ (by positivity)
    rw [← sum_add_distrib, ← sum_add_distrib, mul_sum]
    refine sum_le_sum fun u _ => ?_
    simp only [hz, add_zero]
    set a := v (j * L + u + 2 * L) - μ
    set b := v (j * L + u + L) - μ
    set c := v (j * L + u) - μ
    nlinarith [sq_nonneg (2 * a + b), sq_nonneg (a - c), sq_nonneg (2 * c + b)]
  have h2 := sum_le_sum h1
  rw [← mul_sum, sum_add_distrib, sum_add_distrib, block_sum (fun i => z (i + 2 * L)), block_sum (fun i => z (i + L)),
    block_sum (fun i => z (i + 0))] at h2
  have hJ2 : J * L + 2 * L ≤ n := by rw [← add_mul]; exact hJ
  have k1 := shift_sum_le z hz0 (a := J * L) (b := 2 * L) (n := n) hJ2
  have k2 := shift_sum_le z hz0 (a := J * L) (b := L) (n := n) (by omega)
  have k3 := shift_sum_le z hz0 (a := J * L) (b := 0) (n := n) (by omega)
  have e : acfDen v n = ∑ i ∈ range n, z i := rfl
  rw [e]
  calc _ ≤ _ := h2
    _ ≤ 6 * L * (3 * ∑ i ∈ range n, z i) := mul_le_mul_of_nonneg_left (by linarith) (by positivity)
    _ = _ := by ring

/-- the detrended series -/
theorem detrend_tab {fit : List ℝ → ℕ → ℕ → ℝ} (hfit : IsLSFit fit) {n : ℕ} (hn : 0 < n) {deg : ℕ} (a b c : ℝ) (e : ℕ → ℝ)
    (hd : deg = 2 ∨ deg = 1 ∧ c = 0) :
    ∃ A B C, detrend fit (tab n (fun i => a + b * i + c * (i : ℝ) ^ 2 + e i)) deg = .ok (tab n (fun i => e i - quad A B C i)) ∧
      ∑ i ∈ range n, quad A B C i ^ 2 = ∑ i ∈ range n, quad A B C i * e i := by
  set x := tab n (fun i => a + b * i + c * (i : ℝ) ^ 2 + e i) with hx
  obtain ⟨⟨k, hk⟩, ho⟩ := hfit x deg
  have hlen : x.length = n := tab_length _ _
  have hg : ∀ i < n, x.getD i 0 = a + b * i + c * (i : ℝ) ^ 2 + e i := fun i hi => by simp [hx, tab, hi]
  obtain ⟨A, B, C, hC, hf⟩ : ∃ A B C, (deg = 1 → C = 0) ∧ ∀ i, fit x deg i = a + b * i + c * (i : ℝ) ^ 2 + quad A B C i := by
    rcases hd with rfl | ⟨rfl, rfl⟩
    · refine ⟨k 0 - a, k 1 - b, k 2 - c, by simp, fun i => ?_⟩
      rw [hk i]
      simp only [sum_range_succ, sum_range_zero, quad]
      ring
    · refine ⟨k 0 - a, k 1 - b, 0, fun _ => rfl, fun i => ?_⟩
      rw [hk i]
      simp only [sum_range_succ, sum_range_zero, quad]
      ring
  refine ⟨A, B, C, ?_, ?_⟩
  · rw [detrend, if_neg (List.length_pos_iff.1 (hlen.symm ▸ hn))]
    congr 1
    refine List.ext_getElem (by simp [hlen]) fun i h1 h2 => ?_
    have hi : i < n := by simpa using h2
    rw [List.getElem_mapIdx, hf]
    simp only [hx, tab, List.getElem_map, List.getElem_range]
    ring
  · have h0 : ∀ j ≤ deg, ∑ i ∈ range n, (e i - quad A B C i) * (i : ℝ) ^ j = 0 := fun j hj => by
      have := ho j hj
      rw [hlen] at this
      rw [← this]
      refine sum_congr rfl fun i hi => ?_
      rw [hg i (mem_range.1 hi), hf]
      ring
    have h1 : 1 ≤ deg := by omega
    have e0 := h0 0 (by omega)
    have e1 := h0 1 h1
    have e2 : C * ∑ i ∈ range n, (e i - quad A B C i) * (i : ℝ) ^ 2 = 0 := by
      rcases hd with rfl | ⟨rfl, -⟩
      · rw [h0 2 le_rfl, mul_zero]
      · rw [hC rfl, zero_mul]
    have key : ∑ i ∈ range n, quad A B C i * e i - ∑ i ∈ range n, quad A B C i ^ 2
        = A * ∑ i ∈ range n, (e i - quad A B C i) * (i : ℝ) ^ 0 + B * ∑ i ∈ range n, (e i - quad A B C i) * (i : ℝ) ^ 1
          + C * ∑ i ∈ range n, (e i - quad A B C i) * (i : ℝ) ^ 2 := by
      rw [mul_sum, mul_sum, mul_sum, ← sum_sub_distrib, ← sum_add_distrib, ← sum_add_distrib]
      refine sum_congr rfl fun i _ => ?_
      have : quad A B C i = A + B * i + C * (i : ℝ) ^ 2 := rfl
      generalize quad A B C i = Q at *
      rw [this]
      ring
    rw [e0, e1, e2] at key
    linarith

end AT
