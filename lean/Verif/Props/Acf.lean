import Verif.Model.Ci
import Verif.Lemmas.Tab

/-!
# C46: the lag-1 autocorrelation
-/

namespace AT

open Finset

/-- the arithmetic mean of a series -/
noncomputable def Spec.seqMean (x : ℕ → ℝ) (N : ℕ) : ℝ := (∑ i ∈ range N, x i) / N

/-- Riley 2004 eqn (2): numerator of the lag-1 autocorrelation -/
noncomputable def Spec.acfNum (x : ℕ → ℝ) (N : ℕ) : ℝ :=
  ∑ i ∈ range (N - 1), (x i - Spec.seqMean x N) * (x (i + 1) - Spec.seqMean x N)

/-- denominator of the lag-1 autocorrelation -/
noncomputable def Spec.acfDen (x : ℕ → ℝ) (N : ℕ) : ℝ :=
  ∑ i ∈ range N, (x i - Spec.seqMean x N) ^ 2

/-- some two samples differ -/
def Spec.NonConst (x : List ℝ) : Prop := ∃ u ∈ x, ∃ v ∈ x, u ≠ v

open Spec

theorem foldl_sq_sum (l : List ℝ) (mu b : ℝ) :
    l.foldl (fun b xn => b + (xn - mu) ^ 2) b = b + (l.map (fun v => (v - mu) ^ 2)).sum := by
  induction l generalizing b with
  | nil => simp
  | cons a l ih => simp only [List.foldl_cons, List.map_cons, List.sum_cons, ih]; ring

/-- the value `lag1_acf` computes -/
theorem lag1_acf_eq (x : List ℝ) (hx : x ≠ []) :
    lag1_acf x = .ok (nvDiv (some (acfNum (fun i => x.getD i 0) x.length))
      (some (acfDen (fun i => x.getD i 0) x.length))) := by
  set X := fun i => x.getD i 0 with hX
  have hmu : npMean x = seqMean X x.length := by
    rw [npMean, sum_eq, seqMean]
  unfold lag1_acf
  rw [if_neg hx]
  simp only
  rw [forRange_eq (fun n => ∑ i ∈ range n, (X i - seqMean X x.length) * (X (i + 1) - seqMean X x.length))
    (by simp) (fun i hi => ?_), foldl_sq_sum, sum_map_eq x 0]
  · simp only [ok_bind, hmu, zero_add]
    rfl
  · have e : x = tab x.length X := eq_tab x 0
    have g : ∀ j < x.length, pyGet x (j : ℕ) = .ok (X j) := fun j hj => by
      rw [e, pyGet_tab_nat _ _ _ (by simpa using hj)]
    rw [g i (by omega), g (i + 1) (by omega)]
    simp only [ok_bind, hmu, sum_range_succ]

/-- twice the sum of denominator and ± numerator is a sum of squares -/
theorem acf_identity (z : ℕ → ℝ) (s : ℝ) (hs : s ^ 2 = 1) (n : ℕ) :
    2 * (∑ i ∈ range (n + 1), z i ^ 2 + s * ∑ i ∈ range n, z i * z (i + 1)) =
      z 0 ^ 2 + z n ^ 2 + ∑ i ∈ range n, (z i + s * z (i + 1)) ^ 2 := by
  induction n with
  | zero => simp; ring
  | succ n ih =>
    rw [sum_range_succ _ (n + 1), sum_range_succ (fun i => z i * z (i + 1)), sum_range_succ (fun i => (z i + s * z (i + 1)) ^ 2)]
    linear_combination ih - z (n + 1) ^ 2 * hs

theorem acf_bound (z : ℕ → ℝ) (s : ℝ) (hs : s ^ 2 = 1) (n : ℕ) (h : ∃ i ≤ n, z i ≠ 0) :
    0 < ∑ i ∈ range (n + 1), z i ^ 2 + s * ∑ i ∈ range n, z i * z (i + 1) := by
  have hid := acf_identity z s hs n
  have h1 : 0 ≤ ∑ i ∈ range n, (z i + s * z (i + 1)) ^ 2 := sum_nonneg fun i _ => sq_nonneg _
  by_contra hneg
  have hz0 : z 0 ^ 2 = 0 := by nlinarith [sq_nonneg (z 0), sq_nonneg (z n)]
  have hsum : ∑ i ∈ range n, (z i + s * z (i + 1)) ^ 2 = 0 := by
    nlinarith [sq_nonneg (z 0), sq_nonneg (z n)]
  rw [sum_eq_zero_iff_of_nonneg (fun i _ => sq_nonneg _)] at hsum
  have hall : ∀ i ≤ n, z i = 0 := by
    intro i
    induction i with
    | zero => intro _; exact pow_eq_zero_iff (two_ne_zero) |>.1 hz0
    | succ i ih =>
      intro hi
      have h2 := pow_eq_zero_iff (two_ne_zero) |>.1 (hsum i (mem_range.2 (by omega)))
      rw [ih (by omega), zero_add] at h2
      rcases mul_eq_zero.1 h2 with h3 | h3
      · rw [h3] at hs; norm_num at hs
      · exact h3
  obtain ⟨i, hi, hne⟩ := h
  exact hne (hall i hi)

theorem nonConst_dev (x : List ℝ) (h : NonConst x) :
    ∃ i < x.length, x.getD i 0 - seqMean (fun i => x.getD i 0) x.length ≠ 0 := by
  obtain ⟨u, hu, v, hv, huv⟩ := h
  by_contra hc
  push Not at hc
  have g : ∀ w ∈ x, w = seqMean (fun i => x.getD i 0) x.length := fun w hw => by
    obtain ⟨i, hi, rfl⟩ := List.getElem_of_mem hw
    have := hc i hi
    rw [sub_eq_zero] at this
    rw [← this]
    simp [List.getD, hi]
  exact huv ((g u hu).trans (g v hv).symm)

theorem acf_abs_lt (x : List ℝ) (h : NonConst x) :
    0 < acfDen (fun i => x.getD i 0) x.length ∧
    -acfDen (fun i => x.getD i 0) x.length < acfNum (fun i => x.getD i 0) x.length ∧
    acfNum (fun i => x.getD i 0) x.length < acfDen (fun i => x.getD i 0) x.length := by
  obtain ⟨i, hi, hne⟩ := nonConst_dev x h
  obtain ⟨n, hn⟩ : ∃ n, x.length = n + 1 := ⟨x.length - 1, by omega⟩
  set z : ℕ → ℝ := fun i => x.getD i 0 - seqMean (fun i => x.getD i 0) x.length with hz
  have hp := acf_bound z 1 (by norm_num) n ⟨i, by omega, hne⟩
  have hm := acf_bound z (-1) (by norm_num) n ⟨i, by omega, hne⟩
  have e1 : acfDen (fun i => x.getD i 0) x.length = ∑ i ∈ range (n + 1), z i ^ 2 := by
    rw [acfDen]; simp only [hz]; rw [hn]
  have e2 : acfNum (fun i => x.getD i 0) x.length = ∑ i ∈ range n, z i * z (i + 1) := by
    rw [acfNum]; simp only [hz]; rw [hn]; simp
  rw [e1, e2]
  refine ⟨?_, ?_, ?_⟩ <;> linarith

/-- C46: for every non-constant series the lag-1 autocorrelation is a number strictly between
-1 and 1, and `r1 / (1 + r1)` is a number below 1/2 -/
theorem lag1_acf_range (x : List ℝ) (h : NonConst x) :
    ∃ r : ℝ, lag1_acf x = .ok (some r) ∧
      r = acfNum (fun i => x.getD i 0) x.length / acfDen (fun i => x.getD i 0) x.length ∧
      -1 < r ∧ r < 1 ∧ 1 + r ≠ 0 ∧ r / (1 + r) < 1 / 2 := by
  obtain ⟨h0, h1, h2⟩ := acf_abs_lt x h
  have hx : x ≠ [] := by rintro rfl; obtain ⟨u, hu, -⟩ := h; simp at hu
  have hr1 : -1 < acfNum (fun i => x.getD i 0) x.length / acfDen (fun i => x.getD i 0) x.length := by
    rw [lt_div_iff₀ h0]; linarith
  have hr2 : acfNum (fun i => x.getD i 0) x.length / acfDen (fun i => x.getD i 0) x.length < 1 := by
    rw [div_lt_one h0]; exact h2
  refine ⟨_, ?_, rfl, hr1, hr2, by linarith, ?_⟩
  · rw [lag1_acf_eq x hx]
    simp only [nvDiv, h0.ne', if_false]
  · rw [div_lt_div_iff₀ (by linarith) two_pos]; linarith

/-- constant series have no autocorrelation (NaN) -/
theorem lag1_acf_const (x : List ℝ) (hx : x ≠ []) (h : ¬ NonConst x) : lag1_acf x = .ok none := by
  rw [lag1_acf_eq x hx]
  unfold NonConst at h
  push Not at h
  obtain ⟨u, hu⟩ := List.exists_mem_of_ne_nil x hx
  have hN : (x.length : ℝ) ≠ 0 := by
    have := List.length_pos_iff.2 hx
    positivity
  have g : ∀ i ∈ range x.length, x.getD i 0 = u := fun i hi => by
    have hi' := mem_range.1 hi
    simp only [List.getD, hi', List.getElem?_eq_getElem, Option.getD_some]
    exact h _ (List.getElem_mem hi') _ hu
  have hm : seqMean (fun i => x.getD i 0) x.length = u := by
    rw [seqMean, sum_congr rfl g, sum_const, card_range, nsmul_eq_mul]
    field_simp
  have : acfDen (fun i => x.getD i 0) x.length = 0 := by
    rw [acfDen]
    refine sum_eq_zero fun i hi => ?_
    rw [hm]; simp only [g i hi]; ring
  simp only [nvDiv, this, if_true]

example : lag1_acf [5, 5, 5] = .ok none :=
  lag1_acf_const _ (by simp) (by simp [NonConst])

/-- and an empty series raises ZeroDivisionError -/
theorem lag1_acf_nil : lag1_acf [] = .error .zeroDivisionError := rfl

/-- C46: offset and non-zero scaling do not change the autocorrelation, for all series -/
theorem lag1_acf_affine (x : List ℝ) (a c : ℝ) (ha : a ≠ 0) :
    lag1_acf (x.map (fun v => a * v + c)) = lag1_acf x := by
  by_cases hx : x = []
  · rw [hx]; rfl
  have hx' : x.map (fun v => a * v + c) ≠ [] := by simpa using hx
  have hN : (x.length : ℝ) ≠ 0 := by
    have := List.length_pos_iff.2 hx
    positivity
  rw [lag1_acf_eq x hx, lag1_acf_eq _ hx', List.length_map]
  have g : ∀ i < x.length, (x.map (fun v => a * v + c)).getD i 0 = a * x.getD i 0 + c := fun i hi => by
    simp [List.getD, hi]
  have hm : seqMean (fun i => (x.map (fun v => a * v + c)).getD i 0) x.length =
      a * seqMean (fun i => x.getD i 0) x.length + c := by
    rw [seqMean, sum_congr rfl (fun i hi => g i (mem_range.1 hi)), sum_add_distrib, ← mul_sum, sum_const,
      card_range, nsmul_eq_mul, seqMean]
    field_simp
  have hnum : acfNum (fun i => (x.map (fun v => a * v + c)).getD i 0) x.length =
      a ^ 2 * acfNum (fun i => x.getD i 0) x.length := by
    rw [acfNum, acfNum, mul_sum, hm]
    refine sum_congr rfl fun i hi => ?_
    have := mem_range.1 hi
    rw [g i (by omega), g (i + 1) (by omega)]
    ring
  have hden : acfDen (fun i => (x.map (fun v => a * v + c)).getD i 0) x.length =
      a ^ 2 * acfDen (fun i => x.getD i 0) x.length := by
    rw [acfDen, acfDen, mul_sum, hm]
    refine sum_congr rfl fun i hi => ?_
    rw [g i (mem_range.1 hi)]
    ring
  rw [hnum, hden]
  have ha2 : a ^ 2 ≠ 0 := pow_ne_zero 2 ha
  simp only [nvDiv, mul_eq_zero, ha2, false_or]
  by_cases h0 : acfDen (fun i => x.getD i 0) x.length = 0
  · rw [if_pos h0, if_pos h0]
  · simp only [h0, if_false]
    rw [mul_div_mul_left _ _ ha2]

example : lag1_acf [-1, 1, 5] = lag1_acf [1, 2, 4] := by
  rw [← lag1_acf_affine [1, 2, 4] 2 (-3) two_ne_zero]
  norm_num

/-- the hypothesis is met: for 1, 2, 4 the autocorrelation is -1/42 -/
example : NonConst [1, 2, 4] ∧ lag1_acf [1, 2, 4] = .ok (some (-1 / 42)) := by
  refine ⟨⟨1, by simp, 2, by simp, by norm_num⟩, ?_⟩
  rw [lag1_acf_eq _ (by simp)]
  simp only [acfNum, acfDen, seqMean, List.length_cons, List.length_nil, sum_range_succ,
    sum_range_zero]
  norm_num [nvDiv]

end AT
