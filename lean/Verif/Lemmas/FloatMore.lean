import Verif.Lemmas.FloatErr
import Verif.Model.FloatMore
import Verif.Lemmas.Totdev
import Verif.Lemmas.Simple
import Verif.Lemmas.Mtie
import Mathlib.NumberTheory.Harmonic.Bounds
import Mathlib.Analysis.Complex.ExponentialBounds

/-!
# Lemmas for the rounding errors of further deviations
-/

namespace AT

open Spec Finset Real

variable {fl : ℝ → ℝ} {sum : List ℝ → ℝ}

/-- the root of a sum of squares with weights, for values with errors up to `E` -/
theorem wrms_perturb {ι : Type*} (s : Finset ι) (w v d : ι → ℝ) (D E : ℝ) (hD : 0 < D) (hE : 0 ≤ E)
    (hw : ∀ i ∈ s, 0 ≤ w i) (h : ∀ i ∈ s, |v i - d i| ≤ E) :
    |√((∑ i ∈ s, w i * v i ^ 2) / D) - √((∑ i ∈ s, w i * d i ^ 2) / D)| ≤ E * √((∑ i ∈ s, w i) / D) := by
  have tri : ∀ a b : ι → ℝ, (∀ i ∈ s, |a i - b i| ≤ E) → √(∑ i ∈ s, w i * a i ^ 2) ≤
      √(∑ i ∈ s, w i * b i ^ 2) + E * √(∑ i ∈ s, w i) := by
    intro a b hab
    have n1 : 0 ≤ ∑ i ∈ s, w i * b i ^ 2 := Finset.sum_nonneg fun i hi => mul_nonneg (hw i hi) (sq_nonneg _)
    have n2 : 0 ≤ ∑ i ∈ s, w i := Finset.sum_nonneg hw
    rw [Real.sqrt_le_left (by positivity)]
    have h1 := Real.sq_sqrt n1
    have h2 := Real.sq_sqrt n2
    have cs := Finset.sum_mul_sq_le_sq_mul_sq s (fun i => √(w i) * |b i|) (fun i => √(w i))
    have e1 : ∀ i ∈ s, √(w i) * |b i| * √(w i) = w i * |b i| := by
      intro i hi
      rw [mul_right_comm, Real.mul_self_sqrt (hw i hi)]
    have e2 : ∀ i ∈ s, (√(w i) * |b i|) ^ 2 = w i * b i ^ 2 := by
      intro i hi
      rw [mul_pow, Real.sq_sqrt (hw i hi), sq_abs]
    have e3 : ∀ i ∈ s, √(w i) ^ 2 = w i := fun i hi => Real.sq_sqrt (hw i hi)
    rw [Finset.sum_congr rfl e1, Finset.sum_congr rfl e2, Finset.sum_congr rfl e3] at cs
    have h3 : ∑ i ∈ s, w i * |b i| ≤ √(∑ i ∈ s, w i * b i ^ 2) * √(∑ i ∈ s, w i) := by
      rw [← Real.sqrt_mul n1]
      exact Real.le_sqrt_of_sq_le cs
    have h4 : ∑ i ∈ s, w i * a i ^ 2 ≤ ∑ i ∈ s, w i * b i ^ 2 + 2 * E * ∑ i ∈ s, w i * |b i|
        + E ^ 2 * ∑ i ∈ s, w i := by
      rw [Finset.mul_sum, Finset.mul_sum, ← Finset.sum_add_distrib, ← Finset.sum_add_distrib]
      apply Finset.sum_le_sum
      intro i hi
      have h5 : |a i| ≤ |b i| + E := by
        have := abs_add_le (a i - b i) (b i)
        rw [sub_add_cancel] at this
        linarith [hab i hi]
      have h6 : a i ^ 2 ≤ (|b i| + E) ^ 2 := by
        rw [← sq_abs (a i)]
        exact pow_le_pow_left₀ (abs_nonneg _) h5 2
      have h7 := mul_le_mul_of_nonneg_left h6 (hw i hi)
      have h8 : |b i| ^ 2 = b i ^ 2 := sq_abs _
      calc w i * a i ^ 2 ≤ w i * (|b i| + E) ^ 2 := h7
        _ = w i * |b i| ^ 2 + 2 * E * (w i * |b i|) + E ^ 2 * w i := by ring
        _ = _ := by rw [h8]
    have h9 := mul_le_mul_of_nonneg_left h3 (show 0 ≤ 2 * E by positivity)
    calc ∑ i ∈ s, w i * a i ^ 2 ≤ √(∑ i ∈ s, w i * b i ^ 2) ^ 2 +
          2 * E * (√(∑ i ∈ s, w i * b i ^ 2) * √(∑ i ∈ s, w i)) + E ^ 2 * √(∑ i ∈ s, w i) ^ 2 := by
          rw [h1, h2]; linarith
      _ = _ := by ring
  rw [Real.sqrt_div' _ hD.le, Real.sqrt_div' _ hD.le, Real.sqrt_div' _ hD.le, ← sub_div, abs_div,
    abs_of_nonneg (Real.sqrt_nonneg D), ← mul_div_assoc]
  apply div_le_div_of_nonneg_right _ (Real.sqrt_nonneg D)
  have h1 := tri v d h
  have h2 := tri d v (fun i hi => by rw [abs_sub_comm]; exact h i hi)
  rw [abs_le]
  constructor <;> linarith

/-- a rounded nonnegative number whose exact value differs from `b` by at most `e` -/
theorem near_perturb {K : ℕ} (hK : K ≤ 2 ^ 48) {r a b e : ℝ} (h : Near K r a) (ha : 0 ≤ a) (hb : 0 ≤ b)
    (he : |a - b| ≤ e) : |r - b| ≤ 2 * K * unitRoundoff * b + 17 / 16 * e := by
  have he0 : 0 ≤ e := (abs_nonneg _).trans he
  refine le_trans ?_ (simple_bound hK hb he0)
  unfold Near at h
  rw [abs_of_nonneg ha] at h
  have h3 : |r - b| ≤ |r - a| + |a - b| := abs_sub_le _ _ _
  have h4 : a ≤ b + e := by linarith [(abs_le.1 he).2]
  have h5 := mul_le_mul_of_nonneg_left h4 (near_eps_nonneg K)
  linarith

/-- the rounded sum of `f 0 … f (n-1)`, added one by one to 0 -/
def seqSum (fl : ℝ → ℝ) (f : ℕ → ℝ) : ℕ → ℝ
  | 0 => 0
  | n + 1 => fl (seqSum fl f n + f n)

theorem seqSum_nearA (hfl : FloatRound fl) {k : ℕ} {f g G : ℕ → ℝ} (n : ℕ)
    (h : ∀ i < n, NearA k (f i) (g i) (G i)) :
    NearA (n + k) (seqSum fl f n) (∑ i ∈ range n, g i) (∑ i ∈ range n, G i) := by
  induction n with
  | zero => simpa [seqSum] using (NearA.exact (b := 0) (G := 0) (by simp)).mono (Nat.zero_le k)
  | succ n ih =>
    rw [Finset.sum_range_succ, Finset.sum_range_succ]
    have h1 := ih (fun i hi => h i (by omega))
    have h2 := (h n (by omega)).mono (show k ≤ n + k by omega)
    exact ((h1.add h2).fl hfl).mono (by omega)

theorem seqSum_near (hfl : FloatRound fl) {k : ℕ} {f g : ℕ → ℝ} (n : ℕ) (hg : ∀ i < n, 0 ≤ g i)
    (h : ∀ i < n, Near k (f i) (g i)) :
    Near (n + k) (seqSum fl f n) (∑ i ∈ range n, g i) := by
  induction n with
  | zero => simpa [seqSum] using (Near.refl 0).mono (Nat.zero_le k)
  | succ n ih =>
    rw [Finset.sum_range_succ]
    have h1 := ih (fun i hi => hg i (by omega)) (fun i hi => h i (by omega))
    have h2 := (h n (by omega)).mono (show k ≤ n + k by omega)
    exact ((h1.add h2 (Finset.sum_nonneg fun i hi => hg i (by have := Finset.mem_range.1 hi; omega))
      (hg n (by omega))).fl hfl).mono (by omega)

theorem floatSum_near_tab (hfl : FloatRound fl) {n k : ℕ} {f g : ℕ → ℝ} {s : ℝ}
    (h : FloatSum fl (tab n f) s) (hg : ∀ i < n, 0 ≤ g i) (hf : ∀ i < n, Near k (f i) (g i)) :
    Near (n - 1 + k) s (∑ i ∈ range n, g i) := by
  have h1 := FloatSum.nearA_tab hfl (g := g) (G := g) h (fun i hi => by
    have := nearA_of_near (hf i hi)
    rwa [abs_of_nonneg (hg i hi)] at this)
  unfold Near
  rw [abs_of_nonneg (Finset.sum_nonneg fun i hi => hg i (Finset.mem_range.1 hi))]
  exact h1.2

theorem pySum_fl_tab (fl : ℝ → ℝ) (n : ℕ) (f : ℕ → ℝ) : pySum_fl fl (tab n f) = seqSum fl f n := by
  unfold pySum_fl tab
  induction n with
  | zero => rfl
  | succ n ih =>
    rw [List.range_succ, List.map_append, List.foldl_append, ih]
    rfl

end AT
