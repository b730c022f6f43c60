import Verif.Lemmas.Ident
import Mathlib.Topology.Algebra.Order.Field

/-!
# Convergence in probability to a number
-/

namespace AT

open Spec Finset MeasureTheory ProbabilityTheory Filter
open scoped NNReal ENNReal

variable {Ω : Type} [MeasurableSpace Ω] {P : Measure Ω}

/-- `X n` tends to `c` in probability -/
def InProb (P : Measure Ω) (X : ℕ → Ω → ℝ) (c : ℝ) : Prop := ∀ ε : ℝ, 0 < ε → Whp P (fun n ω => |X n ω - c| < ε)

theorem InProb.comp {X : ℕ → Ω → ℝ} {c : ℝ} (h : InProb P X c) {u : ℕ → ℕ} (hu : Tendsto u atTop atTop) :
    InProb P (fun n => X (u n)) c := fun ε hε => (h ε hε).comp hu

theorem InProb.congr {X Y : ℕ → Ω → ℝ} {c : ℝ} (h : InProb P X c) (hXY : ∀ᶠ n in atTop, ∀ ω, Y n ω = X n ω) :
    InProb P Y c := fun ε hε => (h ε hε).mono (by
  filter_upwards [hXY] with n hn ω h1
  rwa [hn ω])

theorem InProb.of_tendsto {c : ℕ → ℝ} {l : ℝ} (h : Tendsto c atTop (nhds l)) : InProb P (fun n _ => c n) l := fun ε hε =>
  Whp.of_eventually (by
    filter_upwards [Metric.tendsto_nhds.1 h ε hε] with n hn _
    rwa [Real.dist_eq] at hn)

theorem InProb.map₂ {X Y : ℕ → Ω → ℝ} {a b : ℝ} (hX : InProb P X a) (hY : InProb P Y b) (g : ℝ → ℝ → ℝ)
    (hg : ContinuousAt (fun p : ℝ × ℝ => g p.1 p.2) (a, b)) : InProb P (fun n ω => g (X n ω) (Y n ω)) (g a b) := by
  intro ε hε
  obtain ⟨δ, hδ, h⟩ := Metric.continuousAt_iff.1 hg ε hε
  refine ((hX δ hδ).and (hY δ hδ)).mono (Eventually.of_forall fun n ω hω => ?_)
  have := h (x := (X n ω, Y n ω)) (by
    rw [Prod.dist_eq, Real.dist_eq, Real.dist_eq]
    exact max_lt hω.1 hω.2)
  rwa [Real.dist_eq] at this

theorem InProb.map {X : ℕ → Ω → ℝ} {a : ℝ} (hX : InProb P X a) (g : ℝ → ℝ) (hg : ContinuousAt g a) :
    InProb P (fun n ω => g (X n ω)) (g a) := by
  intro ε hε
  obtain ⟨δ, hδ, h⟩ := Metric.continuousAt_iff.1 hg ε hε
  refine (hX δ hδ).mono (Eventually.of_forall fun n ω hω => ?_)
  have := h (x := X n ω) (by rwa [Real.dist_eq])
  rwa [Real.dist_eq] at this

theorem InProb.mul {X Y : ℕ → Ω → ℝ} {a b : ℝ} (hX : InProb P X a) (hY : InProb P Y b) :
    InProb P (fun n ω => X n ω * Y n ω) (a * b) := hX.map₂ hY (fun x y => x * y) (by fun_prop)

theorem InProb.sub {X Y : ℕ → Ω → ℝ} {a b : ℝ} (hX : InProb P X a) (hY : InProb P Y b) :
    InProb P (fun n ω => X n ω - Y n ω) (a - b) := hX.map₂ hY (fun x y => x - y) (by fun_prop)

theorem InProb.div {X Y : ℕ → Ω → ℝ} {a b : ℝ} (hX : InProb P X a) (hY : InProb P Y b) (hb : b ≠ 0) :
    InProb P (fun n ω => X n ω / Y n ω) (a / b) :=
  hX.map₂ hY (fun x y => x / y) (ContinuousAt.div continuousAt_fst continuousAt_snd hb)

theorem InProb.pos {X : ℕ → Ω → ℝ} {a : ℝ} (hX : InProb P X a) (ha : 0 < a) : Whp P (fun n ω => 0 < X n ω) :=
  (hX a ha).mono (Eventually.of_forall fun n ω hω => by linarith [(abs_lt.1 hω).1])

variable [IsProbabilityMeasure P] {W : ℕ → Ω → ℝ} {S : ℕ} {s2 : ℝ≥0}

/-- the mean square settles -/
theorem MF.inProb (h : NormalNoise P W s2) {f : ℕ → Ω → ℝ} (hf : MF W S f) (hS : 0 < S) {v : ℝ} (hv : MeanSq P (f 0) v) :
    InProb P (fun n ω => (∑ i ∈ range n, f i ω ^ 2) / n) v := by
  intro ε hε
  refine (hf.lln h hS hv (half_pos hε)).mono ?_
  filter_upwards [eventually_gt_atTop 0] with n hn ω hω
  have hn0 : (0 : ℝ) < n := by exact_mod_cast hn
  have e : (∑ i ∈ range n, f i ω ^ 2) / n - v = ((∑ i ∈ range n, f i ω ^ 2) - n * v) / n := by field_simp
  rw [e, abs_div, abs_of_pos hn0, div_lt_iff₀ hn0]
  nlinarith

/-- the mean settles at zero -/
theorem MF.mean_inProb (h : NormalNoise P W s2) {f : ℕ → Ω → ℝ} (hf : MF W S f) (hS : 0 < S) :
    InProb P (fun n ω => (∑ i ∈ range n, f i ω) / n) 0 := by
  obtain ⟨V, -, hV⟩ := hf.sum_sq h hS
  intro ε hε
  have h1 := whp_of_mean_div (P := P) (X := fun n ω => (∑ i ∈ range n, f i ω) ^ 2) (V := V) (fun n ω => sq_nonneg _)
    (fun n => (hV n).1) (fun n => (hV n).2) (ε := (ε / 2) ^ 2) (by positivity)
  refine h1.mono ?_
  filter_upwards [eventually_gt_atTop 0] with n hn ω hω
  have hn0 : (0 : ℝ) < n := by exact_mod_cast hn
  rw [sub_zero, abs_div, abs_of_pos hn0, div_lt_iff₀ hn0]
  have h2 : |∑ i ∈ range n, f i ω| ≤ ε / 2 * n := by
    rw [← abs_of_nonneg (show 0 ≤ ε / 2 * (n : ℝ) by positivity)]
    exact sq_le_sq.1 (by rw [mul_pow]; exact hω)
  nlinarith

end AT
