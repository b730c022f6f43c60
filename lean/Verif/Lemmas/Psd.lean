import Verif.Model.Psd
import Verif.Lemmas.Tab
import Mathlib.Analysis.SpecialFunctions.Integrals.Basic
import Mathlib.Analysis.SpecialFunctions.ImproperIntegrals
import Mathlib.MeasureTheory.Measure.Haar.NormedSpace
import Mathlib.MeasureTheory.Integral.Bochner.Set

/-!
# Integrals used in the conversion between PSD and deviation
-/

namespace AT

open MeasureTheory Set Real

/-- the half-open interval from `l` to `u`, where `u` may be infinite -/
def Spec.seg (l : ℝ) (u : WithTop ℝ) : Set ℝ := {x | l < x ∧ (x : WithTop ℝ) ≤ u}

/-- The assumption on the integration routine: the integral of an integrable function is
computed exactly.  Nothing is assumed about functions that are not integrable. -/
def Spec.QuadExact (quad : Quad) : Prop :=
  ∀ (g : ℝ → ℝ) (l : ℝ) (u : WithTop ℝ), (l : WithTop ℝ) ≤ u → IntegrableOn g (Spec.seg l u) →
    quad g l u = some (∫ x in Spec.seg l u, g x)

open Spec

theorem seg_top (l : ℝ) : seg l ⊤ = Ioi l := by
  ext x; simp [seg]

theorem seg_coe (l u : ℝ) : seg l (u : WithTop ℝ) = Ioc l u := by
  ext x; simp [seg]

theorem measurableSet_seg (l : ℝ) (u : WithTop ℝ) : MeasurableSet (seg l u) := by
  induction u using WithTop.recTopCoe with
  | top => rw [seg_top]; exact measurableSet_Ioi
  | coe u => rw [seg_coe]; exact measurableSet_Ioc

/-- such a routine exists -/
theorem exists_quadExact : ∃ quad : Quad, QuadExact quad := by
  refine ⟨fun g l u => some (∫ x in seg (l.untopD 0) u, g x), fun g l u _ _ => ?_⟩
  simp

/-- the measurable functions of the integrands -/
theorem measurable_psdIntegrand (a : ℝ) : Measurable (psdIntegrand a) := by
  unfold psdIntegrand
  fun_prop

theorem psdIntegrand_nonneg (a : ℝ) {z : ℝ} (hz : 0 ≤ z) : 0 ≤ psdIntegrand a z := by
  unfold psdIntegrand
  exact div_nonneg (by positivity) (rpow_nonneg hz _)

theorem psdIntegrand_le_small (a : ℝ) {z : ℝ} (hz : 0 < z) : psdIntegrand a z ≤ z ^ (a + 2) := by
  unfold psdIntegrand
  rw [div_le_iff₀ (rpow_pos_of_pos hz _), ← rpow_add hz]
  have h : sin z ^ 4 ≤ z ^ 4 := by
    have h1 : |sin z| ≤ |z| := abs_sin_le_abs
    calc sin z ^ 4 = |sin z| ^ 4 := by rw [Even.pow_abs (by decide)]
      _ ≤ |z| ^ 4 := pow_le_pow_left₀ (abs_nonneg _) h1 4
      _ = z ^ 4 := by rw [Even.pow_abs (by decide)]
  refine h.trans (le_of_eq ?_)
  rw [← rpow_natCast]
  congr 1
  push_cast
  ring

theorem psdIntegrand_le_large (a : ℝ) {z : ℝ} (hz : 0 < z) : psdIntegrand a z ≤ z ^ (a - 2) := by
  unfold psdIntegrand
  rw [div_le_iff₀ (rpow_pos_of_pos hz _), ← rpow_add hz]
  have h : sin z ^ 4 ≤ 1 := by
    have h1 := sin_sq_le_one z
    nlinarith [sq_nonneg (sin z)]
  refine h.trans (le_of_eq ?_)
  rw [show a - 2 + (2 - a) = 0 by ring, rpow_zero]

theorem integrable_small {a : ℝ} (ha : -3 < a) (u : ℝ) : IntegrableOn (psdIntegrand a) (Ioc 0 u) := by
  rcases le_or_gt u 0 with hu | hu
  · rw [Ioc_eq_empty (by linarith)]
    exact integrableOn_empty
  have h : IntegrableOn (fun z : ℝ => z ^ (a + 2)) (Ioc 0 u) :=
    (intervalIntegrable_iff_integrableOn_Ioc_of_le hu.le).1
      (intervalIntegral.intervalIntegrable_rpow' (by linarith))
  refine h.mono' (measurable_psdIntegrand a).aestronglyMeasurable ?_
  refine (ae_restrict_iff' measurableSet_Ioc).2 (Filter.Eventually.of_forall fun z hz => ?_)
  rw [norm_of_nonneg (psdIntegrand_nonneg a hz.1.le)]
  exact psdIntegrand_le_small a hz.1

theorem integrable_large {a l : ℝ} (ha : a < 1) (hl : 0 < l) : IntegrableOn (psdIntegrand a) (Ioi l) := by
  have h : IntegrableOn (fun z : ℝ => z ^ (a - 2)) (Ioi l) := integrableOn_Ioi_rpow_of_lt (by linarith) hl
  refine h.mono' (measurable_psdIntegrand a).aestronglyMeasurable ?_
  refine (ae_restrict_iff' measurableSet_Ioi).2 (Filter.Eventually.of_forall fun z hz => ?_)
  have hz' : 0 < z := hl.trans hz
  rw [norm_of_nonneg (psdIntegrand_nonneg a hz'.le)]
  exact psdIntegrand_le_large a hz'

theorem integrable_middle (a : ℝ) {l u : ℝ} (hl : 0 < l) : IntegrableOn (psdIntegrand a) (Ioc l u) := by
  have hc : ContinuousOn (psdIntegrand a) (Icc l u) := by
    unfold psdIntegrand
    refine ContinuousOn.div (by fun_prop) ?_ ?_
    · intro z hz
      exact (continuousAt_rpow_const z _ (Or.inl (by linarith [hz.1]))).continuousWithinAt
    · intro z hz
      exact (rpow_pos_of_pos (by linarith [hz.1]) _).ne'
  exact (hc.integrableOn_compact isCompact_Icc).mono_set Ioc_subset_Icc_self

/-- the condition on the exponent under which the integral over a segment converges -/
def Spec.SegOk (a l : ℝ) (u : WithTop ℝ) : Prop :=
  0 ≤ l ∧ (l : WithTop ℝ) ≤ u ∧ (l = 0 → -3 < a) ∧ (u = ⊤ → a < 1)

theorem integrable_seg {a l : ℝ} {u : WithTop ℝ} (h : SegOk a l u) : IntegrableOn (psdIntegrand a) (seg l u) := by
  obtain ⟨h0, h1, h2, h3⟩ := h
  induction u using WithTop.recTopCoe with
  | top =>
    rw [seg_top]
    rcases h0.eq_or_lt with rfl | hl
    · rw [← Ioc_union_Ioi_eq_Ioi (zero_le_one' ℝ)]
      exact (integrable_small (h2 rfl) 1).union (integrable_large (h3 rfl) one_pos)
    · exact integrable_large (h3 rfl) hl
  | coe u =>
    rw [seg_coe]
    rcases h0.eq_or_lt with rfl | hl
    · exact integrable_small (h2 rfl) u
    · exact integrable_middle a hl

/-- scaling a segment -/
theorem seg_scale {c : ℝ} (hc : 0 < c) (l : ℝ) (u : WithTop ℝ) (x : ℝ) :
    c * x ∈ seg (c * l) (u.map (fun e => c * e)) ↔ x ∈ seg l u := by
  induction u using WithTop.recTopCoe with
  | top => simp [seg, hc]
  | coe u =>
    rw [WithTop.map_coe, seg_coe, seg_coe, mem_Ioc, mem_Ioc, mul_lt_mul_iff_right₀ hc,
      mul_le_mul_iff_right₀ hc]

theorem integral_seg_scale {c : ℝ} (hc : 0 < c) (l : ℝ) (u : WithTop ℝ) (g : ℝ → ℝ) :
    ∫ x in seg l u, g (c * x) = c⁻¹ * ∫ z in seg (c * l) (u.map (fun e => c * e)), g z := by
  rw [← integral_indicator (measurableSet_seg _ _), ← integral_indicator (measurableSet_seg _ _)]
  have h := Measure.integral_comp_mul_left ((seg (c * l) (u.map (fun e => c * e))).indicator g) c
  rw [abs_of_pos (inv_pos.2 hc), smul_eq_mul] at h
  rw [← h]
  congr 1
  ext x
  by_cases hx : x ∈ seg l u
  · rw [indicator_of_mem hx, indicator_of_mem ((seg_scale hc l u x).2 hx)]
  · rw [indicator_of_notMem hx, indicator_of_notMem (fun hh => hx ((seg_scale hc l u x).1 hh))]

theorem integrable_seg_scale {c : ℝ} (hc : 0 < c) (l : ℝ) (u : WithTop ℝ) (g : ℝ → ℝ) :
    IntegrableOn (fun x => g (c * x)) (seg l u) ↔
      IntegrableOn g (seg (c * l) (u.map (fun e => c * e))) := by
  rw [← integrable_indicator_iff (measurableSet_seg _ _), ← integrable_indicator_iff (measurableSet_seg _ _)]
  have : (seg l u).indicator (fun x => g (c * x)) =
      fun x => (seg (c * l) (u.map (fun e => c * e))).indicator g (c * x) := by
    ext x
    by_cases hx : x ∈ seg l u
    · rw [indicator_of_mem hx, indicator_of_mem ((seg_scale hc l u x).2 hx)]
    · rw [indicator_of_notMem hx, indicator_of_notMem (fun hh => hx ((seg_scale hc l u x).1 hh))]
  rw [this, integrable_comp_mul_left_iff _ hc.ne']

/-- the integral is additive over adjacent segments -/
theorem seg_union {l m : ℝ} {u : WithTop ℝ} (h1 : l ≤ m) (h2 : (m : WithTop ℝ) ≤ u) :
    seg l u = seg l m ∪ seg m u := by
  ext x
  simp only [seg, mem_ofPred_eq, mem_union, WithTop.coe_le_coe]
  constructor
  · rintro ⟨a, b⟩
    rcases le_or_gt x m with h | h
    · exact Or.inl ⟨a, h⟩
    · exact Or.inr ⟨h, b⟩
  · rintro (⟨a, b⟩ | ⟨a, b⟩)
    · exact ⟨a, (WithTop.coe_le_coe.2 b).trans h2⟩
    · exact ⟨h1.trans_lt a, b⟩

theorem seg_disjoint (l m : ℝ) (u : WithTop ℝ) : Disjoint (seg l m) (seg m u) := by
  rw [Set.disjoint_left]
  rintro x ⟨-, h1⟩ ⟨h2, -⟩
  exact absurd (WithTop.coe_le_coe.1 h1) (not_le.2 h2)

theorem integral_seg_union {l m : ℝ} {u : WithTop ℝ} (h1 : l ≤ m) (h2 : (m : WithTop ℝ) ≤ u) (g : ℝ → ℝ)
    (hg1 : IntegrableOn g (seg l m)) (hg2 : IntegrableOn g (seg m u)) :
    ∫ x in seg l u, g x = (∫ x in seg l m, g x) + ∫ x in seg m u, g x := by
  rw [seg_union h1 h2, setIntegral_union (seg_disjoint l m u) (measurableSet_seg _ _) hg1 hg2]

/-- the integrand is positive on a set of positive measure in every half-line -/
theorem psdIntegrand_tail_pos {a l : ℝ} (ha : a < 1) (hl : 0 < l) : 0 < ∫ z in Ioi l, psdIntegrand a z := by
  rw [setIntegral_pos_iff_support_of_nonneg_ae]
  · obtain ⟨N, hN⟩ := exists_nat_gt (l / π)
    have hN' : l < N * π := (div_lt_iff₀ pi_pos).1 hN
    have hsub : Ioo (N * π) (N * π + π) ⊆ Function.support (psdIntegrand a) ∩ Ioi l := by
      intro z hz
      refine ⟨?_, hN'.trans hz.1⟩
      have hs : 0 < sin (z - N * π) := sin_pos_of_pos_of_lt_pi (by linarith [hz.1]) (by linarith [hz.2])
      rw [sin_sub_nat_mul_pi] at hs
      have h0 : sin z ≠ 0 := by
        rintro h
        rw [h, mul_zero] at hs
        exact lt_irrefl _ hs
      rw [Function.mem_support, psdIntegrand]
      exact div_ne_zero (pow_ne_zero _ h0) (rpow_pos_of_pos (by linarith [hz.1]) _).ne'
    refine lt_of_lt_of_le ?_ (measure_mono hsub)
    rw [Real.volume_Ioo]
    simp [pi_pos]
  · refine (ae_restrict_iff' measurableSet_Ioi).2 (Filter.Eventually.of_forall fun z hz => ?_)
    exact psdIntegrand_nonneg a (hl.trans hz).le
  · exact integrable_large ha hl

end AT
