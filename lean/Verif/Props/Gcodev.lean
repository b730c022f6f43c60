import Verif.Props.Shape

/-!
# C19: Groslambert codeviation
-/

namespace AT

open Spec Finset Real

theorem gcodev_self_value (x : ℕ → ℝ) (N m : ℕ) (hm : 0 < m) (hN : 2 * m < N) (rate : ℝ) (hr : rate ≠ 0) :
    Spec.gcodev x x N m (m / rate) = rateSign rate * Spec.oadev x N m (m / rate) := by
  unfold Spec.gcodev Spec.oadev rms
  have hn : (0 : ℝ) < (N : ℝ) - 2 * m := by
    have : (2 : ℝ) * m < N := by exact_mod_cast hN
    linarith
  have hs : ∑ i ∈ range (N - 2 * m), d2 x m i * d2 x m i = ∑ i ∈ range (N - 2 * m), d2 x m i ^ 2 :=
    Finset.sum_congr rfl (fun i _ => by ring)
  rw [hs, abs_of_nonneg (Finset.sum_nonneg (fun i _ => sq_nonneg _)),
    ← sqrt_norm _ 2 _ two_pos hn m hm rate hr]
  field_simp

/-- C19: the codeviation of a series with itself is its overlapping Allan deviation, in all
four arrays and with the same failures, for phase and for frequency data. -/
theorem gcodev_self (x : List ℝ) (rate : ℝ) (dt : String) (taus : TausArg) :
    gcodev x x rate dt taus = oadev x rate dt taus := by
  have key : ∀ x : List ℝ, gcodev x x rate "phase" taus = oadev x rate "phase" taus := by
    intro x
    rw [gcodev_phase_eq x x rfl, oadev_phase_any]
    refine table_congr (fun m hm hmN _ _ => ⟨rfl, fun hn => ?_⟩)
    have hr : rate ≠ 0 ∨ rate = 0 := (em _).symm
    rcases hr with hr | hr
    · have h : Spec.gcodev (seq x) (seq x) x.length m (m / rate)
          = rateSign rate * Spec.oadev (seq x) x.length m (m / rate) :=
        gcodev_self_value _ _ m hm (by omega) rate hr
      simp only [h, and_self]
    · subst hr
      simp [Spec.gcodev, Spec.oadev, rms]
  have e1 : gcodev x x rate dt taus = (do
      let p ← input_to_phase x rate dt; gcodev p p rate "phase" taus) := by
    unfold gcodev
    cases h : input_to_phase x rate dt with
    | error e => rfl
    | ok p => simp only [ok_bind, input_phase]
  have e2 := run_input .oadev x rate dt taus
  simp only [DevName.run] at e2
  rw [e1, e2]
  simp only [key]

/-- C19: the codeviation is symmetric. -/
theorem gcodev_comm (x y : List ℝ) (hlen : x.length = y.length) (rate : ℝ) (taus : TausArg) :
    gcodev x y rate "phase" taus = gcodev y x rate "phase" taus := by
  rw [gcodev_phase_eq x y hlen, gcodev_phase_eq y x hlen.symm, hlen]
  have : ∀ m, Spec.gcodev (seq x) (seq y) y.length m ((m : ℝ) / rate)
      = Spec.gcodev (seq y) (seq x) y.length m (m / rate) := by
    intro m
    unfold Spec.gcodev
    congr 5
    funext i
    ring
  simp only [this]

example : gcodev [0, 1, 5, 2] [3, 3, 1, 0] 2 "phase" .none = gcodev [3, 3, 1, 0] [0, 1, 5, 2] 2 "phase" .none :=
  gcodev_comm _ _ (by simp) _ _

/-- C19: Cauchy–Schwarz for the codeviation. -/
theorem gcodev_sq_le (x y : ℕ → ℝ) (N m : ℕ) (hN : 2 * m ≤ N) (τ : ℝ) :
    Spec.gcodev x y N m τ ^ 2 ≤ Spec.oadev x N m τ * Spec.oadev y N m τ := by
  unfold Spec.gcodev Spec.oadev rms
  have hn : (0 : ℝ) ≤ (N : ℝ) - 2 * m := by
    have : (2 : ℝ) * m ≤ N := by exact_mod_cast hN
    linarith
  set A := ∑ i ∈ range (N - 2 * m), d2 x m i ^ 2
  set B := ∑ i ∈ range (N - 2 * m), d2 y m i ^ 2
  set C := ∑ i ∈ range (N - 2 * m), d2 x m i * d2 y m i
  have hA : 0 ≤ A := Finset.sum_nonneg (fun i _ => sq_nonneg _)
  have hB : 0 ≤ B := Finset.sum_nonneg (fun i _ => sq_nonneg _)
  have hCS : C ^ 2 ≤ A * B := Finset.sum_mul_sq_le_sq_mul_sq _ _ _
  have hC : |C| ≤ √A * √B := by
    rw [← Real.sqrt_mul hA, ← Real.sqrt_sq_eq_abs]
    exact Real.sqrt_le_sqrt hCS
  have h1 : (0 : ℝ) ≤ 2 * ((N : ℝ) - 2 * m) := by linarith
  have h2 : (0 : ℝ) ≤ 2 * τ ^ 2 * ((N : ℝ) - 2 * m) := by positivity
  rw [div_pow, Real.sq_sqrt (by positivity), Real.sqrt_div hA, Real.sqrt_div hB,
    div_mul_div_comm, Real.mul_self_sqrt h2]
  have h3 : |C| / (2 * ((N : ℝ) - 2 * m)) / τ ^ 2 = |C| / (2 * τ ^ 2 * ((N : ℝ) - 2 * m)) := by
    rw [div_div]; congr 1; ring
  rw [h3]
  exact div_le_div_of_nonneg_right hC h2

example := gcodev_sq_le (seq [0, 1, 5, 2]) (seq [3, 3, 1, 0]) 4 1 (by norm_num) 1

/-- C19: the bound for the values that the functions return: at every tau the square of the
codeviation is at most the product of the two Allan deviations. -/
theorem gcodev_le (x y : List ℝ) (hlen : x.length = y.length) (rate : ℝ) (taus : TausArg)
    (o : DevOut ℝ) (h : gcodev x y rate "phase" taus = .ok o) :
    ∃ ox oy, oadev x rate "phase" taus = .ok ox ∧ oadev y rate "phase" taus = .ok oy ∧
      ox.taus = o.taus ∧ oy.taus = o.taus ∧ ox.ns = o.ns ∧ oy.ns = o.ns ∧
      List.Forall₂ (fun c (p : ℝ × ℝ) => c ^ 2 ≤ p.1 * p.2) o.devs (ox.devs.zip oy.devs) := by
  rw [gcodev_phase_eq x y hlen] at h
  obtain ⟨ms, hms, h0, rfl⟩ := table_ok h
  rw [oadev_phase_any, oadev_phase_any, ← hlen]
  unfold table
  rw [hms]
  simp only [ok_bind, sweep, if_neg h0]
  refine ⟨_, _, rfl, rfl, rfl, rfl, rfl, rfl, ?_⟩
  rw [List.zip_map', List.forall₂_map_left_iff, List.forall₂_map_right_iff,
    List.forall₂_same]
  intro m hm
  rw [List.mem_filter] at hm
  have hm2 := of_decide_eq_true hm.2
  have := gcodev_sq_le (seq x) (seq y) x.length m (by omega) (m / rate)
  have hs : rateSign rate * rateSign rate = 1 := by
    unfold rateSign; split_ifs <;> norm_num
  calc _ ≤ _ := this
    _ = _ := by
      rw [mul_mul_mul_comm, hs, one_mul]

/-- the hypotheses can be met by series of equal length -/
example : ([0, 1, 4, 2] : List ℝ).length = ([1, 1, 0, 7] : List ℝ).length := rfl

end AT
