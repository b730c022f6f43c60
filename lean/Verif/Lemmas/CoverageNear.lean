import Verif.Lemmas.Coverage
import Verif.Lemmas.BlockClt
import Verif.Props.EdfNear

/-!
# Coverage when the degrees of freedom are approximate
-/

namespace AT

open Spec Finset MeasureTheory ProbabilityTheory Filter Topology
open scoped NNReal ENNReal

/-- probability of a symmetric interval under the standard normal law -/
noncomputable def gaussI (x : ℝ) : ℝ := (gaussianReal 0 1).real (Set.Icc (-x) x)

theorem gaussI_eq {x : ℝ} (hx : 0 ≤ x) : gaussI x = ∫ u in (-x)..x, gaussianPDFReal 0 1 u := by
  unfold gaussI
  rw [intervalIntegral.integral_of_le (by linarith), measureReal_def, gaussianReal_apply_eq_integral 0 one_ne_zero,
    ENNReal.toReal_ofReal (integral_nonneg fun u => gaussianPDFReal_nonneg 0 1 u), integral_Icc_eq_integral_Ioc]

theorem gaussI_mono : Monotone gaussI := fun x y h => by
  unfold gaussI
  exact measureReal_mono (Set.Icc_subset_Icc (neg_le_neg h) h)

theorem gaussI_continuous : Continuous gaussI := by
  have e : gaussI = fun x => Phi (max x 0) - Phi (-(max x 0)) + (if x < 0 then gaussI x - gaussI 0 else 0) := by
    funext x
    split_ifs with h
    · rw [max_eq_right h.le]
      have : gaussI 0 = Phi 0 - Phi (-0) := Phi_Icc (by norm_num)
      linarith
    · rw [max_eq_left (not_lt.1 h), add_zero]
      exact Phi_Icc (by linarith [not_lt.1 h])
  have e2 : gaussI = fun x => Phi (max x 0) - Phi (-(max x 0)) := by
    rw [e]
    funext x
    split_ifs with h
    · have h1 : gaussI x = 0 := by
        unfold gaussI
        rw [Set.Icc_eq_empty (by linarith)]
        simp
      have := nullSingletonClass_gaussianReal (μ := 0) (v := 1) one_ne_zero
      have h2 : gaussI 0 = 0 := by
        unfold gaussI
        rw [neg_zero, Set.Icc_self, measureReal_def, measure_singleton, ENNReal.toReal_zero]
      rw [h1, h2]
      simp
    · rw [add_zero]
  rw [e2]
  exact (Phi_continuous.comp (continuous_id.max continuous_const)).sub
    (Phi_continuous.comp (continuous_id.max continuous_const).neg)

/-- the density decreases away from the centre, so shorter intervals lose less than proportionally -/
theorem gaussI_scale {c x : ℝ} (hc0 : 0 < c) (hc1 : c ≤ 1) (hx : 0 ≤ x) : c * gaussI x ≤ gaussI (c * x) := by
  rw [gaussI_eq hx, gaussI_eq (by positivity)]
  have h1 := intervalIntegral.integral_comp_mul_left (a := -x) (b := x) (fun u => gaussianPDFReal 0 1 u) hc0.ne'
  have h2 : ∫ u in (-x)..x, gaussianPDFReal 0 1 u ≤ ∫ u in (-x)..x, gaussianPDFReal 0 1 (c * u) := by
    have hcont : Continuous (gaussianPDFReal 0 1) := by
      unfold gaussianPDFReal
      fun_prop
    refine intervalIntegral.integral_mono_on (by linarith) (hcont.intervalIntegrable _ _)
      ((hcont.comp (by fun_prop)).intervalIntegrable _ _) fun u _ => ?_
    unfold gaussianPDFReal
    refine mul_le_mul_of_nonneg_left (Real.exp_le_exp.2 ?_) (by positivity)
    simp only [NNReal.coe_one, sub_zero, mul_one, mul_pow]
    have : c ^ 2 ≤ 1 := pow_le_one₀ hc0.le hc1
    have h3 : c ^ 2 * u ^ 2 ≤ 1 * u ^ 2 := mul_le_mul_of_nonneg_right this (sq_nonneg u)
    linarith
  have h3 : ∫ u in (-(c * x))..(c * x), gaussianPDFReal 0 1 u = c * ∫ u in (-x)..x, gaussianPDFReal 0 1 (c * u) := by
    rw [h1, smul_eq_mul, ← mul_assoc, mul_inv_cancel₀ hc0.ne', one_mul, mul_neg]
  rw [h3]
  exact mul_le_mul_of_nonneg_left h2 hc0.le

theorem gaussI_scale' {c x : ℝ} (hc1 : 1 ≤ c) (hx : 0 ≤ x) : gaussI (c * x) ≤ c * gaussI x := by
  have hc0 : 0 < c := by linarith
  have h := gaussI_scale (c := c⁻¹) (x := c * x) (by positivity) (inv_le_one_of_one_le₀ hc1) (by positivity)
  rw [← mul_assoc, inv_mul_cancel₀ hc0.ne', one_mul, inv_mul_le_iff₀ hc0] at h
  exact h

/-- shortening the interval makes the probability strictly smaller -/
theorem gaussI_strictMono {x y : ℝ} (hx : 0 ≤ x) (h : x < y) : gaussI x < gaussI y := by
  unfold gaussI
  rw [Phi_Icc (by linarith), Phi_Icc (by linarith)]
  have h1 := Phi_strictMono h
  have h2 := Phi_strictMono (neg_lt_neg h)
  linarith

variable {Ω : Type} [MeasurableSpace Ω] {P : Measure Ω} [IsProbabilityMeasure P] {W : ℕ → Ω → ℝ} {s2 : ℝ≥0}

/-- the probability of covering follows the ratio of the degrees of freedom -/
theorem coverage_follows {ppf : ℝ → ℝ → NV} (hp : Chi2Ppf ppf) {D : ℕ → Ω → ℝ} {σ ci z C : ℝ} (hσ : 0 < σ)
    (h0 : 1 / 2 ≤ ci) (h1 : ci < 1) (hz0 : 0 ≤ z) (hz : gaussI z = ci)
    (hD : ∀ n, AEMeasurable (D n) P) {e e' : ℕ → ℝ} (he : ∀ n, 0 < e n) (he' : ∀ n, 0 < e' n)
    (hinf : Tendsto e' atTop atTop) (hc : ∀ n, √(e n / e' n) ≤ C)
    (hlim : ∀ t, Tendsto (fun n => charFun (P.map (fun ω => √(e n / 2) * (D n ω ^ 2 / σ ^ 2 - 1))) t) atTop
      (𝓝 (charFun (gaussianReal 0 1) t))) :
    Tendsto (fun n => P.real {ω | CiContains ppf (D n ω) (e' n) ci σ} - gaussI (√(e n / e' n) * z)) atTop (𝓝 0) := by
  refine tendsto_of_subseq_tendsto fun ns hns => ?_
  obtain ⟨c, hcm, φ, hφ, hlimc⟩ := (isCompact_Icc (a := (0 : ℝ)) (b := C)).tendsto_subseq
    (x := fun k => √(e (ns k) / e' (ns k))) fun k => ⟨Real.sqrt_nonneg _, hc _⟩
  refine ⟨φ, ?_⟩
  have hsub : Tendsto (fun k => ns (φ k)) atTop atTop := hns.comp hφ.tendsto_atTop
  have key := coverage_tendsto hp (D := fun k => D (ns (φ k))) hσ h0 h1 hz0 hz (fun k => hD _)
    (e := fun k => e (ns (φ k))) (e' := fun k => e' (ns (φ k))) (fun k => he _) (fun k => he' _) (hinf.comp hsub) hlimc hcm.1
    fun t => (hlim t).comp hsub
  have h2 : Tendsto (fun k => gaussI (√(e (ns (φ k)) / e' (ns (φ k))) * z)) atTop (𝓝 (gaussI (c * z))) :=
    (gaussI_continuous.tendsto _).comp (hlimc.mul_const z)
  have h3 := key.sub h2
  rwa [show (gaussianReal 0 1).real (Set.Icc (-(c * z)) (c * z)) = gaussI (c * z) from rfl, sub_self] at h3

/-- the call returns a positive number close to `e` -/
def NumNear (call : Py NV) (e ε : ℝ) : Prop := ∃ r, call = .ok (some r) ∧ 0 < r ∧ |√r - √e| ≤ ε * √e

/-- the degrees of freedom of the mean square of a moving filter -/
noncomputable def filterEdf (A : ℕ → ℝ) (K S M : ℕ) : ℝ := M ^ 2 * filterCov A K S 0 ^ 2 / lagN M (filterCov A K S)

/-- the event depends on the squares only -/
theorem ciContains_sq {ppf : ℝ → ℝ → NV} {d d' e ci σ : ℝ} (hd : d ^ 2 = d' ^ 2) :
    CiContains ppf d e ci σ ↔ CiContains ppf d' e ci σ := by
  unfold CiContains confidence_interval
  simp only [← pow_two, hd]

section filter

variable (h : NormalNoise P W s2) (hs : 0 < s2) {A : ℕ → ℝ} {K S : ℕ} (hK : ∀ k, K ≤ k → A k = 0)
  (g0 : filterCov A K S 0 ≠ 0)

include g0 in
theorem filterEdf_pos {M : ℕ} (hM : 0 < M) : 0 < filterEdf A K S M := by
  have h1 := lagN_ge M hM (filterCov A K S)
  have hM' : (0 : ℝ) < M := by exact_mod_cast hM
  exact div_pos (by positivity) (lt_of_lt_of_le (by positivity) h1)

theorem filterCov_nonneg (A : ℕ → ℝ) (K S : ℕ) : 0 ≤ filterCov A K S 0 := by
  unfold filterCov
  exact sum_nonneg fun k _ => by rw [zero_mul, add_zero]; exact mul_self_nonneg _

include h hs hK g0

/-- what the distance of the degrees of freedom of a mean square says about numbers -/
theorem EdfWithin.num {call : Py NV} {D : Ω → ℝ} {ε : ℝ} (hD : EdfWithin P call D ε) {M : ℕ} (hM : 0 < M) {κ : ℝ} (hκ : 0 < κ)
    (hV : ∀ ω, D ω ^ 2 = κ * ∑ i ∈ range M, (∑ k ∈ range K, A k * W (i * S + k) ω) ^ 2) :
    NumNear call (filterEdf A K S M) ε := by
  obtain ⟨r, e, h1, h2, h3, -, h5⟩ := hD
  have h6 := edf_filter h hs M hM A K S hK g0 κ hκ
  rw [← lagN_eq M hM] at h6
  have e1 : (fun ω => D ω ^ 2) = fun ω => κ * ∑ i ∈ range M, (∑ k ∈ range K, A k * W (i * S + k) ω) ^ 2 := funext hV
  rw [e1] at h3
  have : e = filterEdf A K S M := by rw [h3.2.2, filterEdf, h6.2.2]
  exact ⟨r, h1, h2, this ▸ h5⟩

theorem filterEdf_ge (hS : 0 < S) {M : ℕ} (hM : 0 < M) : (M : ℝ) / (2 * (K + 1)) ≤ filterEdf A K S M := by
  have hs' : (0 : ℝ) < s2 := hs
  have hM' : (0 : ℝ) < M := by exact_mod_cast hM
  have h1 := sqDev_second_le h (S := S) hK (range M) (K + 1) (by nlinarith)
  rw [sqDev_second_range h hK M hM, card_range] at h1
  have h2 : lagN M (filterCov A K S) ≤ filterCov A K S 0 ^ 2 * (M * (2 * ((K : ℝ) + 1))) := by
    push_cast at h1
    have h3 : 0 < 2 * (s2 : ℝ) ^ 2 := by positivity
    nlinarith
  have h4 := lagN_ge M hM (filterCov A K S)
  have h5 : 0 < lagN M (filterCov A K S) := lt_of_lt_of_le (by positivity) h4
  rw [filterEdf, div_le_div_iff₀ (by positivity) h5]
  nlinarith

theorem filter_lim {σ : ℝ} (hσ : 0 < σ) {M : ℕ → ℕ} (hM : ∀ n, 0 < M n) (hMi : Tendsto M atTop atTop) (hS : 0 < S) (t : ℝ)
    {D : ℕ → Ω → ℝ}
    (hD : ∀ n ω, D n ω ^ 2 = σ ^ 2 / (M n * (s2 * filterCov A K S 0)) * ∑ i ∈ range (M n), (∑ k ∈ range K, A k * W (i * S + k) ω) ^ 2) :
    Tendsto (fun n => charFun (P.map (fun ω => √(filterEdf A K S (M n) / 2) * (D n ω ^ 2 / σ ^ 2 - 1))) t) atTop
      (𝓝 (charFun (gaussianReal 0 1) t)) := by
  refine ((filter_clt h hK hs.ne' g0 hS t).comp hMi).congr fun n => ?_
  simp only [Function.comp_apply]
  congr 2
  funext ω
  have hs' : (0 : ℝ) < s2 := hs
  have hM' : (0 : ℝ) < M n := by exact_mod_cast hM n
  have hg : 0 < filterCov A K S 0 := lt_of_le_of_ne (filterCov_nonneg A K S) (Ne.symm g0)
  have hl : 0 < lagN (M n) (filterCov A K S) := lt_of_lt_of_le (by positivity) (lagN_ge (M n) (hM n) _)
  have e1 : √(filterEdf A K S (M n) / 2) = M n * filterCov A K S 0 / √(2 * lagN (M n) (filterCov A K S)) := by
    rw [filterEdf, div_div, mul_comm _ (2 : ℝ), Real.sqrt_div (by positivity), ← mul_pow, Real.sqrt_sq (by positivity)]
  have e2 : √(2 * s2 ^ 2 * lagN (M n) (filterCov A K S)) = s2 * √(2 * lagN (M n) (filterCov A K S)) := by
    rw [show 2 * (s2 : ℝ) ^ 2 * lagN (M n) (filterCov A K S) = s2 ^ 2 * (2 * lagN (M n) (filterCov A K S)) by ring,
      Real.sqrt_mul (by positivity), Real.sqrt_sq hs'.le]
  have hl' : 0 < √(2 * lagN (M n) (filterCov A K S)) := Real.sqrt_pos.2 (by positivity)
  rw [hD, e1, e2]
  unfold sqDev
  rw [sum_sub_distrib, sum_const, card_range, nsmul_eq_mul]
  set q := √(2 * lagN (M n) (filterCov A K S))
  set T := ∑ i ∈ range (M n), (∑ k ∈ range K, A k * W (i * S + k) ω) ^ 2
  set g := filterCov A K S 0
  have hσ2 : σ ≠ 0 := hσ.ne'
  field_simp

/-- the probability of covering follows the ratio of the degrees of freedom -/
theorem filter_follows {ppf : ℝ → ℝ → NV} (hp : Chi2Ppf ppf) {σ ci z C : ℝ} (hσ : 0 < σ) (h0 : 1 / 2 ≤ ci) (h1 : ci < 1)
    (hz0 : 0 ≤ z) (hz : gaussI z = ci) (hS : 0 < S) {M : ℕ → ℕ} (hMi : Tendsto M atTop atTop) {D : ℕ → Ω → ℝ}
    (hD : ∀ᶠ n in atTop, ∀ ω, D n ω ^ 2 = σ ^ 2 / (M n * (s2 * filterCov A K S 0))
      * ∑ i ∈ range (M n), (∑ k ∈ range K, A k * W (i * S + k) ω) ^ 2) {r : ℕ → ℝ} (hC : 0 < C)
    (hr : ∀ᶠ n in atTop, 0 < r n ∧ √(filterEdf A K S (M n) / r n) ≤ C) :
    Tendsto (fun n => P.real {ω | CiContains ppf (D n ω) (r n) ci σ} - gaussI (√(filterEdf A K S (M n) / r n) * z))
      atTop (𝓝 0) := by
  obtain ⟨n0, hn0⟩ := eventually_atTop.1 ((hD.and hr).and (hMi.eventually (eventually_gt_atTop 0)))
  rw [← tendsto_add_atTop_iff_nat n0]
  have hge : ∀ n, n0 ≤ n + n0 := fun n => by omega
  have hpos := fun n => filterEdf_pos (A := A) (K := K) (S := S) g0 (hn0 _ (hge n)).2
  have hMi' : Tendsto (fun n => M (n + n0)) atTop atTop := hMi.comp (tendsto_add_atTop_nat n0)
  have hcoef : ∀ n, 0 ≤ σ ^ 2 / (M (n + n0) * (s2 * filterCov A K S 0)) := fun n => by
    have := filterCov_nonneg A K S
    positivity
  have hsum : ∀ n ω, 0 ≤ ∑ i ∈ range (M (n + n0)), (∑ k ∈ range K, A k * W (i * S + k) ω) ^ 2 := fun n ω =>
    sum_nonneg fun _ _ => sq_nonneg _
  set D' : ℕ → Ω → ℝ := fun n ω => √(σ ^ 2 / (M (n + n0) * (s2 * filterCov A K S 0))
      * ∑ i ∈ range (M (n + n0)), (∑ k ∈ range K, A k * W (i * S + k) ω) ^ 2) with hD'
  have hsq : ∀ n ω, D' n ω ^ 2 = σ ^ 2 / (M (n + n0) * (s2 * filterCov A K S 0))
      * ∑ i ∈ range (M (n + n0)), (∑ k ∈ range K, A k * W (i * S + k) ω) ^ 2 := fun n ω =>
    Real.sq_sqrt (mul_nonneg (hcoef n) (hsum n ω))
  have hmeas : ∀ n, AEMeasurable (D' n) P := fun n => by
    have hW : ∀ i, AEMeasurable (W i) P := fun i => (h.law i).aemeasurable
    refine Real.continuous_sqrt.measurable.comp_aemeasurable (AEMeasurable.const_mul ?_ _)
    refine Finset.aemeasurable_fun_sum _ fun i _ => ?_
    exact (Finset.aemeasurable_fun_sum _ fun k _ => (hW _).const_mul _).pow_const 2
  have hinf : Tendsto (fun n => r (n + n0)) atTop atTop := by
    have h2 : Tendsto (fun n => (M (n + n0) : ℝ) / (2 * (K + 1)) / C ^ 2) atTop atTop :=
      ((tendsto_natCast_atTop_atTop.comp hMi').atTop_div_const (by positivity)).atTop_div_const (by positivity)
    refine tendsto_atTop_mono (fun n => ?_) h2
    obtain ⟨⟨-, h3, h4⟩, h5⟩ := hn0 _ (hge n)
    have h6 := filterEdf_ge h hs hK g0 hS h5
    rw [Real.sqrt_le_left hC.le, div_le_iff₀ h3] at h4
    rw [div_le_iff₀ (by positivity)]
    linarith
  have key := coverage_follows hp (D := D') (C := C) hσ h0 h1 hz0 hz hmeas (e := fun n => filterEdf A K S (M (n + n0)))
    (e' := fun n => r (n + n0)) hpos (fun n => (hn0 _ (hge n)).1.2.1) hinf (fun n => (hn0 _ (hge n)).1.2.2)
    (fun t => filter_lim h hs hK g0 hσ (fun n => (hn0 _ (hge n)).2) hMi' hS t hsq)
  refine key.congr fun n => ?_
  congr 2
  ext ω
  simp only [Set.mem_ofPred_eq]
  exact ciContains_sq (by rw [hsq, (hn0 _ (hge n)).1.1 ω])

/-- the probability of covering when the degrees of freedom are known up to a relative error -/
theorem filter_covers {ppf : ℝ → ℝ → NV} (hp : Chi2Ppf ppf) {σ ci ε : ℝ} (hσ : 0 < σ) (h0 : 1 / 2 ≤ ci) (h1 : ci < 1)
    (hε0 : 0 ≤ ε) (hε : ε < 1) (hS : 0 < S) {M : ℕ → ℕ} (hMi : Tendsto M atTop atTop) {D : ℕ → Ω → ℝ}
    (hD : ∀ᶠ n in atTop, ∀ ω, D n ω ^ 2 = σ ^ 2 / (M n * (s2 * filterCov A K S 0))
      * ∑ i ∈ range (M n), (∑ k ∈ range K, A k * W (i * S + k) ω) ^ 2) {call : ℕ → Py NV}
    (hc : ∀ᶠ n in atTop, NumNear (call n) (filterEdf A K S (M n)) ε) {η : ℝ} (hη : 0 < η) :
    ∀ᶠ n in atTop, ci / (1 + ε) - η ≤ P.real {ω | ∃ r, call n = .ok (some r) ∧ CiContains ppf (D n ω) r ci σ} ∧
      P.real {ω | ∃ r, call n = .ok (some r) ∧ CiContains ppf (D n ω) r ci σ} ≤ ci / (1 - ε) + η := by
  obtain ⟨z, hz0, (hz : gaussI z = ci)⟩ := exists_normal_interval (by linarith : 0 ≤ ci) h1
  have hex : ∀ n, ∃ r : ℝ, NumNear (call n) (filterEdf A K S (M n)) ε →
      call n = .ok (some r) ∧ 0 < r ∧ |√r - √(filterEdf A K S (M n))| ≤ ε * √(filterEdf A K S (M n)) := fun n => by
    by_cases h2 : NumNear (call n) (filterEdf A K S (M n)) ε
    · obtain ⟨r, hr⟩ := h2
      exact ⟨r, fun _ => hr⟩
    · exact ⟨0, fun h3 => absurd h3 h2⟩
  choose r hr using hex
  have hratio : ∀ᶠ n in atTop, 0 < r n ∧ 1 / (1 + ε) ≤ √(filterEdf A K S (M n) / r n) ∧
      √(filterEdf A K S (M n) / r n) ≤ 1 / (1 - ε) := by
    filter_upwards [hc, hMi.eventually (eventually_gt_atTop 0)] with n h2 h3
    obtain ⟨-, h5, h6⟩ := hr n h2
    have h7 := filterEdf_pos (A := A) (K := K) (S := S) g0 h3
    have h8 := Real.sqrt_pos.2 h7
    have h9 := Real.sqrt_pos.2 h5
    rw [abs_le] at h6
    refine ⟨h5, ?_, ?_⟩
    · rw [Real.sqrt_div h7.le, div_le_div_iff₀ (by linarith) h9]
      linarith [h6.2]
    · rw [Real.sqrt_div h7.le, div_le_div_iff₀ h9 (by linarith)]
      linarith [h6.1]
  have key := filter_follows h hs hK g0 hp hσ h0 h1 hz0 hz hS hMi hD (r := r) (C := 1 / (1 - ε))
    (one_div_pos.2 (by linarith)) (hratio.mono fun n hn => ⟨hn.1, hn.2.2⟩)
  rw [Metric.tendsto_atTop] at key
  obtain ⟨n1, hn1⟩ := key η hη
  filter_upwards [hc, hratio, eventually_ge_atTop n1] with n h2 h3 h4
  have h5 := hn1 n h4
  rw [Real.dist_eq, sub_zero, abs_lt] at h5
  have e : {ω | ∃ r, call n = .ok (some r) ∧ CiContains ppf (D n ω) r ci σ} = {ω | CiContains ppf (D n ω) (r n) ci σ} := by
    ext ω
    simp only [Set.mem_ofPred_eq, (hr n h2).1, Except.ok.injEq, Option.some.injEq, exists_eq_left']
  rw [e]
  have hε1 : 0 < 1 + ε := by linarith
  have hε2 : 0 < 1 - ε := by linarith
  have l1 : ci / (1 + ε) ≤ gaussI (√(filterEdf A K S (M n) / r n) * z) := by
    refine le_trans ?_ (gaussI_mono (mul_le_mul_of_nonneg_right h3.2.1 hz0))
    have := gaussI_scale (c := 1 / (1 + ε)) (x := z) (by positivity) (by rw [div_le_one hε1]; linarith) hz0
    rwa [hz, one_div_mul_eq_div] at this
  have l2 : gaussI (√(filterEdf A K S (M n) / r n) * z) ≤ ci / (1 - ε) := by
    refine le_trans (gaussI_mono (mul_le_mul_of_nonneg_right h3.2.2 hz0)) ?_
    have := gaussI_scale' (c := 1 / (1 - ε)) (x := z) (by rw [le_div_iff₀ hε2]; linarith) hz0
    rw [hz] at this
    rwa [one_div_mul_eq_div _ ci] at this
  constructor <;> linarith [h5.1, h5.2]

end filter

end AT
