import Verif.Props.NoiseId
import Mathlib.Analysis.InnerProductSpace.PiL2
import Mathlib.Analysis.InnerProductSpace.Projection.Basic

/-!
# C47, C58: preparation, dispatch and the noise types outside the known range
-/

namespace AT

open Finset Spec

/-- what is assumed of `np.polyval(np.polyfit(t, x, deg), t)`: the least squares polynomial, i.e.
a polynomial of degree at most `deg` whose residuals are orthogonal to all such polynomials -/
def Spec.IsLSFit (fit : List ℝ → ℕ → ℕ → ℝ) : Prop :=
  ∀ x : List ℝ, ∀ deg : ℕ,
    (∃ c : ℕ → ℝ, ∀ i, fit x deg i = ∑ k ∈ range (deg + 1), c k * (i : ℝ) ^ k) ∧
    ∀ k ≤ deg, ∑ i ∈ range x.length, (x.getD i 0 - fit x deg i) * (i : ℝ) ^ k = 0

/-- such a fit exists for all data -/
theorem exists_isLSFit : ∃ fit, IsLSFit fit := by
  have : ∀ x : List ℝ, ∀ deg : ℕ, ∃ f : ℕ → ℝ,
      (∃ c : ℕ → ℝ, ∀ i, f i = ∑ k ∈ range (deg + 1), c k * (i : ℝ) ^ k) ∧
      ∀ k ≤ deg, ∑ i ∈ range x.length, (x.getD i 0 - f i) * (i : ℝ) ^ k = 0 := by
    intro x deg
    let v : Fin (deg + 1) → EuclideanSpace ℝ (Fin x.length) := fun k =>
      WithLp.toLp 2 (fun i : Fin x.length => ((i : ℕ) : ℝ) ^ (k : ℕ))
    let K := Submodule.span ℝ (Set.range v)
    let y : EuclideanSpace ℝ (Fin x.length) := WithLp.toLp 2 (fun i : Fin x.length => x.getD i 0)
    have hmem : (K.starProjection y) ∈ K := Submodule.starProjection_apply_mem K y
    obtain ⟨c, hc⟩ := (Submodule.mem_span_range_iff_exists_fun ℝ).1 hmem
    refine ⟨fun i => ∑ k : Fin (deg + 1), c k * (i : ℝ) ^ (k : ℕ),
      ⟨fun k => if h : k < deg + 1 then c ⟨k, h⟩ else 0, fun i => ?_⟩, fun k hk => ?_⟩
    · rw [Finset.sum_range]
      refine Finset.sum_congr rfl fun k _ => ?_
      simp only
      rw [dif_pos k.2]
    · have horth : inner ℝ (y - K.starProjection y) (v ⟨k, by omega⟩) = 0 :=
        Submodule.starProjection_inner_eq_zero y _ (Submodule.subset_span ⟨_, rfl⟩)
      rw [← hc] at horth
      rw [Finset.sum_range, ← horth, PiLp.inner_apply]
      refine Finset.sum_congr rfl fun i _ => ?_
      simp [v, y, Finset.sum_apply, mul_comm]
  choose f hf using this
  exact ⟨f, hf⟩

/-- data that is already orthogonal to all polynomials of degree at most `deg` is not changed by
the detrending -/
theorem detrend_orth (fit : List ℝ → ℕ → ℕ → ℝ) (hfit : IsLSFit fit) (x : List ℝ) (deg : ℕ)
    (hx : x ≠ []) (h : ∀ k ≤ deg, ∑ i ∈ range x.length, x.getD i 0 * (i : ℝ) ^ k = 0) :
    detrend fit x deg = .ok x := by
  obtain ⟨⟨c, hc⟩, ho⟩ := hfit x deg
  have hf : ∀ k ≤ deg, ∑ i ∈ range x.length, fit x deg i * (i : ℝ) ^ k = 0 := fun k hk => by
    have h1 := ho k hk
    simp only [sub_mul, sum_sub_distrib, h k hk, zero_sub, neg_eq_zero] at h1
    exact h1
  have hsq : ∑ i ∈ range x.length, fit x deg i ^ 2 = 0 := by
    have : ∀ i, fit x deg i ^ 2 = ∑ k ∈ range (deg + 1), c k * (fit x deg i * (i : ℝ) ^ k) := fun i => by
      rw [pow_two]
      nth_rewrite 2 [hc i]
      rw [mul_sum]
      exact sum_congr rfl fun k _ => by ring
    simp only [this]
    rw [sum_comm]
    refine sum_eq_zero fun k hk => ?_
    rw [← mul_sum, hf k (by have := mem_range.1 hk; omega), mul_zero]
  rw [sum_eq_zero_iff_of_nonneg (fun i _ => sq_nonneg _)] at hsq
  unfold detrend
  rw [if_neg hx]
  congr 1
  refine List.ext_getElem (by simp) fun i h1 h2 => ?_
  rw [List.getElem_mapIdx, pow_eq_zero_iff (two_ne_zero) |>.1 (hsq i (mem_range.2 h2)), sub_zero]

theorem groupMeans_one (y : List ℝ) : groupMeans y 1 = y := by
  unfold groupMeans
  symm
  refine tab_ext (by simp) fun i hi => ?_
  rw [slice_nat]
  simp only [mul_one]
  rw [List.drop_take]
  simp only [Nat.add_sub_cancel_left]
  have hi' : i < y.length := by simpa using hi
  rw [show List.take 1 (List.drop i y) = [y[i]] by
    rw [List.drop_eq_getElem_cons hi']; rfl]
  simp [npMean]

/-- C47: length of the series after the preparation, phase data: every `af`-th point -/
theorem noise_id_prepare_phase (fit : List ℝ → ℕ → ℕ → ℝ) (data : List ℝ) (af : ℕ) (hd : data ≠ []) :
    ∃ x, noise_id_prepare fit data af "phase" = .ok x ∧
      x.length = (data.length + max af 1 - 1) / max af 1 := by
  have hpos := List.length_pos_iff.2 hd
  have hlen : ∀ y : List ℝ, y ≠ [] → ∃ z, detrend fit y 2 = .ok z ∧ z.length = y.length := fun y hy =>
    ⟨_, by rw [detrend, if_neg hy], by simp⟩
  unfold noise_id_prepare
  rw [if_pos rfl]
  by_cases h1 : 1 < af
  · rw [if_pos h1, eq_tab data 0, show (0 : ℤ) = ((0 : ℕ) : ℤ) from rfl, sliceStep_tab _ _ _ _ (by omega)]
    simp only [ok_bind]
    have hp : 0 < (data.length - 0 + af - 1) / af := Nat.div_pos (by omega) (by omega)
    obtain ⟨z, hz, hl⟩ := hlen (tab ((data.length - 0 + af - 1) / af) (fun i => data.getD (0 + i * af) 0))
      (by rw [← List.length_pos_iff, tab_length]; exact hp)
    exact ⟨z, hz, by rw [hl]; simp [max_eq_left h1.le]⟩
  · rw [if_neg h1]
    obtain ⟨z, hz, hl⟩ := hlen data hd
    exact ⟨z, hz, by rw [hl, max_eq_right (by omega)]; simp⟩

example (fit : List ℝ → ℕ → ℕ → ℝ) : ∃ x, noise_id_prepare fit [1, 2, 3, 4, 5] 2 "phase" = .ok x ∧ x.length = 3 :=
  noise_id_prepare_phase fit [1, 2, 3, 4, 5] 2 (by simp)

/-- C47: and for frequency data: the means of groups of `af` points -/
theorem noise_id_prepare_freq (fit : List ℝ → ℕ → ℕ → ℝ) (data : List ℝ) (af : ℕ) (haf : 0 < af)
    (hd : af ≤ data.length) :
    ∃ x, noise_id_prepare fit data af "freq" = .ok x ∧ x.length = data.length / af := by
  have hp : 0 < data.length / af := Nat.div_pos hd haf
  have hne : groupMeans data af ≠ [] := by
    rw [← List.length_pos_iff]; simpa [groupMeans] using hp
  refine ⟨_, by
    rw [noise_id_prepare, if_neg (by decide), if_pos rfl, if_neg (by omega), detrend, if_neg hne], ?_⟩
  simp [groupMeans]

example (fit : List ℝ → ℕ → ℕ → ℝ) : ∃ x, noise_id_prepare fit [1, 2, 3, 4, 5] 2 "freq" = .ok x ∧ x.length = 2 :=
  noise_id_prepare_freq fit [1, 2, 3, 4, 5] 2 (by norm_num) (by simp)

/-- the theorems on the loop apply to 64 samples with averaging factor 2: 32 values remain -/
example (fit : List ℝ → ℕ → ℕ → ℝ) : ∃ d : ℕ, ∃ x, x.length = 32 ∧ d ≤ 2 ∧ stops 0 2 x d ∧
    autocorr_noise_id fit (tab 64 (fun i => (i : ℝ) ^ 3)) 2 "phase" 0 2 = noiseIdResult 2 d (rho (npDiff^[d] x)) := by
  obtain ⟨x, hx, hl⟩ := noise_id_prepare_phase fit (tab 64 (fun i => (i : ℝ) ^ 3)) 2 (by simp [tab, List.range_succ])
  rw [tab_length] at hl
  norm_num at hl
  obtain ⟨d, h1, h2, -, h4⟩ := autocorr_noise_id_eq fit _ x 2 "phase" 0 2 hx (by omega) (by rw [hl]; norm_num)
  refine ⟨d, x, hl, by norm_num at h1; omega, h2, ?_⟩
  rw [h4, if_pos rfl]

/-- C47: phase data whose decimated length is below 30 raises NotImplementedError -/
theorem autocorr_noise_id_short_phase (fit : List ℝ → ℕ → ℕ → ℝ) (data : List ℝ) (af : ℕ)
    (dmin dmax : ℤ) (hd : data ≠ []) (h : (data.length + max af 1 - 1) / max af 1 < 30) :
    autocorr_noise_id fit data af "phase" dmin dmax = .error .notImplementedError := by
  obtain ⟨x, hx, hl⟩ := noise_id_prepare_phase fit data af hd
  exact autocorr_noise_id_short fit data x af "phase" dmin dmax hx (by omega)

example (fit : List ℝ → ℕ → ℕ → ℝ) (x : ℝ) :
    autocorr_noise_id fit (List.replicate 58 x) 2 "phase" 0 2 = .error .notImplementedError :=
  autocorr_noise_id_short_phase fit _ 2 0 2 (by simp) (by simp)

/-- C47: frequency data whose averaged length is below 30 raises NotImplementedError -/
theorem autocorr_noise_id_short_freq (fit : List ℝ → ℕ → ℕ → ℝ) (data : List ℝ) (af : ℕ)
    (dmin dmax : ℤ) (haf : 0 < af) (hd : af ≤ data.length) (h : data.length / af < 30) :
    autocorr_noise_id fit data af "freq" dmin dmax = .error .notImplementedError := by
  obtain ⟨x, hx, hl⟩ := noise_id_prepare_freq fit data af haf hd
  exact autocorr_noise_id_short fit data x af "freq" dmin dmax hx (by omega)

/-! ### integer series -/

theorem acf_int (L : List ℤ) (mu a b : ℤ) (hL : 0 < L.length)
    (hmu : ∑ i ∈ range L.length, L.getD i 0 = L.length * mu)
    (ha : ∑ i ∈ range (L.length - 1), (L.getD i 0 - mu) * (L.getD (i + 1) 0 - mu) = a)
    (hb : ∑ i ∈ range L.length, (L.getD i 0 - mu) ^ 2 = b) :
    acfNum (fun i => (L.map (Int.cast : ℤ → ℝ)).getD i 0) (L.map (Int.cast : ℤ → ℝ)).length = a ∧
    acfDen (fun i => (L.map (Int.cast : ℤ → ℝ)).getD i 0) (L.map (Int.cast : ℤ → ℝ)).length = b := by
  have g : ∀ i, (L.map (Int.cast : ℤ → ℝ)).getD i 0 = (L.getD i 0 : ℤ) := fun i => by
    simp only [List.getD, List.getElem?_map]
    cases L[i]? <;> simp
  have hN : (L.length : ℝ) ≠ 0 := by positivity
  have hm : seqMean (fun i => (L.map (Int.cast : ℤ → ℝ)).getD i 0) (L.map (Int.cast : ℤ → ℝ)).length = mu := by
    rw [seqMean, List.length_map]
    simp only [g]
    rw [← Int.cast_sum, hmu]
    push_cast
    field_simp
  constructor
  · rw [acfNum, hm, ← ha, List.length_map]
    simp only [g]
    push_cast
    rfl
  · rw [acfDen, hm, ← hb, List.length_map]
    simp only [g]
    push_cast
    rfl

theorem rho_int (L : List ℤ) (mu a b : ℤ) (hL : 0 < L.length)
    (hmu : ∑ i ∈ range L.length, L.getD i 0 = L.length * mu)
    (ha : ∑ i ∈ range (L.length - 1), (L.getD i 0 - mu) * (L.getD (i + 1) 0 - mu) = a)
    (hb : ∑ i ∈ range L.length, (L.getD i 0 - mu) ^ 2 = b) (hb0 : 0 < b) (hab : a + b ≠ 0) :
    rho (L.map (Int.cast : ℤ → ℝ)) = some ((a : ℝ) / (a + b)) := by
  obtain ⟨h1, h2⟩ := acf_int L mu a b hL hmu ha hb
  have hc : NonConst (L.map (Int.cast : ℤ → ℝ)) := by
    by_contra hc
    have hne : L.map (Int.cast : ℤ → ℝ) ≠ [] := by
      rw [← List.length_pos_iff]; simpa using hL
    have h3 := lag1_acf_const _ hne hc
    rw [lag1_acf_eq _ hne, h1, h2] at h3
    have : (b : ℝ) ≠ 0 := by exact_mod_cast hb0.ne'
    simp [nvDiv, this] at h3
  unfold rho
  rw [if_pos hc]
  simp only [h1, h2]
  have hbR : (b : ℝ) ≠ 0 := by exact_mod_cast hb0.ne'
  have hbR' : (0 : ℝ) < b := by exact_mod_cast hb0
  have habR : (a : ℝ) + b ≠ 0 := by exact_mod_cast hab
  congr 1
  rw [show 1 + (a : ℝ) / b = (a + b) / b by field_simp; ring, div_div_div_cancel_right₀ hbR]

/-- an alternating series (thirty points of third differences of +1, -1, …), orthogonal to all
quadratic polynomials -/
def altSeries : List ℤ :=
  [1, -4, 7, -8, 8, -8, 8, -8, 8, -8, 8, -8, 8, -8, 8, -8, 8, -8, 8, -8, 8, -8, 8, -8, 8, -8, 8, -7,
    4, -1]

theorem int_orth (L : List ℤ) (k : ℕ)
    (h : ∑ i ∈ range L.length, L.getD i 0 * (i : ℤ) ^ k = 0) :
    ∑ i ∈ range (L.map (Int.cast : ℤ → ℝ)).length,
      (L.map (Int.cast : ℤ → ℝ)).getD i 0 * (i : ℝ) ^ k = 0 := by
  have g : ∀ i, (L.map (Int.cast : ℤ → ℝ)).getD i 0 = (L.getD i 0 : ℤ) := fun i => by
    simp only [List.getD, List.getElem?_map]
    cases L[i]? <;> simp
  rw [List.length_map]
  simp only [g]
  exact_mod_cast h

/-- C47 fails, above: for this series of phase data the identified noise type is +167 -/
theorem autocorr_noise_id_unbounded (fit : List ℝ → ℕ → ℕ → ℝ) (hfit : IsLSFit fit) :
    autocorr_noise_id fit (altSeries.map Int.cast) 1 "phase" 0 2 =
      .ok (167, -2 * (-412 / 5) + 2, 0, -412 / 5) := by
  have hprep : noise_id_prepare fit (altSeries.map Int.cast) 1 "phase" =
      .ok (altSeries.map (Int.cast : ℤ → ℝ)) := by
    rw [noise_id_prepare, if_pos rfl, if_neg (by norm_num)]
    refine detrend_orth fit hfit (altSeries.map Int.cast) 2 (by simp [altSeries]) fun k hk => int_orth _ _ ?_
    obtain rfl | rfl | rfl : k = 0 ∨ k = 1 ∨ k = 2 := by omega
    all_goals decide
  have hrho : rho (altSeries.map (Int.cast : ℤ → ℝ)) = some (-412 / 5) := by
    rw [rho_int altSeries 0 (-1648) 1668 (by decide) (by decide) (by decide) (by decide) (by decide)
      (by decide)]
    norm_num
  obtain ⟨d, -, -, h3, h4⟩ := autocorr_noise_id_eq fit _ _ 1 "phase" 0 2 hprep
    (by simp [altSeries]) (by simp [altSeries])
  have hd : d = 0 := by
    by_contra hd
    refine h3 0 (by omega) ⟨by norm_num, Or.inl ⟨-412 / 5, ?_, by norm_num⟩⟩
    exact hrho
  subst hd
  rw [h4]
  simp only [Function.iterate_zero, id_eq, hrho, noiseIdResult]
  have : npRound (2 * (-412 / 5 : ℝ)) = -165 := by
    rw [npRound_eq_iff]
    refine ⟨by norm_num, fun h => ?_⟩
    norm_num at h
  rw [this]
  norm_num

/-- so the confidence interval of its Allan deviation cannot be computed: NotImplementedError -/
theorem confidence_interval_noiseID_unbounded (ppf : ℝ → ℝ → NV) (fit : List ℝ → ℕ → ℕ → ℝ)
    (hfit : IsLSFit fit) (dev ci : ℝ) :
    confidence_interval_noiseID ppf fit (altSeries.map Int.cast) dev 1 "adev" "phase" ci =
      .error .notImplementedError := by
  unfold confidence_interval_noiseID
  rw [if_neg (by decide)]
  simp only
  rw [autocorr_noise_id_unbounded fit hfit]
  simp only [ok_bind, edf_for, if_true]
  have hN : (altSeries.map (Int.cast : ℤ → ℝ)).length = 30 := by simp [altSeries]
  rw [hN]
  have hM := greenhall_M_eq 2 1 30 false false one_pos (by decide)
  have : edf_greenhall 167 2 1 30 false false = .error .notImplementedError := by
    unfold edf_greenhall
    simp only
    rw [pyAssert_true (by norm_num)]
    simp only [ok_bind]
    rw [hM]
    simp only [ok_bind]
    rw [if_neg (by simp), if_neg (by norm_num), if_neg (by norm_num), if_neg (by norm_num)]
  rw [this]
  rfl

/-- thirty points of a cubic, orthogonal to all linear polynomials -/
def cubicSeries : List ℤ :=
  [-43848, -25704, -10800, 1104, 10248, 16872, 21216, 23520, 24024, 22968, 20592, 17136, 12840, 7944,
    2688, -2688, -7944, -12840, -17136, -20592, -22968, -24024, -23520, -21216, -16872, -10248, -1104,
    10800, 25704, 43848]

def cubicDiff1 : List ℤ :=
  [18144, 14904, 11904, 9144, 6624, 4344, 2304, 504, -1056, -2376, -3456, -4296, -4896, -5256, -5376,
    -5256, -4896, -4296, -3456, -2376, -1056, 504, 2304, 4344, 6624, 9144, 11904, 14904, 18144]

def cubicDiff2 : List ℤ :=
  [-3240, -3000, -2760, -2520, -2280, -2040, -1800, -1560, -1320, -1080, -840, -600, -360, -120, 120,
    360, 600, 840, 1080, 1320, 1560, 1800, 2040, 2280, 2520, 2760, 3000, 3240]

theorem npDiff_int (L : List ℤ) : npDiff (L.map (Int.cast : ℤ → ℝ)) =
    (List.zipWith (· - ·) L.tail L).map (Int.cast : ℤ → ℝ) := by
  unfold npDiff
  rw [← List.map_tail, List.map_zipWith, List.zipWith_map_left, List.zipWith_map_right]
  congr 1
  funext a b
  push_cast
  rfl

/-- C47 fails, below: for this series of frequency data the identified noise type is -5, which
`edf_greenhall` rejects -/
theorem autocorr_noise_id_below (fit : List ℝ → ℕ → ℕ → ℝ) (hfit : IsLSFit fit) :
    autocorr_noise_id fit (cubicSeries.map Int.cast) 1 "freq" 0 2 =
      .ok (-5, -2 * (25 / 53 + 2), 2, 25 / 53) := by
  have hprep : noise_id_prepare fit (cubicSeries.map Int.cast) 1 "freq" =
      .ok (cubicSeries.map (Int.cast : ℤ → ℝ)) := by
    rw [noise_id_prepare, if_neg (by decide), if_pos rfl, if_neg (by norm_num), groupMeans_one]
    refine detrend_orth fit hfit (cubicSeries.map Int.cast) 1 (by simp [cubicSeries]) fun k hk => int_orth _ _ ?_
    obtain rfl | rfl : k = 0 ∨ k = 1 := by omega
    all_goals decide
  have h0 : rho (npDiff^[0] (cubicSeries.map (Int.cast : ℤ → ℝ))) = some (23 / 53) := by
    rw [Function.iterate_zero, id_eq, rho_int cubicSeries 0 9432681984 12303498240 (by decide) (by decide)
      (by decide) (by decide) (by decide) (by decide)]
    norm_num
  have e1 : npDiff^[1] (cubicSeries.map (Int.cast : ℤ → ℝ)) = cubicDiff1.map Int.cast := by
    rw [Function.iterate_one, npDiff_int, show List.zipWith (· - ·) cubicSeries.tail cubicSeries = cubicDiff1 by decide]
  have e2 : npDiff^[2] (cubicSeries.map (Int.cast : ℤ → ℝ)) = cubicDiff2.map Int.cast := by
    rw [show (2 : ℕ) = 1 + 1 from rfl, Function.iterate_succ_apply', e1, npDiff_int,
      show List.zipWith (· - ·) cubicDiff1.tail cubicDiff1 = cubicDiff2 by decide]
  have h1 : rho (npDiff^[1] (cubicSeries.map (Int.cast : ℤ → ℝ))) = some (24 / 53) := by
    rw [e1, rho_int cubicDiff1 3024 1349913600 1631145600 (by decide) (by decide)
      (by decide) (by decide) (by decide) (by decide)]
    norm_num
  have h2 : rho (npDiff^[2] (cubicSeries.map (Int.cast : ℤ → ℝ))) = some (25 / 53) := by
    rw [e2, rho_int cubicDiff2 0 93960000 105235200 (by decide) (by decide)
      (by decide) (by decide) (by decide) (by decide)]
    norm_num
  obtain ⟨d, hd1, hd2, -, h4⟩ := autocorr_noise_id_eq fit _ _ 1 "freq" 0 2 hprep
    (by simp [cubicSeries]) (by simp [cubicSeries])
  have hd : d = 2 := by
    have : d ≤ 2 := by
      have : (d : ℤ) ≤ 2 := by simpa using hd1
      omega
    obtain rfl | rfl | rfl : d = 0 ∨ d = 1 ∨ d = 2 := by omega
    · exfalso
      rcases hd2.2 with ⟨q, h5, h6⟩ | h5
      · rw [h0, Option.some.injEq] at h5; rw [← h5] at h6; norm_num at h6
      · norm_num at h5
    · exfalso
      rcases hd2.2 with ⟨q, h5, h6⟩ | h5
      · rw [h1, Option.some.injEq] at h5; rw [← h5] at h6; norm_num at h6
      · norm_num at h5
    · rfl
  subst hd
  rw [h4, h2]
  simp only [noiseIdResult]
  have : npRound (2 * (25 / 53 : ℝ)) = 1 := by
    rw [npRound_eq_iff]
    refine ⟨by norm_num [abs_le], fun h => ?_⟩
    norm_num [abs_of_neg] at h
  rw [this, if_neg (by decide)]
  norm_num

theorem edf_greenhall_below (d m N : ℕ) (ov md : Bool) (hd : d ≤ 3) :
    edf_greenhall (-5) d m N ov md = .error .assertionError :=
  edf_greenhall_reject _ _ _ _ _ _ (by omega)

/-! ## C58 -/

/-- the deviations for which confidence intervals can be computed: difference order `d`,
overlapping, modified -/
def Spec.ciFlags (dev_type : String) : Option (ℕ × Bool × Bool) :=
  if dev_type = "adev" then some (2, false, false)
  else if dev_type = "oadev" then some (2, true, false)
  else if dev_type = "mdev" then some (2, true, true)
  else if dev_type = "tdev" then some (2, true, true)
  else if dev_type = "hdev" then some (3, false, false)
  else if dev_type = "ohdev" then some (3, true, false)
  else none

theorem confidence_interval_noiseID_flags (ppf : ℝ → ℝ → NV) (fit : List ℝ → ℕ → ℕ → ℝ)
    (x : List ℝ) (dev : ℝ) (af : ℕ) (dev_type data_type : String) (ci : ℝ) (d : ℕ) (ov md : Bool)
    (hf : ciFlags dev_type = some (d, ov, md)) :
    confidence_interval_noiseID ppf fit x dev af dev_type data_type ci = (do
      let r ← autocorr_noise_id fit x af data_type 0 d
      let edf ← edf_greenhall r.1 d af x.length ov md
      .ok (match edf with
        | some e => confidence_interval ppf dev e ci
        | none => (none, none))) := by
  unfold ciFlags at hf
  unfold confidence_interval_noiseID edf_for
  split_ifs at hf with h1 h2 h3 h4 h5 h6
  all_goals
    simp only [Option.some.injEq, Prod.mk.injEq] at hf
    obtain ⟨rfl, rfl, rfl⟩ := hf
    subst dev_type
    simp (decide := true) only [if_true, if_false]
    rfl

/-- C58: for each of the six names the result is the confidence interval for the degrees of
freedom of the identified noise type and of the flags of the deviation; at most `d` (its
difference order) differentiations are made in the noise identification -/
theorem confidence_interval_noiseID_eq (ppf : ℝ → ℝ → NV) (fit : List ℝ → ℕ → ℕ → ℝ) (x : List ℝ)
    (dev : ℝ) (af : ℕ) (dev_type data_type : String) (ci : ℝ) (d : ℕ) (ov md : Bool)
    (hf : ciFlags dev_type = some (d, ov, md)) (alpha_int : ℤ) (rest : ℝ × ℤ × ℝ)
    (hid : autocorr_noise_id fit x af data_type 0 d = .ok (alpha_int, rest)) (edf : ℝ)
    (hedf : edf_greenhall alpha_int d af x.length ov md = .ok (some edf)) :
    confidence_interval_noiseID ppf fit x dev af dev_type data_type ci =
      .ok (confidence_interval ppf dev edf ci) := by
  rw [confidence_interval_noiseID_flags ppf fit x dev af dev_type data_type ci d ov md hf, hid]
  simp only [ok_bind, hedf]

/-- C58: failures of the two steps are passed on -/
theorem confidence_interval_noiseID_error (ppf : ℝ → ℝ → NV) (fit : List ℝ → ℕ → ℕ → ℝ) (x : List ℝ)
    (dev : ℝ) (af : ℕ) (dev_type data_type : String) (ci : ℝ) (d : ℕ) (ov md : Bool)
    (hf : ciFlags dev_type = some (d, ov, md)) :
    (∀ e, autocorr_noise_id fit x af data_type 0 d = .error e →
      confidence_interval_noiseID ppf fit x dev af dev_type data_type ci = .error e) ∧
    (∀ alpha_int rest e, autocorr_noise_id fit x af data_type 0 d = .ok (alpha_int, rest) →
      edf_greenhall alpha_int d af x.length ov md = .error e →
      confidence_interval_noiseID ppf fit x dev af dev_type data_type ci = .error e) := by
  rw [confidence_interval_noiseID_flags ppf fit x dev af dev_type data_type ci d ov md hf]
  constructor
  · intro e h
    rw [h, error_bind]
  · intro a rest e h h'
    rw [h]
    simp only [ok_bind, h', error_bind]

/-- C58: any other name raises NotImplementedError (once the noise type is identified) -/
theorem confidence_interval_noiseID_name (ppf : ℝ → ℝ → NV) (fit : List ℝ → ℕ → ℕ → ℝ) (x : List ℝ)
    (dev : ℝ) (af : ℕ) (dev_type data_type : String) (ci : ℝ)
    (hf : ciFlags dev_type = none) (r : ℤ × ℝ × ℤ × ℝ)
    (hid : autocorr_noise_id fit x af data_type 0 2 = .ok r) :
    confidence_interval_noiseID ppf fit x dev af dev_type data_type ci =
      .error .notImplementedError := by
  unfold ciFlags at hf
  split_ifs at hf with h1 h2 h3 h4 h5 h6
  unfold confidence_interval_noiseID edf_for
  rw [if_neg (by tauto)]
  simp [hid, ok_bind, error_bind, h1, h2, h3, h4, h5, h6]

example (ppf : ℝ → ℝ → NV) (fit : List ℝ → ℕ → ℕ → ℝ) (hfit : IsLSFit fit) :
    confidence_interval_noiseID ppf fit (altSeries.map Int.cast) 1 1 "totdev" "phase" (9 / 10) = .error .notImplementedError :=
  confidence_interval_noiseID_name ppf fit _ _ _ _ _ _ (by decide) _ (autocorr_noise_id_unbounded fit hfit)

/-- the hypothesis can be met, and the six names are recognised -/
example : ciFlags "mdev" = some (2, true, true) ∧ ciFlags "totdev" = none := by decide

end AT
