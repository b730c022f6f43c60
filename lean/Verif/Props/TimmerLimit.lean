import Mathlib.MeasureTheory.Integral.DominatedConvergence
import Mathlib.MeasureTheory.Function.Floor
import Verif.Props.TimmerMean

/-!
# C101: what the Timmer-Koenig noise of a long series is, and the shift of its frequency grid
-/

namespace AT

open Finset Real MeasureTheory Filter Topology
open Spec

/-! ## The frequency grid -/

/-- C101: the grid starts at `1/((n-1) dt)` and ends at `1/(2 dt)`, and the coefficient `k` of the
transform is the frequency `k/(n dt)`: the grid is too high, by almost a whole step at small `k` -/
theorem tkFreq_eq {n : ℕ} (hn : 4 ≤ n) (he : n % 2 = 0) {dt : ℝ} (ht : 0 < dt) (k : ℕ) :
    tkFreq n dt k = k / (n * dt) + (1 - 2 * k / n) / ((n - 1) * dt) := by
  have h1 : (n : ℝ) = 2 * (n / 2 : ℕ) := by exact_mod_cast (by omega : n = 2 * (n / 2))
  have h2 : (0 : ℝ) < (n / 2 : ℕ) := by exact_mod_cast (by omega : 0 < n / 2)
  have h3 : (4 : ℝ) ≤ n := by exact_mod_cast hn
  have h4 : (n : ℝ) - 1 ≠ 0 := by linarith
  have h5 : ((n / 2 : ℕ) : ℝ) = n / 2 := by linarith
  unfold tkFreq
  rw [h5]
  have : (n : ℝ) ≠ 0 := by linarith
  field_simp
  ring

theorem tkFreq_ge {n : ℕ} (hn : 4 ≤ n) (he : n % 2 = 0) {dt : ℝ} (ht : 0 < dt) {k : ℕ} (hk : 2 * k ≤ n) :
    k / (n * dt) ≤ tkFreq n dt k := by
  rw [tkFreq_eq hn he ht]
  have h3 : (4 : ℝ) ≤ n := by exact_mod_cast hn
  have hk' : (2 : ℝ) * k ≤ n := by exact_mod_cast hk
  have h4 : 0 ≤ 1 - 2 * (k : ℝ) / n := by
    rw [sub_nonneg, div_le_one (by linarith)]; exact hk'
  have : 0 ≤ (1 - 2 * (k : ℝ) / n) / ((n - 1) * dt) := div_nonneg h4 (mul_nonneg (by linarith) ht.le)
  linarith

theorem tkFreq_gt {n : ℕ} (hn : 4 ≤ n) (he : n % 2 = 0) {dt : ℝ} (ht : 0 < dt) {k : ℕ} (hk : 2 * k < n) :
    k / (n * dt) < tkFreq n dt k := by
  rw [tkFreq_eq hn he ht]
  have h3 : (4 : ℝ) ≤ n := by exact_mod_cast hn
  have hk' : (2 : ℝ) * k < n := by exact_mod_cast hk
  have h4 : 0 < 1 - 2 * (k : ℝ) / n := by
    rw [sub_pos, div_lt_one (by linarith)]; exact hk'
  have : 0 < (1 - 2 * (k : ℝ) / n) / ((n - 1) * dt) := div_pos h4 (mul_pos (by linarith) ht)
  linarith

theorem tkFreq_le {n : ℕ} (hn : 4 ≤ n) (he : n % 2 = 0) {dt : ℝ} (ht : 0 < dt) {k : ℕ} (hk : 2 * k ≤ n) :
    tkFreq n dt k ≤ 1 / (2 * dt) := by
  have h1 : (n : ℝ) = 2 * (n / 2 : ℕ) := by exact_mod_cast (by omega : n = 2 * (n / 2))
  have h2 : (0 : ℝ) < (n / 2 : ℕ) := by exact_mod_cast (by omega : 0 < n / 2)
  have h3 : (4 : ℝ) ≤ n := by exact_mod_cast hn
  have hk' : (k : ℝ) ≤ (n / 2 : ℕ) := by exact_mod_cast (by omega : k ≤ n / 2)
  have h5 : 1 / (((n : ℝ) - 1) * dt) ≤ 1 / (2 * dt) :=
    one_div_le_one_div_of_le (by positivity) (mul_le_mul_of_nonneg_right (by linarith) ht.le)
  unfold tkFreq
  have h6 : (k : ℝ) * ((1 / (2 * dt) - 1 / (((n : ℝ) - 1) * dt)) / (n / 2 : ℕ)) ≤
      1 / (2 * dt) - 1 / (((n : ℝ) - 1) * dt) := by
    rw [mul_div_assoc', div_le_iff₀ h2, mul_comm]
    exact mul_le_mul_of_nonneg_left hk' (by linarith)
  linarith

/-- the expected density that `tk_numpy_psd` gives below the Nyquist frequency, for a single power law -/
noncomputable def Spec.tkGot (c a : ℝ) (n : ℕ) (dt : ℝ) (k : ℕ) : ℝ :=
  ((n : ℝ) - 1) / n * (c * tkFreq n dt k ^ a / (2 * π * tkFreq n dt k) ^ 2)

/-- the density that was asked for at the frequency `k/(n dt)` -/
noncomputable def Spec.tkWanted (c a : ℝ) (n : ℕ) (dt : ℝ) (k : ℕ) : ℝ :=
  c * (k / (n * dt)) ^ a / (2 * π * (k / (n * dt))) ^ 2

theorem pow_law (c a f : ℝ) (hf : 0 < f) : c * f ^ a / (2 * π * f) ^ 2 = c / (4 * π ^ 2) * f ^ (a - 2) := by
  rw [rpow_sub hf, rpow_two]
  have := pi_pos
  field_simp
  try ring

/-- C101: with an exponent below 2 every coefficient below the Nyquist frequency has too little power -/
theorem tk_low {c a : ℝ} (hc : 0 < c) (ha : a < 2) {n : ℕ} (hn : 4 ≤ n) (he : n % 2 = 0) {dt : ℝ} (ht : 0 < dt)
    {k : ℕ} (h1 : 1 ≤ k) (hk : 2 * k < n) : tkGot c a n dt k < tkWanted c a n dt k := by
  have hf : (0 : ℝ) < k / (n * dt) :=
    div_pos (by exact_mod_cast h1) (mul_pos (by exact_mod_cast (by omega : 0 < n)) ht)
  have hg := tkFreq_gt hn he ht hk
  unfold tkGot tkWanted
  rw [pow_law c a _ hf, pow_law c a _ (hf.trans hg)]
  have h2 : tkFreq n dt k ^ (a - 2) < (k / (n * dt)) ^ (a - 2) :=
    rpow_lt_rpow_of_neg hf hg (by linarith)
  have h3 : 0 < tkFreq n dt k ^ (a - 2) := rpow_pos_of_pos (hf.trans hg) _
  have h4 : ((n : ℝ) - 1) / n ≤ 1 := by
    rw [div_le_one (by exact_mod_cast (by omega : 0 < n))]; linarith
  have hq : 0 < c / (4 * π ^ 2) := by have := pi_pos; positivity
  calc ((n : ℝ) - 1) / n * (c / (4 * π ^ 2) * tkFreq n dt k ^ (a - 2))
      ≤ 1 * (c / (4 * π ^ 2) * tkFreq n dt k ^ (a - 2)) :=
        mul_le_mul_of_nonneg_right h4 (mul_pos hq h3).le
    _ < _ := by rw [one_mul]; exact mul_lt_mul_of_pos_left h2 hq

/-- C101: in a long series the coefficient `k` has `((k+1)/k)^(α-2)` times the power: a quarter of it at
`k = 1` for white FM, a sixteenth of it for random walk FM -/
theorem tk_low_ratio {c : ℝ} (hc : 0 < c) (a : ℝ) {dt : ℝ} (ht : 0 < dt) {k : ℕ} (h1 : 1 ≤ k) :
    Tendsto (fun p : ℕ => tkGot c a (2 * p) dt k / tkWanted c a (2 * p) dt k) atTop
      (𝓝 ((((k : ℝ) + 1) / k) ^ (a - 2))) := by
  have hk : (0 : ℝ) < k := by exact_mod_cast h1
  have hi : Tendsto (fun p : ℕ => ((p : ℝ))⁻¹) atTop (𝓝 0) := tendsto_inv_atTop_nhds_zero_nat
  -- the ratio as a function of `1/p`
  have e : (fun p : ℕ => (1 - (p : ℝ)⁻¹ / 2) *
      (1 + (1 - k * (p : ℝ)⁻¹) / (k * (1 - (p : ℝ)⁻¹ / 2))) ^ (a - 2)) =ᶠ[atTop]
      fun p : ℕ => tkGot c a (2 * p) dt k / tkWanted c a (2 * p) dt k := by
    filter_upwards [eventually_ge_atTop (k + 2)] with p hp
    have hp0 : (0 : ℝ) < p := by exact_mod_cast (by omega : 0 < p)
    have hp2 : (k : ℝ) + 2 ≤ p := by exact_mod_cast hp
    have hn0 : ((2 * p : ℕ) : ℝ) = 2 * p := by push_cast; ring
    have hf : (0 : ℝ) < k / ((2 * p : ℕ) * dt) := div_pos hk (by rw [hn0]; positivity)
    have hg := tkFreq_gt (n := 2 * p) (by omega) (by omega) ht (k := k) (by omega)
    unfold tkGot tkWanted
    rw [pow_law c a _ hf, pow_law c a _ (hf.trans hg)]
    have h3 : (tkFreq (2 * p) dt k / (k / ((2 * p : ℕ) * dt))) =
        1 + (1 - k * (p : ℝ)⁻¹) / (k * (1 - (p : ℝ)⁻¹ / 2)) := by
      rw [tkFreq_eq (by omega) (by omega) ht, hn0]
      have h4 : (2 * (p : ℝ) - 1) ≠ 0 := by linarith
      have h5 : (1 - (p : ℝ)⁻¹ / 2) = (2 * p - 1) / (2 * p) := by field_simp
      have h6 : (1 - (k : ℝ) * (p : ℝ)⁻¹) = (p - k) / p := by field_simp
      rw [h5, h6]
      field_simp
      try ring
    rw [← h3, div_rpow (hf.trans hg).le hf.le, hn0]
    have h7 := (rpow_pos_of_pos hf (a - 2)).ne'
    rw [hn0] at h7
    have := pi_pos
    field_simp
  refine Tendsto.congr' e ?_
  have h1' : Tendsto (fun p : ℕ => (1 - (p : ℝ)⁻¹ / 2)) atTop (𝓝 1) := by
    simpa using tendsto_const_nhds (x := (1 : ℝ)) |>.sub (hi.div_const 2)
  have h2 : Tendsto (fun p : ℕ => 1 + (1 - k * (p : ℝ)⁻¹) / (k * (1 - (p : ℝ)⁻¹ / 2))) atTop
      (𝓝 (((k : ℝ) + 1) / k)) := by
    have h3 : Tendsto (fun p : ℕ => (1 - k * (p : ℝ)⁻¹)) atTop (𝓝 1) := by
      simpa using tendsto_const_nhds (x := (1 : ℝ)) |>.sub (hi.const_mul (k : ℝ))
    have h4 := (h3.div (h1'.const_mul (k : ℝ)) (by simpa using hk.ne')).const_add 1
    refine (congrArg (fun z => Tendsto _ atTop (𝓝 z)) ?_).mp h4
    field_simp
  have h5 := h1'.mul (h2.rpow_const (p := a - 2) (Or.inl (by positivity)))
  simpa using h5

/-! ## Long series -/

/-- a mean over `1..p` is the integral of a step function -/
theorem step_integral (G : ℕ → ℝ) (p : ℕ) (hp : 0 < p) :
    ∫ u in (0 : ℝ)..1, G ⌈u * p⌉₊ = (∑ k ∈ range p, G (k + 1)) / p := by
  have hp0 : (0 : ℝ) < p := by exact_mod_cast hp
  have hle : ∀ k : ℕ, (k : ℝ) / p ≤ (k + 1 : ℕ) / p := fun k =>
    div_le_div_of_nonneg_right (by push_cast; linarith) hp0.le
  have hc : ∀ k : ℕ, Set.EqOn (fun u : ℝ => G ⌈u * p⌉₊) (fun _ => G (k + 1))
      (Set.uIoc ((k : ℝ) / p) ((k + 1 : ℕ) / p)) := by
    intro k u hu
    rw [Set.uIoc_of_le (hle k)] at hu
    have : ⌈u * p⌉₊ = k + 1 := by
      rw [Nat.ceil_eq_iff (by omega)]
      refine ⟨?_, (le_div_iff₀ hp0).1 hu.2⟩
      rw [Nat.add_sub_cancel]
      exact (div_lt_iff₀ hp0).1 hu.1
    simp only [this]
  have hi : ∀ k < p, IntervalIntegrable (fun u : ℝ => G ⌈u * p⌉₊) volume ((k : ℝ) / p) ((k + 1 : ℕ) / p) :=
    fun k _ => (intervalIntegrable_const (c := G (k + 1))).congr fun u hu => (hc k hu).symm
  have h := intervalIntegral.sum_integral_adjacent_intervals (a := fun k : ℕ => (k : ℝ) / p) hi
  simp only [Nat.cast_zero, zero_div, div_self hp0.ne'] at h
  rw [← h, sum_div]
  refine sum_congr rfl fun k _ => ?_
  rw [intervalIntegral.integral_congr_ae (ae_of_all _ fun u hu => hc k hu), intervalIntegral.integral_const]
  push_cast
  rw [smul_eq_mul]
  field_simp
  ring

/-- bounded means over finer and finer grids tend to the integral of the pointwise limit -/
theorem grid_limit (G : ℕ → ℕ → ℝ) (g : ℝ → ℝ) (C : ℝ)
    (hC : ∀ᶠ p in atTop, ∀ k, 1 ≤ k → k ≤ p → |G p k| ≤ C)
    (hg : ∀ᵐ u : ℝ, 0 < u → u < 1 → Tendsto (fun p : ℕ => G p ⌈u * p⌉₊) atTop (𝓝 (g u))) :
    Tendsto (fun p : ℕ => (∑ k ∈ range p, G p (k + 1)) / p) atTop (𝓝 (∫ u in (0 : ℝ)..1, g u)) := by
  have h := intervalIntegral.tendsto_integral_filter_of_dominated_convergence (μ := volume) (a := 0) (b := 1)
    (F := fun (p : ℕ) (u : ℝ) => G p ⌈u * p⌉₊) (f := g) (l := atTop) (fun _ => C)
    (Eventually.of_forall fun p => by
      have : Measurable (fun u : ℝ => G p ⌈u * p⌉₊) :=
        (measurable_from_nat (f := G p)).comp (measurable_id.mul_const (p : ℝ)).nat_ceil
      exact this.aestronglyMeasurable)
    (by
      filter_upwards [hC, eventually_ge_atTop 1] with p hp hp1
      refine ae_of_all _ fun u hu => ?_
      rw [Set.uIoc_of_le zero_le_one] at hu
      have hp0 : (0 : ℝ) < p := by exact_mod_cast hp1
      refine hp _ (Nat.ceil_pos.2 (mul_pos hu.1 hp0)) (Nat.ceil_le.2 ?_)
      have := mul_le_mul_of_nonneg_right hu.2 hp0.le
      linarith)
    intervalIntegrable_const
    (by
      have h1 : ∀ᵐ u : ℝ, u ≠ 1 := by simp [ae_iff]
      filter_upwards [hg, h1] with u hu hne huI
      rw [Set.uIoc_of_le zero_le_one] at huI
      exact hu huI.1 (lt_of_le_of_ne huI.2 hne))
  refine Tendsto.congr' ?_ h
  filter_upwards [eventually_ge_atTop 1] with p hp
  exact step_integral (G p) p hp

theorem tkFreq_tendsto {dt : ℝ} {u : ℝ} (hu : 0 < u) :
    Tendsto (fun p : ℕ => tkFreq (2 * p) dt ⌈u * p⌉₊) atTop (𝓝 (u / (2 * dt))) := by
  have h1 : Tendsto (fun p : ℕ => (⌈u * p⌉₊ : ℝ) / p) atTop (𝓝 u) :=
    (tendsto_nat_ceil_mul_div_atTop hu.le).comp tendsto_natCast_atTop_atTop
  have h2 : Tendsto (fun p : ℕ => 1 / ((((2 * p : ℕ) : ℝ) - 1) * dt)) atTop (𝓝 0) := by
    have : Tendsto (fun p : ℕ => (((2 * p : ℕ) : ℝ) - 1)) atTop atTop := by
      refine tendsto_atTop_add_const_right _ (-1) ?_
      exact tendsto_natCast_atTop_atTop.comp (tendsto_id.const_mul_atTop' (by norm_num))
    have h3 := (tendsto_inv_atTop_zero.comp this).mul_const (1 / dt)
    rw [zero_mul] at h3
    refine h3.congr fun p => ?_
    simp only [Function.comp]
    rw [one_div, one_div, mul_inv]
  have h4 := h2.add (h1.mul ((tendsto_const_nhds (x := 1 / (2 * dt))).sub h2))
  rw [sub_zero, zero_add] at h4
  rw [show u / (2 * dt) = u * (1 / (2 * dt)) by ring]
  refine h4.congr fun p => ?_
  unfold tkFreq
  rw [show 2 * p / 2 = p by omega]
  ring

/-- the limit of the sums over the frequencies, for weights that vanish fast enough at zero
frequency -/
theorem tk_limit {S V : ℝ → ℝ} {C K dt : ℝ} (ht : 0 < dt) (r : ℕ) {N : Set ℝ} (hN : N.Countable)
    (hS : ∀ f, 0 < f → f ∉ N → ContinuousAt S f)
    (hC : ∀ f, 0 < f → f ≤ 1 / (2 * dt) → |S f| * f ^ r ≤ C)
    (hV : ∀ x, 0 < x → x < 1 / 2 → ContinuousAt V x)
    (hK : ∀ x, 0 < x → x ≤ 1 / 2 → |V x| ≤ K * x ^ (r + 2)) :
    Tendsto (fun p : ℕ => tkSum S (2 * p) dt (fun k => V (k / (2 * p : ℕ)))) atTop
      (𝓝 (∫ f in (0 : ℝ)..1 / (2 * dt), S f / (2 * π * f) ^ 2 * V (dt * f))) := by
  have hK0 : 0 ≤ K := by
    have := hK (1 / 2) (by norm_num) le_rfl
    have h2 := abs_nonneg (V (1 / 2))
    exact nonneg_of_mul_nonneg_left (h2.trans this) (by positivity)
  have hπ := pi_pos
  let G : ℕ → ℕ → ℝ := fun p k => p * (tkPower S (2 * p) dt k * V (k / (2 * p : ℕ)))
  let g : ℝ → ℝ := fun u => 1 / (2 * dt) * (S (u / (2 * dt)) / (2 * π * (u / (2 * dt))) ^ 2 * V (dt * (u / (2 * dt))))
  have hlim : Tendsto (fun p : ℕ => (∑ k ∈ range p, G p (k + 1)) / p) atTop (𝓝 (∫ u in (0 : ℝ)..1, g u)) := by
    refine grid_limit G g (1 / (2 * dt) * (C / (2 * π) ^ 2 * (K * dt ^ (r + 2)))) ?_ ?_
    · filter_upwards [eventually_ge_atTop 2] with p hp k h1 hk
      have hp0 : (2 : ℝ) ≤ p := by exact_mod_cast hp
      have hk0 : (0 : ℝ) < k := by exact_mod_cast h1
      have hn0 : ((2 * p : ℕ) : ℝ) = 2 * p := by push_cast; ring
      have hF := tkFreq_pos (2 * p) dt k (by omega) (by omega) ht
      have hge := tkFreq_ge (n := 2 * p) (by omega) (by omega) ht (k := k) (by omega)
      have hle := tkFreq_le (n := 2 * p) (by omega) (by omega) ht (k := k) (by omega)
      have hCf := hC _ hF hle
      set F := tkFreq (2 * p) dt k
      have hx : (0 : ℝ) < k / (2 * p : ℕ) := by rw [hn0]; positivity
      have hx2 : (k : ℝ) / (2 * p : ℕ) ≤ 1 / 2 := by
        have hk' : (k : ℝ) ≤ p := by exact_mod_cast hk
        rw [hn0, div_le_div_iff₀ (by linarith) (by norm_num)]
        linarith
      have hxF : (k : ℝ) / (2 * p : ℕ) ≤ dt * F := by
        have := mul_le_mul_of_nonneg_left hge ht.le
        refine le_trans (le_of_eq ?_) this
        rw [hn0]
        field_simp
      have hVk : |V (k / (2 * p : ℕ))| ≤ K * (dt * F) ^ (r + 2) :=
        (hK _ hx hx2).trans (mul_le_mul_of_nonneg_left (pow_le_pow_left₀ hx.le hxF (r + 2)) hK0)
      have e : G p k = (((2 * p : ℕ) : ℝ) - 1) / (2 * p : ℕ) * (if 2 * k = 2 * p then 1 / 4 else 1) *
          (1 / (2 * dt) * (S F / (2 * π * F) ^ 2 * V (k / (2 * p : ℕ)))) := by
        show (p : ℝ) * (tkPower S (2 * p) dt k * _) = _
        unfold tkPower
        rw [show tkFreq (2 * p) dt k = F from rfl, hn0]
        have : (p : ℝ) ≠ 0 := by linarith
        field_simp
        try ring
      have h1' : |(((2 * p : ℕ) : ℝ) - 1) / (2 * p : ℕ) * (if 2 * k = 2 * p then (1 / 4 : ℝ) else 1)| ≤ 1 := by
        rw [abs_mul]
        refine mul_le_one₀ ?_ (abs_nonneg _) ?_
        · rw [hn0, abs_of_nonneg (div_nonneg (by linarith) (by linarith)), div_le_one (by linarith)]
          linarith
        · split_ifs <;> norm_num
      rw [e, abs_mul]
      have h2 : |1 / (2 * dt) * (S F / (2 * π * F) ^ 2 * V (k / (2 * p : ℕ)))| ≤
          1 / (2 * dt) * (C / (2 * π) ^ 2 * (K * dt ^ (r + 2))) := by
        rw [abs_mul, abs_of_pos (by positivity : 0 < 1 / (2 * dt)), abs_mul, abs_div,
          abs_of_pos (by positivity : 0 < (2 * π * F) ^ 2)]
        refine mul_le_mul_of_nonneg_left ?_ (by positivity)
        calc |S F| / (2 * π * F) ^ 2 * |V (k / (2 * p : ℕ))|
            ≤ |S F| / (2 * π * F) ^ 2 * (K * (dt * F) ^ (r + 2)) := mul_le_mul_of_nonneg_left hVk (by positivity)
          _ = (|S F| * F ^ r) / (2 * π) ^ 2 * (K * dt ^ (r + 2)) := by rw [mul_pow dt F, pow_add F]; field_simp
          _ ≤ _ := mul_le_mul_of_nonneg_right (div_le_div_of_nonneg_right hCf (by positivity)) (by positivity)
      calc _ ≤ 1 * |1 / (2 * dt) * (S F / (2 * π * F) ^ 2 * V (k / (2 * p : ℕ)))| :=
            mul_le_mul_of_nonneg_right h1' (abs_nonneg _)
        _ ≤ _ := by rw [one_mul]; exact h2
    · have hd : 0 < 2 * dt := by positivity
      have hN' : ((fun u : ℝ => u / (2 * dt)) ⁻¹' N).Countable :=
        hN.preimage_of_injOn fun a _ b _ hab => (div_left_inj' hd.ne').1 hab
      filter_upwards [hN'.ae_notMem volume] with u hu h0 h1
      have hcS := hS _ (div_pos h0 hd) hu
      have hF := tkFreq_tendsto (dt := dt) h0
      have hk : Tendsto (fun p : ℕ => (⌈u * p⌉₊ : ℝ) / p) atTop (𝓝 u) :=
        (tendsto_nat_ceil_mul_div_atTop h0.le).comp tendsto_natCast_atTop_atTop
      have hk2 : Tendsto (fun p : ℕ => (⌈u * p⌉₊ : ℝ) / (2 * p : ℕ)) atTop (𝓝 (u / 2)) := by
        refine (hk.div_const 2).congr fun p => ?_
        push_cast
        rw [div_div, mul_comm (p : ℝ)]
      have hV' := (hV (u / 2) (by linarith) (by linarith)).tendsto.comp hk2
      have hS2 := hcS.tendsto.comp hF
      have hden : Tendsto (fun p : ℕ => (2 * π * tkFreq (2 * p) dt ⌈u * p⌉₊) ^ 2) atTop
          (𝓝 ((2 * π * (u / (2 * dt))) ^ 2)) := (hF.const_mul _).pow 2
      have hn : Tendsto (fun p : ℕ => 1 - (p : ℝ)⁻¹ / 2) atTop (𝓝 1) := by
        simpa using tendsto_const_nhds (x := (1 : ℝ)) |>.sub (tendsto_inv_atTop_nhds_zero_nat.div_const 2)
      have hall := hn.mul ((tendsto_const_nhds (x := 1 / (2 * dt))).mul
        ((hS2.div hden (by positivity)).mul hV'))
      have eg : g u = 1 * (1 / (2 * dt) * (S (u / (2 * dt)) / (2 * π * (u / (2 * dt))) ^ 2 * V (u / 2))) := by
        show 1 / (2 * dt) * _ = _
        rw [one_mul, show dt * (u / (2 * dt)) = u / 2 by field_simp]
      rw [eg]
      refine Tendsto.congr' ?_ hall
      filter_upwards [eventually_ge_atTop 2, hk.eventually (gt_mem_nhds h1)] with p hp hlt
      have hp0 : (0 : ℝ) < p := by exact_mod_cast (by omega : 0 < p)
      have hne : ¬ 2 * ⌈u * p⌉₊ = 2 * p := by
        intro h
        have : (⌈u * p⌉₊ : ℝ) = p := by exact_mod_cast (by omega : ⌈u * p⌉₊ = p)
        rw [this, div_self hp0.ne'] at hlt
        exact lt_irrefl _ hlt
      show _ = (p : ℝ) * (tkPower S (2 * p) dt _ * _)
      unfold tkPower
      rw [if_neg hne]
      simp only [Function.comp, Pi.div_apply]
      have hn0 : ((2 * p : ℕ) : ℝ) = 2 * p := by push_cast; ring
      rw [hn0]
      have hF0 := (tkFreq_pos (2 * p) dt ⌈u * p⌉₊ (by omega) (by
        have : (⌈u * p⌉₊ : ℝ) < p := by rwa [div_lt_one hp0] at hlt
        have : ⌈u * p⌉₊ < p := by exact_mod_cast this
        omega) ht).ne'
      generalize tkFreq (2 * p) dt ⌈u * p⌉₊ = F at hF0 ⊢
      field_simp
      try ring
  have eI : ∫ u in (0 : ℝ)..1, g u = ∫ f in (0 : ℝ)..1 / (2 * dt), S f / (2 * π * f) ^ 2 * V (dt * f) := by
    show ∫ u in (0 : ℝ)..1, 1 / (2 * dt) * _ = _
    rw [intervalIntegral.integral_const_mul,
      intervalIntegral.integral_comp_div (fun f => S f / (2 * π * f) ^ 2 * V (dt * f)) (by positivity : 2 * dt ≠ 0),
      smul_eq_mul, ← mul_assoc, one_div_mul_cancel (by positivity), one_mul, zero_div]
  rw [← eI]
  refine Tendsto.congr' ?_ hlim
  filter_upwards [eventually_ge_atTop 1] with p hp
  have hp0 : (p : ℝ) ≠ 0 := by exact_mod_cast (by omega : p ≠ 0)
  show (∑ k ∈ range p, (p : ℝ) * _) / p = _
  rw [← mul_sum, mul_div_cancel_left₀ _ hp0]
  unfold tkSum
  rw [show 2 * p / 2 = p by omega]

/-! ## The density of the code -/

/-- the density is continuous except at the nodes -/
theorem tkS_continuous (f_nodes h alpha : List ℝ) (hl : h.length = f_nodes.length + 1)
    (ha : alpha.length = f_nodes.length + 1) (hs : f_nodes.Pairwise (· < ·)) (f : ℝ) (hf : 0 < f)
    (hne : f ∉ f_nodes) : ContinuousAt (tkS f_nodes h alpha) f := by
  obtain ⟨k, h0, h1, h2⟩ := exists_segment f_nodes hs f
  have hev : (fun g : ℝ => h.getD k 0 * g ^ alpha.getD k 0) =ᶠ[𝓝 f] tkS f_nodes h alpha := by
    have e1 : ∀ᶠ g in 𝓝 f, ∀ j ∈ range k, f_nodes.getD j 0 ≤ g := by
      rw [Finset.eventually_all]
      intro j hj
      have hj' := mem_range.1 hj
      have hlt : f_nodes.getD j 0 < f := by
        refine lt_of_le_of_ne (h1 j hj') fun he => hne ?_
        rw [← he, List.getD_eq_getElem _ _ (by omega)]
        exact List.getElem_mem _
      exact (lt_mem_nhds hlt).mono fun g hg => hg.le
    have e2 : ∀ᶠ g in 𝓝 f, ∀ j ∈ Finset.Ico k f_nodes.length, g < f_nodes.getD j 0 := by
      rw [Finset.eventually_all]
      intro j hj
      have hj' := Finset.mem_Ico.1 hj
      exact gt_mem_nhds (h2 j hj'.1 hj'.2)
    have e3 : ∀ᶠ g in 𝓝 f, f_nodes = [] ∨ g ≠ f_nodes.getLastD 0 := by
      by_cases hn : f_nodes = []
      · exact Eventually.of_forall fun g => Or.inl hn
      · have : f ≠ f_nodes.getLastD 0 := by
          intro he
          apply hne
          have hp : 0 < f_nodes.length := List.length_pos_iff.2 hn
          rw [he, getLastD_eq, List.getD_eq_getElem _ _ (by omega)]
          exact List.getElem_mem _
        exact (isOpen_ne.eventually_mem this).mono fun g hg => Or.inr hg
    filter_upwards [e1, e2, e3] with g g1 g2 g3
    exact (tkSy_eq_partial f_nodes h alpha hl ha g k
      ⟨h0, fun j hj => g1 j (mem_range.2 hj), fun j hj hj' => g2 j (Finset.mem_Ico.2 ⟨hj, hj'⟩)⟩ g3).symm
  refine ContinuousAt.congr ?_ hev
  exact continuousAt_const.mul (continuousAt_id.rpow_const (Or.inl hf.ne'))

/-- exponents of `-r` and more give a density at most of the order `f^(-r)` -/
theorem tkS_bound (f_nodes h alpha : List ℝ) (hl : h.length = f_nodes.length + 1)
    (ha : alpha.length = f_nodes.length + 1) (r : ℕ) (b : ℝ) (hb : 0 < b) (hr : ∀ a ∈ alpha, -(r : ℝ) ≤ a) :
    ∃ C, ∀ f, 0 < f → f ≤ b → |tkS f_nodes h alpha f| * f ^ r ≤ C := by
  have hd : ∀ i, -(r : ℝ) ≤ (alpha ++ [alpha.getLastD 0]).getD i 0 := by
    have hd0 : ∀ l : List ℝ, (∀ v ∈ l, -(r : ℝ) ≤ v) → ∀ i, -(r : ℝ) ≤ l.getD i 0 := fun l hl i => by
      rcases Nat.lt_or_ge i l.length with hi | hi
      · rw [List.getD_eq_getElem _ _ hi]; exact hl _ (List.getElem_mem hi)
      · rw [List.getD_eq_default _ _ hi]; simp
    refine hd0 _ fun v hv => ?_
    rcases List.mem_append.1 hv with h' | h'
    · exact hr v h'
    · rw [List.mem_singleton.1 h', getLastD_eq]; exact hd0 alpha hr _
  set he := h ++ [h.getLastD 0] with hhe
  set ae := alpha ++ [alpha.getLastD 0] with hae
  -- one term for each pair of positions
  let C := ∑ i ∈ range (he.length + ae.length), ∑ j ∈ range (he.length + ae.length),
    |he.getD i 0| * b ^ (ae.getD j 0 + r)
  have hterm : ∀ i j, i < he.length + ae.length → j < he.length + ae.length → ∀ f, 0 < f → f ≤ b →
      |he.getD i 0 * f ^ ae.getD j 0| * f ^ r ≤ C := by
    intro i j hi hj f hf hfb
    have h1 : |he.getD i 0 * f ^ ae.getD j 0| * f ^ r = |he.getD i 0| * f ^ (ae.getD j 0 + r) := by
      rw [abs_mul, abs_of_pos (rpow_pos_of_pos hf _), rpow_add hf, rpow_natCast, mul_assoc]
    rw [h1]
    have h2 : |he.getD i 0| * f ^ (ae.getD j 0 + r) ≤ |he.getD i 0| * b ^ (ae.getD j 0 + r) :=
      mul_le_mul_of_nonneg_left (rpow_le_rpow hf.le hfb (by linarith [hd j])) (abs_nonneg _)
    refine h2.trans ?_
    have hnn : ∀ i j, 0 ≤ |he.getD i 0| * b ^ (ae.getD j 0 + r) := fun i j =>
      mul_nonneg (abs_nonneg _) (rpow_nonneg hb.le _)
    exact (single_le_sum (f := fun j => |he.getD i 0| * b ^ (ae.getD j 0 + r)) (fun j _ => hnn i j)
      (mem_range.2 hj)).trans (single_le_sum (f := fun i => ∑ j ∈ range (he.length + ae.length),
        |he.getD i 0| * b ^ (ae.getD j 0 + r)) (fun i _ => sum_nonneg fun j _ => hnn i j) (mem_range.2 hi))
  have hC0 : 0 ≤ C := sum_nonneg fun i _ => sum_nonneg fun j _ => mul_nonneg (abs_nonneg _) (rpow_nonneg hb.le _)
  have l1 : he.length = f_nodes.length + 2 := by rw [hhe]; simp [hl]
  have l2 : ae.length = f_nodes.length + 2 := by rw [hae]; simp [ha]
  refine ⟨C, fun f hf hfb => ?_⟩
  unfold tkS tkSy tkInner
  rw [← hhe, ← hae]
  split_ifs
  · exact hterm _ _ (by omega) (by omega) f hf hfb
  · rw [getLastD_eq he, getLastD_eq ae]
    exact hterm _ _ (by omega) (by omega) f hf hfb
  · exact hterm _ _ (by omega) (by omega) f hf hfb
  · split
    · rename_i j hj
      have hm := List.mem_of_find?_eq_some hj
      rw [List.mem_range'_1] at hm
      exact hterm _ _ (by omega) (by omega) f hf hfb
    · rw [abs_zero, zero_mul]
      exact hC0

/-! ## The deviations of a long series -/

theorem sin_mul_le (m : ℕ) (y : ℝ) : |sin (m * y)| ≤ m * |sin y| := by
  induction m with
  | zero => simp
  | succ m ih =>
    rw [show ((m + 1 : ℕ) : ℝ) * y = m * y + y by push_cast; ring, sin_add]
    push_cast
    have h1 := abs_add_le (sin (m * y) * cos y) (cos (m * y) * sin y)
    rw [abs_mul, abs_mul] at h1
    have h2 := mul_le_mul_of_nonneg_left (abs_cos_le_one y) (abs_nonneg (sin (m * y)))
    have h3 := mul_le_mul_of_nonneg_right (abs_cos_le_one (m * y)) (abs_nonneg (sin y))
    linarith

/-- C101: with more and more samples, the expected square of `adev` and `oadev` tends to the integral of the
density over all frequencies up to the Nyquist frequency with the transfer function
`2 sin⁴(πτf)/(πτf)²`, if no exponent is below -2 -/
theorem tk_adev_limit (f_nodes h alpha : List ℝ) (hl : h.length = f_nodes.length + 1)
    (ha : alpha.length = f_nodes.length + 1) (hs : f_nodes.Pairwise (· < ·)) (hr : ∀ a ∈ alpha, -2 ≤ a)
    {dt : ℝ} (ht : 0 < dt) (m : ℕ) (hm : 0 < m) :
    Tendsto (fun p : ℕ => tkSum (tkS f_nodes h alpha) (2 * p) dt
        (fun k => 16 * sin (π * m * k / (2 * p : ℕ)) ^ 4) / (2 * (m * dt) ^ 2)) atTop
      (𝓝 (∫ f in (0 : ℝ)..1 / (2 * dt), tkS f_nodes h alpha f *
        (2 * sin (π * (m * dt) * f) ^ 4 / (π * (m * dt) * f) ^ 2))) := by
  obtain ⟨C, hC⟩ := tkS_bound f_nodes h alpha hl ha 2 (1 / (2 * dt)) (by positivity) (by simpa using hr)
  have hπ := pi_pos
  have hm0 : (0 : ℝ) < m := by exact_mod_cast hm
  have := tk_limit (V := fun x => 16 * sin (π * m * x) ^ 4) (K := 16 * (π * m) ^ 4) ht 2
    (N := {f | f ∈ f_nodes}) f_nodes.finite_toSet.countable
    (fun f hf hne => tkS_continuous f_nodes h alpha hl ha hs f hf hne) hC (fun x _ _ => by fun_prop)
    (fun x hx _ => by
      rw [abs_mul, abs_pow, abs_of_pos (by norm_num : (0 : ℝ) < 16), mul_assoc 16, ← mul_pow]
      refine mul_le_mul_of_nonneg_left (pow_le_pow_left₀ (abs_nonneg _) ?_ 4) (by norm_num)
      exact (abs_sin_le_abs).trans_eq (abs_of_pos (by positivity)))
  have h2 := this.div_const (2 * (m * dt) ^ 2)
  rw [← intervalIntegral.integral_div] at h2
  have eI : ∫ f in (0 : ℝ)..1 / (2 * dt), tkS f_nodes h alpha f *
        (2 * sin (π * (m * dt) * f) ^ 4 / (π * (m * dt) * f) ^ 2) = ∫ f in (0 : ℝ)..1 / (2 * dt),
        tkS f_nodes h alpha f / (2 * π * f) ^ 2 * (16 * sin (π * m * (dt * f)) ^ 4) / (2 * (m * dt) ^ 2) := by
    refine intervalIntegral.integral_congr fun f _ => ?_
    show _ = _
    rw [show π * m * (dt * f) = π * (m * dt) * f by ring]
    rcases eq_or_ne f 0 with rfl | hf
    · simp
    · field_simp
      try ring
  rw [eI]
  refine h2.congr fun p => ?_
  congr 1
  unfold tkSum
  refine sum_congr rfl fun k _ => ?_
  beta_reduce
  rw [mul_div_assoc (π * (m : ℝ))]

/-- C101: the same for `hdev` and `ohdev` with `(8/3) sin⁶(πτf)/(πτf)²`, if no exponent is below -4 -/
theorem tk_hdev_limit (f_nodes h alpha : List ℝ) (hl : h.length = f_nodes.length + 1)
    (ha : alpha.length = f_nodes.length + 1) (hs : f_nodes.Pairwise (· < ·)) (hr : ∀ a ∈ alpha, -4 ≤ a)
    {dt : ℝ} (ht : 0 < dt) (m : ℕ) (hm : 0 < m) :
    Tendsto (fun p : ℕ => tkSum (tkS f_nodes h alpha) (2 * p) dt
        (fun k => 64 * sin (π * m * k / (2 * p : ℕ)) ^ 6) / (6 * (m * dt) ^ 2)) atTop
      (𝓝 (∫ f in (0 : ℝ)..1 / (2 * dt), tkS f_nodes h alpha f *
        (8 / 3 * sin (π * (m * dt) * f) ^ 6 / (π * (m * dt) * f) ^ 2))) := by
  obtain ⟨C, hC⟩ := tkS_bound f_nodes h alpha hl ha 4 (1 / (2 * dt)) (by positivity) (by simpa using hr)
  have hπ := pi_pos
  have hm0 : (0 : ℝ) < m := by exact_mod_cast hm
  have := tk_limit (V := fun x => 64 * sin (π * m * x) ^ 6) (K := 64 * (π * m) ^ 6) ht 4
    (N := {f | f ∈ f_nodes}) f_nodes.finite_toSet.countable
    (fun f hf hne => tkS_continuous f_nodes h alpha hl ha hs f hf hne) hC (fun x _ _ => by fun_prop)
    (fun x hx _ => by
      rw [abs_mul, abs_pow, abs_of_pos (by norm_num : (0 : ℝ) < 64), mul_assoc 64, ← mul_pow]
      refine mul_le_mul_of_nonneg_left (pow_le_pow_left₀ (abs_nonneg _) ?_ 6) (by norm_num)
      exact (abs_sin_le_abs).trans_eq (abs_of_pos (by positivity)))
  have h2 := this.div_const (6 * (m * dt) ^ 2)
  rw [← intervalIntegral.integral_div] at h2
  have eI : ∫ f in (0 : ℝ)..1 / (2 * dt), tkS f_nodes h alpha f *
        (8 / 3 * sin (π * (m * dt) * f) ^ 6 / (π * (m * dt) * f) ^ 2) = ∫ f in (0 : ℝ)..1 / (2 * dt),
        tkS f_nodes h alpha f / (2 * π * f) ^ 2 * (64 * sin (π * m * (dt * f)) ^ 6) / (6 * (m * dt) ^ 2) := by
    refine intervalIntegral.integral_congr fun f _ => ?_
    show _ = _
    rw [show π * m * (dt * f) = π * (m * dt) * f by ring]
    rcases eq_or_ne f 0 with rfl | hf
    · simp
    · field_simp
      try ring
  rw [eI]
  refine h2.congr fun p => ?_
  congr 1
  unfold tkSum
  refine sum_congr rfl fun k _ => ?_
  beta_reduce
  rw [mul_div_assoc (π * (m : ℝ))]

/-- C101: the same for `mdev` with `2 sin⁶(πτf)/((πτf)² m² sin²(π dt f))`, if no exponent is below -2 -/
theorem tk_mdev_limit (f_nodes h alpha : List ℝ) (hl : h.length = f_nodes.length + 1)
    (ha : alpha.length = f_nodes.length + 1) (hs : f_nodes.Pairwise (· < ·)) (hr : ∀ a ∈ alpha, -2 ≤ a)
    {dt : ℝ} (ht : 0 < dt) (m : ℕ) (hm : 0 < m) :
    Tendsto (fun p : ℕ => tkSum (tkS f_nodes h alpha) (2 * p) dt
        (fun k => 16 * sin (π * m * k / (2 * p : ℕ)) ^ 6 / sin (π * k / (2 * p : ℕ)) ^ 2) /
          (2 * m ^ 2 * (m * dt) ^ 2)) atTop
      (𝓝 (∫ f in (0 : ℝ)..1 / (2 * dt), tkS f_nodes h alpha f *
        (2 * sin (π * (m * dt) * f) ^ 6 / ((π * (m * dt) * f) ^ 2 * (m ^ 2 * sin (π * dt * f) ^ 2))))) := by
  obtain ⟨C, hC⟩ := tkS_bound f_nodes h alpha hl ha 2 (1 / (2 * dt)) (by positivity) (by simpa using hr)
  have hπ := pi_pos
  have hm0 : (0 : ℝ) < m := by exact_mod_cast hm
  have hsin : ∀ x : ℝ, 0 < x → x ≤ 1 / 2 → 0 < sin (π * x) := fun x h0 h1 =>
    sin_pos_of_pos_of_lt_pi (by positivity) (by nlinarith)
  have := tk_limit (V := fun x => 16 * sin (π * m * x) ^ 6 / sin (π * x) ^ 2) (K := 16 * m ^ 2 * (π * m) ^ 4) ht 2
    (N := {f | f ∈ f_nodes}) f_nodes.finite_toSet.countable
    (fun f hf hne => tkS_continuous f_nodes h alpha hl ha hs f hf hne) hC (fun x h0 h1 => by
      have h2 := (hsin x h0 h1.le).ne'
      refine ContinuousAt.div (by fun_prop) (by fun_prop) (pow_ne_zero 2 h2))
    (fun x hx hx2 => by
      have h2 := hsin x hx hx2
      rw [abs_div, abs_mul, abs_pow, abs_of_pos (by norm_num : (0 : ℝ) < 16),
        abs_of_pos (by positivity : 0 < sin (π * x) ^ 2), div_le_iff₀ (by positivity)]
      have h3 : |sin (π * m * x)| ≤ m * sin (π * x) := by
        have := sin_mul_le m (π * x)
        rwa [abs_of_pos h2, show (m : ℝ) * (π * x) = π * m * x by ring] at this
      have h4 : |sin (π * m * x)| ≤ π * m * x := (abs_sin_le_abs).trans_eq (abs_of_pos (by positivity))
      calc 16 * |sin (π * m * x)| ^ 6 = 16 * (|sin (π * m * x)| ^ 2 * |sin (π * m * x)| ^ 4) := by ring
        _ ≤ 16 * ((m * sin (π * x)) ^ 2 * (π * m * x) ^ 4) :=
          mul_le_mul_of_nonneg_left (mul_le_mul (pow_le_pow_left₀ (abs_nonneg _) h3 2)
            (pow_le_pow_left₀ (abs_nonneg _) h4 4) (by positivity) (by positivity)) (by norm_num)
        _ = _ := by ring)
  have h2 := this.div_const (2 * m ^ 2 * (m * dt) ^ 2)
  rw [← intervalIntegral.integral_div] at h2
  have eI : ∫ f in (0 : ℝ)..1 / (2 * dt), tkS f_nodes h alpha f *
        (2 * sin (π * (m * dt) * f) ^ 6 / ((π * (m * dt) * f) ^ 2 * (m ^ 2 * sin (π * dt * f) ^ 2))) =
      ∫ f in (0 : ℝ)..1 / (2 * dt), tkS f_nodes h alpha f / (2 * π * f) ^ 2 *
        (16 * sin (π * m * (dt * f)) ^ 6 / sin (π * (dt * f)) ^ 2) / (2 * m ^ 2 * (m * dt) ^ 2) := by
    refine intervalIntegral.integral_congr fun f _ => ?_
    show _ = _
    rw [show π * m * (dt * f) = π * (m * dt) * f by ring, show π * (dt * f) = π * dt * f by ring]
    rcases eq_or_ne f 0 with rfl | hf
    · simp
    · rcases eq_or_ne (sin (π * dt * f)) 0 with hz | hz
      · rw [hz]; simp
      · field_simp
        try ring
  rw [eI]
  refine h2.congr fun p => ?_
  congr 1
  unfold tkSum
  refine sum_congr rfl fun k _ => ?_
  beta_reduce
  rw [mul_div_assoc (π * (m : ℝ)), mul_div_assoc π]

/-! ## Concrete cases -/

theorem tkS_single (c a f : ℝ) : tkS [] [c] [a] f = c * f ^ a := by
  unfold tkS tkSy
  simp

/-- the expected values of white FM of 100 samples -/
example : ∃ X : (ℕ → ℝ) → List ℝ,
    (∀ ω, timmer_koenig_from_psd (fun i => ω i) [] [1] [0] 100 1 "phase" = .ok ((X ω).map some)) ∧
    Expects gaussNoise .oadev X (1 / 1) "phase" (fun m =>
      tkSum (tkS [] [1] [0]) 100 1 (fun k => 16 * sin (π * m * k / (100 : ℕ)) ^ 4) / (2 * (m * 1) ^ 2)) := by
  obtain ⟨X, h1, -, h2, -⟩ := tk_expects (n := 100) (white_gauss 100) [] [1] [0] (duration := 100) (dt := 1)
    ⟨by norm_num, by norm_num, rfl, by norm_num, Or.inl rfl⟩ (by norm_num) (by norm_num) (by norm_num) (by simp)
  exact ⟨X, h1, h2⟩

/-- the lowest coefficient of random walk FM has less than a tenth of its power in the end -/
example : ∀ᶠ p : ℕ in atTop, tkGot 1 (-2) (2 * p) 1 1 / tkWanted 1 (-2) (2 * p) 1 1 < 1 / 10 := by
  have h := tk_low_ratio (c := 1) one_pos (-2) (dt := 1) one_pos (k := 1) le_rfl
  refine h.eventually (gt_mem_nhds ?_)
  norm_num

/-- the hypotheses of the limit are met by flicker FM below 0.01 Hz and white FM above -/
example : Tendsto (fun p : ℕ => tkSum (tkS [0.01] [0.01, 1] [-1, 0]) (2 * p) 1
      (fun k => 16 * sin (π * (5 : ℕ) * k / (2 * p : ℕ)) ^ 4) / (2 * ((5 : ℕ) * 1) ^ 2)) atTop
    (𝓝 (∫ f in (0 : ℝ)..1 / (2 * 1), tkS [0.01] [0.01, 1] [-1, 0] f *
      (2 * sin (π * ((5 : ℕ) * 1) * f) ^ 4 / (π * ((5 : ℕ) * 1) * f) ^ 2))) :=
  tk_adev_limit [0.01] [0.01, 1] [-1, 0] rfl rfl (by simp) (by norm_num) one_pos 5 (by norm_num)

end AT
