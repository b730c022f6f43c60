import Verif.Lemmas.Ident
import Verif.Props.Mixed
import Verif.Props.EdfExact
import Verif.Lemmas.Float

/-!
# C79: long series of the three white noises are identified
-/

namespace AT

open Spec Finset MeasureTheory ProbabilityTheory Filter
open scoped NNReal ENNReal

/-- the exponent of the noise: 2 for white phase noise, 0 for white frequency noise, -2 for the random
walk of the frequency -/
def Spec.alphaOf : Kind → ℤ
  | .wpm => 2
  | .wfm => 0
  | .rwfm => -2

/-- how often the phase of a noise has to be differenced to give white noise -/
def Spec.order : Kind → ℕ
  | .wpm => 0
  | .wfm => 1
  | .rwfm => 2

/-- what the estimate of the exponent tends to if every `m`-th phase sample is taken: the exponent itself, but
`-2 - 2 (m² - 1) / (5 m² + 1)` for the random walk of the frequency -/
noncomputable def Spec.alphaLimit (m : ℕ) : Kind → ℝ
  | .wpm => 2
  | .wfm => 0
  | .rwfm => -2 - 2 * ((m : ℝ) ^ 2 - 1) / (5 * (m : ℝ) ^ 2 + 1)

/-! ## The loop -/

/-- the stages of a series that is identified after `k` differences -/
def Good (k : ℕ) (κ r : ℝ) (x : List ℝ) : Prop :=
  (∀ d < k, ∃ ρ, rho (npDiff^[d] x) = some ρ ∧ 1 / 4 < ρ) ∧ ∃ ρ, rho (npDiff^[k] x) = some ρ ∧ |ρ - r| < κ

theorem ident_det (fit : List ℝ → ℕ → ℕ → ℝ) (data x : List ℝ) (af : ℕ) (data_type : String) {dmax : ℤ} {k : ℕ} {κ r : ℝ}
    (hx : noise_id_prepare fit data af data_type = .ok x) (h30 : 30 ≤ x.length) (hlen : dmax < x.length) (hk : (k : ℤ) ≤ dmax)
    (hg : Good k κ r x) (hκ : κ ≤ 1 / 20) {z : ℤ} (hz : |2 * r - z| + 2 * κ ≤ 1 / 2) (hr : r ≤ 1 / 5) :
    ∃ α ρ, autocorr_noise_id fit data af data_type 0 dmax
        = .ok (-z - 2 * k + (if data_type = "phase" then 2 else 0), α, k, ρ) ∧
      |α - (-2 * (r + k) + (if data_type = "phase" then 2 else 0))| < 2 * κ := by
  obtain ⟨d, -, h2, h3, h4⟩ := autocorr_noise_id_eq fit data x af data_type 0 dmax hx h30 (by omega)
  obtain ⟨hg1, ρ, hg2, hg3⟩ := hg
  have hlt := abs_lt.1 hg3
  have hstop : stops 0 dmax x k := ⟨by omega, Or.inl ⟨ρ, hg2, by linarith⟩⟩
  have hdk : d = k := by
    rcases lt_trichotomy d k with h | h | h
    · exfalso
      obtain ⟨ρ', h5, h6⟩ := hg1 d h
      rcases h2.2 with ⟨ρ'', h7, h8⟩ | h7
      · rw [h5, Option.some.injEq] at h7
        linarith
      · omega
    · exact h
    · exact absurd hstop (h3 k h)
  subst hdk
  have hrd : npRound (2 * ρ) = z := by
    refine npRound_of_lt ?_
    have h5 := abs_le.1 (le_refl |2 * r - z|)
    rw [abs_lt]
    constructor <;> linarith
  rw [h4, hg2]
  refine ⟨_, _, by rw [noiseIdResult, hrd], ?_⟩
  have e : -2 * (ρ + d) + ((if data_type = "phase" then 2 else 0 : ℤ) : ℝ) - (-2 * (r + d) + if data_type = "phase" then 2 else 0)
      = -2 * (ρ - r) := by
    split_ifs <;> push_cast <;> ring
  rw [e, abs_mul]
  norm_num
  linarith

/-! ## Series of each order -/

section orders

variable {Ω : Type} [MeasurableSpace Ω] {P : Measure Ω} [IsProbabilityMeasure P] {W : ℕ → Ω → ℝ} {S : ℕ} {s2 : ℝ≥0}

/-- what happens to a series with polynomial trend -/
def Identified (P : Measure Ω) (fit : List ℝ → ℕ → ℕ → ℝ) (k : ℕ) (κ r : ℝ) (E : ℕ → Ω → ℝ) : Prop :=
  Whp P (fun n ω => ∀ (deg : ℕ) (a b c : ℝ), deg = 2 ∨ deg = 1 ∧ c = 0 →
    ∃ x, detrend fit (tab n (fun i => a + b * i + c * (i : ℝ) ^ 2 + E i ω)) deg = .ok x ∧ x.length = n ∧ Good k κ r x)

theorem ident0 {fit : List ℝ → ℕ → ℕ → ℝ} (hfit : IsLSFit fit) {E : ℕ → Ω → ℝ} {γ η : ℝ} (hE : Noisy P E γ η) (hγ0 : 0 < γ) (hη4 : η < 4 * γ)
    {κ : ℝ} (hκ : 0 < κ) : Identified P fit 0 κ ((γ - η / 2) / (2 * γ - η / 2)) E := by
  refine (stage0 hE hγ0 hη4 hκ).mono ?_
  filter_upwards [eventually_gt_atTop 0] with n hn ω hω deg a b c hd
  obtain ⟨A, B, C, h1, h2⟩ := detrend_tab hfit hn a b c (fun i => E i ω) hd
  exact ⟨_, h1, tab_length _ _, fun d hd => absurd hd (by omega), hω A B C h2⟩

theorem ident1 {fit : List ℝ → ℕ → ℕ → ℝ} (hfit : IsLSFit fit) {E : ℕ → Ω → ℝ} {γ η : ℝ}
    (hE : Noisy P (fun i ω => E (i + 1) ω - E i ω) γ η) (hγ0 : 0 < γ) (hη4 : η < 4 * γ)
    (hR : ∀ R : ℝ, ∃ L : ℕ, ∃ v, R ≤ v ∧ ∀ ε > 0, Whp P (fun n ω => |(∑ i ∈ range n, d3 (fun j => E j ω) L i ^ 2) - n * v| ≤ ε * n))
    {κ : ℝ} (hκ : 0 < κ) : Identified P fit 1 κ ((γ - η / 2) / (2 * γ - η / 2)) E := by
  set e : ℕ → Ω → ℝ := fun i ω => E i ω - E 0 ω with he
  have hes : ∀ i ω, e i ω = ∑ j ∈ range i, (E (j + 1) ω - E j ω) := fun i ω => by
    rw [sum_range_sub (fun j => E j ω)]
  have hd3e : ∀ L i ω, d3 (fun j => e j ω) L i = d3 (fun j => E j ω) L i := fun L i ω => by
    simp only [he, d3]
    ring
  obtain ⟨ε, hε, h1⟩ := final_core hE hγ0 hη4 hκ
  have h2 := fit_small1 hE hes hε
  have h3 := early1 hE hγ0.le hes fun R => by
    simp only [hd3e]
    exact hR R
  refine (((h1.comp (tendsto_sub_atTop 1)).and h2).and h3).mono ?_
  filter_upwards [eventually_gt_atTop 0] with n hn ω hω deg a b c hd
  obtain ⟨⟨k1, k2⟩, k3⟩ := hω
  obtain ⟨A, B, C, g1, g2⟩ := detrend_tab hfit hn (a + E 0 ω) b c (fun i => e i ω) hd
  have et : tab n (fun i => a + b * i + c * (i : ℝ) ^ 2 + E i ω) = tab n (fun i => a + E 0 ω + b * i + c * (i : ℝ) ^ 2 + e i ω) :=
    tab_congr fun i _ => by simp only [he]; ring
  rw [et]
  refine ⟨_, g1, tab_length _ _, fun d hd => ?_, ?_⟩
  · obtain rfl : d = 0 := by omega
    exact k3 A B C g2
  · rw [Function.iterate_one, npDiff_tab]
    have e2 : tab (n - 1) (fun i => e (i + 1) ω - quad A B C (i + 1) - (e i ω - quad A B C i))
        = tab (n - 1) (fun i => (E (i + 1) ω - E i ω) - (quad A B C (i + 1) - quad A B C i)) :=
      tab_congr fun i _ => by simp only [he]; ring
    rw [e2]
    exact k1 (fun i => quad A B C (i + 1) - quad A B C i) (k2 A B C g2)

theorem ident2 {fit : List ℝ → ℕ → ℕ → ℝ} (hfit : IsLSFit fit) {E : ℕ → Ω → ℝ} {γ η : ℝ}
    (hE : Noisy P (fun i ω => d2 (fun j => E j ω) 1 i) γ η) (hγ0 : 0 < γ) (hη4 : η < 4 * γ)
    (hR : ∀ R : ℝ, 0 < R → Whp P (fun n ω => ∀ A B C,
      R * n ≤ acfDen (fun i => (E (i + 1) ω - quad A B C (i + 1)) - (E i ω - quad A B C i)) (n - 1)))
    {κ : ℝ} (hκ : 0 < κ) : Identified P fit 2 κ ((γ - η / 2) / (2 * γ - η / 2)) E := by
  set e : ℕ → Ω → ℝ := fun i ω => E i ω - E 0 ω - i * (E 1 ω - E 0 ω) with he
  set v : ℕ → Ω → ℝ := fun i ω => (E (i + 1) ω - E i ω) - (E 1 ω - E 0 ω) with hv
  have hvs : ∀ i ω, v i ω = ∑ j ∈ range i, d2 (fun j => E j ω) 1 j := fun i ω => by
    have := sum_range_sub (fun j => v j ω) i
    have e0 : v 0 ω = 0 := by simp [hv]
    rw [e0, sub_zero] at this
    rw [← this]
    refine sum_congr rfl fun j _ => ?_
    simp only [hv, d2, mul_one, show j + 1 + 1 = j + 2 by ring]
    ring
  have hes : ∀ i ω, e i ω = ∑ j ∈ range i, v j ω := fun i ω => by
    have := sum_range_sub (fun j => e j ω) i
    have e0 : e 0 ω = 0 := by simp [he]
    rw [e0, sub_zero] at this
    rw [← this]
    refine sum_congr rfl fun j _ => ?_
    simp only [he, hv]
    push_cast
    ring
  have hd3e : ∀ L i ω, d3 (fun j => e j ω) L i = d3 (fun j => E j ω) L i := fun L i ω => by
    simp only [he, d3]
    push_cast
    ring
  obtain ⟨ε, hε, h1⟩ := final_core hE hγ0 hη4 hκ
  have h2 := fit_small2 hE hvs hes hε
  have h3 := early2_core hE hγ0.le hvs hes fun R hR0 => by
    refine (hR R hR0).mono (Eventually.of_forall fun n ω hω A B C => ?_)
    refine (hω A (B + (E 1 ω - E 0 ω)) C).trans_eq ?_
    congr 1
    funext i
    simp only [he, quad]
    push_cast
    ring
  refine (((h1.comp (tendsto_sub_atTop 2)).and h2).and h3).mono ?_
  filter_upwards [eventually_gt_atTop 0] with n hn ω hω deg a b c hd
  obtain ⟨⟨k1, k2⟩, k3⟩ := hω
  obtain ⟨A, B, C, g1, g2⟩ := detrend_tab hfit hn (a + E 0 ω) (b + (E 1 ω - E 0 ω)) c (fun i => e i ω) hd
  have et : tab n (fun i => a + b * i + c * (i : ℝ) ^ 2 + E i ω)
      = tab n (fun i => a + E 0 ω + (b + (E 1 ω - E 0 ω)) * i + c * (i : ℝ) ^ 2 + e i ω) :=
    tab_congr fun i _ => by simp only [he]; ring
  rw [et]
  refine ⟨_, g1, tab_length _ _, fun d hd => ?_, ?_⟩
  · obtain rfl | rfl : d = 0 ∨ d = 1 := by omega
    · exact (k3 A B C g2).1
    · rw [Function.iterate_one, npDiff_tab]
      exact (k3 A B C g2).2
  · rw [show (2 : ℕ) = 1 + 1 from rfl, Function.iterate_succ_apply, Function.iterate_one, npDiff_tab, npDiff_tab]
    have e2 : tab (n - 1 - 1) (fun i => e (i + 1 + 1) ω - quad A B C (i + 1 + 1) - (e (i + 1) ω - quad A B C (i + 1))
          - (e (i + 1) ω - quad A B C (i + 1) - (e i ω - quad A B C i)))
        = tab (n - 2) (fun i => d2 (fun j => E j ω) 1 i - 2 * C) := by
      rw [Nat.sub_sub]
      refine tab_congr fun i _ => ?_
      simp only [he, d2, quad, mul_one, show i + 1 + 1 = i + 2 by ring]
      push_cast
      ring
    rw [e2]
    exact k1 (fun _ => 2 * C) (k2 A B C g2)

/-! For moving averages of white noise -/

theorem ident0_mf {fit : List ℝ → ℕ → ℕ → ℝ} (hfit : IsLSFit fit) (h : NormalNoise P W s2) {E : ℕ → Ω → ℝ} (hE : MF W S E) (hS : 0 < S)
    {γ η : ℝ} (hγ : MeanSq P (E 0) γ) (hη : MeanSq P (fun ω => E 1 ω - E 0 ω) η) (hγ0 : 0 < γ) (hη4 : η < 4 * γ)
    {κ : ℝ} (hκ : 0 < κ) : Identified P fit 0 κ ((γ - η / 2) / (2 * γ - η / 2)) E :=
  ident0 hfit (hE.noisy h hS hγ hη) hγ0 hη4 hκ

theorem ident1_mf {fit : List ℝ → ℕ → ℕ → ℝ} (hfit : IsLSFit fit) (h : NormalNoise P W s2) {E : ℕ → Ω → ℝ}
    (hE : MF W S (fun i ω => E (i + 1) ω - E i ω)) (hS : 0 < S) {γ η : ℝ}
    (hγ : MeanSq P (fun ω => E 1 ω - E 0 ω) γ) (hη : MeanSq P (fun ω => d2 (fun j => E j ω) 1 0) η) (hγ0 : 0 < γ) (hη4 : η < 4 * γ)
    (hR : ∀ R : ℝ, ∃ L : ℕ, ∃ v, R ≤ v ∧ MeanSq P (fun ω => d3 (fun j => E j ω) L 0) v)
    {κ : ℝ} (hκ : 0 < κ) : Identified P fit 1 κ ((γ - η / 2) / (2 * γ - η / 2)) E :=
  ident1 hfit (hE.noisy h hS hγ (meanSq_congr (fun ω => by simp only [d2]; ring_nf) hη)) hγ0 hη4 (fun R => by
    obtain ⟨L, v, hv, hL⟩ := hR R
    exact ⟨L, v, hv, fun ε hε => (hE.d3 L).lln h hS hL hε⟩) hκ

theorem ident2_mf {fit : List ℝ → ℕ → ℕ → ℝ} (hfit : IsLSFit fit) (h : NormalNoise P W s2) {E : ℕ → Ω → ℝ}
    (hE : MF W S (fun i ω => d2 (fun j => E j ω) 1 i)) (hS : 0 < S) {γ η : ℝ}
    (hγ : MeanSq P (fun ω => d2 (fun j => E j ω) 1 0) γ) (hη : MeanSq P (fun ω => d3 (fun j => E j ω) 1 0) η)
    (hγ0 : 0 < γ) (hη4 : η < 4 * γ)
    (hM : ∀ L, MF W S (fun i ω => d3 (fun j => E j ω) L i))
    (hR : ∀ R : ℝ, ∃ L : ℕ, 0 < L ∧ ∃ v, R * (L : ℝ) ^ 2 ≤ v ∧ MeanSq P (fun ω => d3 (fun j => E j ω) L 0) v)
    {κ : ℝ} (hκ : 0 < κ) : Identified P fit 2 κ ((γ - η / 2) / (2 * γ - η / 2)) E :=
  ident2 hfit (hE.noisy h hS hγ (meanSq_congr (fun ω => by simp only [d2, d3]; ring_nf) hη)) hγ0 hη4 (den_of_means fun R => by
    obtain ⟨L, hL0, v, hv, hL⟩ := hR R
    refine ⟨L, hL0, v, hv, fun ε hε => MF.lln h ((hM L).hop L) (Nat.mul_pos hL0 hS) ?_ hε⟩
    simp only [zero_mul]
    exact hL) hκ

end orders

/-! ## The three noises -/

section kinds

variable {Ω : Type} {W : ℕ → Ω → ℝ}

theorem MF.d2 {S : ℕ} {f : ℕ → Ω → ℝ} (hf : MF W S (fun i ω => d2 (fun j => f j ω) 1 i)) (L : ℕ) :
    MF W S (fun i ω => Spec.d2 (fun j => f j ω) L i) := by
  refine (MF.sum L fun u _ => MF.sum L fun l _ => hf.shift (u + l)).congr fun i ω => ?_
  have h1 : ∀ u, ∑ l ∈ range L, Spec.d2 (fun j => f j ω) 1 (i + (u + l))
      = (f (i + u + L + 1) ω - f (i + u + L) ω) - (f (i + u + 1) ω - f (i + u) ω) := fun u => by
    have := sum_range_sub (fun l => f (i + u + l + 1) ω - f (i + u + l) ω) L
    simp only [add_zero] at this
    rw [← this]
    refine sum_congr rfl fun l _ => ?_
    simp only [Spec.d2, mul_one, ← add_assoc, show i + u + l + 1 + 1 = i + u + l + 2 from rfl]
    ring
  simp only [h1]
  have := sum_range_sub (fun u => f (i + u + L) ω - f (i + u) ω) L
  simp only [add_zero] at this
  unfold Spec.d2
  have e : ∑ u ∈ range L, (f (i + u + L + 1) ω - f (i + u + L) ω - (f (i + u + 1) ω - f (i + u) ω))
      = ∑ u ∈ range L, (f (i + (u + 1) + L) ω - f (i + (u + 1)) ω - (f (i + u + L) ω - f (i + u) ω)) :=
    sum_congr rfl fun u _ => by
      rw [show i + (u + 1) + L = i + u + L + 1 by ring, show i + (u + 1) = i + u + 1 by ring]
      ring
  rw [e, this, show i + L + L = i + 2 * L by ring]
  ring

theorem MF.d3_of_d2 {S : ℕ} {f : ℕ → Ω → ℝ} (hf : MF W S (fun i ω => Spec.d2 (fun j => f j ω) 1 i)) (L : ℕ) :
    MF W S (fun i ω => Spec.d3 (fun j => f j ω) L i) :=
  (((hf.d2 L).shift L).sub (hf.d2 L)).congr fun i ω => by
    simp only [Spec.d2, Spec.d3, show i + L + 2 * L = i + 3 * L by ring, show i + L + L = i + 2 * L by ring]
    ring

/-- every `m`-th phase sample of a noise -/
def deci (k : Kind) (W : ℕ → Ω → ℝ) (m j : ℕ) (ω : Ω) : ℝ := noise k (fun i => W i ω) (j * m)

theorem d3_deci (k : Kind) (m L i : ℕ) (ω : Ω) :
    d3 (fun j => deci k W m j ω) L i = d3 (noise k (fun i => W i ω)) (L * m) (i * m) := by
  simp only [Spec.d3, deci, add_mul, mul_assoc]

theorem d2_deci (k : Kind) (m L i : ℕ) (ω : Ω) :
    d2 (fun j => deci k W m j ω) L i = d2 (noise k (fun i => W i ω)) (L * m) (i * m) := by
  simp only [Spec.d2, deci, add_mul, mul_assoc]

theorem deci_wpm (m : ℕ) : MF W m (deci .wpm W m) := (MF.eval 0).congr fun i ω => by simp [deci, noise]

theorem deci_wfm (m : ℕ) : MF W m (fun i ω => deci .wfm W m (i + 1) ω - deci .wfm W m i ω) :=
  (MF.sum m fun u _ => MF.eval u).congr fun i ω => by
    simp only [deci, noise]
    rw [add_mul, one_mul, sum_range_add]
    ring

theorem deci_rwfm (m : ℕ) : MF W m (fun i ω => d2 (fun j => deci .rwfm W m j ω) 1 i) := by
  refine (MF.sum m fun u _ => MF.sum m fun l _ => MF.eval (u + l)).congr fun i ω => ?_
  rw [d2_deci, one_mul]
  simp only [Spec.d2, noise]
  rw [two_mul, ← add_assoc, sum_range_add _ (i * m + m) m, sum_range_add _ (i * m) m]
  have e : ∀ u, ∑ l ∈ range m, W (i * m + (u + l)) ω
      = ∑ k ∈ range (i * m + m + u), W k ω - ∑ k ∈ range (i * m + u), W k ω := fun u => by
    rw [show i * m + m + u = i * m + u + m by ring, sum_range_add]
    simp only [add_assoc]
    ring
  simp only [e]
  rw [sum_sub_distrib]
  ring

variable [MeasurableSpace Ω] {P : Measure Ω} [IsProbabilityMeasure P] {s2 : ℝ≥0} (h : NormalNoise P W s2) {m : ℕ}

include h

theorem lin_meanSq (n : ℕ) (a : ℕ → ℝ) {f : Ω → ℝ} (hf : ∀ ω, f ω = Lin W n a ω) {v : ℝ} (hv : v = s2 * ∑ k ∈ range n, a k * a k) :
    MeanSq P f v := by
  have e : f = Lin W n a := funext hf
  rw [e]
  refine ⟨((lin_allLp h n a).pow 2).int, ?_⟩
  rw [hv, ← lin_prod h n a a]
  simp only [pow_two]

omit [IsProbabilityMeasure P] in
theorem deci_normal (hm : 0 < m) : NormalNoise P (deci .wpm W m) s2 where
  indep := h.indep.precomp (g := fun j => j * m) fun _ _ hab => Nat.eq_of_mul_eq_mul_right hm hab
  law := fun _ => h.law _

theorem wpm_moments (hm : 0 < m) : MeanSq P (deci .wpm W m 0) s2 ∧
    MeanSq P (fun ω => deci .wpm W m 1 ω - deci .wpm W m 0 ω) (2 * s2) ∧
    MeanSq P (fun ω => d2 (fun j => deci .wpm W m j ω) 1 0) (6 * s2) := by
  have h' := deci_normal h hm
  refine ⟨lin_meanSq h' 1 (fun _ => 1) (fun ω => by simp [Lin]) (by simp),
    lin_meanSq h' 2 (fun k => if k = 0 then -1 else 1) (fun ω => by simp [Lin, sum_range_succ]; ring) (by simp [sum_range_succ]; ring),
    lin_meanSq h' 3 (fun k => if k = 1 then -2 else 1) (fun ω => by simp [Lin, Spec.d2, sum_range_succ]; ring)
      (by simp [sum_range_succ]; ring)⟩

omit [MeasurableSpace Ω] h in
theorem wfm_steps (ω : Ω) (i k : ℕ) : noise .wfm (fun i => W i ω) (i + k)
    = noise .wfm (fun i => W i ω) i + ∑ s ∈ range k, W (i + s) ω := by
  simp only [noise]
  rw [sum_range_add]

theorem wfm_moments : MeanSq P (fun ω => deci .wfm W m 1 ω - deci .wfm W m 0 ω) (m * s2) ∧
    MeanSq P (fun ω => d2 (fun j => deci .wfm W m j ω) 1 0) (2 * m * s2) ∧
    ∀ L, MeanSq P (fun ω => d3 (fun j => deci .wfm W m j ω) L 0) (6 * (L * m) * s2) := by
  refine ⟨lin_meanSq h m (fun _ => 1) (fun ω => by simp [Lin, deci, noise]) (by simp; ring), ?_, fun L => ?_⟩
  · have h1 := blocks_white (h.white (2 * m)) (le_refl m) (j := 0) 2 (fun b _ => if b = 0 then -1 else 1)
      (fun b hb k hk _ => by have : b = 0 ∨ b = 1 := by omega
                             rcases this with rfl | rfl <;> omega)
    have e : (s2 : ℝ) * (∑ b ∈ range 2, ∑ _k ∈ range m, (if b = 0 then (-1 : ℝ) else 1) ^ 2)
        + 0 ^ 2 * (∑ b ∈ range 2, ∑ _k ∈ range m, (if b = 0 then (-1 : ℝ) else 1)) ^ 2 = 2 * m * s2 := by
      simp [sum_range_succ]; ring
    rw [e] at h1
    exact meanSq_congr (fun ω => by rw [d2_deci, d2_step (u := fun i => W i ω) (wfm_steps ω)]; simp) h1
  · have h1 := blocks_white (h.white (3 * (L * m))) (le_refl (L * m)) (j := 0) 3 (fun b _ => if b = 1 then -2 else 1)
      (fun b hb k hk _ => by have : b = 0 ∨ b = 1 ∨ b = 2 := by omega
                             rcases this with rfl | rfl | rfl <;> omega)
    have e : (s2 : ℝ) * (∑ b ∈ range 3, ∑ _k ∈ range (L * m), (if b = 1 then (-2 : ℝ) else 1) ^ 2)
        + 0 ^ 2 * (∑ b ∈ range 3, ∑ _k ∈ range (L * m), (if b = 1 then (-2 : ℝ) else 1)) ^ 2 = 6 * (L * m) * s2 := by
      simp [sum_range_succ]; ring
    rw [e] at h1
    exact meanSq_congr (fun ω => by rw [d3_deci, d3_step (u := fun i => W i ω) (wfm_steps ω)]; simp) h1

theorem rwfm_moments : MeanSq P (fun ω => d2 (fun j => deci .rwfm W m j ω) 1 0) (m * (2 * m ^ 2 + 1) / 3 * s2) ∧
    ∀ L, MeanSq P (fun ω => d3 (fun j => deci .rwfm W m j ω) L 0) ((L * m : ℕ) * ((L * m : ℕ) ^ 2 + 1) * s2) := by
  have hX : ∀ ω i, noise .rwfm (fun i => W i ω) (i + 2) - 2 * noise .rwfm (fun i => W i ω) (i + 1) + noise .rwfm (fun i => W i ω) i
      = W i ω := fun ω i => by
    simp only [noise, sum_range_succ]
    ring
  refine ⟨meanSq_congr (fun ω => by rw [d2_deci, one_mul, zero_mul])
      (d2_run hX (N := 2 * m + 1) (h.white _) m 0 (by omega)), fun L =>
    meanSq_congr (fun ω => by rw [d3_deci, zero_mul]) (d3_run hX (N := 3 * (L * m) + 1) (c := 0) (h.white _) (L * m) 0 (by omega))⟩

omit [IsProbabilityMeasure P] h in
theorem meanSq_div {f : Ω → ℝ} {v : ℝ} (hf : MeanSq P f v) (r : ℝ) : MeanSq P (fun ω => f ω / r) (v / r ^ 2) := by
  have := meanSq_const_mul r⁻¹ hf
  rw [show r⁻¹ ^ 2 * v = v / r ^ 2 by rw [inv_pow]; ring] at this
  exact meanSq_congr (fun ω => by rw [div_eq_inv_mul]) this

/-- the means over long times of a random walk are far apart -/
theorem walk_far (hs : 0 < s2) (hm : 0 < m) (R : ℝ) : ∃ L : ℕ, ∃ v, R ≤ v ∧
    MeanSq P (fun ω => d3 (fun j => (deci .rwfm W m (j + 1) ω - deci .rwfm W m j ω) / m) L 0) v := by
  have hm0 : (0 : ℝ) < m := by exact_mod_cast hm
  set e : ℕ → Ω → ℝ := fun j ω => (deci .rwfm W m (j + 1) ω - deci .rwfm W m j ω) / m with he
  set g : ℕ → Ω → ℝ := fun j ω => e j ω - deci .wfm W m j ω with hg
  have hgM : MF W m g := by
    refine ((MF.sum m fun u _ => MF.sum u fun l _ => MF.eval l).smul (m : ℝ)⁻¹).congr fun j ω => ?_
    have h1 : deci .rwfm W m (j + 1) ω - deci .rwfm W m j ω = ∑ u ∈ range m, (deci .wfm W m j ω + ∑ l ∈ range u, W (j * m + l) ω) := by
      simp only [deci, noise]
      rw [add_mul, one_mul, sum_range_add, add_sub_cancel_left]
      exact sum_congr rfl fun u _ => sum_range_add _ _ _
    simp only [hg, he, h1]
    rw [sum_add_distrib, sum_const, card_range, nsmul_eq_mul]
    field_simp
    ring
  have heM : MF W m (fun j ω => e (j + 1) ω - e j ω) :=
    ((deci_rwfm m).smul (m : ℝ)⁻¹).congr fun j ω => by
      simp only [he, Spec.d2, mul_one, show j + 1 + 1 = j + 2 from rfl]
      field_simp
      ring
  obtain ⟨vg, hvg0, hvg⟩ := hgM.meanSq h
  have hs' : (0 : ℝ) < s2 := hs
  obtain ⟨L, hL⟩ := exists_nat_gt ((|R| + 80 * vg) / s2)
  obtain ⟨v, -, hv⟩ := (heM.d3 L).meanSq h
  refine ⟨L, v, ?_, hv 0⟩
  have hA := (wfm_moments h (m := m)).2.2 L
  have hB : ∀ i, Integrable (fun ω => g i ω ^ 2) P := fun i => (hvg i).1
  have hpt : ∀ ω, 1 / 2 * d3 (fun j => deci .wfm W m j ω) L 0 ^ 2
      ≤ d3 (fun j => e j ω) L 0 ^ 2 + 20 * (g (3 * L) ω ^ 2 + g (2 * L) ω ^ 2 + g L ω ^ 2 + g 0 ω ^ 2) := fun ω => by
    have e1 : d3 (fun j => deci .wfm W m j ω) L 0 = d3 (fun j => e j ω) L 0 - (g (3 * L) ω - 3 * g (2 * L) ω + 3 * g L ω - g 0 ω) := by
      simp only [Spec.d3, hg, zero_add]
      ring
    rw [e1]
    generalize d3 (fun j => e j ω) L 0 = F
    generalize g (3 * L) ω = a
    generalize g (2 * L) ω = b
    generalize g L ω = c
    generalize g 0 ω = d
    have h2 : (a - 3 * b + 3 * c - d) ^ 2 ≤ 20 * (a ^ 2 + b ^ 2 + c ^ 2 + d ^ 2) := by
      nlinarith [sq_nonneg (3 * a + b), sq_nonneg (3 * a - c), sq_nonneg (a + d), sq_nonneg (b + c), sq_nonneg (b - 3 * d), sq_nonneg (c + 3 * d)]
    nlinarith [sq_nonneg (F + (a - 3 * b + 3 * c - d))]
  have i2 : Integrable (fun ω => g (3 * L) ω ^ 2 + g (2 * L) ω ^ 2) P := (hB _).add (hB _)
  have i3 : Integrable (fun ω => g (3 * L) ω ^ 2 + g (2 * L) ω ^ 2 + g L ω ^ 2) P := i2.add (hB _)
  have i4 : Integrable (fun ω => g (3 * L) ω ^ 2 + g (2 * L) ω ^ 2 + g L ω ^ 2 + g 0 ω ^ 2) P := i3.add (hB _)
  have v4 : ∫ ω, g (3 * L) ω ^ 2 + g (2 * L) ω ^ 2 + g L ω ^ 2 + g 0 ω ^ 2 ∂P = 4 * vg := by
    rw [integral_add i3 (hB _), integral_add i2 (hB _), integral_add (hB _) (hB _), (hvg _).2, (hvg _).2, (hvg _).2, (hvg _).2]
    ring
  have hv0 : Integrable (fun ω => d3 (fun j => e j ω) L 0 ^ 2) P := (hv 0).1
  have hv1 : ∫ ω, d3 (fun j => e j ω) L 0 ^ 2 ∂P = v := (hv 0).2
  have hint : ∫ ω, 1 / 2 * d3 (fun j => deci .wfm W m j ω) L 0 ^ 2 ∂P
      ≤ ∫ ω, d3 (fun j => e j ω) L 0 ^ 2 + 20 * (g (3 * L) ω ^ 2 + g (2 * L) ω ^ 2 + g L ω ^ 2 + g 0 ω ^ 2) ∂P :=
    integral_mono (hA.1.const_mul (1 / 2)) (hv0.add (i4.const_mul 20)) hpt
  rw [integral_const_mul, hA.2, integral_add hv0 (i4.const_mul 20), hv1, integral_const_mul, v4] at hint
  rw [div_lt_iff₀ hs'] at hL
  have hm1 : (1 : ℝ) ≤ m := by exact_mod_cast hm
  have h3 : (L : ℝ) * s2 * 1 ≤ L * s2 * m := mul_le_mul_of_nonneg_left hm1 (by positivity)
  have := le_abs_self R
  have : 0 ≤ |R| := abs_nonneg R
  nlinarith

/-- the limit of `rho` for phase data -/
noncomputable def rhoPhase (m : ℕ) : Kind → ℝ
  | .wpm => 0
  | .wfm => 0
  | .rwfm => ((m : ℝ) ^ 2 - 1) / (5 * (m : ℝ) ^ 2 + 1)

/-- the limit of `rho` for frequency data -/
noncomputable def rhoFreq (m : ℕ) : Kind → ℝ
  | .wpm => -1
  | .wfm => 0
  | .rwfm => ((m : ℝ) ^ 2 - 1) / (5 * (m : ℝ) ^ 2 + 1)

omit [MeasurableSpace Ω] [IsProbabilityMeasure P] h in
theorem rho_walk (hm : 0 < m) {γ η : ℝ} {t : ℝ} (ht : 0 < t) (hγ : γ = t * (m * (2 * m ^ 2 + 1) / 3)) (hη : η = t * (m * (m ^ 2 + 1))) :
    0 < γ ∧ η < 4 * γ ∧ (γ - η / 2) / (2 * γ - η / 2) = ((m : ℝ) ^ 2 - 1) / (5 * (m : ℝ) ^ 2 + 1) := by
  have hm0 : (0 : ℝ) < m := by exact_mod_cast hm
  have h1 : 0 < γ := by rw [hγ]; positivity
  have h2 : η < 4 * γ := by
    have : 0 < t * (m * (5 * m ^ 2 + 1) / 3) := by positivity
    rw [hγ, hη]
    linarith
  refine ⟨h1, h2, ?_⟩
  rw [div_eq_div_iff (by linarith) (by positivity), hγ, hη]
  ring

theorem phase_ident {fit : List ℝ → ℕ → ℕ → ℝ} (hfit : IsLSFit fit) (hs : 0 < s2) (hm : 0 < m) (k : Kind) {κ : ℝ} (hκ : 0 < κ) :
    Identified P fit (order k) κ (rhoPhase m k) (deci k W m) := by
  have hm0 : (0 : ℝ) < m := by exact_mod_cast hm
  have hs' : (0 : ℝ) < s2 := hs
  cases k
  case wpm =>
    obtain ⟨h1, h2, -⟩ := wpm_moments h hm
    have := ident0_mf hfit h (deci_wpm m) hm h1 h2 hs' (by linarith) hκ
    rwa [show ((s2 : ℝ) - 2 * s2 / 2) / (2 * s2 - 2 * s2 / 2) = 0 by ring] at this
  case wfm =>
    obtain ⟨h1, h2, h3⟩ := wfm_moments h (m := m)
    have hγ : 0 < (m : ℝ) * s2 := by positivity
    have := ident1_mf hfit h (deci_wfm m) hm h1 h2 hγ (by linarith) (fun R => by
      obtain ⟨L, hL⟩ := exists_nat_gt (R / (6 * m * s2))
      refine ⟨L, _, ?_, h3 L⟩
      rw [div_lt_iff₀ (by positivity)] at hL
      linarith) hκ
    rwa [show ((m : ℝ) * s2 - 2 * m * s2 / 2) / (2 * (m * s2) - 2 * m * s2 / 2) = 0 by ring] at this
  case rwfm =>
    obtain ⟨h1, h2⟩ := rwfm_moments h (m := m)
    have h21 := h2 1
    rw [one_mul] at h21
    obtain ⟨g1, g2, g3⟩ := rho_walk hm hs' (γ := m * (2 * m ^ 2 + 1) / 3 * s2) (η := m * (m ^ 2 + 1) * s2) (by ring) (by ring)
    have := ident2_mf hfit h (deci_rwfm m) hm h1 h21 g1 g2 (fun L => (deci_rwfm m).d3_of_d2 L) (fun R => by
      obtain ⟨L, hL⟩ := exists_nat_gt (|R| / s2)
      rw [div_lt_iff₀ hs'] at hL
      have hL0 : (0 : ℝ) < L := by
        by_contra hneg
        have : (L : ℝ) * s2 ≤ 0 := mul_nonpos_of_nonpos_of_nonneg (not_lt.1 hneg) hs'.le
        linarith [abs_nonneg R]
      refine ⟨L, by exact_mod_cast hL0, _, ?_, h2 L⟩
      push_cast
      have hm1 : (1 : ℝ) ≤ m := by exact_mod_cast hm
      have hm3 : (1 : ℝ) ≤ (m : ℝ) ^ 3 := one_le_pow₀ hm1
      calc R * (L : ℝ) ^ 2 ≤ (L * s2) * (L : ℝ) ^ 2 :=
            mul_le_mul_of_nonneg_right ((le_abs_self R).trans hL.le) (by positivity)
        _ = (L : ℝ) ^ 3 * s2 * 1 := by ring
        _ ≤ (L : ℝ) ^ 3 * s2 * (m : ℝ) ^ 3 := mul_le_mul_of_nonneg_left hm3 (by positivity)
        _ ≤ (L : ℝ) ^ 3 * s2 * (m : ℝ) ^ 3 + L * m * s2 := le_add_of_nonneg_right (by positivity)
        _ = _ := by ring) hκ
    rwa [g3] at this

theorem freq_ident {fit : List ℝ → ℕ → ℕ → ℝ} (hfit : IsLSFit fit) (hs : 0 < s2) (hm : 0 < m) (k : Kind) {κ : ℝ} (hκ : 0 < κ) :
    Identified P fit (order k - 1) κ (rhoFreq m k) (fun j ω => (deci k W m (j + 1) ω - deci k W m j ω) / m) := by
  have hm0 : (0 : ℝ) < m := by exact_mod_cast hm
  have hs' : (0 : ℝ) < s2 := hs
  have hdiv : ∀ {f : ℕ → Ω → ℝ}, MF W m f → MF W m (fun j ω => f j ω / m) := fun hf =>
    (hf.smul (m : ℝ)⁻¹).congr fun j ω => by rw [div_eq_inv_mul]
  have hd : ∀ ω, (deci k W m (1 + 1) ω - deci k W m 1 ω) / m - (deci k W m (0 + 1) ω - deci k W m 0 ω) / m
      = d2 (fun j => deci k W m j ω) 1 0 / m := fun ω => by
    simp only [Spec.d2, mul_one, zero_add]
    ring_nf
  cases k
  case wpm =>
    obtain ⟨h1, h2, h3⟩ := wpm_moments h hm
    have hγ : 0 < 2 * (s2 : ℝ) / (m : ℝ) ^ 2 := by positivity
    have := ident0_mf hfit h (hdiv (((deci_wpm m).shift 1).sub (deci_wpm m))) hm (meanSq_div h2 m)
      (meanSq_congr (fun ω => by rw [hd]) (meanSq_div h3 m)) hγ (by
        rw [show 6 * (s2 : ℝ) / (m : ℝ) ^ 2 = 3 * (2 * s2 / (m : ℝ) ^ 2) by ring]
        linarith) hκ
    have e : (2 * (s2 : ℝ) / (m : ℝ) ^ 2 - 6 * s2 / (m : ℝ) ^ 2 / 2) / (2 * (2 * s2 / (m : ℝ) ^ 2) - 6 * s2 / (m : ℝ) ^ 2 / 2) = -1 := by
      rw [div_eq_iff (by rw [show 6 * (s2 : ℝ) / (m : ℝ) ^ 2 = 3 * (2 * s2 / (m : ℝ) ^ 2) by ring]; linarith)]
      ring
    rwa [e] at this
  case wfm =>
    obtain ⟨h1, h2, h3⟩ := wfm_moments h (m := m)
    have hγ : 0 < (m : ℝ) * s2 / (m : ℝ) ^ 2 := by positivity
    have := ident0_mf hfit h (hdiv (deci_wfm m)) hm (meanSq_div h1 m)
      (meanSq_congr (fun ω => by rw [hd]) (meanSq_div h2 m)) hγ (by
        rw [show 2 * (m : ℝ) * (s2 : ℝ) / (m : ℝ) ^ 2 = 2 * (m * s2 / (m : ℝ) ^ 2) by ring]
        linarith) hκ
    rwa [show ((m : ℝ) * s2 / (m : ℝ) ^ 2 - 2 * m * s2 / (m : ℝ) ^ 2 / 2)
        / (2 * (m * s2 / (m : ℝ) ^ 2) - 2 * m * s2 / (m : ℝ) ^ 2 / 2) = 0 by ring] at this
  case rwfm =>
    obtain ⟨h1, h2⟩ := rwfm_moments h (m := m)
    have h21 := h2 1
    rw [one_mul] at h21
    obtain ⟨g1, g2, g3⟩ := rho_walk hm (show 0 < (s2 : ℝ) / (m : ℝ) ^ 2 by positivity)
      (γ := m * (2 * m ^ 2 + 1) / 3 * s2 / (m : ℝ) ^ 2) (η := m * (m ^ 2 + 1) * s2 / (m : ℝ) ^ 2) (by ring) (by ring)
    have hE : MF W m (fun j ω => (deci .rwfm W m (j + 1 + 1) ω - deci .rwfm W m (j + 1) ω) / m
        - (deci .rwfm W m (j + 1) ω - deci .rwfm W m j ω) / m) := (hdiv (deci_rwfm m)).congr fun j ω => by
      simp only [Spec.d2, mul_one, show j + 1 + 1 = j + 2 from rfl]
      ring
    have := ident1_mf hfit h hE hm (meanSq_congr (fun ω => by rw [hd]) (meanSq_div h1 m))
      (meanSq_congr (fun ω => by
        have : d2 (fun j => (deci .rwfm W m (j + 1) ω - deci .rwfm W m j ω) / m) 1 0 = d3 (fun j => deci .rwfm W m j ω) 1 0 / m := by
          simp only [Spec.d2, Spec.d3, mul_one, zero_add]
          ring_nf
        rw [this]) (meanSq_div h21 m)) g1 g2 (walk_far h hs hm) hκ
    rwa [g3] at this

end kinds

/-! ## The results -/

theorem prepare_phase_tab (fit : List ℝ → ℕ → ℕ → ℝ) (N : ℕ) (X : ℕ → ℝ) {m : ℕ} (hm : 0 < m) :
    noise_id_prepare fit (tab N X) m "phase" = detrend fit (tab ((N + m - 1) / m) (fun j => X (j * m))) 2 := by
  unfold noise_id_prepare
  rw [if_pos rfl]
  by_cases h1 : 1 < m
  · rw [if_pos h1, show (0 : ℤ) = ((0 : ℕ) : ℤ) from rfl, sliceStep_tab _ _ _ _ hm]
    simp only [ok_bind, Nat.sub_zero, zero_add]
  · obtain rfl : m = 1 := by omega
    rw [if_neg h1]
    simp only [ok_bind, Nat.add_sub_cancel, Nat.div_one, mul_one]

theorem prepare_freq_tab (fit : List ℝ → ℕ → ℕ → ℝ) (N : ℕ) (Y : ℕ → ℝ) {m : ℕ} (hm : 0 < m) :
    noise_id_prepare fit (tab N Y) m "freq" = detrend fit (tab (N / m) (fun j => (∑ u ∈ range m, Y (j * m + u)) / m)) 1 := by
  unfold noise_id_prepare
  rw [if_neg (by decide), if_pos rfl, if_neg (by omega)]
  congr 1
  unfold groupMeans
  rw [tab_length]
  refine tab_congr fun j hj => ?_
  have h1 : j * m + m ≤ N := by
    have := (Nat.le_div_iff_mul_le hm).1 (show j + 1 ≤ N / m by omega)
    rw [add_mul, one_mul] at this
    exact this
  rw [slice_tab _ _ _ _ h1, npMean, tab_length, sum_tab, Nat.add_sub_cancel_left]

theorem rho_bounds (m : ℕ) (hm : 0 < m) :
    0 ≤ ((m : ℝ) ^ 2 - 1) / (5 * (m : ℝ) ^ 2 + 1) ∧ ((m : ℝ) ^ 2 - 1) / (5 * (m : ℝ) ^ 2 + 1) ≤ 1 / 5 := by
  have hm1 : (1 : ℝ) ≤ (m : ℝ) ^ 2 := one_le_pow₀ (by exact_mod_cast hm)
  refine ⟨div_nonneg (by linarith) (by positivity), ?_⟩
  rw [div_le_div_iff₀ (by positivity) (by norm_num)]
  linarith

section results

variable {Ω : Type} [MeasurableSpace Ω] {P : Measure Ω} [IsProbabilityMeasure P] {W : ℕ → Ω → ℝ} {s2 : ℝ≥0}

/-- C79: phase data.  Normal white phase noise, white frequency noise or random walk of the frequency, with any
quadratic trend, is identified: the exponent returned is the one of the noise, after as many differences as its order,
and the estimate before rounding is near its limit, with a probability that tends to 1 -/
theorem noise_id_phase_ok {fit : List ℝ → ℕ → ℕ → ℝ} (hfit : IsLSFit fit) (h : NormalNoise P W s2) (hs : 0 < s2) (k : Kind) (a b c : ℝ)
    {af : ℕ} (haf : 0 < af) {dmax : ℤ} (hd : order k ≤ dmax) {ε δ : ℝ} (hε : 0 < ε) (hδ : 0 < δ) :
    ∀ᶠ N in atTop, P {ω | ¬ ∃ α ρ, autocorr_noise_id fit
        (tab N (fun i => a + b * i + c * (i : ℝ) ^ 2 + noise k (fun j => W j ω) i)) af "phase" 0 dmax
          = .ok (alphaOf k, α, order k, ρ) ∧ |α - alphaLimit af k| < ε} ≤ ENNReal.ofReal δ := by
  have hκ : 0 < min (1 / 20) (ε / 2) := lt_min (by norm_num) (half_pos hε)
  have hu : Tendsto (fun N : ℕ => (N + af - 1) / af) atTop atTop :=
    tendsto_atTop_atTop.2 fun q => ⟨q * af, fun N hN => (Nat.le_div_iff_mul_le haf).2 (by omega)⟩
  have h1 := ((phase_ident h hfit hs haf k hκ).comp hu).mono (F := fun N ω => ∃ α ρ, autocorr_noise_id fit
        (tab N (fun i => a + b * i + c * (i : ℝ) ^ 2 + noise k (fun j => W j ω) i)) af "phase" 0 dmax
          = .ok (alphaOf k, α, order k, ρ) ∧ |α - alphaLimit af k| < ε) ?_
  · exact h1 δ hδ
  filter_upwards [hu.eventually (eventually_ge_atTop 30), hu.eventually (eventually_gt_atTop dmax.toNat)] with N hN hN2 ω hω
  obtain ⟨x, g1, g2, g3⟩ := hω 2 a (b * af) (c * (af : ℝ) ^ 2) (Or.inl rfl)
  have hx : noise_id_prepare fit (tab N (fun i => a + b * i + c * (i : ℝ) ^ 2 + noise k (fun j => W j ω) i)) af "phase" = .ok x := by
    rw [prepare_phase_tab fit N _ haf, ← g1]
    congr 1
    refine tab_congr fun j _ => ?_
    simp only [deci]
    push_cast
    ring
  obtain ⟨r0, r1⟩ := rho_bounds af haf
  obtain ⟨α, ρ, e1, e2⟩ := ident_det fit _ x af "phase" hx (by omega) (by omega) hd g3 (min_le_left _ _) (z := 0)
    (by cases k <;> simp only [rhoPhase] <;> rw [← le_sub_iff_add_le, abs_le] <;> constructor <;> push_cast <;>
      linarith [min_le_left (1 / 20) (ε / 2)])
    (by cases k <;> simp only [rhoPhase] <;> linarith)
  refine ⟨α, ρ, ?_, ?_⟩
  · rw [e1]
    cases k <;> rfl
  · have e3 : alphaLimit af k = -2 * (rhoPhase af k + order k) + (if "phase" = "phase" then 2 else 0) := by
      rw [if_pos rfl]
      cases k <;> simp only [alphaLimit, rhoPhase, order] <;> push_cast <;> ring
    rw [e3]
    refine e2.trans_le ?_
    linarith [min_le_right (1 / 20) (ε / 2)]

/-- C79: frequency data, with any linear trend: the same exponents and estimates, after one difference less
(but not less than none) -/
theorem noise_id_freq_ok {fit : List ℝ → ℕ → ℕ → ℝ} (hfit : IsLSFit fit) (h : NormalNoise P W s2) (hs : 0 < s2) (k : Kind) (a b : ℝ)
    {af : ℕ} (haf : 0 < af) {dmax : ℤ} (hd : (order k - 1 : ℕ) ≤ dmax) {ε δ : ℝ} (hε : 0 < ε) (hδ : 0 < δ) :
    ∀ᶠ N in atTop, P {ω | ¬ ∃ α ρ, autocorr_noise_id fit
        (tab N (fun i => a + b * i + (noise k (fun j => W j ω) (i + 1) - noise k (fun j => W j ω) i))) af "freq" 0 dmax
          = .ok (alphaOf k, α, (order k - 1 : ℕ), ρ) ∧ |α - alphaLimit af k| < ε} ≤ ENNReal.ofReal δ := by
  have haf0 : (0 : ℝ) < af := by exact_mod_cast haf
  have hκ : 0 < min (1 / 20) (ε / 2) := lt_min (by norm_num) (half_pos hε)
  have hu : Tendsto (fun N : ℕ => N / af) atTop atTop :=
    tendsto_atTop_atTop.2 fun q => ⟨q * af, fun N hN => (Nat.le_div_iff_mul_le haf).2 (by omega)⟩
  have h1 := ((freq_ident h hfit hs haf k hκ).comp hu).mono (F := fun N ω => ∃ α ρ, autocorr_noise_id fit
        (tab N (fun i => a + b * i + (noise k (fun j => W j ω) (i + 1) - noise k (fun j => W j ω) i))) af "freq" 0 dmax
          = .ok (alphaOf k, α, (order k - 1 : ℕ), ρ) ∧ |α - alphaLimit af k| < ε) ?_
  · exact h1 δ hδ
  filter_upwards [hu.eventually (eventually_ge_atTop 30), hu.eventually (eventually_gt_atTop dmax.toNat)] with N hN hN2 ω hω
  obtain ⟨x, g1, g2, g3⟩ := hω 1 (a + b * (∑ u ∈ range af, (u : ℝ)) / af) (b * af) 0 (Or.inr ⟨rfl, rfl⟩)
  have hx : noise_id_prepare fit (tab N (fun i => a + b * i + (noise k (fun j => W j ω) (i + 1) - noise k (fun j => W j ω) i))) af "freq"
      = .ok x := by
    rw [prepare_freq_tab fit N _ haf, ← g1]
    congr 1
    refine tab_congr fun j _ => ?_
    have e1 := sum_range_sub (fun u => noise k (fun j => W j ω) (j * af + u)) af
    simp only [add_zero, ← add_assoc] at e1
    simp only [deci]
    rw [sum_add_distrib, e1, add_mul, one_mul]
    have e2 : ∑ u ∈ range af, (a + b * ((j * af + u : ℕ) : ℝ)) = af * (a + b * (j * af)) + b * ∑ u ∈ range af, (u : ℝ) := by
      rw [mul_sum]
      have : ∀ u ∈ range af, a + b * ((j * af + u : ℕ) : ℝ) = (a + b * (j * af)) + b * u := fun u _ => by push_cast; ring
      rw [sum_congr rfl this, sum_add_distrib, sum_const, card_range, nsmul_eq_mul]
    rw [e2]
    field_simp
    ring
  obtain ⟨r0, r1⟩ := rho_bounds af haf
  obtain ⟨α, ρ, e1, e2⟩ := ident_det fit _ x af "freq" hx (by omega) (by omega) hd g3 (min_le_left _ _)
    (z := if k = .wpm then -2 else 0)
    (by cases k <;> simp only [rhoFreq, reduceCtorEq, if_true, if_false] <;> rw [← le_sub_iff_add_le, abs_le] <;> constructor <;> push_cast <;>
      linarith [min_le_left (1 / 20) (ε / 2)])
    (by cases k <;> simp only [rhoFreq] <;> linarith)
  refine ⟨α, ρ, ?_, ?_⟩
  · rw [e1]
    cases k <;> rfl
  · have e3 : alphaLimit af k = -2 * (rhoFreq af k + (order k - 1 : ℕ)) + (if "freq" = "phase" then 2 else 0) := by
      rw [if_neg (by decide)]
      cases k <;> simp only [alphaLimit, rhoFreq, order] <;> push_cast <;> ring
    rw [e3]
    refine e2.trans_le ?_
    linarith [min_le_right (1 / 20) (ε / 2)]

/-- C79: the confidence interval is then the one of the true noise, for each deviation that can tell it -/
theorem ci_noise_id_ok {fit : List ℝ → ℕ → ℕ → ℝ} (hfit : IsLSFit fit) (h : NormalNoise P W s2) (hs : 0 < s2) (k : Kind) (a b c : ℝ)
    {af : ℕ} (haf : 0 < af) (ppf : ℝ → ℝ → NV) (dev : ℕ → Ω → ℝ) (ci : ℝ) {dev_type : String} {d : ℕ} {ov md : Bool}
    (hf : ciFlags dev_type = some (d, ov, md)) {δ : ℝ} (hδ : 0 < δ) :
    ∀ᶠ N in atTop, P {ω | ¬ ∀ edf, edf_greenhall (alphaOf k) d af N ov md = .ok (some edf) →
      confidence_interval_noiseID ppf fit (tab N (fun i => a + b * i + c * (i : ℝ) ^ 2 + noise k (fun j => W j ω) i)) (dev N ω) af
        dev_type "phase" ci = .ok (confidence_interval ppf (dev N ω) edf ci)} ≤ ENNReal.ofReal δ := by
  have hd : (order k : ℤ) ≤ d := by
    have h2 : 2 ≤ d := by
      unfold ciFlags at hf
      split_ifs at hf <;> simp only [Option.some.injEq, Prod.mk.injEq] at hf <;> omega
    cases k <;> simp only [order] <;> omega
  filter_upwards [noise_id_phase_ok hfit h hs k a b c haf hd one_pos hδ] with N hN
  refine (measure_mono fun ω hω => ?_).trans hN
  simp only [Set.mem_ofPred_eq] at hω ⊢
  rintro ⟨α, ρ, e1, -⟩
  refine hω fun edf he => ?_
  exact confidence_interval_noiseID_eq ppf fit _ _ _ _ _ _ d ov md hf _ _ e1 edf (by rw [tab_length]; exact he)

end results

/-- ten averaging factors, unit normal random walk of the frequency: the result is -2 with two differences -/
example {fit : List ℝ → ℕ → ℕ → ℝ} (hfit : IsLSFit fit) :
    ∀ᶠ N in atTop, gaussNoise {ω | ¬ ∃ α ρ, autocorr_noise_id fit
        (tab N (fun i => 1 + 2 * i + 3 * (i : ℝ) ^ 2 + noise .rwfm (fun j => ω j) i)) 10 "phase" 0 2
          = .ok (-2, α, 2, ρ) ∧ |α - (-2 - 2 * (10 ^ 2 - 1) / (5 * 10 ^ 2 + 1))| < 0.01} ≤ ENNReal.ofReal 0.001 := by
  have := noise_id_phase_ok hfit normal_gauss one_pos .rwfm 1 2 3 (af := 10) (by norm_num) (dmax := 2) (by simp [order])
    (ε := 0.01) (δ := 0.001) (by norm_num) (by norm_num)
  simpa only [alphaLimit, alphaOf, order, Nat.cast_ofNat] using this

example : ∃ fit, IsLSFit fit := exists_isLSFit

/-- white phase noise given as frequency data -/
example {fit : List ℝ → ℕ → ℕ → ℝ} (hfit : IsLSFit fit) :
    ∀ᶠ N in atTop, gaussNoise {ω | ¬ ∃ α ρ, autocorr_noise_id fit
        (tab N (fun i => 1 + 2 * i + (ω (i + 1) - ω i))) 3 "freq" 0 2
          = .ok (2, α, 0, ρ) ∧ |α - 2| < 0.01} ≤ ENNReal.ofReal 0.001 :=
  noise_id_freq_ok hfit normal_gauss one_pos .wpm 1 2 (af := 3) (by norm_num) (dmax := 2) (by simp [order]) (by norm_num) (by norm_num)

/-- the interval of the overlapping Allan deviation of white frequency noise is the one for exponent 0 -/
example {fit : List ℝ → ℕ → ℕ → ℝ} (hfit : IsLSFit fit) (ppf : ℝ → ℝ → NV) (dev : ℕ → (ℕ → ℝ) → ℝ) :
    ∀ᶠ N in atTop, gaussNoise {ω | ¬ ∀ edf, edf_greenhall 0 2 4 N true false = .ok (some edf) →
      confidence_interval_noiseID ppf fit (tab N (fun i => 1 + 2 * i + 3 * (i : ℝ) ^ 2 + ∑ j ∈ range i, ω j)) (dev N ω) 4
        "oadev" "phase" 0.9 = .ok (confidence_interval ppf (dev N ω) edf 0.9)} ≤ ENNReal.ofReal 0.001 :=
  ci_noise_id_ok hfit normal_gauss one_pos .wfm 1 2 3 (by norm_num) ppf dev 0.9 (dev_type := "oadev") (by decide) (by norm_num)

end AT
