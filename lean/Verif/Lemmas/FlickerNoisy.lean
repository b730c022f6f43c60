import Verif.Lemmas.Ident
import Verif.Props.KasdinSettle

/-!
# Flicker phase noise, its differences and their size
-/

namespace AT

open Spec Finset MeasureTheory ProbabilityTheory Filter
open scoped NNReal ENNReal

/-! ## Odd harmonic sums -/

theorem oddSum_mono {a b : ℕ} (h : a ≤ b) : oddSum a ≤ oddSum b :=
  sum_le_sum_of_subset_of_nonneg (range_mono h) fun _ _ _ => by positivity

theorem oddSum_atTop : Tendsto oddSum atTop atTop := by
  have h1 := oddSum_log.add_atTop ((Real.tendsto_log_atTop.comp tendsto_natCast_atTop_atTop).atTop_div_const (show (0 : ℝ) < 2 by norm_num))
  refine h1.congr fun n => ?_
  simp only [Function.comp]
  ring

theorem oddSum_add_le (a t : ℕ) : oddSum (a + t) ≤ oddSum a + t / (2 * a + 1) := by
  induction t with
  | zero => simp
  | succ t ih =>
    rw [← add_assoc, oddSum_succ]
    have h1 : 1 / (2 * ((a + t : ℕ) : ℝ) + 1) ≤ 1 / (2 * a + 1) := by
      refine one_div_le_one_div_of_le (by positivity) ?_
      push_cast
      have : (0 : ℝ) ≤ t := Nat.cast_nonneg t
      linarith
    have e : ((t + 1 : ℕ) : ℝ) / (2 * a + 1) = t / (2 * a + 1) + 1 / (2 * a + 1) := by push_cast; ring
    rw [e]
    linarith

/-- sums over pairs of samples of two blocks of length `c` at distance `z` -/
noncomputable def blockO (c : ℕ) (z : ℤ) : ℝ := ∑ k ∈ range c, ∑ l ∈ range c, zO (z + k - l)

theorem blockO_neg (c : ℕ) (z : ℤ) : blockO c (-z) = blockO c z := by
  unfold blockO
  rw [sum_comm]
  refine sum_congr rfl fun k _ => sum_congr rfl fun l _ => ?_
  rw [← zO_neg]
  congr 1
  ring

theorem blockO_le (c z : ℕ) : blockO c z ≤ (c : ℝ) ^ 2 * oddSum (z + c) := by
  have h1 : ∀ k ∈ range c, ∑ l ∈ range c, zO ((z : ℤ) + k - l) ≤ c * oddSum (z + c) := fun k hk => by
    refine (sum_le_card_nsmul _ _ (oddSum (z + c)) fun l hl => ?_).trans_eq (by rw [card_range, nsmul_eq_mul])
    have := mem_range.1 hk
    have := mem_range.1 hl
    exact oddSum_mono (by omega)
  exact (sum_le_card_nsmul _ _ _ h1).trans_eq (by rw [card_range, nsmul_eq_mul]; ring)

theorem le_blockO {c z : ℕ} (hz : c ≤ z) : (c : ℝ) ^ 2 * oddSum (z - c) ≤ blockO c z := by
  have h1 : ∀ k ∈ range c, c * oddSum (z - c) ≤ ∑ l ∈ range c, zO ((z : ℤ) + k - l) := fun k hk => by
    refine Eq.trans_le (by rw [card_range, nsmul_eq_mul]) (card_nsmul_le_sum _ _ (oddSum (z - c)) fun l hl => ?_)
    have := mem_range.1 hk
    have := mem_range.1 hl
    exact oddSum_mono (by omega)
  exact Eq.trans_le (by rw [card_range, nsmul_eq_mul]; ring) (card_nsmul_le_sum _ _ _ h1)

/-- a form in the sums of blocks -/
theorem form_blocks (n c M r : ℕ) (w : ℕ → ℝ) :
    ∑ x ∈ range n ×ˢ range c, ∑ y ∈ range n ×ˢ range c,
      w x.1 * w y.1 * zO (((x.1 * M + x.2 + r : ℕ) : ℤ) - ((y.1 * M + y.2 + r : ℕ) : ℤ))
    = ∑ u ∈ range n, ∑ v ∈ range n, w u * w v * blockO c (((u * M : ℕ) : ℤ) - ((v * M : ℕ) : ℤ)) := by
  rw [sum_product]
  refine sum_congr rfl fun u _ => ?_
  have : ∀ k ∈ range c, ∑ y ∈ range n ×ˢ range c, w u * w y.1 * zO (((u * M + k + r : ℕ) : ℤ) - ((y.1 * M + y.2 + r : ℕ) : ℤ))
      = ∑ v ∈ range n, ∑ l ∈ range c, w u * w v * zO (((u * M : ℕ) : ℤ) - ((v * M : ℕ) : ℤ) + k - l) := fun k _ => by
    rw [sum_product]
    refine sum_congr rfl fun v _ => sum_congr rfl fun l _ => ?_
    congr 2
    push_cast
    ring
  rw [sum_congr rfl this, sum_comm]
  refine sum_congr rfl fun v _ => ?_
  unfold blockO
  rw [mul_sum]
  exact sum_congr rfl fun k _ => by rw [mul_sum]

/-- the differences of distant blocks grow without bound -/
theorem blocks_far {c m : ℕ} (hc : 0 < c) (hm : 0 < m) (r : ℕ) (R : ℝ) : ∃ L : ℕ, R ≤
    -∑ x ∈ range 4 ×ˢ range c, ∑ y ∈ range 4 ×ˢ range c,
      w3 x.1 * w3 y.1 * zO (((x.1 * (L * m) + x.2 + r : ℕ) : ℤ) - ((y.1 * (L * m) + y.2 + r : ℕ) : ℤ)) := by
  obtain ⟨n0, hn0⟩ := (tendsto_atTop.1 oddSum_atTop ((|R| + 24 + 20 * oddSum c) / 18)).exists_forall_of_atTop
  refine ⟨n0 + 2 * c, ?_⟩
  rw [form_blocks, form_w3 (blockO c) (blockO_neg c)]
  set M := (n0 + 2 * c) * m with hM
  have hM1 : n0 + 2 * c ≤ M := Nat.le_mul_of_pos_right _ hm
  have h1 := hn0 (M - c) (by omega)
  rw [div_le_iff₀ (by norm_num)] at h1
  have h2 := le_blockO (c := c) (z := M) (by omega)
  have h3 := blockO_le c (2 * M)
  have h4 := le_blockO (c := c) (z := 3 * M) (by omega)
  have h5 := blockO_le c 0
  have h6 : oddSum (2 * M + c) ≤ oddSum (M - c) + 2 := by
    have := oddSum_add_le (M - c) (M + 2 * c)
    rw [show M - c + (M + 2 * c) = 2 * M + c by omega] at this
    refine this.trans (add_le_add_right ?_ _)
    rw [div_le_iff₀ (by positivity), Nat.cast_sub (by omega)]
    have : (2 * c : ℝ) ≤ M := by exact_mod_cast (show 2 * c ≤ M by omega)
    push_cast
    linarith
  have hc1 : (1 : ℝ) ≤ (c : ℝ) ^ 2 := one_le_pow₀ (by exact_mod_cast hc)
  have h7 : 0 ≤ (c : ℝ) ^ 2 * oddSum (3 * M - c) := mul_nonneg (by positivity) (oddSum_nonneg _)
  push_cast at h2 h3 h4 h5
  rw [zero_add] at h5
  have h8 : (c : ℝ) ^ 2 * oddSum (2 * M + c) ≤ (c : ℝ) ^ 2 * (oddSum (M - c) + 2) := mul_le_mul_of_nonneg_left h6 (by positivity)
  have h9 : (c : ℝ) ^ 2 * (|R| + 24 + 20 * oddSum c) ≤ (c : ℝ) ^ 2 * (oddSum (M - c) * 18) := mul_le_mul_of_nonneg_left h1 (by positivity)
  have h10 : 1 * |R| ≤ (c : ℝ) ^ 2 * |R| := mul_le_mul_of_nonneg_right hc1 (abs_nonneg R)
  have := le_abs_self R
  linarith

/-! ## Moments -/

section moments

variable {Ω : Type} [MeasurableSpace Ω] {P : Measure Ω} [IsProbabilityMeasure P] {W : ℕ → Ω → ℝ} {s2 : ℝ≥0}

/-- flicker phase noise -/
noncomputable def Fl (W : ℕ → Ω → ℝ) (p : ℕ) (ω : Ω) : ℝ := kasdinNoise (-1) (fun k => W k ω) p

omit [MeasurableSpace Ω] in
theorem Fl_lin (W : ℕ → Ω → ℝ) {p K : ℕ} (hp : p < K) : Fl W p = Lin W K (fcoef p) :=
  funext fun _ => kasdinNoise_fcoef _ hp

omit [IsProbabilityMeasure P] in
theorem AllLp.sub {f g : Ω → ℝ} (hf : AllLp P f) (hg : AllLp P g) : AllLp P (fun ω => f ω - g ω) := fun p => (hf p).sub (hg p)

variable (h : NormalNoise P W s2)
include h

omit [IsProbabilityMeasure P] in
theorem fl_allLp (p : ℕ) : AllLp P (Fl W p) := by
  rw [Fl_lin W (Nat.lt_succ_self p)]
  exact lin_allLp h _ _

theorem fl_prod (p q : ℕ) : ∫ ω, Fl W p ω * Fl W q ω ∂P = s2 * fcov p q := by
  rw [Fl_lin W (show p < p + q + 1 by omega), Fl_lin W (show q < p + q + 1 by omega), lin_prod h, fcoef_mul (by omega)]

omit [IsProbabilityMeasure P] h in
theorem hm1_le_one (k : ℕ) : kasdinH (-1) k ≤ 1 := by
  have := hm1_anti (Nat.zero_le k)
  rwa [hm1_zero] at this

omit [IsProbabilityMeasure P] h in
theorem fcov_self (p : ℕ) : fcov p p = ∑ k ∈ range (p + 1), kasdinH (-1) k ^ 2 := by
  have := fcov_le (p := p) (n := 0)
  simp only [add_zero] at this
  rw [this]
  exact sum_congr rfl fun k _ => (pow_two _).symm

theorem fl_sq_le (p : ℕ) : ∫ ω, Fl W p ω ^ 2 ∂P ≤ s2 * (p + 1) := by
  simp only [pow_two]
  rw [fl_prod h, fcov_self]
  refine mul_le_mul_of_nonneg_left ?_ s2.2
  refine (sum_le_card_nsmul _ _ 1 fun k _ => pow_le_one₀ (hm1_pos k).le (hm1_le_one k)).trans_eq ?_
  rw [card_range, nsmul_eq_mul]
  push_cast
  ring

theorem fl_diff_le (p m : ℕ) : ∫ ω, (Fl W (p + m) ω - Fl W p ω) ^ 2 ∂P ≤ s2 * (3 * m) := by
  have hi : ∀ a b, Integrable (fun ω => Fl W a ω * Fl W b ω) P := fun a b => ((fl_allLp h a).mul (fl_allLp h b)).int
  have e : ∀ ω, (Fl W (p + m) ω - Fl W p ω) ^ 2
      = Fl W (p + m) ω * Fl W (p + m) ω - 2 * (Fl W p ω * Fl W (p + m) ω) + Fl W p ω * Fl W p ω := fun ω => by ring
  simp only [e]
  have i2 : Integrable (fun ω => Fl W (p + m) ω * Fl W (p + m) ω - 2 * (Fl W p ω * Fl W (p + m) ω)) P := (hi _ _).sub ((hi _ _).const_mul 2)
  rw [integral_add i2 (hi _ _), integral_sub (hi _ _) ((hi _ _).const_mul 2),
    integral_const_mul, fl_prod h, fl_prod h, fl_prod h]
  have h1 := (abs_le.1 (fcov_lip (p := p) (n := 0) m)).1
  have h2 : fcov (p + m) (p + m) - fcov p p ≤ m := by
    rw [fcov_self, fcov_self, show p + m + 1 = p + 1 + m by ring, sum_range_add, add_sub_cancel_left]
    refine (sum_le_card_nsmul _ _ 1 fun k _ => pow_le_one₀ (hm1_pos _).le (hm1_le_one _)).trans_eq ?_
    rw [card_range, nsmul_eq_mul, mul_one]
  simp only [add_zero, Nat.cast_zero, mul_zero, zero_add, div_one] at h1
  have h3 : fcov (p + m) (p + m) - 2 * fcov p (p + m) + fcov p p ≤ 3 * m := by linarith
  have := mul_le_mul_of_nonneg_left h3 s2.2
  calc _ = (s2 : ℝ) * (fcov (p + m) (p + m) - 2 * fcov p (p + m) + fcov p p) := by ring
    _ ≤ _ := this

/-- the law of large numbers for a form with weights of sum 0 -/
theorem flicker_whp {ι : Type} (s : Finset ι) (c : ι → ℝ) (p : ι → ℕ) (hc : ∑ u ∈ s, c u = 0) {S : ℕ} (hS : 0 < S)
    {f : ℕ → Ω → ℝ} (hf : ∀ i ω, f i ω = ∑ u ∈ s, c u * Fl W (i * S + p u) ω) {v : ℝ}
    (hv : v = s2 * (2 / Real.pi * -∑ u ∈ s, ∑ v ∈ s, c u * c v * zO ((p u : ℤ) - p v))) {ε : ℝ} (hε : 0 < ε) :
    Whp P (fun n ω => |(∑ i ∈ range n, f i ω ^ 2) - n * v| ≤ ε * n) := by
  have h1 := flicker_lln h s c p hc hS ε hε
  refine h1.mono ?_
  filter_upwards [eventually_gt_atTop 0] with n hn ω hω
  have hn0 : (0 : ℝ) < n := by exact_mod_cast hn
  have e1 : ∑ i ∈ range n, f i ω ^ 2 = n * ((∑ i ∈ range n, (∑ u ∈ s, c u * kasdinNoise (-1) (fun k => W k ω) (i * S + p u)) ^ 2) / n) := by
    rw [mul_div_cancel₀ _ hn0.ne']
    exact sum_congr rfl fun i _ => by rw [hf]; rfl
  have e2 : v = s2 * (-(2 / Real.pi) * ∑ u ∈ s, ∑ v ∈ s, c u * c v * oddSum ((p u : ℤ) - p v).natAbs) := by
    rw [hv]
    simp only [zO]
    ring
  rw [e1, e2, ← mul_sub, abs_mul, abs_of_pos hn0, mul_comm ε]
  exact mul_le_mul_of_nonneg_left hω.le hn0.le

/-- sums of blocks of flicker noise: `c` samples from every `m`-th -/
noncomputable def Bl (W : ℕ → Ω → ℝ) (c m r j : ℕ) (ω : Ω) : ℝ := ∑ k ∈ range c, Fl W (j * m + k + r) ω

omit [IsProbabilityMeasure P] h [MeasurableSpace Ω] in
theorem bl_d1 (c m r j : ℕ) (ω : Ω) : Bl W c m r (j + 1) ω - Bl W c m r j ω
    = ∑ u ∈ range 2 ×ˢ range c, w1 u.1 * Fl W (j * m + (u.1 * m + u.2 + r)) ω := by
  rw [sum_product]
  simp only [sum_range_succ, sum_range_zero, w1, ← mul_sum]
  norm_num
  unfold Bl
  have e : ∀ k, (j + 1) * m + k + r = j * m + (m + k + r) := fun k => by ring
  have e' : ∀ k, j * m + k + r = j * m + (k + r) := fun k => by ring
  simp only [e, e']
  ring

omit [IsProbabilityMeasure P] h [MeasurableSpace Ω] in
theorem bl_d2 (c m r j : ℕ) (ω : Ω) : (Bl W c m r (j + 1 + 1) ω - Bl W c m r (j + 1) ω) - (Bl W c m r (j + 1) ω - Bl W c m r j ω)
    = ∑ u ∈ range 3 ×ˢ range c, w2 u.1 * Fl W (j * m + (u.1 * m + u.2 + r)) ω := by
  rw [sum_product]
  simp only [sum_range_succ, sum_range_zero, w2, ← mul_sum]
  norm_num
  unfold Bl
  have e : ∀ k, (j + 1) * m + k + r = j * m + (m + k + r) := fun k => by ring
  have e2 : ∀ k, (j + 2) * m + k + r = j * m + (2 * m + k + r) := fun k => by ring
  have e' : ∀ k, j * m + k + r = j * m + (k + r) := fun k => by ring
  simp only [show j + 1 + 1 = j + 2 from rfl, e, e2, e']
  ring

omit [IsProbabilityMeasure P] h [MeasurableSpace Ω] in
theorem bl_d3 (c m r L j : ℕ) (ω : Ω) : d3 (fun j => Bl W c m r j ω) L j
    = ∑ u ∈ range 4 ×ˢ range c, w3 u.1 * Fl W (j * m + (u.1 * (L * m) + u.2 + r)) ω := by
  rw [sum_product]
  have a0 : w3 0 = -1 := by norm_num [w3]
  have a1 : w3 1 = 3 := by norm_num [w3]
  have a2 : w3 2 = -3 := by norm_num [w3]
  have a3 : w3 3 = 1 := by norm_num [w3]
  simp only [sum_range_succ, sum_range_zero, ← mul_sum, d3, a0, a1, a2, a3, zero_mul, zero_add, one_mul]
  unfold Bl
  have e : ∀ k, (j + L) * m + k + r = j * m + (L * m + k + r) := fun k => by ring
  have e2 : ∀ k, (j + 2 * L) * m + k + r = j * m + (2 * (L * m) + k + r) := fun k => by ring
  have e3 : ∀ k, (j + 3 * L) * m + k + r = j * m + (3 * (L * m) + k + r) := fun k => by ring
  have e' : ∀ k, j * m + k + r = j * m + (k + r) := fun k => by ring
  simp only [e, e2, e3, e']
  ring

omit [IsProbabilityMeasure P] in
theorem bl_allLp (c m r j : ℕ) : AllLp P (Bl W c m r j) := AllLp.sum fun _ _ => fl_allLp h _

theorem bl_sq_le (c m r j : ℕ) : ∫ ω, Bl W c m r j ω ^ 2 ∂P ≤ s2 * (c ^ 2 * (j * m + c + r + 1)) := by
  have hi : ∀ p, Integrable (fun ω => Fl W p ω ^ 2) P := fun p => ((fl_allLp h p).pow 2).int
  calc ∫ ω, Bl W c m r j ω ^ 2 ∂P ≤ ∫ ω, (c : ℝ) * ∑ k ∈ range c, Fl W (j * m + k + r) ω ^ 2 ∂P :=
        integral_mono ((bl_allLp h c m r j).pow 2).int ((integrable_finsetSum _ fun k _ => hi _).const_mul _) fun ω => sq_sum_le _ _
    _ = (c : ℝ) * ∑ k ∈ range c, ∫ ω, Fl W (j * m + k + r) ω ^ 2 ∂P := by
        rw [integral_const_mul, integral_finsetSum _ fun k _ => hi _]
    _ ≤ (c : ℝ) * (c * (s2 * (j * m + c + r + 1))) := by
        refine mul_le_mul_of_nonneg_left ?_ (by positivity)
        refine (sum_le_card_nsmul _ (fun k => ∫ ω, Fl W (j * m + k + r) ω ^ 2 ∂P) (s2 * (j * m + c + r + 1) : ℝ) fun k hk => (fl_sq_le h (j * m + k + r)).trans ?_).trans_eq
          (by rw [card_range, nsmul_eq_mul])
        refine mul_le_mul_of_nonneg_left ?_ s2.2
        have : (k : ℝ) ≤ c := by exact_mod_cast (mem_range.1 hk).le
        push_cast
        linarith
    _ = _ := by ring

theorem bl_diff_le (c m r j : ℕ) : ∫ ω, (Bl W c m r (j + 1) ω - Bl W c m r j ω) ^ 2 ∂P ≤ s2 * (c ^ 2 * (3 * m)) := by
  have hi : ∀ p, Integrable (fun ω => (Fl W (p + m) ω - Fl W p ω) ^ 2) P := fun p => ((AllLp.sub (fl_allLp h _) (fl_allLp h _)).pow 2).int
  have e : ∀ ω, Bl W c m r (j + 1) ω - Bl W c m r j ω = ∑ k ∈ range c, (Fl W (j * m + k + r + m) ω - Fl W (j * m + k + r) ω) := fun ω => by
    unfold Bl
    rw [← sum_sub_distrib]
    exact sum_congr rfl fun k _ => by rw [show (j + 1) * m + k + r = j * m + k + r + m by ring]
  calc ∫ ω, (Bl W c m r (j + 1) ω - Bl W c m r j ω) ^ 2 ∂P
      ≤ ∫ ω, (c : ℝ) * ∑ k ∈ range c, (Fl W (j * m + k + r + m) ω - Fl W (j * m + k + r) ω) ^ 2 ∂P :=
        integral_mono ((AllLp.sub (bl_allLp h c m r (j + 1)) (bl_allLp h c m r j)).pow 2).int
          ((integrable_finsetSum _ fun k _ => hi _).const_mul _) fun ω => by
            simp only [e]
            exact sq_sum_le _ _
    _ = (c : ℝ) * ∑ k ∈ range c, ∫ ω, (Fl W (j * m + k + r + m) ω - Fl W (j * m + k + r) ω) ^ 2 ∂P := by
        rw [integral_const_mul, integral_finsetSum _ fun k _ => hi _]
    _ ≤ (c : ℝ) * (c * (s2 * (3 * m))) := by
        refine mul_le_mul_of_nonneg_left ?_ (by positivity)
        exact (sum_le_card_nsmul _ _ _ fun k _ => fl_diff_le h _ m).trans_eq (by rw [card_range, nsmul_eq_mul])
    _ = _ := by ring

/-- differences of neighbouring blocks are a noise -/
theorem bl_noisy {c m r : ℕ} (hm : 0 < m) {γ η : ℝ}
    (hγ : γ = s2 * (2 / Real.pi * -∑ x ∈ range 2 ×ˢ range c, ∑ y ∈ range 2 ×ˢ range c,
      w1 x.1 * w1 y.1 * zO (((x.1 * m + x.2 + r : ℕ) : ℤ) - ((y.1 * m + y.2 + r : ℕ) : ℤ))))
    (hη : η = s2 * (2 / Real.pi * -∑ x ∈ range 3 ×ˢ range c, ∑ y ∈ range 3 ×ˢ range c,
      w2 x.1 * w2 y.1 * zO (((x.1 * m + x.2 + r : ℕ) : ℤ) - ((y.1 * m + y.2 + r : ℕ) : ℤ)))) :
    Noisy P (fun i ω => Bl W c m r (i + 1) ω - Bl W c m r i ω) γ η where
  allLp := fun i => AllLp.sub (bl_allLp h c m r (i + 1)) (bl_allLp h c m r i)
  sq := fun hε => flicker_whp h (range 2 ×ˢ range c) (fun u => w1 u.1) (fun u => u.1 * m + u.2 + r) (wsum_prod w1_sum _) hm
    (fun i ω => bl_d1 c m r i ω) hγ hε
  diff := fun hε => flicker_whp h (range 3 ×ˢ range c) (fun u => w2 u.1) (fun u => u.1 * m + u.2 + r) (wsum_prod w2_sum _) hm
    (fun i ω => bl_d2 c m r i ω) hη hε
  sums := by
    refine ⟨2 * (s2 * (c ^ 2 * (m + c + r + 1)) + s2 * (c ^ 2 * (c + r + 1))), by positivity, fun n => ?_⟩
    have e : ∀ ω, ∑ i ∈ range n, (Bl W c m r (i + 1) ω - Bl W c m r i ω) = Bl W c m r n ω - Bl W c m r 0 ω := fun ω =>
      sum_range_sub (fun i => Bl W c m r i ω) n
    simp only [e]
    rcases Nat.eq_zero_or_pos n with rfl | hn
    · simp
    have hn1 : (1 : ℝ) ≤ n := by exact_mod_cast hn
    have hi : ∀ j, Integrable (fun ω => Bl W c m r j ω ^ 2) P := fun j => ((bl_allLp h c m r j).pow 2).int
    have h1 := bl_sq_le h c m r n
    have h2 := bl_sq_le h c m r 0
    have h3 : ∫ ω, (Bl W c m r n ω - Bl W c m r 0 ω) ^ 2 ∂P ≤ ∫ ω, 2 * (Bl W c m r n ω ^ 2 + Bl W c m r 0 ω ^ 2) ∂P :=
      integral_mono ((AllLp.sub (bl_allLp h c m r n) (bl_allLp h c m r 0)).pow 2).int (((hi n).add (hi 0)).const_mul 2) fun ω => by
        simp only
        nlinarith [sq_nonneg (Bl W c m r n ω + Bl W c m r 0 ω)]
    rw [integral_const_mul, integral_add (hi n) (hi 0)] at h3
    have h4 : (n : ℝ) * m + c + r + 1 ≤ n * (m + c + r + 1) := by nlinarith [show (0 : ℝ) ≤ c + r + 1 by positivity]
    have h5 : (s2 : ℝ) * (c ^ 2 * (n * m + c + r + 1)) ≤ n * (s2 * (c ^ 2 * (m + c + r + 1))) := by
      calc (s2 : ℝ) * (c ^ 2 * (n * m + c + r + 1)) ≤ s2 * (c ^ 2 * (n * (m + c + r + 1))) :=
            mul_le_mul_of_nonneg_left (mul_le_mul_of_nonneg_left h4 (by positivity)) s2.2
        _ = _ := by ring
    have h6 : (s2 : ℝ) * (c ^ 2 * (c + r + 1)) ≤ n * (s2 * (c ^ 2 * (c + r + 1))) := le_mul_of_one_le_left (by positivity) hn1
    simp only [Nat.cast_zero, zero_mul, zero_add] at h2
    linarith
  bound := ⟨_, fun i => bl_diff_le h c m r i⟩

/-- blocks of flicker noise that are far apart differ much -/
theorem bl_far (hs : 0 < s2) {c m : ℕ} (hc : 0 < c) (hm : 0 < m) (r : ℕ) (R : ℝ) : ∃ L : ℕ, ∃ v, R ≤ v ∧
    ∀ ε > 0, Whp P (fun n ω => |(∑ i ∈ range n, d3 (fun j => Bl W c m r j ω) L i ^ 2) - n * v| ≤ ε * n) := by
  have hs' : (0 : ℝ) < s2 := hs
  have hpi := Real.pi_pos
  obtain ⟨L, hL⟩ := blocks_far hc hm r (R / (s2 * (2 / Real.pi)))
  refine ⟨L, _, ?_, fun ε hε => flicker_whp h (range 4 ×ˢ range c) (fun u => w3 u.1) (fun u => u.1 * (L * m) + u.2 + r)
    (wsum_prod w3_sum _) hm (fun i ω => bl_d3 c m r L i ω) rfl hε⟩
  rw [div_le_iff₀ (by positivity)] at hL
  linarith

end moments

end AT
