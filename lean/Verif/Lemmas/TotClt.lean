import Verif.Props.Bars
import Verif.Props.EdfSimple
import Verif.Props.TotMean

/-!
# The total variance of a long record is close to the overlapping Allan variance (for C98)
-/

namespace AT

open Spec Finset MeasureTheory ProbabilityTheory Filter Topology
open scoped NNReal ENNReal

/-! ## The reflected ends are sums of second differences -/

theorem taylor2 (x : ℕ → ℝ) (R : ℕ) : ∀ n, n ≤ R →
    x n = x 0 + n * (x 1 - x 0) + ∑ i ∈ range R, ((n - 1 - i : ℕ) : ℝ) * d2 x 1 i := by
  intro n
  induction n using Nat.strong_induction_on with
  | _ n ih =>
    intro hn
    match n, ih, hn with
    | 0, _, _ => simp
    | 1, _, _ => simp
    | n + 2, ih, hn =>
      have h1 := ih (n + 1) (by omega) (by omega)
      have h0 := ih n (by omega) (by omega)
      have e : ∑ i ∈ range R, ((n + 2 - 1 - i : ℕ) : ℝ) * d2 x 1 i
          = 2 * ∑ i ∈ range R, ((n + 1 - 1 - i : ℕ) : ℝ) * d2 x 1 i - ∑ i ∈ range R, ((n - 1 - i : ℕ) : ℝ) * d2 x 1 i
            + d2 x 1 n := by
        have e1 : d2 x 1 n = ∑ i ∈ range R, if i = n then d2 x 1 i else 0 := by
          rw [sum_ite_eq' (range R) n, if_pos (mem_range.2 (by omega))]
        rw [e1, mul_sum, ← sum_sub_distrib, ← sum_add_distrib]
        refine sum_congr rfl fun i _ => ?_
        rcases lt_trichotomy i n with h | h | h
        · rw [if_neg (by omega), Nat.cast_sub (by omega : i ≤ n + 2 - 1), Nat.cast_sub (by omega : i ≤ n + 1 - 1),
            Nat.cast_sub (by omega : i ≤ n - 1), show n + 2 - 1 = n + 1 from rfl, show n + 1 - 1 = n from rfl,
            Nat.cast_sub (by omega : 1 ≤ n)]
          push_cast
          ring
        · subst h
          rw [if_pos rfl, show i + 2 - 1 - i = 1 by omega, show i + 1 - 1 - i = 0 by omega, show i - 1 - i = 0 by omega]
          norm_num
        · rw [if_neg (by omega), show n + 2 - 1 - i = 0 by omega, show n + 1 - 1 - i = 0 by omega, show n - 1 - i = 0 by omega]
          norm_num
      rw [e]
      have h2 : d2 x 1 n = x (n + 2) - 2 * x (n + 1) + x n := rfl
      push_cast at h1 h0 ⊢
      linarith

theorem end_sq (x : ℕ → ℝ) {m p : ℕ} (hpm : p < m) :
    (2 * x 0 - x (m - p) - 2 * x p + x (p + m)) ^ 2 ≤ 18 * m ^ 3 * ∑ i ∈ range (2 * m), d2 x 1 i ^ 2 := by
  have e : 2 * x 0 - x (m - p) - 2 * x p + x (p + m) = ∑ i ∈ range (2 * m),
      (((p + m - 1 - i : ℕ) : ℝ) - ((m - p - 1 - i : ℕ) : ℝ) - 2 * ((p - 1 - i : ℕ) : ℝ)) * d2 x 1 i := by
    rw [taylor2 x (2 * m) (m - p) (by omega), taylor2 x (2 * m) p (by omega), taylor2 x (2 * m) (p + m) (by omega)]
    simp only [sub_mul, sum_sub_distrib, mul_assoc, ← mul_sum]
    rw [Nat.cast_sub hpm.le]
    push_cast
    ring
  rw [e]
  refine (sq_sum_le_card_mul_sum_sq).trans ?_
  rw [card_range, mul_sum, mul_sum]
  refine sum_le_sum fun i _ => ?_
  have b1 : ((p + m - 1 - i : ℕ) : ℝ) ≤ 2 * m := by exact_mod_cast (by omega : p + m - 1 - i ≤ 2 * m)
  have b2 : ((m - p - 1 - i : ℕ) : ℝ) + 2 * ((p - 1 - i : ℕ) : ℝ) ≤ 3 * m := by
    exact_mod_cast (by omega : m - p - 1 - i + 2 * (p - 1 - i) ≤ 3 * m)
  have b3 : (0 : ℝ) ≤ ((p + m - 1 - i : ℕ) : ℝ) := Nat.cast_nonneg _
  have b4 : (0 : ℝ) ≤ ((m - p - 1 - i : ℕ) : ℝ) := Nat.cast_nonneg _
  have b5 : (0 : ℝ) ≤ ((p - 1 - i : ℕ) : ℝ) := Nat.cast_nonneg _
  have hm0 : (0 : ℝ) ≤ m := Nat.cast_nonneg _
  have hc : (((p + m - 1 - i : ℕ) : ℝ) - ((m - p - 1 - i : ℕ) : ℝ) - 2 * ((p - 1 - i : ℕ) : ℝ)) ^ 2 ≤ (3 * m) ^ 2 :=
    sq_le_sq' (by linarith) (by linarith)
  rw [mul_pow]
  push_cast
  have := mul_le_mul_of_nonneg_right hc (sq_nonneg (d2 x 1 i))
  calc 2 * (m : ℝ) * _ ≤ 2 * m * ((3 * m) ^ 2 * d2 x 1 i ^ 2) := mul_le_mul_of_nonneg_left this (by positivity)
    _ = _ := by ring

theorem left_sq (x : ℕ → ℝ) {N m p : ℕ} (h2 : 2 * m < N) (hpm : p < m) :
    totalTerm x N m p ^ 2 ≤ 18 * m ^ 3 * ∑ i ∈ range (2 * m), d2 x 1 i ^ 2 := by
  rw [totalTerm_left x h2 hpm]
  exact end_sq x hpm

theorem right_sq (x : ℕ → ℝ) {N m p : ℕ} (h2 : 2 * m + 2 ≤ N) (hp : p + 1 < N) (hN : N ≤ p + m) :
    totalTerm x N m p ^ 2 ≤ 18 * m ^ 3 * ∑ i ∈ range (2 * m), d2 x 1 (N - 3 - i) ^ 2 := by
  have e : totalTerm x N m p = 2 * x (N - 1 - 0) - x (N - 1 - (m - (N - 1 - p))) - 2 * x (N - 1 - (N - 1 - p))
      + x (N - 1 - (N - 1 - p + m)) := by
    rw [totalTerm_right x (by omega) hp hN, show N - 1 - (m - (N - 1 - p)) = 2 * (N - 1) - p - m by omega,
      show N - 1 - (N - 1 - p) = p by omega, show N - 1 - (N - 1 - p + m) = p - m by omega, Nat.sub_zero]
    ring
  rw [e]
  refine (end_sq (fun j => x (N - 1 - j)) (m := m) (p := N - 1 - p) (by omega)).trans (le_of_eq ?_)
  congr 1
  refine sum_congr rfl fun i hi => ?_
  rw [mem_range] at hi
  simp only [d2]
  rw [show N - 1 - (i + 2 * 1) = N - 3 - i by omega, show N - 1 - (i + 1) = N - 3 - i + 1 by omega,
    show N - 1 - i = N - 3 - i + 2 * 1 by omega]
  ring

/-- the sums of the total variance and of the overlapping Allan variance -/
theorem tot_sum (x : ℕ → ℝ) {N m : ℕ} (hm : 0 < m) (h2 : 2 * m + 2 ≤ N) :
    ∑ i ∈ range (N - 2 * m), d2 x m i ^ 2 ≤ ∑ k ∈ range (N - 2), totalTerm x N m (k + 1) ^ 2 ∧
    ∑ k ∈ range (N - 2), totalTerm x N m (k + 1) ^ 2 ≤ ∑ i ∈ range (N - 2 * m), d2 x m i ^ 2
      + 18 * m ^ 4 * (∑ i ∈ range (2 * m), d2 x 1 i ^ 2 + ∑ i ∈ range (2 * m), d2 x 1 (N - 3 - i) ^ 2) := by
  obtain ⟨r, hr'⟩ : ∃ r, N - 2 = (m - 1) + (r + (m - 1)) := ⟨N - 2 * m, by omega⟩
  have hr : N - 2 * m = r := by omega
  rw [hr', hr, sum_range_add, sum_range_add (n := r)]
  have e2 : ∑ k ∈ range r, totalTerm x N m (m - 1 + k + 1) ^ 2 = ∑ i ∈ range r, d2 x m i ^ 2 := by
    refine sum_congr rfl fun k hk => ?_
    rw [mem_range] at hk
    rw [totalTerm_mid x (by omega) (by omega), show m - 1 + k + 1 - m = k by omega, show m - 1 + k + 1 + m = k + 2 * m by omega,
      show m - 1 + k + 1 = k + m by omega, d2]
    congr 1
    ring
  have e1 : ∑ k ∈ range (m - 1), totalTerm x N m (k + 1) ^ 2
      ≤ (m - 1 : ℕ) * (18 * m ^ 3 * ∑ i ∈ range (2 * m), d2 x 1 i ^ 2) := by
    rw [← nsmul_eq_mul]
    refine (sum_le_card_nsmul _ _ (18 * m ^ 3 * ∑ i ∈ range (2 * m), d2 x 1 i ^ 2) fun k hk => ?_).trans (by rw [card_range])
    rw [mem_range] at hk
    exact left_sq x (by omega) (by omega)
  have e3 : ∑ k ∈ range (m - 1), totalTerm x N m (m - 1 + (r + k) + 1) ^ 2
      ≤ (m - 1 : ℕ) * (18 * m ^ 3 * ∑ i ∈ range (2 * m), d2 x 1 (N - 3 - i) ^ 2) := by
    rw [← nsmul_eq_mul]
    refine (sum_le_card_nsmul _ _ (18 * m ^ 3 * ∑ i ∈ range (2 * m), d2 x 1 (N - 3 - i) ^ 2) fun k hk => ?_).trans
      (by rw [card_range])
    rw [mem_range] at hk
    exact right_sq x h2 (by omega) (by omega)
  have n1 : 0 ≤ ∑ k ∈ range (m - 1), totalTerm x N m (k + 1) ^ 2 := sum_nonneg fun _ _ => sq_nonneg _
  have n3 : 0 ≤ ∑ k ∈ range (m - 1), totalTerm x N m (m - 1 + (r + k) + 1) ^ 2 := sum_nonneg fun _ _ => sq_nonneg _
  have s1 : 0 ≤ ∑ i ∈ range (2 * m), d2 x 1 i ^ 2 := sum_nonneg fun _ _ => sq_nonneg _
  have s3 : 0 ≤ ∑ i ∈ range (2 * m), d2 x 1 (N - 3 - i) ^ 2 := sum_nonneg fun _ _ => sq_nonneg _
  have hm1 : ((m - 1 : ℕ) : ℝ) ≤ m := by exact_mod_cast Nat.sub_le m 1
  have hm3 : (0 : ℝ) ≤ 18 * m ^ 3 := by positivity
  have c1 := mul_le_mul_of_nonneg_right hm1 (mul_nonneg hm3 s1)
  have c3 := mul_le_mul_of_nonneg_right hm1 (mul_nonneg hm3 s3)
  rw [e2]
  constructor
  · linarith
  · have : 18 * (m : ℝ) ^ 4 * (∑ i ∈ range (2 * m), d2 x 1 i ^ 2 + ∑ i ∈ range (2 * m), d2 x 1 (N - 3 - i) ^ 2)
        = m * (18 * m ^ 3 * ∑ i ∈ range (2 * m), d2 x 1 i ^ 2) + m * (18 * m ^ 3 * ∑ i ∈ range (2 * m), d2 x 1 (N - 3 - i) ^ 2) := by
      ring
    linarith

/-! ## The mean of the difference -/

variable {Ω : Type} [MeasurableSpace Ω] {P : Measure Ω} [IsProbabilityMeasure P] {W : ℕ → Ω → ℝ} {s2 : ℝ≥0} {rate : ℝ}

theorem d2_meanSq (h : NormalNoise P W s2) {k : Kind} {κ : ℝ} {x : ℕ → Ω → ℝ}
    (hx : ∀ ω, IsNoise k κ (fun i => x i ω) (fun i => W i ω)) {m : ℕ} (hm : 0 < m) (i : ℕ) :
    MeanSq P (fun ω => d2 (fun j => x j ω) m i) (κ ^ 2 * (s2 * kernelMean .oadev k m)) := by
  have e : ∀ ω, d2 (fun j => x j ω) m i ^ 2
      = κ ^ 2 * (∑ j ∈ range (filtLen .oadev k m), filt .oadev k m j * W (i * 1 + j) ω) ^ 2 := fun ω => by
    rw [mul_one, ← kernel_sq ((hx ω).shift i) .oadev m]
    simp only [kernel, d2, zero_add, add_zero]
  have h1 : AllLp P (fun ω => (∑ j ∈ range (filtLen .oadev k m), filt .oadev k m j * W (i * 1 + j) ω) ^ 2) := by
    simpa using sqTerm_allLp h (A := filt .oadev k m) (K := filtLen .oadev k m) (S := 1) 0 i
  have h2 := sqTerm_mean h (filt_zero .oadev k m) (S := 1) i
  rw [integral_sub h1.int (integrable_const _), filt_cov0 .oadev k m 1 hm] at h2
  simp only [integral_const, probReal_univ, smul_eq_mul, one_mul] at h2
  unfold MeanSq
  simp only [e]
  refine ⟨h1.int.const_mul _, ?_⟩
  rw [integral_const_mul]
  congr 1
  linarith

theorem charFun_near {X Y : Ω → ℝ} (hx : AEMeasurable X P) (hy : AEMeasurable Y P)
    (hd : Integrable (fun ω => X ω - Y ω) P) (t : ℝ) :
    ‖charFun (P.map X) t - charFun (P.map Y) t‖ ≤ |t| * ∫ ω, |X ω - Y ω| ∂P := by
  rw [charFun_apply_real, charFun_apply_real, integral_map hx (by fun_prop), integral_map hy (by fun_prop)]
  have hb : ∀ x : ℝ, ‖Complex.exp (t * x * Complex.I)‖ = 1 := fun x => by
    rw [← Complex.ofReal_mul, Complex.norm_exp_ofReal_mul_I]
  have hi : ∀ {X : Ω → ℝ}, AEMeasurable X P → Integrable (fun ω => Complex.exp (t * X ω * Complex.I)) P := fun hX =>
    Integrable.of_bound (by fun_prop) 1 (Eventually.of_forall fun ω => (hb _).le)
  rw [← integral_sub (hi hx) (hi hy)]
  have h1 : ∀ ω, ‖Complex.exp (t * X ω * Complex.I) - Complex.exp (t * Y ω * Complex.I)‖ ≤ |t| * |X ω - Y ω| := by
    intro ω
    have e : Complex.exp (t * X ω * Complex.I) - Complex.exp (t * Y ω * Complex.I)
        = Complex.exp (t * Y ω * Complex.I) * (Complex.exp (Complex.I * ((t * (X ω - Y ω) : ℝ) : ℂ)) - 1) := by
      rw [mul_sub, ← Complex.exp_add, mul_one]
      congr 2
      push_cast
      ring
    rw [e, norm_mul, hb, one_mul, ← abs_mul]
    exact Real.norm_exp_I_mul_ofReal_sub_one_le
  refine (norm_integral_le_integral_norm _).trans ((integral_mono ((hi hx).sub (hi hy)).norm
    (hd.abs.const_mul |t|) h1).trans ?_)
  rw [integral_const_mul]

/-- the constant of the distance of the two variances -/
noncomputable def totC (k : Kind) (m : ℕ) (rate κ s2 : ℝ) : ℝ :=
  κ ^ 2 * s2 * (72 * m ^ 5 * kernelMean .oadev k 1 + 2 * m * kernelMean .oadev k m) / (2 * ((m : ℝ) / rate) ^ 2)

theorem oadevSq_eq (x : ℕ → ℝ) {N m : ℕ} (hm : 0 < m) (h2 : 2 * m + 2 ≤ N) (hr : 0 < rate) :
    value .oadev x N rate m ^ 2 = 1 / (2 * ((m : ℝ) / rate) ^ 2 * (N - 2 * m : ℕ)) * ∑ i ∈ range (N - 2 * m), d2 x m i ^ 2 := by
  have hM : (0 : ℝ) < (N - 2 * m : ℕ) := by exact_mod_cast (by omega : 0 < N - 2 * m)
  have hm' : (0 : ℝ) < m := by exact_mod_cast hm
  have e : ((N - 2 * m : ℕ) : ℝ) = N - 2 * m := by
    rw [Nat.cast_sub (by omega)]
    push_cast
    ring
  simp only [value, Spec.oadev, ← e]
  rw [rms_sq _ _ _ (by positivity)]

omit [IsProbabilityMeasure P] in
theorem totSq_meas {x : ℕ → Ω → ℝ} (hxm : ∀ i, AEMeasurable (x i) P) (_hr : 0 < rate) {N m : ℕ} (hm : 0 < m) (h2 : 2 * m + 2 ≤ N) :
    AEMeasurable (fun ω => value .totdev (fun i => x i ω) N rate m ^ 2) P := by
  simp only [totdev_sq _ hm (show 2 * m < N by omega)]
  refine (Finset.aemeasurable_fun_sum _ fun k _ => AEMeasurable.pow_const ?_ 2).const_mul _
  have hrf : ∀ j : ℤ, AEMeasurable (fun ω => reflect (fun i => x i ω) N j) P := fun j => by
    unfold reflect
    split_ifs <;> fun_prop
  exact ((hrf _).sub ((hrf _).const_mul 2)).add (hrf _)

omit [IsProbabilityMeasure P] in
theorem oadevSq_meas {x : ℕ → Ω → ℝ} (hxm : ∀ i, AEMeasurable (x i) P) (hr : 0 < rate) {N m : ℕ} (hm : 0 < m) (h2 : 2 * m + 2 ≤ N) :
    AEMeasurable (fun ω => value .oadev (fun i => x i ω) N rate m ^ 2) P := by
  simp only [oadevSq_eq _ hm h2 hr]
  refine (Finset.aemeasurable_fun_sum _ fun k _ => AEMeasurable.pow_const ?_ 2).const_mul _
  unfold d2
  fun_prop

omit [IsProbabilityMeasure P] in
theorem tot_meas {x : ℕ → Ω → ℝ} (hxm : ∀ i, AEMeasurable (x i) P) (hr : 0 < rate) {N m : ℕ} (hm : 0 < m) (h2 : 2 * m + 2 ≤ N) :
    AEMeasurable (fun ω => value .totdev (fun i => x i ω) N rate m) P := by
  have e : (fun ω => value .totdev (fun i => x i ω) N rate m) = fun ω => √(value .totdev (fun i => x i ω) N rate m ^ 2) :=
    funext fun ω => by rw [Real.sqrt_sq (value_nonneg _ _ _ _ hr _)]
  rw [e]
  exact Real.continuous_sqrt.measurable.comp_aemeasurable (totSq_meas hxm hr hm h2)

theorem tot_near (h : NormalNoise P W s2) (hr : 0 < rate) {k : Kind} {κ : ℝ} {x : ℕ → Ω → ℝ}
    (hxm : ∀ i, AEMeasurable (x i) P)
    (hx : ∀ ω, IsNoise k κ (fun i => x i ω) (fun i => W i ω)) {N m : ℕ} (hm : 0 < m) (h2 : 2 * m + 2 ≤ N) :
    Integrable (fun ω => value .totdev (fun i => x i ω) N rate m ^ 2 - value .oadev (fun i => x i ω) N rate m ^ 2) P ∧
    ∫ ω, |value .totdev (fun i => x i ω) N rate m ^ 2 - value .oadev (fun i => x i ω) N rate m ^ 2| ∂P
      ≤ totC k m rate κ s2 / (N - 2) := by
  have hm' : (0 : ℝ) < m := by exact_mod_cast hm
  have hN' : (2 * (m : ℝ) + 2) ≤ N := by exact_mod_cast h2
  have eM : ((N - 2 * m : ℕ) : ℝ) = N - 2 * m := by
    rw [Nat.cast_sub (by omega)]
    push_cast
    ring
  have hM : (0 : ℝ) < (N : ℝ) - 2 * m := by linarith
  have hN2 : (0 : ℝ) < (N : ℝ) - 2 := by linarith
  set q : ℝ := 2 * ((m : ℝ) / rate) ^ 2 with hq
  have hq0 : 0 < q := by positivity
  -- the pointwise bound
  set G : Ω → ℝ := fun ω => 1 / (q * (N - 2)) * (18 * m ^ 4 * (∑ i ∈ range (2 * m), d2 (fun j => x j ω) 1 i ^ 2
    + ∑ i ∈ range (2 * m), d2 (fun j => x j ω) 1 (N - 3 - i) ^ 2)
    + 2 * m / (N - 2 * m) * ∑ i ∈ range (N - 2 * m), d2 (fun j => x j ω) m i ^ 2) with hG
  have hle : ∀ ω, |value .totdev (fun i => x i ω) N rate m ^ 2 - value .oadev (fun i => x i ω) N rate m ^ 2| ≤ G ω := by
    intro ω
    obtain ⟨t1, t2⟩ := tot_sum (fun i => x i ω) hm h2
    rw [totdev_sq _ hm (by omega), oadevSq_eq _ hm h2 hr, eM, hG]
    simp only
    have s0 : 0 ≤ ∑ i ∈ range (N - 2 * m), d2 (fun j => x j ω) m i ^ 2 := sum_nonneg fun _ _ => sq_nonneg _
    generalize ∑ k ∈ range (N - 2), totalTerm (fun i => x i ω) N m (k + 1) ^ 2 = T at t1 t2 ⊢
    generalize ∑ i ∈ range (N - 2 * m), d2 (fun j => x j ω) m i ^ 2 = O at t1 t2 s0 ⊢
    generalize ∑ i ∈ range (2 * m), d2 (fun j => x j ω) 1 i ^ 2
      + ∑ i ∈ range (2 * m), d2 (fun j => x j ω) 1 (N - 3 - i) ^ 2 = B at t1 t2 ⊢
    have e : 1 / (q * ((N : ℝ) - 2)) * T - 1 / (q * ((N : ℝ) - 2 * m)) * O
        = 1 / (q * (N - 2)) * ((T - O) - (2 * m - 2) / (N - 2 * m) * O) := by
      field_simp
      ring
    rw [e, abs_mul, abs_of_pos (by positivity : 0 < 1 / (q * ((N : ℝ) - 2)))]
    refine mul_le_mul_of_nonneg_left ?_ (by positivity)
    have m1 : (1 : ℝ) ≤ m := by exact_mod_cast hm
    have f1 : 0 ≤ (2 * (m : ℝ) - 2) / (N - 2 * m) * O := mul_nonneg (div_nonneg (by linarith) hM.le) s0
    have f2 : (2 * (m : ℝ) - 2) / (N - 2 * m) * O ≤ 2 * m / (N - 2 * m) * O :=
      mul_le_mul_of_nonneg_right (div_le_div_of_nonneg_right (by linarith) hM.le) s0
    rw [abs_le]
    constructor <;> linarith
  have g1 := fun i => d2_meanSq h hx (m := 1) one_pos i
  have gm := fun i => d2_meanSq h hx hm i
  have i1 : Integrable (fun ω => ∑ i ∈ range (2 * m), d2 (fun j => x j ω) 1 i ^ 2) P := integrable_finsetSum _ fun i _ => (g1 i).1
  have i2 : Integrable (fun ω => ∑ i ∈ range (2 * m), d2 (fun j => x j ω) 1 (N - 3 - i) ^ 2) P :=
    integrable_finsetSum _ fun i _ => (g1 _).1
  have i3 : Integrable (fun ω => ∑ i ∈ range (N - 2 * m), d2 (fun j => x j ω) m i ^ 2) P :=
    integrable_finsetSum _ fun i _ => (gm i).1
  have i12 : Integrable (fun ω => ∑ i ∈ range (2 * m), d2 (fun j => x j ω) 1 i ^ 2
      + ∑ i ∈ range (2 * m), d2 (fun j => x j ω) 1 (N - 3 - i) ^ 2) P := i1.add i2
  have hGi : Integrable G P := ((i12.const_mul _).add (i3.const_mul _)).const_mul _
  have hmeas := (totSq_meas (m := m) (N := N) hxm hr hm h2).sub (oadevSq_meas (m := m) (N := N) hxm hr hm h2)
  refine ⟨hGi.mono' hmeas.aestronglyMeasurable (Eventually.of_forall hle), ?_⟩
  refine (integral_mono_of_nonneg (Eventually.of_forall fun _ => abs_nonneg _) hGi (Eventually.of_forall hle)).trans (le_of_eq ?_)
  have eG : ∫ ω, G ω ∂P = 1 / (q * (N - 2)) * (18 * m ^ 4 * (2 * m * (κ ^ 2 * (s2 * kernelMean .oadev k 1))
      + 2 * m * (κ ^ 2 * (s2 * kernelMean .oadev k 1)))
      + 2 * m / (N - 2 * m) * ((N - 2 * m) * (κ ^ 2 * (s2 * kernelMean .oadev k m)))) := by
    simp only [hG]
    rw [integral_const_mul, integral_add (i12.const_mul _) (i3.const_mul _), integral_const_mul, integral_const_mul,
      integral_add i1 i2, integral_finsetSum _ fun i _ => (g1 i).1, integral_finsetSum _ fun i _ => (g1 _).1,
      integral_finsetSum _ fun i _ => (gm i).1, sum_congr rfl fun i _ => (g1 i).2, sum_congr rfl fun i _ => (g1 (N - 3 - i)).2,
      sum_congr rfl fun i _ => (gm i).2]
    simp only [sum_const, card_range, nsmul_eq_mul, eM]
    push_cast
    rfl
  rw [eG, totC, ← hq]
  field_simp
  ring

/-! ## Asymptotic normality -/

theorem filterEdf_le {A : ℕ → ℝ} {K S : ℕ} (g0 : filterCov A K S 0 ≠ 0) {M : ℕ} (hM : 0 < M) : filterEdf A K S M ≤ M := by
  have h1 := lagN_ge M hM (filterCov A K S)
  have hM' : (0 : ℝ) < M := by exact_mod_cast hM
  have h2 : 0 < lagN M (filterCov A K S) := lt_of_lt_of_le (by positivity) h1
  rw [filterEdf, div_le_iff₀ h2]
  nlinarith

theorem tot_lim (h : NormalNoise P W s2) (hs : 0 < s2) (hr : 0 < rate) (k : Kind) {m : ℕ} (hm : 0 < m)
    {κ : ℝ} (hκ : κ ≠ 0) {x : ℕ → ℕ → Ω → ℝ} (hxm : ∀ L i, AEMeasurable (x L i) P)
    (hx : ∀ L ω, IsNoise k κ (fun i => x L i ω) (fun i => W i ω)) {σ : ℝ}
    (hσ : σ = √(κ ^ 2 * s2 * trueVar .oadev k m (m / rate))) {n0 : ℕ} (hn0 : ∀ n, Usable .oadev (n + n0) m) (t : ℝ) :
    Tendsto (fun n => charFun (P.map (fun ω => √(ciEdf .oadev k m (n + n0) / 2)
      * (value .totdev (fun i => x (n + n0) i ω) (n + n0) rate m ^ 2 / σ ^ 2 - 1))) t) atTop (𝓝 (charFun (gaussianReal 0 1) t)) := by
  have hks := kernelScale_pos .oadev m hm hr
  have hkm := kernelMean_pos .oadev k m hm
  have hs' : (0 : ℝ) < s2 := by exact_mod_cast hs
  have htv : 0 < trueVar .oadev k m (m / rate) := by rw [trueVar_eq]; positivity
  have hσ0 : 0 < σ := by rw [hσ]; positivity
  have hσ2 : σ ^ 2 = κ ^ 2 * s2 * trueVar .oadev k m (m / rate) := by rw [hσ, Real.sq_sqrt (by positivity)]
  have hS : 0 < ciHop .oadev m := by simp [ciHop, CiDev.fn, hop]
  have hsum : ∀ n, summands .oadev (n + n0) m = n + n0 - 2 * m := fun n => rfl
  have hge : ∀ n, 2 * m + 2 ≤ n + n0 := fun n => (oadev_usable (hn0 n)).2
  have hMi : Tendsto (fun n => summands .oadev (n + n0) m) atTop atTop :=
    (summands_tendsto .oadev hm).comp (tendsto_add_atTop_nat n0)
  have key := filter_lim h hs (filt_zero .oadev k m) (filt_ne .oadev k m (ciHop .oadev m) hm) hσ0
    (M := fun n => summands .oadev (n + n0) m) (fun n => by rw [hsum]; have := hge n; omega) hMi hS t
    (D := fun n ω => value .oadev (fun i => x (n + n0) i ω) (n + n0) rate m) (fun n ω => by
      have hu : Usable CiDev.oadev.fn (n + n0) m := hn0 n
      have hM : (0 : ℝ) < summands .oadev (n + n0) m := by exact_mod_cast summands_pos' hu
      have := value_sq (hx (n + n0) ω) .oadev hr hu
      rw [show CiDev.oadev.fn = DevName.oadev from rfl] at this
      rw [this, filt_cov0 .oadev k m _ hm, hσ2, trueVar_eq]
      congr 1
      field_simp)
  rw [← tendsto_sub_nhds_zero_iff]
  have h0 := tendsto_sub_nhds_zero_iff.2 key
  set C := totC k m rate κ s2 with hC
  have hlim : Tendsto (fun n : ℕ => |t| * (C / σ ^ 2 / √((n + n0 : ℕ) - 2 : ℝ))) atTop (𝓝 0) := by
    have h1 : Tendsto (fun n : ℕ => √((n + n0 : ℕ) - 2 : ℝ)) atTop atTop := by
      refine Real.tendsto_sqrt_atTop.comp (tendsto_atTop_add_const_right _ _ ?_)
      exact tendsto_natCast_atTop_atTop.comp (tendsto_add_atTop_nat n0)
    have h2 := (h1.const_div_atTop (C / σ ^ 2)).const_mul |t|
    rwa [mul_zero] at h2
  refine (h0.add (squeeze_zero_norm (a := fun n : ℕ => |t| * (C / σ ^ 2 / √((n + n0 : ℕ) - 2 : ℝ)))
    (f := fun n => charFun (P.map (fun ω => √(ciEdf .oadev k m (n + n0) / 2)
      * (value .totdev (fun i => x (n + n0) i ω) (n + n0) rate m ^ 2 / σ ^ 2 - 1))) t
      - charFun (P.map (fun ω => √(ciEdf .oadev k m (n + n0) / 2)
      * (value .oadev (fun i => x (n + n0) i ω) (n + n0) rate m ^ 2 / σ ^ 2 - 1))) t) (fun n => ?_) hlim)).congr' ?_ |>.trans
        (by rw [add_zero])
  · obtain ⟨n1, n2⟩ := tot_near h hr (hxm (n + n0)) (hx (n + n0)) hm (hge n)
    have a1 := totSq_meas (hxm (n + n0)) hr hm (hge n)
    have a2 := oadevSq_meas (hxm (n + n0)) hr hm (hge n)
    set e := ciEdf .oadev k m (n + n0) with he
    have hd : ∀ ω, √(e / 2) * (value .totdev (fun i => x (n + n0) i ω) (n + n0) rate m ^ 2 / σ ^ 2 - 1)
        - √(e / 2) * (value .oadev (fun i => x (n + n0) i ω) (n + n0) rate m ^ 2 / σ ^ 2 - 1)
        = √(e / 2) / σ ^ 2 * (value .totdev (fun i => x (n + n0) i ω) (n + n0) rate m ^ 2
          - value .oadev (fun i => x (n + n0) i ω) (n + n0) rate m ^ 2) := fun ω => by ring
    refine (charFun_near (((a1.div_const _).sub_const _).const_mul _) (((a2.div_const _).sub_const _).const_mul _)
      (by simp only [hd]; exact n1.const_mul _) t).trans (mul_le_mul_of_nonneg_left ?_ (abs_nonneg _))
    simp only [hd, abs_mul]
    rw [integral_const_mul, abs_of_nonneg (by positivity)]
    have hN2 : (0 : ℝ) < ((n + n0 : ℕ) : ℝ) - 2 := by
      have := hge n
      have : (2 : ℝ) < (n + n0 : ℕ) := by exact_mod_cast (by omega : 2 < n + n0)
      linarith
    have hCn : 0 ≤ C := by
      have := kernelMean_pos .oadev k 1 one_pos
      rw [hC, totC]
      positivity
    have hel : e / 2 ≤ ((n + n0 : ℕ) : ℝ) - 2 := by
      have h3 : e ≤ (n + n0 - 2 * m : ℕ) := filterEdf_le (M := n + n0 - 2 * m) (filt_ne .oadev k m (ciHop .oadev m) hm) (by have := hge n; omega)
      have h4 : ((n + n0 - 2 * m : ℕ) : ℝ) ≤ ((n + n0 - 2 : ℕ) : ℝ) := by exact_mod_cast (by omega)
      rw [Nat.cast_sub (by have := hge n; omega : 2 ≤ n + n0)] at h4
      push_cast at h4 hN2 ⊢
      linarith
    have hsq : √(e / 2) ≤ √(((n + n0 : ℕ) : ℝ) - 2) := Real.sqrt_le_sqrt hel
    have hss : √(((n + n0 : ℕ) : ℝ) - 2) ^ 2 = ((n + n0 : ℕ) : ℝ) - 2 := Real.sq_sqrt hN2.le
    have hsp : 0 < √(((n + n0 : ℕ) : ℝ) - 2) := Real.sqrt_pos.2 hN2
    refine (mul_le_mul_of_nonneg_left n2 (by positivity)).trans ?_
    generalize √(((n + n0 : ℕ) : ℝ) - 2) = s at hsq hsp hss ⊢
    rw [← hss]
    calc √(e / 2) / σ ^ 2 * (C / s ^ 2) ≤ s / σ ^ 2 * (C / s ^ 2) := by gcongr
      _ = C / σ ^ 2 / s := by field_simp
  · filter_upwards with n
    have e : filterEdf (filt .oadev k m) (filtLen .oadev k m) (ciHop .oadev m) (summands .oadev (n + n0) m)
      = ciEdf .oadev k m (n + n0) := rfl
    rw [e]
    ring

end AT
