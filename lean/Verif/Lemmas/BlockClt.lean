import Verif.Lemmas.EdfNear
import Verif.Lemmas.EdfLin
import Mathlib.Probability.CentralLimitTheorem
import Mathlib.Probability.Independence.InfinitePi
import Mathlib.Probability.Independence.CharacteristicFunction

/-!
# A central limit theorem for the mean square of a moving filter of normal noise

The terms are grouped in long blocks, separated by gaps so that different blocks use different samples.
-/

namespace AT

open Spec Finset MeasureTheory ProbabilityTheory Filter Topology
open scoped NNReal ENNReal

/-- the sum of the centred squares of a moving filter over a set of positions -/
def sqDev (A : ℕ → ℝ) (K S : ℕ) (c : ℝ) (I : Finset ℕ) (w : ℕ → ℝ) : ℝ :=
  ∑ i ∈ I, ((∑ k ∈ range K, A k * w (i * S + k)) ^ 2 - c)

theorem sqDev_measurable (A : ℕ → ℝ) (K S : ℕ) (c : ℝ) (I : Finset ℕ) : Measurable (sqDev A K S c I) := by
  unfold sqDev
  fun_prop

theorem filterCov_zero_of_le (A : ℕ → ℝ) (K S q l : ℕ) (hK : ∀ k, K ≤ k → A k = 0) (hq : K ≤ q * S) (hl : q ≤ l) :
    filterCov A K S l = 0 := by
  unfold filterCov
  refine sum_eq_zero fun k _ => ?_
  rw [hK (k + l * S), mul_zero]
  have := Nat.mul_le_mul_right S hl
  omega

theorem filterCov_sq_le (A : ℕ → ℝ) (K S l : ℕ) (hK : ∀ k, K ≤ k → A k = 0) :
    filterCov A K S l ^ 2 ≤ filterCov A K S 0 ^ 2 := by
  have h := sum_mul_sq_le_sq_mul_sq (range K) A (fun k => A (k + l * S))
  have h1 : ∑ k ∈ range K, A (k + l * S) ^ 2 ≤ ∑ k ∈ range K, A k ^ 2 := by
    have e : ∑ k ∈ range K, A (k + l * S) ^ 2 = ∑ k ∈ Ico (l * S) (l * S + K), A k ^ 2 := by
      rw [sum_Ico_eq_sum_range, Nat.add_sub_cancel_left]
      exact sum_congr rfl fun k _ => by rw [add_comm]
    have e2 : ∑ k ∈ Ico (l * S) (l * S + K), A k ^ 2 ≤ ∑ k ∈ range (l * S + K), A k ^ 2 :=
      sum_le_sum_of_subset_of_nonneg (fun k hk => mem_range.2 (mem_Ico.1 hk).2) fun _ _ _ => sq_nonneg _
    have e3 : ∑ k ∈ range (l * S + K), A k ^ 2 = ∑ k ∈ range K, A k ^ 2 := by
      rw [add_comm, sum_range_add, add_eq_left]
      exact sum_eq_zero fun k _ => by rw [hK _ (by omega)]; ring
    rw [e]
    linarith
  have h0 : filterCov A K S 0 = ∑ k ∈ range K, A k ^ 2 := by
    unfold filterCov
    simp [pow_two]
  rw [h0, pow_two (∑ k ∈ range K, A k ^ 2)]
  unfold filterCov
  refine h.trans (mul_le_mul_of_nonneg_left h1 (sum_nonneg fun _ _ => sq_nonneg _))

variable {Ω : Type} [MeasurableSpace Ω] {P : Measure Ω} [IsProbabilityMeasure P] {W : ℕ → Ω → ℝ} {s2 : ℝ≥0}

section moments

variable (h : NormalNoise P W s2) {A : ℕ → ℝ} {K S : ℕ} (hK : ∀ k, K ≤ k → A k = 0)

include h in
theorem sqTerm_allLp (c : ℝ) (i : ℕ) : AllLp P (fun ω => (∑ k ∈ range K, A k * W (i * S + k) ω) ^ 2 - c) := by
  have h1 : AllLp P (fun ω => ∑ k ∈ range K, A k * W (i * S + k) ω) :=
    AllLp.sum fun k _ => AllLp.const_mul (h.memLp _) _
  have h2 : AllLp P (fun _ : Ω => -c) := fun p => memLp_const _
  simpa only [sub_eq_add_neg] using (h1.pow 2).add h2

include h in
theorem sqDev_allLp (c : ℝ) (I : Finset ℕ) : AllLp P (fun ω => sqDev A K S c I (fun i => W i ω)) :=
  AllLp.sum fun i _ => sqTerm_allLp h c i

/-- the distance of two positions -/
def lagD (i j : ℕ) : ℕ := max i j - min i j

include h hK

theorem sqTerm_mean (i : ℕ) :
    ∫ ω, ((∑ k ∈ range K, A k * W (i * S + k) ω) ^ 2 - s2 * filterCov A K S 0) ∂P = 0 := by
  have h1 := lin_prod h (i * S + K) (shiftCoef A S i) (shiftCoef A S i)
  rw [shift_cov A K S i i _ hK le_rfl le_rfl, Nat.sub_self] at h1
  simp only [shift_lin W A K S i _ hK le_rfl, ← pow_two] at h1
  have h2 : AllLp P (fun ω => (∑ k ∈ range K, A k * W (i * S + k) ω) ^ 2) := by
    simpa using sqTerm_allLp h (A := A) (K := K) (S := S) 0 i
  rw [integral_sub h2.int (integrable_const _), h1]
  simp [filterCov]

theorem sqTerm_cov_le {i j : ℕ} (hij : i ≤ j) :
    ∫ ω, ((∑ k ∈ range K, A k * W (i * S + k) ω) ^ 2 - s2 * filterCov A K S 0)
      * ((∑ k ∈ range K, A k * W (j * S + k) ω) ^ 2 - s2 * filterCov A K S 0) ∂P
      = 2 * s2 ^ 2 * filterCov A K S (j - i) ^ 2 := by
  have hi : i * S + K ≤ j * S + K := Nat.add_le_add_right (Nat.mul_le_mul_right S hij) _
  have h4 := lin_quartic h (j * S + K) (shiftCoef A S i) (shiftCoef A S j)
  have e1 := shift_cov A K S i i (j * S + K) hK le_rfl hi
  have e2 := shift_cov A K S j j (j * S + K) hK le_rfl le_rfl
  have e3 := shift_cov A K S i j (j * S + K) hK hij le_rfl
  simp only [← pow_two, Nat.sub_self] at e1 e2
  rw [e1, e2, e3] at h4
  simp only [shift_lin W A K S i _ hK hi, shift_lin W A K S j _ hK le_rfl] at h4
  have A1 : ∀ i, AllLp P (fun ω => (∑ k ∈ range K, A k * W (i * S + k) ω) ^ 2) := fun i => by
    simpa using sqTerm_allLp h (A := A) (K := K) (S := S) 0 i
  have m1 : ∀ i, ∫ ω, (∑ k ∈ range K, A k * W (i * S + k) ω) ^ 2 ∂P = s2 * filterCov A K S 0 := fun i => by
    have := sqTerm_mean h hK (S := S) i
    rw [integral_sub (A1 i).int (integrable_const _)] at this
    simp at this
    linarith
  have ex : ∀ ω, ((∑ k ∈ range K, A k * W (i * S + k) ω) ^ 2 - s2 * filterCov A K S 0)
      * ((∑ k ∈ range K, A k * W (j * S + k) ω) ^ 2 - s2 * filterCov A K S 0)
      = (∑ k ∈ range K, A k * W (i * S + k) ω) ^ 2 * (∑ k ∈ range K, A k * W (j * S + k) ω) ^ 2
        - (s2 * filterCov A K S 0 * (∑ k ∈ range K, A k * W (i * S + k) ω) ^ 2
        + (s2 * filterCov A K S 0 * ((∑ k ∈ range K, A k * W (j * S + k) ω) ^ 2 - s2 * filterCov A K S 0))) := fun ω => by ring
  simp only [ex]
  rw [integral_sub ((A1 i).mul (A1 j)).int (((A1 i).const_mul _).add ((sqTerm_allLp h _ j).const_mul _)).int, h4,
    integral_add ((A1 i).const_mul _).int ((sqTerm_allLp h _ j).const_mul _).int, integral_const_mul, integral_const_mul,
    m1, sqTerm_mean h hK]
  unfold filterCov
  simp only [Nat.zero_mul, add_zero, ← pow_two]
  ring

theorem sqTerm_cov (i j : ℕ) :
    ∫ ω, ((∑ k ∈ range K, A k * W (i * S + k) ω) ^ 2 - s2 * filterCov A K S 0)
      * ((∑ k ∈ range K, A k * W (j * S + k) ω) ^ 2 - s2 * filterCov A K S 0) ∂P
      = 2 * s2 ^ 2 * filterCov A K S (lagD i j) ^ 2 := by
  unfold lagD
  rcases le_total i j with hij | hij
  · rw [sqTerm_cov_le h hK hij, max_eq_right hij, min_eq_left hij]
  · rw [max_eq_left hij, min_eq_right hij, ← sqTerm_cov_le h hK hij]
    simp only [mul_comm]

theorem sqDev_mean (I : Finset ℕ) : ∫ ω, sqDev A K S (s2 * filterCov A K S 0) I (fun i => W i ω) ∂P = 0 := by
  unfold sqDev
  rw [integral_finsetSum _ fun i _ => (sqTerm_allLp h _ i).int]
  exact sum_eq_zero fun i _ => sqTerm_mean h hK i

theorem sqDev_second (I : Finset ℕ) : ∫ ω, sqDev A K S (s2 * filterCov A K S 0) I (fun i => W i ω) ^ 2 ∂P
    = 2 * s2 ^ 2 * ∑ i ∈ I, ∑ j ∈ I, filterCov A K S (lagD i j) ^ 2 := by
  unfold sqDev
  simp only [pow_two (∑ i ∈ I, _), sum_mul_sum]
  have hi := fun i j => ((sqTerm_allLp h (A := A) (K := K) (S := S) (s2 * filterCov A K S 0) i).mul
    (sqTerm_allLp h (A := A) (K := K) (S := S) (s2 * filterCov A K S 0) j)).int
  rw [integral_finsetSum _ fun i _ => integrable_finsetSum _ fun j _ => hi i j]
  simp only [integral_finsetSum _ fun j _ => hi _ j, sqTerm_cov h hK, mul_sum]

theorem sqDev_second_le (I : Finset ℕ) (q : ℕ) (hq : K ≤ q * S) :
    ∫ ω, sqDev A K S (s2 * filterCov A K S 0) I (fun i => W i ω) ^ 2 ∂P
      ≤ 2 * s2 ^ 2 * filterCov A K S 0 ^ 2 * (I.card * (2 * q)) := by
  rw [sqDev_second h hK, mul_assoc (2 * (s2 : ℝ) ^ 2)]
  refine mul_le_mul_of_nonneg_left ?_ (by positivity)
  have h1 : ∀ i ∈ I, ∑ j ∈ I, filterCov A K S (lagD i j) ^ 2 ≤ 2 * q * filterCov A K S 0 ^ 2 := by
    intro i _
    have h2 : ∀ j ∈ I, filterCov A K S (lagD i j) ^ 2 ≤ if j ∈ Ico (i - q) (i + q) then filterCov A K S 0 ^ 2 else 0 := by
      intro j _
      split_ifs with hj
      · exact filterCov_sq_le A K S _ hK
      · rw [filterCov_zero_of_le A K S q _ hK hq]
        · simp
        · rw [mem_Ico] at hj
          unfold lagD
          omega
    refine (sum_le_sum h2).trans ?_
    rw [← sum_filter, sum_const, nsmul_eq_mul]
    refine mul_le_mul_of_nonneg_right ?_ (sq_nonneg _)
    have h3 : (I.filter (fun j => j ∈ Ico (i - q) (i + q))).card ≤ (Ico (i - q) (i + q)).card :=
      card_le_card fun j hj => (mem_filter.1 hj).2
    rw [Nat.card_Ico] at h3
    have h4 : (I.filter (fun j => j ∈ Ico (i - q) (i + q))).card ≤ 2 * q := by omega
    exact_mod_cast h4
  refine (sum_le_sum h1).trans (le_of_eq ?_)
  rw [sum_const, nsmul_eq_mul]
  ring

theorem sqDev_second_range (M : ℕ) (hM : 0 < M) :
    ∫ ω, sqDev A K S (s2 * filterCov A K S 0) (range M) (fun i => W i ω) ^ 2 ∂P
      = 2 * s2 ^ 2 * lagN M (filterCov A K S) := by
  rw [sqDev_second h hK, lagN_eq M hM, lag_sum (fun i j => filterCov A K S (lagD i j) ^ 2) (fun l => filterCov A K S l ^ 2) M]
  · intro i j hij _
    simp only [lagD, max_eq_right hij, min_eq_left hij]
  · intro i j
    simp only [lagD, max_comm, min_comm]

end moments

/-! ## Independence and stationarity -/

omit [IsProbabilityMeasure P] in
theorem NormalNoise_shift_law (h : NormalNoise P W s2) {G : (ℕ → ℝ) → ℝ} (hG : Measurable G) (a : ℕ) :
    P.map (fun ω => G (fun i => W (a + i) ω)) = P.map (fun ω => G (fun i => W i ω)) := by
  have hm : ∀ b, AEMeasurable (fun ω i => W (b + i) ω) P := fun b => aemeasurable_pi_lambda _ fun i => (h.law _).aemeasurable
  have hl : ∀ b, P.map (fun ω i => W (b + i) ω) = Measure.infinitePi (fun _ : ℕ => gaussianReal 0 s2) := fun b =>
    ((h.indep.precomp (add_right_injective b)).hasLaw_infinitePi (fun i => h.law (b + i)) (hm b)).map_eq
  have e : ∀ b, P.map (fun ω => G (fun i => W (b + i) ω)) = (P.map (fun ω i => W (b + i) ω)).map G := fun b =>
    (AEMeasurable.map_map_of_aemeasurable hG.aemeasurable (hm b)).symm
  have e0 := e 0
  simp only [zero_add] at e0
  have h0 := hl 0
  simp only [zero_add] at h0
  rw [e a, e0, hl a, h0]

omit [IsProbabilityMeasure P] in
theorem NormalNoise_indep_parts (h : NormalNoise P W s2) {F G : (ℕ → ℝ) → ℝ} (hF : Measurable F) (hG : Measurable G)
    (s t : Finset ℕ) (hst : Disjoint s t) (hs : ∀ w w', (∀ i ∈ s, w i = w' i) → F w = F w')
    (ht : ∀ w w', (∀ i ∈ t, w i = w' i) → G w = G w') :
    IndepFun (fun ω => F (fun i => W i ω)) (fun ω => G (fun i => W i ω)) P := by
  have h1 := h.indep.indepFun_finset₀ s t hst (fun i => (h.law i).aemeasurable)
  let ext : ∀ u : Finset ℕ, (u → ℝ) → ℕ → ℝ := fun u v i => if hi : i ∈ u then v ⟨i, hi⟩ else 0
  have hext : ∀ u, Measurable (ext u) := fun u => measurable_pi_lambda _ fun i => by
    by_cases hi : i ∈ u
    · simp only [ext, hi, dif_pos]; fun_prop
    · simp only [ext, hi, dif_neg, not_false_eq_true]; fun_prop
  have h2 := h1.comp (hF.comp (hext s)) (hG.comp (hext t))
  have e1 : (fun ω => F (fun i => W i ω)) = (F ∘ ext s) ∘ fun ω (i : s) => W i ω := by
    funext ω
    exact hs _ _ fun i hi => by simp [ext, hi]
  have e2 : (fun ω => G (fun i => W i ω)) = (G ∘ ext t) ∘ fun ω (i : t) => W i ω := by
    funext ω
    exact ht _ _ fun i hi => by simp [ext, hi]
  rw [e1, e2]
  exact h2

/-- the characteristic function of a sum over consecutive chunks of the noise -/
theorem chunk_charFun (h : NormalNoise P W s2) {G : (ℕ → ℝ) → ℝ} (hG : Measurable G) (B : ℕ)
    (hB : ∀ w w', (∀ i < B, w i = w' i) → G w = G w') (n : ℕ) (t : ℝ) :
    charFun (P.map (fun ω => ∑ j ∈ range n, G (fun i => W (j * B + i) ω))) t
      = charFun (P.map (fun ω => G (fun i => W i ω))) t ^ n := by
  induction n with
  | zero => simp
  | succ n ih =>
    simp only [sum_range_succ]
    have hGs : ∀ j, Measurable (fun w : ℕ → ℝ => G (fun i => w (j * B + i))) := fun j => hG.comp (by fun_prop)
    have hF : Measurable (fun w : ℕ → ℝ => ∑ j ∈ range n, G (fun i => w (j * B + i))) :=
      Finset.measurable_fun_sum _ fun j _ => hGs j
    have hW : AEMeasurable (fun ω i => W i ω) P := aemeasurable_pi_lambda _ fun i => (h.law i).aemeasurable
    have hind := NormalNoise_indep_parts h hF (hGs n) (range (n * B)) (Ico (n * B) ((n + 1) * B))
      (by
        rw [disjoint_left]
        intro i hi hi'
        rw [mem_range] at hi
        rw [mem_Ico] at hi'
        omega)
      (fun w w' hw => sum_congr rfl fun j hj => hB _ _ fun i hi => hw _ (by
        rw [mem_range] at hj ⊢
        have := Nat.mul_le_mul_right B (show j + 1 ≤ n by omega)
        rw [add_mul, one_mul] at this
        omega))
      (fun w w' hw => hB _ _ fun i hi => hw _ (by
        rw [mem_Ico, add_mul, one_mul]
        omega))
    have key := congrFun (IndepFun.charFun_map_fun_add_eq_mul (hF.comp_aemeasurable hW) ((hGs n).comp_aemeasurable hW) hind) t
    rw [Pi.mul_apply] at key
    refine key.trans ?_
    rw [pow_succ, ← ih, ← NormalNoise_shift_law h hG (n * B)]
    rfl

/-! ## The approximation -/

theorem charFun_close {X Y : Ω → ℝ} (hX : MemLp X 2 P) (hY : MemLp Y 2 P) (t : ℝ) :
    ‖charFun (P.map X) t - charFun (P.map Y) t‖ ≤ |t| * √(∫ ω, (X ω - Y ω) ^ 2 ∂P) := by
  have hx := hX.aestronglyMeasurable.aemeasurable
  have hy := hY.aestronglyMeasurable.aemeasurable
  rw [charFun_apply_real, charFun_apply_real, integral_map hx (by fun_prop), integral_map hy (by fun_prop)]
  have hb : ∀ x : ℝ, ‖Complex.exp (t * x * Complex.I)‖ = 1 := fun x => by
    rw [← Complex.ofReal_mul, Complex.norm_exp_ofReal_mul_I]
  have hi : ∀ {X : Ω → ℝ}, AEMeasurable X P → Integrable (fun ω => Complex.exp (t * X ω * Complex.I)) P := fun hX =>
    Integrable.of_bound (by fun_prop) 1 (Eventually.of_forall fun ω => (hb _).le)
  rw [← integral_sub (hi hx) (hi hy)]
  have hd : MemLp (fun ω => X ω - Y ω) 2 P := hX.sub hY
  have h1 : ∀ ω, ‖Complex.exp (t * X ω * Complex.I) - Complex.exp (t * Y ω * Complex.I)‖ ≤ |t| * |X ω - Y ω| := by
    intro ω
    have e : Complex.exp (t * X ω * Complex.I) - Complex.exp (t * Y ω * Complex.I)
        = Complex.exp (t * Y ω * Complex.I) * (Complex.exp (Complex.I * ((t * (X ω - Y ω) : ℝ) : ℂ)) - 1) := by
      rw [mul_sub, ← Complex.exp_add, mul_one]
      congr 2
      push_cast
      ring
    rw [e, norm_mul, hb, one_mul, ← abs_mul]
    exact Real.norm_exp_I_mul_ofReal_sub_one_le
  refine (norm_integral_le_integral_norm _).trans ((integral_mono ((hi hx).sub (hi hy)).norm
    ((hd.integrable (by norm_num)).abs.const_mul |t|) h1).trans ?_)
  rw [integral_const_mul]
  refine mul_le_mul_of_nonneg_left ?_ (abs_nonneg _)
  refine Real.le_sqrt_of_sq_le ?_
  have hv := variance_nonneg (fun ω => |X ω - Y ω|) P
  rw [variance_eq_sub (by exact hd.abs)] at hv
  simp only [Pi.pow_apply, sq_abs] at hv
  linarith

/-- normalised sums are close when the difference is small -/
theorem charFun_split {T B : Ω → ℝ} (hT : MemLp T 2 P) (hB : MemLp B 2 P) {τ β r2 : ℝ} (hτ : 0 < τ) (hβ : 0 < β)
    (h1 : ∫ ω, T ω ^ 2 ∂P = τ ^ 2) (h2 : ∫ ω, B ω ^ 2 ∂P = β ^ 2) (h3 : ∫ ω, (T ω - B ω) ^ 2 ∂P ≤ r2) (t : ℝ) :
    ‖charFun (P.map (fun ω => T ω / τ)) t - charFun (P.map (fun ω => B ω / β)) t‖ ≤ |t| * √(r2 / (τ * β)) := by
  have hT' : MemLp (fun ω => T ω / τ) 2 P := by simpa only [div_eq_mul_inv, mul_comm] using hT.const_mul τ⁻¹
  have hB' : MemLp (fun ω => B ω / β) 2 P := by simpa only [div_eq_mul_inv, mul_comm] using hB.const_mul β⁻¹
  refine (charFun_close hT' hB' t).trans (mul_le_mul_of_nonneg_left (Real.sqrt_le_sqrt ?_) (abs_nonneg _))
  have e : ∀ ω, (T ω / τ - B ω / β) ^ 2 = (τ * β)⁻¹ * (T ω - B ω) ^ 2 + ((τ ^ 2)⁻¹ - (τ * β)⁻¹) * T ω ^ 2
      + ((β ^ 2)⁻¹ - (τ * β)⁻¹) * B ω ^ 2 := fun ω => by field_simp; ring
  have i1 := (hT.sub hB).integrable_sq
  simp only [Pi.sub_apply] at i1
  simp only [e]
  have i2 : Integrable (fun ω => (τ * β)⁻¹ * (T ω - B ω) ^ 2 + ((τ ^ 2)⁻¹ - (τ * β)⁻¹) * T ω ^ 2) P :=
    (i1.const_mul _).add (hT.integrable_sq.const_mul _)
  rw [integral_add i2 (hB.integrable_sq.const_mul _), integral_add (i1.const_mul _) (hT.integrable_sq.const_mul _), integral_const_mul, integral_const_mul, integral_const_mul,
    h1, h2]
  have h4 : (τ * β)⁻¹ * ∫ ω, (T ω - B ω) ^ 2 ∂P ≤ r2 / (τ * β) := by
    rw [div_eq_inv_mul]
    exact mul_le_mul_of_nonneg_left h3 (by positivity)
  have h5 : ((τ ^ 2)⁻¹ - (τ * β)⁻¹) * τ ^ 2 + ((β ^ 2)⁻¹ - (τ * β)⁻¹) * β ^ 2 = -((τ - β) ^ 2 / (τ * β)) := by
    field_simp; ring
  have h6 : 0 ≤ (τ - β) ^ 2 / (τ * β) := by positivity
  linarith

/-- the chunks of a sum -/
theorem sum_chunks (f : ℕ → ℝ) (p q n M : ℕ) (hM : n * (p + q) ≤ M) :
    ∑ i ∈ range M, f i = ∑ j ∈ range n, ∑ u ∈ range p, f (j * (p + q) + u)
      + (∑ j ∈ range n, ∑ u ∈ range q, f (j * (p + q) + p + u) + ∑ i ∈ Ico (n * (p + q)) M, f i) := by
  rw [← sum_range_add_sum_Ico f hM, ← add_assoc, ← sum_add_distrib]
  congr 1
  clear hM
  induction n with
  | zero => simp
  | succ n ih =>
    rw [add_mul, one_mul, sum_range_add, ih, sum_range_succ, sum_range_add]
    simp only [add_assoc]

section block

variable (h : NormalNoise P W s2) {A : ℕ → ℝ} {K S : ℕ} (hK : ∀ k, K ≤ k → A k = 0)

/-- one block, as a function of the noise -/
theorem sqDev_local (c : ℝ) (p B : ℕ) (hB : p * S + K ≤ B + S) (w w' : ℕ → ℝ) (hw : ∀ i < B, w i = w' i) :
    sqDev A K S c (range p) w = sqDev A K S c (range p) w' := by
  unfold sqDev
  refine sum_congr rfl fun i hi => ?_
  rw [mem_range] at hi
  have := Nat.mul_le_mul_right S (show i + 1 ≤ p by omega)
  rw [add_mul, one_mul] at this
  congr 2
  refine sum_congr rfl fun k hk => ?_
  rw [mem_range] at hk
  rw [hw _ (by omega)]

theorem sqDev_block (c : ℝ) (p r a j : ℕ) (w : ℕ → ℝ) :
    sqDev A K S c (range p) (fun i => w (j * (r * S) + a * S + i))
      = ∑ u ∈ range p, ((∑ k ∈ range K, A k * w ((j * r + a + u) * S + k)) ^ 2 - c) := by
  unfold sqDev
  refine sum_congr rfl fun u _ => ?_
  congr 2
  refine sum_congr rfl fun k _ => ?_
  congr 2
  ring_nf

include h hK

/-- different blocks are uncorrelated -/
theorem blocks_second (p r a n q : ℕ) (hq : K ≤ q * S) (hr : p + q ≤ r) :
    ∫ ω, (∑ j ∈ range n, sqDev A K S (s2 * filterCov A K S 0) (range p) (fun i => W (j * (r * S) + a * S + i) ω)) ^ 2 ∂P
      = n * ∫ ω, sqDev A K S (s2 * filterCov A K S 0) (range p) (fun i => W i ω) ^ 2 ∂P := by
  have e := fun j ω => sqDev_block (A := A) (K := K) (S := S) (s2 * filterCov A K S 0) p r a j (fun i => W i ω)
  simp only [e]
  rw [sqDev_second h hK]
  simp only [pow_two (∑ j ∈ range n, _), sum_mul_sum]
  have hi := fun i j => ((sqTerm_allLp h (A := A) (K := K) (S := S) (s2 * filterCov A K S 0) i).mul
    (sqTerm_allLp h (A := A) (K := K) (S := S) (s2 * filterCov A K S 0) j)).int
  have hi1 := fun x y => integrable_finsetSum (range p) fun i _ => integrable_finsetSum (range p) fun j _ =>
    hi (x * r + a + i) (y * r + a + j)
  rw [integral_finsetSum _ fun i _ => integrable_finsetSum _ fun j _ => hi1 i j]
  have hxy : ∀ x y, ∫ ω, ∑ i ∈ range p, ∑ j ∈ range p,
      ((∑ k ∈ range K, A k * W ((x * r + a + i) * S + k) ω) ^ 2 - s2 * filterCov A K S 0)
      * ((∑ k ∈ range K, A k * W ((y * r + a + j) * S + k) ω) ^ 2 - s2 * filterCov A K S 0) ∂P
      = if x = y then 2 * s2 ^ 2 * ∑ i ∈ range p, ∑ j ∈ range p, filterCov A K S (lagD i j) ^ 2 else 0 := by
    intro x y
    rw [integral_finsetSum _ fun i _ => integrable_finsetSum _ fun j _ => hi _ _]
    simp only [integral_finsetSum _ fun j _ => hi _ _, sqTerm_cov h hK]
    split_ifs with hxy
    · simp only [mul_sum]
      refine sum_congr rfl fun i _ => sum_congr rfl fun j _ => ?_
      rw [hxy]
      congr 3
      unfold lagD
      omega
    · refine sum_eq_zero fun i hi => sum_eq_zero fun j hj => ?_
      rw [mem_range] at hi hj
      rw [filterCov_zero_of_le A K S q _ hK hq]
      · simp
      · unfold lagD
        rcases lt_or_gt_of_ne hxy with hl | hl
        · have := Nat.mul_le_mul_right r (show x + 1 ≤ y by omega)
          rw [add_mul, one_mul] at this
          omega
        · have := Nat.mul_le_mul_right r (show y + 1 ≤ x by omega)
          rw [add_mul, one_mul] at this
          omega
  simp only [integral_finsetSum _ fun j _ => hi1 _ j, hxy, sum_ite_eq]
  rw [sum_congr rfl fun x hx => if_pos hx, sum_const, card_range, nsmul_eq_mul]

/-- the blocks are asymptotically normal -/
theorem block_clt (hs : s2 ≠ 0) (g0 : filterCov A K S 0 ≠ 0) (p q : ℕ) (hp : 0 < p) (hq : K ≤ q * S) (t : ℝ) :
    Tendsto (fun n : ℕ => charFun (P.map (fun ω => (∑ j ∈ range n, sqDev A K S (s2 * filterCov A K S 0) (range p)
      (fun i => W (j * ((p + q) * S) + i) ω)) / √(n * (2 * s2 ^ 2 * lagN p (filterCov A K S))))) t)
      atTop (𝓝 (charFun (gaussianReal 0 1) t)) := by
  have hs' : (0 : ℝ) < s2 := by exact_mod_cast pos_iff_ne_zero.2 hs
  have hp' : (0 : ℝ) < p := by exact_mod_cast hp
  have hv : 0 < 2 * (s2 : ℝ) ^ 2 * lagN p (filterCov A K S) := by
    have := lagN_ge p hp (filterCov A K S)
    have h1 : 0 < (p : ℝ) * filterCov A K S 0 ^ 2 := by positivity
    have h2 : 0 < lagN p (filterCov A K S) := by linarith
    positivity
  set v := 2 * (s2 : ℝ) ^ 2 * lagN p (filterCov A K S) with hvd
  set Z : Ω → ℝ := fun ω => sqDev A K S (s2 * filterCov A K S 0) (range p) (fun i => W i ω) with hZ
  have hZL : AllLp P Z := sqDev_allLp h _ _
  have hZm : AEMeasurable Z P := (hZL 1).aestronglyMeasurable.aemeasurable
  have hlim := tendsto_charFun_inv_sqrt_mul_pow (P := P) (X := fun ω => (√v)⁻¹ * Z ω) (hZm.const_mul _)
    (by rw [integral_const_mul, sqDev_mean h hK, mul_zero])
    (by
      simp only [Pi.pow_apply, mul_pow]
      rw [integral_const_mul, sqDev_second_range h hK p hp, ← hvd, inv_pow, Real.sq_sqrt hv.le, inv_mul_cancel₀ hv.ne']) t
  have e2 : charFun (gaussianReal 0 1) t = Complex.exp (-t ^ 2 / 2) := by
    rw [charFun_gaussianReal]
    congr 1
    simp
    ring
  rw [e2]
  refine hlim.congr fun n => ?_
  have hB : ∀ w w' : ℕ → ℝ, (∀ i < (p + q) * S, w i = w' i) → sqDev A K S (s2 * filterCov A K S 0) (range p) w
      = sqDev A K S (s2 * filterCov A K S 0) (range p) w' := fun w w' hw =>
    sqDev_local _ p ((p + q) * S) (by rw [add_mul]; omega) w w' hw
  rw [charFun_map_mul_comp hZm]
  have hsum : AEMeasurable (fun ω => ∑ j ∈ range n, sqDev A K S (s2 * filterCov A K S 0) (range p)
      (fun i => W (j * ((p + q) * S) + i) ω)) P := by
    refine Finset.aemeasurable_fun_sum _ fun j _ => ?_
    exact (sqDev_measurable A K S _ _).comp_aemeasurable
      (aemeasurable_pi_lambda _ fun i => (h.law _).aemeasurable)
  have e3 := charFun_map_mul_comp hsum (√(n * v))⁻¹ t
  simp only [div_eq_inv_mul]
  rw [e3, chunk_charFun h (sqDev_measurable A K S _ _) _ hB, Real.sqrt_mul (Nat.cast_nonneg n), mul_inv]
  congr 2
  ring_nf

/-- **Central limit theorem** for the mean square of a moving filter of normal noise. -/
theorem filter_clt (hs : s2 ≠ 0) (g0 : filterCov A K S 0 ≠ 0) (hS : 0 < S) (t : ℝ) :
    Tendsto (fun M : ℕ => charFun (P.map (fun ω => sqDev A K S (s2 * filterCov A K S 0) (range M) (fun i => W i ω)
      / √(2 * s2 ^ 2 * lagN M (filterCov A K S)))) t) atTop (𝓝 (charFun (gaussianReal 0 1) t)) := by
  have hs' : (0 : ℝ) < s2 := by exact_mod_cast pos_iff_ne_zero.2 hs
  set q := K + 1 with hqd
  have hq : K ≤ q * S := by nlinarith
  set γ := 2 * (s2 : ℝ) ^ 2 * filterCov A K S 0 ^ 2 with hγ
  have hγ0 : 0 < γ := by positivity
  have hq0 : (0 : ℝ) < q := by rw [hqd]; positivity
  have hvar : ∀ p, 0 < p → γ * p ≤ 2 * s2 ^ 2 * lagN p (filterCov A K S) := fun p hp => by
    have := mul_le_mul_of_nonneg_left (lagN_ge p hp (filterCov A K S)) (show (0 : ℝ) ≤ 2 * s2 ^ 2 by positivity)
    rw [hγ]; linarith
  -- the distance between the whole sum and the blocks
  have close : ∀ p M : ℕ, q ≤ p → p + q ≤ M →
      ‖charFun (P.map (fun ω => sqDev A K S (s2 * filterCov A K S 0) (range M) (fun i => W i ω)
        / √(2 * s2 ^ 2 * lagN M (filterCov A K S)))) t
      - charFun (P.map (fun ω => (∑ j ∈ range (M / (p + q)), sqDev A K S (s2 * filterCov A K S 0) (range p)
        (fun i => W (j * ((p + q) * S) + i) ω)) / √((M / (p + q) : ℕ) * (2 * s2 ^ 2 * lagN p (filterCov A K S))))) t‖
      ≤ |t| * √(4 * q * (q / p) + 4 * q * (p + q) / p / (M / (p + q) : ℕ)) := by
    intro p M hp hM
    have hp0 : 0 < p := by omega
    have hp' : (0 : ℝ) < p := by exact_mod_cast hp0
    set n := M / (p + q) with hn
    have hn0 : 0 < n := Nat.div_pos hM (by omega)
    have hn' : (0 : ℝ) < n := by exact_mod_cast hn0
    have hnM : n * (p + q) ≤ M := Nat.div_mul_le_self M (p + q)
    have hMn : M < n * (p + q) + (p + q) := Nat.lt_div_mul_add (by omega)
    have hM0 : 0 < M := by omega
    set τ2 := 2 * (s2 : ℝ) ^ 2 * lagN M (filterCov A K S) with hτ2
    set v := 2 * (s2 : ℝ) ^ 2 * lagN p (filterCov A K S) with hv
    have h1 : γ * (n * p) ≤ τ2 := by
      refine le_trans (mul_le_mul_of_nonneg_left ?_ hγ0.le) (hvar M hM0)
      have : n * p ≤ M := by nlinarith
      exact_mod_cast this
    have h2 : γ * (n * p) ≤ n * v := by
      have := mul_le_mul_of_nonneg_left (hvar p hp0) hn'.le
      linarith
    have hnp : 0 < γ * (n * p) := by positivity
    have hτ : 0 < √τ2 := Real.sqrt_pos.2 (by linarith)
    have hβ : 0 < √(n * v) := Real.sqrt_pos.2 (by linarith)
    have hτβ : γ * (n * p) ≤ √τ2 * √(n * v) := by
      rw [← Real.sqrt_mul (by linarith)]
      refine Real.le_sqrt_of_sq_le ?_
      rw [pow_two]
      exact mul_le_mul h1 h2 hnp.le (by linarith)
    have hT := sqDev_allLp h (A := A) (K := K) (S := S) (s2 * filterCov A K S 0)
    set f : ℕ → Ω → ℝ := fun i ω => (∑ k ∈ range K, A k * W (i * S + k) ω) ^ 2 - s2 * filterCov A K S 0 with hf
    have hfL : ∀ i, AllLp P (f i) := fun i => sqTerm_allLp h _ i
    have eB : ∀ ω, ∑ j ∈ range n, sqDev A K S (s2 * filterCov A K S 0) (range p) (fun i => W (j * ((p + q) * S) + i) ω)
        = ∑ j ∈ range n, ∑ u ∈ range p, f (j * (p + q) + u) ω := fun ω => sum_congr rfl fun j _ => by
      have := sqDev_block (A := A) (K := K) (S := S) (s2 * filterCov A K S 0) p (p + q) 0 j (fun i => W i ω)
      simpa only [zero_mul, add_zero] using this
    have hB2 := blocks_second h hK p (p + q) 0 n q hq le_rfl
    simp only [zero_mul, add_zero, eB] at hB2
    rw [sqDev_second_range h hK p hp0, ← hv] at hB2
    have eR : ∀ ω, ∑ j ∈ range n, sqDev A K S (s2 * filterCov A K S 0) (range q) (fun i => W (j * ((p + q) * S) + p * S + i) ω)
        = ∑ j ∈ range n, ∑ u ∈ range q, f (j * (p + q) + p + u) ω := fun ω => sum_congr rfl fun j _ =>
      sqDev_block (A := A) (K := K) (S := S) (s2 * filterCov A K S 0) q (p + q) p j (fun i => W i ω)
    have hR2 := blocks_second h hK q (p + q) p n q hq (by omega)
    simp only [eR] at hR2
    have hR2' := sqDev_second_le h hK (range q) q hq
    have hR3 := sqDev_second_le h hK (Ico (n * (p + q)) M) q hq
    rw [← hγ, card_range] at hR2'
    rw [← hγ, Nat.card_Ico] at hR3
    set R1 : Ω → ℝ := fun ω => ∑ j ∈ range n, ∑ u ∈ range q, f (j * (p + q) + p + u) ω with hR1d
    set R3 : Ω → ℝ := fun ω => sqDev A K S (s2 * filterCov A K S 0) (Ico (n * (p + q)) M) (fun i => W i ω) with hR3d
    have hR1L : AllLp P R1 := AllLp.sum fun j _ => AllLp.sum fun u _ => hfL _
    have hR3L : AllLp P R3 := hT _
    have hBL : AllLp P (fun ω => ∑ j ∈ range n, ∑ u ∈ range p, f (j * (p + q) + u) ω) :=
      AllLp.sum fun j _ => AllLp.sum fun u _ => hfL _
    have eT : ∀ ω, sqDev A K S (s2 * filterCov A K S 0) (range M) (fun i => W i ω)
        - ∑ j ∈ range n, ∑ u ∈ range p, f (j * (p + q) + u) ω = R1 ω + R3 ω := fun ω => by
      have := sum_chunks (fun i => f i ω) p q n M hnM
      have e : sqDev A K S (s2 * filterCov A K S 0) (range M) (fun i => W i ω) = ∑ i ∈ range M, f i ω := rfl
      rw [e, this, add_sub_cancel_left]
      rfl
    have hres : ∫ ω, (sqDev A K S (s2 * filterCov A K S 0) (range M) (fun i => W i ω)
        - ∑ j ∈ range n, ∑ u ∈ range p, f (j * (p + q) + u) ω) ^ 2 ∂P ≤ γ * (4 * q * (n * q + (p + q))) := by
      simp only [eT]
      have i1 := (hR1L.pow 2).int
      have i3 := (hR3L.pow 2).int
      have hle : ∫ ω, (R1 ω + R3 ω) ^ 2 ∂P ≤ ∫ ω, (2 * R1 ω ^ 2 + 2 * R3 ω ^ 2) ∂P :=
        integral_mono (((hR1L.add hR3L).pow 2).int) ((i1.const_mul 2).add (i3.const_mul 2))
          fun ω => by nlinarith [sq_nonneg (R1 ω - R3 ω)]
      rw [integral_add (i1.const_mul 2) (i3.const_mul 2), integral_const_mul, integral_const_mul, hR2] at hle
      have c1 : ((M - n * (p + q) : ℕ) : ℝ) ≤ p + q := by
        have : M - n * (p + q) ≤ p + q := by omega
        exact_mod_cast this
      have c2 := mul_le_mul_of_nonneg_left hR2' hn'.le
      have c3 := mul_le_mul_of_nonneg_left c1 (show (0 : ℝ) ≤ γ * (2 * q) by positivity)
      nlinarith
    have key := charFun_split (hT (range M) 2) (hBL 2) hτ hβ
      (by rw [sqDev_second_range h hK M hM0, ← hτ2, Real.sq_sqrt (by linarith)])
      (by rw [hB2, Real.sq_sqrt (by linarith)]) hres t
    simp only [eB]
    refine key.trans (mul_le_mul_of_nonneg_left (Real.sqrt_le_sqrt ?_) (abs_nonneg _))
    rw [div_le_iff₀ (mul_pos hτ hβ)]
    refine le_trans (le_of_eq ?_) (mul_le_mul_of_nonneg_left hτβ (by positivity))
    field_simp
  rw [Metric.tendsto_atTop]
  intro ε hε
  -- a long block
  have hsmall : ∀ c : ℝ, 0 ≤ c → Tendsto (fun n : ℕ => c / (n : ℝ)) atTop (𝓝 0) := fun c _ =>
    tendsto_const_div_atTop_nhds_zero_nat c
  obtain ⟨δ, hδ, hδε⟩ : ∃ δ > 0, |t| * √δ < ε / 2 := by
    refine ⟨(ε / (4 * (|t| + 1))) ^ 2, by positivity, ?_⟩
    rw [Real.sqrt_sq (by positivity)]
    have : |t| * (ε / (4 * (|t| + 1))) ≤ ε / 4 := by
      rw [mul_div_assoc', div_le_div_iff₀ (by positivity) (by norm_num)]
      nlinarith [abs_nonneg t]
    linarith
  obtain ⟨p, hp1, hpq⟩ : ∃ p : ℕ, 4 * q * (q / p) < δ / 2 ∧ q ≤ p := by
    have h1 := ((tendsto_order.1 (hsmall (4 * q * q) (by positivity))).2 (δ / 2) (by positivity)).and (eventually_ge_atTop q)
    obtain ⟨p, h2, h3⟩ := h1.exists
    exact ⟨p, by rw [← mul_div_assoc]; exact h2, h3⟩
  have hp0 : 0 < p := by omega
  have hdiv : Tendsto (fun M : ℕ => M / (p + q)) atTop atTop :=
    Filter.tendsto_atTop.2 fun b => by
      filter_upwards [eventually_ge_atTop (b * (p + q))] with M hM
      exact (Nat.le_div_iff_mul_le (by omega)).2 hM
  have h1 := (block_clt h hK hs g0 p q hp0 hq t).comp hdiv
  have h2 := ((hsmall (4 * q * (p + q) / p) (by positivity)).comp hdiv)
  have h3 := (Metric.tendsto_atTop.1 h1 (ε / 2) (by positivity))
  have h4 := (tendsto_order.1 h2).2 (δ / 2) (by positivity)
  obtain ⟨N1, hN1⟩ := h3
  obtain ⟨N2, hN2⟩ := eventually_atTop.1 h4
  refine ⟨max (max N1 N2) (p + q), fun M hM => ?_⟩
  have a1 := hN1 M (le_trans (le_trans (le_max_left _ _) (le_max_left _ _)) hM)
  have a2 := hN2 M (le_trans (le_trans (le_max_right _ _) (le_max_left _ _)) hM)
  have a3 := close p M hpq (le_trans (le_max_right _ _) hM)
  simp only [Function.comp_apply] at a1 a2
  rw [dist_eq_norm] at a1 ⊢
  have a4 : |t| * √(4 * q * (q / p) + 4 * q * (p + q) / p / (M / (p + q) : ℕ)) ≤ |t| * √δ :=
    mul_le_mul_of_nonneg_left (Real.sqrt_le_sqrt (by linarith)) (abs_nonneg t)
  have a5 := norm_sub_le_norm_sub_add_norm_sub
    (charFun (P.map (fun ω => sqDev A K S (s2 * filterCov A K S 0) (range M) (fun i => W i ω)
        / √(2 * s2 ^ 2 * lagN M (filterCov A K S)))) t)
    (charFun (P.map (fun ω => (∑ j ∈ range (M / (p + q)), sqDev A K S (s2 * filterCov A K S 0) (range p)
        (fun i => W (j * ((p + q) * S) + i) ω)) / √((M / (p + q) : ℕ) * (2 * s2 ^ 2 * lagN p (filterCov A K S))))) t)
    (charFun (gaussianReal 0 1) t)
  linarith

end block

end AT
