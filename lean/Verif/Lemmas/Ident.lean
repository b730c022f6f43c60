import Verif.Lemmas.MovForm
import Verif.Lemmas.LsFit

/-!
# The stages of the noise identification, with high probability
-/

namespace AT

open Spec Finset MeasureTheory ProbabilityTheory Filter
open scoped NNReal ENNReal

/-- the polynomial takes from `e` what least squares takes -/
def Orth (A B C : ℝ) (e : ℕ → ℝ) (n : ℕ) : Prop :=
  ∑ i ∈ range n, quad A B C i ^ 2 = ∑ i ∈ range n, quad A B C i * e i

theorem tendsto_sub_atTop (k : ℕ) : Tendsto (fun n : ℕ => n - k) atTop atTop :=
  tendsto_atTop_atTop.2 fun b => ⟨b + k, fun n hn => by omega⟩

variable {Ω : Type} [MeasurableSpace Ω] {P : Measure Ω} [IsProbabilityMeasure P] {W : ℕ → Ω → ℝ} {S : ℕ} {s2 : ℝ≥0}

omit [IsProbabilityMeasure P] in
/-- Markov's inequality with the mean bounded by a multiple of `1 / n` -/
theorem whp_of_mean_div {X : ℕ → Ω → ℝ} {V : ℝ} (h0 : ∀ n ω, 0 ≤ X n ω) (hi : ∀ n, Integrable (X n) P)
    (hm : ∀ n, ∫ ω, X n ω ∂P ≤ V * n) {ε : ℝ} (hε : 0 < ε) :
    Whp P (fun n ω => X n ω ≤ ε * (n : ℝ) ^ 2) := by
  have h1 := whp_of_mean (P := P) (X := fun n ω => X n ω / (n : ℝ) ^ 2) (c := fun n : ℕ => V / n)
    (fun n ω => div_nonneg (h0 n ω) (by positivity)) (fun n => (hi n).div_const _) (fun n => by
      rw [integral_div]
      rcases Nat.eq_zero_or_pos n with rfl | hn
      · simp
      · have hn0 : (0 : ℝ) < n := by exact_mod_cast hn
        rw [div_le_div_iff₀ (by positivity) hn0]
        have := hm n
        nlinarith) (tendsto_const_div_atTop_nhds_zero_nat V) hε
  refine h1.mono ?_
  filter_upwards [eventually_gt_atTop 0] with n hn ω hω
  have hn0 : (0 : ℝ) < (n : ℝ) ^ 2 := by positivity
  exact ((div_lt_iff₀ hn0).1 hω).le

/-- a noise whose squares have the mean `γ` over long times, and the squares of its differences the mean `η`,
and whose sums have at most the size of a random walk -/
structure Noisy (P : Measure Ω) (w : ℕ → Ω → ℝ) (γ η : ℝ) : Prop where
  allLp : ∀ i, AllLp P (w i)
  sq : ∀ {ε : ℝ}, 0 < ε → Whp P (fun n ω => |(∑ i ∈ range n, w i ω ^ 2) - n * γ| ≤ ε * n)
  diff : ∀ {ε : ℝ}, 0 < ε → Whp P (fun n ω => |(∑ i ∈ range n, (w (i + 1) ω - w i ω) ^ 2) - n * η| ≤ ε * n)
  sums : ∃ V : ℝ, 0 ≤ V ∧ ∀ n : ℕ, ∫ ω, (∑ i ∈ range n, w i ω) ^ 2 ∂P ≤ V * n
  bound : ∃ v : ℝ, ∀ i, ∫ ω, w i ω ^ 2 ∂P ≤ v

theorem Noisy.sum_sq {w : ℕ → Ω → ℝ} {γ η : ℝ} (hw : Noisy P w γ η) : ∃ V : ℝ, 0 ≤ V ∧ ∀ n : ℕ,
    Integrable (fun ω => (∑ i ∈ range n, w i ω) ^ 2) P ∧ ∫ ω, (∑ i ∈ range n, w i ω) ^ 2 ∂P ≤ V * n := by
  obtain ⟨V, hV, hs⟩ := hw.sums
  exact ⟨V, hV, fun n => ⟨((AllLp.sum fun i _ => hw.allLp i).pow 2).int, hs n⟩⟩

theorem MF.noisy (h : NormalNoise P W s2) {w : ℕ → Ω → ℝ} (hw : MF W S w) (hS : 0 < S) {γ η : ℝ} (hγ : MeanSq P (w 0) γ)
    (hη : MeanSq P (fun ω => w 1 ω - w 0 ω) η) : Noisy P w γ η where
  allLp := fun i => hw.allLp h i
  sq := fun hε => hw.lln h hS hγ hε
  diff := fun hε => MF.lln h (f := fun i ω => w (i + 1) ω - w i ω) ((hw.shift 1).sub hw) hS hη hε
  sums := by
    obtain ⟨V, hV, hs⟩ := hw.sum_sq h hS
    exact ⟨V, hV, fun n => (hs n).2⟩
  bound := by
    obtain ⟨v, -, hv⟩ := hw.meanSq h
    exact ⟨v, fun i => (hv i).2.le⟩

/-- the last stage: `rho` is near its limit, whatever small correction is taken off -/
theorem final_core {w : ℕ → Ω → ℝ} {γ η : ℝ} (hw : Noisy P w γ η) (hγ0 : 0 < γ) (hη4 : η < 4 * γ) {κ : ℝ} (hκ : 0 < κ) :
    ∃ ε : ℝ, 0 < ε ∧ Whp P (fun n ω => ∀ q : ℕ → ℝ, ∑ i ∈ range n, q i ^ 2 ≤ ε * n →
      ∃ ρ, rho (tab n (fun i => w i ω - q i)) = some ρ ∧ |ρ - (γ - η / 2) / (2 * γ - η / 2)| < κ) := by
  obtain ⟨ε, hε, hlim⟩ := rho_limit hγ0 hη4 hκ
  refine ⟨ε, hε, ?_⟩
  obtain ⟨V, hV, hsum⟩ := hw.sum_sq
  have e1 := whp_of_mean_div (P := P) (fun n ω => sq_nonneg (∑ i ∈ range n, w i ω)) (fun n => (hsum n).1) (fun n => (hsum n).2) hε
  have e2 := hw.sq hε
  have e3 := (hw.diff (half_pos hε)).comp (tendsto_sub_atTop 1)
  obtain ⟨v, hv⟩ := hw.bound
  have hi : ∀ i, Integrable (fun ω => w i ω ^ 2) P := fun i => ((hw.allLp i).pow 2).int
  have e4 := whp_of_mean_div (P := P) (X := fun n ω => n * (w 0 ω ^ 2 + w (n - 1) ω ^ 2)) (V := 2 * v)
    (fun n ω => by positivity) (fun n => ((hi 0).add (hi (n - 1))).const_mul _) (fun n => by
      rw [integral_const_mul, integral_add (hi 0) (hi (n - 1)), mul_comm]
      exact mul_le_mul_of_nonneg_right (by linarith [hv 0, hv (n - 1)]) (Nat.cast_nonneg n)) hε
  refine ((e1.and e2).and (e3.and e4)).mono ?_
  obtain ⟨N0, hN0⟩ := exists_nat_gt (2 * |η| / ε)
  filter_upwards [eventually_gt_atTop 0, eventually_ge_atTop N0] with n hn hnN ω hω q hq
  obtain ⟨⟨k1, k2⟩, k3, k4⟩ := hω
  have hn0 : (0 : ℝ) < n := by exact_mod_cast hn
  refine hlim n (fun i => w i ω) q hn hq k1 k2 ?_ ?_
  · rw [Nat.cast_sub (by omega), Nat.cast_one] at k3
    have hη' : |η| ≤ ε / 2 * n := by
      have h5 : 2 * |η| / ε ≤ n := hN0.le.trans (by exact_mod_cast hnN)
      rw [div_le_iff₀ hε] at h5
      linarith
    have h6 := abs_le.1 k3
    have h7 := abs_le.1 hη'
    rw [abs_le]
    constructor <;> nlinarith
  · have h5 : (n : ℝ) * (w 0 ω ^ 2 + w (n - 1) ω ^ 2) ≤ n * (ε * n) := by linarith
    exact le_of_mul_le_mul_left h5 hn0

/-! ## Series that are their own noise -/

theorem fit_small0 {e : ℕ → Ω → ℝ} {γ η : ℝ} (he : Noisy P e γ η) {ε : ℝ} (hε : 0 < ε) :
    Whp P (fun n ω => ∀ A B C, Orth A B C (fun i => e i ω) n → ∑ i ∈ range n, quad A B C i ^ 2 ≤ ε * n) := by
  obtain ⟨V, hV, hsum⟩ := he.sum_sq
  have hX : ∀ n : ℕ, Integrable (fun ω => 600000 * (∑ i ∈ range n, e i ω) ^ 2
      + 200000 * ((∑ i ∈ range n, (∑ j ∈ range (i + 1), e j ω) ^ 2) / n)) P := fun n =>
    ((hsum n).1.const_mul _).add (((integrable_finsetSum _ fun i _ => (hsum (i + 1)).1).div_const _).const_mul _)
  have e1 := whp_of_mean_div (P := P) (X := fun n ω => 600000 * (∑ i ∈ range n, e i ω) ^ 2
      + 200000 * ((∑ i ∈ range n, (∑ j ∈ range (i + 1), e j ω) ^ 2) / n)) (V := 800000 * V)
    (fun n ω => add_nonneg (by positivity) (mul_nonneg (by norm_num) (div_nonneg (sum_nonneg fun i _ => sq_nonneg _) (by positivity))))
    hX (fun n => by
      rw [integral_add ((hsum n).1.const_mul _) (((integrable_finsetSum _ fun i _ => (hsum (i + 1)).1).div_const _).const_mul _),
        integral_const_mul, integral_const_mul, integral_div, integral_finsetSum _ fun i _ => (hsum (i + 1)).1]
      have h1 : ∑ i ∈ range n, ∫ ω, (∑ j ∈ range (i + 1), e j ω) ^ 2 ∂P ≤ n * (V * n) := by
        refine (sum_le_card_nsmul _ _ (V * n) fun i hi => (hsum (i + 1)).2.trans ?_).trans_eq (by rw [card_range, nsmul_eq_mul])
        refine mul_le_mul_of_nonneg_left ?_ hV
        exact_mod_cast mem_range.1 hi
      have h2 : (∑ i ∈ range n, ∫ ω, (∑ j ∈ range (i + 1), e j ω) ^ 2 ∂P) / n ≤ V * n := by
        rcases Nat.eq_zero_or_pos n with rfl | hn
        · simp
        · rw [div_le_iff₀ (by exact_mod_cast hn)]
          linarith
      have h3 := (hsum n).2
      linarith) hε
  refine e1.mono ?_
  filter_upwards [eventually_ge_atTop 3] with n hn ω hω A B C ho
  have hn0 : (0 : ℝ) < n := by exact_mod_cast (show 0 < n by omega)
  have h1 := quad_fit_white A B C (fun i => e i ω) hn ho
  have h2 : n * ∑ i ∈ range n, quad A B C i ^ 2 ≤ n * (ε * n) := by
    calc n * ∑ i ∈ range n, quad A B C i ^ 2 ≤ n * _ := mul_le_mul_of_nonneg_left h1 hn0.le
      _ = 600000 * (∑ i ∈ range n, e i ω) ^ 2 + 200000 * ((∑ i ∈ range n, (∑ j ∈ range (i + 1), e j ω) ^ 2) / n) := by
          field_simp
      _ ≤ _ := by rw [show (n : ℝ) * (ε * n) = ε * (n : ℝ) ^ 2 by ring]; exact hω
  exact le_of_mul_le_mul_left h2 hn0

theorem stage0 {e : ℕ → Ω → ℝ} {γ η : ℝ} (he : Noisy P e γ η) (hγ0 : 0 < γ) (hη4 : η < 4 * γ) {κ : ℝ} (hκ : 0 < κ) :
    Whp P (fun n ω => ∀ A B C, Orth A B C (fun i => e i ω) n →
      ∃ ρ, rho (tab n (fun i => e i ω - quad A B C i)) = some ρ ∧ |ρ - (γ - η / 2) / (2 * γ - η / 2)| < κ) := by
  obtain ⟨ε, hε, h1⟩ := final_core he hγ0 hη4 hκ
  exact (h1.and (fit_small0 he hε)).mono (Eventually.of_forall fun n ω hω A B C ho => hω.1 _ (hω.2 A B C ho))

/-! ## Sums of noise -/

theorem sum_sq_le_cube (V : ℝ) (n : ℕ) (f : ℕ → ℝ) (p : ℕ) (hf : ∀ i < n, f i ≤ V * (n : ℝ) ^ p) :
    ∑ i ∈ range n, f i ≤ V * (n : ℝ) ^ (p + 1) := by
  refine (sum_le_card_nsmul _ _ (V * (n : ℝ) ^ p) fun i hi => hf i (mem_range.1 hi)).trans_eq ?_
  rw [card_range, nsmul_eq_mul]
  ring

theorem fit_small1 {w e : ℕ → Ω → ℝ} {γ η : ℝ} (hw : Noisy P w γ η)
    (he : ∀ i ω, e i ω = ∑ j ∈ range i, w j ω) {ε : ℝ} (hε : 0 < ε) :
    Whp P (fun n ω => ∀ A B C, Orth A B C (fun i => e i ω) n →
      ∑ i ∈ range (n - 1), (quad A B C (i + 1) - quad A B C i) ^ 2 ≤ ε * (n - 1 : ℕ)) := by
  obtain ⟨V, hV, hsum⟩ := hw.sum_sq
  simp only [← he] at hsum
  have e1 := whp_of_mean_div (P := P) (X := fun n ω => (∑ i ∈ range n, e i ω ^ 2) / n) (V := V)
    (fun n ω => div_nonneg (sum_nonneg fun i _ => sq_nonneg _) (by positivity))
    (fun n => (integrable_finsetSum _ fun i _ => (hsum i).1).div_const _) (fun n => by
      rw [integral_div, integral_finsetSum _ fun i _ => (hsum i).1]
      have h1 := sum_sq_le_cube V n (fun i => ∫ ω, e i ω ^ 2 ∂P) 1 fun i hi => (hsum i).2.trans (by
        rw [pow_one]
        exact mul_le_mul_of_nonneg_left (by exact_mod_cast hi.le) hV)
      rcases Nat.eq_zero_or_pos n with rfl | hn
      · simp
      · rw [div_le_iff₀ (by exact_mod_cast hn)]
        exact h1.trans_eq (by ring)) (show 0 < ε / 200000 by positivity)
  refine e1.mono ?_
  filter_upwards [eventually_ge_atTop 3] with n hn ω hω A B C ho
  have hn0 : (3 : ℝ) ≤ n := by exact_mod_cast hn
  have hn0' : (0 : ℝ) < n := by linarith
  have h1 := quad_fit_le A B C (fun i => e i ω) n ho
  rw [div_le_iff₀ hn0'] at hω
  have h2 : ∀ i ∈ range (n - 1), (quad A B C (i + 1) - quad A B C i) ^ 2 ≤ ε / 2 := fun i hi => by
    have hi' : (i : ℝ) + 1 ≤ n := by exact_mod_cast (show i + 1 ≤ n by have := mem_range.1 hi; omega)
    have h3 := quad_slope A B C hn (s := 2 * i + 1) (by positivity) (by linarith)
    have e4 : quad A B C (i + 1) - quad A B C i = B + C * (2 * i + 1) := by
      unfold quad
      push_cast
      ring
    rw [e4]
    have h5 : (B + C * (2 * i + 1)) ^ 2 * (n : ℝ) ^ 3 ≤ ε / 2 * (n : ℝ) ^ 3 := by nlinarith
    exact le_of_mul_le_mul_right h5 (by positivity)
  refine (sum_le_card_nsmul _ _ _ h2).trans ?_
  rw [card_range, nsmul_eq_mul]
  have : (0 : ℝ) ≤ (n - 1 : ℕ) := by positivity
  nlinarith

theorem fit_small2 {w v e : ℕ → Ω → ℝ} {γ η : ℝ} (hw : Noisy P w γ η)
    (hv : ∀ i ω, v i ω = ∑ j ∈ range i, w j ω) (he : ∀ i ω, e i ω = ∑ j ∈ range i, v j ω) {ε : ℝ} (hε : 0 < ε) :
    Whp P (fun n ω => ∀ A B C, Orth A B C (fun i => e i ω) n → ∑ _i ∈ range (n - 2), (2 * C) ^ 2 ≤ ε * (n - 2 : ℕ)) := by
  obtain ⟨V, hV, hsum⟩ := hw.sum_sq
  simp only [← hv] at hsum
  have hvL : ∀ i, AllLp P (v i) := fun i => by
    have e1 : v i = fun ω => ∑ j ∈ range i, w j ω := funext fun ω => hv i ω
    rw [e1]
    exact AllLp.sum fun j _ => hw.allLp j
  have heL : ∀ i, Integrable (fun ω => e i ω ^ 2) P := fun i => by
    have e1 : e i = fun ω => ∑ j ∈ range i, v j ω := funext fun ω => he i ω
    rw [e1]
    exact ((AllLp.sum fun j _ => hvL j).pow 2).int
  have hem : ∀ n i, i < n → ∫ ω, e i ω ^ 2 ∂P ≤ V * (n : ℝ) ^ 3 := fun n i hi => by
    have hi' : (i : ℝ) ≤ n := by exact_mod_cast hi.le
    calc ∫ ω, e i ω ^ 2 ∂P ≤ ∫ ω, (i : ℝ) * ∑ j ∈ range i, v j ω ^ 2 ∂P :=
          integral_mono (heL i) ((integrable_finsetSum _ fun j _ => (hsum j).1).const_mul _) fun ω => by
            simp only [he]
            exact sq_sum_le _ _
      _ ≤ (i : ℝ) * (V * (i : ℝ) ^ 2) := by
          rw [integral_const_mul, integral_finsetSum _ fun j _ => (hsum j).1]
          refine mul_le_mul_of_nonneg_left ?_ (by positivity)
          exact sum_sq_le_cube V i (fun j => ∫ ω, v j ω ^ 2 ∂P) 1 fun j hj => (hsum j).2.trans (by
            rw [pow_one]
            exact mul_le_mul_of_nonneg_left (by exact_mod_cast hj.le) hV)
      _ = V * (i : ℝ) ^ 3 := by ring
      _ ≤ _ := mul_le_mul_of_nonneg_left (pow_le_pow_left₀ (by positivity) hi' 3) hV
  have e1 := whp_of_mean_div (P := P) (X := fun n ω => (∑ i ∈ range n, e i ω ^ 2) / (n : ℝ) ^ 3) (V := V)
    (fun n ω => div_nonneg (sum_nonneg fun i _ => sq_nonneg _) (by positivity))
    (fun n => (integrable_finsetSum _ fun i _ => heL i).div_const _) (fun n => by
      rw [integral_div, integral_finsetSum _ fun i _ => heL i]
      have h1 := sum_sq_le_cube V n (fun i => ∫ ω, e i ω ^ 2 ∂P) 3 (hem n)
      rcases Nat.eq_zero_or_pos n with rfl | hn
      · simp
      · have hn0 : (0 : ℝ) < n := by exact_mod_cast hn
        rw [div_le_iff₀ (by positivity)]
        exact h1.trans_eq (by ring)) (show 0 < ε / 18750 by positivity)
  refine e1.mono ?_
  filter_upwards [eventually_ge_atTop 3] with n hn ω hω A B C ho
  have hn0 : (0 : ℝ) < n := by exact_mod_cast (show 0 < n by omega)
  have h1 := quad_fit_le A B C (fun i => e i ω) n ho
  rw [div_le_iff₀ (by positivity)] at hω
  have h3 := quad_curv A B C hn
  have h2 : (2 * C) ^ 2 ≤ ε := by
    have h5 : (2 * C) ^ 2 * (n : ℝ) ^ 5 ≤ ε * (n : ℝ) ^ 5 := by nlinarith
    exact le_of_mul_le_mul_right h5 (by positivity)
  rw [sum_const, card_range, nsmul_eq_mul, mul_comm]
  exact mul_le_mul_of_nonneg_right h2 (by positivity)

/-! ## Not stopping too early -/

theorem rho_quarter (y : ℕ → ℝ) {n : ℕ} (hn : 12 < n) (h0 : 0 < acfDen y n)
    (h : 50 * ∑ i ∈ range (n - 1), (y (i + 1) - y i) ^ 2 ≤ acfDen y n) : ∃ ρ, rho (tab n y) = some ρ ∧ 1 / 4 < ρ := by
  have h1 := acf_large y hn h0 h
  refine ⟨_, rho_tab y n h0, ?_⟩
  rw [div_lt_div_iff₀ (by norm_num) (by linarith)]
  linarith

/-- sums of noise are not taken for noise -/
theorem early1 {w e : ℕ → Ω → ℝ} {γ η : ℝ} (hw : Noisy P w γ η) (hγ0 : 0 ≤ γ)
    (he : ∀ i ω, e i ω = ∑ j ∈ range i, w j ω)
    (hR : ∀ R : ℝ, ∃ L : ℕ, ∃ v, R ≤ v ∧ ∀ ε > 0, Whp P (fun n ω => |(∑ i ∈ range n, d3 (fun j => e j ω) L i ^ 2) - n * v| ≤ ε * n)) :
    Whp P (fun n ω => ∀ A B C, Orth A B C (fun i => e i ω) n →
      ∃ ρ, rho (tab n (fun i => e i ω - quad A B C i)) = some ρ ∧ 1 / 4 < ρ) := by
  obtain ⟨L, v, hv, hL⟩ := hR (16000 * (2 * γ + 4))
  have hv0 : 0 < v := by linarith
  have e1 := (hL _ (half_pos hv0)).comp (tendsto_sub_atTop (3 * L))
  have e2 := (hw.sq one_pos).comp (tendsto_sub_atTop 1)
  have e3 := fit_small1 hw he one_pos
  refine ((e1.and e2).and e3).mono ?_
  filter_upwards [eventually_gt_atTop 12, eventually_ge_atTop (6 * L)] with n hn hn6 ω hω A B C ho
  obtain ⟨⟨k1, k2⟩, k3⟩ := hω
  have k3 := k3 A B C ho
  have hn0 : (0 : ℝ) < n := by exact_mod_cast (show 0 < n by omega)
  set r : ℕ → ℝ := fun i => e i ω - quad A B C i with hr
  have h1 := den_ge_d3 r (n := n) (L := L) (k := n - 3 * L) (by omega)
  have hd3 : ∀ i, d3 r L i = d3 (fun j => e j ω) L i := fun i => d3_quad (fun j => e j ω) A B C L i
  simp only [hd3] at h1
  have c1 : (n : ℝ) / 2 ≤ ((n - 3 * L : ℕ) : ℝ) := by
    rw [Nat.cast_sub (by omega)]
    have : (6 * L : ℝ) ≤ n := by exact_mod_cast hn6
    push_cast
    linarith
  have c2 : ((n - 1 : ℕ) : ℝ) ≤ n := by exact_mod_cast Nat.sub_le n 1
  have h2 : ∑ i ∈ range (n - 1), (r (i + 1) - r i) ^ 2 ≤ (2 * γ + 4) * n := by
    have h3 : ∀ i ∈ range (n - 1), (r (i + 1) - r i) ^ 2 ≤ 2 * w i ω ^ 2 + 2 * (quad A B C (i + 1) - quad A B C i) ^ 2 := fun i _ => by
      have e4 : r (i + 1) - r i = w i ω - (quad A B C (i + 1) - quad A B C i) := by
        simp only [hr, he, sum_range_succ]
        ring
      rw [e4]
      nlinarith [sq_nonneg (w i ω + (quad A B C (i + 1) - quad A B C i))]
    have h4 := sum_le_sum h3
    rw [sum_add_distrib, ← mul_sum, ← mul_sum] at h4
    have h5 := (abs_le.1 k2).2
    have : γ * ((n - 1 : ℕ) : ℝ) ≤ γ * n := mul_le_mul_of_nonneg_left c2 hγ0
    linarith
  have h6 : 50 * ((2 * γ + 4) * n) ≤ acfDen r n := by
    have h5 := (abs_le.1 k1).1
    have h7 : n / 4 * v ≤ ∑ i ∈ range (n - 3 * L), d3 (fun j => e j ω) L i ^ 2 := by nlinarith
    have h8 : 16000 * (2 * γ + 4) * (n / 4) ≤ v * (n / 4) := mul_le_mul_of_nonneg_right hv (by positivity)
    linarith
  refine rho_quarter r hn ?_ (by linarith)
  have : 0 < (2 * γ + 4) * n := by positivity
  linarith

theorem acfDen_le (y : ℕ → ℝ) (n : ℕ) : acfDen y n ≤ ∑ i ∈ range n, y i ^ 2 := by
  unfold acfDen
  rcases Nat.eq_zero_or_pos n with rfl | hn
  · simp
  have hn0 : (0 : ℝ) < n := by exact_mod_cast hn
  set μ := seqMean y n with hμ
  have hs : ∑ i ∈ range n, y i = n * μ := by
    rw [hμ, seqMean]
    field_simp
  have e : ∑ i ∈ range n, (y i - μ) ^ 2 = ∑ i ∈ range n, y i ^ 2 - 2 * μ * ∑ i ∈ range n, y i + n * μ ^ 2 := by
    have : ∀ i ∈ range n, (y i - μ) ^ 2 = y i ^ 2 - 2 * μ * y i + μ ^ 2 := fun i _ => by ring
    rw [sum_congr rfl this, sum_add_distrib, sum_sub_distrib, ← mul_sum, sum_const, card_range, nsmul_eq_mul]
  rw [e, hs]
  have : 0 ≤ (n : ℝ) * μ ^ 2 := by positivity
  linarith

/-- sums of sums of noise are neither taken for noise nor for sums of noise, if the sums of noise scatter enough -/
theorem early2_core {w v e : ℕ → Ω → ℝ} {γ η : ℝ} (hw : Noisy P w γ η) (hγ0 : 0 ≤ γ)
    (hv : ∀ i ω, v i ω = ∑ j ∈ range i, w j ω) (he : ∀ i ω, e i ω = ∑ j ∈ range i, v j ω)
    (hD : ∀ R : ℝ, 0 < R → Whp P (fun n ω => ∀ A B C,
      R * n ≤ acfDen (fun i => (e (i + 1) ω - quad A B C (i + 1)) - (e i ω - quad A B C i)) (n - 1))) :
    Whp P (fun n ω => ∀ A B C, Orth A B C (fun i => e i ω) n →
      (∃ ρ, rho (tab n (fun i => e i ω - quad A B C i)) = some ρ ∧ 1 / 4 < ρ) ∧
      ∃ ρ, rho (tab (n - 1) (fun i => (e (i + 1) ω - quad A B C (i + 1)) - (e i ω - quad A B C i))) = some ρ ∧ 1 / 4 < ρ) := by
  have e1 := hD (14000 * (2 * γ + 4)) (by positivity)
  have e2 := (hw.sq one_pos).comp (tendsto_sub_atTop 2)
  have e3 := fit_small2 hw hv he one_pos
  refine ((e1.and e2).and e3).mono ?_
  filter_upwards [eventually_ge_atTop 82] with n hn ω hω A B C ho
  obtain ⟨⟨k1, k2⟩, k3⟩ := hω
  have k3 := k3 A B C ho
  have h6 := k1 A B C
  have hn0 : (0 : ℝ) < n := by exact_mod_cast (show 0 < n by omega)
  set r : ℕ → ℝ := fun i => e i ω - quad A B C i with hr
  have hacf : acfDen (fun i => (e (i + 1) ω - quad A B C (i + 1)) - (e i ω - quad A B C i)) (n - 1)
      = acfDen (fun i => r (i + 1) - r i) (n - 1) := by
    congr 1
  rw [hacf] at h6
  set D := acfDen (fun i => r (i + 1) - r i) (n - 1) with hD
  have c2 : ((n - 2 : ℕ) : ℝ) ≤ n := by exact_mod_cast Nat.sub_le n 2
  set Q := ∑ i ∈ range (n - 2), (r (i + 2) - 2 * r (i + 1) + r i) ^ 2 with hQ
  have h2 : Q ≤ (2 * γ + 4) * n := by
    have h3 : ∀ i ∈ range (n - 2), (r (i + 2) - 2 * r (i + 1) + r i) ^ 2 ≤ 2 * w i ω ^ 2 + 2 * (2 * C) ^ 2 := fun i _ => by
      have e4 : r (i + 2) - 2 * r (i + 1) + r i = w i ω - 2 * C := by
        simp only [hr, he, sum_range_succ, hv, quad]
        push_cast
        ring
      rw [e4]
      nlinarith [sq_nonneg (w i ω + 2 * C)]
    have h4 := sum_le_sum h3
    rw [sum_add_distrib, ← mul_sum, ← mul_sum] at h4
    have h5 := (abs_le.1 k2).2
    have : γ * ((n - 2 : ℕ) : ℝ) ≤ γ * n := mul_le_mul_of_nonneg_left c2 hγ0
    linarith
  replace h6 : 14000 * ((2 * γ + 4) * n) ≤ D := by linarith
  have hpos : 0 < (2 * γ + 4) * n := by positivity
  have hQ0 : 0 ≤ Q := sum_nonneg fun i _ => sq_nonneg _
  have hdiff : ∑ i ∈ range (n - 1 - 1), ((r (i + 1 + 1) - r (i + 1)) - (r (i + 1) - r i)) ^ 2 = Q :=
    sum_congr (by rw [Nat.sub_sub]) fun i _ => by rw [show i + 1 + 1 = i + 2 by ring]; ring
  refine ⟨?_, rho_quarter (fun i => r (i + 1) - r i) (by omega) (by linarith) ?_⟩
  · set T := ∑ i ∈ range (n - 1), (r (i + 1) - r i) ^ 2 with hT
    have hTD : D ≤ T := acfDen_le _ _
    set μ := seqMean r n
    have hl := landau (fun i => r i - μ) (n := n) (L := 41) (by norm_num) (by omega)
    have g1 : ∑ i ∈ range (n - 1), ((r (i + 1) - μ) - (r i - μ)) ^ 2 = T := sum_congr rfl fun i _ => by ring
    have g2 : ∑ i ∈ range (n - 2), ((r (i + 2) - μ) - 2 * (r (i + 1) - μ) + (r i - μ)) ^ 2 = Q := sum_congr rfl fun i _ => by ring
    rw [g1, g2] at hl
    have g3 : ∑ i ∈ range n, (r i - μ) ^ 2 = acfDen r n := rfl
    rw [g3] at hl
    norm_num at hl
    exact rho_quarter r (by omega) (by linarith) (by linarith)
  · rw [hdiff]
    linarith

omit [IsProbabilityMeasure P] in
/-- sums of noise scatter, if their means over long times do -/
theorem den_of_means {e : ℕ → Ω → ℝ}
    (hR : ∀ R : ℝ, ∃ L : ℕ, 0 < L ∧ ∃ v, R * (L : ℝ) ^ 2 ≤ v ∧
      ∀ ε > 0, Whp P (fun n ω => |(∑ i ∈ range n, d3 (fun j => e j ω) L (i * L) ^ 2) - n * v| ≤ ε * n)) (R : ℝ) (hR0 : 0 < R) :
    Whp P (fun n ω => ∀ A B C,
      R * n ≤ acfDen (fun i => (e (i + 1) ω - quad A B C (i + 1)) - (e i ω - quad A B C i)) (n - 1)) := by
  obtain ⟨L, hL0, u, hu, hL⟩ := hR (200 * R)
  have hL' : (0 : ℝ) < L := by exact_mod_cast hL0
  have hu0 : 0 < u := by
    have : 0 < 200 * R * (L : ℝ) ^ 2 := by positivity
    linarith
  have hJ : Tendsto (fun n : ℕ => (n - 1) / L - 2) atTop atTop :=
    tendsto_atTop_atTop.2 fun b => ⟨(b + 2) * L + 1, fun n hn => by
      have : b + 2 ≤ (n - 1) / L := (Nat.le_div_iff_mul_le hL0).2 (by omega)
      omega⟩
  have e1 := (hL _ (half_pos hu0)).comp hJ
  refine e1.mono ?_
  filter_upwards [eventually_ge_atTop (8 * L + 8)] with n hn8 ω k1 A B C
  have hn0 : (0 : ℝ) < n := by exact_mod_cast (show 0 < n by omega)
  set r : ℕ → ℝ := fun i => e i ω - quad A B C i with hr
  set J := (n - 1) / L - 2 with hJdef
  have c0 : 8 ≤ n / L := (Nat.le_div_iff_mul_le hL0).2 (by omega)
  have cJ : (J + 2) * L ≤ n - 1 := by
    have h8 : 2 ≤ (n - 1) / L := (Nat.le_div_iff_mul_le hL0).2 (by omega)
    have : J + 2 = (n - 1) / L := by omega
    rw [this]
    exact Nat.div_mul_le_self _ _
  have cJ2 : (n : ℝ) ≤ 2 * L * J := by
    have h9 : n - 1 < ((n - 1) / L + 1) * L := Nat.lt_mul_of_div_lt (by omega) hL0
    have h8 : 2 ≤ (n - 1) / L := (Nat.le_div_iff_mul_le hL0).2 (by omega)
    have h10 : (n - 1) / L + 1 = J + 3 := by omega
    rw [h10] at h9
    have h11 : n ≤ (J + 3) * L := by omega
    have h12 : n ≤ 2 * L * J := by
      have : (J + 3) * L = J * L + 3 * L := by ring
      have : 2 * L * J = J * L + J * L := by ring
      have h13 : 3 * L ≤ J * L := by omega
      omega
    exact_mod_cast h12
  have h1 := den_diff_ge_d3 r (n := n - 1) (L := L) (J := J) cJ
  have hd3 : ∀ i, d3 r L i = d3 (fun j => e j ω) L i := fun i => d3_quad (fun j => e j ω) A B C L i
  simp only [hd3] at h1
  have hacf : acfDen (fun i => (e (i + 1) ω - quad A B C (i + 1)) - (e i ω - quad A B C i)) (n - 1)
      = acfDen (fun i => r (i + 1) - r i) (n - 1) := by
    congr 1
  rw [hacf]
  set D := acfDen (fun i => r (i + 1) - r i) (n - 1) with hD
  have h5 := (abs_le.1 k1).1
  have h7 : J * u / 2 ≤ 18 * L * D := by linarith
  have h8 : (J : ℝ) * (200 * R * (L : ℝ) ^ 2) ≤ J * u := mul_le_mul_of_nonneg_left hu (by positivity)
  have h9 : n * (50 * R * L) ≤ 2 * L * J * (50 * R * L) := mul_le_mul_of_nonneg_right cJ2 (by positivity)
  have h10 : (L : ℝ) * (R * n) ≤ L * D := by
    have h11 : 0 ≤ (L : ℝ) * (R * n) := by positivity
    linarith
  exact le_of_mul_le_mul_left h10 hL'

omit [IsProbabilityMeasure P] in
/-- sums of noise scatter, if they do at distant places -/
theorem den_of_points {e v : ℕ → Ω → ℝ} (hev : ∀ i ω, v i ω = e (i + 1) ω - e i ω)
    (hR : ∀ R : ℝ, ∃ L : ℕ, ∃ u, R ≤ u ∧
      ∀ ε > 0, Whp P (fun n ω => |(∑ i ∈ range n, d3 (fun j => v j ω) L i ^ 2) - n * u| ≤ ε * n)) (R : ℝ) (hR0 : 0 < R) :
    Whp P (fun n ω => ∀ A B C,
      R * n ≤ acfDen (fun i => (e (i + 1) ω - quad A B C (i + 1)) - (e i ω - quad A B C i)) (n - 1)) := by
  obtain ⟨L, u, hu, hL⟩ := hR (640 * R)
  have hu0 : 0 < u := by linarith
  have e1 := ((hL _ (half_pos hu0)).comp (tendsto_sub_atTop (3 * L))).comp (tendsto_sub_atTop 1)
  refine e1.mono ?_
  filter_upwards [eventually_ge_atTop (6 * L + 2)] with n hn ω k1 A B C
  have hn0 : (0 : ℝ) < n := by exact_mod_cast (show 0 < n by omega)
  set r : ℕ → ℝ := fun i => (e (i + 1) ω - quad A B C (i + 1)) - (e i ω - quad A B C i) with hr
  have h1 := den_ge_d3 r (n := n - 1) (L := L) (k := n - 1 - 3 * L) (by omega)
  have hd3 : ∀ i, d3 r L i = d3 (fun j => v j ω) L i := fun i => by
    simp only [hr, hev, d3, quad]
    push_cast
    ring
  simp only [hd3] at h1
  have c1 : (n : ℝ) / 4 ≤ ((n - 1 - 3 * L : ℕ) : ℝ) := by
    rw [Nat.sub_sub, Nat.cast_sub (by omega)]
    have : (6 * L + 2 : ℝ) ≤ n := by exact_mod_cast hn
    push_cast
    linarith
  have h5 := (abs_le.1 k1).1
  have h7 : n / 8 * u ≤ ∑ i ∈ range (n - 1 - 3 * L), d3 (fun j => v j ω) L i ^ 2 := by nlinarith
  have h8 : 640 * R * (n / 8) ≤ u * (n / 8) := mul_le_mul_of_nonneg_right hu (by positivity)
  have : 0 ≤ R * n := by positivity
  linarith

end AT
