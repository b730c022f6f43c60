import Verif.Lemmas.Quartic
import Verif.Lemmas.Invar
import Verif.Props.UnbiasedFm

/-!
# Variance of averages of windowed quadratic forms in normal noise
-/

namespace AT

open Spec Finset MeasureTheory ProbabilityTheory
open scoped NNReal ENNReal

/-! ## Linear and quadratic forms in a window of `K` samples -/

/-- a linear form in the first `K` samples -/
def LF (K : ℕ) (f : (ℕ → ℝ) → ℝ) : Prop := ∃ c : ℕ → ℝ, ∀ x, f x = ∑ k ∈ range K, c k * x k

theorem LF.eval {K k : ℕ} (hk : k < K) : LF K (fun x => x k) :=
  ⟨fun j => if j = k then 1 else 0, fun x => by
    simp only [ite_mul, one_mul, zero_mul]
    rw [sum_ite_eq' (range K) k x, if_pos (mem_range.2 hk)]⟩

theorem LF.zero {K : ℕ} : LF K (fun _ => 0) := ⟨fun _ => 0, fun x => by simp⟩

theorem LF.add {K : ℕ} {f g : (ℕ → ℝ) → ℝ} (hf : LF K f) (hg : LF K g) : LF K (fun x => f x + g x) := by
  obtain ⟨a, ha⟩ := hf
  obtain ⟨b, hb⟩ := hg
  exact ⟨fun k => a k + b k, fun x => by simp only [ha, hb]; rw [← sum_add_distrib]; exact sum_congr rfl fun k _ => by ring⟩

theorem LF.smul {K : ℕ} {f : (ℕ → ℝ) → ℝ} (hf : LF K f) (r : ℝ) : LF K (fun x => r * f x) := by
  obtain ⟨a, ha⟩ := hf
  exact ⟨fun k => r * a k, fun x => by simp only [ha]; rw [mul_sum]; exact sum_congr rfl fun k _ => by ring⟩

theorem LF.sub {K : ℕ} {f g : (ℕ → ℝ) → ℝ} (hf : LF K f) (hg : LF K g) : LF K (fun x => f x - g x) := by
  have := hf.add (hg.smul (-1))
  simpa only [neg_one_mul, ← sub_eq_add_neg] using this

theorem LF.div {K : ℕ} {f : (ℕ → ℝ) → ℝ} (hf : LF K f) (r : ℝ) : LF K (fun x => f x / r) := by
  have := hf.smul r⁻¹
  simpa only [← div_eq_inv_mul] using this

theorem LF.sum {K : ℕ} {ι : Type} (s : Finset ι) {f : ι → (ℕ → ℝ) → ℝ} (hf : ∀ i ∈ s, LF K (f i)) :
    LF K (fun x => ∑ i ∈ s, f i x) := by
  classical
  induction s using Finset.induction_on with
  | empty => simpa using LF.zero
  | insert i s hi ih =>
    have := (hf i (mem_insert_self i s)).add (ih fun j hj => hf j (mem_insert_of_mem hj))
    simpa only [sum_insert hi] using this

/-- composition with maps that are linear forms in each coordinate -/
theorem LF.comp {K K' : ℕ} {f : (ℕ → ℝ) → ℝ} (hf : LF K f) {T : (ℕ → ℝ) → ℕ → ℝ}
    (hT : ∀ k < K, LF K' (fun y => T y k)) : LF K' (fun y => f (T y)) := by
  obtain ⟨c, hc⟩ := hf
  have : (fun y => f (T y)) = fun y => ∑ k ∈ range K, c k * T y k := funext fun y => hc (T y)
  rw [this]
  exact LF.sum _ fun k hk => (hT k (mem_range.1 hk)).smul (c k)

/-- a sum of squares of linear forms in the first `K` samples -/
def QF (K : ℕ) (U : (ℕ → ℝ) → ℝ) : Prop :=
  ∃ (q : ℕ) (a : ℕ → ℕ → ℝ), ∀ x, U x = ∑ d ∈ range q, (∑ k ∈ range K, a d k * x k) ^ 2

theorem LF.sq {K : ℕ} {f : (ℕ → ℝ) → ℝ} (hf : LF K f) : QF K (fun x => f x ^ 2) := by
  obtain ⟨c, hc⟩ := hf
  exact ⟨1, fun _ => c, fun x => by simp only [sum_range_one, hc]⟩

theorem QF.add {K : ℕ} {U V : (ℕ → ℝ) → ℝ} (hU : QF K U) (hV : QF K V) : QF K (fun x => U x + V x) := by
  obtain ⟨q, a, ha⟩ := hU
  obtain ⟨r, b, hb⟩ := hV
  refine ⟨q + r, fun d k => if d < q then a d k else b (d - q) k, fun x => ?_⟩
  simp only [ha, hb]
  rw [sum_range_add]
  congr 1
  · refine sum_congr rfl fun d hd => ?_
    simp only [if_pos (mem_range.1 hd)]
  · refine sum_congr rfl fun d _ => ?_
    simp

theorem QF.smul {K : ℕ} {U : (ℕ → ℝ) → ℝ} (hU : QF K U) {r : ℝ} (hr : 0 ≤ r) : QF K (fun x => r * U x) := by
  obtain ⟨q, a, ha⟩ := hU
  refine ⟨q, fun d k => √r * a d k, fun x => ?_⟩
  simp only [ha]
  rw [mul_sum]
  refine sum_congr rfl fun d _ => ?_
  have : ∑ k ∈ range K, √r * a d k * x k = √r * ∑ k ∈ range K, a d k * x k := by
    rw [mul_sum]
    exact sum_congr rfl fun k _ => by ring
  rw [this, mul_pow, Real.sq_sqrt hr]

theorem QF.div {K : ℕ} {U : (ℕ → ℝ) → ℝ} (hU : QF K U) {r : ℝ} (hr : 0 ≤ r) : QF K (fun x => U x / r) := by
  have := hU.smul (inv_nonneg.2 hr)
  simpa only [← div_eq_inv_mul] using this

theorem QF.sum {K n : ℕ} {U : ℕ → (ℕ → ℝ) → ℝ} (hU : ∀ i < n, QF K (U i)) :
    QF K (fun x => ∑ i ∈ range n, U i x) := by
  induction n with
  | zero => exact ⟨0, fun _ _ => 0, fun x => by simp⟩
  | succ n ih =>
    have := (ih fun i hi => hU i (by omega)).add (hU n (by omega))
    simpa only [sum_range_succ] using this

theorem QF.comp {K K' : ℕ} {U : (ℕ → ℝ) → ℝ} (hU : QF K U) {T : (ℕ → ℝ) → ℕ → ℝ}
    (hT : ∀ k < K, LF K' (fun y => T y k)) : QF K' (fun y => U (T y)) := by
  obtain ⟨q, a, ha⟩ := hU
  have : (fun y => U (T y)) = fun y => ∑ d ∈ range q, (∑ k ∈ range K, a d k * T y k) ^ 2 := funext fun y => ha (T y)
  rw [this]
  exact QF.sum fun d _ => (LF.sum _ fun k hk => (hT k (mem_range.1 hk)).smul (a d k)).sq

/-- does not change when a straight line is added -/
def AffInv (U : (ℕ → ℝ) → ℝ) : Prop := ∀ (x : ℕ → ℝ) (a b : ℝ), U (fun k => x k + (a + b * k)) = U x

/-! ## Moments -/

variable {Ω : Type} [MeasurableSpace Ω] {P : Measure Ω} [IsProbabilityMeasure P]

/-- mean and variance of a weighted sum of squares of linear forms -/
theorem quad_moments {W : ℕ → Ω → ℝ} {s2 : ℝ≥0} (h : NormalNoise P W s2) (n : ℕ) {ι : Type} (s : Finset ι)
    (a : ι → ℕ → ℝ) :
    AllLp P (fun ω => ∑ i ∈ s, Lin W n (a i) ω ^ 2) ∧
    ∫ ω, ∑ i ∈ s, Lin W n (a i) ω ^ 2 ∂P = s2 * ∑ i ∈ s, ∑ k ∈ range n, a i k ^ 2 ∧
    Var[fun ω => ∑ i ∈ s, Lin W n (a i) ω ^ 2; P]
      = 2 * s2 ^ 2 * ∑ i ∈ s, ∑ j ∈ s, (∑ k ∈ range n, a i k * a j k) ^ 2 := by
  have hA : AllLp P (fun ω => ∑ i ∈ s, Lin W n (a i) ω ^ 2) := AllLp.sum fun i _ => (lin_allLp h n (a i)).pow 2
  have hm2 : MemLp (fun ω => ∑ i ∈ s, Lin W n (a i) ω ^ 2) 2 P := by exact_mod_cast hA 2
  have m1 : ∫ ω, ∑ i ∈ s, Lin W n (a i) ω ^ 2 ∂P = s2 * ∑ i ∈ s, ∑ k ∈ range n, a i k ^ 2 := by
    rw [integral_finsetSum _ (fun i _ => ((lin_allLp h n (a i)).pow 2).int), mul_sum]
    refine sum_congr rfl fun i _ => ?_
    have := lin_prod h n (a i) (a i)
    simpa only [← pow_two] using this
  have m2 : ∫ ω, (∑ i ∈ s, Lin W n (a i) ω ^ 2) ^ 2 ∂P
      = s2 ^ 2 * ((∑ i ∈ s, ∑ k ∈ range n, a i k ^ 2) ^ 2
        + 2 * ∑ i ∈ s, ∑ j ∈ s, (∑ k ∈ range n, a i k * a j k) ^ 2) := by
    have e : ∀ ω, (∑ i ∈ s, Lin W n (a i) ω ^ 2) ^ 2
        = ∑ i ∈ s, ∑ j ∈ s, Lin W n (a i) ω ^ 2 * Lin W n (a j) ω ^ 2 := by
      intro ω
      rw [pow_two (∑ i ∈ s, _), sum_mul_sum]
    have hi : ∀ i j, Integrable (fun ω => Lin W n (a i) ω ^ 2 * Lin W n (a j) ω ^ 2) P := fun i j =>
      (((lin_allLp h n (a i)).pow 2).mul ((lin_allLp h n (a j)).pow 2)).int
    simp only [e]
    rw [integral_finsetSum _ (fun i _ => integrable_finsetSum _ (fun j _ => hi i j)), pow_two (∑ i ∈ s, _), sum_mul_sum,
      mul_sum s _ (2 : ℝ), ← sum_add_distrib, mul_sum]
    refine sum_congr rfl fun i _ => ?_
    rw [integral_finsetSum _ (fun j _ => hi i j), mul_sum s _ (2 : ℝ), ← sum_add_distrib, mul_sum]
    exact sum_congr rfl fun j _ => lin_quartic h n (a i) (a j)
  refine ⟨hA, m1, ?_⟩
  rw [variance_eq_sub hm2]
  simp only [Pi.pow_apply]
  rw [m1, m2]
  ring

/-- the square of the deviation `D` has a relative variance of at most `r` -/
def Spec.RelVar (P : Measure Ω) (D : Ω → ℝ) (r : ℝ) : Prop :=
  MemLp (fun ω => D ω ^ 2) 2 P ∧ Var[fun ω => D ω ^ 2; P] ≤ r * (∫ ω, D ω ^ 2 ∂P) ^ 2

/-- windows that are more than `L` steps apart are disjoint: few pairs are correlated -/
theorem relVar_windows {W : ℕ → Ω → ℝ} {s2 : ℝ≥0} (h : NormalNoise P W s2) (n M q L : ℕ) (hM : 0 < M)
    (a : ℕ → ℕ → ℕ → ℝ) (u ρ : ℝ) (hρ : 0 ≤ ρ)
    (hdis : ∀ i j d e k, i + L < j → a i d k * a j e k = 0)
    (hu : ∀ i < M, ∑ d ∈ range q, ∑ k ∈ range n, a i d k ^ 2 ≤ ρ * u)
    (hsum : ∑ i ∈ range M, ∑ d ∈ range q, ∑ k ∈ range n, a i d k ^ 2 = M * u) (D : Ω → ℝ) (c : ℝ)
    (hD : ∀ ω, D ω ^ 2 = c * ∑ i ∈ range M, ∑ d ∈ range q, Lin W n (a i d) ω ^ 2) :
    RelVar P D (2 * (1 + 2 * L) * ρ / M) := by
  have hM' : (0 : ℝ) < M := by exact_mod_cast hM
  obtain ⟨h1, h2, h3⟩ := quad_moments h n (range M ×ˢ range q) (fun p => a p.1 p.2)
  simp only [sum_product] at h1 h2 h3
  have hc := h1.const_mul c
  unfold RelVar
  simp only [hD]
  refine ⟨by exact_mod_cast hc 2, ?_⟩
  rw [variance_const_mul, h3, integral_const_mul, h2]
  set b : ℕ → ℕ → ℝ := fun i d => ∑ k ∈ range n, a i d k ^ 2 with hb
  have hb0 : ∀ i d, 0 ≤ b i d := fun i d => sum_nonneg fun k _ => sq_nonneg _
  set v : ℕ → ℝ := fun i => ∑ d ∈ range q, b i d with hv
  have hv0 : ∀ i, 0 ≤ v i := fun i => sum_nonneg fun d _ => hb0 i d
  have hu0 : 0 ≤ u := by
    have : 0 ≤ (M : ℝ) * u := by rw [← hsum]; exact sum_nonneg fun i _ => hv0 i
    nlinarith [this, hM']
  -- pairs
  have pair : ∀ i d j e, (∑ k ∈ range n, a i d k * a j e k) ^ 2 ≤ if i ≤ j + L ∧ j ≤ i + L then b i d * b j e else 0 := by
    intro i d j e
    split_ifs with hij
    · exact sum_mul_sq_le_sq_mul_sq _ _ _
    · have : ∀ k ∈ range n, a i d k * a j e k = 0 := by
        intro k _
        rcases lt_or_ge (i + L) j with h4 | h4
        · exact hdis i j d e k h4
        · rw [mul_comm]
          exact hdis j i e d k (by omega)
      rw [sum_eq_zero this]
      norm_num
  have bnd : ∑ i ∈ range M, ∑ d ∈ range q, ∑ j ∈ range M, ∑ e ∈ range q, (∑ k ∈ range n, a i d k * a j e k) ^ 2
      ≤ (1 + 2 * L) * ρ * u * (M * u) := by
    calc ∑ i ∈ range M, ∑ d ∈ range q, ∑ j ∈ range M, ∑ e ∈ range q, (∑ k ∈ range n, a i d k * a j e k) ^ 2
        ≤ ∑ i ∈ range M, ∑ d ∈ range q, b i d * ((1 + 2 * L) * (ρ * u)) := by
          refine sum_le_sum fun i hi => sum_le_sum fun d _ => ?_
          calc ∑ j ∈ range M, ∑ e ∈ range q, (∑ k ∈ range n, a i d k * a j e k) ^ 2
              ≤ ∑ j ∈ range M, if i ≤ j + L ∧ j ≤ i + L then b i d * (ρ * u) else 0 := by
                refine sum_le_sum fun j hj => ?_
                refine (sum_le_sum fun e _ => pair i d j e).trans ?_
                split_ifs with hij
                · rw [← mul_sum]
                  exact mul_le_mul_of_nonneg_left (hu j (mem_range.1 hj)) (hb0 i d)
                · simp
            _ ≤ b i d * ((1 + 2 * L) * (ρ * u)) := by
                rw [← sum_filter, sum_const, nsmul_eq_mul]
                have hcard : (((range M).filter fun j => i ≤ j + L ∧ j ≤ i + L).card : ℝ) ≤ 1 + 2 * L := by
                  have : ((range M).filter fun j => i ≤ j + L ∧ j ≤ i + L) ⊆ Icc (i - L) (i + L) := by
                    intro j hj
                    simp only [mem_filter, mem_Icc] at hj ⊢
                    omega
                  have h5 := card_le_card this
                  rw [Nat.card_Icc] at h5
                  have : ((range M).filter fun j => i ≤ j + L ∧ j ≤ i + L).card ≤ 1 + 2 * L := by omega
                  exact_mod_cast this
                have h6 : 0 ≤ b i d * (ρ * u) := mul_nonneg (hb0 i d) (mul_nonneg hρ hu0)
                calc _ ≤ (1 + 2 * (L : ℝ)) * (b i d * (ρ * u)) := mul_le_mul_of_nonneg_right hcard h6
                  _ = _ := by ring
      _ = (∑ i ∈ range M, v i) * ((1 + 2 * L) * (ρ * u)) := by
          rw [sum_mul]
          exact sum_congr rfl fun i _ => by rw [hv]; simp only [sum_mul]
      _ = _ := by
          have : ∑ i ∈ range M, v i = M * u := hsum
          rw [this]
          ring
  have e1 : ∑ i ∈ range M, ∑ d ∈ range q, ∑ k ∈ range n, a i d k ^ 2 = M * u := hsum
  rw [e1]
  calc c ^ 2 * (2 * (s2 : ℝ) ^ 2 * ∑ i ∈ range M, ∑ d ∈ range q, ∑ j ∈ range M, ∑ e ∈ range q, (∑ k ∈ range n, a i d k * a j e k) ^ 2)
      ≤ c ^ 2 * (2 * (s2 : ℝ) ^ 2 * ((1 + 2 * L) * ρ * u * (M * u))) := by
        gcongr
    _ = 2 * (1 + 2 * L) * ρ / M * (c * (s2 * (M * u))) ^ 2 := by
        field_simp

/-- averages of a quadratic form over moving windows -/
theorem relVar_blocks {K : ℕ} {U : (ℕ → ℝ) → ℝ} (hU : QF K U) : ∃ u : ℝ, ∀ (Ω : Type) [MeasurableSpace Ω] (P : Measure Ω)
    [IsProbabilityMeasure P] (W : ℕ → Ω → ℝ) (s2 : ℝ≥0) (_ : NormalNoise P W s2) (S M L : ℕ) (_ : 0 < M)
    (_ : K ≤ (L + 1) * S) (D : Ω → ℝ) (_ : ∀ ω, D ω ^ 2 = 1 / M * ∑ i ∈ range M, U (fun k => W (i * S + k) ω)),
    MeanSq P D (s2 * u) ∧ RelVar P D (2 * (1 + 2 * L) / M) := by
  obtain ⟨q, a, ha⟩ := hU
  refine ⟨∑ d ∈ range q, ∑ k ∈ range K, a d k ^ 2, fun Ω _ P _ W s2 h S M L hM hL D hD => ?_⟩
  have hM' : (0 : ℝ) < M := by exact_mod_cast hM
  have hlin : ∀ i < M, ∀ d ω, Lin W (M * S + K) (fun p => if i * S ≤ p ∧ p < i * S + K then a d (p - i * S) else 0) ω
      = ∑ k ∈ range K, a d k * W (i * S + k) ω := by
    intro i hi d ω
    have hiM : i * S ≤ M * S := Nat.mul_le_mul_right S hi.le
    unfold Lin
    simp only
    obtain ⟨r, hr⟩ : ∃ r, M * S + K = i * S + (K + r) := ⟨M * S - i * S, by omega⟩
    rw [hr, sum_range_add, sum_range_add (n := K), sum_eq_zero (s := range (i * S)), sum_eq_zero (s := range r), zero_add,
      add_zero]
    · refine sum_congr rfl fun k hk => ?_
      rw [mem_range] at hk
      rw [if_pos (by omega), Nat.add_sub_cancel_left]
    · intro p _
      rw [if_neg (by omega), zero_mul]
    · intro p hp
      rw [mem_range] at hp
      rw [if_neg (by omega), zero_mul]
  have hnorm : ∀ i < M, ∑ d ∈ range q, ∑ p ∈ range (M * S + K),
      (if i * S ≤ p ∧ p < i * S + K then a d (p - i * S) else 0) ^ 2 = ∑ d ∈ range q, ∑ k ∈ range K, a d k ^ 2 := by
    intro i hi
    refine sum_congr rfl fun d _ => ?_
    have hiM : i * S ≤ M * S := Nat.mul_le_mul_right S hi.le
    obtain ⟨r, hr⟩ : ∃ r, M * S + K = i * S + (K + r) := ⟨M * S - i * S, by omega⟩
    rw [hr, sum_range_add, sum_range_add (n := K), sum_eq_zero (s := range (i * S)), sum_eq_zero (s := range r), zero_add,
      add_zero]
    · refine sum_congr rfl fun k hk => ?_
      rw [mem_range] at hk
      rw [if_pos (by omega), Nat.add_sub_cancel_left]
    · intro p _
      rw [if_neg (by omega)]
      norm_num
    · intro p hp
      rw [mem_range] at hp
      rw [if_neg (by omega)]
      norm_num
  have hD' : ∀ ω, D ω ^ 2 = 1 / M * ∑ i ∈ range M, ∑ d ∈ range q,
      Lin W (M * S + K) (fun p => if i * S ≤ p ∧ p < i * S + K then a d (p - i * S) else 0) ω ^ 2 := fun ω => by
    rw [hD]
    congr 1
    refine sum_congr rfl fun i hi => ?_
    rw [ha]
    exact sum_congr rfl fun d _ => by rw [hlin i (mem_range.1 hi)]
  have hsum : ∑ i ∈ range M, ∑ d ∈ range q, ∑ p ∈ range (M * S + K),
      (if i * S ≤ p ∧ p < i * S + K then a d (p - i * S) else 0) ^ 2 = M * ∑ d ∈ range q, ∑ k ∈ range K, a d k ^ 2 := by
    rw [sum_congr rfl fun i hi => hnorm i (mem_range.1 hi)]
    simp
  have hmean : MeanSq P D (s2 * ∑ d ∈ range q, ∑ k ∈ range K, a d k ^ 2) := by
    obtain ⟨h1, h2, -⟩ := quad_moments h (M * S + K) (range M ×ˢ range q)
      (fun z p => if z.1 * S ≤ p ∧ p < z.1 * S + K then a z.2 (p - z.1 * S) else 0)
    simp only [sum_product] at h1 h2
    unfold MeanSq
    simp only [hD']
    refine ⟨(h1.const_mul _).int, ?_⟩
    rw [integral_const_mul, h2, hsum]
    field_simp
  refine ⟨hmean, ?_⟩
  have := relVar_windows h (M * S + K) M q L hM
    (fun i d p => if i * S ≤ p ∧ p < i * S + K then a d (p - i * S) else 0) (∑ d ∈ range q, ∑ k ∈ range K, a d k ^ 2) 1 zero_le_one
    (fun i j d e p hij => ?_) (fun i hi => by rw [hnorm i hi, one_mul])
    hsum D (1 / M) hD'
  · simpa only [mul_one] using this
  · have h1 : (i + L + 1) * S ≤ j * S := Nat.mul_le_mul_right S hij
    have h2 : (i + L + 1) * S = i * S + (L + 1) * S := by ring
    by_cases hp : i * S ≤ p ∧ p < i * S + K
    · rw [if_neg (show ¬ (j * S ≤ p ∧ p < j * S + K) by omega), mul_zero]
    · rw [if_neg hp, zero_mul]

end AT
