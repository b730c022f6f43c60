import Verif.Lemmas.Whp
import Mathlib.Algebra.Order.Chebyshev

/-!
# Linear forms of normal noise that move with the index
-/

namespace AT

open Spec Finset MeasureTheory ProbabilityTheory Filter
open scoped NNReal ENNReal

variable {Ω : Type} {W : ℕ → Ω → ℝ} {S : ℕ}

/-- `f i` is a fixed linear form of the samples from `i * S` on -/
def MF (W : ℕ → Ω → ℝ) (S : ℕ) (f : ℕ → Ω → ℝ) : Prop :=
  ∃ (K : ℕ) (c : ℕ → ℝ), ∀ i ω, f i ω = ∑ k ∈ range K, c k * W (i * S + k) ω

theorem MF.eval (u : ℕ) : MF W S (fun i ω => W (i * S + u) ω) :=
  ⟨u + 1, fun k => if k = u then 1 else 0, fun i ω => by simp⟩

theorem MF.zero : MF W S (fun _ _ => 0) := ⟨0, fun _ => 0, fun i ω => by simp⟩

theorem MF.add {f g : ℕ → Ω → ℝ} (hf : MF W S f) (hg : MF W S g) : MF W S (fun i ω => f i ω + g i ω) := by
  obtain ⟨K, c, hc⟩ := hf
  obtain ⟨L, d, hd⟩ := hg
  have pad : ∀ (K M : ℕ) (c : ℕ → ℝ) (i : ℕ) (ω : Ω), K ≤ M → ∑ k ∈ range K, c k * W (i * S + k) ω
      = ∑ k ∈ range M, (if k < K then c k else 0) * W (i * S + k) ω := fun K M c i ω h => by
    rw [← sum_subset (range_subset_range.2 h) (fun k _ hk => by rw [if_neg (by simpa using hk), zero_mul])]
    exact sum_congr rfl fun k hk => by rw [if_pos (mem_range.1 hk)]
  refine ⟨max K L, fun k => (if k < K then c k else 0) + (if k < L then d k else 0), fun i ω => ?_⟩
  simp only
  rw [hc, hd, pad K (max K L) c i ω (le_max_left _ _), pad L (max K L) d i ω (le_max_right _ _), ← sum_add_distrib]
  exact sum_congr rfl fun k _ => by ring

theorem MF.smul {f : ℕ → Ω → ℝ} (hf : MF W S f) (r : ℝ) : MF W S (fun i ω => r * f i ω) := by
  obtain ⟨K, c, hc⟩ := hf
  exact ⟨K, fun k => r * c k, fun i ω => by simp only; rw [hc, mul_sum]; exact sum_congr rfl fun k _ => by ring⟩

theorem MF.sub {f g : ℕ → Ω → ℝ} (hf : MF W S f) (hg : MF W S g) : MF W S (fun i ω => f i ω - g i ω) := by
  simpa only [neg_mul, one_mul, ← sub_eq_add_neg] using hf.add (hg.smul (-1))

theorem MF.sum {f : ℕ → ℕ → Ω → ℝ} (n : ℕ) (hf : ∀ u < n, MF W S (f u)) : MF W S (fun i ω => ∑ u ∈ range n, f u i ω) := by
  induction n with
  | zero => simpa using MF.zero
  | succ n ih =>
    simp only [sum_range_succ]
    exact (ih fun u hu => hf u (by omega)).add (hf n (by omega))

theorem MF.congr {f g : ℕ → Ω → ℝ} (hf : MF W S f) (h : ∀ i ω, g i ω = f i ω) : MF W S g := by
  obtain ⟨K, c, hc⟩ := hf
  exact ⟨K, c, fun i ω => by rw [h, hc]⟩

theorem MF.shift {f : ℕ → Ω → ℝ} (hf : MF W S f) (u : ℕ) : MF W S (fun i ω => f (i + u) ω) := by
  obtain ⟨K, c, hc⟩ := hf
  refine (MF.sum K (f := fun k i ω => c k * W (i * S + (u * S + k)) ω) fun k _ => (MF.eval _).smul _).congr fun i ω => ?_
  rw [hc]
  exact sum_congr rfl fun k _ => by rw [add_mul, add_assoc]

theorem MF.hop {f : ℕ → Ω → ℝ} (hf : MF W S f) (L : ℕ) : MF W (L * S) (fun i ω => f (i * L) ω) := by
  obtain ⟨K, c, hc⟩ := hf
  exact ⟨K, c, fun i ω => by simp only [hc, mul_assoc]⟩

theorem MF.d3 {f : ℕ → Ω → ℝ} (hf : MF W S (fun i ω => f (i + 1) ω - f i ω)) (L : ℕ) :
    MF W S (fun i ω => d3 (fun j => f j ω) L i) := by
  have h1 : MF W S (fun i ω => f (i + L) ω - f i ω) :=
    (MF.sum L fun u _ => hf.shift u).congr fun i ω => by
      have := sum_range_sub (fun u => f (i + u) ω) L
      simp only [add_zero, add_assoc] at this ⊢
      exact this.symm
  refine (((h1.shift (2 * L)).sub ((h1.shift L).smul 2)).add h1).congr fun i ω => ?_
  unfold Spec.d3
  simp only [show i + 2 * L + L = i + 3 * L by ring, show i + L + L = i + 2 * L by ring]
  ring

variable [MeasurableSpace Ω] {P : Measure Ω} [IsProbabilityMeasure P] {s2 : ℝ≥0} (h : NormalNoise P W s2)

include h

omit [IsProbabilityMeasure P] in
theorem MF.allLp {f : ℕ → Ω → ℝ} (hf : MF W S f) (i : ℕ) : AllLp P (f i) := by
  obtain ⟨K, c, hc⟩ := hf
  have e : f i = fun ω => ∑ k ∈ range K, c k * W (i * S + k) ω := funext fun ω => hc i ω
  rw [e]
  exact AllLp.sum fun k _ => AllLp.const_mul (fun p => h.memLp _ p) _

omit [MeasurableSpace Ω] h in
theorem window_normal [MeasurableSpace Ω] {P : Measure Ω} (h : NormalNoise P W s2) (i : ℕ) : NormalNoise P (fun k => W (i + k)) s2 where
  indep := h.indep.precomp (g := fun k => i + k) fun a b hab => by simpa using hab
  law := fun k => h.law _

/-- the mean square does not depend on the index -/
theorem MF.meanSq {f : ℕ → Ω → ℝ} (hf : MF W S f) : ∃ v, 0 ≤ v ∧ ∀ i, MeanSq P (f i) v := by
  have ha := fun i => hf.allLp h i
  obtain ⟨K, c, hc⟩ := hf
  refine ⟨s2 * ∑ k ∈ range K, c k * c k, by
    have : 0 ≤ ∑ k ∈ range K, c k * c k := sum_nonneg fun k _ => mul_self_nonneg _
    positivity, fun i => ⟨((ha i).pow 2).int, ?_⟩⟩
  rw [← lin_prod (window_normal h (i * S)) K c c]
  refine integral_congr_ae (Eventually.of_forall fun ω => ?_)
  simp only [hc, Lin, pow_two]

theorem MF.lln {f : ℕ → Ω → ℝ} (hf : MF W S f) (hS : 0 < S) {v : ℝ} (hv : MeanSq P (f 0) v) {ε : ℝ} (hε : 0 < ε) :
    Whp P (fun n ω => |(∑ i ∈ range n, f i ω ^ 2) - n * v| ≤ ε * n) := by
  obtain ⟨K, c, hc⟩ := hf
  have e : v = s2 * ∑ k ∈ range K, c k ^ 2 := by
    rw [← hv.2]
    simp only [pow_two]
    rw [← lin_prod h K c c]
    refine integral_congr_ae (Eventually.of_forall fun ω => ?_)
    simp only [hc, Lin, zero_mul, zero_add]
  simp only [hc, e]
  exact AT.lln h K c hS hε

/-- sums grow like the square root of the number of terms -/
theorem MF.sum_sq {f : ℕ → Ω → ℝ} (hf : MF W S f) (hS : 0 < S) : ∃ V : ℝ, 0 ≤ V ∧ ∀ n : ℕ,
    Integrable (fun ω => (∑ i ∈ range n, f i ω) ^ 2) P ∧ ∫ ω, (∑ i ∈ range n, f i ω) ^ 2 ∂P ≤ V * n := by
  have hint : ∀ n, Integrable (fun ω => (∑ i ∈ range n, f i ω) ^ 2) P := fun n =>
    ((AllLp.sum (s := range n) fun i _ => hf.allLp h i).pow 2).int
  obtain ⟨K, c, hc⟩ := hf
  have one : ∀ u n, Integrable (fun ω => (∑ i ∈ range n, W (i * S + u) ω) ^ 2) P ∧
      ∫ ω, (∑ i ∈ range n, W (i * S + u) ω) ^ 2 ∂P = s2 * n := fun u n => by
    have hN : NormalNoise P (fun i => W (i * S + u)) s2 :=
      ⟨h.indep.precomp (g := fun i => i * S + u) fun a b hab => by
        simp only [add_left_inj] at hab
        exact Nat.eq_of_mul_eq_mul_right hS hab, fun i => h.law _⟩
    refine ⟨((AllLp.sum (s := range n) fun i _ => (fun p => hN.memLp i p)).pow 2).int, ?_⟩
    have := lin_prod hN n (fun _ => 1) (fun _ => 1)
    simpa [Lin, ← pow_two] using this
  refine ⟨K * ∑ k ∈ range K, c k ^ 2 * s2, by
    have : 0 ≤ ∑ k ∈ range K, c k ^ 2 * (s2 : ℝ) := sum_nonneg fun k _ => by positivity
    positivity, fun n => ⟨hint n, ?_⟩⟩
  have hb : ∀ ω, (∑ i ∈ range n, f i ω) ^ 2 ≤ K * ∑ k ∈ range K, c k ^ 2 * (∑ i ∈ range n, W (i * S + k) ω) ^ 2 := fun ω => by
    have e : ∑ i ∈ range n, f i ω = ∑ k ∈ range K, c k * ∑ i ∈ range n, W (i * S + k) ω := by
      simp only [hc]
      rw [sum_comm]
      exact sum_congr rfl fun k _ => (mul_sum _ _ _).symm
    rw [e]
    refine (sq_sum_le_card_mul_sum_sq).trans_eq ?_
    rw [card_range]
    congr 1
    exact sum_congr rfl fun k _ => by ring
  calc ∫ ω, (∑ i ∈ range n, f i ω) ^ 2 ∂P
      ≤ ∫ ω, (K : ℝ) * ∑ k ∈ range K, c k ^ 2 * (∑ i ∈ range n, W (i * S + k) ω) ^ 2 ∂P :=
        integral_mono (hint n) ((integrable_finsetSum _ fun k _ => (one k n).1.const_mul _).const_mul _) hb
    _ = _ := by
        rw [integral_const_mul, integral_finsetSum _ fun k _ => (one k n).1.const_mul _]
        simp only [integral_const_mul, (one _ n).2]
        rw [mul_assoc, sum_mul]
        congr 1
        exact sum_congr rfl fun k _ => by ring

end AT
