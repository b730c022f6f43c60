import Verif.Lemmas.Stoch

/-! # Fourth moments of linear forms in normal noise -/

namespace AT

open Spec Finset MeasureTheory ProbabilityTheory
open scoped NNReal ENNReal

variable {Ω : Type} [MeasurableSpace Ω] {P : Measure Ω}

theorem gauss_fourth (v : ℝ≥0) : ∫ x, x ^ 4 ∂gaussianReal 0 v = 3 * (v : ℝ) ^ 2 := by
  have e : ∫ x, x ^ 4 ∂gaussianReal 0 v = iteratedDeriv 4 (mgf (fun x ↦ x) (gaussianReal 0 v)) 0 := by
    rw [iteratedDeriv_mgf_zero] <;> simp
  rw [e, mgf_fun_id_gaussianReal]
  simp only [zero_mul, zero_add]
  set E : ℝ → ℝ := fun t => Real.exp (v * t ^ 2 / 2) with hE
  have hd : ∀ t, HasDerivAt E (v * t * E t) t := by
    intro t
    have h := ((((hasDerivAt_id t).pow 2).const_mul (v : ℝ)).div_const 2).exp
    refine h.congr_deriv ?_
    simp [hE]
    ring
  have d1 : deriv E = fun t => v * t * E t := funext fun t => (hd t).deriv
  have d2 : deriv (fun t => (v : ℝ) * t * E t) = fun t => (v + v ^ 2 * t ^ 2) * E t := by
    funext t
    have h := (((hasDerivAt_id t).const_mul (v : ℝ)).mul (hd t)).deriv
    refine h.trans ?_
    simp
    ring
  have d3 : deriv (fun t => ((v : ℝ) + v ^ 2 * t ^ 2) * E t) = fun t => (3 * v ^ 2 * t + v ^ 3 * t ^ 3) * E t := by
    funext t
    have h := (((((hasDerivAt_id t).pow 2).const_mul ((v : ℝ) ^ 2)).const_add (v : ℝ)).mul (hd t)).deriv
    refine h.trans ?_
    simp
    ring
  have d4 : deriv (fun t => (3 * (v : ℝ) ^ 2 * t + v ^ 3 * t ^ 3) * E t) 0 = 3 * (v : ℝ) ^ 2 := by
    have h := ((((hasDerivAt_id (0 : ℝ)).const_mul (3 * (v : ℝ) ^ 2)).add
      (((hasDerivAt_id (0 : ℝ)).pow 3).const_mul ((v : ℝ) ^ 3))).mul (hd 0)).deriv
    refine h.trans ?_
    simp [hE]
  rw [iteratedDeriv_succ, iteratedDeriv_succ, iteratedDeriv_succ, iteratedDeriv_one, d1, d2, d3, d4]

theorem gauss_third (v : ℝ≥0) : ∫ x, x ^ 3 ∂gaussianReal 0 v = 0 := by
  have e : ∫ x, x ^ 3 ∂gaussianReal 0 v = iteratedDeriv 3 (mgf (fun x ↦ x) (gaussianReal 0 v)) 0 := by
    rw [iteratedDeriv_mgf_zero] <;> simp
  rw [e, mgf_fun_id_gaussianReal]
  simp only [zero_mul, zero_add]
  set E : ℝ → ℝ := fun t => Real.exp (v * t ^ 2 / 2) with hE
  have hd : ∀ t, HasDerivAt E (v * t * E t) t := by
    intro t
    have h := ((((hasDerivAt_id t).pow 2).const_mul (v : ℝ)).div_const 2).exp
    refine h.congr_deriv ?_
    simp [hE]
    ring
  have d1 : deriv E = fun t => v * t * E t := funext fun t => (hd t).deriv
  have d2 : deriv (fun t => (v : ℝ) * t * E t) = fun t => (v + v ^ 2 * t ^ 2) * E t := by
    funext t
    have h := (((hasDerivAt_id t).const_mul (v : ℝ)).mul (hd t)).deriv
    refine h.trans ?_
    simp
    ring
  have d3 : deriv (fun t => ((v : ℝ) + v ^ 2 * t ^ 2) * E t) = fun t => (3 * v ^ 2 * t + v ^ 3 * t ^ 3) * E t := by
    funext t
    have h := (((((hasDerivAt_id t).pow 2).const_mul ((v : ℝ) ^ 2)).const_add (v : ℝ)).mul (hd t)).deriv
    refine h.trans ?_
    simp
    ring
  rw [iteratedDeriv_succ, iteratedDeriv_succ, iteratedDeriv_one, d1, d2, d3]
  simp

theorem Spec.NormalNoise.memLp {W : ℕ → Ω → ℝ} {s2 : ℝ≥0} (h : NormalNoise P W s2) (i : ℕ) (p : ℝ≥0) :
    MemLp (W i) p P := by
  have h1 : MemLp id p (P.map (W i)) := by
    rw [(h.law i).map_eq]
    exact memLp_id_gaussianReal p
  have := h1.comp_of_map (h.law i).aemeasurable
  exact this

theorem Spec.NormalNoise.fourth {W : ℕ → Ω → ℝ} {s2 : ℝ≥0} (h : NormalNoise P W s2) (i : ℕ) :
    ∫ ω, W i ω ^ 4 ∂P = 3 * (s2 : ℝ) ^ 2 := by
  rw [← gauss_fourth s2, ← (h.law i).map_eq, integral_map (h.law i).aemeasurable (by fun_prop)]

theorem Spec.NormalNoise.third {W : ℕ → Ω → ℝ} {s2 : ℝ≥0} (h : NormalNoise P W s2) (i : ℕ) :
    ∫ ω, W i ω ^ 3 ∂P = 0 := by
  rw [← gauss_third s2, ← (h.law i).map_eq, integral_map (h.law i).aemeasurable (by fun_prop)]

theorem Spec.NormalNoise.second {W : ℕ → Ω → ℝ} {s2 : ℝ≥0} (h : NormalNoise P W s2) (i : ℕ) :
    ∫ ω, W i ω ^ 2 ∂P = s2 := by
  have e : ∫ x, x ^ 2 ∂gaussianReal 0 s2 = s2 := by
    have := variance_of_integral_eq_zero (μ := gaussianReal 0 s2) (X := id) (by fun_prop) (by simp)
    simp only [variance_id_gaussianReal, id] at this
    exact this.symm
  refine Eq.trans ?_ e
  rw [← (h.law i).map_eq, integral_map (h.law i).aemeasurable (by fun_prop)]

theorem Spec.NormalNoise.first {W : ℕ → Ω → ℝ} {s2 : ℝ≥0} (h : NormalNoise P W s2) (i : ℕ) :
    ∫ ω, W i ω ∂P = 0 := by
  have := integral_map (μ := P) (h.law i).aemeasurable (f := fun x : ℝ => x) (by fun_prop)
  rw [← this, (h.law i).map_eq, integral_id_gaussianReal]

theorem Spec.NormalNoise.white [IsProbabilityMeasure P] {W : ℕ → Ω → ℝ} {s2 : ℝ≥0} (h : NormalNoise P W s2) (N : ℕ) :
    White P W N 0 s2 where
  memLp := fun i _ => by exact_mod_cast h.memLp i 2
  mean := fun i _ => h.first i
  cov := fun i _ j _ => by
    have h2 : ∀ i, MemLp (W i) 2 P := fun i => by exact_mod_cast h.memLp i 2
    by_cases hij : i = j
    · subst hij
      rw [if_pos rfl, covariance_self (h.law i).aemeasurable]
      have := variance_map (μ := P) (X := id) (Y := W i) (by fun_prop) (h.law i).aemeasurable
      rw [(h.law i).map_eq, variance_id_gaussianReal] at this
      exact this.symm
    · rw [if_neg hij]
      exact (h.indep.indepFun hij).covariance_eq_zero (h2 i) (h2 j)

/-- a linear form in the first `n` samples -/
def Lin (W : ℕ → Ω → ℝ) (n : ℕ) (a : ℕ → ℝ) (ω : Ω) : ℝ := ∑ k ∈ range n, a k * W k ω

/-- all moments exist -/
def AllLp (P : Measure Ω) (f : Ω → ℝ) : Prop := ∀ p : ℝ≥0, MemLp f p P

theorem AllLp.mul {f g : Ω → ℝ} (hf : AllLp P f) (hg : AllLp P g) : AllLp P (fun ω => f ω * g ω) := by
  intro p
  have : ENNReal.HolderTriple (((2 * p : ℝ≥0)) : ℝ≥0∞) (((2 * p : ℝ≥0)) : ℝ≥0∞) (p : ℝ≥0∞) := by
    constructor
    push_cast
    rw [← two_mul, ENNReal.mul_inv (by simp) (by simp), ← mul_assoc, ENNReal.mul_inv_cancel (by simp) (by simp), one_mul]
  exact (hg (2 * p)).mul (hf (2 * p))

theorem AllLp.add {f g : Ω → ℝ} (hf : AllLp P f) (hg : AllLp P g) : AllLp P (fun ω => f ω + g ω) :=
  fun p => (hf p).add (hg p)

theorem AllLp.const_mul {f : Ω → ℝ} (hf : AllLp P f) (c : ℝ) : AllLp P (fun ω => c * f ω) :=
  fun p => (hf p).const_mul c

theorem AllLp.int {f : Ω → ℝ} (hf : AllLp P f) : Integrable f P := by
  have := hf 1
  rw [ENNReal.coe_one] at this
  exact memLp_one_iff_integrable.1 this

theorem AllLp.sum {ι : Type*} {f : ι → Ω → ℝ} {s : Finset ι} (h : ∀ i ∈ s, AllLp P (f i)) :
    AllLp P (fun ω => ∑ i ∈ s, f i ω) :=
  fun p => memLp_finsetSum s (fun i hi => h i hi p)

theorem AllLp.pow [IsProbabilityMeasure P] {f : Ω → ℝ} (hf : AllLp P f) (n : ℕ) : AllLp P (fun ω => f ω ^ n) := by
  induction n with
  | zero => intro p; simpa using memLp_const (1 : ℝ)
  | succ n ih => simpa only [pow_succ] using ih.mul hf

theorem lin_allLp {W : ℕ → Ω → ℝ} {s2 : ℝ≥0} (h : NormalNoise P W s2) (n : ℕ) (a : ℕ → ℝ) : AllLp P (Lin W n a) :=
  AllLp.sum fun k _ => AllLp.const_mul (h.memLp k) (a k)

omit [MeasurableSpace Ω] in
theorem lin_succ (W : ℕ → Ω → ℝ) (n : ℕ) (a : ℕ → ℝ) (ω : Ω) : Lin W (n + 1) a ω = Lin W n a ω + a n * W n ω :=
  sum_range_succ _ _

/-- a function of two forms in the first samples is independent of the powers of the next one -/
theorem lin_indep [IsProbabilityMeasure P] {W : ℕ → Ω → ℝ} {s2 : ℝ≥0} (h : NormalNoise P W s2) (n : ℕ) (a b : ℕ → ℝ)
    (i j k : ℕ) : ∫ ω, Lin W n a ω ^ i * Lin W n b ω ^ j * W n ω ^ k ∂P =
      (∫ ω, Lin W n a ω ^ i * Lin W n b ω ^ j ∂P) * ∫ ω, W n ω ^ k ∂P := by
  have h1 := h.indep.indepFun_finset₀ (range n) {n} (by simp) (fun i => (h.law i).aemeasurable)
  have h2 : IndepFun (fun ω => Lin W n a ω ^ i * Lin W n b ω ^ j) (fun ω => W n ω ^ k) P := by
    have := h1.comp (φ := fun x : (↥(range n) → ℝ) => (∑ k : ↥(range n), a k * x k) ^ i * (∑ k : ↥(range n), b k * x k) ^ j)
      (ψ := fun x : (↥({n} : Finset ℕ) → ℝ) => x ⟨n, by simp⟩ ^ k) (by fun_prop) (by fun_prop)
    have e : ∀ (c : ℕ → ℝ) ω, ∑ k : ↥(range n), c k * W k ω = Lin W n c ω := fun c ω =>
      Finset.sum_coe_sort (range n) (fun k => c k * W k ω)
    simpa only [Function.comp_def, e] using this
  exact h2.integral_fun_mul_eq_mul_integral
    (((lin_allLp h n a).pow i).mul ((lin_allLp h n b).pow j)).int.aestronglyMeasurable
    ((AllLp.pow (h.memLp n) k)).int.aestronglyMeasurable

theorem lin_prod [IsProbabilityMeasure P] {W : ℕ → Ω → ℝ} {s2 : ℝ≥0} (h : NormalNoise P W s2) (n : ℕ) (a b : ℕ → ℝ) :
    ∫ ω, Lin W n a ω * Lin W n b ω ∂P = s2 * ∑ k ∈ range n, a k * b k := by
  induction n with
  | zero => simp [Lin]
  | succ n ih =>
    have e : ∀ ω, Lin W (n + 1) a ω * Lin W (n + 1) b ω =
        Lin W n a ω * Lin W n b ω + (b n * (Lin W n a ω ^ 1 * Lin W n b ω ^ 0 * W n ω ^ 1) +
          (a n * (Lin W n a ω ^ 0 * Lin W n b ω ^ 1 * W n ω ^ 1) + a n * b n * W n ω ^ 2)) := by
      intro ω
      rw [lin_succ, lin_succ]
      ring
    have hi : ∀ i j k, AllLp P (fun ω => Lin W n a ω ^ i * Lin W n b ω ^ j * W n ω ^ k) := fun i j k =>
      (((lin_allLp h n a).pow i).mul ((lin_allLp h n b).pow j)).mul (AllLp.pow (h.memLp n) k)
    simp only [e]
    rw [integral_add ((lin_allLp h n a).mul (lin_allLp h n b)).int
        (((hi 1 0 1).const_mul _).add (((hi 0 1 1).const_mul _).add ((AllLp.pow (h.memLp n) 2).const_mul _))).int,
      integral_add ((hi 1 0 1).const_mul _).int (((hi 0 1 1).const_mul _).add ((AllLp.pow (h.memLp n) 2).const_mul _)).int,
      integral_add ((hi 0 1 1).const_mul _).int ((AllLp.pow (h.memLp n) 2).const_mul _).int,
      integral_const_mul, integral_const_mul, integral_const_mul, lin_indep h, lin_indep h, ih, h.second]
    simp only [pow_one, h.first, sum_range_succ]
    ring

/-- the mixed fourth moment of two linear forms -/
theorem lin_quartic [IsProbabilityMeasure P] {W : ℕ → Ω → ℝ} {s2 : ℝ≥0} (h : NormalNoise P W s2) (n : ℕ) (a b : ℕ → ℝ) :
    ∫ ω, Lin W n a ω ^ 2 * Lin W n b ω ^ 2 ∂P =
      (s2 : ℝ) ^ 2 * ((∑ k ∈ range n, a k ^ 2) * (∑ k ∈ range n, b k ^ 2) + 2 * (∑ k ∈ range n, a k * b k) ^ 2) := by
  induction n with
  | zero => simp [Lin]
  | succ n ih =>
    have e : ∀ ω, Lin W (n + 1) a ω ^ 2 * Lin W (n + 1) b ω ^ 2 =
        Lin W n a ω ^ 2 * Lin W n b ω ^ 2 +
        (2 * b n * (Lin W n a ω ^ 2 * Lin W n b ω ^ 1 * W n ω ^ 1) +
        (2 * a n * (Lin W n a ω ^ 1 * Lin W n b ω ^ 2 * W n ω ^ 1) +
        (b n ^ 2 * (Lin W n a ω ^ 2 * Lin W n b ω ^ 0 * W n ω ^ 2) +
        (4 * a n * b n * (Lin W n a ω ^ 1 * Lin W n b ω ^ 1 * W n ω ^ 2) +
        (a n ^ 2 * (Lin W n a ω ^ 0 * Lin W n b ω ^ 2 * W n ω ^ 2) +
        (2 * a n * b n ^ 2 * (Lin W n a ω ^ 1 * Lin W n b ω ^ 0 * W n ω ^ 3) +
        (2 * a n ^ 2 * b n * (Lin W n a ω ^ 0 * Lin W n b ω ^ 1 * W n ω ^ 3) +
        a n ^ 2 * b n ^ 2 * W n ω ^ 4))))))) := by
      intro ω
      rw [lin_succ, lin_succ]
      ring
    have hi : ∀ i j k, AllLp P (fun ω => Lin W n a ω ^ i * Lin W n b ω ^ j * W n ω ^ k) := fun i j k =>
      (((lin_allLp h n a).pow i).mul ((lin_allLp h n b).pow j)).mul (AllLp.pow (h.memLp n) k)
    have g9 : AllLp P (fun ω => a n ^ 2 * b n ^ 2 * W n ω ^ 4) := (AllLp.pow (h.memLp n) 4).const_mul _
    have g8 := ((hi 0 1 3).const_mul (2 * a n ^ 2 * b n)).add g9
    have g7 := ((hi 1 0 3).const_mul (2 * a n * b n ^ 2)).add g8
    have g6 := ((hi 0 2 2).const_mul (a n ^ 2)).add g7
    have g5 := ((hi 1 1 2).const_mul (4 * a n * b n)).add g6
    have g4 := ((hi 2 0 2).const_mul (b n ^ 2)).add g5
    have g3 := ((hi 1 2 1).const_mul (2 * a n)).add g4
    have g2 := ((hi 2 1 1).const_mul (2 * b n)).add g3
    simp only [e]
    rw [integral_add (((lin_allLp h n a).pow 2).mul ((lin_allLp h n b).pow 2)).int g2.int,
      integral_add ((hi 2 1 1).const_mul _).int g3.int, integral_add ((hi 1 2 1).const_mul _).int g4.int,
      integral_add ((hi 2 0 2).const_mul _).int g5.int, integral_add ((hi 1 1 2).const_mul _).int g6.int,
      integral_add ((hi 0 2 2).const_mul _).int g7.int, integral_add ((hi 1 0 3).const_mul _).int g8.int,
      integral_add ((hi 0 1 3).const_mul _).int g9.int]
    have hs : ∀ c, ∫ ω, Lin W n c ω ^ 2 ∂P = s2 * ∑ k ∈ range n, c k ^ 2 := fun c => by
      simpa only [pow_two] using lin_prod h n c c
    simp only [integral_const_mul, lin_indep h]
    rw [ih, h.second, h.third, h.fourth]
    simp only [pow_one, pow_zero, mul_one, one_mul, h.first, hs, lin_prod h, sum_range_succ]
    ring

end AT
