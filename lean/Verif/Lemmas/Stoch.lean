import Verif.Spec.Stoch
import Verif.Props.Shape
import Verif.Lemmas.Value

/-! # Second moments of linear forms in white noise -/

namespace AT

open Spec Finset MeasureTheory ProbabilityTheory

variable {Ω : Type} [MeasurableSpace Ω] {P : Measure Ω}

theorem Spec.White.prod_integrable {W : ℕ → Ω → ℝ} {N : ℕ} {c s2 : ℝ} (h : White P W N c s2) {i j : ℕ}
    (hi : i < N) (hj : j < N) : Integrable (fun ω => W i ω * W j ω) P :=
  (h.memLp i hi).integrable_mul (h.memLp j hj)

theorem Spec.White.prod_integral [IsProbabilityMeasure P] {W : ℕ → Ω → ℝ} {N : ℕ} {c s2 : ℝ}
    (h : White P W N c s2) {i j : ℕ} (hi : i < N) (hj : j < N) :
    ∫ ω, W i ω * W j ω ∂P = c ^ 2 + if i = j then s2 else 0 := by
  have h1 := covariance_eq_sub (h.memLp i hi) (h.memLp j hj)
  rw [h.cov i hi j hj, h.mean i hi, h.mean j hj] at h1
  have h2 : ∫ ω, W i ω * W j ω ∂P = ∫ ω, (W i * W j) ω ∂P := rfl
  rw [h2]
  linarith [h1, sq c]

/-- the mean square of a linear form in white noise -/
theorem Spec.White.meanSq_sum [IsProbabilityMeasure P] {W : ℕ → Ω → ℝ} {N : ℕ} {c s2 : ℝ}
    (h : White P W N c s2) {ι : Type} (S : Finset ι) (φ : ι → ℕ) (a : ι → ℝ)
    (hφ : Set.InjOn φ S) (hN : ∀ k ∈ S, φ k < N) :
    MeanSq P (fun ω => ∑ k ∈ S, a k * W (φ k) ω)
      (s2 * ∑ k ∈ S, a k ^ 2 + c ^ 2 * (∑ k ∈ S, a k) ^ 2) := by
  classical
  have he : ∀ ω, (∑ k ∈ S, a k * W (φ k) ω) ^ 2 =
      ∑ k ∈ S, ∑ l ∈ S, a k * a l * (W (φ k) ω * W (φ l) ω) := by
    intro ω
    rw [sq, sum_mul_sum]
    refine sum_congr rfl (fun k _ => sum_congr rfl (fun l _ => by ring))
  have hint : ∀ k ∈ S, ∀ l ∈ S, Integrable (fun ω => a k * a l * (W (φ k) ω * W (φ l) ω)) P :=
    fun k hk l hl => (h.prod_integrable (hN k hk) (hN l hl)).const_mul _
  unfold MeanSq
  simp only [he]
  constructor
  · exact integrable_finsetSum _ (fun k hk => integrable_finsetSum _ (fun l hl => hint k hk l hl))
  · rw [integral_finsetSum _ (fun k hk => integrable_finsetSum _ (fun l hl => hint k hk l hl))]
    have h1 : ∀ k ∈ S, ∫ ω, ∑ l ∈ S, a k * a l * (W (φ k) ω * W (φ l) ω) ∂P =
        s2 * a k ^ 2 + c ^ 2 * (a k * ∑ l ∈ S, a l) := by
      intro k hk
      rw [integral_finsetSum _ (fun l hl => hint k hk l hl)]
      have h2 : ∀ l ∈ S, ∫ ω, a k * a l * (W (φ k) ω * W (φ l) ω) ∂P =
          (if k = l then s2 * (a k * a l) else 0) + c ^ 2 * (a k * a l) := by
        intro l hl
        rw [integral_const_mul, h.prod_integral (hN k hk) (hN l hl)]
        by_cases hkl : k = l
        · subst hkl; simp; ring
        · rw [if_neg hkl, if_neg (fun e => hkl (hφ hk hl e))]; ring
      rw [sum_congr rfl h2, sum_add_distrib, sum_ite_eq, if_pos hk, ← mul_sum, ← mul_sum]
      ring
    rw [sum_congr rfl h1, sum_add_distrib, ← mul_sum, ← mul_sum, ← sum_mul]
    ring

/-- the same when only the samples with a non-zero weight are available -/
theorem Spec.White.meanSq_sum' [IsProbabilityMeasure P] {W : ℕ → Ω → ℝ} {N : ℕ} {c s2 : ℝ}
    (h : White P W N c s2) {ι : Type} (S : Finset ι) (φ : ι → ℕ) (a : ι → ℝ)
    (hφ : Set.InjOn φ S) (hN : ∀ k ∈ S, a k ≠ 0 → φ k < N) :
    MeanSq P (fun ω => ∑ k ∈ S, a k * W (φ k) ω)
      (s2 * ∑ k ∈ S, a k ^ 2 + c ^ 2 * (∑ k ∈ S, a k) ^ 2) := by
  classical
  have h1 := h.meanSq_sum (S.filter (fun k => a k ≠ 0)) φ a
    (hφ.mono (by intro k hk; rw [mem_coe, mem_filter] at hk; exact hk.1))
    (fun k hk => by rw [mem_filter] at hk; exact hN k hk.1 hk.2)
  have e : ∀ f : ι → ℝ, (∀ k, a k = 0 → f k = 0) → ∑ k ∈ S.filter (fun k => a k ≠ 0), f k = ∑ k ∈ S, f k := by
    intro f hf
    refine sum_subset (filter_subset _ _) (fun k hk hk' => hf k ?_)
    rw [mem_filter, not_and, not_not] at hk'
    exact hk' hk
  have e1 : (fun ω => ∑ k ∈ S.filter (fun k => a k ≠ 0), a k * W (φ k) ω)
      = fun ω => ∑ k ∈ S, a k * W (φ k) ω := funext (fun ω => e _ (fun k hk => by rw [hk, zero_mul]))
  rw [e1, e _ (fun k hk => by rw [hk]; ring), e _ (fun k hk => hk)] at h1
  exact h1

theorem meanSq_congr {d d' : Ω → ℝ} {v : ℝ} (h : ∀ ω, d ω ^ 2 = d' ω ^ 2) (h' : MeanSq P d' v) :
    MeanSq P d v := by
  unfold MeanSq at *
  simp only [h]
  exact h'

/-- the mean square of a sum of squares under the root -/
theorem meanSq_rms {n : ℕ} {f : ℕ → Ω → ℝ} {norm v : ℝ} (hn : 0 < norm)
    (hf : ∀ i < n, MeanSq P (f i) v) :
    MeanSq P (fun ω => rms n (fun i => f i ω) norm) (n * v / norm) := by
  have he : ∀ ω, rms n (fun i => f i ω) norm ^ 2 = (∑ i ∈ range n, f i ω ^ 2) / norm := by
    intro ω
    unfold rms
    rw [Real.sq_sqrt (div_nonneg (sum_nonneg (fun i _ => sq_nonneg _)) hn.le)]
  unfold MeanSq
  simp only [he]
  constructor
  · exact (integrable_finsetSum _ (fun i hi => (hf i (mem_range.1 hi)).1)).div_const _
  · rw [integral_div, integral_finsetSum _ (fun i hi => (hf i (mem_range.1 hi)).1),
      sum_congr rfl (fun i hi => (hf i (mem_range.1 hi)).2), sum_const, card_range, nsmul_eq_mul]

theorem meanSq_const_mul {d : Ω → ℝ} {v : ℝ} (k : ℝ) (h : MeanSq P d v) :
    MeanSq P (fun ω => k * d ω) (k ^ 2 * v) := by
  unfold MeanSq at *
  simp only [mul_pow]
  exact ⟨h.1.const_mul _, by rw [integral_const_mul, h.2]⟩

omit [MeasurableSpace Ω] in
/-- from the textbook formula to the reported values -/
theorem reports_phase (fn : DevName) (X : ℕ → Ω → ℝ) (N : ℕ) (rate : ℝ) (hr : 0 < rate) (Q : ℕ → (Ω → ℝ) → Prop)
    (hv : ∀ m, Usable fn N m → Q m (fun ω => value fn (fun i => X i ω) N rate m)) :
    Reports fn (fun ω => tab N (fun i => X i ω)) rate "phase" Q := by
  intro taus ω₀ o₀ ho
  obtain ⟨kept, k0, k1, k2, k3, k4, -, -⟩ := run_ok fn _ rate taus o₀ ho
  simp only [tab_length] at k2
  have hus : ∀ m ∈ kept, Usable fn N m := by
    intro m hm
    obtain ⟨a, b, c, d, e, f⟩ := (k2 m).1 hm
    exact ⟨a, b, c, d, f⟩
  refine ⟨kept, fun m ω => value fn (fun i => X i ω) N rate m, k3, fun ω => ?_,
    fun m hm => ⟨(hus m hm).1, hv m (hus m hm)⟩⟩
  -- the call cannot fail for another outcome
  have hA0 := (run_cases fn (tab N (fun i => X i ω₀)) rate taus).1
  rw [ho, if_neg (by rintro ⟨_, h⟩; exact hr.ne' h), if_neg hr.ne'] at hA0
  simp only [tab_length] at hA0
  have hte : tausError (lenOf fn N) taus = none := by
    cases hte : tausError (lenOf fn N) taus with
    | none => rfl
    | some e => rw [hte] at hA0; cases hA0
  rw [hte] at hA0
  have hnt : ¬ (fn = .totdev ∧ N < 2) := by
    intro h
    simp only [if_pos h] at hA0
    cases hA0
  obtain ⟨kept', k1', k2', hrun⟩ := (run_cases fn (tab N (fun i => X i ω)) rate taus).2 hr.ne'
    (by simpa using hte) (by simpa using hnt)
  simp only [tab_length] at k2' hrun
  have hkk : kept' = kept :=
    List.Perm.eq_of_pairwise (le := (· < ·)) (fun a b _ _ h1 h2 => absurd h1 (by omega)) k1' k1
      ((List.perm_ext_iff_of_nodup (k1'.imp (fun h => ne_of_lt h)) (k1.imp (fun h => ne_of_lt h))).2
        (fun m => by rw [k2, k2']))
  rw [hkk, if_neg k0] at hrun
  have hd : kept.map (fun m => sign fn rate m * value fn (seq (tab N fun i => X i ω)) N rate m) =
      kept.map (fun m => value fn (fun i => X i ω) N rate m) := by
    apply List.map_congr_left
    intro m hm
    rw [sign_pos_rate fn rate hr, one_mul]
    exact value_congr fn rate (hus m hm) (fun i hi => seq_tab N _ hi)
  rw [hd] at hrun
  exact ⟨_, _, hrun⟩

/-- from the mean squares of the textbook formula to those of the reported values -/
theorem expects_phase (fn : DevName) (X : ℕ → Ω → ℝ) (N : ℕ) (rate : ℝ) (hr : 0 < rate) (v : ℕ → ℝ)
    (hv : ∀ m, Usable fn N m → MeanSq P (fun ω => value fn (fun i => X i ω) N rate m) (v m)) :
    Expects P fn (fun ω => tab N (fun i => X i ω)) rate "phase" v :=
  reports_phase fn X N rate hr _ hv

end AT
