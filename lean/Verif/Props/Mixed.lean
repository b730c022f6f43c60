import Verif.Props.Settle
import Verif.Props.KasdinMean

/-!
# C77: independent noises add in the variances
-/

namespace AT

open Spec Finset MeasureTheory ProbabilityTheory Filter
open scoped NNReal ENNReal

/-- kinds of noise: white phase noise, white frequency noise, random walk of the frequency -/
inductive Spec.Kind
  | wpm | wfm | rwfm
  deriving DecidableEq

/-- the phase of a noise of kind `d` that is driven by `z` -/
def Spec.noise (d : Kind) (z : ℕ → ℝ) (i : ℕ) : ℝ :=
  match d with
  | .wpm => z i
  | .wfm => ∑ j ∈ range i, z j
  | .rwfm => ∑ j ∈ range i, ∑ k ∈ range j, z k

variable {K : Type} [Fintype K]

/-- the sum of noises of the kinds `d` with the amplitudes `p` -/
noncomputable def Spec.mix (d : K → Kind) (p : K → ℝ) (z : K → ℕ → ℝ) (i : ℕ) : ℝ := ∑ c, p c * noise (d c) (z c) i

/-- independent sources of standard normal noise -/
structure Spec.Sources {Ω : Type} [MeasurableSpace Ω] (P : Measure Ω) (Z : K → ℕ → Ω → ℝ) : Prop where
  indep : iIndepFun (fun (q : K × ℕ) => Z q.1 q.2) P
  law : ∀ c i, HasLaw (Z c i) (gaussianReal 0 1) P

/-! ## Shifts -/

theorem noise_shift (d : Kind) (z : ℕ → ℝ) (i : ℕ) : ∃ A B : ℝ, (d ≠ .rwfm → B = 0) ∧
    ∀ k, noise d z (i + k) = noise d (fun j => z (i + j)) k + (A + B * k) := by
  cases d
  case wpm => exact ⟨0, 0, fun _ => rfl, fun k => by simp [noise]⟩
  case wfm => exact ⟨∑ j ∈ range i, z j, 0, fun _ => rfl, fun k => by simp only [noise]; rw [sum_range_add]; ring⟩
  case rwfm =>
    refine ⟨∑ j ∈ range i, ∑ k ∈ range j, z k, ∑ k ∈ range i, z k, fun h => absurd rfl h, fun k => ?_⟩
    simp only [noise]
    rw [sum_range_add]
    simp only [sum_range_add]
    rw [sum_add_distrib, sum_const, card_range, nsmul_eq_mul]
    ring

theorem mix_shift (d : K → Kind) (p : K → ℝ) (z : K → ℕ → ℝ) (i : ℕ) : ∃ A B : ℝ, ((∀ c, d c ≠ .rwfm) → B = 0) ∧
    ∀ k, mix d p z (i + k) = mix d p (fun c j => z c (i + j)) k + (A + B * k) := by
  choose A B hB h using fun c => noise_shift (d c) (z c) i
  refine ⟨∑ c, p c * A c, ∑ c, p c * B c, fun hd => ?_, fun k => ?_⟩
  · exact sum_eq_zero fun c _ => by rw [hB c (hd c), mul_zero]
  · simp only [mix]
    rw [sum_mul, ← sum_add_distrib, ← sum_add_distrib]
    refine sum_congr rfl fun c _ => ?_
    rw [h]
    ring

theorem noise_LF (d : Kind) {L k : ℕ} {T : (ℕ → ℝ) → ℕ → ℝ} (hT : ∀ j ≤ k, LF L (fun y => T y j)) :
    LF L (fun y => noise d (T y) k) := by
  cases d
  case wpm => exact hT k le_rfl
  case wfm => exact LF.sum _ fun j hj => hT j (by have := mem_range.1 hj; omega)
  case rwfm =>
    exact LF.sum _ fun j hj => LF.sum _ fun l hl => hT l (by have := mem_range.1 hj; have := mem_range.1 hl; omega)

/-- the terms do not see the part of the phase that a shift adds -/
theorem unitTerm_shift (fn : DevName) (h1 : fn ≠ .mtie) (h2 : fn ≠ .totdev) (rate : ℝ) {m : ℕ} (hm : 0 < m)
    (he : fn = .theo1 → Even m) (x : ℕ → ℝ) (A B : ℝ) (hB : fn = .tierms → B = 0) :
    unitTerm fn rate m (fun k => x k + (A + B * k)) = unitTerm fn rate m x := by
  by_cases h3 : fn = .tierms
  · subst h3
    simp only [unitTerm, hB rfl]
    ring
  · exact unitTerm_affine fn h1 h2 h3 rate hm he x A B

/-! ## One stream of samples -/

/-- all samples in one stream -/
noncomputable def flat {Ω : Type} [Nonempty K] (Z : K → ℕ → Ω → ℝ) (k : ℕ) : Ω → ℝ :=
  Z ((Fintype.equivFin K).symm ⟨k % Fintype.card K, Nat.mod_lt _ Fintype.card_pos⟩) (k / Fintype.card K)

theorem flat_eq {Ω : Type} [Nonempty K] (Z : K → ℕ → Ω → ℝ) (c : K) (i : ℕ) :
    flat Z (i * Fintype.card K + Fintype.equivFin K c) = Z c i := by
  have h := (Fintype.equivFin K c).2
  have hp : 0 < Fintype.card K := Fintype.card_pos
  unfold flat
  have e1 : (i * Fintype.card K + (Fintype.equivFin K c : ℕ)) % Fintype.card K = Fintype.equivFin K c := by
    rw [Nat.mul_add_mod', Nat.mod_eq_of_lt h]
  have e2 : (i * Fintype.card K + (Fintype.equivFin K c : ℕ)) / Fintype.card K = i := by
    rw [Nat.add_div_of_dvd_right (Dvd.intro_left i rfl), Nat.mul_div_cancel _ hp, Nat.div_eq_of_lt h, add_zero]
  rw [e2]
  simp only [e1, Fin.eta, Equiv.symm_apply_apply]

theorem Spec.Sources.flat [Nonempty K] {Ω : Type} [MeasurableSpace Ω] {P : Measure Ω} {Z : K → ℕ → Ω → ℝ} (h : Sources P Z) :
    NormalNoise P (flat Z) 1 where
  indep := h.indep.precomp (g := fun k => ((Fintype.equivFin K).symm ⟨k % Fintype.card K, Nat.mod_lt _ Fintype.card_pos⟩,
      k / Fintype.card K)) fun a b hab => by
    simp only [Prod.mk.injEq, EmbeddingLike.apply_eq_iff_eq, Fin.mk.injEq] at hab
    rw [← Nat.div_add_mod a (Fintype.card K), hab.1, hab.2, Nat.div_add_mod]
  law := fun _ => h.law _ _

/-! ## The expected square and its variance -/

theorem mix_value (fn : DevName) (h1 : fn ≠ .mtie) (h2 : fn ≠ .totdev) {rate : ℝ} (hr : 0 < rate) [Nonempty K]
    (d : K → Kind) (p : K → ℝ) (hd : fn = .tierms → ∀ c, d c ≠ .rwfm) :
    ∃ u : ℕ → ℝ, ∀ (Ω : Type) [MeasurableSpace Ω] (P : Measure Ω) [IsProbabilityMeasure P] (Z : K → ℕ → Ω → ℝ),
      Sources P Z → ∀ (a b : ℝ) (N : ℕ), (fn = .tierms → b = 0) → ∀ m, Usable fn N m →
      MeanSq P (fun ω => value fn (offsetPhase a b (mix d p (fun c i => Z c i ω))) N rate m) (u m) ∧
      RelVar P (fun ω => value fn (offsetPhase a b (mix d p (fun c i => Z c i ω))) N rate m) (relBound fn N m) := by
  set n := Fintype.card K with hn
  set e := Fintype.equivFin K with he
  let T : (ℕ → ℝ) → ℕ → ℝ := fun z k => mix d p (fun c j => z (j * n + e c)) k
  have hT : ∀ w, ∀ k < w, LF (w * n) (fun y => T y k) := fun w k hk => by
    refine LF.sum _ fun c _ => LF.smul (noise_LF (d c) fun j hj => LF.eval ?_) _
    have h3 := (e c).2
    have : (j + 1) * n ≤ w * n := Nat.mul_le_mul_right n (by omega)
    rw [add_mul] at this
    omega
  have hex : ∀ m, ∃ u : ℝ, 0 < m → ∀ (Ω : Type) [MeasurableSpace Ω] (P : Measure Ω) [IsProbabilityMeasure P]
      (W : ℕ → Ω → ℝ) (s2 : ℝ≥0) (_ : NormalNoise P W s2) (S M L : ℕ) (_ : 0 < M) (_ : window fn m * n ≤ (L + 1) * S) (D : Ω → ℝ)
      (_ : ∀ ω, D ω ^ 2 = 1 / M * ∑ i ∈ range M, unitTerm fn rate m (T (fun k => W (i * S + k) ω))),
      MeanSq P D (s2 * u) ∧ RelVar P D (2 * (1 + 2 * L) / M) := by
    intro m
    rcases Nat.eq_zero_or_pos m with rfl | hm
    · exact ⟨0, fun h => absurd h (lt_irrefl 0)⟩
    · obtain ⟨u, hu⟩ := relVar_blocks ((unitTerm_QF fn h1 h2 rate hm).comp (hT _))
      exact ⟨u, fun _ => hu⟩
  choose u hu using hex
  refine ⟨u, fun Ω _ P _ Z h a b N hb m hm => ?_⟩
  have key := hu m hm.1 Ω P (AT.flat Z) 1 h.flat (hop fn m * n) _ _ (summands_pos' hm)
    (by rw [← mul_assoc]; exact Nat.mul_le_mul_right n (window_le fn h1 h2 hm.1))
    (fun ω => value fn (offsetPhase a b (mix d p (fun c i => Z c i ω))) N rate m) fun ω => ?_
  · simpa only [NNReal.coe_one, one_mul, relBound] using key
  rw [value_terms fn h1 h2 _ hr hm]
  congr 1
  refine sum_congr rfl fun i _ => ?_
  obtain ⟨A, B, hB, hs⟩ := mix_shift d p (fun c i => Z c i ω) (i * hop fn m)
  rw [← unitTerm_shift fn h1 h2 rate hm.1 hm.2.2.2.1 (T (fun k => AT.flat Z (i * (hop fn m * n) + k) ω)) (a + b * (i * hop fn m : ℕ) + A) (b + B)
    (fun h3 => by rw [hb h3, hB (hd h3), add_zero])]
  congr 1
  funext k
  simp only [offsetPhase, hs, T]
  have e2 : ∀ c j, AT.flat Z (i * (hop fn m * n) + (j * n + e c)) ω = Z c (i * hop fn m + j) ω := fun c j => by
    rw [← flat_eq Z c (i * hop fn m + j)]
    congr 1
    ring
  simp only [e2]
  push_cast
  ring

/-! ## Variances add -/

theorem QF.par {L : ℕ} {U : (ℕ → ℝ) → ℝ} (hU : QF L U) (x y : ℕ → ℝ) :
    U (fun k => x k + y k) + U (fun k => x k - y k) = 2 * U x + 2 * U y := by
  obtain ⟨q, a, ha⟩ := hU
  simp only [ha]
  rw [mul_sum, mul_sum, ← sum_add_distrib, ← sum_add_distrib]
  refine sum_congr rfl fun d _ => ?_
  simp only [mul_add, mul_sub, sum_add_distrib, sum_sub_distrib]
  ring

theorem value_par (fn : DevName) (h1 : fn ≠ .mtie) (h2 : fn ≠ .totdev) (x y : ℕ → ℝ) {N m : ℕ} {rate : ℝ} (hr : 0 < rate)
    (hu : Usable fn N m) :
    value fn (fun i => x i + y i) N rate m ^ 2 + value fn (fun i => x i - y i) N rate m ^ 2
      = 2 * value fn x N rate m ^ 2 + 2 * value fn y N rate m ^ 2 := by
  rw [value_terms fn h1 h2 _ hr hu, value_terms fn h1 h2 _ hr hu, value_terms fn h1 h2 x hr hu, value_terms fn h1 h2 y hr hu,
    ← mul_add, ← sum_add_distrib]
  have e : ∀ i, unitTerm fn rate m (fun k => x (i * hop fn m + k) + y (i * hop fn m + k))
      + unitTerm fn rate m (fun k => x (i * hop fn m + k) - y (i * hop fn m + k))
      = 2 * unitTerm fn rate m (fun k => x (i * hop fn m + k)) + 2 * unitTerm fn rate m (fun k => y (i * hop fn m + k)) := fun i =>
    (unitTerm_QF fn h1 h2 rate hu.1).par (fun k => x (i * hop fn m + k)) (fun k => y (i * hop fn m + k))
  rw [sum_congr rfl fun i _ => e i, sum_add_distrib, ← mul_sum, ← mul_sum]
  ring

theorem noise_smul (d : Kind) (r : ℝ) (z : ℕ → ℝ) (i : ℕ) : noise d (fun j => r * z j) i = r * noise d z i := by
  cases d <;> simp only [noise, mul_sum]

omit [Fintype K] in
theorem Spec.Sources.flip {Ω : Type} [MeasurableSpace Ω] {P : Measure Ω} {Z : K → ℕ → Ω → ℝ} (h : Sources P Z)
    {r : K → ℝ} (hr : ∀ c, r c ^ 2 = 1) : Sources P (fun c i ω => r c * Z c i ω) where
  indep := h.indep.comp (fun q x => r q.1 * x) fun q => measurable_const_mul _
  law := fun c i => by
    have hm := (h.law c i).aemeasurable
    refine ⟨by fun_prop, ?_⟩
    have h1 : P.map (fun ω => r c * Z c i ω) = (P.map (Z c i)).map (fun x => r c * x) := by
      rw [AEMeasurable.map_map_of_aemeasurable (by fun_prop) hm]
      rfl
    rw [h1, (h.law c i).map_eq, gaussianReal_map_const_mul, mul_zero]
    congr 1
    ext
    simp [hr c]

omit [Fintype K] in
theorem Spec.Sources.single {Ω : Type} [MeasurableSpace Ω] {P : Measure Ω} {Z : K → ℕ → Ω → ℝ} (h : Sources P Z) (c : K) :
    Sources (K := Unit) P (fun _ i ω => Z c i ω) where
  indep := h.indep.precomp (g := fun q : Unit × ℕ => (c, q.2)) fun a b hab => by
    simp only [Prod.mk.injEq, true_and] at hab
    exact Prod.ext rfl hab
  law := fun _ i => h.law c i

theorem offset_zero (x : ℕ → ℝ) : offsetPhase 0 0 x = x := by
  funext i
  simp [offsetPhase]

/-- the expected square of a mixture is the sum of the expected squares of its parts -/
theorem mix_sum (fn : DevName) (h1 : fn ≠ .mtie) (h2 : fn ≠ .totdev) {rate : ℝ} (hr : 0 < rate) :
    ∃ u : Kind → ℕ → ℝ, ∀ (K : Type) [Fintype K] [Nonempty K] (d : K → Kind) (p : K → ℝ) (_ : fn = .tierms → ∀ c, d c ≠ .rwfm)
      (Ω : Type) [MeasurableSpace Ω] (P : Measure Ω) [IsProbabilityMeasure P] (Z : K → ℕ → Ω → ℝ),
      Sources P Z → ∀ (a b : ℝ) (N : ℕ), (fn = .tierms → b = 0) → ∀ m, Usable fn N m →
      MeanSq P (fun ω => value fn (offsetPhase a b (mix d p (fun c i => Z c i ω))) N rate m) (∑ c, p c ^ 2 * u (d c) m) ∧
      RelVar P (fun ω => value fn (offsetPhase a b (mix d p (fun c i => Z c i ω))) N rate m) (relBound fn N m) := by
  classical
  have hu0 : ∀ d : Kind, ∃ u : ℕ → ℝ, (fn = .tierms → d ≠ .rwfm) → ∀ (Ω : Type) [MeasurableSpace Ω] (P : Measure Ω)
      [IsProbabilityMeasure P] (Z : Unit → ℕ → Ω → ℝ), Sources P Z → ∀ (a b : ℝ) (N : ℕ), (fn = .tierms → b = 0) → ∀ m,
      Usable fn N m → MeanSq P (fun ω => value fn (offsetPhase a b (mix (fun _ => d) (fun _ => 1) (fun c i => Z c i ω))) N rate m)
        (u m) := fun d => by
    by_cases hd : fn = .tierms → d ≠ .rwfm
    · obtain ⟨u, hu⟩ := mix_value fn h1 h2 hr (fun _ : Unit => d) (fun _ => 1) (fun h _ => hd h)
      exact ⟨u, fun _ Ω _ P _ Z h a b N hb m hm => (hu Ω P Z h a b N hb m hm).1⟩
    · exact ⟨fun _ => 0, fun h => absurd h hd⟩
  choose u hu using hu0
  refine ⟨u, fun K _ _ d p hd Ω _ P _ Z h a b N hb m hm => ?_⟩
  have hmv : ∀ p : K → ℝ, ∃ e : ℝ, ∀ Z : K → ℕ → Ω → ℝ, Sources P Z → ∀ a b : ℝ, (fn = .tierms → b = 0) →
      MeanSq P (fun ω => value fn (offsetPhase a b (mix d p (fun c i => Z c i ω))) N rate m) e ∧
      RelVar P (fun ω => value fn (offsetPhase a b (mix d p (fun c i => Z c i ω))) N rate m) (relBound fn N m) := fun p => by
    obtain ⟨u, hu⟩ := mix_value fn h1 h2 hr d p hd
    exact ⟨u m, fun Z h a b hb => hu Ω P Z h a b N hb m hm⟩
  choose E hE using hmv
  have hE0 : ∀ p (Z : K → ℕ → Ω → ℝ), Sources P Z → MeanSq P (fun ω => value fn (mix d p (fun c i => Z c i ω)) N rate m) (E p) :=
    fun p Z h => by
      have := (hE p Z h 0 0 (fun _ => rfl)).1
      simpa only [offset_zero] using this
  have mix_flip : ∀ (p r : K → ℝ) (z : K → ℕ → ℝ), mix d p (fun c i => r c * z c i) = mix d (fun c => r c * p c) z := by
    intro p r z
    funext i
    simp only [mix, noise_smul]
    exact sum_congr rfl fun c _ => by ring
  have flipE : ∀ p r : K → ℝ, (∀ c, r c ^ 2 = 1) → E (fun c => r c * p c) = E p := fun p r hr => by
    rw [← (hE0 p _ (h.flip hr)).2, ← (hE0 _ Z h).2]
    simp only [mix_flip]
  have step : ∀ (s : Finset K) (c : K), c ∉ s → E (fun k => if k ∈ insert c s then p k else 0)
      = E (fun k => if k ∈ s then p k else 0) + E (fun k => if k = c then p k else 0) := fun s c hc => by
    set X := fun ω => value fn (mix d (fun k => if k ∈ s then p k else 0) (fun c i => Z c i ω)) N rate m
    set Y := fun ω => value fn (mix d (fun k => if k = c then p k else 0) (fun c i => Z c i ω)) N rate m
    have p1 : ∀ ω, mix d (fun k => if k ∈ insert c s then p k else 0) (fun c i => Z c i ω)
        = fun i => mix d (fun k => if k ∈ s then p k else 0) (fun c i => Z c i ω) i
          + mix d (fun k => if k = c then p k else 0) (fun c i => Z c i ω) i := fun ω => by
      funext i
      simp only [mix]
      rw [← sum_add_distrib]
      refine sum_congr rfl fun k _ => ?_
      rw [← add_mul]
      congr 1
      by_cases hk : k = c
      · subst hk
        simp [hc]
      · simp [hk]
    have p2 : ∀ ω, mix d (fun k => (if k = c then -1 else 1) * if k ∈ insert c s then p k else 0) (fun c i => Z c i ω)
        = fun i => mix d (fun k => if k ∈ s then p k else 0) (fun c i => Z c i ω) i
          - mix d (fun k => if k = c then p k else 0) (fun c i => Z c i ω) i := fun ω => by
      funext i
      simp only [mix]
      rw [← sum_sub_distrib]
      refine sum_congr rfl fun k _ => ?_
      rw [← sub_mul]
      congr 1
      by_cases hk : k = c
      · subst hk
        simp [hc]
      · simp [hk]
    have hf := flipE (fun k => if k ∈ insert c s then p k else 0) (fun k => if k = c then -1 else 1)
      (fun k => by split_ifs <;> norm_num)
    have q1 := hE0 (fun k => if k ∈ insert c s then p k else 0) Z h
    have q2 := hE0 (fun k => (if k = c then -1 else 1) * if k ∈ insert c s then p k else 0) Z h
    have q3 := hE0 (fun k => if k ∈ s then p k else 0) Z h
    have q4 := hE0 (fun k => if k = c then p k else 0) Z h
    have hi : ∫ ω, value fn (mix d (fun k => if k ∈ insert c s then p k else 0) (fun c i => Z c i ω)) N rate m ^ 2 ∂P
        + ∫ ω, value fn (mix d (fun k => (if k = c then -1 else 1) * if k ∈ insert c s then p k else 0) (fun c i => Z c i ω))
            N rate m ^ 2 ∂P = 2 * ∫ ω, X ω ^ 2 ∂P + 2 * ∫ ω, Y ω ^ 2 ∂P := by
      rw [← integral_add q1.1 q2.1, ← integral_const_mul, ← integral_const_mul,
        ← integral_add (q3.1.const_mul 2) (q4.1.const_mul 2)]
      congr 1
      funext ω
      simp only [p1, p2]
      exact value_par fn h1 h2 _ _ hr hm
    rw [q1.2, q2.2, q3.2, q4.2, hf] at hi
    linarith
  have single : ∀ c, E (fun k => if k = c then p k else 0) = p c ^ 2 * u (d c) m := fun c => by
    have q := hu (d c) (fun h3 => hd h3 c) Ω P _ (h.single c) 0 0 N (fun _ => rfl) m hm
    simp only [offset_zero] at q
    rw [← (hE0 _ Z h).2, ← q.2, ← integral_const_mul]
    congr 1
    funext ω
    have e1 : mix d (fun k => if k = c then p k else 0) (fun c i => Z c i ω)
        = fun i => p c * mix (fun _ : Unit => d c) (fun _ => 1) (fun _ i => Z c i ω) i := by
      funext i
      simp only [mix, ite_mul, zero_mul, sum_ite_eq', mem_univ, if_true, univ_unique, sum_singleton, one_mul]
    simp only [e1]
    rw [value_scale fn _ _ rate hm.pos, mul_pow, sq_abs]
  have all : ∀ s : Finset K, E (fun k => if k ∈ s then p k else 0) = ∑ c ∈ s, p c ^ 2 * u (d c) m := fun s => by
    induction s using Finset.induction_on with
    | empty =>
      simp only [notMem_empty, if_false, sum_empty]
      have h0 := step ∅ (Classical.arbitrary K) (notMem_empty _)
      have e1 : (fun k => if k ∈ insert (Classical.arbitrary K) (∅ : Finset K) then p k else 0)
          = fun k => if k = Classical.arbitrary K then p k else 0 := by
        funext k
        simp
      rw [e1] at h0
      simp only [notMem_empty, if_false] at h0
      linarith
    | insert c s hc ih => rw [step s c hc, ih, single, sum_insert hc, add_comm]
  have := all univ
  simp only [mem_univ, if_true] at this
  rw [← this]
  exact hE p Z h a b hb

/-! ## Limits -/

section

variable {Ω : Type} [MeasurableSpace Ω] {P : Measure Ω}

/-- the square of a deviation stays near `w` -/
def Tail (P : Measure Ω) (fn : DevName) (X : Ω → ℕ → ℝ) (rate : ℝ) (w : ℕ → ℝ) : Prop :=
  ∀ m : ℕ, 0 < m → (fn = .theo1 → Even m) → 0 ≤ w m ∧ ∀ c δ : ℝ, 0 < c → 0 < δ →
    ∀ᶠ N in atTop, P {ω | c ≤ |value fn (X ω) N rate m ^ 2 - w m|} ≤ ENNReal.ofReal δ

theorem chebyshev_sq [IsProbabilityMeasure P] {D : Ω → ℝ} {v w r : ℝ} (hm : MeanSq P D v)
    (hr : RelVar P D r) {c : ℝ} (hc : 0 < c) (hvw : |v - w| ≤ c / 2) :
    P {ω | c ≤ |D ω ^ 2 - w|} ≤ ENNReal.ofReal (r * v ^ 2 / (c / 2) ^ 2) := by
  have h1 := meas_ge_le_variance_div_sq hr.1 (c := c / 2) (by positivity)
  refine (measure_mono fun ω hω => ?_).trans (h1.trans (ENNReal.ofReal_le_ofReal ?_))
  · simp only [Set.mem_ofPred_eq] at hω ⊢
    rw [hm.2]
    have h4 : |D ω ^ 2 - w| ≤ |D ω ^ 2 - v| + |v - w| := by
      have := abs_add_le (D ω ^ 2 - v) (v - w)
      simpa using this
    linarith
  · have h2 := hr.2
    rw [hm.2] at h2
    gcongr

theorem tail_of [IsProbabilityMeasure P] {fn : DevName} {X : Ω → ℕ → ℝ} {rate : ℝ} {v r : ℕ → ℕ → ℝ} {w : ℕ → ℝ}
    (hv : ∀ m, 0 < m → (fn = .theo1 → Even m) → Tendsto (fun N => v N m) atTop (nhds (w m)))
    (hrel : ∀ m, 0 < m → Tendsto (fun N => r N m) atTop (nhds 0))
    (h : ∀ m, 0 < m → ∀ᶠ N in atTop, Usable fn N m → MeanSq P (fun ω => value fn (X ω) N rate m) (v N m) ∧
      RelVar P (fun ω => value fn (X ω) N rate m) (r N m)) : Tail P fn X rate w := by
  intro m hm he
  have hus := usable_eventually fn hm he
  refine ⟨ge_of_tendsto (hv m hm he) ?_, fun c δ hc hδ => ?_⟩
  · filter_upwards [h m hm, hus] with N h1 h2
    rw [← (h1 h2).1.2]
    exact integral_nonneg fun ω => sq_nonneg _
  have ht : Tendsto (fun N => r N m * v N m ^ 2 / (c / 2) ^ 2) atTop (nhds (0 * w m ^ 2 / (c / 2) ^ 2)) :=
    ((hrel m hm).mul ((hv m hm he).pow 2)).div_const _
  rw [zero_mul, zero_div] at ht
  have hd : ∀ᶠ N in atTop, |v N m - w m| ≤ c / 2 := by
    have h1 : Tendsto (fun N => |v N m - w m|) atTop (nhds |w m - w m|) := ((hv m hm he).sub_const _).abs
    rw [sub_self, abs_zero] at h1
    exact (h1.eventually (gt_mem_nhds (show (0 : ℝ) < c / 2 by positivity))).mono fun N hN => hN.le
  filter_upwards [h m hm, hus, ht.eventually (gt_mem_nhds hδ), hd] with N h1 h2 h3 h4
  obtain ⟨h5, h6⟩ := h1 h2
  exact (chebyshev_sq h5 h6 hc h4).trans (ENNReal.ofReal_le_ofReal h3.le)

theorem sqrt_far {d w ε : ℝ} (hd : 0 ≤ d) (hw : 0 ≤ w) (hε : 0 < ε) (h : ε ≤ |√d - √w|) : ε ^ 2 ≤ |d - w| := by
  have e : d - w = (√d - √w) * (√d + √w) := by
    have h1 := Real.sq_sqrt hw
    have h2 := Real.sq_sqrt hd
    ring_nf
    rw [h1, h2]
  have h2 : |√d - √w| ≤ |√d + √w| := by
    have := Real.sqrt_nonneg d
    have := Real.sqrt_nonneg w
    rw [abs_of_nonneg (by positivity : 0 ≤ √d + √w), abs_le]
    constructor <;> linarith
  rw [e, abs_mul, pow_two]
  exact mul_le_mul h (h.trans h2) hε.le (abs_nonneg _)

theorem settles_of_tail {fn : DevName} {X : Ω → ℕ → ℝ} {rate : ℝ} (hr : 0 < rate) {w : ℕ → ℝ} (h : Tail P fn X rate w) :
    Settles P fn (fun N ω => tab N (X ω)) rate "phase" w := by
  intro m hm he ε δ hε hδ
  refine eventually_atTop.1 ?_
  filter_upwards [usable_eventually fn hm he, (h m hm he).2 (ε ^ 2) δ (by positivity) hδ] with N hu p
  refine ⟨_, fun ω => run_at hu hr (X ω), (measure_mono fun ω hω => ?_).trans p⟩
  simp only [Set.mem_ofPred_eq] at hω ⊢
  rw [← Real.sqrt_sq (value_nonneg fn (X ω) N rate hr m)] at hω
  exact sqrt_far (sq_nonneg _) (h m hm he).1 hε hω

end

/-- **C77.** Sums of independent noises of any number and strength, each white phase noise, white frequency
noise or random walk frequency noise, with any phase and frequency offset: the expected square of every
deviation except MTIE and TOTDEV is the sum of the expected squares of the parts, `p c ^ 2 * v (d c) m`, it does
not depend on the number of data points, and the deviation settles at its root.  For TIE RMS there is no
frequency offset and no random walk of the frequency. -/
theorem mix_settles (fn : DevName) (h1 : fn ≠ .mtie) (h2 : fn ≠ .totdev) {rate : ℝ} (hr : 0 < rate) :
    ∃ v : Kind → ℕ → ℝ, ∀ (K : Type) [Fintype K] [Nonempty K] (d : K → Kind) (p : K → ℝ)
      (Ω : Type) [MeasurableSpace Ω] (P : Measure Ω) [IsProbabilityMeasure P] (Z : K → ℕ → Ω → ℝ) (a b : ℝ),
      Sources P Z → (fn = .tierms → b = 0 ∧ ∀ c, d c ≠ .rwfm) →
      (∀ N, Reports fn (fun ω => tab N (offsetPhase a b (mix d p (fun c i => Z c i ω)))) rate "phase"
        (fun m D => MeanSq P D (∑ c, p c ^ 2 * v (d c) m) ∧ RelVar P D (relBound fn N m))) ∧
      Settles P fn (fun N ω => tab N (offsetPhase a b (mix d p (fun c i => Z c i ω)))) rate "phase"
        (fun m => ∑ c, p c ^ 2 * v (d c) m) := by
  obtain ⟨u, hu⟩ := mix_sum fn h1 h2 hr
  refine ⟨u, fun K _ _ d p Ω _ P _ Z a b h hb => ⟨fun N => ?_, ?_⟩⟩
  · exact reports_phase fn (fun i ω => offsetPhase a b (mix d p (fun c i => Z c i ω)) i) N rate hr _ fun m hm =>
      hu K d p (fun h3 => (hb h3).2) Ω P Z h a b N (fun h3 => (hb h3).1) m hm
  · exact settles_phase hr fun N m hm => hu K d p (fun h3 => (hb h3).2) Ω P Z h a b N (fun h3 => (hb h3).1) m hm

/-! ## The textbook values -/

/-- Allan variance of a noise whose driving noise has variance 1 -/
noncomputable def Spec.avarOf (rate : ℝ) (d : Kind) (m : ℕ) : ℝ :=
  match d with
  | .wpm => 3 / (m / rate) ^ 2
  | .wfm => rate ^ 2 / m
  | .rwfm => (2 * m ^ 2 + 1) / (6 * m) * rate ^ 2

/-- Hadamard variance -/
noncomputable def Spec.hvarOf (rate : ℝ) (d : Kind) (m : ℕ) : ℝ :=
  match d with
  | .wpm => 10 / 3 / (m / rate) ^ 2
  | .wfm => rate ^ 2 / m
  | .rwfm => (m ^ 2 + 1) / (6 * m) * rate ^ 2

/-- modified Allan variance -/
noncomputable def Spec.mvarOf (rate : ℝ) (d : Kind) (m : ℕ) : ℝ :=
  match d with
  | .wpm => 3 / (m * (m / rate) ^ 2)
  | .wfm => (m ^ 2 + 1) / (2 * m ^ 3) * rate ^ 2
  | .rwfm => (11 * m ^ 4 + 5 * m ^ 2 + 4) / (40 * m ^ 3) * rate ^ 2

section

variable {Ω : Type} [MeasurableSpace Ω] {P : Measure Ω} [IsProbabilityMeasure P]

theorem expects_value {fn : DevName} {X : Ω → ℕ → ℝ} {N m : ℕ} {rate : ℝ} (hr : 0 < rate) {v : ℕ → ℝ}
    (h : Expects P fn (fun ω => tab N (X ω)) rate "phase" v) (hu : Usable fn N m) :
    MeanSq P (fun ω => value fn (X ω) N rate m) (v m) := by
  obtain ⟨ω₀⟩ : Nonempty Ω := nonempty_of_isProbabilityMeasure P
  choose errs ns hrun using fun ω => run_at hu hr (X ω)
  obtain ⟨ms, D, e1, e2, e3⟩ := h _ ω₀ _ (hrun ω₀)
  have hms : ms = [m] := by
    have e4 : ms.map (fun (m : ℕ) => (m : ℝ) / rate) = [m].map (fun (m : ℕ) => (m : ℝ) / rate) := by
      rw [← e1]
      rfl
    refine List.map_injective_iff.2 (fun a b hab => ?_) e4
    have := (div_left_inj' hr.ne').1 hab
    exact_mod_cast this
  subst hms
  have e5 : D m = fun ω => value fn (X ω) N rate m := by
    funext ω
    obtain ⟨e, n, h2⟩ := e2 ω
    rw [hrun ω] at h2
    simp only [List.map_cons, List.map_nil, Except.ok.injEq, DevOut.mk.injEq, List.cons.injEq, and_true] at h2
    exact h2.2.1.symm
  rw [← e5]
  exact (e3 m (by simp)).2

/-- the parts are known -/
theorem mix_settles_at {fn : DevName} (h1 : fn ≠ .mtie) (h2 : fn ≠ .totdev) (h3 : fn ≠ .tierms) {rate : ℝ} (hr : 0 < rate)
    {w : Kind → ℕ → ℝ} {Z : K → ℕ → Ω → ℝ} [Nonempty K] (h : Sources P Z) (d : K → Kind) (p : K → ℝ) (a b : ℝ)
    (hw : ∀ k c N, Expects P fn (fun ω => tab N (noise k (fun i => Z c i ω))) rate "phase" (w k)) :
    Settles P fn (fun N ω => tab N (offsetPhase a b (mix d p (fun c i => Z c i ω)))) rate "phase"
      (fun m => ∑ c, p c ^ 2 * w (d c) m) := by
  obtain ⟨u, hu⟩ := mix_sum fn h1 h2 hr
  refine settles_phase hr fun N m hm => ?_
  have e : ∀ k c, u k m = w k m := fun k c => by
    have q1 := (hu Unit (fun _ => k) (fun _ => 1) (fun h => absurd h h3) Ω P _ (h.single c) 0 0 N (fun _ => rfl) m hm).1
    have q2 := expects_value hr (hw k c N) hm
    have e1 : ∀ ω, mix (fun _ : Unit => k) (fun _ => 1) (fun _ i => Z c i ω) = noise k (fun i => Z c i ω) := fun ω => by
      funext i
      simp [mix]
    simp only [offset_zero, univ_unique, sum_singleton, one_pow, one_mul, e1] at q1
    exact q1.2.symm.trans q2.2
  have e2 : ∑ c, p c ^ 2 * u (d c) m = ∑ c, p c ^ 2 * w (d c) m := sum_congr rfl fun c _ => by rw [e (d c) c]
  have q := hu K d p (fun h => absurd h h3) Ω P Z h a b N (fun h => absurd h h3) m hm
  rw [e2] at q
  exact q

omit [Fintype K] in
theorem kind_expects {Z : K → ℕ → Ω → ℝ} (h : Sources P Z) {rate : ℝ} (hr : 0 < rate) (k : Kind) (c : K) (N : ℕ) :
    Expects P .adev (fun ω => tab N (noise k (fun i => Z c i ω))) rate "phase" (avarOf rate k) ∧
    Expects P .oadev (fun ω => tab N (noise k (fun i => Z c i ω))) rate "phase" (avarOf rate k) ∧
    Expects P .hdev (fun ω => tab N (noise k (fun i => Z c i ω))) rate "phase" (hvarOf rate k) ∧
    Expects P .ohdev (fun ω => tab N (noise k (fun i => Z c i ω))) rate "phase" (hvarOf rate k) ∧
    Expects P .mdev (fun ω => tab N (noise k (fun i => Z c i ω))) rate "phase" (mvarOf rate k) ∧
    Expects P .tdev (fun ω => tab N (noise k (fun i => Z c i ω))) rate "phase"
      (fun m => (m / rate) ^ 2 / 3 * mvarOf rate k m) := by
  have hn : NormalNoise P (Z c) 1 := ⟨h.indep.precomp (g := fun i => (c, i)) fun a b hab => by simpa using hab, h.law c⟩
  have hm' : ∀ {m : ℕ}, 0 < m → (m : ℝ) ≠ 0 := fun h => by exact_mod_cast h.ne'
  have hr' := hr.ne'
  cases k
  case wpm =>
    obtain ⟨e1, e2, e3, e4, e5, e6, -⟩ := white_phase_mean (hn.white N) hr
    refine ⟨expects_congr e1 fun m hm => ?_, expects_congr e2 fun m hm => ?_, expects_congr e3 fun m hm => ?_,
      expects_congr e4 fun m hm => ?_, expects_congr e5 fun m hm => ?_, expects_congr e6 fun m hm => ?_⟩
    all_goals
      have := hm' hm
      simp only [avarOf, hvarOf, mvarOf, NNReal.coe_one]
      field_simp
  case wfm =>
    obtain ⟨e1, e2, e3, e4, e5, e6, -⟩ := walk_phase_mean (X := fun ω => noise .wfm (fun i => Z c i ω)) (N := N)
      (fun ω i => by simp only [noise, sum_range_succ, add_sub_cancel_left]) (hn.white (N - 1)) hr
    refine ⟨expects_congr e1 fun m hm => ?_, expects_congr e2 fun m hm => ?_, expects_congr e3 fun m hm => ?_,
      expects_congr e4 fun m hm => ?_, expects_congr e5 fun m hm => ?_, expects_congr e6 fun m hm => ?_⟩
    all_goals
      have := hm' hm
      simp only [avarOf, hvarOf, mvarOf, NNReal.coe_one]
      field_simp
    norm_num
  case rwfm =>
    obtain ⟨e1, e2, e3, e4, e5, e6⟩ := run_phase_mean (X := fun ω => noise .rwfm (fun i => Z c i ω)) (N := N)
      (fun ω i => by simp only [noise, sum_range_succ]; ring) (hn.white (N - 2)) hr
    refine ⟨expects_congr e1 fun m hm => ?_, expects_congr e2 fun m hm => ?_, expects_congr e3 fun m hm => ?_,
      expects_congr e4 fun m hm => ?_, expects_congr e5 fun m hm => ?_, expects_congr e6 fun m hm => ?_⟩
    all_goals
      have := hm' hm
      simp only [avarOf, hvarOf, mvarOf, NNReal.coe_one]
      field_simp
    norm_num

/-- **C77, the limits.** The Allan deviations of a sum of independent noises settle at the root of the sum of
the Allan variances `3 p²/τ²` (white phase noise of amplitude `p`), `p² rate²/m` (phase increments of amplitude
`p`) and `p² rate² (2 m² + 1)/(6 m)` (second differences of amplitude `p`); the same for the Hadamard, the
modified Allan and the time deviation. -/
theorem mix_limits {Z : K → ℕ → Ω → ℝ} [Nonempty K] (h : Sources P Z) {rate : ℝ} (hr : 0 < rate) (d : K → Kind) (p : K → ℝ)
    (a b : ℝ) :
    Settles P .adev (fun N ω => tab N (offsetPhase a b (mix d p (fun c i => Z c i ω)))) rate "phase"
      (fun m => ∑ c, p c ^ 2 * avarOf rate (d c) m) ∧
    Settles P .oadev (fun N ω => tab N (offsetPhase a b (mix d p (fun c i => Z c i ω)))) rate "phase"
      (fun m => ∑ c, p c ^ 2 * avarOf rate (d c) m) ∧
    Settles P .hdev (fun N ω => tab N (offsetPhase a b (mix d p (fun c i => Z c i ω)))) rate "phase"
      (fun m => ∑ c, p c ^ 2 * hvarOf rate (d c) m) ∧
    Settles P .ohdev (fun N ω => tab N (offsetPhase a b (mix d p (fun c i => Z c i ω)))) rate "phase"
      (fun m => ∑ c, p c ^ 2 * hvarOf rate (d c) m) ∧
    Settles P .mdev (fun N ω => tab N (offsetPhase a b (mix d p (fun c i => Z c i ω)))) rate "phase"
      (fun m => ∑ c, p c ^ 2 * mvarOf rate (d c) m) ∧
    Settles P .tdev (fun N ω => tab N (offsetPhase a b (mix d p (fun c i => Z c i ω)))) rate "phase"
      (fun m => ∑ c, p c ^ 2 * ((m / rate) ^ 2 / 3 * mvarOf rate (d c) m)) := by
  have hk := fun k c N => kind_expects h hr k c N
  exact ⟨mix_settles_at (by decide) (by decide) (by decide) hr h d p a b fun k c N => (hk k c N).1,
    mix_settles_at (by decide) (by decide) (by decide) hr h d p a b fun k c N => (hk k c N).2.1,
    mix_settles_at (by decide) (by decide) (by decide) hr h d p a b fun k c N => (hk k c N).2.2.1,
    mix_settles_at (by decide) (by decide) (by decide) hr h d p a b fun k c N => (hk k c N).2.2.2.1,
    mix_settles_at (by decide) (by decide) (by decide) hr h d p a b fun k c N => (hk k c N).2.2.2.2.1,
    mix_settles_at (by decide) (by decide) (by decide) hr h d p a b (w := fun k m => (m / rate) ^ 2 / 3 * mvarOf rate k m)
      fun k c N => (hk k c N).2.2.2.2.2⟩

end

/-- `n` sources from one stream of standard normal numbers -/
theorem sources_gauss (n : ℕ) : Sources (K := Fin n) gaussNoise (fun c i ω => ω (i * n + c)) where
  indep := normal_gauss.indep.precomp (g := fun q : Fin n × ℕ => q.2 * n + q.1) fun a b hab => by
    have ha := a.1.2
    have hb := b.1.2
    have e1 : a.2 = b.2 := by
      have h1 := congrArg (· / n) hab
      have hn : 0 < n := by omega
      simpa only [Nat.add_div_of_dvd_right (Dvd.intro_left _ rfl), Nat.mul_div_cancel _ hn, Nat.div_eq_of_lt ha,
        Nat.div_eq_of_lt hb, add_zero] using h1
    have e2 : a.1 = b.1 := by
      have h1 : a.2 * n + a.1 = b.2 * n + b.1 := hab
      rw [e1] at h1
      exact Fin.ext (by omega)
    exact Prod.ext e2 e1
  law := fun _ _ => normal_gauss.law _

/-- a clock with a frequency offset, white phase noise of 3, white frequency noise of 2 and a random walk of the
frequency, at 1 Hz: the Allan deviation at 3 s settles at `√(9 * 3/9 + 4/3 + 19/18)` -/
example : Settles gaussNoise .oadev (fun N ω => tab N (offsetPhase 5 0.25
    (mix ![.wpm, .wfm, .rwfm] ![3, 2, 1] (fun (c : Fin 3) i => ω (i * 3 + c))))) 1 "phase"
    (fun m => 9 * (3 / (m / 1) ^ 2) + 4 * (1 / m) + (2 * m ^ 2 + 1) / (6 * m)) := by
  have h := (mix_limits (sources_gauss 3) one_pos ![.wpm, .wfm, .rwfm] ![3, 2, 1] 5 0.25).2.1
  have e : (fun m : ℕ => ∑ c : Fin 3, (![3, 2, 1] : Fin 3 → ℝ) c ^ 2 * avarOf 1 ((![.wpm, .wfm, .rwfm] : Fin 3 → Kind) c) m)
      = fun m : ℕ => 9 * (3 / ((m : ℝ) / 1) ^ 2) + 4 * (1 / (m : ℝ)) + (2 * (m : ℝ) ^ 2 + 1) / (6 * m) := by
    funext m
    simp only [Fin.sum_univ_three, avarOf, Matrix.cons_val_zero, Matrix.cons_val_one, Matrix.cons_val]
    norm_num
  rw [e] at h
  exact h

end AT
