import Verif.Props.Mixed
import Verif.Props.Hat

/-!
# C78: what the three-cornered hat and the Groslambert codeviation measure
-/

namespace AT

open Spec Finset MeasureTheory ProbabilityTheory Filter
open scoped NNReal ENNReal

variable {Ω : Type} [MeasurableSpace Ω] {P : Measure Ω}

/-- The deviation that the three-cornered hat reports for clock A settles at `√(v m)` as the number of data
points grows; see `Settles`. -/
def Spec.HatSettles (P : Measure Ω) (fn : DevName) (ab bc ca : Ω → ℕ → ℝ) (rate : ℝ) (v : ℕ → ℝ) : Prop :=
  ∀ m : ℕ, 0 < m → (fn = .theo1 → Even m) → ∀ ε δ : ℝ, 0 < ε → 0 < δ → ∃ N₀, ∀ N ≥ N₀, ∃ D : Ω → ℝ,
    (∀ ω, ∃ errs ns, three_cornered_hat_phase (tab N (ab ω)) (tab N (bc ω)) (tab N (ca ω)) rate (.list [(m : ℝ) / rate]) fn
      = .ok ⟨[(m : ℝ) / rate], [D ω], errs, ns⟩) ∧
    P {ω | ε ≤ |D ω - √(v m)|} ≤ ENNReal.ofReal δ

omit [MeasurableSpace Ω] in
/-- the hat for a single averaging time -/
theorem hat_at {fn : DevName} {N m : ℕ} (hu : Usable fn N m) {rate : ℝ} (hr : 0 < rate) (ab bc ca : ℕ → ℝ) :
    ∃ errs ns, three_cornered_hat_phase (tab N ab) (tab N bc) (tab N ca) rate (.list [(m : ℝ) / rate]) fn
      = .ok ⟨[(m : ℝ) / rate], [√(hatVar (value fn ab N rate m ^ 2) (value fn bc N rate m ^ 2) (value fn ca N rate m ^ 2))],
        errs, ns⟩ := by
  obtain ⟨e1, n1, h1⟩ := run_at hu hr ab
  obtain ⟨e2, n2, h2⟩ := run_at hu hr bc
  obtain ⟨e3, n3, h3⟩ := run_at hu hr ca
  unfold three_cornered_hat_phase
  rw [h1, h2, h3]
  simp only [ok_bind, vmul, vadd, vsub, vop, List.length_singleton, List.zipWith_cons_cons, List.zipWith_nil_left, if_true,
    and_self, vscale, List.map_cons, List.map_nil]
  rw [pyAssert_true trivial]
  simp only [ok_bind]
  have key : (if (0.5 : ℝ) * (value fn ab N rate m * value fn ab N rate m + value fn ca N rate m * value fn ca N rate m -
      value fn bc N rate m * value fn bc N rate m) < 0 then 0 else
      (0.5 : ℝ) * (value fn ab N rate m * value fn ab N rate m + value fn ca N rate m * value fn ca N rate m -
      value fn bc N rate m * value fn bc N rate m))
      = hatVar (value fn ab N rate m ^ 2) (value fn bc N rate m ^ 2) (value fn ca N rate m ^ 2) := by
    unfold hatVar
    simp only [← pow_two]
    rw [show (0.5 : ℝ) * (value fn ab N rate m ^ 2 + value fn ca N rate m ^ 2 - value fn bc N rate m ^ 2)
      = (value fn ab N rate m ^ 2 + value fn ca N rate m ^ 2 - value fn bc N rate m ^ 2) / 2 by ring]
    split_ifs with h
    · rw [max_eq_left h.le]
    · rw [max_eq_right (not_lt.1 h)]
  rw [key]
  exact ⟨_, _, rfl⟩

theorem hatVar_near (x y z wx wy wz : ℝ) :
    |hatVar x y z - hatVar wx wy wz| ≤ (|x - wx| + |y - wy| + |z - wz|) / 2 := by
  unfold hatVar
  have h1 : |max 0 ((x + z - y) / 2) - max 0 ((wx + wz - wy) / 2)| ≤ |(x + z - y) / 2 - (wx + wz - wy) / 2| := by
    rw [max_comm 0, max_comm 0]
    exact abs_max_sub_max_le_abs _ _ _
  refine h1.trans ?_
  rw [show (x + z - y) / 2 - (wx + wz - wy) / 2 = ((x - wx) + (z - wz) - (y - wy)) / 2 by ring, abs_div, abs_two]
  have h2 := abs_sub ((x - wx) + (z - wz)) (y - wy)
  have h3 := abs_add_le (x - wx) (z - wz)
  linarith

theorem hat_of_tails {fn : DevName} {ab bc ca : Ω → ℕ → ℝ} {rate : ℝ} (hr : 0 < rate) {vab vbc vca : ℕ → ℝ}
    (h1 : Tail P fn ab rate vab) (h2 : Tail P fn bc rate vbc) (h3 : Tail P fn ca rate vca) :
    HatSettles P fn ab bc ca rate (fun m => hatVar (vab m) (vbc m) (vca m)) := by
  intro m hm he ε δ hε hδ
  have hc : 0 < 2 * ε ^ 2 / 3 := by positivity
  have hd : 0 < δ / 3 := by positivity
  refine eventually_atTop.1 ?_
  filter_upwards [usable_eventually fn hm he, (h1 m hm he).2 _ _ hc hd, (h2 m hm he).2 _ _ hc hd, (h3 m hm he).2 _ _ hc hd]
    with N hu p1 p2 p3
  refine ⟨_, fun ω => hat_at hu hr (ab ω) (bc ω) (ca ω), ?_⟩
  calc _ ≤ P ({ω | 2 * ε ^ 2 / 3 ≤ |value fn (ab ω) N rate m ^ 2 - vab m|} ∪
        {ω | 2 * ε ^ 2 / 3 ≤ |value fn (bc ω) N rate m ^ 2 - vbc m|} ∪
        {ω | 2 * ε ^ 2 / 3 ≤ |value fn (ca ω) N rate m ^ 2 - vca m|}) := by
        refine measure_mono fun ω hω => ?_
        simp only [Set.mem_ofPred_eq, Set.mem_union] at hω ⊢
        have k1 := sqrt_far (le_max_left _ _) (le_max_left _ _) hε hω
        have k2 := hatVar_near (value fn (ab ω) N rate m ^ 2) (value fn (bc ω) N rate m ^ 2)
          (value fn (ca ω) N rate m ^ 2) (vab m) (vbc m) (vca m)
        unfold hatVar at k2
        by_contra hn
        push Not at hn
        linarith [hn.1.1, hn.1.2, hn.2]
    _ ≤ ENNReal.ofReal (δ / 3) + ENNReal.ofReal (δ / 3) + ENNReal.ofReal (δ / 3) :=
        (measure_union_le _ _).trans (add_le_add ((measure_union_le _ _).trans (add_le_add p1 p2)) p3)
    _ = ENNReal.ofReal δ := by
        rw [← ENNReal.ofReal_add hd.le hd.le, ← ENNReal.ofReal_add (by positivity) hd.le]
        congr 1
        ring

/-! ## The codeviation -/

/-- The deviation that `gcodev` reports settles at `√(v m)` as the number of data points grows; see `Settles`. -/
def Spec.GcodevSettles (P : Measure Ω) (x y : Ω → ℕ → ℝ) (rate : ℝ) (v : ℕ → ℝ) : Prop :=
  ∀ m : ℕ, 0 < m → ∀ ε δ : ℝ, 0 < ε → 0 < δ → ∃ N₀, ∀ N ≥ N₀, ∃ D : Ω → ℝ,
    (∀ ω, ∃ errs ns, AT.gcodev (tab N (x ω)) (tab N (y ω)) rate "phase" (.list [(m : ℝ) / rate])
      = .ok ⟨[(m : ℝ) / rate], [D ω], errs, ns⟩) ∧
    P {ω | ε ≤ |D ω - √(v m)|} ≤ ENNReal.ofReal δ

omit [MeasurableSpace Ω] in
/-- the codeviation from the deviations of the sum and of the difference -/
theorem gcodev_polar (x y : ℕ → ℝ) {N m : ℕ} (hm : 0 < m) (hN : 2 * m < N) {rate : ℝ} (hr : 0 < rate) :
    Spec.gcodev x y N m (m / rate) = √(|value .oadev (fun i => x i + y i) N rate m ^ 2
      - value .oadev (fun i => x i - y i) N rate m ^ 2| / 4) := by
  have hτ : 0 < (m : ℝ) / rate := div_pos (by exact_mod_cast hm) hr
  have hn : (0 : ℝ) < (N : ℝ) - 2 * m := by
    have : (2 : ℝ) * m < N := by exact_mod_cast hN
    linarith
  have e1 : value .oadev (fun i => x i + y i) N rate m ^ 2 - value .oadev (fun i => x i - y i) N rate m ^ 2
      = 4 * acov x y N m (m / rate) := by
    simp only [value]
    rw [oadev_sq _ _ _ hN.le, oadev_sq _ _ _ hN.le]
    unfold acov
    rw [← sub_div, ← sum_sub_distrib, ← mul_div_assoc, mul_sum]
    congr 1
    refine sum_congr rfl fun i _ => ?_
    unfold d2
    ring
  rw [e1, abs_mul, abs_of_pos (by norm_num : (0 : ℝ) < 4), mul_div_cancel_left₀ _ (by norm_num : (4 : ℝ) ≠ 0)]
  unfold Spec.gcodev acov
  rw [abs_div, abs_of_pos (by positivity : 0 < 2 * ((m : ℝ) / rate) ^ 2 * (N - 2 * m)), ← Real.sqrt_sq hτ.le, ← Real.sqrt_div' _ (sq_nonneg _),
    Real.sqrt_sq hτ.le]
  congr 1
  field_simp

omit [MeasurableSpace Ω] in
/-- the codeviation for a single averaging time -/
theorem gcodev_at (x y : ℕ → ℝ) {N m : ℕ} (hu : Usable .oadev N m) {rate : ℝ} (hr : 0 < rate) :
    ∃ errs ns, AT.gcodev (tab N x) (tab N y) rate "phase" (.list [(m : ℝ) / rate])
      = .ok ⟨[(m : ℝ) / rate], [√(|value .oadev (fun i => x i + y i) N rate m ^ 2
      - value .oadev (fun i => x i - y i) N rate m ^ 2| / 4)], errs, ns⟩ := by
  obtain ⟨h1, h2, h3, -, h5⟩ := hu
  simp only [lenOf, count] at h2 h5
  have hN : 2 * m < N := by omega
  have e : Spec.gcodev (seq (tab N x)) (seq (tab N y)) N m ((m : ℝ) / rate) = Spec.gcodev x y N m (m / rate) := by
    unfold Spec.gcodev
    congr 4
    refine sum_congr rfl fun i hi => ?_
    have hi := mem_range.1 hi
    unfold d2
    rw [seq_tab N x (by omega), seq_tab N x (by omega), seq_tab N x (by omega), seq_tab N y (by omega), seq_tab N y (by omega),
      seq_tab N y (by omega)]
  rw [gcodev_phase_eq _ _ (by simp), tab_length, table_single _ _ hr.ne' _ _ _ _ _ m h1 (by omega)
    (by exact_mod_cast (show m ≤ N by omega)) (by simp) (by omega), e, ← gcodev_polar x y h1 hN hr]
  exact ⟨_, _, rfl⟩

theorem gcodev_of_tails {x y : Ω → ℕ → ℝ} {rate : ℝ} (hr : 0 < rate) {vs vd : ℕ → ℝ}
    (h1 : Tail P .oadev (fun ω i => x ω i + y ω i) rate vs) (h2 : Tail P .oadev (fun ω i => x ω i - y ω i) rate vd) :
    GcodevSettles P x y rate (fun m => |vs m - vd m| / 4) := by
  intro m hm ε δ hε hδ
  have hc : 0 < 2 * ε ^ 2 := by positivity
  have hd : 0 < δ / 2 := by positivity
  have he : DevName.oadev = .theo1 → Even m := by simp
  refine eventually_atTop.1 ?_
  filter_upwards [usable_eventually .oadev hm he, (h1 m hm he).2 _ _ hc hd, (h2 m hm he).2 _ _ hc hd] with N hu p1 p2
  refine ⟨_, fun ω => gcodev_at (x ω) (y ω) hu hr, ?_⟩
  calc _ ≤ P ({ω | 2 * ε ^ 2 ≤ |value .oadev (fun i => x ω i + y ω i) N rate m ^ 2 - vs m|} ∪
        {ω | 2 * ε ^ 2 ≤ |value .oadev (fun i => x ω i - y ω i) N rate m ^ 2 - vd m|}) := by
        refine measure_mono fun ω hω => ?_
        simp only [Set.mem_ofPred_eq, Set.mem_union] at hω ⊢
        have k1 := sqrt_far (by positivity) (by positivity) hε hω
        set A := value .oadev (fun i => x ω i + y ω i) N rate m ^ 2
        set B := value .oadev (fun i => x ω i - y ω i) N rate m ^ 2
        have k2 : abs (|A - B| - |vs m - vd m|) ≤ |A - vs m| + |B - vd m| := by
          refine (abs_abs_sub_abs_le _ _).trans ?_
          rw [show A - B - (vs m - vd m) = (A - vs m) - (B - vd m) by ring]
          exact abs_sub _ _
        rw [← sub_div, abs_div, abs_of_pos (by norm_num : (0 : ℝ) < 4)] at k1
        by_contra hn
        push Not at hn
        linarith [hn.1, hn.2]
    _ ≤ ENNReal.ofReal (δ / 2) + ENNReal.ofReal (δ / 2) := (measure_union_le _ _).trans (add_le_add p1 p2)
    _ = ENNReal.ofReal δ := by
        rw [← ENNReal.ofReal_add hd.le hd.le]
        congr 1
        ring

/-! ## Three clocks and three counters -/

/-- The parties to the measurement: the clocks A, B, C (0, 1, 2) and the counters that compare A with B, B with C
and C with A (0, 1, 2). -/
inductive Spec.Party
  | clock (c : Fin 3)
  | counter (j : Fin 3)
  deriving DecidableEq

variable {K : Type} [Fintype K]

/-- The noise of one party: the sum of the noises that it owns.  Every noise source is owned by one party, so
the parties are independent. -/
noncomputable def Spec.noiseOf (own : K → Party) (d : K → Kind) (p : K → ℝ) (Z : K → ℕ → Ω → ℝ) (o : Party) (ω : Ω) : ℕ → ℝ :=
  mix d (fun k => if own k = o then p k else 0) (fun k i => Z k i ω)

/-- The phase of a clock: its noise, with its own phase and frequency offset. -/
noncomputable def Spec.clockPhase (own : K → Party) (d : K → Kind) (p : K → ℝ) (Z : K → ℕ → Ω → ℝ) (a b : Fin 3 → ℝ) (c : Fin 3)
    (ω : Ω) : ℕ → ℝ :=
  offsetPhase (a c) (b c) (noiseOf own d p Z (.clock c) ω)

/-- What counter `j` measures: the phase of clock `j` minus the phase of the next clock, plus its own noise. -/
noncomputable def Spec.measured (own : K → Party) (d : K → Kind) (p : K → ℝ) (Z : K → ℕ → Ω → ℝ) (a b : Fin 3 → ℝ) (j : Fin 3)
    (ω : Ω) (i : ℕ) : ℝ :=
  clockPhase own d p Z a b j ω i - clockPhase own d p Z a b (j + 1) ω i + noiseOf own d p Z (.counter j) ω i

theorem mix_tail (fn : DevName) (h1 : fn ≠ .mtie) (h2 : fn ≠ .totdev) {rate : ℝ} (hr : 0 < rate) :
    ∃ v : Kind → ℕ → ℝ, ∀ (K : Type) [Fintype K] [Nonempty K] (d : K → Kind) (p : K → ℝ)
      (Ω : Type) [MeasurableSpace Ω] (P : Measure Ω) [IsProbabilityMeasure P] (Z : K → ℕ → Ω → ℝ) (a b : ℝ),
      Sources P Z → (fn = .tierms → b = 0 ∧ ∀ c, d c ≠ .rwfm) →
      Tail P fn (fun ω => offsetPhase a b (mix d p (fun c i => Z c i ω))) rate (fun m => ∑ c, p c ^ 2 * v (d c) m) := by
  obtain ⟨u, hu⟩ := mix_sum fn h1 h2 hr
  refine ⟨u, fun K _ _ d p Ω _ P _ Z a b h hb => ?_⟩
  refine tail_of (v := fun _ m => ∑ c, p c ^ 2 * u (d c) m) (r := fun N m => relBound fn N m) (fun _ _ _ => tendsto_const_nhds)
    (fun m hm => relBound_tendsto fn hm) fun m _ => Eventually.of_forall fun N hm =>
      hu K d p (fun h3 => (hb h3).2) Ω P Z h a b N (fun h3 => (hb h3).1) m hm

omit [MeasurableSpace Ω] in
/-- a combination of the parties is a mixture -/
theorem combine_eq (own : K → Party) (d : K → Kind) (p : K → ℝ) (Z : K → ℕ → Ω → ℝ) (s : Party → ℝ) (ω : Ω) (i : ℕ) :
    ∑ c : Fin 3, s (.clock c) * noiseOf own d p Z (.clock c) ω i + ∑ j : Fin 3, s (.counter j) * noiseOf own d p Z (.counter j) ω i
      = mix d (fun k => s (own k) * p k) (fun k i => Z k i ω) i := by
  unfold noiseOf mix
  simp only [mul_sum]
  rw [sum_comm, sum_comm (s := univ (α := Fin 3)) (f := fun j k => s (.counter j) * _), ← sum_add_distrib]
  refine sum_congr rfl fun k _ => ?_
  rcases h : own k with c | c <;> simp [mul_assoc]

/-- the variance that a party contributes -/
noncomputable def Spec.varOf (own : K → Party) (d : K → Kind) (p : K → ℝ) (v : Kind → ℕ → ℝ) (o : Party) (m : ℕ) : ℝ :=
  ∑ k, if own k = o then p k ^ 2 * v (d k) m else 0

theorem combine_var (own : K → Party) (d : K → Kind) (p : K → ℝ) (v : Kind → ℕ → ℝ) (s : Party → ℝ) (m : ℕ) :
    ∑ k, (s (own k) * p k) ^ 2 * v (d k) m
      = ∑ c : Fin 3, s (.clock c) ^ 2 * varOf own d p v (.clock c) m + ∑ j : Fin 3, s (.counter j) ^ 2 * varOf own d p v (.counter j) m := by
  unfold varOf
  simp only [mul_sum]
  rw [sum_comm, sum_comm (s := univ (α := Fin 3)) (f := fun j k => s (.counter j) ^ 2 * _), ← sum_add_distrib]
  refine sum_congr rfl fun k _ => ?_
  rcases h : own k with c | c <;> simp [mul_assoc, mul_pow]

/-- the same with the values of the parts known -/
theorem mix_tail_at [IsProbabilityMeasure P] {fn : DevName} (h1 : fn ≠ .mtie) (h2 : fn ≠ .totdev) (h3 : fn ≠ .tierms) {rate : ℝ}
    (hr : 0 < rate) {w : Kind → ℕ → ℝ} {Z : K → ℕ → Ω → ℝ} [Nonempty K] (h : Sources P Z) (d : K → Kind) (p : K → ℝ) (a b : ℝ)
    (hw : ∀ k c N, Expects P fn (fun ω => tab N (noise k (fun i => Z c i ω))) rate "phase" (w k)) :
    Tail P fn (fun ω => offsetPhase a b (mix d p (fun c i => Z c i ω))) rate (fun m => ∑ c, p c ^ 2 * w (d c) m) := by
  obtain ⟨u, hu⟩ := mix_sum fn h1 h2 hr
  refine tail_of (v := fun _ m => ∑ c, p c ^ 2 * w (d c) m) (r := fun N m => relBound fn N m) (fun _ _ _ => tendsto_const_nhds)
    (fun m hm => relBound_tendsto fn hm) fun m _ => Eventually.of_forall fun N hm => ?_
  have e : ∀ k c, u k m = w k m := fun k c => by
    have q1 := (hu Unit (fun _ => k) (fun _ => 1) (fun h => absurd h h3) Ω P _ (h.single c) 0 0 N (fun _ => rfl) m hm).1
    have q2 := expects_value hr (hw k c N) hm
    have e1 : ∀ ω, mix (fun _ : Unit => k) (fun _ => 1) (fun _ i => Z c i ω) = noise k (fun i => Z c i ω) := fun ω => by
      funext i
      simp [mix]
    simp only [offset_zero, univ_unique, sum_singleton, one_pow, one_mul, e1] at q1
    exact q1.2.symm.trans q2.2
  have e2 : ∑ c, p c ^ 2 * u (d c) m = ∑ c, p c ^ 2 * w (d c) m := sum_congr rfl fun c _ => by rw [e (d c) c]
  have q := hu K d p (fun h => absurd h h3) Ω P Z h a b N (fun h => absurd h h3) m hm
  rw [e2] at q
  exact q

/-- weights of the parties -/
def weight (c0 c1 c2 j0 j1 j2 : ℝ) : Party → ℝ
  | .clock c => ![c0, c1, c2] c
  | .counter j => ![j0, j1, j2] j

/-- a sum of the parties, with weights -/
theorem weigh {fn : DevName} {rate : ℝ} {v : Kind → ℕ → ℝ} {own : K → Party} {d : K → Kind} {p : K → ℝ} {Z : K → ℕ → Ω → ℝ}
    {B : Set ℝ}
    (ht : ∀ (q : K → ℝ) (α β : ℝ), β ∈ B →
      Tail P fn (fun ω => offsetPhase α β (mix d q (fun c i => Z c i ω))) rate (fun m => ∑ c, q c ^ 2 * v (d c) m))
    (c0 c1 c2 j0 j1 j2 α β : ℝ) (hβ : β ∈ B) {X : Ω → ℕ → ℝ}
    (hX : ∀ ω i, X ω i = offsetPhase α β (fun i => c0 * noiseOf own d p Z (.clock 0) ω i + c1 * noiseOf own d p Z (.clock 1) ω i
      + c2 * noiseOf own d p Z (.clock 2) ω i + (j0 * noiseOf own d p Z (.counter 0) ω i
      + j1 * noiseOf own d p Z (.counter 1) ω i + j2 * noiseOf own d p Z (.counter 2) ω i)) i) :
    Tail P fn X rate (fun m => c0 ^ 2 * varOf own d p v (.clock 0) m + c1 ^ 2 * varOf own d p v (.clock 1) m
      + c2 ^ 2 * varOf own d p v (.clock 2) m + (j0 ^ 2 * varOf own d p v (.counter 0) m
      + j1 ^ 2 * varOf own d p v (.counter 1) m + j2 ^ 2 * varOf own d p v (.counter 2) m)) := by
  have h := ht (fun k => weight c0 c1 c2 j0 j1 j2 (own k) * p k) α β hβ
  simp only [combine_var] at h
  have e : (fun ω => offsetPhase α β (mix d (fun k => weight c0 c1 c2 j0 j1 j2 (own k) * p k) (fun c i => Z c i ω))) = X := by
    funext ω i
    rw [hX ω i]
    congr 1
    funext j
    rw [← combine_eq]
    simp [Fin.sum_univ_three, weight]
  rw [e] at h
  simpa [Fin.sum_univ_three, weight] using h

theorem hat_core {fn : DevName} {rate : ℝ} (hr : 0 < rate) {v : Kind → ℕ → ℝ} {own : K → Party} {d : K → Kind} {p : K → ℝ}
    {Z : K → ℕ → Ω → ℝ} {a b : Fin 3 → ℝ} (hb : fn = .tierms → ∀ c, b c = 0)
    (ht : ∀ (q : K → ℝ) (α β : ℝ), β ∈ {β : ℝ | fn = .tierms → β = 0} →
      Tail P fn (fun ω => offsetPhase α β (mix d q (fun c i => Z c i ω))) rate (fun m => ∑ c, q c ^ 2 * v (d c) m)) :
    (∀ c, Settles P fn (fun N ω => tab N (clockPhase own d p Z a b c ω)) rate "phase" (varOf own d p v (.clock c))) ∧
    (∀ j, Settles P fn (fun N ω => tab N (noiseOf own d p Z (.counter j) ω)) rate "phase" (varOf own d p v (.counter j))) ∧
    HatSettles P fn (measured own d p Z a b 0) (measured own d p Z a b 1) (measured own d p Z a b 2) rate
      (fun m => max 0 (varOf own d p v (.clock 0) m
        + (varOf own d p v (.counter 0) m + varOf own d p v (.counter 2) m - varOf own d p v (.counter 1) m) / 2)) := by
  have hbc : ∀ c, b c ∈ {β : ℝ | fn = .tierms → β = 0} := fun c h3 => hb h3 c
  have hbd : ∀ c c', b c - b c' ∈ {β : ℝ | fn = .tierms → β = 0} := fun c c' h3 => by
    rw [hb h3 c, hb h3 c', sub_zero]
  have hb0 : (0 : ℝ) ∈ {β : ℝ | fn = .tierms → β = 0} := fun _ => rfl
  refine ⟨fun c => ?_, fun j => ?_, ?_⟩
  · have := ht (fun k => if own k = .clock c then p k else 0) (a c) (b c) (hbc c)
    simp only [ite_pow, ite_mul, zero_mul, ne_eq, OfNat.ofNat_ne_zero, not_false_eq_true, zero_pow] at this
    exact settles_of_tail hr this
  · have := ht (fun k => if own k = .counter j then p k else 0) 0 0 hb0
    simp only [ite_pow, ite_mul, zero_mul, ne_eq, OfNat.ofNat_ne_zero, not_false_eq_true, zero_pow, offset_zero] at this
    exact settles_of_tail hr this
  · have t0 := weigh (own := own) (p := p) ht 1 (-1) 0 1 0 0 (a 0 - a 1) (b 0 - b 1) (hbd 0 1) (X := measured own d p Z a b 0)
      fun ω i => by simp [measured, clockPhase, offsetPhase]; ring
    have t1 := weigh (own := own) (p := p) ht 0 1 (-1) 0 1 0 (a 1 - a 2) (b 1 - b 2) (hbd 1 2) (X := measured own d p Z a b 1)
      fun ω i => by simp [measured, clockPhase, offsetPhase]; ring
    have t2 := weigh (own := own) (p := p) ht (-1) 0 1 0 0 1 (a 2 - a 0) (b 2 - b 0) (hbd 2 0) (X := measured own d p Z a b 2)
      fun ω i => by simp [measured, clockPhase, offsetPhase]; ring
    have key := hat_of_tails hr t0 t1 t2
    refine cast (congrArg _ (funext fun m => ?_)) key
    unfold hatVar
    congr 1
    ring

/-- **C78, the hat.** Three clocks of any noise, offsets and drifts are compared pairwise by three counters, and
all the noises are independent.  For every deviation but MTIE and TOTDEV, where `V` is the variance at which the
deviation of a party on its own settles, the three-cornered hat settles at
`√max(0, V_A + (V_ab + V_ca - V_bc)/2)`: the noise of the counters does not cancel. -/
theorem hat_settles (fn : DevName) (h1 : fn ≠ .mtie) (h2 : fn ≠ .totdev) {rate : ℝ} (hr : 0 < rate) [IsProbabilityMeasure P]
    {Z : K → ℕ → Ω → ℝ} [Nonempty K] (h : Sources P Z) (own : K → Party) (d : K → Kind) (p : K → ℝ) (a b : Fin 3 → ℝ)
    (hb : fn = .tierms → (∀ c, b c = 0) ∧ ∀ k, d k ≠ .rwfm) :
    ∃ V : Party → ℕ → ℝ,
      (∀ c, Settles P fn (fun N ω => tab N (clockPhase own d p Z a b c ω)) rate "phase" (V (.clock c))) ∧
      (∀ j, Settles P fn (fun N ω => tab N (noiseOf own d p Z (.counter j) ω)) rate "phase" (V (.counter j))) ∧
      HatSettles P fn (measured own d p Z a b 0) (measured own d p Z a b 1) (measured own d p Z a b 2) rate
        (fun m => max 0 (V (.clock 0) m + (V (.counter 0) m + V (.counter 2) m - V (.counter 1) m) / 2)) := by
  obtain ⟨v, hv⟩ := mix_tail fn h1 h2 hr
  have ht : ∀ (q : K → ℝ) (α β : ℝ), β ∈ {β : ℝ | fn = .tierms → β = 0} →
      Tail P fn (fun ω => offsetPhase α β (mix d q (fun c i => Z c i ω))) rate (fun m => ∑ c, q c ^ 2 * v (d c) m) :=
    fun q α β hβ => hv K d q Ω P Z α β h fun h3 => ⟨hβ h3, (hb h3).2⟩
  exact ⟨varOf own d p v, hat_core hr (fun h3 => (hb h3).1) ht⟩

/-- **C78, the hat with ideal counters.** Without counter noise the hat settles at the deviation of clock A. -/
theorem hat_ideal (fn : DevName) (h1 : fn ≠ .mtie) (h2 : fn ≠ .totdev) {rate : ℝ} (hr : 0 < rate) [IsProbabilityMeasure P]
    {Z : K → ℕ → Ω → ℝ} [Nonempty K] (h : Sources P Z) (own : K → Party) (d : K → Kind) (p : K → ℝ) (a b : Fin 3 → ℝ)
    (hb : fn = .tierms → (∀ c, b c = 0) ∧ ∀ k, d k ≠ .rwfm) (hown : ∀ k j, own k ≠ .counter j) :
    ∃ v : ℕ → ℝ, Settles P fn (fun N ω => tab N (clockPhase own d p Z a b 0 ω)) rate "phase" v ∧
      HatSettles P fn (fun ω i => clockPhase own d p Z a b 0 ω i - clockPhase own d p Z a b 1 ω i)
        (fun ω i => clockPhase own d p Z a b 1 ω i - clockPhase own d p Z a b 2 ω i)
        (fun ω i => clockPhase own d p Z a b 2 ω i - clockPhase own d p Z a b 0 ω i) rate v := by
  obtain ⟨v, hv⟩ := mix_tail fn h1 h2 hr
  have ht : ∀ (q : K → ℝ) (α β : ℝ), β ∈ {β : ℝ | fn = .tierms → β = 0} →
      Tail P fn (fun ω => offsetPhase α β (mix d q (fun c i => Z c i ω))) rate (fun m => ∑ c, q c ^ 2 * v (d c) m) :=
    fun q α β hβ => hv K d q Ω P Z α β h fun h3 => ⟨hβ h3, (hb h3).2⟩
  obtain ⟨e1, -, e3⟩ := hat_core (own := own) (p := p) (a := a) hr (fun h3 => (hb h3).1) ht
  have z : ∀ j m, varOf own d p v (.counter j) m = 0 := fun j m => by simp [varOf, hown]
  have y : ∀ j ω i, noiseOf own d p Z (.counter j) ω i = 0 := fun j ω i => by simp [noiseOf, mix, hown]
  refine ⟨_, e1 0, ?_⟩
  intro m hm he
  have hpos : 0 ≤ varOf own d p v (.clock 0) m := by
    have := (ht (fun k => if own k = .clock 0 then p k else 0) (a 0) 0 (fun _ => rfl) m hm he).1
    simpa only [ite_pow, ite_mul, zero_mul, ne_eq, OfNat.ofNat_ne_zero, not_false_eq_true, zero_pow, varOf] using this
  have key := e3 m hm he
  simp only [z, add_zero, sub_zero, zero_div, max_eq_right hpos] at key
  have y2 : ∀ j, measured own d p Z a b j = fun ω i => clockPhase own d p Z a b j ω i - clockPhase own d p Z a b (j + 1) ω i :=
    fun j => by
      funext ω i
      simp only [measured, y, add_zero]
  simp only [y2] at key
  exact key

/-- **C78, the codeviation.** In the same setting the codeviation of the two comparisons that share clock B
settles at the Allan deviation of clock B, whatever the noise of the counters and of the other clocks. -/
theorem gcodev_settles {rate : ℝ} (hr : 0 < rate) [IsProbabilityMeasure P]
    {Z : K → ℕ → Ω → ℝ} [Nonempty K] (h : Sources P Z) (own : K → Party) (d : K → Kind) (p : K → ℝ) (a b : Fin 3 → ℝ) :
    Settles P .oadev (fun N ω => tab N (clockPhase own d p Z a b 1 ω)) rate "phase"
      (fun m => ∑ k, if own k = .clock 1 then p k ^ 2 * avarOf rate (d k) m else 0) ∧
    GcodevSettles P (measured own d p Z a b 0) (measured own d p Z a b 1) rate
      (fun m => ∑ k, if own k = .clock 1 then p k ^ 2 * avarOf rate (d k) m else 0) := by
  have ht : ∀ (q : K → ℝ) (α β : ℝ), β ∈ (Set.univ : Set ℝ) →
      Tail P .oadev (fun ω => offsetPhase α β (mix d q (fun c i => Z c i ω))) rate
        (fun m => ∑ c, q c ^ 2 * avarOf rate (d c) m) := fun q α β _ =>
    mix_tail_at (by decide) (by decide) (by decide) hr h d q α β fun k c N => (kind_expects h hr k c N).2.1
  have hc : Tail P .oadev (clockPhase own d p Z a b 1) rate (varOf own d p (avarOf rate) (.clock 1)) := by
    have := ht (fun k => if own k = .clock 1 then p k else 0) (a 1) (b 1) trivial
    simp only [ite_pow, ite_mul, zero_mul, ne_eq, OfNat.ofNat_ne_zero, not_false_eq_true, zero_pow] at this
    exact this
  refine ⟨settles_of_tail hr hc, ?_⟩
  have t0 := weigh (own := own) (p := p) ht 1 0 (-1) 1 1 0 (a 0 - a 2) (b 0 - b 2) trivial
    (X := fun ω i => measured own d p Z a b 0 ω i + measured own d p Z a b 1 ω i)
    fun ω i => by simp [measured, clockPhase, offsetPhase]; ring
  have t1 := weigh (own := own) (p := p) ht 1 (-2) 1 1 (-1) 0 (a 0 - 2 * a 1 + a 2) (b 0 - 2 * b 1 + b 2) trivial
    (X := fun ω i => measured own d p Z a b 0 ω i - measured own d p Z a b 1 ω i)
    fun ω i => by simp [measured, clockPhase, offsetPhase]; ring
  intro m hm
  have key := gcodev_of_tails hr t0 t1 m hm
  have e : (∑ k, if own k = .clock 1 then p k ^ 2 * avarOf rate (d k) m else 0) = varOf own d p (avarOf rate) (.clock 1) m := rfl
  have e2 : ∀ A B C D E : ℝ, 0 ≤ B → |(1 : ℝ) ^ 2 * A + (0 : ℝ) ^ 2 * B + (-1 : ℝ) ^ 2 * C + ((1 : ℝ) ^ 2 * D + (1 : ℝ) ^ 2 * E + (0 : ℝ) ^ 2 *
      varOf own d p (avarOf rate) (.counter 2) m)
      - ((1 : ℝ) ^ 2 * A + (-2 : ℝ) ^ 2 * B + (1 : ℝ) ^ 2 * C + ((1 : ℝ) ^ 2 * D + (-1 : ℝ) ^ 2 * E + (0 : ℝ) ^ 2 *
      varOf own d p (avarOf rate) (.counter 2) m))| / 4 = B := by
    intro A B C D E hB
    rw [show ∀ F : ℝ, (1 : ℝ) ^ 2 * A + (0 : ℝ) ^ 2 * B + (-1 : ℝ) ^ 2 * C + ((1 : ℝ) ^ 2 * D + (1 : ℝ) ^ 2 * E + (0 : ℝ) ^ 2 * F)
      - ((1 : ℝ) ^ 2 * A + (-2 : ℝ) ^ 2 * B + (1 : ℝ) ^ 2 * C + ((1 : ℝ) ^ 2 * D + (-1 : ℝ) ^ 2 * E + (0 : ℝ) ^ 2 * F)) = -(4 * B)
      from fun F => by ring, abs_neg, abs_of_nonneg (by positivity)]
    ring
  simp only [e]
  simp only [e2 _ _ _ _ _ (hc m hm (by simp)).1] at key
  exact key

/-- Three clocks with white frequency noise of strengths 1, 2, 3 and three counters with white phase noise of
strengths 1, 1, 1, at 1 Hz: the hat settles at `√(1/m + 3/(2 m²))`, not at the Allan deviation `√(1/m)` of
clock A; the codeviation settles at the Allan deviation `√(4/m)` of clock B. -/
example :
    let own : Fin 6 → Party := ![.clock 0, .clock 1, .clock 2, .counter 0, .counter 1, .counter 2]
    let d : Fin 6 → Kind := ![.wfm, .wfm, .wfm, .wpm, .wpm, .wpm]
    let p : Fin 6 → ℝ := ![1, 2, 3, 1, 1, 1]
    let X := measured own d p (fun (c : Fin 6) i (ω : ℕ → ℝ) => ω (i * 6 + c)) ![0, 5, 7] ![0.5, 0, -1]
    Settles gaussNoise .oadev (fun N ω => tab N (clockPhase own d p (fun (c : Fin 6) i (ω : ℕ → ℝ) => ω (i * 6 + c))
      ![0, 5, 7] ![0.5, 0, -1] 0 ω)) 1 "phase" (fun m : ℕ => 1 / (m : ℝ)) ∧
    HatSettles gaussNoise .oadev (X 0) (X 1) (X 2) 1 (fun m : ℕ => 1 / (m : ℝ) + 3 / (2 * (m : ℝ) ^ 2)) ∧
    GcodevSettles gaussNoise (X 0) (X 1) 1 (fun m : ℕ => 4 / (m : ℝ)) := by
  intro own d p X
  have hs := sources_gauss 6
  have h1 := hat_core (P := gaussNoise) (own := own) (d := d) (p := p) (Z := fun (c : Fin 6) i (ω : ℕ → ℝ) => ω (i * 6 + c))
    (a := ![0, 5, 7]) (b := ![0.5, 0, -1]) (fn := .oadev) one_pos (by simp) (v := avarOf 1) fun q α β _ =>
    mix_tail_at (by decide) (by decide) (by decide) one_pos hs d q α β fun k c N => (kind_expects hs one_pos k c N).2.1
  have h2 := gcodev_settles one_pos hs own d p ![0, 5, 7] ![0.5, 0, -1]
  have v0 : varOf own d p (avarOf 1) (.clock 0) = fun m : ℕ => 1 / (m : ℝ) := by
    funext m
    simp [varOf, Fin.sum_univ_succ, own, d, p, avarOf]
  have v1 : (fun m : ℕ => ∑ k, if own k = .clock 1 then p k ^ 2 * avarOf 1 (d k) m else 0) = fun m : ℕ => 4 / (m : ℝ) := by
    funext m
    simp [Fin.sum_univ_succ, own, d, p, avarOf]
    ring
  have vc : ∀ (j : Fin 3) (m : ℕ), varOf own d p (avarOf 1) (.counter j) m = 3 / (m : ℝ) ^ 2 := by
    intro j m
    fin_cases j <;> simp [varOf, Fin.sum_univ_succ, own, d, p, avarOf]
  refine ⟨?_, ?_, ?_⟩
  · rw [← v0]
    exact h1.1 0
  · refine cast (congrArg _ (funext fun m => ?_)) h1.2.2
    rw [vc, vc, vc, v0, add_sub_cancel_right, max_eq_right (by positivity)]
    ring
  · rw [← v1]
    exact h2.2

end AT
