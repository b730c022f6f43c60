import Verif.Lemmas.TotRun
import Verif.Props.MtotMean

/-!
# C103: the bias of `mtotdev`, `ttotdev` and `htotdev` for data with white second differences
-/

namespace AT

open Finset Spec MeasureTheory ProbabilityTheory

variable {Ω : Type} [MeasurableSpace Ω] {P : Measure Ω}

/-- white second differences -/
theorem tot_run [IsProbabilityMeasure P] {X U : ℕ → Ω → ℝ} {N m i : ℕ} {s2 : ℝ}
    (hX : ∀ k < 3 * m - 2, ∀ ω, X (k + 2) ω - 2 * X (k + 1) ω + X k ω = U (i + k) ω)
    (h : White P U N 0 s2) (hm : 0 < m) (hi : i + (3 * m - 2) ≤ N) :
    Integrable (fun ω => totTerm (fun k => X k ω) m) P ∧
    ∫ ω, totTerm (fun k => X k ω) m ∂P = s2 * (11 * m ^ 4 + 5 * m ^ 2 + 4) / (20 * m) * bias2 m := by
  have hm' : (0 : ℝ) < m := by exact_mod_cast hm
  have hs : ∀ ω, ∀ k < 3 * m, X k ω = ∑ t ∈ range (3 * m - 2), U (i + t) ω * ramp (t + 1) k + (X 0 ω + (X 1 ω - X 0 ω) * (k : ℝ)) := by
    intro ω k
    induction k using Nat.twoStepInduction with
    | zero => intro _; simp [ramp]
    | one => intro _; simp [ramp]
    | more k ih0 ih1 =>
      intro hk
      have h1 := hX k (by omega) ω
      have h2 : ∑ t ∈ range (3 * m - 2), U (i + t) ω * ramp (t + 1) (k + 2) =
          2 * ∑ t ∈ range (3 * m - 2), U (i + t) ω * ramp (t + 1) (k + 1) - ∑ t ∈ range (3 * m - 2), U (i + t) ω * ramp (t + 1) k
            + U (i + k) ω := by
        have : ∀ t ∈ range (3 * m - 2), U (i + t) ω * ramp (t + 1) (k + 2) =
            2 * (U (i + t) ω * ramp (t + 1) (k + 1)) - U (i + t) ω * ramp (t + 1) k + if t = k then U (i + t) ω else 0 := fun t _ => by
          unfold ramp
          rcases lt_trichotomy t k with c | c | c
          · rw [if_neg (by omega), show k + 2 - (t + 1) = k - (t + 1) + 1 + 1 by omega, show k + 1 - (t + 1) = k - (t + 1) + 1 by omega]
            push_cast; ring
          · subst c
            rw [if_pos rfl, show t + 2 - (t + 1) = 1 by omega, show t + 1 - (t + 1) = 0 by omega, show t - (t + 1) = 0 by omega]
            push_cast; ring
          · rw [if_neg (by omega), show k + 2 - (t + 1) = 0 by omega, show k + 1 - (t + 1) = 0 by omega, show k - (t + 1) = 0 by omega]
            push_cast; ring
        rw [sum_congr rfl this, sum_add_distrib, sum_sub_distrib, ← mul_sum, sum_ite_eq', if_pos (mem_range.2 (by omega))]
      rw [h2]
      have a0 := ih0 (by omega)
      have a1 := ih1 (by omega)
      push_cast at a1 ⊢
      linarith
  have h1 := tot_mean (m := m) h hi (fun t j => tf m (ramp (t + 1)) j - (1 - tq m (t + 1)) * tr m j)
    (fun k ω => ∑ t ∈ range (3 * m - 2), U (i + t) ω * ramp (t + 1) k) (fun ω j hj => by
      have hslope : halfSlope (fun k => ∑ t ∈ range (3 * m - 2), U (i + t) ω * ramp (t + 1) k) m 1 =
          ∑ t ∈ range (3 * m - 2), U (i + t) ω * (1 - tq m (t + 1)) := by
        rw [halfSlope_tc, sum_congr rfl (fun k _ => by rw [mul_sum]), sum_comm]
        refine sum_congr rfl fun t ht => ?_
        have := mem_range.1 ht
        rw [← halfSlope_ramp hm (by omega), halfSlope_tc, mul_sum]
        exact sum_congr rfl fun k _ => by ring
      rw [tf_sum, hslope, sum_mul, ← sum_sub_distrib]
      exact sum_congr rfl fun k _ => by ring) (fun j hj => by rw [zero_mul])
  have e : ∀ ω, totTerm (fun k => X k ω) m = totTerm (fun k => ∑ t ∈ range (3 * m - 2), U (i + t) ω * ramp (t + 1) k) m := fun ω => by
    rw [← totTerm_affine (fun k => ∑ t ∈ range (3 * m - 2), U (i + t) ω * ramp (t + 1) k) (X 0 ω) (X 1 ω - X 0 ω) m hm]
    rw [totTerm_tf, totTerm_tf]
    congr 1
    refine sum_congr rfl fun j hj => ?_
    have e1 : halfSlope (fun k => X k ω) m 1 = halfSlope (fun k => ∑ t ∈ range (3 * m - 2), U (i + t) ω * ramp (t + 1) k +
        (X 0 ω + (X 1 ω - X 0 ω) * (k : ℝ))) m 1 := by
      rw [halfSlope_tc, halfSlope_tc]
      exact sum_congr rfl fun k hk => by rw [hs ω k (mem_range.1 hk)]
    rw [e1, tf_congr (mem_range.1 hj) (hs ω)]
  simp only [e]
  refine ⟨h1.1, h1.2.trans ?_⟩
  have z : ∀ t, t = 0 ∨ t = 3 * m - 1 → ∑ j ∈ range (6 * m), (tf m (ramp t) j - (1 - tq m t) * tr m j) ^ 2 = 0 := by
    intro t ht
    refine sum_eq_zero fun j hj => ?_
    have hj := mem_range.1 hj
    have q0 : tq m 0 = 0 := by simp [tq, psum, tb]
    rcases ht with rfl | rfl
    · have e1 : ramp 0 = fun k : ℕ => (k : ℝ) := by funext k; simp [ramp]
      rw [q0, e1]
      unfold tr
      ring
    · have e1 := odd_tq hm 0 (by omega)
      rw [Nat.sub_zero, q0] at e1
      have e2 : tf m (ramp (3 * m - 1)) j = tf m (fun _ => 0) j := tf_congr hj fun k hk => by
        unfold ramp; rw [show k - (3 * m - 1) = 0 by omega]; simp
      rw [e1, e2, tf_const]; ring
  have h2 := sum_range_succ' (fun t => ∑ j ∈ range (6 * m), (tf m (ramp t) j - (1 - tq m t) * tr m j) ^ 2) (3 * m - 1)
  have h3 := sum_range_succ (fun t => ∑ j ∈ range (6 * m), (tf m (ramp (t + 1)) j - (1 - tq m (t + 1)) * tr m j) ^ 2) (3 * m - 2)
  rw [show 3 * m - 1 + 1 = 3 * m by omega, run_total hm, z 0 (Or.inl rfl), add_zero] at h2
  rw [show 3 * m - 2 + 1 = 3 * m - 1 by omega, z _ (Or.inr rfl), add_zero] at h3
  rw [← h3, ← h2]
  field_simp

variable [IsProbabilityMeasure P]

/-- **C103, random walk frequency noise**: frequencies whose increments are white with mean 0 and variance `s2`.
The expected values of `mtotdev²` and `ttotdev²` are those of `mdev²` and `tdev²` (`walk_freq_mean`) times
`bias2 m`. -/
theorem mtot_walk_freq {N : ℕ} {s2 rate : ℝ} {Y W : ℕ → Ω → ℝ} (hY : ∀ i ω, Y (i + 1) ω - Y i ω = W i ω)
    (hW : White P W (N - 1) 0 s2) (hr : 0 < rate) :
    Expects P .mtotdev (fun ω => tab N (fun i => Y i ω)) rate "freq"
      (fun m => bias2 m * ((11 * m ^ 4 + 5 * m ^ 2 + 4) / (40 * m ^ 3) * s2)) ∧
    Expects P .ttotdev (fun ω => tab N (fun i => Y i ω)) rate "freq"
      (fun m => bias2 m * ((11 * m ^ 4 + 5 * m ^ 2 + 4) / (120 * m) * s2 / rate ^ 2)) := by
  have hU : White P (fun i ω => 1 / rate * W i ω) (N - 1) 0 (s2 / rate ^ 2) := by
    have h := hW.const_mul (1 / rate)
    rwa [mul_zero, show (1 / rate) ^ 2 * s2 = s2 / rate ^ 2 by ring] at h
  have key : ∀ m i : ℕ, 0 < m → i + 3 * m ≤ N + 1 →
      Integrable (fun ω => totTerm (fun k => phaseOf (fun i => Y i ω) N rate (i + k)) m) P ∧
      ∫ ω, totTerm (fun k => phaseOf (fun i => Y i ω) N rate (i + k)) m ∂P =
        s2 / rate ^ 2 * (11 * m ^ 4 + 5 * m ^ 2 + 4) / (20 * m) * bias2 m := fun m i hm hi =>
    tot_run (P := P) (X := fun k ω => phaseOf (fun i => Y i ω) N rate (i + k)) (i := i) (fun k _ ω => by
      have h1 := phaseOf_add (fun i => Y i ω) N rate (i + k + 1) 1
      have h2 := phaseOf_add (fun i => Y i ω) N rate (i + k) 1
      simp only [sum_range_one, add_zero, incr] at h1 h2
      rw [show i + (k + 2) = i + k + 1 + 1 by ring, show i + (k + 1) = i + k + 1 by ring, h1, h2, ← hY]
      ring) hU hm (by omega)
  refine ⟨expects_freq _ _ _ _ hr _ fun m hu => ?_, expects_freq _ _ _ _ hr _ fun m hu => ?_⟩
  · refine value_mean .mtotdev (by simp) (by simp) (X := fun ω => phaseOf (fun i => Y i ω) N rate) hr hu fun i hi => ?_
    obtain ⟨hm, hN⟩ := mtot_usable (Or.inl rfl) hu hi
    have hm' : (0 : ℝ) < m := by exact_mod_cast hm
    have := key m i hm hN
    simp only [unitTerm, hop, mul_one]
    refine ⟨this.1.div_const _, ?_⟩
    rw [integral_div, this.2]
    field_simp
    ring
  · refine value_mean .ttotdev (by simp) (by simp) (X := fun ω => phaseOf (fun i => Y i ω) N rate) hr hu fun i hi => ?_
    obtain ⟨hm, hN⟩ := mtot_usable (Or.inr rfl) hu hi
    have hm' : (0 : ℝ) < m := by exact_mod_cast hm
    have := key m i hm hN
    simp only [unitTerm, hop, mul_one]
    refine ⟨(this.1.div_const _).const_mul _, ?_⟩
    rw [integral_const_mul, integral_div, this.2]
    field_simp
    ring

example := mtot_walk_freq (P := gaussNoise) (N := 9) (s2 := 1) (rate := 10) (Y := fun i ω => ∑ j ∈ range i, ω j)
  (W := fun i ω => ω i) (fun i ω => by rw [sum_range_succ]; ring) (white_gauss 8) (by norm_num)

theorem d3_run_freq {N : ℕ} {s2 rate : ℝ} {Y W : ℕ → Ω → ℝ} (hY : ∀ i ω, Y (i + 2) ω - 2 * Y (i + 1) ω + Y i ω = W i ω)
    (hW : White P W (N - 2) 0 s2) (m i : ℕ) (hi : i + 3 * m < N + 1) :
    MeanSq P (fun ω => d3 (phaseOf (fun i => Y i ω) N rate) m i) (m * (11 * m ^ 4 + 5 * m ^ 2 + 4) / 20 * s2 / rate ^ 2) := by
  have h := (mdev_run (P := P) (X := fun ω i => Y i ω) (fun ω i => hY i ω) hW m i (by omega))
  have h1 : MeanSq P (fun ω => 1 / rate * ∑ k ∈ range m, d2 (fun i => Y i ω) m (i + k)) (m * (11 * m ^ 4 + 5 * m ^ 2 + 4) / 20 * s2 / rate ^ 2) := by
    obtain ⟨a, b⟩ := h
    unfold MeanSq
    simp only [mul_pow]
    refine ⟨a.const_mul _, ?_⟩
    rw [integral_const_mul, b]; ring
  refine meanSq_congr (fun ω => ?_) h1
  have p : ∀ a k, phaseOf (fun i => Y i ω) N rate (a + k) = phaseOf (fun i => Y i ω) N rate a +
      (1 / rate * ∑ s ∈ range k, Y (a + s) ω - k * ((∑ k ∈ range N, Y k ω) / N / rate)) := fun a k => by
    have := congrFun (phaseOf_line (fun i => Y i ω) N rate a) k
    simp only at this
    rw [this]; ring
  have q1 := p i m
  have q2 := p (i + m) m
  have q3 := p (i + 2 * m) m
  rw [show i + m + m = i + 2 * m by ring] at q2
  rw [show i + 2 * m + m = i + 3 * m by ring] at q3
  unfold d3 d2
  rw [sum_add_distrib, sum_sub_distrib, ← mul_sum]
  have r1 : ∑ k ∈ range m, Y (i + k + 2 * m) ω = ∑ k ∈ range m, Y (i + 2 * m + k) ω := sum_congr rfl fun k _ => by congr 1; ring
  have r2 : ∑ k ∈ range m, Y (i + k + m) ω = ∑ k ∈ range m, Y (i + m + k) ω := sum_congr rfl fun k _ => by congr 1; ring
  rw [r1, r2, q3, q2, q1]
  ring

/-- **C103, random run frequency noise**: frequencies whose second differences are white with mean 0 and variance `s2`.
The expected value of `ohdev²` and `hdev²` is `s2 (11m⁴ + 5m² + 4)/(120m)`, and that of `htotdev²` is, for `m > 1`,
`bias2 m` times it. -/
theorem htot_run_freq {N : ℕ} {s2 rate : ℝ} {Y W : ℕ → Ω → ℝ} (hY : ∀ i ω, Y (i + 2) ω - 2 * Y (i + 1) ω + Y i ω = W i ω)
    (hW : White P W (N - 2) 0 s2) (hr : 0 < rate) :
    Expects P .hdev (fun ω => tab N (fun i => Y i ω)) rate "freq" (fun m => (11 * m ^ 4 + 5 * m ^ 2 + 4) / (120 * m) * s2) ∧
    Expects P .ohdev (fun ω => tab N (fun i => Y i ω)) rate "freq" (fun m => (11 * m ^ 4 + 5 * m ^ 2 + 4) / (120 * m) * s2) ∧
    Expects P .htotdev (fun ω => tab N (fun i => Y i ω)) rate "freq"
      (fun m => (if m = 1 then 1 else bias2 m) * ((11 * m ^ 4 + 5 * m ^ 2 + 4) / (120 * m) * s2)) := by
  have e : ∀ m : ℕ, 0 < m → (m : ℝ) * (11 * m ^ 4 + 5 * m ^ 2 + 4) / 20 * s2 / rate ^ 2 / (6 * (m / rate) ^ 2) =
      (11 * m ^ 4 + 5 * m ^ 2 + 4) / (120 * m) * s2 := fun m hm => by
    have : (0 : ℝ) < m := by exact_mod_cast hm
    field_simp; ring
  refine ⟨expects_freq _ _ _ _ hr _ fun m hu => ?_, expects_freq _ _ _ _ hr _ fun m hu => ?_, expects_freq _ _ _ _ hr _ fun m hu => ?_⟩
  · exact e m hu.1 ▸ hdev_of_d3 hr hu (d3_run_freq hY hW m)
  · exact e m hu.1 ▸ ohdev_of_d3 hr hu (d3_run_freq hY hW m)
  · by_cases h1 : m = 1
    · have hu' : Usable .ohdev (N + 1) m := by
        obtain ⟨hm, hl, hx, he, hc⟩ := hu
        subst h1
        refine ⟨hm, ?_, ?_, ?_, ?_⟩ <;> simp_all [count, lenOf, maxOf, htotCount]
        all_goals omega
      have h2 := e m hu.1 ▸ ohdev_of_d3 hr hu' (d3_run_freq hY hW m)
      subst h1
      simp only [value, htotdev', if_true, one_mul] at h2 ⊢
      exact h2
    · rw [if_neg h1]
      refine value_mean .htotdev (by simp) (by simp) (X := fun ω => phaseOf (fun i => Y i ω) N rate) hr hu fun i hi => ?_
      obtain ⟨hm, hN⟩ := htot_usable hu hi
      have hm' : (0 : ℝ) < m := by exact_mod_cast hm
      have := tot_run (P := P) (X := fun k ω => Y (i + k) ω) (U := W) (i := i) (m := m) (fun k _ ω => hY (i + k) ω) hW hm (by omega)
      simp only [unitTerm, hop, mul_one, if_neg h1, freqOf_phaseOf _ N hr, totTerm_affine _ _ _ _ hm]
      refine ⟨this.1.div_const _, ?_⟩
      rw [integral_div, this.2]
      field_simp
      ring

example := htot_run_freq (P := gaussNoise) (N := 9) (s2 := 1) (rate := 10) (Y := fun i ω => ∑ j ∈ range i, ∑ k ∈ range j, ω k)
  (W := fun i ω => ω i) (fun i ω => by simp only [sum_range_succ]; ring) (white_gauss 7) (by norm_num)

/-! ## The size of the bias -/

/-- **C103**: the deviations are too small on average, by at most a factor 2 in the square, and the square is half of
what it should be at `m = 1`. -/
theorem bias2_range {m : ℕ} (hm : 0 < m) : 1 / 2 ≤ bias2 m ∧ bias2 m < 7 / 10 ∧ bias2 1 = 1 / 2 := by
  refine and_assoc.1 ⟨?_, by unfold bias2; norm_num⟩
  obtain ⟨p, rfl | rfl⟩ := m.even_or_odd'
  · have hp : (1 : ℝ) ≤ p := by exact_mod_cast (by omega : 1 ≤ p)
    obtain ⟨t, ht, e⟩ : ∃ t : ℝ, 0 ≤ t ∧ (p : ℝ) = t + 1 := ⟨p - 1, by linarith, by ring⟩
    unfold bias2
    rw [if_pos (by omega)]
    push_cast
    rw [e]
    refine ⟨?_, ?_⟩
    · rw [le_div_iff₀ (by positivity), ← sub_nonneg]; ring_nf; positivity
    · rw [div_lt_iff₀ (by positivity), ← sub_pos]; ring_nf; positivity
  · have hp : (0 : ℝ) ≤ p := Nat.cast_nonneg p
    unfold bias2
    rw [if_neg (by omega)]
    push_cast
    have e : 9 * (2 * (p : ℝ) + 1) ^ 2 - 1 = 4 * ((3 * p + 1) * (3 * p + 2)) := by ring
    rw [e]
    refine ⟨?_, ?_⟩
    · rw [le_div_iff₀ (by positivity), ← sub_nonneg]; ring_nf; positivity
    · rw [div_lt_iff₀ (by positivity), ← sub_pos]; ring_nf; positivity

open Filter Topology in
/-- **C103**: for long averaging times the bias approaches a number that is, to three digits, the factor 0.679 for
`RR FM` in the docstring of `htotdev`; the factor 0.69 for `RWFM` in the docstring of `mtotdev` is too large. -/
theorem bias2_limit : Tendsto bias2 atTop (𝓝 (2709331 / 3991680)) ∧ |(2709331 / 3991680 : ℝ) - 0.679| < 0.0005 ∧
    ∀ᶠ m in atTop, bias2 m / 0.69 < 0.985 := by
  have hz : Tendsto (fun m : ℕ => 1 / (m : ℝ)) atTop (𝓝 0) := tendsto_one_div_atTop_nhds_zero_nat
  have key : ∀ (F : ℝ → ℝ) (f : ℕ → ℝ) (l : ℝ), ContinuousAt F 0 → F 0 = l → (∀ m : ℕ, 0 < m → f m = F (1 / m)) →
      Tendsto f atTop (𝓝 l) := by
    intro F f l hF h0 hf
    have h1 := hF.tendsto.comp hz
    rw [h0] at h1
    refine h1.congr' ?_
    filter_upwards [eventually_gt_atTop 0] with m hm
    exact (hf m hm).symm
  have join : ∀ (f e o : ℕ → ℝ) (l : ℝ), Tendsto e atTop (𝓝 l) → Tendsto o atTop (𝓝 l) →
      (∀ m, f m = if m % 2 = 0 then e m else o m) → Tendsto f atTop (𝓝 l) := by
    intro f e o l he ho hf
    rw [Metric.tendsto_atTop] at *
    intro ε hε
    obtain ⟨a, ha⟩ := he ε hε
    obtain ⟨b, hb⟩ := ho ε hε
    refine ⟨max a b, fun m hm => ?_⟩
    rw [hf]
    split_ifs
    · exact ha m (le_of_max_le_left hm)
    · exact hb m (le_of_max_le_right hm)
  have hl : Tendsto bias2 atTop (𝓝 (2709331 / 3991680)) := by
    refine join bias2 _ _ _ ?_ ?_ fun m => rfl
    · refine key (fun z => (8127993 + 4194120 * z ^ 2 + 2706704 * z ^ 4 - 126720 * z ^ 6 - 28672 * z ^ 8) /
        (1088640 * (11 + 5 * z ^ 2 + 4 * z ^ 4))) _ _
        (by apply ContinuousAt.div <;> [fun_prop; fun_prop; norm_num]) (by norm_num) fun m hm => ?_
      have hm' : (0 : ℝ) < m := by exact_mod_cast hm
      have e : 11 + 5 * (1 / (m : ℝ)) ^ 2 + 4 * (1 / (m : ℝ)) ^ 4 = (11 * (m : ℝ) ^ 4 + 5 * m ^ 2 + 4) / m ^ 4 := by field_simp
      rw [e]
      field_simp
    · refine key (fun z => (24383979 + 6859865 * z ^ 2 + 5162542 * z ^ 4 - 12931790 * z ^ 6 + 2451479 * z ^ 8 - 121275 * z ^ 10) /
        (40320 * (9 - z ^ 2) ^ 2 * (11 + 5 * z ^ 2 + 4 * z ^ 4))) _ _
        (by apply ContinuousAt.div <;> [fun_prop; fun_prop; norm_num]) (by norm_num) fun m hm => ?_
      have hm' : (0 : ℝ) < m := by exact_mod_cast hm
      have h9 : 9 * (m : ℝ) ^ 2 - 1 ≠ 0 := by
        have : (1 : ℝ) ≤ m := by exact_mod_cast hm
        nlinarith
      have e : 9 - (1 / (m : ℝ)) ^ 2 = (9 * (m : ℝ) ^ 2 - 1) / m ^ 2 := by field_simp
      have e' : 11 + 5 * (1 / (m : ℝ)) ^ 2 + 4 * (1 / (m : ℝ)) ^ 4 = (11 * (m : ℝ) ^ 4 + 5 * m ^ 2 + 4) / m ^ 4 := by field_simp
      rw [e, e']
      field_simp
  refine ⟨hl, by norm_num [abs_lt], ?_⟩
  filter_upwards [hl.eventually_lt_const (u := 0.679) (by norm_num)] with m a
  rw [div_lt_iff₀ (by norm_num)]; norm_num; linarith

end AT
