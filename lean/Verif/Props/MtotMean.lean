import Verif.Lemmas.TotCoef
import Verif.Props.Settle
import Verif.Props.KasdinMean

/-!
# C102: the expected values of `mtotdev`, `ttotdev` and `htotdev`
-/

namespace AT

open Finset Spec MeasureTheory ProbabilityTheory

variable {Ω : Type} [MeasurableSpace Ω] {P : Measure Ω}

/-- `totTerm` in terms of the forms -/
theorem totTerm_tf (s : ℕ → ℝ) (m : ℕ) :
    totTerm s m = (∑ j ∈ range (6 * m), (tf m s j - halfSlope s m 1 * tr m j) ^ 2) / (6 * m ^ 3) := by
  unfold totTerm
  simp only
  have h : ∀ j ∈ range (6 * m), ((∑ k ∈ range m, d2 (mirror (fun k => s k - halfSlope s m 1 * k) (3 * m)) m (j + k)) / m) ^ 2 =
      (tf m s j - halfSlope s m 1 * tr m j) ^ 2 / m ^ 2 := fun j _ => by
    have e : (fun k : ℕ => s k - halfSlope s m 1 * k) = fun k : ℕ => s k + (-halfSlope s m 1) * (k : ℝ) := by
      funext k; ring
    rw [div_pow]
    congr 2
    show tf m (fun k => s k - halfSlope s m 1 * k) j = _
    rw [e, tf_add, tf_mul]
    unfold tr
    ring
  rw [sum_congr rfl h, ← sum_div, div_div]
  congr 1
  ring

/-- the mean of `totTerm` of a combination of white noise -/
theorem tot_mean [IsProbabilityMeasure P] {W : ℕ → Ω → ℝ} {N n m i : ℕ} {c s2 : ℝ} (h : White P W N c s2) (hn : i + n ≤ N)
    (a : ℕ → ℕ → ℝ) (s : ℕ → Ω → ℝ)
    (ha : ∀ ω, ∀ j < 6 * m, tf m (fun k => s k ω) j - halfSlope (fun k => s k ω) m 1 * tr m j = ∑ k ∈ range n, a k j * W (i + k) ω)
    (h0 : ∀ j < 6 * m, c * ∑ k ∈ range n, a k j = 0) :
    Integrable (fun ω => totTerm (fun k => s k ω) m) P ∧
    ∫ ω, totTerm (fun k => s k ω) m ∂P = s2 * (∑ k ∈ range n, ∑ j ∈ range (6 * m), a k j ^ 2) / (6 * m ^ 3) := by
  have key : ∀ j ∈ range (6 * m), MeanSq P (fun ω => tf m (fun k => s k ω) j - halfSlope (fun k => s k ω) m 1 * tr m j)
      (s2 * ∑ k ∈ range n, a k j ^ 2) := fun j hj => by
    have h1 := h.meanSq_sum (range n) (fun k => i + k) (fun k => a k j) (fun x _ y _ e => by simpa using e)
      (fun k hk => by have := mem_range.1 hk; omega)
    rw [← mul_pow, h0 j (mem_range.1 hj)] at h1
    simp only [ha _ j (mem_range.1 hj)]
    convert h1 using 1
    ring
  simp only [totTerm_tf]
  constructor
  · exact (integrable_finsetSum _ fun j hj => (key j hj).1).div_const _
  · rw [integral_div, integral_finsetSum _ fun j hj => (key j hj).1, sum_congr rfl fun j hj => (key j hj).2, ← mul_sum, sum_comm]

/-- white points -/
theorem tot_white [IsProbabilityMeasure P] {W : ℕ → Ω → ℝ} {N m i : ℕ} {c s2 : ℝ} (h : White P W N c s2) (hm : 0 < m)
    (hi : i + 3 * m ≤ N) :
    Integrable (fun ω => totTerm (fun k => W (i + k) ω) m) P ∧
    ∫ ω, totTerm (fun k => W (i + k) ω) m ∂P = 6 * s2 / m * bias0 m := by
  have hm' : (0 : ℝ) < m := by exact_mod_cast hm
  have hone : ∀ s : ℕ → ℝ, ∀ k < 3 * m, s k = ∑ i ∈ range (3 * m), s i * unit i k := fun s k hk => by
    unfold unit
    simp only [mul_ite, mul_one, mul_zero]
    rw [sum_ite_eq, if_pos (mem_range.2 hk)]
  have h1 := tot_mean h hi (fun k j => tf m (unit k) j - tc m k * tr m j) (fun k ω => W (i + k) ω) (fun ω j hj => by
    rw [tf_congr hj (hone _), tf_sum, halfSlope_tc, sum_mul, ← sum_sub_distrib]
    exact sum_congr rfl fun k _ => by ring) (fun j hj => mul_eq_zero_of_right _ <| by
    rw [sum_sub_distrib, ← sum_mul]
    have h2 : ∑ k ∈ range (3 * m), tc m k = 0 := psum_tc_all m
    have h3 := tf_congr hj (hone (fun _ => 1))
    rw [tf_const, tf_sum] at h3
    simp only [one_mul] at h3
    rw [h2, ← h3]; ring)
  refine ⟨h1.1, h1.2.trans ?_⟩
  rw [white_total hm]
  field_simp
  ring

/-- white increments -/
theorem tot_walk [IsProbabilityMeasure P] {X U : ℕ → Ω → ℝ} {N m i : ℕ} {c s2 : ℝ} (hX : ∀ k < 3 * m - 1, ∀ ω, X (k + 1) ω - X k ω = U (i + k) ω)
    (h : White P U N c s2) (hm : 0 < m) (hi : i + (3 * m - 1) ≤ N) :
    Integrable (fun ω => totTerm (fun k => X k ω) m) P ∧
    ∫ ω, totTerm (fun k => X k ω) m ∂P = s2 * (m ^ 2 + 1) / m * bias1 m := by
  have hm' : (0 : ℝ) < m := by exact_mod_cast hm
  have hs : ∀ ω, ∀ k < 3 * m, X k ω = X 0 ω + ∑ t ∈ range (3 * m - 1), U (i + t) ω * step (t + 1) k := by
    intro ω k
    induction k with
    | zero => intro _; simp [step]
    | succ k ih =>
      intro hk
      have h1 := hX k (by omega) ω
      have h2 : ∑ t ∈ range (3 * m - 1), U (i + t) ω * step (t + 1) (k + 1) =
          ∑ t ∈ range (3 * m - 1), U (i + t) ω * step (t + 1) k + U (i + k) ω := by
        have : ∀ t ∈ range (3 * m - 1), U (i + t) ω * step (t + 1) (k + 1) =
            U (i + t) ω * step (t + 1) k + if t = k then U (i + t) ω else 0 := fun t _ => by
          unfold step
          rcases lt_trichotomy t k with c | c | c
          · rw [if_pos (by omega), if_pos (by omega), if_neg (by omega)]; ring
          · rw [if_pos (by omega), if_neg (by omega), if_pos c]; ring
          · rw [if_neg (by omega), if_neg (by omega), if_neg (by omega)]; ring
        rw [sum_congr rfl this, sum_add_distrib, sum_ite_eq', if_pos (mem_range.2 (by omega))]
      rw [h2]
      have := ih (by omega)
      linarith
  have hslope : ∀ ω, halfSlope (fun k => X k ω) m 1 = ∑ t ∈ range (3 * m - 1), U (i + t) ω * tb m (t + 1) := fun ω => by
    rw [halfSlope_tc, sum_congr rfl (fun k hk => by rw [hs ω k (mem_range.1 hk), mul_add, mul_sum]), sum_add_distrib,
      ← sum_mul]
    have h2 : ∑ k ∈ range (3 * m), tc m k = 0 := psum_tc_all m
    rw [h2, zero_mul, zero_add, sum_comm]
    refine sum_congr rfl fun t ht => ?_
    have := mem_range.1 ht
    rw [← halfSlope_step (by omega), halfSlope_tc, mul_sum]
    exact sum_congr rfl fun k _ => by ring
  have h1 := tot_mean h hi (fun t j => tf m (step (t + 1)) j - tb m (t + 1) * tr m j) X (fun ω j hj => by
    rw [tf_congr hj (hs ω), tf_add m (fun _ => X 0 ω), tf_const, tf_sum, hslope, sum_mul, zero_add, ← sum_sub_distrib]
    exact sum_congr rfl fun k _ => by ring) (fun j hj => mul_eq_zero_of_right _ <| by
    rw [sum_sub_distrib, ← sum_mul]
    have h2 : ∑ t ∈ range (3 * m - 1), tb m (t + 1) = 1 := by
      have h3 := sum_range_succ' (tb m) (3 * m - 1)
      rw [show 3 * m - 1 + 1 = 3 * m by omega] at h3
      have h4 : ∑ k ∈ range (3 * m), tb m k = 1 := tb_sum hm
      have h5 : tb m 0 = 0 := by simp [tb, psum]
      rw [h4, h5] at h3
      linarith
    have h3 : tr m j = ∑ t ∈ range (3 * m - 1), tf m (step (t + 1)) j := by
      have e : ∀ k < 3 * m, (k : ℝ) = ∑ t ∈ range (3 * m - 1), 1 * step (t + 1) k := fun k hk => by
        have h3 := sum_range_add (fun t => 1 * step (t + 1) k) k (3 * m - 1 - k)
        rw [show k + (3 * m - 1 - k) = 3 * m - 1 by omega] at h3
        rw [h3, sum_eq_zero (s := range (3 * m - 1 - k)) (fun t _ => by unfold step; rw [if_neg (by omega), mul_zero]), add_zero,
          sum_congr (g := fun _ => 1) rfl (fun t ht => by unfold step; rw [if_pos (by have := mem_range.1 ht; omega), mul_one])]
        simp
      unfold tr
      rw [tf_congr hj e, tf_sum]
      simp only [one_mul]
    rw [h2, ← h3]; ring)
  refine ⟨h1.1, h1.2.trans ?_⟩
  have h2 := sum_range_succ' (fun s => ∑ j ∈ range (6 * m), (tf m (step s) j - tb m s * tr m j) ^ 2) (3 * m - 1)
  rw [show 3 * m - 1 + 1 = 3 * m by omega, walk_total hm] at h2
  have h3 : ∑ j ∈ range (6 * m), (tf m (step 0) j - tb m 0 * tr m j) ^ 2 = 0 := by
    refine sum_eq_zero fun j _ => ?_
    have e1 : step 0 = fun _ => 1 := by funext k; simp [step]
    have e2 : tb m 0 = 0 := by simp [tb, psum]
    rw [e1, tf_const, e2]; ring
  rw [h3, add_zero] at h2
  rw [← h2]
  field_simp

/-! ## From the terms to the deviations -/

/-- the mean square of a deviation from the means of its terms -/
theorem value_mean (fn : DevName) (h1 : fn ≠ .mtie) (h2 : fn ≠ .totdev) {X : Ω → ℕ → ℝ} {N m : ℕ} {rate : ℝ} (hr : 0 < rate)
    (hu : Usable fn N m) {v : ℝ}
    (hv : ∀ i < summands fn N m, Integrable (fun ω => unitTerm fn rate m (fun k => X ω (i * hop fn m + k))) P ∧
      ∫ ω, unitTerm fn rate m (fun k => X ω (i * hop fn m + k)) ∂P = v) :
    MeanSq P (fun ω => value fn (X ω) N rate m) v := by
  have hp : (0 : ℝ) < summands fn N m := by exact_mod_cast summands_pos' hu
  unfold MeanSq
  simp only [value_terms fn h1 h2 _ hr hu]
  constructor
  · exact (integrable_finsetSum _ fun i hi => (hv i (mem_range.1 hi)).1).const_mul _
  · rw [integral_const_mul, integral_finsetSum _ fun i hi => (hv i (mem_range.1 hi)).1,
      sum_congr rfl fun i hi => (hv i (mem_range.1 hi)).2, sum_const, card_range, nsmul_eq_mul]
    field_simp

theorem mtot_usable {N m : ℕ} {fn : DevName} (hfn : fn = .mtotdev ∨ fn = .ttotdev) (hu : Usable fn N m) {i : ℕ} (hi : i < summands fn N m) :
    0 < m ∧ i + 3 * m ≤ N := by
  obtain ⟨hm, hl, hx, he, hc⟩ := hu
  rcases hfn with rfl | rfl <;> simp only [count, summands] at * <;> exact ⟨hm, by omega⟩

theorem htot_usable {N m : ℕ} (hu : Usable .htotdev N m) {i : ℕ} (hi : i < summands .htotdev N m) :
    0 < m ∧ i + 3 * m + 1 ≤ N := by
  obtain ⟨hm, hl, hx, he, hc⟩ := hu
  simp only [summands] at *
  exact ⟨hm, by omega⟩

/-- a phase from frequencies, up to a straight line -/
theorem phaseOf_line (y : ℕ → ℝ) (N : ℕ) (rate : ℝ) (i : ℕ) : (fun k => phaseOf y N rate (i + k)) =
    fun k => 1 / rate * ∑ s ∈ range k, y (i + s) + (phaseOf y N rate i + -((∑ k ∈ range N, y k) / N / rate) * (k : ℝ)) := by
  funext k
  rw [phaseOf_add]
  unfold incr
  rw [← sum_div, sum_sub_distrib, sum_const, card_range, nsmul_eq_mul]
  ring

theorem freqOf_phaseOf (y : ℕ → ℝ) (N : ℕ) {rate : ℝ} (hr : 0 < rate) (i : ℕ) :
    Spec.freqOf (fun k => phaseOf y N rate (i + k)) rate = fun k => y (i + k) + (-((∑ k ∈ range N, y k) / N) + 0 * (k : ℝ)) := by
  funext k
  have h := phaseOf_add y N rate (i + k) 1
  simp only [sum_range_one, add_zero, incr] at h
  unfold Spec.freqOf
  simp only
  rw [← add_assoc i k 1, h]
  field_simp
  ring

variable [IsProbabilityMeasure P]

/-- **C102, white phase noise** of variance `s2` (any mean): the expected values of `mtotdev²` and `ttotdev²`
are those of `mdev²` and `tdev²` times `bias0 m`. -/
theorem mtot_white_phase {W : ℕ → Ω → ℝ} {N : ℕ} {c s2 : ℝ} (h : White P W N c s2) {rate : ℝ} (hr : 0 < rate) :
    Expects P .mtotdev (fun ω => tab N (fun i => W i ω)) rate "phase" (fun m => bias0 m * (3 * s2 / (m * (m / rate) ^ 2))) ∧
    Expects P .ttotdev (fun ω => tab N (fun i => W i ω)) rate "phase" (fun m => bias0 m * (s2 / m)) := by
  refine ⟨expects_phase _ _ _ _ hr _ fun m hu => ?_, expects_phase _ _ _ _ hr _ fun m hu => ?_⟩
  · refine value_mean .mtotdev (by simp) (by simp) (X := fun ω i => W i ω) hr hu fun i hi => ?_
    obtain ⟨hm, hN⟩ := mtot_usable (Or.inl rfl) hu hi
    have hm' : (0 : ℝ) < m := by exact_mod_cast hm
    have := tot_white h hm hN
    simp only [unitTerm, hop, mul_one]
    refine ⟨this.1.div_const _, ?_⟩
    rw [integral_div, this.2]
    field_simp
    ring
  · refine value_mean .ttotdev (by simp) (by simp) (X := fun ω i => W i ω) hr hu fun i hi => ?_
    obtain ⟨hm, hN⟩ := mtot_usable (Or.inr rfl) hu hi
    have hm' : (0 : ℝ) < m := by exact_mod_cast hm
    have := tot_white h hm hN
    simp only [unitTerm, hop, mul_one]
    refine ⟨(this.1.div_const _).const_mul _, ?_⟩
    rw [integral_const_mul, integral_div, this.2]
    field_simp
    ring

example := mtot_white_phase (P := gaussNoise) (W := fun i ω => ω i) (white_gauss 9) (rate := 10) (by norm_num)

theorem tot_fm {Y : ℕ → Ω → ℝ} {N m i : ℕ} {c s2 : ℝ} (h : White P Y N c s2) {rate : ℝ} (hm : 0 < m)
    (hi : i + 3 * m ≤ N + 1) :
    Integrable (fun ω => totTerm (fun k => phaseOf (fun i => Y i ω) N rate (i + k)) m) P ∧
    ∫ ω, totTerm (fun k => phaseOf (fun i => Y i ω) N rate (i + k)) m ∂P = s2 / rate ^ 2 * (m ^ 2 + 1) / m * bias1 m := by
  have h1 := tot_walk (P := P) (X := fun k ω => ∑ s ∈ range k, Y (i + s) ω) (U := Y) (N := N) (m := m) (i := i) (c := c) (s2 := s2)
    (fun k _ ω => by rw [sum_range_succ]; ring) h hm (by omega)
  have e : ∀ ω, totTerm (fun k => phaseOf (fun i => Y i ω) N rate (i + k)) m =
      (1 / rate) ^ 2 * totTerm (fun k => ∑ s ∈ range k, Y (i + s) ω) m := fun ω => by
    rw [phaseOf_line, totTerm_affine _ _ _ _ hm, totTerm_scale]
  simp only [e]
  refine ⟨h1.1.const_mul _, ?_⟩
  rw [integral_const_mul, h1.2]
  ring

/-- **C102, white frequency noise** of variance `s2` (any mean): the expected values of `mtotdev²` and `ttotdev²`
are those of `mdev²` and `tdev²` times `bias1 m`, that of `htotdev²` is for `m > 1` that of `ohdev²` times
`bias0 m`. -/
theorem mtot_white_freq {Y : ℕ → Ω → ℝ} {N : ℕ} {c s2 : ℝ} (h : White P Y N c s2) {rate : ℝ} (hr : 0 < rate) :
    Expects P .mtotdev (fun ω => tab N (fun i => Y i ω)) rate "freq" (fun m => bias1 m * ((m ^ 2 + 1) / (2 * m ^ 3) * s2)) ∧
    Expects P .ttotdev (fun ω => tab N (fun i => Y i ω)) rate "freq" (fun m => bias1 m * ((m ^ 2 + 1) / (6 * m) * s2 / rate ^ 2)) ∧
    Expects P .htotdev (fun ω => tab N (fun i => Y i ω)) rate "freq" (fun m => if m = 1 then s2 else bias0 m * (s2 / m)) := by
  refine ⟨expects_freq _ _ _ _ hr _ fun m hu => ?_, expects_freq _ _ _ _ hr _ fun m hu => ?_, expects_freq _ _ _ _ hr _ fun m hu => ?_⟩
  · refine value_mean .mtotdev (by simp) (by simp) (X := fun ω => phaseOf (fun i => Y i ω) N rate) hr hu fun i hi => ?_
    obtain ⟨hm, hN⟩ := mtot_usable (Or.inl rfl) hu hi
    have hm' : (0 : ℝ) < m := by exact_mod_cast hm
    have := tot_fm h (rate := rate) hm hN
    simp only [unitTerm, hop, mul_one]
    refine ⟨this.1.div_const _, ?_⟩
    rw [integral_div, this.2]
    field_simp
  · refine value_mean .ttotdev (by simp) (by simp) (X := fun ω => phaseOf (fun i => Y i ω) N rate) hr hu fun i hi => ?_
    obtain ⟨hm, hN⟩ := mtot_usable (Or.inr rfl) hu hi
    have hm' : (0 : ℝ) < m := by exact_mod_cast hm
    have := tot_fm h (rate := rate) hm hN
    simp only [unitTerm, hop, mul_one]
    refine ⟨(this.1.div_const _).const_mul _, ?_⟩
    rw [integral_const_mul, integral_div, this.2]
    field_simp
    ring
  · by_cases h1 : m = 1
    · have h2 := ohdev_value_fm h rate hr m (by
        obtain ⟨hm, hl, hx, he, hc⟩ := hu
        subst h1
        refine ⟨hm, ?_, ?_, ?_, ?_⟩ <;> simp_all [count, lenOf, maxOf, htotCount]
        all_goals omega)
      subst h1
      simp only [value, htotdev', if_true] at h2 ⊢
      simpa using h2
    · rw [if_neg h1]
      refine value_mean .htotdev (by simp) (by simp) (X := fun ω => phaseOf (fun i => Y i ω) N rate) hr hu fun i hi => ?_
      obtain ⟨hm, hN⟩ := htot_usable hu hi
      have hm' : (0 : ℝ) < m := by exact_mod_cast hm
      have := tot_white h hm (by omega : i + 3 * m ≤ N)
      simp only [unitTerm, hop, mul_one, if_neg h1, freqOf_phaseOf _ N hr, totTerm_affine _ _ _ _ hm]
      refine ⟨this.1.div_const _, ?_⟩
      rw [integral_div, this.2]
      field_simp

example := mtot_white_freq (P := gaussNoise) (Y := fun i ω => ω i) (white_gauss 9) (rate := 10) (by norm_num)

/-- **C102, random walk frequency noise**: frequencies whose increments are white with variance `s2` (and any mean,
so that there may be a linear drift): the expected value of `htotdev²` is for `m > 1` that of `ohdev²` times
`bias1 m`. -/
theorem htot_walk_freq {N : ℕ} {c s2 rate : ℝ} {Y W : ℕ → Ω → ℝ} (hY : ∀ i ω, Y (i + 1) ω - Y i ω = W i ω)
    (hW : White P W (N - 1) c s2) (hr : 0 < rate) :
    Expects P .htotdev (fun ω => tab N (fun i => Y i ω)) rate "freq" (fun m => if m = 1 then s2 / 3 else bias1 m * ((m ^ 2 + 1) / (6 * m) * s2)) := by
  refine expects_freq _ _ _ _ hr _ fun m hu => ?_
  by_cases h1 : m = 1
  · have hX : ∀ ω i, phaseOf (fun i => Y i ω) N rate (i + 2) - 2 * phaseOf (fun i => Y i ω) N rate (i + 1)
        + phaseOf (fun i => Y i ω) N rate i = 1 / rate * W i ω := by
      intro ω i
      have h1 := phaseOf_add (fun i => Y i ω) N rate (i + 1) 1
      have h2 := phaseOf_add (fun i => Y i ω) N rate i 1
      simp only [sum_range_one, add_zero, incr] at h1 h2
      rw [show i + 2 = i + 1 + 1 by ring, h1, h2, ← hY]
      ring
    have hU : White P (fun i ω => 1 / rate * W i ω) (N + 1 - 2) (1 / rate * c) (s2 / rate ^ 2) := by
      have h := hW.const_mul (1 / rate)
      rw [show (1 / rate) ^ 2 * s2 = s2 / rate ^ 2 by ring] at h
      rwa [show N + 1 - 2 = N - 1 by omega]
    have hu' : Usable .ohdev (N + 1) m := by
      obtain ⟨hm, hl, hx, he, hc⟩ := hu
      subst h1
      refine ⟨hm, ?_, ?_, ?_, ?_⟩ <;> simp_all [count, lenOf, maxOf, htotCount]
      all_goals omega
    have h2 := ohdev_of_d3 hr hu' (d3_run hX hU m)
    subst h1
    simp only [value, htotdev', if_true] at h2 ⊢
    have e : (((1 : ℕ) : ℝ)) * (((1 : ℕ) : ℝ) ^ 2 + 1) * (s2 / rate ^ 2) / (6 * (((1 : ℕ) : ℝ) / rate) ^ 2) = s2 / 3 := by
      push_cast; field_simp; ring
    exact e ▸ h2
  · rw [if_neg h1]
    refine value_mean .htotdev (by simp) (by simp) (X := fun ω => phaseOf (fun i => Y i ω) N rate) hr hu fun i hi => ?_
    obtain ⟨hm, hN⟩ := htot_usable hu hi
    have hm' : (0 : ℝ) < m := by exact_mod_cast hm
    have := tot_walk (P := P) (X := fun k ω => Y (i + k) ω) (U := W) (i := i) (m := m) (fun k _ ω => hY (i + k) ω) hW hm (by omega)
    simp only [unitTerm, hop, mul_one, if_neg h1, freqOf_phaseOf _ N hr, totTerm_affine _ _ _ _ hm]
    refine ⟨this.1.div_const _, ?_⟩
    rw [integral_div, this.2]
    field_simp

example := htot_walk_freq (P := gaussNoise) (N := 9) (s2 := 1) (rate := 10) (Y := fun i ω => ∑ j ∈ range i, ω j)
  (W := fun i ω => ω i) (fun i ω => by rw [sum_range_succ]; ring) (white_gauss 8) (by norm_num)

/-! ## The size of the bias -/

/-- **C102**: the deviations are too small on average, by at most a factor 2 in the square. -/
theorem bias_range {m : ℕ} (hm : 0 < m) : 1 / 2 ≤ bias0 m ∧ bias0 m < 1 ∧ 1 / 2 ≤ bias1 m ∧ bias1 m < 1 := by
  obtain ⟨p, rfl | rfl⟩ := m.even_or_odd'
  · have hp : (1 : ℝ) ≤ p := by exact_mod_cast (by omega : 1 ≤ p)
    obtain ⟨t, ht, e⟩ : ∃ t : ℝ, 0 ≤ t ∧ (p : ℝ) = t + 1 := ⟨p - 1, by linarith, by ring⟩
    unfold bias0 bias1
    rw [if_pos (by omega), if_pos (by omega)]
    push_cast
    rw [e]
    refine ⟨?_, ?_, ?_, ?_⟩
    · rw [le_div_iff₀ (by positivity), ← sub_nonneg]; ring_nf; positivity
    · rw [div_lt_one (by positivity), ← sub_pos]; ring_nf; positivity
    · rw [le_div_iff₀ (by positivity), ← sub_nonneg]; ring_nf; positivity
    · rw [div_lt_one (by positivity), ← sub_pos]; ring_nf; positivity
  · have hp : (0 : ℝ) ≤ p := Nat.cast_nonneg p
    unfold bias0 bias1
    rw [if_neg (by omega), if_neg (by omega)]
    push_cast
    have e : 9 * (2 * (p : ℝ) + 1) ^ 2 - 1 = 4 * ((3 * p + 1) * (3 * p + 2)) := by ring
    rw [e]
    refine ⟨?_, ?_, ?_, ?_⟩
    · rw [le_div_iff₀ (by positivity), ← sub_nonneg]; ring_nf; positivity
    · rw [div_lt_one (by positivity), ← sub_pos]; ring_nf; positivity
    · rw [le_div_iff₀ (by positivity), ← sub_nonneg]; ring_nf; positivity
    · rw [div_lt_one (by positivity), ← sub_pos]; ring_nf; positivity

/-- **C102**: at `m = 1` the square of `mtotdev` and `ttotdev` is half of what it should be, for white phase noise
and for white frequency noise. -/
theorem bias_one : bias0 1 = 1 / 2 ∧ bias1 1 = 1 / 2 := by
  unfold bias0 bias1
  norm_num

open Filter Topology in
/-- **C102**: for long averaging times the biases approach numbers that are, to three digits, the factors 0.995 for
`W FM` and 0.771 for `RW FM` in the docstring of `htotdev`. -/
theorem bias_limit : Tendsto bias0 atTop (𝓝 (4837 / 4860)) ∧ Tendsto bias1 atTop (𝓝 (4993 / 6480)) ∧
    |(4837 / 4860 : ℝ) - 0.995| < 0.0005 ∧ |(4993 / 6480 : ℝ) - 0.771| < 0.0005 := by
  have hz : Tendsto (fun m : ℕ => 1 / (m : ℝ)) atTop (𝓝 0) := tendsto_one_div_atTop_nhds_zero_nat
  have key : ∀ (F : ℝ → ℝ) (f : ℕ → ℝ) (l : ℝ), ContinuousAt F 0 → F 0 = l → (∀ m : ℕ, 0 < m → f m = F (1 / m)) →
      Tendsto f atTop (𝓝 l) := by
    intro F f l hF h0 hf
    have h1 := hF.tendsto.comp hz
    rw [h0] at h1
    refine h1.congr' ?_
    filter_upwards [eventually_gt_atTop 0] with m hm
    exact (hf m hm).symm
  have join : ∀ (f e o : ℕ → ℝ) (l : ℝ), Tendsto e atTop (𝓝 l) → Tendsto o atTop (𝓝 l) →
      (∀ m, f m = if m % 2 = 0 then e m else o m) → Tendsto f atTop (𝓝 l) := by
    intro f e o l he ho hf
    rw [Metric.tendsto_atTop] at *
    intro ε hε
    obtain ⟨a, ha⟩ := he ε hε
    obtain ⟨b, hb⟩ := ho ε hε
    refine ⟨max a b, fun m hm => ?_⟩
    rw [hf]
    split_ifs
    · exact ha m (le_of_max_le_left hm)
    · exact hb m (le_of_max_le_right hm)
  refine ⟨join bias0 _ _ _ ?_ ?_ fun m => rfl, join bias1 _ _ _ ?_ ?_ fun m => rfl, by norm_num [abs_lt], by norm_num [abs_lt]⟩
  · refine key (fun z => (4837 + 60 * z ^ 2 - 32 * z ^ 4) / 4860) _ _ (by fun_prop) (by norm_num) fun m hm => ?_
    have hm' : (0 : ℝ) < m := by exact_mod_cast hm
    field_simp
  · refine key (fun z => (14511 - 352 * z - 9685 * z ^ 2 + 1309 * z ^ 4 + 32 * z ^ 5 - 55 * z ^ 6) / (180 * (9 - z ^ 2) ^ 2)) _ _
      (by apply ContinuousAt.div <;> [fun_prop; fun_prop; norm_num]) (by norm_num) fun m hm => ?_
    have hm' : (0 : ℝ) < m := by exact_mod_cast hm
    have h9 : 9 * (m : ℝ) ^ 2 - 1 ≠ 0 := by
      have : (1 : ℝ) ≤ m := by exact_mod_cast hm
      nlinarith
    have e : 9 - (1 / (m : ℝ)) ^ 2 = (9 * (m : ℝ) ^ 2 - 1) / m ^ 2 := by field_simp
    rw [e]
    field_simp
  · refine key (fun z => (14979 + 19348 * z ^ 2 - 384 * z ^ 4 - 128 * z ^ 6) / (19440 * (1 + z ^ 2))) _ _
      (by apply ContinuousAt.div <;> [fun_prop; fun_prop; norm_num]) (by norm_num) fun m hm => ?_
    have hm' : (0 : ℝ) < m := by exact_mod_cast hm
    have e : 1 + (1 / (m : ℝ)) ^ 2 = ((m : ℝ) ^ 2 + 1) / m ^ 2 := by field_simp
    rw [e]
    field_simp
  · refine key (fun z => (44937 + 45722 * z ^ 2 - 53092 * z ^ 4 + 8918 * z ^ 6 - 405 * z ^ 8) / (720 * (9 - z ^ 2) ^ 2 * (1 + z ^ 2))) _ _
      (by apply ContinuousAt.div <;> [fun_prop; fun_prop; norm_num]) (by norm_num) fun m hm => ?_
    have hm' : (0 : ℝ) < m := by exact_mod_cast hm
    have h9 : 9 * (m : ℝ) ^ 2 - 1 ≠ 0 := by
      have : (1 : ℝ) ≤ m := by exact_mod_cast hm
      nlinarith
    have e : 9 - (1 / (m : ℝ)) ^ 2 = (9 * (m : ℝ) ^ 2 - 1) / m ^ 2 := by field_simp
    have e' : 1 + (1 / (m : ℝ)) ^ 2 = ((m : ℝ) ^ 2 + 1) / m ^ 2 := by field_simp
    rw [e, e']
    field_simp

/-- **C102**: dividing by the factors 0.94 for `WPM` and 0.73 for `WFM` in the docstring of `mtotdev` would not
make it unbiased: for long averaging times the squares would be at least 5% too large. -/
theorem bias_mtot : ∀ᶠ m in Filter.atTop, 1.05 < bias0 m / 0.94 ∧ 1.05 < bias1 m / 0.73 := by
  obtain ⟨h0, h1, -, -⟩ := bias_limit
  filter_upwards [h0.eventually_const_lt (u := 0.99) (by norm_num), h1.eventually_const_lt (u := 0.77) (by norm_num)] with m a b
  constructor
  · rw [lt_div_iff₀ (by norm_num)]; norm_num; linarith
  · rw [lt_div_iff₀ (by norm_num)]; norm_num; linarith

end AT
