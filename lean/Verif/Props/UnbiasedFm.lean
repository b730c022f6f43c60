import Verif.Props.Unbiased

/-!
# C70, frequency data: expected squares of the deviations of white frequency noise
-/

namespace AT

open Spec Finset MeasureTheory ProbabilityTheory

variable {Ω : Type} [MeasurableSpace Ω] {P : Measure Ω}

/-- the phase that `frequency2phase` makes of `N` frequency values -/
noncomputable def phaseOf (y : ℕ → ℝ) (N : ℕ) (rate : ℝ) (i : ℕ) : ℝ :=
  (∑ j ∈ range i, (y j - (∑ k ∈ range N, y k) / N)) / rate

theorem frequency2phase_phaseOf (y : ℕ → ℝ) (N : ℕ) (hN : 0 < N) (rate : ℝ) (hr : rate ≠ 0) :
    frequency2phase (tab N y) rate = .ok (tab (N + 1) (phaseOf y N rate)) := by
  rw [frequency2phase_eq _ (by intro e; have := congrArg List.length e; simp at this; omega) rate hr,
    tab_length]
  congr 1
  apply tab_congr
  intro i hi
  unfold phaseOf
  congr 1
  apply sum_congr rfl
  intro j hj
  rw [mem_range] at hj
  rw [seq_tab N y (by omega), mean_eq, tab_length]
  congr 2
  exact sum_congr rfl (fun k hk => seq_tab N y (mem_range.1 hk))

omit [MeasurableSpace Ω] in
theorem reports_freq (fn : DevName) (Y : ℕ → Ω → ℝ) (N : ℕ) (rate : ℝ) (hr : 0 < rate) (Q : ℕ → (Ω → ℝ) → Prop)
    (hv : ∀ m, Usable fn (N + 1) m →
      Q m (fun ω => value fn (phaseOf (fun i => Y i ω) N rate) (N + 1) rate m)) :
    Reports fn (fun ω => tab N (fun i => Y i ω)) rate "freq" Q := by
  rcases Nat.eq_zero_or_pos N with rfl | hN
  · intro taus ω₀ o₀ ho
    rw [run_freq] at ho
    simp [frequency2phase, hr.ne', tab, error_bind] at ho
  have h := reports_phase fn (fun i ω => phaseOf (fun i => Y i ω) N rate i) (N + 1) rate hr Q hv
  intro taus ω₀ o₀ ho
  have hrun : ∀ ω, fn.run (tab N (fun i => Y i ω)) rate "freq" taus =
      fn.run (tab (N + 1) (fun i => phaseOf (fun i => Y i ω) N rate i)) rate "phase" taus := by
    intro ω
    rw [run_freq, frequency2phase_phaseOf _ N hN rate hr.ne', ok_bind]
  simp only [hrun] at ho ⊢
  exact h taus ω₀ o₀ ho

theorem expects_freq (fn : DevName) (Y : ℕ → Ω → ℝ) (N : ℕ) (rate : ℝ) (hr : 0 < rate) (v : ℕ → ℝ)
    (hv : ∀ m, Usable fn (N + 1) m →
      MeanSq P (fun ω => value fn (phaseOf (fun i => Y i ω) N rate) (N + 1) rate m) (v m)) :
    Expects P fn (fun ω => tab N (fun i => Y i ω)) rate "freq" v :=
  reports_freq fn Y N rate hr _ hv

/-! ## Differences of the phase as sums of frequencies -/

/-- an increment of that phase -/
noncomputable def incr (y : ℕ → ℝ) (N : ℕ) (rate : ℝ) (i : ℕ) : ℝ :=
  (y i - (∑ k ∈ range N, y k) / N) / rate

theorem phaseOf_add (y : ℕ → ℝ) (N : ℕ) (rate : ℝ) (i k : ℕ) :
    phaseOf y N rate (i + k) = phaseOf y N rate i
      + ∑ s ∈ range k, incr y N rate (i + s) := by
  unfold phaseOf incr
  rw [sum_range_add, add_div, ← sum_div]

/-- an increment of the phase -/
theorem phase_step {x u : ℕ → ℝ} (hx : ∀ i k, x (i + k) = x i + ∑ s ∈ range k, u (i + s)) (i m : ℕ) :
    x (i + m) - x i = ∑ s ∈ range m, u (i + s) := by rw [hx]; ring

theorem d2_step {x u : ℕ → ℝ} (hx : ∀ i k, x (i + k) = x i + ∑ s ∈ range k, u (i + s)) (m i : ℕ) :
    d2 x m i = ∑ b ∈ range 2, ∑ k ∈ range m, (if b = 0 then -1 else 1) * u (i + b * m + k) := by
  have h1 := phase_step hx i m
  have h2 := phase_step hx (i + m) m
  have e : i + m + m = i + 2 * m := by ring
  rw [e] at h2
  simp only [sum_range_succ, sum_range_zero, ← mul_sum]
  simp only [zero_mul, one_mul, if_true, one_ne_zero, if_false, add_zero]
  rw [← h1, ← h2]
  unfold d2
  ring

theorem d3_step {x u : ℕ → ℝ} (hx : ∀ i k, x (i + k) = x i + ∑ s ∈ range k, u (i + s)) (m i : ℕ) :
    d3 x m i = ∑ b ∈ range 3, ∑ k ∈ range m, (if b = 1 then -2 else 1) * u (i + b * m + k) := by
  have h1 := phase_step hx i m
  have h2 := phase_step hx (i + m) m
  have h3 := phase_step hx (i + 2 * m) m
  have e : i + m + m = i + 2 * m := by ring
  have e' : i + 2 * m + m = i + 3 * m := by ring
  rw [e] at h2
  rw [e'] at h3
  simp only [sum_range_succ, sum_range_zero, ← mul_sum]
  simp only [zero_mul, one_mul, if_true, zero_ne_one, OfNat.ofNat_ne_one, if_false, add_zero]
  rw [← h1, ← h2, ← h3]
  unfold d3
  ring

/-- a sum of `m` phase values: summation by parts -/
theorem block_step {x u : ℕ → ℝ} (hx : ∀ i k, x (i + k) = x i + ∑ s ∈ range k, u (i + s)) (i m : ℕ) :
    ∑ k ∈ range m, x (i + k) = m * x i + ∑ s ∈ range m, ((m : ℝ) - 1 - s) * u (i + s) := by
  induction m with
  | zero => simp
  | succ m ih =>
    rw [sum_range_succ, ih, hx i m, sum_range_succ]
    have : ∑ s ∈ range m, (((m + 1 : ℕ) : ℝ) - 1 - s) * u (i + s)
        = ∑ s ∈ range m, ((m : ℝ) - 1 - s) * u (i + s) + ∑ s ∈ range m, u (i + s) := by
      rw [← sum_add_distrib]
      refine sum_congr rfl (fun s _ => ?_)
      push_cast; ring
    rw [this]
    push_cast; ring

/-- weights of the frequencies in a term of the modified Allan variance -/
noncomputable def mdevWeight (m b k : ℕ) : ℝ :=
  if b = 0 then -(k + 1) else if b = 1 then 2 * k + 2 - m else m - 1 - k

theorem mdev_step {x u : ℕ → ℝ} (hx : ∀ i k, x (i + k) = x i + ∑ s ∈ range k, u (i + s)) (m j : ℕ) :
    ∑ i ∈ range m, d2 x m (j + i) =
      ∑ b ∈ range 3, ∑ k ∈ range m, mdevWeight m b k * u (j + b * m + k) := by
  have e : ∑ i ∈ range m, d2 x m (j + i) = ∑ k ∈ range m, x (j + 2 * m + k)
      - 2 * ∑ k ∈ range m, x (j + m + k) + ∑ k ∈ range m, x (j + k) := by
    rw [mul_sum, ← sum_sub_distrib, ← sum_add_distrib]
    refine sum_congr rfl (fun i _ => ?_)
    unfold d2
    rw [show j + i + 2 * m = j + 2 * m + i by ring, show j + i + m = j + m + i by ring]
  rw [e, block_step hx, block_step hx, block_step hx, hx j m,
    show j + 2 * m = (j + m) + m by ring, hx (j + m) m, hx j m]
  simp only [sum_range_succ, sum_range_zero, mdevWeight]
  simp only [zero_mul, one_mul, if_true, one_ne_zero, OfNat.ofNat_ne_zero, OfNat.ofNat_ne_one, if_false,
    add_zero, zero_add]
  rw [show j + 2 * m = j + m + m by ring]
  have key : ∀ (c : ℝ) (f : ℕ → ℝ), c * ∑ s ∈ range m, f s = ∑ s ∈ range m, c * f s := fun c f => mul_sum _ _ _
  have h0 : ∑ k ∈ range m, -((k : ℝ) + 1) * u (j + k) = ∑ s ∈ range m, ((m : ℝ) - 1 - s) * u (j + s)
      - m * ∑ s ∈ range m, u (j + s) := by
    rw [key, ← sum_sub_distrib]
    exact sum_congr rfl (fun s _ => by ring)
  have h1 : ∑ k ∈ range m, (2 * (k : ℝ) + 2 - m) * u (j + m + k)
      = m * ∑ s ∈ range m, u (j + m + s) - 2 * ∑ s ∈ range m, ((m : ℝ) - 1 - s) * u (j + m + s) := by
    rw [key, key, ← sum_sub_distrib]
    exact sum_congr rfl (fun s _ => by ring)
  rw [h0, h1]
  ring

theorem pdev_parts {x u : ℕ → ℝ} (hx : ∀ i k, x (i + k) = x i + ∑ s ∈ range k, u (i + s)) (i m n : ℕ) :
    ∑ k ∈ range n, (((m : ℝ) - 1) / 2 - k) * x (i + k) = (n : ℝ) * (m - n) / 2 * x i
      + ∑ s ∈ range n, ((n : ℝ) * (m - n) - (s + 1) * (m - 1 - s)) / 2 * u (i + s) := by
  induction n with
  | zero => simp
  | succ n ih =>
    rw [sum_range_succ, ih, hx i n, sum_range_succ]
    have : ∑ s ∈ range n, (((n + 1 : ℕ) : ℝ) * (m - (n + 1 : ℕ)) - (s + 1) * (m - 1 - s)) / 2 * u (i + s)
        = ∑ s ∈ range n, ((n : ℝ) * (m - n) - (s + 1) * (m - 1 - s)) / 2 * u (i + s)
          + (((m : ℝ) - 1) / 2 - n) * ∑ s ∈ range n, u (i + s) := by
      rw [mul_sum, ← sum_add_distrib]
      refine sum_congr rfl (fun s _ => ?_)
      push_cast; ring
    rw [this]
    push_cast; ring

theorem pdev_step {x u : ℕ → ℝ} (hx : ∀ i k, x (i + k) = x i + ∑ s ∈ range k, u (i + s)) (m i : ℕ) :
    ∑ k ∈ range m, (((m : ℝ) - 1) / 2 - (k : ℝ)) * (x (i + k) - x (i + m + k)) =
      ∑ b ∈ range 2, ∑ k ∈ range m,
        ((if b = 0 then -1 else 1) * (((k : ℝ) + 1) * (m - 1 - k) / 2)) * u (i + b * m + k) := by
  have e : ∑ k ∈ range m, (((m : ℝ) - 1) / 2 - (k : ℝ)) * (x (i + k) - x (i + m + k))
      = ∑ k ∈ range m, (((m : ℝ) - 1) / 2 - k) * x (i + k)
        - ∑ k ∈ range m, (((m : ℝ) - 1) / 2 - k) * x (i + m + k) := by
    rw [← sum_sub_distrib]
    exact sum_congr rfl (fun k _ => by ring)
  rw [e, pdev_parts hx i m m, pdev_parts hx (i + m) m m]
  simp only [sum_range_succ, sum_range_zero]
  simp only [zero_mul, one_mul, if_true, one_ne_zero, if_false, add_zero, sub_self, mul_zero, zero_div,
    zero_add]
  rw [sub_eq_add_neg, ← sum_neg_distrib]
  congr 1 <;> exact sum_congr rfl (fun k _ => by ring)

theorem theo1_step {x u : ℕ → ℝ} (hx : ∀ i k, x (i + k) = x i + ∑ s ∈ range k, u (i + s)) (p d i : ℕ)
    (hd : d ≤ p) : (x i - x (i + p - d)) + (x (i + (p + p)) - x (i + p + d)) =
      ∑ b ∈ range 2, ∑ k ∈ range (p - d), (if b = 0 then -1 else 1) * u (i + b * (p + d) + k) := by
  have h1 := phase_step hx i (p - d)
  have h2 := phase_step hx (i + p + d) (p - d)
  have e : i + p + d + (p - d) = i + (p + p) := by omega
  have e1 : i + (p - d) = i + p - d := by omega
  rw [e] at h2
  rw [e1] at h1
  simp only [sum_range_succ, sum_range_zero, ← mul_sum]
  simp only [zero_mul, one_mul, if_true, one_ne_zero, if_false, add_zero]
  rw [show i + (p + d) = i + p + d by ring, ← h1, ← h2]
  ring

/-! ## Sums of squared weights -/

theorem mdevWeight_sum (m : ℕ) : ∑ b ∈ range 3, ∑ k ∈ range m, mdevWeight m b k = 0 := by
  simp only [sum_range_succ, sum_range_zero, mdevWeight]
  simp only [if_true, one_ne_zero, OfNat.ofNat_ne_zero, OfNat.ofNat_ne_one, if_false, zero_add]
  rw [← sum_add_distrib, ← sum_add_distrib]
  exact sum_eq_zero (fun k _ => by ring)

theorem mdevWeight_sq (m : ℕ) :
    ∑ b ∈ range 3, ∑ k ∈ range m, mdevWeight m b k ^ 2 = (m : ℝ) * ((m : ℝ) ^ 2 + 1) := by
  simp only [sum_range_succ, sum_range_zero, mdevWeight]
  simp only [if_true, one_ne_zero, OfNat.ofNat_ne_zero, OfNat.ofNat_ne_one, if_false, zero_add]
  rw [← sum_add_distrib, ← sum_add_distrib]
  have h : ∀ (a : ℝ) (n : ℕ), ∑ k ∈ range n, ((-((k : ℝ) + 1)) ^ 2 + (2 * (k : ℝ) + 2 - a) ^ 2 + (a - 1 - k) ^ 2)
      = (n : ℝ) * (n - 1) * (2 * n - 1) + (n - 1) * n * (6 - 3 * a) + n * (1 + (2 - a) ^ 2 + (a - 1) ^ 2) := by
    intro a n
    induction n with
    | zero => simp
    | succ n ih => rw [sum_range_succ, ih]; push_cast; ring
  rw [h]
  ring

theorem pdevWeight_sq (m : ℕ) :
    ∑ k ∈ range m, (((k : ℝ) + 1) * (m - 1 - k) / 2) ^ 2 = (m : ℝ) * ((m : ℝ) ^ 4 - 1) / 120 := by
  have h : ∀ (a : ℝ) (n : ℕ), ∑ k ∈ range n, (((k : ℝ) + 1) * (a - 1 - k) / 2) ^ 2
      = (a ^ 2 * (n * (n + 1) * (2 * n + 1) / 6) - 2 * a * (n ^ 2 * (n + 1) ^ 2 / 4)
        + n * (n + 1) * (2 * n + 1) * (3 * n ^ 2 + 3 * n - 1) / 30) / 4 := by
    intro a n
    induction n with
    | zero => simp
    | succ n ih => rw [sum_range_succ, ih]; push_cast; ring
  rw [h]
  ring

/-! ## White frequency noise -/

variable [IsProbabilityMeasure P]

/-- a form without constant part does not see the mean that is removed -/
theorem blocks_fm {Y : ℕ → Ω → ℝ} {N : ℕ} {c s2 : ℝ} (h : White P Y N c s2) {m w j : ℕ}
    (hw : m ≤ w) (q : ℕ) (a : ℕ → ℕ → ℝ) (hj : ∀ b < q, ∀ k < m, a b k ≠ 0 → j + b * w + k < N)
    (ha : ∑ b ∈ range q, ∑ k ∈ range m, a b k = 0) (M : Ω → ℝ) (rate : ℝ) :
    MeanSq P (fun ω => ∑ b ∈ range q, ∑ k ∈ range m, a b k * ((Y (j + b * w + k) ω - M ω) / rate))
      (s2 * (∑ b ∈ range q, ∑ k ∈ range m, a b k ^ 2) / rate ^ 2) := by
  have h1 := meanSq_const_mul (1 / rate) (blocks_white h hw q a hj)
  rw [ha] at h1
  have e : (1 / rate) ^ 2 * (s2 * ∑ b ∈ range q, ∑ k ∈ range m, a b k ^ 2 + c ^ 2 * 0 ^ 2)
      = s2 * (∑ b ∈ range q, ∑ k ∈ range m, a b k ^ 2) / rate ^ 2 := by ring
  rw [e] at h1
  refine meanSq_congr (fun ω => ?_) h1
  congr 1
  have e1 : ∑ b ∈ range q, ∑ k ∈ range m, a b k * ((Y (j + b * w + k) ω - M ω) / rate)
      = 1 / rate * ∑ b ∈ range q, ∑ k ∈ range m, a b k * Y (j + b * w + k) ω
        - M ω / rate * ∑ b ∈ range q, ∑ k ∈ range m, a b k := by
    simp only [mul_sum]
    rw [← sum_sub_distrib]
    refine sum_congr rfl (fun b _ => ?_)
    rw [← sum_sub_distrib]
    exact sum_congr rfl (fun k _ => by ring)
  rw [e1, ha, mul_zero, sub_zero]

theorem d2_decimated (x : ℕ → ℝ) (m i : ℕ) : d2 (fun k => x (k * m)) 1 i = d2 x m (i * m) := by
  unfold d2
  simp only
  rw [show (i + 2 * 1) * m = i * m + 2 * m by ring, show (i + 1) * m = i * m + m by ring]

theorem d3_decimated (x : ℕ → ℝ) (m i : ℕ) : d3 (fun k => x (k * m)) 1 i = d3 x m (i * m) := by
  unfold d3
  simp only
  rw [show (i + 3 * 1) * m = i * m + 3 * m by ring, show (i + 2 * 1) * m = i * m + 2 * m by ring,
    show (i + 1) * m = i * m + m by ring]

section freq

variable {Y : ℕ → Ω → ℝ} {N : ℕ} {c s2 : ℝ} (h : White P Y N c s2) (rate : ℝ)

include h

theorem d2_fm (m i : ℕ) (hi : i + 2 * m ≤ N) :
    MeanSq P (fun ω => d2 (phaseOf (fun i => Y i ω) N rate) m i) (2 * m * s2 / rate ^ 2) := by
  have h1 := blocks_fm h (le_refl m) (j := i) 2 (fun b _ => if b = 0 then -1 else 1)
    (fun b hb k hk _ => block_lt (show i + (2 - 1) * m + m ≤ N by omega) hb hk)
    (by simp [sum_range_succ]) (fun ω => (∑ k ∈ range N, Y k ω) / N) rate
  have e : s2 * (∑ b ∈ range 2, ∑ _k ∈ range m, (if b = 0 then (-1 : ℝ) else 1) ^ 2) / rate ^ 2
      = 2 * m * s2 / rate ^ 2 := by
    simp [sum_range_succ]; ring
  rw [e] at h1
  exact meanSq_congr (fun ω => by rw [d2_step (u := incr (fun i => Y i ω) N rate) (phaseOf_add _ N rate)]; rfl) h1

theorem d3_fm (m i : ℕ) (hi : i + 3 * m ≤ N) :
    MeanSq P (fun ω => d3 (phaseOf (fun i => Y i ω) N rate) m i) (6 * m * s2 / rate ^ 2) := by
  have h1 := blocks_fm h (le_refl m) (j := i) 3 (fun b _ => if b = 1 then -2 else 1)
    (fun b hb k hk _ => block_lt (show i + (3 - 1) * m + m ≤ N by omega) hb hk)
    (by simp [sum_range_succ]; ring) (fun ω => (∑ k ∈ range N, Y k ω) / N) rate
  have e : s2 * (∑ b ∈ range 3, ∑ _k ∈ range m, (if b = 1 then (-2 : ℝ) else 1) ^ 2) / rate ^ 2
      = 6 * m * s2 / rate ^ 2 := by
    simp [sum_range_succ]; ring
  rw [e] at h1
  exact meanSq_congr (fun ω => by rw [d3_step (u := incr (fun i => Y i ω) N rate) (phaseOf_add _ N rate)]; rfl) h1

theorem mdev_fm (m j : ℕ) (hj : j + 3 * m ≤ N + 1) :
    MeanSq P (fun ω => ∑ i ∈ range m, d2 (phaseOf (fun i => Y i ω) N rate) m (j + i))
      (m * (m ^ 2 + 1) * s2 / rate ^ 2) := by
  have h1 := blocks_fm h (le_refl m) (j := j) 3 (mdevWeight m)
    (fun b hb k hk ha => by
      by_cases hlast : b = 2 ∧ k = m - 1
      · obtain ⟨rfl, rfl⟩ := hlast
        exfalso
        apply ha
        simp only [mdevWeight, OfNat.ofNat_ne_zero, OfNat.ofNat_ne_one, if_false]
        rw [Nat.cast_sub (by omega)]
        push_cast; ring
      · have h3 : b = 0 ∨ b = 1 ∨ b = 2 := by omega
        rcases h3 with rfl | rfl | rfl <;> omega)
    (mdevWeight_sum m) (fun ω => (∑ k ∈ range N, Y k ω) / N) rate
  rw [mdevWeight_sq] at h1
  have e : s2 * ((m : ℝ) * ((m : ℝ) ^ 2 + 1)) / rate ^ 2 = m * (m ^ 2 + 1) * s2 / rate ^ 2 := by ring
  rw [e] at h1
  exact meanSq_congr (fun ω => by
    rw [mdev_step (u := incr (fun i => Y i ω) N rate) (phaseOf_add _ N rate)]; rfl) h1

theorem pdev_fm (m i : ℕ) (hi : i + 2 * m ≤ N) :
    MeanSq P (fun ω => ∑ k ∈ range m, (((m : ℝ) - 1) / 2 - (k : ℝ)) *
        (phaseOf (fun i => Y i ω) N rate (i + k) - phaseOf (fun i => Y i ω) N rate (i + m + k)))
      (m * (m ^ 4 - 1) / 60 * s2 / rate ^ 2) := by
  have h1 := blocks_fm h (le_refl m) (j := i) 2
    (fun b k => (if b = 0 then -1 else 1) * (((k : ℝ) + 1) * (m - 1 - k) / 2))
    (fun b hb k hk _ => block_lt (show i + (2 - 1) * m + m ≤ N by omega) hb hk)
    (by simp [sum_range_succ]) (fun ω => (∑ k ∈ range N, Y k ω) / N) rate
  have e : s2 * (∑ b ∈ range 2, ∑ k ∈ range m,
      ((if b = 0 then (-1 : ℝ) else 1) * (((k : ℝ) + 1) * (m - 1 - k) / 2)) ^ 2) / rate ^ 2
      = m * (m ^ 4 - 1) / 60 * s2 / rate ^ 2 := by
    simp only [mul_pow, ← mul_sum, pdevWeight_sq, sum_range_succ, sum_range_zero]
    simp only [if_true, one_ne_zero, if_false]
    ring
  rw [e] at h1
  exact meanSq_congr (fun ω => by
    rw [pdev_step (u := incr (fun i => Y i ω) N rate) (phaseOf_add _ N rate)]; rfl) h1

theorem theo1_fm (m i d : ℕ) (he : Even m) (hi : i + m ≤ N) (hd : d < m / 2) :
    MeanSq P (fun ω => (phaseOf (fun i => Y i ω) N rate i - phaseOf (fun i => Y i ω) N rate (i + m / 2 - d))
        + (phaseOf (fun i => Y i ω) N rate (i + m) - phaseOf (fun i => Y i ω) N rate (i + m / 2 + d)))
      (2 * ((m / 2 : ℕ) - d) * s2 / rate ^ 2) := by
  obtain ⟨p, rfl⟩ := he
  have hp : (p + p) / 2 = p := by omega
  rw [hp] at hd ⊢
  have h1 := blocks_fm h (show p - d ≤ p + d by omega) (j := i) 2 (fun b _ => if b = 0 then -1 else 1)
    (fun b hb k hk _ => block_lt (show i + (2 - 1) * (p + d) + (p - d) ≤ N by omega) hb hk)
    (by simp [sum_range_succ]) (fun ω => (∑ k ∈ range N, Y k ω) / N) rate
  have e : s2 * (∑ b ∈ range 2, ∑ _k ∈ range (p - d), (if b = 0 then (-1 : ℝ) else 1) ^ 2) / rate ^ 2
      = 2 * ((p : ℝ) - d) * s2 / rate ^ 2 := by
    simp [sum_range_succ, Nat.cast_sub hd.le]; ring
  rw [e] at h1
  exact meanSq_congr (fun ω => by
    rw [theo1_step (u := incr (fun i => Y i ω) N rate) (phaseOf_add _ N rate) p d i hd.le]; rfl) h1

/-! ## The statistics -/

variable (hr : 0 < rate)

include hr

theorem oadev_value_fm (m : ℕ) (hu : Usable .oadev (N + 1) m) :
    MeanSq P (fun ω => value .oadev (phaseOf (fun i => Y i ω) N rate) (N + 1) rate m) (s2 / m) := by
  obtain ⟨hm, -, -, -, hc⟩ := hu
  have hc' : 1 < ((N + 1 : ℕ) : ℤ) - 2 * m := hc
  have hm' : (0 : ℝ) < m := by exact_mod_cast hm
  have h1 := meanSq_rms' (P := P) (n := N + 1 - 2 * m)
    (f := fun i ω => d2 (phaseOf (fun i => Y i ω) N rate) m i)
    (norm := 2 * (m / rate) ^ 2 * ((N + 1 : ℕ) - 2 * m)) (v := 2 * m * s2 / rate ^ 2)
    (k := 2 * (m / rate) ^ 2) (by omega)
    (by positivity) (by rw [Nat.cast_sub (by omega)]; push_cast; ring) (fun i hi => d2_fm h rate m i (by omega))
  have e : 2 * m * s2 / rate ^ 2 / (2 * (m / rate) ^ 2) = s2 / m := by field_simp
  rw [e] at h1
  exact h1

theorem adev_value_fm (m : ℕ) (hu : Usable .adev (N + 1) m) :
    MeanSq P (fun ω => value .adev (phaseOf (fun i => Y i ω) N rate) (N + 1) rate m) (s2 / m) := by
  have hN := hu.pos
  obtain ⟨hm, -, -, -, hc⟩ := hu
  have hc' : 1 < (decimated (N + 1) m : ℤ) - 2 := hc
  have hm' : (0 : ℝ) < m := by exact_mod_cast hm
  have h1 := meanSq_rms' (P := P) (n := decimated (N + 1) m - 2)
    (f := fun i ω => d2 (fun k => phaseOf (fun i => Y i ω) N rate (k * m)) 1 i)
    (norm := 2 * (m / rate) ^ 2 * (decimated (N + 1) m - 2)) (v := 2 * m * s2 / rate ^ 2)
    (k := 2 * (m / rate) ^ 2) (by omega)
    (by positivity) (by rw [Nat.cast_sub (by omega)]; push_cast; ring)
    (fun i hi => by
      have : (i + 2) * m < N + 1 := decimated_lt hm hN (by omega)
      have h2 := d2_fm h rate m (i * m) (by rw [add_mul] at this; omega)
      exact meanSq_congr (fun ω => by rw [d2_decimated]) h2)
  have e : 2 * m * s2 / rate ^ 2 / (2 * (m / rate) ^ 2) = s2 / m := by field_simp
  rw [e] at h1
  exact h1

theorem ohdev_value_fm (m : ℕ) (hu : Usable .ohdev (N + 1) m) :
    MeanSq P (fun ω => value .ohdev (phaseOf (fun i => Y i ω) N rate) (N + 1) rate m) (s2 / m) := by
  obtain ⟨hm, -, -, -, hc⟩ := hu
  have hc' : 1 < ((N + 1 : ℕ) : ℤ) - 3 * m := hc
  have hm' : (0 : ℝ) < m := by exact_mod_cast hm
  have h1 := meanSq_rms' (P := P) (n := N + 1 - 3 * m)
    (f := fun i ω => d3 (phaseOf (fun i => Y i ω) N rate) m i)
    (norm := 6 * (m / rate) ^ 2 * ((N + 1 : ℕ) - 3 * m)) (v := 6 * m * s2 / rate ^ 2)
    (k := 6 * (m / rate) ^ 2) (by omega)
    (by positivity) (by rw [Nat.cast_sub (by omega)]; push_cast; ring) (fun i hi => d3_fm h rate m i (by omega))
  have e : 6 * m * s2 / rate ^ 2 / (6 * (m / rate) ^ 2) = s2 / m := by field_simp
  rw [e] at h1
  exact h1

theorem hdev_value_fm (m : ℕ) (hu : Usable .hdev (N + 1) m) :
    MeanSq P (fun ω => value .hdev (phaseOf (fun i => Y i ω) N rate) (N + 1) rate m) (s2 / m) := by
  have hN := hu.pos
  obtain ⟨hm, -, -, -, hc⟩ := hu
  have hc' : 1 < (decimated (N + 1) m : ℤ) - 3 := hc
  have hm' : (0 : ℝ) < m := by exact_mod_cast hm
  have h1 := meanSq_rms' (P := P) (n := decimated (N + 1) m - 3)
    (f := fun i ω => d3 (fun k => phaseOf (fun i => Y i ω) N rate (k * m)) 1 i)
    (norm := 6 * (m / rate) ^ 2 * (decimated (N + 1) m - 3)) (v := 6 * m * s2 / rate ^ 2)
    (k := 6 * (m / rate) ^ 2) (by omega)
    (by positivity) (by rw [Nat.cast_sub (by omega)]; push_cast; ring)
    (fun i hi => by
      have : (i + 3) * m < N + 1 := decimated_lt hm hN (by omega)
      have h2 := d3_fm h rate m (i * m) (by rw [add_mul] at this; omega)
      exact meanSq_congr (fun ω => by rw [d3_decimated]) h2)
  have e : 6 * m * s2 / rate ^ 2 / (6 * (m / rate) ^ 2) = s2 / m := by field_simp
  rw [e] at h1
  exact h1

theorem mdev_value_fm (m : ℕ) (hm : 0 < m) (hc : 1 < ((N + 1 : ℕ) : ℤ) - 3 * m + 1) :
    MeanSq P (fun ω => Spec.mdev (phaseOf (fun i => Y i ω) N rate) (N + 1) m (m / rate))
      ((m ^ 2 + 1) / (2 * m ^ 3) * s2) := by
  have hm' : (0 : ℝ) < m := by exact_mod_cast hm
  have h1 := meanSq_rms' (P := P) (n := N + 1 - 3 * m + 1)
    (f := fun j ω => ∑ i ∈ range m, d2 (phaseOf (fun i => Y i ω) N rate) m (j + i))
    (norm := 2 * m ^ 2 * (m / rate) ^ 2 * ((N + 1 : ℕ) - 3 * m + 1)) (v := m * (m ^ 2 + 1) * s2 / rate ^ 2)
    (k := 2 * m ^ 2 * (m / rate) ^ 2)
    (by omega) (by positivity) (by
      rw [Nat.cast_add (N + 1 - 3 * m), Nat.cast_sub (show 3 * m ≤ N + 1 by omega)]; push_cast; ring)
    (fun i hi => mdev_fm h rate m i (by omega))
  have e : m * (m ^ 2 + 1) * s2 / rate ^ 2 / (2 * m ^ 2 * (m / rate) ^ 2)
      = ((m : ℝ) ^ 2 + 1) / (2 * m ^ 3) * s2 := by
    field_simp
  rw [e] at h1
  exact h1

theorem pdev_value_fm (m : ℕ) (hu : Usable .pdev (N + 1) m) :
    MeanSq P (fun ω => value .pdev (phaseOf (fun i => Y i ω) N rate) (N + 1) rate m)
      (if m = 1 then s2 else 6 / 5 * (1 - 1 / m ^ 4) * s2 / m) := by
  obtain ⟨hm, hl, hx, -, hc⟩ := hu
  have hc' : 1 < ((N + 1 : ℕ) : ℤ) - 2 * m := hc
  by_cases h1 : m = 1
  · subst h1
    rw [if_pos rfl]
    have h2 := oadev_value_fm h rate hr 1 ⟨hm, hl, hx, by simp, hc⟩
    simp only [Nat.cast_one, div_one] at h2
    refine meanSq_congr (fun ω => ?_) h2
    simp [value, Spec.pdev]
  rw [if_neg h1]
  have hm' : (0 : ℝ) < m := by exact_mod_cast hm
  have h2 := meanSq_rms' (P := P) (n := N + 1 - 2 * m)
    (f := fun i ω => ∑ k ∈ range m, (((m : ℝ) - 1) / 2 - (k : ℝ)) *
        (phaseOf (fun i => Y i ω) N rate (i + k) - phaseOf (fun i => Y i ω) N rate (i + m + k)))
    (norm := ((N + 1 : ℕ) - 2 * m) * (m : ℝ) ^ 4 * (m / rate) ^ 2 / 72)
    (v := m * (m ^ 4 - 1) / 60 * s2 / rate ^ 2)
    (k := (m : ℝ) ^ 4 * (m / rate) ^ 2 / 72)
    (by omega) (by positivity) (by rw [Nat.cast_sub (by omega)]; push_cast; ring)
    (fun i hi => pdev_fm h rate m i (by omega))
  have e : (m : ℝ) * (m ^ 4 - 1) / 60 * s2 / rate ^ 2 / ((m : ℝ) ^ 4 * (m / rate) ^ 2 / 72)
      = 6 / 5 * (1 - 1 / m ^ 4) * s2 / m := by field_simp; ring
  rw [e] at h2
  refine meanSq_congr (fun ω => ?_) h2
  simp only [value, Spec.pdev, if_neg h1, rms]
  congr 2
  rw [mul_comm (72 : ℝ), div_div_eq_mul_div]

theorem theo1_value_fm (m : ℕ) (hu : Usable .theo1 (N + 1) m) :
    MeanSq P (fun ω => value .theo1 (phaseOf (fun i => Y i ω) N rate) (N + 1) rate m) (s2 / (3 / 4 * m)) := by
  obtain ⟨hm, hl, -, he, hc⟩ := hu
  have he := he rfl
  have hl' : m < N + 1 := hl
  have hm' : (0 : ℝ) < m := by exact_mod_cast hm
  have h1 := meanSq_theo1 (P := P) (n := N + 1 - m) (q := m / 2)
    (f := fun i d ω => (phaseOf (fun i => Y i ω) N rate i - phaseOf (fun i => Y i ω) N rate (i + m / 2 - d))
        + (phaseOf (fun i => Y i ω) N rate (i + m) - phaseOf (fun i => Y i ω) N rate (i + m / 2 + d)))
    (norm := 3 / 4 * ((N + 1 : ℕ) - m) * (m / rate) ^ 2)
    (v := fun d => 2 * ((m / 2 : ℕ) - d) * s2 / rate ^ 2) (k := 3 / 4 * (m / rate) ^ 2)
    (by omega) (by positivity) (by rw [Nat.cast_sub (by omega)]; ring)
    (fun i hi d hd => theo1_fm h rate m i d he (by omega) hd)
  have e1 : ∑ d ∈ range (m / 2), 2 * (((m / 2 : ℕ) : ℝ) - d) * s2 / rate ^ 2 / (((m / 2 : ℕ) : ℝ) - d)
      = m * s2 / rate ^ 2 := by
    rw [sum_congr rfl (g := fun _ => 2 * s2 / rate ^ 2) (fun d hd => by
      have : (d : ℝ) < ((m / 2 : ℕ) : ℝ) := by exact_mod_cast mem_range.1 hd
      have h2 : ((m / 2 : ℕ) : ℝ) - d ≠ 0 := by linarith
      field_simp), sum_const, card_range, nsmul_eq_mul]
    obtain ⟨p, rfl⟩ := he
    have : (p + p) / 2 = p := by omega
    rw [this]; push_cast; ring
  rw [e1] at h1
  have e : m * s2 / rate ^ 2 / (3 / 4 * (m / rate) ^ 2) = s2 / (3 / 4 * m) := by field_simp
  rw [e] at h1
  exact h1

end freq

end AT
