import Verif.Lemmas.QForm
import Verif.Props.EdfExact
import Verif.Props.Shape

/-!
# C75: the estimates settle as the record of white noise gets longer
-/

namespace AT

open Spec Finset MeasureTheory ProbabilityTheory Filter
open scoped NNReal ENNReal

/-- number of terms that are averaged -/
def Spec.summands (fn : DevName) (N m : ℕ) : ℕ :=
  match fn with
  | .adev => decimated N m - 2
  | .hdev => decimated N m - 3
  | .oadev | .pdev => N - 2 * m
  | .ohdev | .htotdev => N - 3 * m
  | .mdev | .tdev | .mtotdev | .ttotdev => N - 3 * m + 1
  | .totdev => N - 2
  | .theo1 | .tierms | .mtie => N - m

/-- a term shares samples with at most this many of the terms that follow it -/
def Spec.overlap (fn : DevName) (m : ℕ) : ℕ :=
  match fn with
  | .adev => 2
  | .hdev => 3
  | .oadev | .pdev => 2 * m
  | .theo1 | .tierms => m
  | _ => 3 * m

/-- number of samples in a term -/
def window (fn : DevName) (m : ℕ) : ℕ :=
  match fn with
  | .adev | .oadev | .pdev => 2 * m + 1
  | .hdev | .ohdev | .htotdev => 3 * m + 1
  | .theo1 | .tierms => m + 1
  | _ => 3 * m

/-- distance of the terms -/
def hop (fn : DevName) (m : ℕ) : ℕ :=
  match fn with
  | .adev | .hdev => m
  | _ => 1

/-- the first term -/
noncomputable def unitTerm (fn : DevName) (rate : ℝ) (m : ℕ) (x : ℕ → ℝ) : ℝ :=
  let τ := (m : ℝ) / rate
  match fn with
  | .adev | .oadev => d2 x m 0 ^ 2 / (2 * τ ^ 2)
  | .mdev => (∑ i ∈ range m, d2 x m i) ^ 2 / (2 * m ^ 2 * τ ^ 2)
  | .tdev => τ ^ 2 / 3 * ((∑ i ∈ range m, d2 x m i) ^ 2 / (2 * m ^ 2 * τ ^ 2))
  | .hdev | .ohdev => d3 x m 0 ^ 2 / (6 * τ ^ 2)
  | .pdev => if m = 1 then d2 x m 0 ^ 2 / (2 * τ ^ 2)
      else 72 * ((∑ k ∈ range m, (((m : ℝ) - 1) / 2 - (k : ℝ)) * (x k - x (m + k))) ^ 2 / ((m : ℝ) ^ 4 * τ ^ 2))
  | .mtotdev => totTerm x m / (2 * τ ^ 2)
  | .ttotdev => τ ^ 2 / 3 * (totTerm x m / (2 * τ ^ 2))
  | .htotdev => if m = 1 then d3 x m 0 ^ 2 / (6 * τ ^ 2) else totTerm (freqOf x rate) m / 6
  | .theo1 => (∑ d ∈ range (m / 2), ((x 0 - x (m / 2 - d)) + (x m - x (m / 2 + d))) ^ 2 / ((m / 2 : ℕ) - d)) / (3 / 4 * τ ^ 2)
  | .tierms => (x m - x 0) ^ 2
  | _ => 0

theorem d2_shift (x : ℕ → ℝ) (m i j : ℕ) : d2 (fun k => x (i * 1 + k)) m j = d2 x m (i + j) := by
  unfold d2
  simp only [mul_one, add_assoc]

theorem d3_shift (x : ℕ → ℝ) (m i j : ℕ) : d3 (fun k => x (i * 1 + k)) m j = d3 x m (i + j) := by
  unfold d3
  simp only [mul_one, add_assoc]

theorem d2_shift' (x : ℕ → ℝ) (m i j : ℕ) : d2 (fun k => x (i * m + k)) m j = d2 x m (i * m + j) := by
  unfold d2
  simp only [add_assoc]

theorem d3_shift' (x : ℕ → ℝ) (m i j : ℕ) : d3 (fun k => x (i * m + k)) m j = d3 x m (i * m + j) := by
  unfold d3
  simp only [add_assoc]

theorem avg_terms {n : ℕ} (hn : 0 < n) {f g : ℕ → ℝ} {norm k : ℝ} (hk : 0 < k) (hnorm : norm = k * n)
    (hfg : ∀ i < n, g i = f i / k) (hf : ∀ i, 0 ≤ f i) :
    √((∑ i ∈ range n, f i) / norm) ^ 2 = 1 / n * ∑ i ∈ range n, g i := by
  have hn' : (0 : ℝ) < n := by exact_mod_cast hn
  rw [Real.sq_sqrt (div_nonneg (sum_nonneg fun i _ => hf i) (by rw [hnorm]; positivity)), hnorm,
    sum_congr rfl (fun i hi => hfg i (mem_range.1 hi)), ← sum_div]
  field_simp

theorem totTerm_nonneg (s : ℕ → ℝ) (m : ℕ) : 0 ≤ totTerm s m := by
  unfold totTerm
  exact div_nonneg (sum_nonneg fun _ _ => sq_nonneg _) (by positivity)

theorem summands_pos {fn : DevName} (h : fn ≠ .theo1) {N m : ℕ} (hu : Usable fn N m) : 1 < summands fn N m := by
  obtain ⟨hm, hl, hx, he, hc⟩ := hu
  cases fn <;> simp only [count, summands, lenOf, maxOf, htotCount, ne_eq, reduceCtorEq, not_false_eq_true, not_true_eq_false,
    if_true, if_false] at *
  all_goals omega

theorem summands_pos' {fn : DevName} {N m : ℕ} (hu : Usable fn N m) : 0 < summands fn N m := by
  by_cases h : fn = .theo1
  · subst h
    obtain ⟨hm, hl, -⟩ := hu
    simp only [lenOf, reduceCtorEq, if_false] at hl
    simp only [summands]
    omega
  · exact (summands_pos h hu).le

/-- the square of a deviation is the average of its terms -/
theorem value_terms (fn : DevName) (h1 : fn ≠ .mtie) (h2 : fn ≠ .totdev) (x : ℕ → ℝ) {N m : ℕ} {rate : ℝ} (hr : 0 < rate)
    (hu : Usable fn N m) :
    value fn x N rate m ^ 2 = 1 / (summands fn N m : ℕ)
      * ∑ i ∈ range (summands fn N m), unitTerm fn rate m (fun k => x (i * hop fn m + k)) := by
  have hpos := summands_pos' hu
  have hm : 0 < m := hu.1
  have hm' : (0 : ℝ) < m := by exact_mod_cast hm
  have hc := hu.2.2.2.2
  have hx := hu.2.2.1
  have hl := hu.2.1
  have mdevCase : 1 < (N : ℤ) - 3 * m + 1 → Spec.mdev x N m (m / rate) ^ 2 = 1 / ((N - 3 * m + 1 : ℕ) : ℝ)
      * ∑ i ∈ range (N - 3 * m + 1), unitTerm .mdev rate m (fun k => x (i * 1 + k)) := by
    intro hc
    refine avg_terms (by omega) (k := 2 * m ^ 2 * (m / rate) ^ 2) (by positivity) ?_ (fun i _ => ?_) (fun i => sq_nonneg _)
    · rw [Nat.cast_add, Nat.cast_sub (by omega)]; push_cast; ring
    · simp only [unitTerm, d2_shift]
  have mtotCase : 1 < (N : ℤ) - 3 * m + 1 → Spec.mtotdev x N m (m / rate) ^ 2 = 1 / ((N - 3 * m + 1 : ℕ) : ℝ)
      * ∑ i ∈ range (N - 3 * m + 1), unitTerm .mtotdev rate m (fun k => x (i * 1 + k)) := by
    intro hc
    refine avg_terms (by omega) (k := 2 * (m / rate) ^ 2) (by positivity) ?_ (fun i _ => ?_) (fun i => totTerm_nonneg _ _)
    · rw [Nat.cast_add, Nat.cast_sub (by omega)]; push_cast; ring
    · simp only [unitTerm, mul_one]
  have oadevCase : ∀ m : ℕ, 0 < m → 0 < N - 2 * m → Spec.oadev x N m (m / rate) ^ 2 = 1 / ((N - 2 * m : ℕ) : ℝ)
      * ∑ i ∈ range (N - 2 * m), unitTerm .oadev rate m (fun k => x (i * 1 + k)) := by
    intro m hm hc
    have hm' : (0 : ℝ) < m := by exact_mod_cast hm
    refine avg_terms hc (k := 2 * (m / rate) ^ 2) (by positivity) ?_ (fun i _ => ?_) (fun i => sq_nonneg _)
    · rw [Nat.cast_sub (by omega)]; push_cast; ring
    · simp only [unitTerm, d2_shift, add_zero]
  have ohdevCase : ∀ m : ℕ, 0 < m → 0 < N - 3 * m → Spec.ohdev x N m (m / rate) ^ 2 = 1 / ((N - 3 * m : ℕ) : ℝ)
      * ∑ i ∈ range (N - 3 * m), unitTerm .ohdev rate m (fun k => x (i * 1 + k)) := by
    intro m hm hc
    have hm' : (0 : ℝ) < m := by exact_mod_cast hm
    refine avg_terms hc (k := 6 * (m / rate) ^ 2) (by positivity) ?_ (fun i _ => ?_) (fun i => sq_nonneg _)
    · rw [Nat.cast_sub (by omega)]; push_cast; ring
    · simp only [unitTerm, d3_shift, add_zero]
  have tauSq : ∀ v : ℝ, ((m : ℝ) / rate / √3 * v) ^ 2 = ((m : ℝ) / rate) ^ 2 / 3 * v ^ 2 := by
    intro v
    rw [mul_pow, div_pow _ (√3), Real.sq_sqrt (by norm_num)]
  unfold value
  cases fn <;> simp only [ne_eq, reduceCtorEq, not_false_eq_true, not_true_eq_false, summands, hop, count, lenOf, maxOf, htotCount, if_true, if_false] at *
  case adev =>
    refine avg_terms hpos (k := 2 * (m / rate) ^ 2) (by positivity) ?_ (fun i _ => ?_) (fun i => sq_nonneg _)
    · rw [Nat.cast_sub (by omega)]; push_cast; ring
    · simp only [unitTerm, d2_shift', add_zero, d2_decimated]
  case oadev => exact oadevCase m hm (by omega)
  case mdev => exact mdevCase hc
  case tdev =>
    unfold Spec.tdev
    rw [tauSq, mdevCase hc, ← mul_assoc, mul_comm (_ / 3), mul_assoc, mul_sum (range _) _ (_ / 3)]
    simp only [unitTerm]
  case hdev =>
    refine avg_terms hpos (k := 6 * (m / rate) ^ 2) (by positivity) ?_ (fun i _ => ?_) (fun i => sq_nonneg _)
    · rw [Nat.cast_sub (by omega)]; push_cast; ring
    · simp only [unitTerm, d3_shift', add_zero, d3_decimated]
  case ohdev => exact ohdevCase m hm (by omega)
  case pdev =>
    unfold Spec.pdev
    split_ifs with h
    · subst h
      rw [oadevCase 1 one_pos (by omega)]
      simp only [unitTerm, if_true]
    · have : ∀ S T : ℝ, 72 * S / T = S / (T / 72) := fun S T => by ring
      rw [this]
      refine avg_terms hpos (k := (m : ℝ) ^ 4 * (m / rate) ^ 2 / 72) (by positivity) ?_ (fun i _ => ?_) (fun i => sq_nonneg _)
      · rw [Nat.cast_sub (by omega)]; push_cast; ring
      · simp only [unitTerm, if_neg h, mul_one, add_assoc]
        field_simp
  case mtotdev => exact mtotCase hc
  case ttotdev =>
    rw [tauSq, mtotCase hc, ← mul_assoc, mul_comm (_ / 3), mul_assoc, mul_sum (range _) _ (_ / 3)]
    simp only [unitTerm]
  case htotdev =>
    unfold htotdev'
    split_ifs at hc ⊢ with h
    · subst h
      rw [ohdevCase 1 one_pos (by omega)]
      simp only [unitTerm, if_true]
    · have h3 := third_le hx
      unfold Spec.htotdev
      rw [show N - 1 - 3 * m + 1 = N - 3 * m by omega]
      refine avg_terms hpos (k := 6) (by positivity) ?_ (fun i _ => ?_) (fun i => totTerm_nonneg _ _)
      · rw [Nat.cast_sub (by omega), Nat.cast_sub (by omega)]; push_cast; ring
      · simp only [unitTerm, if_neg h, mul_one]
        rfl
  case theo1 =>
    refine avg_terms hpos (k := 3 / 4 * (m / rate) ^ 2) (by positivity) ?_ (fun i _ => ?_) (fun i => sum_nonneg fun d hd => ?_)
    · rw [Nat.cast_sub (by omega)]; ring
    · simp only [unitTerm, mul_one, add_zero]
      congr 1
      refine sum_congr rfl fun d hd => ?_
      rw [mem_range] at hd
      rw [show i + m / 2 - d = i + (m / 2 - d) by omega, add_assoc i (m / 2)]
    · rw [mem_range] at hd
      have : (d : ℝ) ≤ ((m / 2 : ℕ) : ℝ) := by exact_mod_cast hd.le
      exact div_nonneg (sq_nonneg _) (by linarith)
  case tierms =>
    refine avg_terms hpos (k := 1) (by positivity) ?_ (fun i _ => ?_) (fun i => sq_nonneg _)
    · rw [Nat.cast_sub (by omega)]; ring
    · simp only [unitTerm, mul_one, add_zero, div_one]

theorem d2_LF {K m i : ℕ} (h : i + 2 * m < K) : LF K (fun x => d2 x m i) :=
  ((LF.eval h).sub ((LF.eval (by omega)).smul 2)).add (LF.eval (by omega))

theorem d3_LF {K m i : ℕ} (h : i + 3 * m < K) : LF K (fun x => d3 x m i) :=
  (((LF.eval h).sub ((LF.eval (by omega)).smul 3)).add ((LF.eval (by omega)).smul 3)).sub (LF.eval (by omega))

theorem totTerm_QF {K m : ℕ} (hm : 0 < m) {T : (ℕ → ℝ) → ℕ → ℝ} (hT : ∀ k < 3 * m, LF K (fun y => T y k)) :
    QF K (fun y => totTerm (T y) m) := by
  have hs : LF K (fun y => halfSlope (T y) m 1) := by
    unfold halfSlope
    simp only
    refine (((LF.sum _ fun k hk => ?_).div _).sub ((LF.sum _ fun k hk => ?_).div _)).div _
    · rw [mem_range] at hk
      exact hT _ (by omega)
    · rw [mem_range] at hk
      exact hT _ (by omega)
  have hd : ∀ k < 3 * m, LF K (fun y => T y k - halfSlope (T y) m 1 * k) := fun k hk => by
    have := (hT k hk).sub (hs.smul (k : ℝ))
    simpa only [mul_comm (k : ℝ)] using this
  have hmir : ∀ j < 9 * m, LF K (fun y => mirror (fun k => T y k - halfSlope (T y) m 1 * k) (3 * m) j) := by
    intro j hj
    unfold mirror
    split_ifs
    · exact hd _ (by omega)
    · exact hd _ (by omega)
    · exact hd _ (by omega)
  unfold totTerm
  simp only
  refine QF.div (QF.sum fun j hj => ?_) (by positivity)
  refine LF.sq ((LF.sum _ fun k hk => ?_).div _)
  rw [mem_range] at hk
  exact ((hmir _ (by omega)).sub ((hmir _ (by omega)).smul 2)).add (hmir _ (by omega))

theorem unitTerm_QF (fn : DevName) (h1 : fn ≠ .mtie) (h2 : fn ≠ .totdev) (rate : ℝ) {m : ℕ} (hm : 0 < m) :
    QF (window fn m) (unitTerm fn rate m) := by
  have hm' : (0 : ℝ) < m := by exact_mod_cast hm
  have hmd : LF (3 * m) (fun x => ∑ i ∈ range m, d2 x m i) := LF.sum _ fun i hi => by
    rw [mem_range] at hi
    exact d2_LF (by omega)
  have htot : QF (3 * m) (fun x => totTerm x m) := totTerm_QF hm fun k hk => LF.eval hk
  cases fn <;> simp only [ne_eq, reduceCtorEq, not_false_eq_true, not_true_eq_false, window] at *
  case adev => exact (d2_LF (by omega)).sq.div (by positivity)
  case oadev => exact (d2_LF (by omega)).sq.div (by positivity)
  case mdev => exact hmd.sq.div (by positivity)
  case tdev => exact (hmd.sq.div (by positivity)).smul (by positivity)
  case hdev => exact (d3_LF (by omega)).sq.div (by positivity)
  case ohdev => exact (d3_LF (by omega)).sq.div (by positivity)
  case pdev =>
    unfold unitTerm
    simp only
    by_cases h : m = 1
    · simp only [if_pos h]
      exact (d2_LF (by omega)).sq.div (by positivity)
    · simp only [if_neg h]
      refine ((LF.sum _ fun k hk => ?_).sq.div (by positivity)).smul (by positivity)
      rw [mem_range] at hk
      exact ((LF.eval (by omega)).sub (LF.eval (by omega))).smul _
  case mtotdev => exact htot.div (by positivity)
  case ttotdev => exact (htot.div (by positivity)).smul (by positivity)
  case htotdev =>
    unfold unitTerm
    simp only
    by_cases h : m = 1
    · simp only [if_pos h]
      exact (d3_LF (by omega)).sq.div (by positivity)
    · simp only [if_neg h]
      refine QF.div (totTerm_QF hm fun k hk => ?_) (by positivity)
      unfold freqOf
      exact ((LF.eval (by omega)).sub (LF.eval (by omega))).smul _
  case theo1 =>
    unfold unitTerm
    simp only
    refine QF.div (QF.sum fun d hd => ?_) (by positivity)
    have : (d : ℝ) ≤ ((m / 2 : ℕ) : ℝ) := by exact_mod_cast hd.le
    exact LF.sq (((LF.eval (by omega)).sub (LF.eval (by omega))).add ((LF.eval (by omega)).sub (LF.eval (by omega)))) |>.div
      (by linarith)
  case tierms => exact ((LF.eval (by omega)).sub (LF.eval (by omega))).sq

theorem window_le (fn : DevName) (h1 : fn ≠ .mtie) (h2 : fn ≠ .totdev) {m : ℕ} (hm : 0 < m) :
    window fn m ≤ (overlap fn m + 1) * hop fn m := by
  cases fn <;> simp only [ne_eq, reduceCtorEq, not_false_eq_true, not_true_eq_false, window, overlap, hop] at *
  all_goals omega

/-- the phase that is the sum of the increments -/
def cumsum (y : ℕ → ℝ) (k : ℕ) : ℝ := ∑ s ∈ range k, y s

theorem unitTerm_affine (fn : DevName) (h1 : fn ≠ .mtie) (h2 : fn ≠ .totdev) (h3 : fn ≠ .tierms) (rate : ℝ)
    {m : ℕ} (hm : 0 < m) (he : fn = .theo1 → Even m) : AffInv (unitTerm fn rate m) := by
  intro x a b
  have hd2 : ∀ j, d2 (fun k => x k + (a + b * k)) m j = d2 x m j := fun j => by
    unfold d2
    push_cast
    ring
  have hd3 : ∀ j, d3 (fun k => x k + (a + b * k)) m j = d3 x m j := fun j => by
    unfold d3
    push_cast
    ring
  have htot : ∀ (x : ℕ → ℝ) (a b : ℝ), totTerm (fun k => x k + (a + b * k)) m = totTerm x m := fun x a b => by
    have := totTerm_affine x a b m hm
    simpa only [add_assoc] using this
  cases fn <;> simp only [ne_eq, reduceCtorEq, not_false_eq_true, not_true_eq_false, unitTerm] at *
  case adev => rw [hd2]
  case oadev => rw [hd2]
  case mdev => simp only [hd2]
  case tdev => simp only [hd2]
  case hdev => rw [hd3]
  case ohdev => rw [hd3]
  case pdev =>
    rw [hd2]
    have : ∑ k ∈ range m, (((m : ℝ) - 1) / 2 - (k : ℝ)) * (x k + (a + b * k) - (x (m + k) + (a + b * (m + k : ℕ))))
        = ∑ k ∈ range m, (((m : ℝ) - 1) / 2 - (k : ℝ)) * (x k - x (m + k)) := by
      have e : ∀ k ∈ range m, (((m : ℝ) - 1) / 2 - (k : ℝ)) * (x k + (a + b * k) - (x (m + k) + (a + b * (m + k : ℕ))))
          = (((m : ℝ) - 1) / 2 - (k : ℝ)) * (x k - x (m + k)) + -(b * m) * (((m : ℝ) - 1) / 2 - (k : ℝ)) := fun k _ => by
        push_cast
        ring
      rw [sum_congr rfl e, sum_add_distrib, ← mul_sum, sum_centered, mul_zero, add_zero]
    rw [this]
  case mtotdev => rw [htot]
  case ttotdev => rw [htot]
  case htotdev =>
    rw [hd3]
    have : freqOf (fun k => x k + (a + b * k)) rate = fun k => freqOf x rate k + (rate * b + 0 * k) := by
      funext k
      unfold freqOf
      push_cast
      ring
    rw [this, htot]
  case theo1 =>
    congr 1
    refine sum_congr rfl fun d hd => ?_
    rw [mem_range] at hd
    obtain ⟨p, hp⟩ := he trivial
    have hp2 : m / 2 = p := by omega
    rw [hp2] at hd ⊢
    rw [Nat.cast_sub hd.le]
    subst hp
    push_cast
    ring

/-! ## The theorems -/

/-- bound on the relative variance of the squared deviation -/
noncomputable def Spec.relBound (fn : DevName) (N m : ℕ) : ℝ := 2 * (1 + 2 * (overlap fn m : ℝ)) / (summands fn N m : ℝ)

theorem phase_value_settles (fn : DevName) (h1 : fn ≠ .mtie) (h2 : fn ≠ .totdev) {rate : ℝ} (hr : 0 < rate) :
    ∃ u : ℕ → ℝ, ∀ (Ω : Type) [MeasurableSpace Ω] (P : Measure Ω) [IsProbabilityMeasure P] (W : ℕ → Ω → ℝ) (s2 : ℝ≥0),
      NormalNoise P W s2 → ∀ (a b : ℝ) (N : ℕ), (fn = .tierms → b = 0) → ∀ m, Usable fn N m →
      MeanSq P (fun ω => value fn (offsetPhase a b (fun i => W i ω)) N rate m) (s2 * u m) ∧
      RelVar P (fun ω => value fn (offsetPhase a b (fun i => W i ω)) N rate m) (relBound fn N m) := by
  have hex : ∀ m, ∃ u : ℝ, 0 < m → ∀ (Ω : Type) [MeasurableSpace Ω] (P : Measure Ω) [IsProbabilityMeasure P]
      (W : ℕ → Ω → ℝ) (s2 : ℝ≥0) (_ : NormalNoise P W s2) (S M L : ℕ) (_ : 0 < M) (_ : window fn m ≤ (L + 1) * S) (D : Ω → ℝ)
      (_ : ∀ ω, D ω ^ 2 = 1 / M * ∑ i ∈ range M, unitTerm fn rate m (fun k => W (i * S + k) ω)),
      MeanSq P D (s2 * u) ∧ RelVar P D (2 * (1 + 2 * L) / M) := by
    intro m
    rcases Nat.eq_zero_or_pos m with rfl | hm
    · exact ⟨0, fun h => absurd h (lt_irrefl 0)⟩
    · obtain ⟨u, hu⟩ := relVar_blocks (unitTerm_QF fn h1 h2 rate hm)
      exact ⟨u, fun _ => hu⟩
  choose u hu using hex
  refine ⟨u, fun Ω _ P _ W s2 h a b N hb m hm => ?_⟩
  refine hu m hm.1 Ω P W s2 h (hop fn m) _ _ (summands_pos' hm) (window_le fn h1 h2 hm.1) _ fun ω => ?_
  rw [value_terms fn h1 h2 _ hr hm]
  congr 1
  refine sum_congr rfl fun i _ => ?_
  by_cases h3 : fn = .tierms
  · subst h3
    simp only [unitTerm, offsetPhase, hb rfl]
    ring
  · rw [← unitTerm_affine fn h1 h2 h3 rate hm.1 hm.2.2.2.1 (fun k => W (i * hop fn m + k) ω) (a + b * (i * hop fn m : ℕ)) b]
    congr 1
    funext k
    simp only [offsetPhase]
    push_cast
    ring

theorem freq_value_settles (fn : DevName) (h1 : fn ≠ .mtie) (h2 : fn ≠ .totdev) (h3 : fn ≠ .tierms) {rate : ℝ} (hr : 0 < rate) :
    ∃ u : ℕ → ℝ, ∀ (Ω : Type) [MeasurableSpace Ω] (P : Measure Ω) [IsProbabilityMeasure P] (Y : ℕ → Ω → ℝ) (s2 : ℝ≥0),
      NormalNoise P Y s2 → ∀ (c : ℝ) (N : ℕ) (m : ℕ), Usable fn (N + 1) m →
      MeanSq P (fun ω => value fn (phaseOf (fun i => c + Y i ω) N rate) (N + 1) rate m) (s2 * u m) ∧
      RelVar P (fun ω => value fn (phaseOf (fun i => c + Y i ω) N rate) (N + 1) rate m) (relBound fn (N + 1) m) := by
  have hex : ∀ m, ∃ u : ℝ, 0 < m → ∀ (Ω : Type) [MeasurableSpace Ω] (P : Measure Ω) [IsProbabilityMeasure P]
      (W : ℕ → Ω → ℝ) (s2 : ℝ≥0) (_ : NormalNoise P W s2) (S M L : ℕ) (_ : 0 < M) (_ : window fn m ≤ (L + 1) * S) (D : Ω → ℝ)
      (_ : ∀ ω, D ω ^ 2 = 1 / M * ∑ i ∈ range M, unitTerm fn rate m (fun k => cumsum (fun k => W (i * S + k) ω) k / rate)),
      MeanSq P D (s2 * u) ∧ RelVar P D (2 * (1 + 2 * L) / M) := by
    intro m
    rcases Nat.eq_zero_or_pos m with rfl | hm
    · exact ⟨0, fun h => absurd h (lt_irrefl 0)⟩
    · have hq : QF (window fn m) (fun y => unitTerm fn rate m (fun k => cumsum y k / rate)) :=
        (unitTerm_QF fn h1 h2 rate hm).comp (T := fun y k => cumsum y k / rate) fun k hk => by
          refine LF.div (LF.sum _ fun s hs => LF.eval ?_) _
          rw [mem_range] at hs
          omega
      obtain ⟨u, hu⟩ := relVar_blocks hq
      exact ⟨u, fun _ => hu⟩
  choose u hu using hex
  refine ⟨u, fun Ω _ P _ Y s2 h c N m hm => ?_⟩
  refine hu m hm.1 Ω P Y s2 h (hop fn m) _ _ (summands_pos' hm) (window_le fn h1 h2 hm.1) _ fun ω => ?_
  rw [value_terms fn h1 h2 _ hr hm]
  congr 1
  refine sum_congr rfl fun i _ => ?_
  rw [← unitTerm_affine fn h1 h2 h3 rate hm.1 hm.2.2.2.1 (fun k => cumsum (fun k => Y (i * hop fn m + k) ω) k / rate)
    (phaseOf (fun i => c + Y i ω) N rate (i * hop fn m)) ((c - (∑ k ∈ range N, (c + Y k ω)) / N) / rate)]
  congr 1
  funext k
  rw [phaseOf_add]
  simp only [cumsum, incr]
  rw [← sum_div, sum_sub_distrib, sum_add_distrib, sum_const, sum_const, card_range, nsmul_eq_mul, nsmul_eq_mul]
  ring

variable {Ω : Type} [MeasurableSpace Ω] {P : Measure Ω}

/-- The deviation that `fn` reports settles at `√(v m)` as the number of data points grows: for every factor
`m` (an even one for THEO1), a call with the averaging time `m / rate` succeeds if there are enough data
points `N`, and the probability that the deviation it reports is off by `ε` or more is as small as one
likes. -/
def Spec.Settles (P : Measure Ω) (fn : DevName) (data : ℕ → Ω → List ℝ) (rate : ℝ) (data_type : String) (v : ℕ → ℝ) : Prop :=
  ∀ m : ℕ, 0 < m → (fn = .theo1 → Even m) → ∀ ε δ : ℝ, 0 < ε → 0 < δ → ∃ N₀, ∀ N ≥ N₀, ∃ D : Ω → ℝ,
    (∀ ω, ∃ errs ns, fn.run (data N ω) rate data_type (.list [(m : ℝ) / rate]) = .ok ⟨[(m : ℝ) / rate], [D ω], errs, ns⟩) ∧
    P {ω | ε ≤ |D ω - √(v m)|} ≤ ENNReal.ofReal δ

omit [MeasurableSpace Ω] in
/-- a call with a single averaging time -/
theorem run_at {fn : DevName} {N m : ℕ} (hu : Usable fn N m) {rate : ℝ} (hr : 0 < rate) (x : ℕ → ℝ) :
    ∃ errs ns, fn.run (tab N x) rate "phase" (.list [(m : ℝ) / rate])
      = .ok ⟨[(m : ℝ) / rate], [value fn x N rate m], errs, ns⟩ := by
  have hN := hu.pos
  obtain ⟨kept, h1, h2, h3⟩ := (run_cases fn (tab N x) rate (.list [(m : ℝ) / rate])).2 hr.ne' rfl (by
    rintro ⟨rfl, h⟩
    have := hu.2.2.2.2
    simp only [tab_length, count] at h this
    omega)
  simp only [tab_length] at h2 h3
  have hround : IsRound ((m : ℝ) / rate * rate) m := by
    rw [div_mul_cancel₀ _ hr.ne']
    simp [IsRound]
  have hkept : kept = [m] := by
    have hmem : ∀ k, k ∈ kept ↔ k ∈ [m] := fun k => by
      rw [h2, List.mem_singleton]
      unfold Reported
      constructor
      · rintro ⟨-, -, -, -, ⟨t', ht', hr'⟩, -⟩
        rw [List.mem_singleton.1 ht'] at hr'
        exact_mod_cast isRound_unique hr' hround
      · rintro rfl
        exact ⟨hu.1, hu.2.1, hu.2.2.1, hu.2.2.2.1, ⟨_, by simp, hround⟩, hu.2.2.2.2⟩
    have hnd : kept.Nodup := h1.imp (fun h => ne_of_lt h)
    exact List.perm_singleton.1 ((List.perm_ext_iff_of_nodup hnd (List.nodup_singleton m)).2 hmem)
  rw [hkept, if_neg (by simp)] at h3
  simp only [List.map_cons, List.map_nil, sign_pos_rate fn rate hr, one_mul] at h3
  rw [value_congr fn rate hu (fun i hi => seq_tab N x hi)] at h3
  exact ⟨_, _, h3⟩

/-- a factor can be used if the record is long enough -/
theorem usable_eventually (fn : DevName) {m : ℕ} (hm : 0 < m) (he : fn = .theo1 → Even m) :
    ∀ᶠ N in atTop, Usable fn N m := by
  rw [eventually_atTop]
  refine ⟨6 * m + 6, fun N hN => ⟨hm, ?_, ?_, he, ?_⟩⟩
  · unfold lenOf
    split_ifs <;> omega
  · have h1 : (m : ℝ) ≤ N := by exact_mod_cast (show m ≤ N by omega)
    have h2 : 3 * (m : ℝ) ≤ N := by exact_mod_cast (show 3 * m ≤ N by omega)
    have h3 : 3 * (m : ℝ) ≤ ((N - 1 : ℕ) : ℝ) := by exact_mod_cast (show 3 * m ≤ N - 1 by omega)
    cases fn <;> simp only [maxOf] <;> linarith
  · have hd : 6 ≤ (N - 1) / m := (Nat.le_div_iff_mul_le hm).2 (by omega)
    cases fn <;> simp only [count, decimated, htotCount] at *
    case theo1 =>
      obtain ⟨p, hp⟩ := he trivial
      have h1 : (1 : ℤ) ≤ ((m / 2 : ℕ) : ℤ) := by omega
      have h2 : (2 : ℤ) ≤ (N : ℤ) - m := by omega
      nlinarith
    case htotdev => split_ifs <;> omega
    all_goals omega

/-- Chebyshev's inequality -/
theorem chebyshev_dev [IsProbabilityMeasure P] {D : Ω → ℝ} {v w r : ℝ} (hw : 0 ≤ w) (h0 : ∀ ω, 0 ≤ D ω) (hm : MeanSq P D v)
    (hr : RelVar P D r) {ε : ℝ} (hε : 0 < ε) (hvw : |v - w| ≤ ε ^ 2 / 2) :
    P {ω | ε ≤ |D ω - √w|} ≤ ENNReal.ofReal (r * v ^ 2 / (ε ^ 2 / 2) ^ 2) := by
  have h1 := meas_ge_le_variance_div_sq hr.1 (c := ε ^ 2 / 2) (by positivity)
  refine (measure_mono fun ω hω => ?_).trans (h1.trans (ENNReal.ofReal_le_ofReal ?_))
  · simp only [Set.mem_ofPred_eq] at hω ⊢
    rw [hm.2]
    have e : D ω ^ 2 - w = (D ω - √w) * (D ω + √w) := by
      have := Real.sq_sqrt hw
      ring_nf
      rw [this]
    have h2 : |D ω - √w| ≤ |D ω + √w| := by
      rw [abs_of_nonneg (add_nonneg (h0 ω) (Real.sqrt_nonneg w)), abs_le]
      constructor
      · have := h0 ω
        linarith
      · have := Real.sqrt_nonneg w
        linarith
    have h3 : ε ^ 2 ≤ |D ω ^ 2 - w| := by
      rw [e, abs_mul, pow_two]
      exact mul_le_mul hω (hω.trans h2) hε.le (abs_nonneg _)
    have h4 : |D ω ^ 2 - w| ≤ |D ω ^ 2 - v| + |v - w| := by
      have := abs_add_le (D ω ^ 2 - v) (v - w)
      simpa using this
    linarith
  · have h2 := hr.2
    rw [hm.2] at h2
    gcongr

/-- number of terms for a long record -/
theorem summands_tendsto (fn : DevName) {m : ℕ} (hm : 0 < m) : Tendsto (fun N => summands fn N m) atTop atTop := by
  have hd : ∀ k, Tendsto (fun N => decimated N m - k) atTop atTop := fun k => by
    rw [tendsto_atTop_atTop]
    intro b
    refine ⟨(b + k) * m + 1, fun N hN => ?_⟩
    unfold decimated
    have : b + k ≤ (N - 1) / m := (Nat.le_div_iff_mul_le hm).2 (by omega)
    omega
  have hs : ∀ k j : ℕ, Tendsto (fun N : ℕ => N - k + j) atTop atTop := fun k j => by
    rw [tendsto_atTop_atTop]
    exact fun b => ⟨b + k, fun N hN => by omega⟩
  cases fn
  case adev => exact hd 2
  case hdev => exact hd 3
  case mdev => exact hs _ 1
  case tdev => exact hs _ 1
  case mtotdev => exact hs _ 1
  case ttotdev => exact hs _ 1
  case totdev => exact hs 2 0
  all_goals exact hs _ 0

theorem relBound_tendsto (fn : DevName) {m : ℕ} (hm : 0 < m) : Tendsto (fun N => relBound fn N m) atTop (nhds 0) := by
  unfold relBound
  exact Tendsto.div_atTop tendsto_const_nhds (tendsto_natCast_atTop_atTop.comp (summands_tendsto fn hm))

theorem settles_of [IsProbabilityMeasure P] {fn : DevName} {data : ℕ → Ω → List ℝ} {rate : ℝ} (hr : 0 < rate) {dt : String}
    {X : ℕ → Ω → ℕ → ℝ} {n : ℕ → ℕ} (hn : Tendsto n atTop atTop)
    (hrun : ∀ N ω m, Usable fn (n N) m → fn.run (data N ω) rate dt (.list [(m : ℝ) / rate])
      = fn.run (tab (n N) (X N ω)) rate "phase" (.list [(m : ℝ) / rate]))
    {v r : ℕ → ℕ → ℝ} {w : ℕ → ℝ} (hv : ∀ m, 0 < m → (fn = .theo1 → Even m) → Tendsto (fun N => v N m) atTop (nhds (w m)))
    (hrel : ∀ m, 0 < m → Tendsto (fun N => r N m) atTop (nhds 0))
    (h : ∀ m, 0 < m → ∀ᶠ N in atTop, Usable fn (n N) m → MeanSq P (fun ω => value fn (X N ω) (n N) rate m) (v N m) ∧
      RelVar P (fun ω => value fn (X N ω) (n N) rate m) (r N m)) :
    Settles P fn data rate dt w := by
  intro m hm he ε δ hε hδ
  have hus := hn.eventually (usable_eventually fn hm he)
  have hw : 0 ≤ w m := by
    refine ge_of_tendsto (hv m hm he) ?_
    filter_upwards [h m hm, hus] with N h1 h2
    rw [← (h1 h2).1.2]
    exact integral_nonneg fun ω => sq_nonneg _
  have ht : Tendsto (fun N => r N m * v N m ^ 2 / (ε ^ 2 / 2) ^ 2) atTop (nhds (0 * w m ^ 2 / (ε ^ 2 / 2) ^ 2)) :=
    ((hrel m hm).mul ((hv m hm he).pow 2)).div_const _
  rw [zero_mul, zero_div] at ht
  have hd : ∀ᶠ N in atTop, |v N m - w m| ≤ ε ^ 2 / 2 := by
    have h1 : Tendsto (fun N => |v N m - w m|) atTop (nhds |w m - w m|) := ((hv m hm he).sub_const _).abs
    rw [sub_self, abs_zero] at h1
    exact (h1.eventually (gt_mem_nhds (show (0 : ℝ) < ε ^ 2 / 2 by positivity))).mono fun N hN => hN.le
  have hall : ∀ᶠ N in atTop, ∃ D : Ω → ℝ, (∀ ω, ∃ errs ns, fn.run (data N ω) rate dt (.list [(m : ℝ) / rate])
      = .ok ⟨[(m : ℝ) / rate], [D ω], errs, ns⟩) ∧ P {ω | ε ≤ |D ω - √(w m)|} ≤ ENNReal.ofReal δ := by
    filter_upwards [h m hm, hus, ht.eventually (gt_mem_nhds hδ), hd] with N h1 h2 h3 h4
    obtain ⟨h5, h6⟩ := h1 h2
    refine ⟨fun ω => value fn (X N ω) (n N) rate m, fun ω => ?_, ?_⟩
    · rw [hrun N ω m h2]
      exact run_at h2 hr (X N ω)
    · exact (chebyshev_dev hw (fun ω => value_nonneg fn _ _ rate hr m) h5 h6 hε h4).trans (ENNReal.ofReal_le_ofReal h3.le)
  exact eventually_atTop.1 hall

theorem settles_phase [IsProbabilityMeasure P] {fn : DevName} {X : Ω → ℕ → ℝ} {rate : ℝ} (hr : 0 < rate) {w : ℕ → ℝ}
    (h : ∀ N m, Usable fn N m → MeanSq P (fun ω => value fn (X ω) N rate m) (w m) ∧
      RelVar P (fun ω => value fn (X ω) N rate m) (relBound fn N m)) :
    Settles P fn (fun N ω => tab N (X ω)) rate "phase" w :=
  settles_of hr (X := fun _ ω => X ω) (n := fun N => N) tendsto_id (fun _ _ _ _ => rfl) (v := fun _ m => w m)
    (r := fun N m => relBound fn N m) (fun _ _ _ => tendsto_const_nhds) (fun _ hm => relBound_tendsto fn hm)
    (fun m _ => Eventually.of_forall fun N => h N m)

theorem settles_freq [IsProbabilityMeasure P] {fn : DevName} {Y : Ω → ℕ → ℝ} {rate : ℝ} (hr : 0 < rate) {w : ℕ → ℝ}
    (h : ∀ N m, Usable fn (N + 1) m → MeanSq P (fun ω => value fn (phaseOf (Y ω) N rate) (N + 1) rate m) (w m) ∧
      RelVar P (fun ω => value fn (phaseOf (Y ω) N rate) (N + 1) rate m) (relBound fn (N + 1) m)) :
    Settles P fn (fun N ω => tab N (Y ω)) rate "freq" w := by
  refine settles_of hr (X := fun N ω => phaseOf (Y ω) N rate) (n := fun N => N + 1) (tendsto_add_atTop_nat 1) (fun N ω m hu => ?_)
    (v := fun _ m => w m) (r := fun N m => relBound fn (N + 1) m) (fun _ _ _ => tendsto_const_nhds)
    (fun _ hm => (relBound_tendsto fn hm).comp (tendsto_add_atTop_nat 1)) (fun m _ => Eventually.of_forall fun N => h N m)
  have hN : 0 < N := by
    obtain ⟨h1, h2, -⟩ := hu
    unfold lenOf at h2
    split_ifs at h2 <;> omega
  rw [run_freq, frequency2phase_phaseOf _ N hN rate hr.ne', ok_bind]

variable [IsProbabilityMeasure P]

/-- **C75, phase data.** For normally distributed white phase noise, with any phase and frequency offset,
every deviation except MTIE and TOTDEV has an expected square `v m` that does not depend on the number
of data points, and the relative variance of its square is at most `2 (1 + 2 overlap) / summands`:
the estimate settles at `√(v m)`.  TIE RMS sees a frequency offset, so there is none in its case. -/
theorem phase_settles (fn : DevName) (h1 : fn ≠ .mtie) (h2 : fn ≠ .totdev) {rate : ℝ} (hr : 0 < rate) {W : ℕ → Ω → ℝ}
    {s2 : ℝ≥0} (h : NormalNoise P W s2) (a b : ℝ) (hb : fn = .tierms → b = 0) :
    ∃ v : ℕ → ℝ, (∀ N, Reports fn (fun ω => tab N (offsetPhase a b (fun i => W i ω))) rate "phase"
        (fun m D => MeanSq P D (v m) ∧ RelVar P D (relBound fn N m))) ∧
      Settles P fn (fun N ω => tab N (offsetPhase a b (fun i => W i ω))) rate "phase" v := by
  obtain ⟨u, hu⟩ := phase_value_settles fn h1 h2 hr
  exact ⟨fun m => s2 * u m, fun N => reports_phase fn (fun i ω => offsetPhase a b (fun i => W i ω) i) N rate hr _ fun m hm =>
    hu Ω P W s2 h a b N hb m hm, settles_phase hr fun N m hm => hu Ω P W s2 h a b N hb m hm⟩

/-- **C75, frequency data.** The same for normally distributed white frequency noise with any mean.  The
number of phase points is one more than that of the frequencies. -/
theorem freq_settles (fn : DevName) (h1 : fn ≠ .mtie) (h2 : fn ≠ .totdev) (h3 : fn ≠ .tierms) {rate : ℝ} (hr : 0 < rate)
    {Y : ℕ → Ω → ℝ} {s2 : ℝ≥0} (h : NormalNoise P Y s2) (c : ℝ) :
    ∃ v : ℕ → ℝ, (∀ N, Reports fn (fun ω => tab N (fun i => c + Y i ω)) rate "freq"
        (fun m D => MeanSq P D (v m) ∧ RelVar P D (relBound fn (N + 1) m))) ∧
      Settles P fn (fun N ω => tab N (fun i => c + Y i ω)) rate "freq" v := by
  obtain ⟨u, hu⟩ := freq_value_settles fn h1 h2 h3 hr
  exact ⟨fun m => s2 * u m, fun N => reports_freq fn (fun i ω => c + Y i ω) N rate hr _ fun m hm =>
    hu Ω P Y s2 h c N m hm, settles_freq hr fun N m hm => hu Ω P Y s2 h c N m hm⟩

theorem phase_settles_at {fn : DevName} (h1 : fn ≠ .mtie) (h2 : fn ≠ .totdev) {rate : ℝ} (hr : 0 < rate) {W : ℕ → Ω → ℝ}
    {s2 : ℝ≥0} (h : NormalNoise P W s2) (a b : ℝ) (hb : fn = .tierms → b = 0) {w : ℕ → ℝ}
    (hw : ∀ N m, Usable fn N m → MeanSq P (fun ω => value fn (fun i => W i ω) N rate m) (w m)) :
    Settles P fn (fun N ω => tab N (offsetPhase a b (fun i => W i ω))) rate "phase" w := by
  obtain ⟨u, hu⟩ := phase_value_settles fn h1 h2 hr
  refine settles_phase hr fun N m hm => ?_
  have e1 := (hw N m hm).2
  have e2 := (hu Ω P W s2 h 0 0 N (fun _ => rfl) m hm).1.2
  have e3 : ∀ ω, offsetPhase 0 0 (fun i => W i ω) = fun i => W i ω := fun ω => by
    funext i
    simp [offsetPhase]
  simp only [e3] at e2
  rw [← e1, e2]
  exact hu Ω P W s2 h a b N hb m hm

theorem freq_settles_at {fn : DevName} (h1 : fn ≠ .mtie) (h2 : fn ≠ .totdev) (h3 : fn ≠ .tierms) {rate : ℝ} (hr : 0 < rate)
    {Y : ℕ → Ω → ℝ} {s2 : ℝ≥0} (h : NormalNoise P Y s2) (c : ℝ) {w : ℕ → ℝ}
    (hw : ∀ N m, Usable fn (N + 1) m →
      MeanSq P (fun ω => value fn (phaseOf (fun i => Y i ω) N rate) (N + 1) rate m) (w m)) :
    Settles P fn (fun N ω => tab N (fun i => c + Y i ω)) rate "freq" w := by
  obtain ⟨u, hu⟩ := freq_value_settles fn h1 h2 h3 hr
  refine settles_freq hr fun N m hm => ?_
  have e1 := (hw N m hm).2
  have e2 := (hu Ω P Y s2 h 0 N m hm).1.2
  simp only [zero_add] at e2
  rw [← e1, e2]
  exact hu Ω P Y s2 h c N m hm

/-- **C75, white phase noise: the limits.** The deviations settle at the textbook values for white phase
noise of variance `s2`. -/
theorem white_phase_settles {rate : ℝ} (hr : 0 < rate) {W : ℕ → Ω → ℝ} {s2 : ℝ≥0} (h : NormalNoise P W s2) (a b : ℝ) :
    Settles P .adev (fun N ω => tab N (offsetPhase a b (fun i => W i ω))) rate "phase" (fun m => 3 * s2 / (m / rate) ^ 2) ∧
    Settles P .oadev (fun N ω => tab N (offsetPhase a b (fun i => W i ω))) rate "phase" (fun m => 3 * s2 / (m / rate) ^ 2) ∧
    Settles P .hdev (fun N ω => tab N (offsetPhase a b (fun i => W i ω))) rate "phase"
      (fun m => 10 / 3 * s2 / (m / rate) ^ 2) ∧
    Settles P .ohdev (fun N ω => tab N (offsetPhase a b (fun i => W i ω))) rate "phase"
      (fun m => 10 / 3 * s2 / (m / rate) ^ 2) ∧
    Settles P .mdev (fun N ω => tab N (offsetPhase a b (fun i => W i ω))) rate "phase"
      (fun m => 3 * s2 / (m * (m / rate) ^ 2)) ∧
    Settles P .tdev (fun N ω => tab N (offsetPhase a b (fun i => W i ω))) rate "phase" (fun m => s2 / m) ∧
    Settles P .pdev (fun N ω => tab N (offsetPhase a b (fun i => W i ω))) rate "phase"
      (fun m => if m = 1 then 3 * s2 / (m / rate) ^ 2 else 12 * (m ^ 2 - 1) / m ^ 3 * s2 / (m / rate) ^ 2) ∧
    Settles P .tierms (fun N ω => tab N (offsetPhase a 0 (fun i => W i ω))) rate "phase" (fun _ => 2 * s2) ∧
    Settles P .theo1 (fun N ω => tab N (offsetPhase a b (fun i => W i ω))) rate "phase"
      (fun m => 16 / 3 * (∑ k ∈ range (m / 2), 1 / ((k : ℝ) + 1) + 1 / m) * s2 / (m / rate) ^ 2) := by
  refine ⟨phase_settles_at (by decide) (by decide) hr h a b (by simp) fun N m hu => adev_value_white (h.white N) hr m hu,
    phase_settles_at (by decide) (by decide) hr h a b (by simp) fun N m hu => oadev_value_white (h.white N) hr m hu,
    phase_settles_at (by decide) (by decide) hr h a b (by simp) fun N m hu => hdev_value_white (h.white N) hr m hu,
    phase_settles_at (by decide) (by decide) hr h a b (by simp) fun N m hu => ohdev_value_white (h.white N) hr m hu,
    phase_settles_at (by decide) (by decide) hr h a b (by simp) fun N m hu =>
      mdev_value_white (h.white N) hr m hu.1 hu.2.2.2.2,
    phase_settles_at (by decide) (by decide) hr h a b (by simp) fun N m hu => ?_,
    phase_settles_at (by decide) (by decide) hr h a b (by simp) fun N m hu => pdev_value_white (h.white N) hr m hu,
    phase_settles_at (by decide) (by decide) hr h a 0 (by simp) fun N m hu => tierms_value_white (h.white N) m hu,
    phase_settles_at (by decide) (by decide) hr h a b (by simp) fun N m hu => theo1_value_white (h.white N) hr m hu⟩
  have h1 := meanSq_const_mul ((m : ℝ) / rate / √3) (mdev_value_white (h.white N) hr m hu.1 hu.2.2.2.2)
  have hm : (0 : ℝ) < m := by exact_mod_cast hu.1
  have e : ((m : ℝ) / rate / √3) ^ 2 * (3 * s2 / (m * (m / rate) ^ 2)) = s2 / m := by
    rw [div_pow, Real.sq_sqrt (by norm_num)]
    field_simp
  rw [e] at h1
  exact h1

/-- **C75, white frequency noise: the limits.** The deviations settle at the textbook values for white
frequency noise of variance `s2`. -/
theorem white_freq_settles {rate : ℝ} (hr : 0 < rate) {Y : ℕ → Ω → ℝ} {s2 : ℝ≥0} (h : NormalNoise P Y s2) (c : ℝ) :
    Settles P .adev (fun N ω => tab N (fun i => c + Y i ω)) rate "freq" (fun m => s2 / m) ∧
    Settles P .oadev (fun N ω => tab N (fun i => c + Y i ω)) rate "freq" (fun m => s2 / m) ∧
    Settles P .hdev (fun N ω => tab N (fun i => c + Y i ω)) rate "freq" (fun m => s2 / m) ∧
    Settles P .ohdev (fun N ω => tab N (fun i => c + Y i ω)) rate "freq" (fun m => s2 / m) ∧
    Settles P .mdev (fun N ω => tab N (fun i => c + Y i ω)) rate "freq" (fun m => (m ^ 2 + 1) / (2 * m ^ 3) * s2) ∧
    Settles P .tdev (fun N ω => tab N (fun i => c + Y i ω)) rate "freq"
      (fun m => (m ^ 2 + 1) / (6 * m) * s2 / rate ^ 2) ∧
    Settles P .pdev (fun N ω => tab N (fun i => c + Y i ω)) rate "freq"
      (fun m => if m = 1 then s2 else 6 / 5 * (1 - 1 / m ^ 4) * s2 / m) ∧
    Settles P .theo1 (fun N ω => tab N (fun i => c + Y i ω)) rate "freq" (fun m => s2 / (3 / 4 * m)) := by
  refine ⟨freq_settles_at (by decide) (by decide) (by decide) hr h c fun N m hu => adev_value_fm (h.white N) rate hr m hu,
    freq_settles_at (by decide) (by decide) (by decide) hr h c fun N m hu => oadev_value_fm (h.white N) rate hr m hu,
    freq_settles_at (by decide) (by decide) (by decide) hr h c fun N m hu => hdev_value_fm (h.white N) rate hr m hu,
    freq_settles_at (by decide) (by decide) (by decide) hr h c fun N m hu => ohdev_value_fm (h.white N) rate hr m hu,
    freq_settles_at (by decide) (by decide) (by decide) hr h c fun N m hu =>
      mdev_value_fm (h.white N) rate hr m hu.1 hu.2.2.2.2,
    freq_settles_at (by decide) (by decide) (by decide) hr h c fun N m hu => ?_,
    freq_settles_at (by decide) (by decide) (by decide) hr h c fun N m hu => pdev_value_fm (h.white N) rate hr m hu,
    freq_settles_at (by decide) (by decide) (by decide) hr h c fun N m hu => theo1_value_fm (h.white N) rate hr m hu⟩
  have h1 := meanSq_const_mul ((m : ℝ) / rate / √3) (mdev_value_fm (h.white N) rate hr m hu.1 hu.2.2.2.2)
  have hm : (0 : ℝ) < m := by exact_mod_cast hu.1
  have e : ((m : ℝ) / rate / √3) ^ 2 * ((m ^ 2 + 1) / (2 * m ^ 3) * s2)
      = (m ^ 2 + 1) / (6 * m) * s2 / rate ^ 2 := by
    rw [div_pow, Real.sq_sqrt (by norm_num)]
    field_simp
    ring
  rw [e] at h1
  exact h1

/-- standard normal phase noise on a clock that is off by `1e-6`, 10 samples per second: with enough points,
the deviation at 0.5 s is within 0.01 of `2 √3` with a probability of 99.9 percent -/
example : ∃ N₀, ∀ N ≥ N₀, ∃ D : (ℕ → ℝ) → ℝ,
    (∀ ω, ∃ errs ns, AT.oadev (tab N (offsetPhase 0 (1e-6) ω)) 10 "phase" (.list [(5 : ℕ) / 10])
      = .ok ⟨[(5 : ℕ) / 10], [D ω], errs, ns⟩) ∧
    gaussNoise {ω | 0.01 ≤ |D ω - 2 * √3|} ≤ ENNReal.ofReal 0.001 := by
  have h := (white_phase_settles (rate := 10) (by norm_num) normal_gauss 0 (1e-6)).2.1 5 (by norm_num) (by simp)
    0.01 0.001 (by norm_num) (by norm_num)
  have e : √(3 * ((1 : ℝ≥0) : ℝ) / (((5 : ℕ) : ℝ) / 10) ^ 2) = 2 * √3 := by
    rw [show 3 * ((1 : ℝ≥0) : ℝ) / (((5 : ℕ) : ℝ) / 10) ^ 2 = 2 ^ 2 * 3 by push_cast; norm_num,
      Real.sqrt_mul (by norm_num), Real.sqrt_sq (by norm_num)]
  rw [e] at h
  exact h

end AT
