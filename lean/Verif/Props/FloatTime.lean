import Verif.Spec.FloatTime
import Verif.Props.FloatScaleMore

/-!
# C123: another unit of time in double precision

Property: if the rate is multiplied by `2^k` and the given averaging times by `2^-k`, the averaging times of the
table, as computed in double precision, are multiplied by exactly `2^-k`; the deviations of phase data and their
error bars are multiplied by exactly `2^k`, those of `tdev`, `ttotdev`, `tierms` and `mtie` do not change, nor do
the counts and exceptions.
-/

namespace AT

open Spec Real

variable {fl : ℝ → ℝ} {sum : List ℝ → ℝ}

/-- rounding commutes with the multiplication by `q` and by its inverse `b` -/
structure TimeUnit (fl : ℝ → ℝ) (q b : ℝ) : Prop where
  up : ∀ x, fl (q * x) = q * fl x
  down : ∀ x, fl (b * x) = b * fl x
  inv : b = q⁻¹
  pos : 0 < q

theorem timeUnit (hfl : ∀ x, IsBinary64 x (fl x)) (k : ℤ) : TimeUnit fl ((2 : ℝ) ^ k) ((2 : ℝ) ^ (-k)) :=
  ⟨binary64_scale hfl k, binary64_scale hfl (-k), zpow_neg _ _, by positivity⟩

namespace TimeUnit

variable {q b : ℝ}

theorem bq (U : TimeUnit fl q b) : b * q = 1 := by rw [U.inv, inv_mul_cancel₀ U.pos.ne']

theorem divRate (U : TimeUnit fl q b) (x r : ℝ) : x / (q * r) = b * (x / r) := by
  rw [U.inv, div_mul_eq_div_div, div_right_comm, div_eq_inv_mul (x / r)]

theorem divDown (U : TimeUnit fl q b) (x r : ℝ) : x / (b * r) = q * (x / r) := by
  rw [U.inv, div_mul_eq_div_div, div_right_comm, div_inv_eq_mul, mul_comm]

theorem divDown2 (U : TimeUnit fl q b) (x r : ℝ) : x / (b * b * r) = q * q * (x / r) := by
  rw [mul_assoc, U.divDown, U.divDown, mul_assoc]

theorem up2 (U : TimeUnit fl q b) (x : ℝ) : fl (q * q * x) = q * q * fl x := by
  rw [mul_assoc, U.up, U.up, mul_assoc]

theorem down2 (U : TimeUnit fl q b) (x : ℝ) : fl (b * b * x) = b * b * fl x := by
  rw [mul_assoc, U.down, U.down, mul_assoc]

theorem root (U : TimeUnit fl q b) (x : ℝ) : √(q * q * x) = q * √x := by
  rw [Real.sqrt_mul (mul_self_nonneg q), Real.sqrt_mul_self U.pos.le]

theorem divUp (_U : TimeUnit fl q b) (x y : ℝ) : q * x / y = q * (x / y) := mul_div_assoc ..

theorem mulDown (_U : TimeUnit fl q b) (x y : ℝ) : x * (b * y) = b * (x * y) := mul_left_comm ..

theorem mulDown' (_U : TimeUnit fl q b) (x y : ℝ) : b * x * y = b * (x * y) := mul_assoc ..

theorem mulUp (_U : TimeUnit fl q b) (x y : ℝ) : x * (q * y) = q * (x * y) := mul_left_comm ..

theorem mulUp' (_U : TimeUnit fl q b) (x y : ℝ) : q * x * y = q * (x * y) := mul_assoc ..

theorem mulDown2 (_U : TimeUnit fl q b) (x y : ℝ) : x * (b * b * y) = b * b * (x * y) := mul_left_comm ..

theorem mulDown2' (_U : TimeUnit fl q b) (x y : ℝ) : b * b * x * y = b * b * (x * y) := mul_assoc ..

theorem sqDown (_U : TimeUnit fl q b) (x y : ℝ) : b * x * (b * y) = b * b * (x * y) := mul_mul_mul_comm ..

theorem cancel (U : TimeUnit fl q b) (x y : ℝ) : b * x * (q * y) = x * y := by
  rw [mul_mul_mul_comm, U.bq, one_mul]

theorem cancel' (U : TimeUnit fl q b) (x y : ℝ) : q * x * (b * y) = x * y := by
  rw [mul_mul_mul_comm, mul_comm q b, U.bq, one_mul]

theorem rate_zero (U : TimeUnit fl q b) (rate : ℝ) : (q * rate = 0) = (rate = 0) :=
  propext ⟨fun h => (mul_eq_zero.1 h).resolve_left U.pos.ne', fun h => by rw [h, mul_zero]⟩

/-! ## Averaging times -/

theorem expand (U : TimeUnit fl q b) (g : List ℝ) (N : ℕ) (rate : ℝ) (taus : TausArg) :
    PyRel (fun l l' => l' = l.map (b * ·)) (expand_taus_fl fl g N rate taus)
      (expand_taus_fl fl g N (q * rate) (scaleTaus b taus)) := by
  have oct : PyRel (fun l l' => l' = l.map (b * ·)) (expand_taus_fl.octave fl N rate)
      (expand_taus_fl.octave fl N (q * rate)) := by
    unfold expand_taus_fl.octave
    split_ifs
    · exact PyRel.error _
    · refine PyRel.ok ?_
      simp only [List.map_map, Function.comp_def, U.divRate, U.down, U.mulDown']
  match taus with
  | .array l => exact PyRel.ok rfl
  | .list (t :: ts) => exact PyRel.ok rfl
  | .list [] => exact oct
  | .none => exact oct
  | .str s =>
    simp only [scaleTaus, expand_taus_fl]
    split_ifs
    · refine PyRel.ok ?_
      simp only [List.map_map, Function.comp_def, U.divRate, U.down, U.mulDown']
    · exact oct
    · exact PyRel.error _
    · refine PyRel.ok ?_
      simp only [List.map_map, Function.comp_def, U.divRate, U.down, U.mulDown']
    · exact PyRel.error _
    · refine PyRel.ok ?_
      simp only [U.divRate, U.down, U.mulDown, U.mulDown', List.map_flatMap, List.map_cons, List.map_nil]
    · exact PyRel.error _

theorem tau_gen {α : Type} (U : TimeUnit fl q b) (g : List ℝ) (x : List α) (rate : ℝ) (taus : TausArg) (even : Bool)
    (mx : ℝ) : PyRel (fun a a' => a' = (a.1, a.2.1, a.2.2.map (b * ·))) (tau_generator_fl fl g x rate taus even mx)
      (tau_generator_fl fl g x (q * rate) (scaleTaus b taus) even mx) := by
  unfold tau_generator_fl
  simp only [U.rate_zero]
  by_cases hr : rate = 0
  · rw [if_pos hr, if_pos hr]; exact PyRel.error _
  rw [if_neg hr, if_neg hr]
  refine (U.expand _ _ _ _).bind ?_
  rintro t _ rfl
  simp only [List.map_map, Function.comp_def, U.cancel, U.divRate, U.down]
  refine (PyRel.same _).bind ?_
  rintro _ m rfl
  by_cases he : even = true
  · rw [if_pos he, if_pos he]
    refine (PyRel.same _).bind ?_
    rintro m' _ rfl
    have h := maskSel_rel (b * ·) ((npUnique (m.filter fun k => decide (k ≠ 0))).map fun (k : ℤ) => fl ((k : ℝ) / rate))
      ((npUnique (m.filter fun k => decide (k ≠ 0))).map fun k => decide (k % 2 = 0))
    rw [List.map_map] at h
    refine h.bind ?_
    rintro t' _ rfl
    exact PyRel.ok rfl
  · rw [if_neg he, if_neg he]
    exact PyRel.ok (by rw [List.map_map]; rfl)

theorem run (a : ℝ) (taus : List ℝ) (ms : List ℕ) (F G : ℕ → ℕ → Py (ℝ × ℝ × ℤ))
    (H : ∀ i m, PyRel (fun r r' => r' = scaleRow a r) (F i m) (G i m)) :
    PyRel (fun r r' => r' = timeOut b a r) (runTaus taus ms F) (runTaus (taus.map (b * ·)) ms G) := by
  unfold runTaus
  refine (mapM_rel _ _ _ (fun p : ℕ × ℕ => H p.2 p.1)).bind ?_
  intro rows rows' hr
  have hr' : rows' = rows.map (scaleRow a) := by
    induction hr with
    | nil => rfl
    | cons h _ ih => rw [List.map_cons, h, ih]
  subst hr'
  have e1 : (rows.map (scaleRow a)).map (fun r => r.1) = (rows.map fun r => r.1).map (a * ·) := by
    rw [List.map_map, List.map_map]; rfl
  have e2 : (rows.map (scaleRow a)).map (fun r => r.2.1) = (rows.map fun r => r.2.1).map (a * ·) := by
    rw [List.map_map, List.map_map]; rfl
  have e3 : (rows.map (scaleRow a)).map (fun r => r.2.2) = rows.map fun r => r.2.2 := by
    rw [List.map_map]; rfl
  rw [e1, e2, e3]
  unfold remove_small_ns
  refine (maskSel_rel _ _ _).bind ?_
  rintro t _ rfl
  refine (maskSel_rel _ _ _).bind ?_
  rintro d _ rfl
  refine (PyRel.same _).bind ?_
  rintro n _ rfl
  refine (maskSel_rel (a * ·) (rows.map fun r => r.2.1) _).bind ?_
  rintro l _ rfl
  simp only [ok_bind, List.length_map]
  split_ifs
  · exact PyRel.error _
  · exact PyRel.ok rfl

/-! ## Rows -/

theorem calc_adev (U : TimeUnit fl q b) (x : List ℝ) (rate : ℝ) (m s : ℕ) :
    PyRel (fun r r' => r' = scaleRow q r) (calc_adev_phase_fl fl sum x rate m s)
      (calc_adev_phase_fl fl sum x (q * rate) m s) := by
  unfold calc_adev_phase_fl
  refine (PyRel.same _).bind ?_
  rintro d2 _ rfl
  refine (PyRel.same _).bind ?_
  rintro d1 _ rfl
  refine (PyRel.same _).bind ?_
  rintro d0 _ rfl
  refine (PyRel.same _).bind ?_
  rintro a _ rfl
  refine (PyRel.same _).bind ?_
  rintro v _ rfl
  refine (PyRel.same _).bind ?_
  rintro sq _ rfl
  refine PyRel.ok ?_
  simp only [U.mulUp, U.up, U.divUp, scaleRow]

theorem calc_hdev (U : TimeUnit fl q b) (x : List ℝ) (rate : ℝ) (m s : ℕ) :
    PyRel (fun r r' => r' = scaleRow q r) (calc_hdev_phase_fl fl sum x rate m s)
      (calc_hdev_phase_fl fl sum x (q * rate) m s) := by
  unfold calc_hdev_phase_fl
  simp only [U.rate_zero]
  by_cases hr : rate = 0
  · rw [if_pos hr, if_pos hr]; exact PyRel.error _
  rw [if_neg hr, if_neg hr]
  refine (PyRel.same _).bind ?_
  rintro d3 _ rfl
  refine (PyRel.same _).bind ?_
  rintro d2 _ rfl
  refine (PyRel.same _).bind ?_
  rintro d1 _ rfl
  refine (PyRel.same _).bind ?_
  rintro d0 _ rfl
  refine (PyRel.same _).bind ?_
  rintro u _ rfl
  refine (PyRel.same _).bind ?_
  rintro v _ rfl
  refine (PyRel.same _).bind ?_
  rintro w _ rfl
  refine (PyRel.same _).bind ?_
  rintro sq _ rfl
  refine PyRel.ok ?_
  simp only [U.divRate, U.down, U.mulDown', U.divDown, U.up, U.divUp, scaleRow]

theorem mdev_body (U : TimeUnit fl q b) (x taus : List ℝ) (i m : ℕ) :
    PyRel (fun r r' => r' = scaleRow q r) (mdev_body_fl fl sum x taus i m)
      (mdev_body_fl fl sum x (taus.map (b * ·)) i m) := by
  unfold mdev_body_fl
  refine (pyGet_rel _ _ _).bind ?_
  rintro tau _ rfl
  refine (PyRel.same _).bind ?_
  rintro a _ rfl
  refine (PyRel.same _).bind ?_
  rintro a' _ rfl
  refine (PyRel.same _).bind ?_
  rintro b1 _ rfl
  refine (PyRel.same _).bind ?_
  rintro b2 _ rfl
  refine (PyRel.same _).bind ?_
  rintro b3 _ rfl
  refine (PyRel.same _).bind ?_
  rintro sq _ rfl
  refine PyRel.ok ?_
  have e : ∀ y n : ℝ, fl (fl (fl (y * (b * tau)) * (b * tau)) * n) = b * b * fl (fl (fl (y * tau) * tau) * n) := by
    intro y n
    rw [U.mulDown y, U.down, U.sqDown, U.down2, U.mulDown2', U.down2]
  simp only [e, U.divDown2, U.up2, U.root, U.up, U.divUp, scaleRow]

theorem totdev_body (U : TimeUnit fl q b) (x : List ℝ) (mid N : ℕ) (rate : ℝ) (m : ℕ) :
    PyRel (fun r r' => r' = scaleRow q r) (totdev_body_fl fl sum x mid N rate m)
      (totdev_body_fl fl sum x mid N (q * rate) m) := by
  unfold totdev_body_fl
  refine (PyRel.same _).bind ?_
  rintro a _ rfl
  refine (PyRel.same _).bind ?_
  rintro v _ rfl
  refine (PyRel.same _).bind ?_
  rintro sq _ rfl
  refine PyRel.ok ?_
  simp only [U.divRate, U.down, U.sqDown, U.down2, U.mulDown2, U.mulDown2', U.divDown2, U.up2, U.root, U.up, U.divUp,
    scaleRow]

theorem calc_pdev (U : TimeUnit fl q b) (x : List ℝ) (rate : ℝ) (m : ℕ) :
    PyRel (fun r r' => r' = scaleRow q r) (calc_pdev_phase_fl fl sum x rate m)
      (calc_pdev_phase_fl fl sum x (q * rate) m) := by
  unfold calc_pdev_phase_fl
  by_cases hm : m = 1
  · simp only [if_pos hm]
    refine (PyRel.same _).bind ?_
    rintro d2 _ rfl
    refine (PyRel.same _).bind ?_
    rintro d1 _ rfl
    refine (PyRel.same _).bind ?_
    rintro d0 _ rfl
    refine (PyRel.same _).bind ?_
    rintro a _ rfl
    refine (PyRel.same _).bind ?_
    rintro v _ rfl
    refine (PyRel.same _).bind ?_
    rintro sq _ rfl
    refine PyRel.ok ?_
    simp only [U.mulUp, U.up, U.divUp, scaleRow]
  · simp only [if_neg hm]
    by_cases hM : (x.length : ℤ) - 2 * m < 1
    · simp only [if_pos hM]
      exact PyRel.ok (by simp [scaleRow])
    · simp only [if_neg hM]
      refine (PyRel.same _).bind ?_
      rintro s _ rfl
      refine PyRel.ok ?_
      simp only [U.divRate, U.down, U.mulDown (m : ℝ), U.sqDown, U.down2, U.mulDown2, U.divDown2, U.up2, U.root, U.up,
        U.divUp, scaleRow]

theorem theo1_body (U : TimeUnit fl q b) (x : List ℝ) (tau0 : ℝ) (m : ℕ) :
    PyRel (fun r r' => r' = scaleRow q r) (theo1_body_fl fl x tau0 m) (theo1_body_fl fl x (b * tau0) m) := by
  unfold theo1_body_fl
  refine (PyRel.same _).bind ?_
  rintro _ _ rfl
  refine (PyRel.same _).bind ?_
  rintro ⟨s, n⟩ _ rfl
  refine (PyRel.same _).bind ?_
  rintro _ _ rfl
  refine PyRel.ok ?_
  simp only [U.down, U.mulDown (m : ℝ), U.sqDown, U.down2, U.mulDown2, U.divDown2, U.up2, U.root, U.up, U.divUp, scaleRow]

theorem slope (U : TimeUnit fl q b) (rate : ℝ) (x : List ℝ) (m : ℕ) :
    tot_slope_fl fl sum (fun d => fl (d * fl (1 / (q * rate)))) x m =
      q * tot_slope_fl fl sum (fun d => fl (d * fl (1 / rate))) x m := by
  unfold tot_slope_fl
  simp only [U.divRate, U.down, U.mulDown, U.divDown, U.up]
  split_ifs <;> rfl

theorem calc_mtotdev (U : TimeUnit fl q b) (x : List ℝ) (rate : ℝ) (m : ℕ) :
    PyRel (fun r r' => r' = scaleRow q r) (calc_mtotdev_phase_fl fl sum x rate m)
      (calc_mtotdev_phase_fl fl sum x (q * rate) m) := by
  unfold calc_mtotdev_phase_fl
  refine (forRange_rel (R := fun s t : ℝ × ℕ => t = s) _ rfl ?_).bind ?_
  · rintro ⟨s, n⟩ _ i rfl
    have e : ∀ xs : List ℝ, (xs.zipIdx.map fun p => fl (p.1 - fl (fl (tot_slope_fl fl sum
          (fun d => fl (d * fl (1 / (q * rate)))) xs m * p.2) * fl (1 / (q * rate))))) =
        xs.zipIdx.map fun p => fl (p.1 - fl (fl (tot_slope_fl fl sum
          (fun d => fl (d * fl (1 / rate))) xs m * p.2) * fl (1 / rate))) := by
      intro xs
      apply List.map_congr_left
      rintro ⟨v, j⟩ _
      simp only
      rw [U.slope, U.mulUp', U.up, U.divRate, U.down, U.cancel']
    simp only [e]
    exact PyRel.same _
  rintro ⟨s, n⟩ _ rfl
  refine (PyRel.same _).bind ?_
  rintro _ _ rfl
  refine PyRel.ok ?_
  simp only [U.divRate, U.down, U.mulDown (m : ℝ), U.sqDown, U.down2, U.mulDown2, U.mulDown2', U.divDown2, U.up2, U.root, U.up, U.divUp,
    scaleRow]

theorem tdev_tail (U : TimeUnit fl q b) (r : DevOut ℝ) :
    PyRel (fun r r' => r' = timeOut b 1 r) (scaleToTdev_fl fl r) (scaleToTdev_fl fl (timeOut b q r)) := by
  unfold scaleToTdev_fl
  have h1 : PyRel (fun l l' => l' = l) (vmul_fl fl r.taus r.devs)
      (vmul_fl fl (timeOut b q r).taus (timeOut b q r).devs) := by
    have := vop_rel (f := fun u v => fl (u * v)) (g := (b * ·)) (h := (q * ·)) (k := id)
      (fun u v => by rw [U.cancel]; rfl) r.taus r.devs
    simp only [List.map_id] at this
    exact this
  refine h1.bind ?_
  rintro td _ rfl
  refine (PyRel.same _).bind ?_
  rintro l _ rfl
  exact PyRel.ok (by simp [timeOut, scaleOut])

end TimeUnit

section

variable (hfl : ∀ x, IsBinary64 x (fl x)) (k : ℤ) (log10grid x : List ℝ) (rate : ℝ) (taus : TausArg)

include hfl

/-- `adev`, `oadev`, `hdev` and `ohdev` -/
theorem adev_time_float :
    adev_fl fl sum log10grid x ((2 : ℝ) ^ k * rate) (scaleTaus ((2 : ℝ) ^ (-k)) taus) =
      (adev_fl fl sum log10grid x rate taus).map (timeOut ((2 : ℝ) ^ (-k)) ((2 : ℝ) ^ k)) ∧
    oadev_fl fl sum log10grid x ((2 : ℝ) ^ k * rate) (scaleTaus ((2 : ℝ) ^ (-k)) taus) =
      (oadev_fl fl sum log10grid x rate taus).map (timeOut ((2 : ℝ) ^ (-k)) ((2 : ℝ) ^ k)) ∧
    hdev_fl fl sum log10grid x ((2 : ℝ) ^ k * rate) (scaleTaus ((2 : ℝ) ^ (-k)) taus) =
      (hdev_fl fl sum log10grid x rate taus).map (timeOut ((2 : ℝ) ^ (-k)) ((2 : ℝ) ^ k)) ∧
    ohdev_fl fl sum log10grid x ((2 : ℝ) ^ k * rate) (scaleTaus ((2 : ℝ) ^ (-k)) taus) =
      (ohdev_fl fl sum log10grid x rate taus).map (timeOut ((2 : ℝ) ^ (-k)) ((2 : ℝ) ^ k)) := by
  have U := timeUnit hfl k
  refine ⟨?_, ?_, ?_, ?_⟩
  · refine PyRel.map_eq ((U.tau_gen _ _ _ _ _ _).bind ?_)
    rintro ⟨y, ms, ts⟩ _ rfl
    exact TimeUnit.run _ _ _ _ _ (fun _ _ => U.calc_adev _ _ _ _)
  · refine PyRel.map_eq ((U.tau_gen _ _ _ _ _ _).bind ?_)
    rintro ⟨y, ms, ts⟩ _ rfl
    exact TimeUnit.run _ _ _ _ _ (fun _ _ => U.calc_adev _ _ _ _)
  · refine PyRel.map_eq ((U.tau_gen _ _ _ _ _ _).bind ?_)
    rintro ⟨y, ms, ts⟩ _ rfl
    exact TimeUnit.run _ _ _ _ _ (fun _ _ => U.calc_hdev _ _ _ _)
  · refine PyRel.map_eq ((U.tau_gen _ _ _ _ _ _).bind ?_)
    rintro ⟨y, ms, ts⟩ _ rfl
    exact TimeUnit.run _ _ _ _ _ (fun _ _ => U.calc_hdev _ _ _ _)

/-- `mdev` and `tdev` -/
theorem mdev_time_float :
    mdev_fl fl sum log10grid x ((2 : ℝ) ^ k * rate) (scaleTaus ((2 : ℝ) ^ (-k)) taus) =
      (mdev_fl fl sum log10grid x rate taus).map (timeOut ((2 : ℝ) ^ (-k)) ((2 : ℝ) ^ k)) ∧
    tdev_fl fl sum log10grid x ((2 : ℝ) ^ k * rate) (scaleTaus ((2 : ℝ) ^ (-k)) taus) =
      (tdev_fl fl sum log10grid x rate taus).map (timeOut ((2 : ℝ) ^ (-k)) 1) := by
  have U := timeUnit hfl k
  have M : PyRel (fun r r' => r' = timeOut ((2 : ℝ) ^ (-k)) ((2 : ℝ) ^ k) r) (mdev_fl fl sum log10grid x rate taus)
      (mdev_fl fl sum log10grid x ((2 : ℝ) ^ k * rate) (scaleTaus ((2 : ℝ) ^ (-k)) taus)) := by
    refine (U.tau_gen _ _ _ _ _ _).bind ?_
    rintro ⟨y, ms, ts⟩ _ rfl
    exact TimeUnit.run _ _ _ _ _ (fun _ _ => U.mdev_body _ _ _ _)
  refine ⟨M.map_eq, PyRel.map_eq (M.bind ?_)⟩
  rintro r _ rfl
  exact U.tdev_tail r

/-- `mtotdev` and `ttotdev` -/
theorem mtotdev_time_float :
    mtotdev_fl fl sum log10grid x ((2 : ℝ) ^ k * rate) (scaleTaus ((2 : ℝ) ^ (-k)) taus) =
      (mtotdev_fl fl sum log10grid x rate taus).map (timeOut ((2 : ℝ) ^ (-k)) ((2 : ℝ) ^ k)) ∧
    ttotdev_fl fl sum log10grid x ((2 : ℝ) ^ k * rate) (scaleTaus ((2 : ℝ) ^ (-k)) taus) =
      (ttotdev_fl fl sum log10grid x rate taus).map (timeOut ((2 : ℝ) ^ (-k)) 1) := by
  have U := timeUnit hfl k
  have M : PyRel (fun r r' => r' = timeOut ((2 : ℝ) ^ (-k)) ((2 : ℝ) ^ k) r)
      (mtotdev_fl fl sum log10grid x rate taus)
      (mtotdev_fl fl sum log10grid x ((2 : ℝ) ^ k * rate) (scaleTaus ((2 : ℝ) ^ (-k)) taus)) := by
    refine (U.tau_gen _ _ _ _ _ _).bind ?_
    rintro ⟨y, ms, ts⟩ _ rfl
    exact TimeUnit.run _ _ _ _ _ (fun _ _ => U.calc_mtotdev _ _ _)
  refine ⟨M.map_eq, PyRel.map_eq (M.bind ?_)⟩
  rintro r _ rfl
  exact U.tdev_tail r

/-- `totdev`, `pdev` and `theo1` -/
theorem totdev_time_float :
    totdev_fl fl sum log10grid x ((2 : ℝ) ^ k * rate) (scaleTaus ((2 : ℝ) ^ (-k)) taus) =
      (totdev_fl fl sum log10grid x rate taus).map (timeOut ((2 : ℝ) ^ (-k)) ((2 : ℝ) ^ k)) ∧
    pdev_fl fl sum log10grid x ((2 : ℝ) ^ k * rate) (scaleTaus ((2 : ℝ) ^ (-k)) taus) =
      (pdev_fl fl sum log10grid x rate taus).map (timeOut ((2 : ℝ) ^ (-k)) ((2 : ℝ) ^ k)) ∧
    theo1_fl fl log10grid x ((2 : ℝ) ^ k * rate) (scaleTaus ((2 : ℝ) ^ (-k)) taus) =
      (theo1_fl fl log10grid x rate taus).map (timeOut ((2 : ℝ) ^ (-k)) ((2 : ℝ) ^ k)) := by
  have U := timeUnit hfl k
  refine ⟨?_, ?_, ?_⟩
  · refine PyRel.map_eq ((U.tau_gen _ _ _ _ _ _).bind ?_)
    rintro ⟨y, ms, ts⟩ _ rfl
    refine (PyRel.same _).bind ?_
    rintro ⟨z, mid⟩ _ rfl
    exact TimeUnit.run _ _ _ _ _ (fun _ _ => U.totdev_body _ _ _ _ _)
  · refine PyRel.map_eq ((U.tau_gen _ _ _ _ _ _).bind ?_)
    rintro ⟨y, ms, ts⟩ _ rfl
    exact TimeUnit.run _ _ _ _ _ (fun _ _ => U.calc_pdev _ _ _)
  · unfold theo1_fl
    simp only [U.rate_zero]
    by_cases hr : rate = 0
    · rw [if_pos hr, if_pos hr]; rfl
    rw [if_neg hr, if_neg hr]
    refine PyRel.map_eq ((U.tau_gen _ _ _ _ _ _).bind ?_)
    rintro ⟨y, ms, ts⟩ _ rfl
    refine TimeUnit.run _ _ _ _ _ (fun _ _ => ?_)
    simp only [U.divRate, U.down]
    exact U.theo1_body _ _ _

/-- `tierms` and `mtie` -/
theorem mtie_time_float :
    tierms_fl fl sum log10grid x ((2 : ℝ) ^ k * rate) (scaleTaus ((2 : ℝ) ^ (-k)) taus) =
      (tierms_fl fl sum log10grid x rate taus).map (timeOut ((2 : ℝ) ^ (-k)) 1) ∧
    mtie_fl fl log10grid x ((2 : ℝ) ^ k * rate) (scaleTaus ((2 : ℝ) ^ (-k)) taus) =
      (mtie_fl fl log10grid x rate taus).map (timeOut ((2 : ℝ) ^ (-k)) 1) := by
  have U := timeUnit hfl k
  have one : ∀ r : Py (ℝ × ℝ × ℤ), PyRel (fun r r' => r' = scaleRow 1 r) r r := by
    intro r
    cases r with
    | error e => exact PyRel.error e
    | ok r => exact PyRel.ok (by simp [scaleRow])
  constructor
  · refine PyRel.map_eq ((U.tau_gen _ _ _ _ _ _).bind ?_)
    rintro ⟨y, ms, ts⟩ _ rfl
    exact TimeUnit.run _ _ _ _ _ (fun _ _ => one _)
  · refine PyRel.map_eq ((U.tau_gen _ _ _ _ _ _).bind ?_)
    rintro ⟨y, ms, ts⟩ _ rfl
    exact TimeUnit.run _ _ _ _ _ (fun _ _ => one _)

end

/-- Four samples with Allan deviation 1 at 1 Hz: at 8 Hz the averaging time is 1/8 s and the Allan deviation exactly
8 in double precision. -/
example : ∃ (fl : ℝ → ℝ) (sum : List ℝ → ℝ), (∀ x, IsBinary64 x (fl x)) ∧
    ∃ err, oadev_fl fl sum [] [0, 0, 2, 4] (2 ^ (3 : ℤ) * 1) (.list [2 ^ (-3 : ℤ) * (((1 : ℕ) : ℝ) / 1)]) =
      .ok ⟨[1 / 8], [8], .arr [err], [2]⟩ := by
  choose fl hfl using exists_isBinary64
  obtain ⟨sum, h1⟩ := exists_floatSum fl
  refine ⟨fl, sum, hfl, ?_⟩
  obtain ⟨err, he⟩ := oadev_fl_pow hfl h1 0
  have e : ([0, 0, 2 ^ ((0 : ℤ) + 1), 2 ^ ((0 : ℤ) + 2)] : List ℝ) = [0, 0, 2, 4] := by norm_num
  rw [e] at he
  have h := (adev_time_float (sum := sum) hfl 3 [] [0, 0, 2, 4] 1 (.list [((1 : ℕ) : ℝ) / 1])).2.1
  rw [he] at h
  refine ⟨2 ^ (3 : ℤ) * err, h.trans ?_⟩
  simp only [Except.map, timeOut, scaleOut, List.map_cons, List.map_nil]
  norm_num

end AT
