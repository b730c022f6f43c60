import Verif.Props.FloatTimeFreq

/-!
# C125: gcodev, htotdev and the three-cornered hat in other units in double precision

Property: if the rate is multiplied by `2^k` and the given averaging times by `2^-k`, the deviations of `gcodev` and
`htotdev` of phase data and their error bars, as computed in double precision, are multiplied by exactly `2^k`, and
those of frequency data do not change.  The three-cornered hat follows whatever factor `2^j` the three deviations
have: multiplying the three phases by `2^j` multiplies its deviations by exactly `2^j`, and the change of the rate by
`2^k` multiplies them by exactly `2^k`.
-/

namespace AT

open Spec Real

variable {fl : ℝ → ℝ} {sum : List ℝ → ℝ}

namespace TimeUnit

variable {q b : ℝ}

theorem calc_gcodev (U : TimeUnit fl q b) (x y : List ℝ) (rate : ℝ) (m s : ℕ) :
    PyRel (fun r r' => r' = scaleRow q r) (calc_gcodev_phase_fl fl sum x y rate m s)
      (calc_gcodev_phase_fl fl sum x y (q * rate) m s) := by
  unfold calc_gcodev_phase_fl
  refine (PyRel.same _).bind ?_
  rintro d2 _ rfl
  refine (PyRel.same _).bind ?_
  rintro d1 _ rfl
  refine (PyRel.same _).bind ?_
  rintro d0 _ rfl
  refine (PyRel.same _).bind ?_
  rintro e2 _ rfl
  refine (PyRel.same _).bind ?_
  rintro e1 _ rfl
  refine (PyRel.same _).bind ?_
  rintro e0 _ rfl
  refine (PyRel.same _).bind ?_
  rintro a _ rfl
  refine (PyRel.same _).bind ?_
  rintro v _ rfl
  refine (PyRel.same _).bind ?_
  rintro a _ rfl
  refine (PyRel.same _).bind ?_
  rintro w _ rfl
  refine (PyRel.same _).bind ?_
  rintro p _ rfl
  refine PyRel.ok ?_
  simp only [U.mulUp, U.up, scaleRow]
  split_ifs <;> simp only [U.divUp, U.up]

theorem toFreq (U : TimeUnit fl q b) (x : List ℝ) (rate : ℝ) :
    phase2frequency_fl fl x (q * rate) = (phase2frequency_fl fl x rate).map (q * ·) := by
  unfold phase2frequency_fl vscale_fl
  rw [List.map_map]
  apply List.map_congr_left
  intro v _
  simp only [Function.comp]
  rw [mul_assoc, U.up]

end TimeUnit

theorem gcodev_time {q b : ℝ} (U : TimeUnit fl q b) (log10grid x y : List ℝ) (rate : ℝ) (taus : TausArg) :
    PyRel (fun r r' => r' = timeOut b q r) (gcodev_fl fl sum log10grid x y rate taus)
      (gcodev_fl fl sum log10grid x y (q * rate) (scaleTaus b taus)) := by
  refine (U.tau_gen _ _ _ _ _ _).bind ?_
  rintro ⟨x', ms', ts'⟩ _ rfl
  refine (U.tau_gen _ _ _ _ _ _).bind ?_
  rintro ⟨y', ms, ts⟩ _ rfl
  exact TimeUnit.run _ _ _ _ _ (fun _ _ => U.calc_gcodev _ _ _ _ _)

section

variable (hfl : ∀ x, IsBinary64 x (fl x)) (hsum : SumScale sum) (k : ℤ) (log10grid x y : List ℝ) (rate : ℝ)
  (taus : TausArg)

include hfl hsum

/-- `gcodev` of phases and of frequencies -/
theorem gcodev_time_float :
    gcodev_fl fl sum log10grid x y ((2 : ℝ) ^ k * rate) (scaleTaus ((2 : ℝ) ^ (-k)) taus) =
      (gcodev_fl fl sum log10grid x y rate taus).map (timeOut ((2 : ℝ) ^ (-k)) ((2 : ℝ) ^ k)) ∧
    gcodev_freq_fl fl sum log10grid x y ((2 : ℝ) ^ k * rate) (scaleTaus ((2 : ℝ) ^ (-k)) taus) =
      (gcodev_freq_fl fl sum log10grid x y rate taus).map (timeOut ((2 : ℝ) ^ (-k)) 1) := by
  have U := timeUnit hfl k
  refine ⟨PyRel.map_eq (gcodev_time U _ _ _ _ _), ?_⟩
  have hc : (2 : ℝ) ^ (-k) = (2 : ℝ) ^ (-k) ∨ (2 : ℝ) ^ (-k) = -(2 : ℝ) ^ (-k) := Or.inl rfl
  have e : (1 : ℝ) = (2 : ℝ) ^ k * (2 : ℝ) ^ (-k) := by
    rw [zpow_neg, mul_inv_cancel₀ (by positivity)]
  unfold gcodev_freq_fl
  rcases U.freq (sum := sum) x rate with ⟨_, h1, h2⟩ | ⟨p, _, h1, h2, rfl⟩
  · rw [h1, h2]; rfl
  rcases U.freq (sum := sum) y rate with ⟨_, g1, g2⟩ | ⟨r, _, g1, g2, rfl⟩
  · rw [h1, h2, g1, g2]; rfl
  rw [h1, h2, g1, g2]
  simp only [ok_bind]
  rw [PyRel.map_eq (gcodev_time U _ _ _ _ _), gcodev_scale_float hfl hsum (-k) hc log10grid p rate taus r, e]
  cases gcodev_fl fl sum log10grid p r rate taus with
  | error e => rfl
  | ok o =>
    simp only [Except.map]
    rw [timeOut_scaleOut]

/-- `htotdev` of phases and of frequencies -/
theorem htotdev_time_float :
    htotdev_fl fl sum log10grid x ((2 : ℝ) ^ k * rate) (scaleTaus ((2 : ℝ) ^ (-k)) taus) =
      (htotdev_fl fl sum log10grid x rate taus).map (timeOut ((2 : ℝ) ^ (-k)) ((2 : ℝ) ^ k)) ∧
    htotdev_freq_fl fl sum log10grid x ((2 : ℝ) ^ k * rate) (scaleTaus ((2 : ℝ) ^ (-k)) taus) =
      (htotdev_freq_fl fl sum log10grid x rate taus).map (timeOut ((2 : ℝ) ^ (-k)) 1) := by
  have U := timeUnit hfl k
  have S : Scale fl sum ((2 : ℝ) ^ k) := scale_of hfl hsum (Or.inl rfl)
  have T : Scale fl sum ((2 : ℝ) ^ (-k)) := scale_of hfl hsum (Or.inl rfl)
  have a1 : |(2 : ℝ) ^ k| = (2 : ℝ) ^ k := abs_of_pos (by positivity)
  have a2 : |(2 : ℝ) ^ (-k)| = (2 : ℝ) ^ (-k) := abs_of_pos (by positivity)
  constructor
  · refine PyRel.map_eq ?_
    unfold htotdev_fl
    simp only [U.toFreq, List.length_map]
    have h := U.tau_gen log10grid (phase2frequency_fl fl x rate) rate taus false
      (fl (((phase2frequency_fl fl x rate).length : ℝ) / 3))
    have h' := tau_generator_rel (fl := fl) ((2 : ℝ) ^ k * ·) log10grid (phase2frequency_fl fl x rate)
      ((2 : ℝ) ^ k * rate) (scaleTaus ((2 : ℝ) ^ (-k)) taus) false
      (fl (((phase2frequency_fl fl x rate).length : ℝ) / 3))
    have g : PyRel (fun a a' => a' = (a.1.map ((2 : ℝ) ^ k * ·), a.2.1, a.2.2.map ((2 : ℝ) ^ (-k) * ·)))
        (tau_generator_fl fl log10grid (phase2frequency_fl fl x rate) rate taus false
          (fl (((phase2frequency_fl fl x rate).length : ℝ) / 3)))
        (tau_generator_fl fl log10grid ((phase2frequency_fl fl x rate).map ((2 : ℝ) ^ k * ·)) ((2 : ℝ) ^ k * rate)
          (scaleTaus ((2 : ℝ) ^ (-k)) taus) false (fl (((phase2frequency_fl fl x rate).length : ℝ) / 3))) := by
      rcases h with ⟨e, h1, h2⟩ | ⟨a, _, h1, h2, rfl⟩
      · rcases h' with ⟨e', g1, g2⟩ | ⟨a', _, g1, g2, rfl⟩
        · rw [h2] at g1
          cases g1
          exact Or.inl ⟨e, h1, g2⟩
        · rw [h2] at g1; cases g1
      · rcases h' with ⟨e', g1, g2⟩ | ⟨a', _, g1, g2, rfl⟩
        · rw [h2] at g1; cases g1
        · rw [h2] at g1
          cases g1
          exact Or.inr ⟨a, _, h1, g2, rfl⟩
    refine g.bind ?_
    rintro ⟨f, ms, ts⟩ _ rfl
    refine TimeUnit.run _ _ _ _ _ (fun _ m => ?_)
    split_ifs
    · exact U.calc_hdev _ _ _ _
    · have := S.calc_htotdev f m
      rwa [a1] at this
  · refine PyRel.map_eq ((U.freq (sum := sum) x rate).bind ?_)
    rintro p _ rfl
    refine (U.tau_gen _ _ _ _ _ _).bind ?_
    rintro ⟨f, ms, ts⟩ _ rfl
    refine TimeUnit.run _ _ _ _ _ (fun _ m => ?_)
    split_ifs
    · rcases T.calc_hdev p rate m 1 with ⟨e, h1, h2⟩ | ⟨r, _, h1, h2, rfl⟩
      · rcases U.calc_hdev (sum := sum) (p.map ((2 : ℝ) ^ (-k) * ·)) rate m 1 with ⟨e', g1, g2⟩ | ⟨r', _, g1, g2, rfl⟩
        · rw [h2] at g1
          cases g1
          exact Or.inl ⟨e, h1, g2⟩
        · rw [h2] at g1; cases g1
      · rcases U.calc_hdev (sum := sum) (p.map ((2 : ℝ) ^ (-k) * ·)) rate m 1 with ⟨e', g1, g2⟩ | ⟨r', _, g1, g2, rfl⟩
        · rw [h2] at g1; cases g1
        · rw [h2] at g1
          cases g1
          refine Or.inr ⟨r, _, h1, g2, ?_⟩
          have e : ∀ t : ℝ, (2 : ℝ) ^ k * ((2 : ℝ) ^ (-k) * t) = t := by
            intro t
            rw [← mul_assoc, zpow_neg, mul_inv_cancel₀ (by positivity), one_mul]
          simp only [scaleRow, a2, e, one_mul]
    · rcases hh : calc_htotdev_freq_fl fl sum f m with e | r
      · exact PyRel.error _
      · exact PyRel.ok (by simp [scaleRow])

end

theorem sumScale_exact : SumScale List.sum := by
  intro k l
  constructor
  · induction l with
    | nil => simp
    | cons v l ih => rw [List.map_cons, List.sum_cons, ih, List.sum_cons]; ring
  · induction l with
    | nil => simp
    | cons v l ih => rw [List.map_cons, List.sum_cons, ih, List.sum_cons]; ring

/-- the three-cornered hat of three tables that are multiplied by `2^j` -/
theorem hat_factor_float (hfl : ∀ x, IsBinary64 x (fl x)) (j : ℤ) (b : ℝ) (ab bc ca ab' bc' ca' : List ℝ)
    (rate rate' : ℝ) (taus taus' : TausArg) (D D' : List ℝ → ℝ → TausArg → Py (DevOut ℝ))
    (hab : D' ab' rate' taus' = (D ab rate taus).map (timeOut b ((2 : ℝ) ^ j)))
    (hbc : D' bc' rate' taus' = (D bc rate taus).map (timeOut b ((2 : ℝ) ^ j)))
    (hca : D' ca' rate' taus' = (D ca rate taus).map (timeOut b ((2 : ℝ) ^ j))) :
    three_cornered_hat_phase_fl fl ab' bc' ca' rate' taus' D' =
      (three_cornered_hat_phase_fl fl ab bc ca rate taus D).map (timeOut b ((2 : ℝ) ^ j)) := by
  have S : Scale fl List.sum ((2 : ℝ) ^ j) := scale_of hfl sumScale_exact (Or.inl rfl)
  have S2 : Scale fl List.sum ((2 : ℝ) ^ j * (2 : ℝ) ^ j) :=
    scale_of hfl sumScale_exact (k := j + j) (Or.inl (zpow_add₀ two_ne_zero j j).symm)
  have hp : (0 : ℝ) < (2 : ℝ) ^ j * (2 : ℝ) ^ j := by positivity
  have a1 : |(2 : ℝ) ^ j| = (2 : ℝ) ^ j := abs_of_pos (by positivity)
  have rel : ∀ {x : Py (DevOut ℝ)} {y : Py (DevOut ℝ)}, y = x.map (timeOut b ((2 : ℝ) ^ j)) →
      PyRel (fun r r' => r' = timeOut b ((2 : ℝ) ^ j) r) x y := by
    rintro (e | r) _ rfl
    · exact PyRel.error _
    · exact PyRel.ok rfl
  refine PyRel.map_eq ?_
  unfold three_cornered_hat_phase_fl
  refine (rel hab).bind ?_
  rintro ⟨t1, d1, e1, n1⟩ _ rfl
  refine (rel hbc).bind ?_
  rintro ⟨t2, d2, e2, n2⟩ _ rfl
  refine (rel hca).bind ?_
  rintro ⟨t3, d3, e3, n3⟩ _ rfl
  simp only [timeOut, scaleOut]
  refine (S.vmul _ _).bind ?_
  rintro v1 _ rfl
  refine (S.vmul _ _).bind ?_
  rintro v2 _ rfl
  refine (S.vmul _ _).bind ?_
  rintro v3 _ rfl
  simp only [List.length_map]
  refine (PyRel.same _).bind ?_
  rintro _ _ rfl
  refine (S2.vadd _ _).bind ?_
  rintro s _ rfl
  refine (S2.vsub _ _).bind ?_
  rintro w _ rfl
  refine PyRel.ok ?_
  have clip : ∀ v : ℝ, (if (2 : ℝ) ^ j * (2 : ℝ) ^ j * v < 0 then 0 else (2 : ℝ) ^ j * (2 : ℝ) ^ j * v) =
      (2 : ℝ) ^ j * (2 : ℝ) ^ j * (if v < 0 then 0 else v) := by
    intro v
    have : (2 : ℝ) ^ j * (2 : ℝ) ^ j * v < 0 ↔ v < 0 := by
      constructor
      · intro h
        by_contra hv
        exact absurd (mul_nonneg hp.le (not_lt.1 hv)) (not_le.2 h)
      · exact mul_neg_of_pos_of_neg hp
    by_cases hv : v < 0
    · rw [if_pos (this.2 hv), if_pos hv, mul_zero]
    · rw [if_neg (fun h => hv (this.1 h)), if_neg hv]
  have one : ∀ v : ℝ, fl ((2 : ℝ) ^ j * v) = (2 : ℝ) ^ j * fl v := S.one
  have root : ∀ v : ℝ, √((2 : ℝ) ^ j * (2 : ℝ) ^ j * v) = (2 : ℝ) ^ j * √v := by
    intro v
    rw [S.root, a1]
  simp only [S2.vscale, List.map_map, Function.comp_def, clip, root, one, List.zipWith_map_left,
    List.map_zipWith, mul_div_assoc]

section

variable (hfl : ∀ x, IsBinary64 x (fl x)) (log10grid ab bc ca : List ℝ) (rate : ℝ) (taus : TausArg)

include hfl

/-- the three-cornered hat with `oadev`: other units of the data and another unit of time -/
theorem hat_scale_float (hsum : SumScale sum) (j : ℤ) :
    three_cornered_hat_phase_fl fl (ab.map ((2 : ℝ) ^ j * ·)) (bc.map ((2 : ℝ) ^ j * ·)) (ca.map ((2 : ℝ) ^ j * ·))
      rate taus (oadev_fl fl sum log10grid) =
    (three_cornered_hat_phase_fl fl ab bc ca rate taus (oadev_fl fl sum log10grid)).map (scaleOut ((2 : ℝ) ^ j)) := by
  have e : timeOut 1 ((2 : ℝ) ^ j) = scaleOut ((2 : ℝ) ^ j) := by
    funext o
    simp [timeOut, scaleOut]
  have h : ∀ x : List ℝ, oadev_fl fl sum log10grid (x.map ((2 : ℝ) ^ j * ·)) rate taus =
      (oadev_fl fl sum log10grid x rate taus).map (timeOut 1 ((2 : ℝ) ^ j)) := by
    intro x
    rw [e]
    exact (adev_scale_float hfl hsum j (Or.inl rfl) log10grid x rate taus).2
  rw [← e]
  exact hat_factor_float hfl j 1 _ _ _ _ _ _ _ _ _ _ _ _ (h ab) (h bc) (h ca)

theorem hat_time_float (k : ℤ) :
    three_cornered_hat_phase_fl fl ab bc ca ((2 : ℝ) ^ k * rate) (scaleTaus ((2 : ℝ) ^ (-k)) taus)
      (oadev_fl fl sum log10grid) =
    (three_cornered_hat_phase_fl fl ab bc ca rate taus (oadev_fl fl sum log10grid)).map
      (timeOut ((2 : ℝ) ^ (-k)) ((2 : ℝ) ^ k)) :=
  have h := fun x => (adev_time_float (sum := sum) hfl k log10grid x rate taus).2.1
  hat_factor_float hfl k _ _ _ _ _ _ _ _ _ _ _ _ _ (h ab) (h bc) (h ca)

end

/-- The pairs of three clocks have the Allan deviations 1, `2^-30` and 1, so that the first clock has deviation 1 in
double precision.  With the data in units eight times smaller it has exactly 8. -/
example : ∃ (fl : ℝ → ℝ) (sum : List ℝ → ℝ), (∀ x, IsBinary64 x (fl x)) ∧ SumScale sum ∧
    ∃ err, three_cornered_hat_phase_fl fl ([0, 0, 2, 4].map ((2 : ℝ) ^ (3 : ℤ) * ·))
      ([0, 0, 1 / 2 ^ 29, 1 / 2 ^ 28].map ((2 : ℝ) ^ (3 : ℤ) * ·)) ([0, 0, 2, 4].map ((2 : ℝ) ^ (3 : ℤ) * ·)) 1
      (.list [((1 : ℕ) : ℝ) / 1]) (oadev_fl fl sum []) = .ok ⟨[1], [8], .arr [err], [2]⟩ := by
  choose fl hfl using exists_isBinary64
  obtain ⟨sum, hsum, h2⟩ := exists_sumScale hfl
  refine ⟨fl, sum, hfl, h2, ?_⟩
  rw [hat_scale_float hfl _ _ _ _ _ _ h2 3]
  obtain ⟨f1, h1⟩ := oadev_fl_pow hfl hsum 0
  obtain ⟨f2, h2⟩ := oadev_fl_pow hfl hsum (-30)
  norm_num at h1 h2
  have o1 : fl 1 = 1 := by simpa using binary64_pow hfl 0
  have s1 : fl (1 / 1073741824 * (1 / 1073741824)) = 1 / 2 ^ 60 := by
    have := binary64_pow hfl (-60)
    norm_num at this ⊢
    exact this
  have o2 : fl (1 + 1) = 2 := by
    have := binary64_pow hfl 1
    norm_num at this ⊢
    exact this
  have s2 : fl (2 - 1 / 2 ^ 60) = 2 := by
    have := binary64_eq hfl (2 - 1 / 2 ^ 60) (-52) (2 ^ 53) (by norm_num [abs_of_pos])
      (by norm_num [abs_of_pos]) (by norm_num [abs_of_pos])
    rw [this]; norm_num
  have s3 : fl (0.5 * 2) = 1 := by
    rw [show (0.5 : ℝ) * 2 = 1 by norm_num]; exact o1
  have n1 : ((1 : ℕ) : ℝ) / 1 = 1 := by norm_num
  have n2 : (1 : ℝ) / 2 ^ 29 = 1 / 536870912 := by norm_num
  have n3 : (1 : ℝ) / 2 ^ 28 = 1 / 268435456 := by norm_num
  unfold three_cornered_hat_phase_fl
  simp only [n1, n2, n3]
  rw [h1, h2]
  simp only [ok_bind]
  have vo : ∀ (f : ℝ → ℝ → ℝ) (a b : ℝ), vop f [a] [b] = .ok [f a b] := fun _ _ _ => rfl
  simp only [vmul_fl, vadd_fl, vsub_fl, vo, ok_bind, List.length_singleton]
  rw [pyAssert_true (by simp)]
  have n4 : ¬ (1 : ℝ) < 0 := by norm_num
  simp only [ok_bind, vscale_fl, List.map_cons, List.map_nil, mul_one, o1, s1, o2, s2, s3, n4, if_false,
    Real.sqrt_one, Except.map, scaleOut, List.zipWith_cons_cons, List.zipWith_nil_left]
  exact ⟨8 * fl (fl √2)⁻¹, by norm_num⟩

end AT
