import Verif.Props.FloatScaleMore

/-!
# C127: scaling of mtie_phase_fast in double precision

Property: if all phases are multiplied by `2^k`, the results of `mtie_phase_fast`, as computed in double precision, are
multiplied by exactly `2^k`; taus, counts and exceptions do not change, whatever the logarithm returns.
-/

namespace AT

open Spec Real

variable {fl : ℝ → ℝ} {c : ℝ}

theorem pySet_rel {α β : Type} (f : α → β) (l : List α) (i : ℕ) (v : α) :
    PyRel (fun a b => b = a.map f) (pySet l i v) (pySet (l.map f) i (f v)) := by
  unfold pySet
  rw [List.length_map]
  split_ifs
  · exact PyRel.ok (by rw [List.map_set])
  · exact PyRel.error _

theorem mtie_fast_entry_rel (hc : 0 ≤ c) (x pmax pmin : List ℝ) (k i : ℕ) :
    PyRel (fun a b => b = (c * a.1, c * a.2)) (mtie_fast_entry x pmax pmin k i)
      (mtie_fast_entry (x.map (c * ·)) (pmax.map (c * ·)) (pmin.map (c * ·)) k i) := by
  unfold mtie_fast_entry
  split_ifs
  · refine (pyGet_rel _ _ _).bind ?_
    rintro u _ rfl
    refine (pyGet_rel _ _ _).bind ?_
    rintro v _ rfl
    exact PyRel.ok (by rw [mul_max_of_nonneg _ _ hc, mul_min_of_nonneg _ _ hc])
  · refine (pyGet_rel _ _ _).bind ?_
    rintro u _ rfl
    refine (pyGet_rel _ _ _).bind ?_
    rintro v _ rfl
    refine (pyGet_rel _ _ _).bind ?_
    rintro u' _ rfl
    refine (pyGet_rel _ _ _).bind ?_
    rintro v' _ rfl
    exact PyRel.ok (by rw [mul_max_of_nonneg _ _ hc, mul_min_of_nonneg _ _ hc])

theorem mtie_fast_column_rel (hc : 0 ≤ c) (hs : ∀ x, fl (c * x) = c * fl x) (x pmax pmin : List ℝ) (k : ℕ) :
    PyRel (fun a b => b = (a.1.map (c * ·), a.2.1.map (c * ·), a.2.2.map (c * ·)))
      (mtie_fast_column_fl fl x pmax pmin k)
      (mtie_fast_column_fl fl (x.map (c * ·)) (pmax.map (c * ·)) (pmin.map (c * ·)) k) := by
  unfold mtie_fast_column_fl
  simp only [List.length_map]
  refine forRange_rel _ (by simp) ?_
  rintro ⟨s1, s2, s3⟩ _ i rfl
  refine (mtie_fast_entry_rel hc _ _ _ _ _).bind ?_
  rintro ⟨u, v⟩ _ rfl
  refine (pySet_rel _ _ _ _).bind ?_
  rintro t1 _ rfl
  refine (pySet_rel _ _ _ _).bind ?_
  rintro t2 _ rfl
  have e : fl (c * u - c * v) = c * fl (u - v) := by rw [← mul_sub, hs]
  simp only [e]
  refine (pySet_rel (c * ·) _ _ _).bind ?_
  rintro t3 _ rfl
  exact PyRel.ok rfl

theorem mtie_phase_fast_scale_float (hfl : ∀ x, IsBinary64 x (fl x)) (lg : ℝ → ℝ) (k : ℤ) (x : List ℝ) :
    mtie_phase_fast_fl fl lg (x.map ((2 : ℝ) ^ k * ·)) =
      (mtie_phase_fast_fl fl lg x).map (scaleOut ((2 : ℝ) ^ k)) := by
  have hc : (0 : ℝ) ≤ (2 : ℝ) ^ k := by positivity
  refine PyRel.map_eq ?_
  unfold mtie_phase_fast_fl
  simp only [List.length_map, slice_map']
  split_ifs
  · exact PyRel.error _
  refine (PyRel.same _).bind ?_
  rintro _ _ rfl
  refine (forRange_rel (R := fun s t : List ℝ × List ℝ × List (ℝ × ℤ) => t = (s.1.map ((2 : ℝ) ^ k * ·),
    s.2.1.map ((2 : ℝ) ^ k * ·), s.2.2.map fun p => ((2 : ℝ) ^ k * p.1, p.2))) _ (by simp) ?_).bind ?_
  · rintro ⟨s1, s2, s3⟩ _ i rfl
    refine (mtie_fast_column_rel hc (fun x => binary64_scale hfl k x) _ _ _ _).bind ?_
    rintro ⟨a1, a2, a3⟩ _ rfl
    refine (Scale.npMax_pos hc _).bind ?_
    rintro d _ rfl
    exact PyRel.ok (by simp)
  · rintro ⟨s1, s2, s3⟩ _ rfl
    have e1 : (s3.map fun p => ((2 : ℝ) ^ k * p.1, p.2)).map (fun p => p.1) =
        (s3.map fun p => p.1).map ((2 : ℝ) ^ k * ·) := by
      rw [List.map_map, List.map_map]; rfl
    have e2 : (s3.map fun p => ((2 : ℝ) ^ k * p.1, p.2)).map (fun p => p.2) = s3.map fun p => p.2 := by
      rw [List.map_map]; rfl
    simp only [e1, e2]
    unfold remove_small_ns
    refine (PyRel.same _).bind ?_
    rintro t _ rfl
    refine (maskSel_rel _ _ _).bind ?_
    rintro d _ rfl
    refine (PyRel.same _).bind ?_
    rintro n _ rfl
    have e3 : ∀ m : ℕ, List.replicate m (0 : ℝ) = (List.replicate m 0).map ((2 : ℝ) ^ k * ·) := by simp
    have h := maskSel_rel ((2 : ℝ) ^ k * ·) (List.replicate ⌊lg x.length⌋.toNat (0 : ℝ))
      ((s3.map fun p => p.2).map fun n => decide (1 < n))
    rw [← e3] at h
    refine h.bind ?_
    rintro l _ rfl
    simp only [ok_bind, List.length_map]
    split_ifs
    · exact PyRel.error _
    · exact PyRel.ok rfl

/-- Five phases in units eight times smaller: the result is eight times as large. -/
example : ∃ fl lg : ℝ → ℝ, (∀ x, IsBinary64 x (fl x)) ∧
    ∃ d, mtie_phase_fast_fl fl lg [0, 3, 1, 7, 9] = .ok ⟨[1], [fl d], .arr [0], [3]⟩ ∧
      mtie_phase_fast_fl fl lg ([0, 3, 1, 7, 9].map ((2 : ℝ) ^ (3 : ℤ) * ·)) =
        .ok ⟨[1], [8 * fl d], .arr [0], [3]⟩ := by
  obtain ⟨fl, h1, hlg, hpow⟩ := exists_lg
  have h : mtie_phase_fast_fl fl (fun v => fl (Real.logb 2 v)) [0, 3, 1, 7, 9] =
      .ok ⟨[1], [fl (Spec.mtie (seq [0, 3, 1, 7, 9]) 4 1)], .arr [0], [3]⟩ := by
    rw [mtie_phase_fast_binary64 h1 hlg hpow _ (by norm_num), mtie_phase_fast_eq_partial]
    have e : Nat.log 2 ([0, 3, 1, 7, 9] : List ℝ).length = 2 :=
      Nat.log_eq_of_pow_le_of_lt_pow (by norm_num) (by norm_num)
    rw [if_neg (by norm_num), if_neg (by norm_num), e]
    simp [tab, Except.map]
  refine ⟨fl, fun v => fl (Real.logb 2 v), h1, _, h, ?_⟩
  rw [mtie_phase_fast_scale_float h1, h]
  simp only [Except.map, scaleOut, List.map_cons, List.map_nil]
  norm_num

end AT
