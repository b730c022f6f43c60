import Verif.Spec.FloatGradevUnits
import Verif.Model.FloatGradevFreq
import Verif.Props.FloatGradev
import Verif.Props.FloatTimeMore

/-!
# C126: gradev in other units in double precision

Property: if all phases are multiplied by `2^j` or `-2^j`, gaps staying gaps, the rate by `2^k` and the given averaging
times by `2^-k`, then the averaging times of `gradev` in double precision are multiplied by exactly `2^-k`, its
deviations by exactly `2^(j+k)`, and so are the error bars, computed from them in exact arithmetic; missing error bars,
counts and exceptions do not change.  For frequencies without gaps the factors are `2^-k` and `2^j`.
-/

namespace AT

open Spec Real

variable {fl : ℝ → ℝ} {sum : List ℝ → ℝ}

theorem PyRel.trans {α β γ : Type} {R : α → β → Prop} {Q : β → γ → Prop} {T : α → γ → Prop} {x : Py α} {y : Py β}
    {z : Py γ} (h : PyRel R x y) (h' : PyRel Q y z) (K : ∀ a b c, R a b → Q b c → T a c) : PyRel T x z := by
  rcases h with ⟨e, h1, h2⟩ | ⟨a, b, h1, h2, h3⟩
  · rcases h' with ⟨e', g1, g2⟩ | ⟨b', c, g1, g2, g3⟩
    · rw [h2] at g1
      cases g1
      exact Or.inl ⟨e, h1, g2⟩
    · rw [h2] at g1; cases g1
  · rcases h' with ⟨e', g1, g2⟩ | ⟨b', c, g1, g2, g3⟩
    · rw [h2] at g1; cases g1
    · rw [h2] at g1
      cases g1
      exact Or.inr ⟨a, c, h1, g2, K a b c h3 g3⟩

theorem confidence_interval_units (ppf : ℝ → ℝ → NV) {a : ℝ} (ha : 0 < a) (dev edf ci : ℝ) :
    confidence_interval ppf (a * dev) edf ci =
      ((confidence_interval ppf dev edf ci).1.map (a * ·), (confidence_interval ppf dev edf ci).2.map (a * ·)) := by
  have key : ∀ c : NV, nvSqrt (nvDiv (some (edf * (a * dev * (a * dev)))) c) =
      (nvSqrt (nvDiv (some (edf * (dev * dev))) c)).map (a * ·) := by
    rintro (_ | c)
    · rfl
    · unfold nvDiv
      dsimp only
      by_cases hc : c = 0
      · rw [if_pos hc, if_pos hc]; rfl
      · rw [if_neg hc, if_neg hc]
        have e : edf * (a * dev * (a * dev)) / c = a * a * (edf * (dev * dev) / c) := by ring
        have hp : 0 < a * a := mul_pos ha ha
        unfold nvSqrt
        dsimp only
        rw [e]
        by_cases hn : edf * (dev * dev) / c < 0
        · rw [if_pos (mul_neg_of_pos_of_neg hp hn), if_pos hn]; rfl
        · rw [if_neg (not_lt.2 (mul_nonneg hp.le (not_lt.1 hn))), if_neg hn, Real.sqrt_mul hp.le,
            Real.sqrt_mul_self ha.le]
          rfl
  unfold confidence_interval
  dsimp only
  rw [key, key]

/-- rows of `gradev` scaled by `a` -/
noncomputable def unitsRow (a : ℝ) (r : ℝ × (NV × NV) × ℤ) : ℝ × (NV × NV) × ℤ :=
  (a * r.1, (r.2.1.1.map (a * ·), r.2.1.2.map (a * ·)), r.2.2)

theorem gradev_err_rel (ppf : ℝ → ℝ → NV) {a : ℝ} (ha : 0 < a) (dev ci : ℝ) (N m n : ℕ) (noisetype : String) :
    PyRel (fun e e' => e' = (e.1.map (a * ·), e.2.map (a * ·))) (gradev_err ppf dev ci N m n noisetype)
      (gradev_err ppf (a * dev) ci N m n noisetype) := by
  unfold gradev_err
  split_ifs
  · refine (PyRel.same _).bind ?_
    rintro _ edf rfl
    refine PyRel.ok ?_
    cases edf with
    | none => rfl
    | some edf => exact confidence_interval_units ppf ha dev _ _
  · exact PyRel.ok (by simp)

theorem filter_isSome_map (f : ℝ → ℝ) (l : List NV) :
    ((l.map (Option.map f)).filter Option.isSome).length = (l.filter Option.isSome).length := by
  induction l with
  | nil => rfl
  | cons v l ih => cases v <;> simp [ih]

theorem numbers_map (f : ℝ → ℝ) (l : List NV) : numbers (l.map (Option.map f)) = (numbers l).map f := by
  unfold numbers
  rw [List.filterMap_map, List.map_filterMap]
  rfl

theorem calc_gradev_units {q b c : ℝ} (S : Scale fl sum c) (U : TimeUnit fl q b) (h0 : c ≠ 0) (ppf : ℝ → ℝ → NV)
    (x : List NV) (rate : ℝ) (m s : ℕ) (ci : ℝ) (noisetype : String) :
    PyRel (fun r r' => r' = unitsRow (q * |c|) r) (calc_gradev_phase_fl fl sum ppf x rate m s ci noisetype)
      (calc_gradev_phase_fl fl sum ppf (x.map (Option.map (c * ·))) (q * rate) m s ci noisetype) := by
  have ha : 0 < q * |c| := mul_pos U.pos (abs_pos.2 h0)
  unfold calc_gradev_phase_fl
  refine (sliceStep_rel _ _ _ _).bind ?_
  rintro d2 _ rfl
  refine (sliceStep_rel _ _ _ _).bind ?_
  rintro d1 _ rfl
  refine (sliceStep_rel _ _ _ _).bind ?_
  rintro d0 _ rfl
  have e2 : ∀ l : List NV, (l.map (Option.map (c * ·))).map (Option.map fun v => fl (2 * v)) =
      (l.map (Option.map fun v => fl (2 * v))).map (Option.map (c * ·)) := by
    intro l
    rw [List.map_map, List.map_map]
    apply List.map_congr_left
    rintro (_ | v) _
    · rfl
    · simp only [Function.comp, Option.map_some]
      rw [mul_left_comm, S.one]
  simp only [List.length_map, sliceTo_map', e2]
  have sub : ∀ u v : NV, nv2 (fun u v => fl (u - v)) (u.map (c * ·)) (v.map (c * ·)) =
      (nv2 (fun u v => fl (u - v)) u v).map (c * ·) := by
    rintro (_ | u) (_ | v)
    · rfl
    · rfl
    · rfl
    · simp only [nv2, Option.map_some]
      rw [← mul_sub, S.one]
  have add : ∀ u v : NV, nv2 (fun u v => fl (u + v)) (u.map (c * ·)) (v.map (c * ·)) =
      (nv2 (fun u v => fl (u + v)) u v).map (c * ·) := by
    rintro (_ | u) (_ | v)
    · rfl
    · rfl
    · rfl
    · simp only [nv2, Option.map_some]
      rw [← mul_add, S.one]
  refine (vop_rel sub _ _).bind ?_
  rintro w _ rfl
  refine (vop_rel add _ _).bind ?_
  rintro v _ rfl
  have sq : (v.map (Option.map (c * ·))).map (Option.map fun t => fl (t * t)) =
      (v.map (Option.map fun t => fl (t * t))).map (Option.map (c * c * ·)) := by
    rw [List.map_map, List.map_map]
    apply List.map_congr_left
    rintro (_ | t) _
    · rfl
    · simp only [Function.comp, Option.map_some]
      rw [mul_mul_mul_comm, S.fl2]
  have ab : ∀ t : ℝ, q * (|c| * t) = q * |c| * t := fun t => (mul_assoc ..).symm
  have qc : ∀ t : ℝ, fl (q * |c| * t) = q * |c| * fl t := by
    intro t
    rw [mul_assoc, U.up, S.abs, mul_assoc]
  simp only [filter_isSome_map, sq, numbers_map _ (v.map _), S.sum2, S.div2, S.fl2, S.root, S.abs, S.divA, S.mulA,
    U.mulUp, ab, qc]
  refine (gradev_err_rel ppf ha _ _ _ _ _ _).bind ?_
  rintro e _ rfl
  exact PyRel.ok rfl

theorem gradevTaus_units (b a : ℝ) (taus : List ℝ) (ms : List ℕ) (F G : ℕ → Py (ℝ × (NV × NV) × ℤ))
    (H : ∀ m, PyRel (fun r r' => r' = unitsRow a r) (F m) (G m)) :
    PyRel (fun r r' => r' = unitsOut b a r) (gradevTaus taus ms F) (gradevTaus (taus.map (b * ·)) ms G) := by
  unfold gradevTaus
  refine (mapM_rel _ _ _ H).bind ?_
  intro rows rows' hr
  have hr' : rows' = rows.map (unitsRow a) := by
    induction hr with
    | nil => rfl
    | cons h _ ih => rw [List.map_cons, h, ih]
  subst hr'
  have e1 : (rows.map (unitsRow a)).map (fun r => r.1) = (rows.map fun r => r.1).map (a * ·) := by
    rw [List.map_map, List.map_map]; rfl
  have e2 : (rows.map (unitsRow a)).map (fun r => r.2.1.1) =
      (rows.map fun r => r.2.1.1).map (Option.map (a * ·)) := by
    rw [List.map_map, List.map_map]; rfl
  have e3 : (rows.map (unitsRow a)).map (fun r => r.2.1.2) =
      (rows.map fun r => r.2.1.2).map (Option.map (a * ·)) := by
    rw [List.map_map, List.map_map]; rfl
  have e4 : (rows.map (unitsRow a)).map (fun r => r.2.2) = rows.map fun r => r.2.2 := by
    rw [List.map_map]; rfl
  rw [e1, e2, e3, e4]
  unfold remove_small_ns
  refine (maskSel_rel _ _ _).bind ?_
  rintro t _ rfl
  refine (maskSel_rel _ _ _).bind ?_
  rintro d _ rfl
  refine (PyRel.same _).bind ?_
  rintro n _ rfl
  have g0 : ∀ {β : Type} (u v : List β), pyGet [u, v] 0 = .ok u := fun _ _ => rfl
  have g1 : ∀ {β : Type} (u v : List β), pyGet [u, v] 1 = .ok v := fun _ _ => rfl
  simp only [g0, g1, List.length_cons, List.length_nil, pyAssert_true (show 0 + 1 + 1 < 3 by omega), ok_bind]
  refine (maskSel_rel _ _ _).bind ?_
  rintro l0 _ rfl
  refine (maskSel_rel _ _ _).bind ?_
  rintro l1 _ rfl
  rw [List.length_map]
  split_ifs
  · exact PyRel.error _
  · exact PyRel.ok rfl

section

variable (hfl : ∀ x, IsBinary64 x (fl x)) (hsum : SumScale sum) (j k : ℤ) {c : ℝ}
  (hc : c = (2 : ℝ) ^ j ∨ c = -(2 : ℝ) ^ j) (ppf : ℝ → ℝ → NV) (log10grid : List ℝ) (rate : ℝ) (taus : TausArg)
  (ci : ℝ) (noisetype : String)

include hfl hsum hc

/-- `gradev` of phases with gaps -/
theorem gradev_units_float (x : List NV) :
    gradev_fl fl sum ppf log10grid (x.map (Option.map (c * ·))) ((2 : ℝ) ^ k * rate)
      (scaleTaus ((2 : ℝ) ^ (-k)) taus) ci noisetype =
    (gradev_fl fl sum ppf log10grid x rate taus ci noisetype).map
      (unitsOut ((2 : ℝ) ^ (-k)) ((2 : ℝ) ^ (j + k))) := by
  have S := scale_of hfl hsum hc
  have U := timeUnit hfl k
  have h0 : c ≠ 0 := by
    rcases hc with rfl | rfl
    · positivity
    · exact neg_ne_zero.2 (by positivity)
  have e : (2 : ℝ) ^ (j + k) = (2 : ℝ) ^ k * |c| := by
    rw [abs_scale hc, zpow_add₀ two_ne_zero, mul_comm]
  rw [e]
  refine PyRel.map_eq ?_
  unfold gradev_fl
  refine ((U.tau_gen log10grid x rate taus _ _).trans (tau_generator_rel (Option.map (c * ·)) _ x _ _ _ _)
    (T := fun a a' => a' = (a.1.map (Option.map (c * ·)), a.2.1, a.2.2.map ((2 : ℝ) ^ (-k) * ·))) ?_).bind ?_
  · rintro a _ _ rfl rfl
    rfl
  · rintro ⟨y, ms, ts⟩ _ rfl
    exact gradevTaus_units _ _ _ _ _ _ (fun m => calc_gradev_units S U h0 _ _ _ _ _ _ _)

/-- `gradev` of frequencies without gaps -/
theorem gradev_freq_units_float (y : List ℝ) :
    gradev_freq_fl fl sum ppf log10grid (y.map (c * ·)) ((2 : ℝ) ^ k * rate)
      (scaleTaus ((2 : ℝ) ^ (-k)) taus) ci noisetype =
    (gradev_freq_fl fl sum ppf log10grid y rate taus ci noisetype).map
      (unitsOut ((2 : ℝ) ^ (-k)) ((2 : ℝ) ^ j)) := by
  have S := scale_of hfl hsum hc
  have U := timeUnit hfl k
  have hd : c * (2 : ℝ) ^ (-k) = (2 : ℝ) ^ (j + -k) ∨ c * (2 : ℝ) ^ (-k) = -(2 : ℝ) ^ (j + -k) := by
    rw [zpow_add₀ two_ne_zero]
    rcases hc with rfl | rfl
    · exact Or.inl rfl
    · exact Or.inr (neg_mul ..)
  have F := (U.freq (sum := sum) y rate).trans (S.freq y ((2 : ℝ) ^ k * rate))
    (T := fun l l' => l' = l.map (c * (2 : ℝ) ^ (-k) * ·)) (by
      rintro a _ _ rfl rfl
      rw [List.map_map]
      apply List.map_congr_left
      intro v _
      exact (mul_assoc ..).symm)
  unfold gradev_freq_fl
  rcases F with ⟨e, h1, h2⟩ | ⟨p, _, h1, h2, rfl⟩
  · rw [h1, h2]; rfl
  · rw [h1, h2]
    simp only [ok_bind]
    have h := gradev_units_float hfl hsum (j + -k) k hd ppf log10grid rate taus ci noisetype (p.map some)
    rw [neg_add_cancel_right, List.map_map] at h
    rw [← h, List.map_map]
    rfl

end

/-- A record with a gap, multiplied by -8 and taken at 2 Hz instead of 1 Hz: both runs return a table. -/
example (ppf : ℝ → ℝ → NV) : ∃ (fl : ℝ → ℝ) (sum : List ℝ → ℝ) (o : DevOut NV), (∀ x, IsBinary64 x (fl x)) ∧
    SumScale sum ∧
    gradev_fl fl sum ppf [] ([some 0, some 1, some 0, none, some 5, some 2, some 7].map (Option.map (-8 * ·)))
      ((2 : ℝ) ^ (1 : ℤ) * 1) (scaleTaus ((2 : ℝ) ^ (-1 : ℤ)) (.list [((1 : ℕ) : ℝ) / 1])) 0.68 "wp" =
      .ok (unitsOut ((2 : ℝ) ^ (-1 : ℤ)) ((2 : ℝ) ^ ((3 : ℤ) + 1)) o) ∧ o.ns = [2] := by
  choose fl hfl using exists_isBinary64
  obtain ⟨sum, hsum, hscale⟩ := exists_sumScale hfl
  set x : List NV := [some 0, some 1, some 0, none, some 5, some 2, some 7] with hx
  have hs : SafeTaus 1 (.list [((1 : ℕ) : ℝ) / 1]) := by
    intro t ht
    rw [List.mem_singleton] at ht
    exact ⟨1, by norm_num, by rw [ht]; norm_num⟩
  have hf : factors x.length 1 (.list [((1 : ℕ) : ℝ) / 1]) false x.length = .ok [1] :=
    factors_single _ 1 one_ne_zero false _ 1 one_pos (by simp [hx]) (by simp [hx]) (by simp)
  have hc : complete (seqNV x) x.length 1 = {0, 4} := by
    ext i
    unfold complete
    simp only [Finset.mem_filter, Finset.mem_range, hx, List.length_cons, List.length_nil,
      Finset.mem_insert, Finset.mem_singleton]
    constructor
    · rintro ⟨h1, h2⟩
      interval_cases i <;> simp [seqNV] at h2 ⊢
    · rintro (rfl | rfl) <;> simp [seqNV]
  have hp : present (seqNV x) x.length ≠ 1 := by
    unfold present
    intro h
    obtain ⟨a, ha⟩ := Finset.card_eq_one.1 h
    have h0 : (0 : ℕ) ∈ ({a} : Finset ℕ) := by rw [← ha]; simp [hx, seqNV]
    have h1 : (1 : ℕ) ∈ ({a} : Finset ℕ) := by rw [← ha]; simp [hx, seqNV]
    rw [Finset.mem_singleton] at h0 h1
    omega
  have hcr : ¬ gradevCrash x [1] "wp" := by
    rintro ⟨_, m, hm, _, h⟩
    rw [List.mem_singleton] at hm
    exact hp (hm ▸ h)
  have hex := (gradev_phase_eq ppf x 1 (.list [((1 : ℕ) : ℝ) / 1]) 0.68 "wp" [1] hf).2 hcr
  have hok : ∃ o', gradev ppf x 1 "phase" (.list [((1 : ℕ) : ℝ) / 1]) 0.68 "wp" = .ok o' ∧ o'.ns = [2] := by
    rw [hex]
    unfold sweep2
    exact ⟨_, rfl, rfl⟩
  obtain ⟨o', h', hn⟩ := hok
  rcases gradev_float (fun x => isBinary64_rel (hfl x)) hsum ppf [] x 7 (by
      intro v hv
      simp only [hx, List.mem_cons, Option.some.injEq, List.not_mem_nil, or_false, reduceCtorEq, false_or] at hv
      rcases hv with rfl | rfl | rfl | rfl | rfl | rfl <;> norm_num) 1 one_pos
      (.list [((1 : ℕ) : ℝ) / 1]) (by simp [hx]) hs 0.68 "wp" with ⟨e, _, h2⟩ | ⟨o, o'', h1, h2, h3⟩
  · rw [h'] at h2; cases h2
  · rw [h'] at h2
    cases h2
    have h := gradev_units_float hfl hscale 3 1 (c := -8) (Or.inr (by norm_num)) ppf [] 1 (.list [((1 : ℕ) : ℝ) / 1])
      0.68 "wp" x
    rw [h1] at h
    exact ⟨fl, sum, _, hfl, hscale, h, h3.ns.trans hn⟩

end AT
