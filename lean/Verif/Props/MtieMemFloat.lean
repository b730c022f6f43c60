import Verif.Model.MtieMemFloat
import Verif.Props.FloatMore
import Verif.Props.Mtie

/-!
# C114: `mtie` with its low-memory loop in double precision

Whichever rolling windows fail for lack of memory, rounding changes each value by at most one relative
rounding error with respect to the same computation in exact arithmetic.  The low-memory loop compares
rounded differences, so it may pick a different window than exact arithmetic; the value it reports is
nevertheless within one rounding of the exact one.  In particular the reported value exceeds the true
MTIE by at most one rounding, and at `m = 1` the loop returns zero in double precision too.
-/

namespace AT

open Spec

variable {fl : ℝ → ℝ}

/-- the larger of two rounded values is the larger value up to one rounding -/
theorem keep_max (hfl : FloatRound fl) {d e z : ℝ} (hd : 0 ≤ d) (he : |e - d| ≤ unitRoundoff * d) :
    0 ≤ (if d < z then z else d) ∧
    |(if e < fl z then fl z else e) - (if d < z then z else d)| ≤
      unitRoundoff * (if d < z then z else d) := by
  have hu := unitRoundoff_pos
  have hu1 : unitRoundoff < 1 := by unfold unitRoundoff; norm_num
  have hz := hfl z
  have h0 : 0 ≤ e := by
    rw [abs_le] at he
    nlinarith
  rw [abs_le] at he
  by_cases c : d < z
  · have hz0 : 0 < z := lt_of_le_of_lt hd c
    rw [abs_of_pos hz0, abs_le] at hz
    rw [if_pos c]
    refine ⟨hz0.le, ?_⟩
    have := mul_le_mul_of_nonneg_left c.le hu.le
    rw [abs_le]
    split_ifs <;> constructor <;> linarith
  · rw [if_neg c]
    refine ⟨hd, ?_⟩
    rw [not_lt] at c
    have hb : fl z ≤ d + unitRoundoff * d := by
      rcases le_or_gt 0 z with h | h
      · rw [abs_of_nonneg h, abs_le] at hz
        have := mul_le_mul_of_nonneg_left c hu.le
        linarith
      · rw [abs_of_neg h, abs_le] at hz
        nlinarith
    rw [abs_le]
    split_ifs <;> constructor <;> linarith

/-- the states of the rounded and the exact loop: the same extremes, values one rounding apart -/
def FallNear (st st' : ℝ × ℝ × ℝ) : Prop :=
  st.1 = st'.1 ∧ st.2.1 = st'.2.1 ∧ 0 ≤ st'.2.2 ∧ |st.2.2 - st'.2.2| ≤ unitRoundoff * st'.2.2

theorem fallback_step_near (hfl : FloatRound fl) (phase : List ℝ) (m s : ℕ) {st st' t' : ℝ × ℝ × ℝ}
    (h : FallNear st st') (ht : mtie_fallback_step phase m st' s = .ok t') :
    ∃ t, mtie_fallback_step_fl fl phase m st s = .ok t ∧ FallNear t t' := by
  obtain ⟨h1, h2, h3, h4⟩ := h
  unfold mtie_fallback_step at ht
  unfold mtie_fallback_step_fl
  rw [h1, h2]
  cases e1 : pyGet phase ((s : ℤ) - 1) with
  | error e => rw [e1] at ht; simp [error_bind] at ht
  | ok old =>
  cases e2 : pyGet phase ((m + s : ℕ) : ℤ) with
  | error e => rw [e1, e2] at ht; simp [ok_bind, error_bind] at ht
  | ok new =>
  cases e3 : slide_max phase s (m + s) st'.1 old new with
  | error e => rw [e1, e2] at ht; simp [ok_bind, error_bind, e3] at ht
  | ok A =>
  cases e4 : slide_min phase s (m + s) st'.2.1 old new with
  | error e => rw [e1, e2] at ht; simp [ok_bind, error_bind, e3, e4] at ht
  | ok B =>
  rw [e1, e2] at ht
  simp only [ok_bind, e3, e4, Except.ok.injEq] at ht
  simp only [ok_bind, e3, e4]
  refine ⟨_, rfl, ?_⟩
  rw [← ht]
  obtain ⟨k1, k2⟩ := keep_max hfl (z := A - B) h3 h4
  exact ⟨rfl, rfl, k1, k2⟩

/-- the low-memory loop in floating point: one rounding from the exact loop -/
theorem mtie_fallback_near (hfl : FloatRound fl) (phase : List ℝ) (m : ℕ) (hm : 0 < m)
    (hmN : m < phase.length) :
    ∃ e d, mtie_fallback_fl fl phase m = .ok e ∧ mtie_fallback phase m = .ok d ∧ 0 ≤ d ∧
      d ≤ Spec.mtie (seq phase) phase.length m ∧ |e - d| ≤ unitRoundoff * d := by
  obtain ⟨d, hd1, hd2⟩ := mtie_fallback_le phase m hm hmN
  unfold mtie_fallback at hd1
  unfold mtie_fallback mtie_fallback_fl
  rw [if_neg (by omega), if_neg (by omega)] at hd1 ⊢
  rw [if_neg (by omega), if_neg (by omega)]
  simp only [slice_seq phase 0 m (by omega), Nat.sub_zero, Nat.zero_add] at hd1 ⊢
  obtain ⟨v, v1, ⟨k, hk, v2⟩, v3⟩ := npMax_tab hm (seq phase)
  obtain ⟨w, w1, ⟨l, hl, w2⟩, w3⟩ := npMin_tab hm (seq phase)
  rw [v1, w1] at hd1 ⊢
  simp only [ok_bind] at hd1 ⊢
  have hvw : 0 ≤ v - w := by
    have a := v3 0 hm
    have b := w3 0 hm
    linarith
  obtain ⟨p, p1, p2⟩ := forRange_inv ((phase.length : ℤ) - m - 1).toNat ((v, w, fl (v - w)))
    (fun st k => mtie_fallback_step_fl fl phase m st (k + 1))
    (fun s st => ∃ st', forRange s (v, w, v - w) (fun st k => mtie_fallback_step phase m st (k + 1)) = .ok st' ∧
      FallInv (seq phase) phase.length m s st' ∧ FallNear st st')
    ⟨(v, w, v - w), rfl, ⟨⟨k, by omega, by omega, by omega, v2⟩, ⟨l, by omega, by omega, by omega, w2⟩, by
      simp only; rw [v2, w2]
      exact sub_le_mtie (s := 0) (by omega) (by omega) (by omega) (by omega) (by omega) (by omega)⟩,
      rfl, rfl, hvw, by
        have := hfl (v - w)
        rwa [abs_of_nonneg hvw] at this⟩
    (fun k hk st hst => by
      obtain ⟨st', q1, q2, q3⟩ := hst
      obtain ⟨t', r1, r2⟩ := fallback_step_inv phase m k hm (by omega) st' q2
      obtain ⟨t, s1, s2⟩ := fallback_step_near hfl phase m (k + 1) q3 r1
      refine ⟨t, s1, t', ?_, r2, s2⟩
      unfold forRange at q1 ⊢
      rw [List.range_succ, List.foldlM_append, q1]
      simp only [ok_bind, List.foldlM_cons, List.foldlM_nil, r1]
      rfl)
  obtain ⟨p', u1, u2, u3⟩ := p2
  rw [u1] at hd1 ⊢
  rw [p1]
  simp only [ok_bind, Except.ok.injEq] at hd1 ⊢
  exact ⟨_, _, rfl, rfl, u3.2.2.1, u2.2.2, u3.2.2.2⟩

theorem mtie_body_mem_fl_row (hfl : FloatRound fl) (fails : ℕ → Bool) (phase : List ℝ) (m : ℕ) (hm : 0 < m)
    (hmN : m < phase.length) :
    ∃ row row', mtie_body_mem_fl fl fails phase m = .ok row ∧ mtie_body fails phase m = .ok row' ∧
      row.2.2 = (phase.length : ℤ) - m ∧ row'.2 = (row'.1 / √((phase.length : ℝ) - m), (phase.length : ℤ) - m) ∧
      0 ≤ row'.1 ∧ row'.1 ≤ Spec.mtie (seq phase) phase.length m ∧ |row.1 - row'.1| ≤ unitRoundoff * row'.1 ∧
      |row.2.1 - row.1 / √(((phase.length : ℤ) - m : ℤ) : ℝ)| ≤
        4 * unitRoundoff * |row.1 / √(((phase.length : ℤ) - m : ℤ) : ℝ)| := by
  unfold mtie_body_mem_fl mtie_body
  have hn : (0 : ℝ) < (((phase.length : ℤ) - m : ℤ) : ℝ) := by
    have : (0 : ℤ) < (phase.length : ℤ) - m := by omega
    exact_mod_cast this
  by_cases hf : fails m = true
  · obtain ⟨e, d, h1, h2, h3, h4, h5⟩ := mtie_fallback_near hfl phase m hm hmN
    simp only [hf, if_true, h1, h2, ok_bind]
    exact ⟨_, _, rfl, rfl, rfl, by push_cast; rfl, h3, h4, h5, err_float hfl _ _ hn⟩
  · obtain ⟨row, h1, h2, h3, h4⟩ := mtie_body_fl_row hfl phase m hmN
    have e : mtie_body_fl fl phase m = mtie_windows_fl fl phase m >>= fun dev =>
        .ok (dev, fl (dev / fl √(((phase.length : ℤ) - m : ℤ) : ℝ)), (phase.length : ℤ) - m) := by
      unfold mtie_body_fl mtie_windows_fl
      simp only [bind_assoc]
    rw [e] at h1
    cases hw : mtie_windows_fl fl phase m with
    | error e => rw [hw] at h1; simp [error_bind] at h1
    | ok d =>
      rw [hw] at h1
      simp only [ok_bind, Except.ok.injEq] at h1
      simp only [hf, if_false, mtie_windows_eq phase m hmN, ok_bind]
      refine ⟨row, _, by rw [← h1]; rfl, rfl, h2, by push_cast; rfl, ?_, le_rfl, h3, h4⟩
      obtain ⟨_, _, _, _, k, _⟩ := mtie_fallback_near hfl phase m hm hmN
      linarith

/-- **C114.** `mtie` in double precision, whichever rolling windows fail for lack of memory: the same
error as the same computation in exact arithmetic, or the same counts, taus up to one rounding, each
value up to one relative rounding error and its error bar up to four. -/
theorem mtie_mem_float (hfl : FloatRound fl) (fails : ℕ → Bool) (log10grid x : List ℝ)
    (rate : ℝ) (taus : TausArg) (hN : x.length ≤ 2 ^ 47) (ht : SafeTaus rate taus) :
    (∃ e, mtie_mem_fl fl fails log10grid x rate taus = .error e ∧
      mtie_mem fails x rate "phase" taus = .error e) ∨
    ∃ o o', mtie_mem_fl fl fails log10grid x rate taus = .ok o ∧
      mtie_mem fails x rate "phase" taus = .ok o' ∧ FloatClose Spec.mtieBound o o' := by
  have R : ∀ m : ℕ, ∃ r' : ℝ, 0 < m → m < x.length → ∃ row,
      mtie_body_mem_fl fl fails x m = .ok row ∧
      mtie_body fails x m = .ok (r', r' / √((x.length : ℝ) - m), (x.length : ℤ) - m) ∧
      row.2.2 = (x.length : ℤ) - m ∧ |row.1 - r'| ≤ unitRoundoff * r' ∧
      |row.2.1 - row.1 / √(((x.length : ℤ) - m : ℤ) : ℝ)| ≤
        4 * unitRoundoff * |row.1 / √(((x.length : ℤ) - m : ℤ) : ℝ)| := by
    intro m
    by_cases hm : 0 < m ∧ m < x.length
    · obtain ⟨row, row', h1, h2, h3, h4, _, _, h5, h6⟩ := mtie_body_mem_fl_row hfl fails x m hm.1 hm.2
      refine ⟨row'.1, fun _ _ => ⟨row, h1, ?_, h3, h5, h6⟩⟩
      rw [h2]
      exact congrArg _ (Prod.ext rfl h4)
    · exact ⟨0, fun a b => absurd ⟨a, b⟩ hm⟩
  choose dev hdev using R
  have h := driver_floatE hfl Spec.mtieBound (fun _ d n => d / √(n : ℝ)) log10grid x rate taus false (-1) hN ht
    (fun m => mtie_body_mem_fl fl fails x m) dev
    (fun m => dev m / √((x.length : ℝ) - m))
    (fun m => (x.length : ℤ) - m) (fun _ m hm0 hmN _ _ => by
      obtain ⟨row, h1, _, h2, h3, h4⟩ := hdev m hm0 hmN
      exact ⟨row, h1, by rw [h2], fun _ => ⟨h2, h3, h4⟩⟩)
  have g := driver_eq x rate taus false (-1) (fun mj => mtie_body fails x mj) dev
    (fun m => dev m / √((x.length : ℝ) - m)) (fun m => (x.length : ℤ) - m) (fun _ m hm0 hmN _ _ => by
      obtain ⟨row, _, h1, _⟩ := hdev m hm0 hmN
      exact ⟨_, h1, Iff.rfl, fun _ => rfl⟩)
  rw [effMax_default] at g
  simp only [effMax_default] at h
  have g' : mtie_mem fails x rate "phase" taus = table x.length rate taus false x.length dev
      (fun m => dev m / √((x.length : ℝ) - m)) (fun m => (x.length : ℤ) - m) := by
    rw [← g]
    simp only [mtie_mem, input_to_phase, if_true, ok_bind, tau_generator_eq, effMax_default]
    cases factors x.length rate taus false x.length <;> simp only [ok_bind, error_bind]
  rw [← g'] at h
  have e : mtie_mem_fl fl fails log10grid x rate taus = (tau_generator_fl fl log10grid x rate taus >>= fun r =>
      runTaus r.2.2 r.2.1 (fun _ m => mtie_body_mem_fl fl fails x m)) := by
    unfold mtie_mem_fl
    rw [tau_generator_float_safe hfl log10grid x rate taus false (-1) hN ht]
    cases factors x.length rate taus false (effMax x.length (-1)) <;> simp only [ok_bind, error_bind]
  rw [e]
  rcases h with h | ⟨o, o', h1, h2, h3⟩
  · exact Or.inl h
  · exact Or.inr ⟨o, o', h1, h2, h3.close⟩

/-- C114: against the true MTIE.  The values of `mtie` in double precision exceed it by at most one
relative rounding error, whichever windows fail; the taus are those of exact arithmetic up to a rounding
and the counts are the same. -/
theorem mtie_mem_float_le (hfl : FloatRound fl) (fails : ℕ → Bool) (log10grid x : List ℝ)
    (rate : ℝ) (taus : TausArg) (hN : x.length ≤ 2 ^ 47) (ht : SafeTaus rate taus) :
    (∃ e, mtie_mem_fl fl fails log10grid x rate taus = .error e ∧ mtie x rate "phase" taus = .error e) ∨
    ∃ o o', mtie_mem_fl fl fails log10grid x rate taus = .ok o ∧ mtie x rate "phase" taus = .ok o' ∧
      o.ns = o'.ns ∧ List.Forall₂ (fun t t' => |t - t'| ≤ unitRoundoff * |t'|) o.taus o'.taus ∧
      List.Forall₂ (fun d d' => d ≤ (1 + unitRoundoff) * d') o.devs o'.devs := by
  rcases mtie_mem_float hfl fails log10grid x rate taus hN ht with ⟨e, h1, h2⟩ | ⟨o, o', h1, h2, h3⟩
  · rcases mtie_mem_partial fails x rate taus with ⟨e', k1, k2⟩ | ⟨_, _, k1, _⟩
    · rw [h2] at k1
      rw [Except.error.injEq] at k1
      exact Or.inl ⟨e, h1, by rw [k2, k1]⟩
    · rw [h2] at k1; exact absurd k1 (by simp)
  · rcases mtie_mem_partial fails x rate taus with ⟨e', k1, k2⟩ | ⟨p, q, k1, k2, k3, k4, k5⟩
    · rw [h2] at k1; exact absurd k1 (by simp)
    · rw [h2, Except.ok.injEq] at k1
      subst k1
      obtain ⟨c1, c2, c3, c4, _⟩ := h3
      refine Or.inr ⟨o, q, h1, k2, c1.trans k4, by rw [← k3]; exact c2, ?_⟩
      have hu := unitRoundoff_pos
      rw [List.forall₂_iff_get] at k5 ⊢
      have l1 := c3.1
      have l2 := c3.2.1
      have l3 := k5.1
      refine ⟨by omega, fun i hi hi' => ?_⟩
      have a := k5.2 i (by omega) hi'
      have b := c4 i (by omega)
      unfold Spec.mtieBound at b
      rw [List.getD_eq_getElem _ _ hi, List.getD_eq_getElem _ _ (by omega : i < o'.devs.length), abs_le] at b
      simp only [List.get_eq_getElem] at a ⊢
      have := mul_le_mul_of_nonneg_left a hu.le
      linarith [b.2]

/-- C114: at `m = 1` the low-memory loop returns zero in floating point too, whatever the data -/
theorem mtie_fallback_float_one (hfl : FloatRound fl) (phase : List ℝ) (hN : 2 ≤ phase.length) :
    mtie_fallback_fl fl phase 1 = .ok 0 := by
  obtain ⟨e, d, h1, h2, _, _, h3⟩ := mtie_fallback_near hfl phase 1 one_pos (by omega)
  rw [mtie_fallback_one phase hN, Except.ok.injEq] at h2
  rw [← h2, sub_zero, mul_zero] at h3
  rw [h1, abs_nonpos_iff.1 h3]

/-- the hypotheses are met: in double precision with failing windows, six phases and `m = 2` give a table
with one row within the bound -/
example : ∃ fl : ℝ → ℝ, (∀ x, IsBinary64 x (fl x)) ∧
    ∃ o o', mtie_mem_fl fl (fun _ => true) [] [0, 1, 0, 1, 3, -9] 2 (.list [(2 : ℕ) / 2]) = .ok o ∧
      mtie_mem (fun _ => true) [0, 1, 0, 1, 3, -9] 2 "phase" (.list [(2 : ℕ) / 2]) = .ok o' ∧ o.ns = [4] ∧
      FloatClose Spec.mtieBound o o' := by
  obtain ⟨fl, h64, hfl⟩ := exists_binary64
  have ht : SafeTaus 2 (.list [(2 : ℕ) / 2]) := by
    intro t ht
    rw [List.mem_singleton] at ht
    exact ⟨2, by norm_num, by rw [ht]; norm_num⟩
  refine ⟨fl, h64, ?_⟩
  have h := mtie_mem_float_le hfl (fun _ => true) [] [0, 1, 0, 1, 3, -9] 2 (.list [(2 : ℕ) / 2]) (by norm_num) ht
  rw [mtie_phase_eq, table_single _ _ (by norm_num) _ _ _ _ _ 2 (by norm_num) (by simp)
    (by norm_num) (by simp) (by simp)] at h
  rcases h with ⟨e, _, h⟩ | ⟨o, o', h1, h2, h3, _⟩
  · cases h
  · rcases mtie_mem_float hfl (fun _ => true) [] [0, 1, 0, 1, 3, -9] 2 (.list [(2 : ℕ) / 2]) (by norm_num) ht with
      ⟨e, k, _⟩ | ⟨p, p', k1, k2, k3⟩
    · rw [h1] at k; cases k
    · rw [h1, Except.ok.injEq] at k1
      subst k1
      exact ⟨o, p', h1, k2, by rw [h3]; cases h2; simp, k3⟩

/-- and the low-memory loop does something there: it returns the difference 1 at `m = 2`, where the true
MTIE is 12 -/
example : mtie_fallback [0, 1, 0, 1, 3, -9] 2 = .ok 1 := by
  have n2 : Int.toNat 2 = 2 := rfl
  have n3 : Int.toNat 3 = 3 := rfl
  have n4 : Int.toNat 4 = 4 := rfl
  have n5 : Int.toNat 5 = 5 := rfl
  have hr : (((([0, 1, 0, 1, 3, -9] : List ℝ).length : ℤ) - (2 : ℕ) - 1).toNat) = 3 := rfl
  have s0 : mtie_fallback_step [0, 1, 0, 1, 3, -9] 2 (1, 0, 1) 1 = .ok (1, 0, 1) := by
    norm_num [mtie_fallback_step, slice, normIdx, npMax, npMin, slide_max, slide_min, pyGet, bind, Except.bind, n2, n3, n4, n5]
  have s1 : mtie_fallback_step [0, 1, 0, 1, 3, -9] 2 (1, 0, 1) 2 = .ok (1, 0, 1) := by
    norm_num [mtie_fallback_step, slice, normIdx, npMax, npMin, slide_max, slide_min, pyGet, bind, Except.bind, n2, n3, n4, n5]
  have s2 : mtie_fallback_step [0, 1, 0, 1, 3, -9] 2 (1, 0, 1) 3 = .ok (1, 1, 1) := by
    norm_num [mtie_fallback_step, slice, normIdx, npMax, npMin, slide_max, slide_min, pyGet, bind, Except.bind, n2, n3, n4, n5]
  unfold mtie_fallback
  rw [hr]
  norm_num [slice, normIdx, npMax, npMin, forRange, List.range_succ, s0, s1, s2, n2, bind, Except.bind, pure, Except.pure]

end AT
