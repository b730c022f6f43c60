import Verif.Model.NanMtie
import Verif.Props.Nan
import Verif.Props.Mtie
import Mathlib.Data.List.GetD

/-!
# C115: NaN in the data of `mtie` when the windows do not fit in memory

When the windows fit in memory, a NaN anywhere in the data makes every value NaN (C81).  The low-memory loop
returns NaN exactly when one of the first `m` samples is NaN.  Otherwise it returns a number, which is at
most the MTIE of any completion of the data; it may have ignored all samples after the NaN.
-/

namespace AT

open Spec

/-- maximum of a list with NaN -/
theorem nvMax_tab {n : ℕ} (hn : 0 < n) (D : ℕ → NV) :
    ∃ r, nvExt npMax (tab n D) = .ok r ∧ (r = none ↔ ∃ k < n, D k = none) ∧
      ∀ v, r = some v → (∃ k < n, D k = some v) ∧ ∀ k < n, ∀ w, D k = some w → w ≤ v := by
  by_cases h : ∃ k < n, D k = none
  · obtain ⟨k, hk, e⟩ := h
    refine ⟨none, nvExt_none _ _ ?_, ⟨fun _ => ⟨k, hk, e⟩, fun _ => rfl⟩, fun v hv => by cases hv⟩
    rw [← e]
    exact List.mem_iff_getElem?.2 ⟨k, by rw [tab_getElem?, if_pos hk]⟩
  · have h' : ∀ k < n, D k = some ((D k).getD 0) := by
      intro k hk
      cases e : D k with
      | none => exact absurd ⟨k, hk, e⟩ h
      | some v => rfl
    have e : tab n D = (tab n (fun k => (D k).getD 0)).map some := by
      rw [map_tab]
      exact tab_congr h'
    obtain ⟨v, v1, ⟨k, hk, v2⟩, v3⟩ := npMax_tab hn (fun k => (D k).getD 0)
    refine ⟨some v, ?_, ⟨nofun, fun h'' => absurd h'' h⟩, ?_⟩
    · rw [e, nvExt_some, v1]
      · rfl
      · intro h0
        have := congrArg List.length h0
        simp at this
        omega
    · rintro w hw
      cases hw
      refine ⟨⟨k, hk, by rw [h' k hk, v2]⟩, fun k hk w hw => ?_⟩
      have := v3 k hk
      rw [hw] at this
      exact this

/-- minimum of a list with NaN -/
theorem nvMin_tab {n : ℕ} (hn : 0 < n) (D : ℕ → NV) :
    ∃ r, nvExt npMin (tab n D) = .ok r ∧ (r = none ↔ ∃ k < n, D k = none) ∧
      ∀ v, r = some v → (∃ k < n, D k = some v) ∧ ∀ k < n, ∀ w, D k = some w → v ≤ w := by
  by_cases h : ∃ k < n, D k = none
  · obtain ⟨k, hk, e⟩ := h
    refine ⟨none, nvExt_none _ _ ?_, ⟨fun _ => ⟨k, hk, e⟩, fun _ => rfl⟩, fun v hv => by cases hv⟩
    rw [← e]
    exact List.mem_iff_getElem?.2 ⟨k, by rw [tab_getElem?, if_pos hk]⟩
  · have h' : ∀ k < n, D k = some ((D k).getD 0) := by
      intro k hk
      cases e : D k with
      | none => exact absurd ⟨k, hk, e⟩ h
      | some v => rfl
    have e : tab n D = (tab n (fun k => (D k).getD 0)).map some := by
      rw [map_tab]
      exact tab_congr h'
    obtain ⟨v, v1, ⟨k, hk, v2⟩, v3⟩ := npMin_tab hn (fun k => (D k).getD 0)
    refine ⟨some v, ?_, ⟨nofun, fun h'' => absurd h'' h⟩, ?_⟩
    · rw [e, nvExt_some, v1]
      · rfl
      · intro h0
        have := congrArg List.length h0
        simp at this
        omega
    · rintro w hw
      cases hw
      refine ⟨⟨k, hk, by rw [h' k hk, v2]⟩, fun k hk w hw => ?_⟩
      have := v3 k hk
      rw [hw] at this
      exact this

/-- invariant of the loop at window start `s`: extremes that are numbers are samples of
`D s .. D (s+m)`; `dev` is NaN if one of the first `m` samples is, otherwise a number up to `M` -/
def FallInvNv (D : ℕ → NV) (M : ℝ) (N m s : ℕ) (st : NV × NV × NV) : Prop :=
  (∀ v, st.1 = some v → ∃ a, s ≤ a ∧ a ≤ s + m ∧ a < N ∧ D a = some v) ∧
  (∀ v, st.2.1 = some v → ∃ b, s ≤ b ∧ b ≤ s + m ∧ b < N ∧ D b = some v) ∧
  ((∃ i < m, D i = none) → st.2.2 = none) ∧
  (¬(∃ i < m, D i = none) → ∃ v, st.2.2 = some v ∧ 0 ≤ v ∧ v ≤ M)

theorem fallback_step_nv_inv {D : ℕ → NV} {M : ℝ} {N m s : ℕ} (hm : 0 < m) (hs : m + (s + 1) < N)
    (hM : ∀ s a b u v, s ≤ a → a ≤ s + m → a < N → D a = some u → s ≤ b → b ≤ s + m → b < N →
      D b = some v → u - v ≤ M)
    (st : NV × NV × NV) (h : FallInvNv D M N m s st) :
    ∃ st', mtie_fallback_step_nv (tab N D) m st (s + 1) = .ok st' ∧ FallInvNv D M N m (s + 1) st' := by
  unfold mtie_fallback_step_nv
  have e0 : (((s + 1 : ℕ) : ℤ) - 1) = (s : ℕ) := by push_cast; ring
  rw [e0, pyGet_tab_nat _ _ _ (by omega), pyGet_tab_nat _ _ _ hs]
  simp only [ok_bind]
  unfold slide_max_nv slide_min_nv
  rw [slice_tab _ _ _ _ (by omega)]
  have e1 : m + (s + 1) - (s + 1) = m := by omega
  rw [e1]
  obtain ⟨h1, h2, h3, h4⟩ := h
  have hA : ∃ r, (open Classical in if nvEq st.1 (D s) then nvExt npMax (tab m (fun k => D (s + 1 + k)))
      else if nvLt st.1 (D (m + (s + 1))) then (.ok (D (m + (s + 1))) : Py NV) else .ok st.1) = .ok r ∧
      ∀ v, r = some v → ∃ a, s + 1 ≤ a ∧ a ≤ s + 1 + m ∧ a < N ∧ D a = some v := by
    split_ifs with c1 c2
    · obtain ⟨r, r1, _, r2⟩ := nvMax_tab hm (fun k => D (s + 1 + k))
      refine ⟨r, r1, fun v hv => ?_⟩
      obtain ⟨k, hk, e⟩ := (r2 v hv).1
      exact ⟨s + 1 + k, by omega, by omega, by omega, e⟩
    · exact ⟨_, rfl, fun v hv => ⟨m + (s + 1), by omega, by omega, hs, hv⟩⟩
    · refine ⟨_, rfl, fun v hv => ?_⟩
      obtain ⟨a, a1, a2, a3, a4⟩ := h1 v hv
      refine ⟨a, ?_, by omega, a3, a4⟩
      rcases Nat.lt_or_ge s a with h | h
      · exact h
      · have : a = s := by omega
        rw [this] at a4
        exact absurd ⟨v, hv, a4⟩ c1
  have hB : ∃ r, (open Classical in if nvEq st.2.1 (D s) then nvExt npMin (tab m (fun k => D (s + 1 + k)))
      else if nvLt (D (m + (s + 1))) st.2.1 then (.ok (D (m + (s + 1))) : Py NV) else .ok st.2.1) = .ok r ∧
      ∀ v, r = some v → ∃ a, s + 1 ≤ a ∧ a ≤ s + 1 + m ∧ a < N ∧ D a = some v := by
    split_ifs with c1 c2
    · obtain ⟨r, r1, _, r2⟩ := nvMin_tab hm (fun k => D (s + 1 + k))
      refine ⟨r, r1, fun v hv => ?_⟩
      obtain ⟨k, hk, e⟩ := (r2 v hv).1
      exact ⟨s + 1 + k, by omega, by omega, by omega, e⟩
    · exact ⟨_, rfl, fun v hv => ⟨m + (s + 1), by omega, by omega, hs, hv⟩⟩
    · refine ⟨_, rfl, fun v hv => ?_⟩
      obtain ⟨a, a1, a2, a3, a4⟩ := h2 v hv
      refine ⟨a, ?_, by omega, a3, a4⟩
      rcases Nat.lt_or_ge s a with h | h
      · exact h
      · have : a = s := by omega
        rw [this] at a4
        exact absurd ⟨v, hv, a4⟩ c1
  obtain ⟨r, er, hr⟩ := hA
  obtain ⟨q, eq, hq⟩ := hB
  rw [er, eq]
  simp only [ok_bind]
  refine ⟨_, rfl, hr, hq, fun hc => ?_, fun hc => ?_⟩
  · simp only
    rw [h3 hc, if_neg]
    rintro ⟨u, v, h, _⟩
    cases h
  · simp only
    obtain ⟨v, v1, v2, v3⟩ := h4 hc
    split_ifs with c
    · obtain ⟨u, w, c1, c2, c3⟩ := c
      rw [v1, Option.some.injEq] at c1
      refine ⟨w, c2, by linarith, ?_⟩
      cases r with
      | none => simp [nv2] at c2
      | some ru =>
        cases q with
        | none => simp [nv2] at c2
        | some qu =>
          simp only [nv2, Option.some.injEq] at c2
          obtain ⟨a, a1, a2, a3, a4⟩ := hr ru rfl
          obtain ⟨b, b1, b2, b3, b4⟩ := hq qu rfl
          rw [← c2]
          exact hM (s + 1) a b ru qu a1 a2 a3 a4 b1 b2 b3 b4
    · exact ⟨v, v1, v2, v3⟩

/-- C115, the loop: it returns NaN exactly if one of the first `m` samples is NaN, and otherwise a
number that is at most the MTIE of every completion of the data -/
theorem mtie_fallback_nan {d : List NV} {x : List ℝ} (h : Completes d x) (m : ℕ) (hm : 0 < m)
    (hmN : m < x.length) :
    ∃ r, mtie_fallback_nv d m = .ok r ∧ (r = none ↔ ∃ i < m, d[i]? = some none) ∧
      ∀ v, r = some v → 0 ≤ v ∧ v ≤ Spec.mtie (seq x) x.length m := by
  set N := x.length with hN
  obtain ⟨D, hD⟩ : ∃ D : ℕ → NV, ∀ i, D i = nanUnless (d[i]? ≠ some none) (seq x i) := ⟨_, fun _ => rfl⟩
  have hd : d = tab N D := by
    rw [h.eq_tab]
    exact tab_congr (fun i _ => by rw [hD])
  have hDx : ∀ i v, D i = some v → seq x i = v := by
    intro i v hv
    rw [hD, nanUnless] at hv
    split_ifs at hv
    exact Option.some.inj hv
  have hDn : ∀ i < N, (d[i]? = some none ↔ D i = none) := by
    intro i hi
    rw [hd, tab_getElem?, if_pos hi, Option.some.injEq]
  have hM : ∀ s a b u v, s ≤ a → a ≤ s + m → a < N → D a = some u → s ≤ b → b ≤ s + m → b < N →
      D b = some v → u - v ≤ Spec.mtie (seq x) N m := by
    intro s a b u v a1 a2 a3 a4 b1 b2 b3 b4
    rw [← hDx a u a4, ← hDx b v b4]
    exact sub_le_mtie a1 a2 a3 b1 b2 b3
  have hC : (∃ i < m, d[i]? = some none) ↔ ∃ i < m, D i = none := by
    constructor
    · rintro ⟨i, hi, e⟩
      exact ⟨i, hi, (hDn i (by omega)).1 e⟩
    · rintro ⟨i, hi, e⟩
      exact ⟨i, hi, (hDn i (by omega)).2 e⟩
  rw [hC]
  unfold mtie_fallback_nv
  rw [hd, if_neg (by omega), tab_length, if_neg (by omega)]
  rw [slice_tab _ _ _ _ (by omega)]
  simp only [Nat.sub_zero, Nat.zero_add]
  obtain ⟨r, r1, r2, r3⟩ := nvMax_tab hm D
  obtain ⟨q, q1, q2, q3⟩ := nvMin_tab hm D
  rw [r1, q1]
  simp only [ok_bind]
  have hinit : FallInvNv D (Spec.mtie (seq x) N m) N m 0 (r, q, nv2 (· - ·) r q) := by
    refine ⟨fun v hv => ?_, fun v hv => ?_, fun hc => ?_, fun hc => ?_⟩
    · obtain ⟨k, hk, e⟩ := (r3 v hv).1
      exact ⟨k, by omega, by omega, by omega, e⟩
    · obtain ⟨k, hk, e⟩ := (q3 v hv).1
      exact ⟨k, by omega, by omega, by omega, e⟩
    · simp only
      rw [r2.2 hc]
      rfl
    · cases er : r with
      | none => exact absurd (r2.1 er) hc
      | some u =>
        cases eq : q with
        | none => exact absurd (q2.1 eq) hc
        | some w =>
          obtain ⟨⟨a, ha, ea⟩, ua⟩ := r3 u er
          obtain ⟨⟨b, hb, eb⟩, _⟩ := q3 w eq
          have := ua b hb w eb
          exact ⟨u - w, rfl, by linarith,
            hM 0 a b u w (by omega) (by omega) (by omega) ea (by omega) (by omega) (by omega) eb⟩
  obtain ⟨st, s1, s2⟩ := forRange_inv ((N : ℤ) - m - 1).toNat (r, q, nv2 (· - ·) r q)
    (fun st k => mtie_fallback_step_nv (tab N D) m st (k + 1))
    (fun s st => FallInvNv D (Spec.mtie (seq x) N m) N m s st) hinit
    (fun k hk st hst => fallback_step_nv_inv hm (by omega) hM st hst)
  rw [s1]
  obtain ⟨_, _, i1, i2⟩ := s2
  refine ⟨_, rfl, ⟨fun e => ?_, i1⟩, fun v hv => ?_⟩
  · by_contra hc
    obtain ⟨v, hv, _⟩ := i2 hc
    rw [e] at hv
    cases hv
  · by_cases hc : ∃ i < m, D i = none
    · rw [i1 hc] at hv; cases hv
    · obtain ⟨w, hw, w1, w2⟩ := i2 hc
      rw [hv, Option.some.injEq] at hw
      rw [hw]
      exact ⟨w1, w2⟩

theorem nvExt_map (ext : List ℝ → Py ℝ) (h : ext [] = .error .valueError) (l : List ℝ) :
    nvExt ext (l.map some) = (ext l).map some := by
  by_cases hl : l = []
  · rw [hl, h]
    simp [nvExt, Except.map]
  · exact nvExt_some ext l hl

theorem nvEq_some (a b : ℝ) : nvEq (some a) (some b) ↔ a = b := by
  unfold nvEq
  simp only [Option.some.injEq]
  constructor
  · rintro ⟨u, rfl, rfl⟩; rfl
  · rintro rfl; exact ⟨a, rfl, rfl⟩

theorem nvLt_some (a b : ℝ) : nvLt (some a) (some b) ↔ a < b := by
  unfold nvLt
  simp only [Option.some.injEq]
  constructor
  · rintro ⟨u, v, rfl, rfl, h⟩; exact h
  · intro h; exact ⟨a, b, rfl, rfl, h⟩

theorem pyGet_map_some (x : List ℝ) (i : ℤ) : pyGet (x.map some) i = (pyGet x i).map some := by
  unfold pyGet
  simp only [List.length_map, List.getElem?_map]
  generalize (if i < 0 then i + (x.length : ℤ) else i) = j
  split_ifs
  · rfl
  · cases x[j.toNat]? <;> rfl

theorem slice_map_some (x : List ℝ) (a b : ℤ) : slice (x.map some) a b = (slice x a b).map some := by
  unfold slice
  simp only [List.length_map, List.map_drop, List.map_take]

theorem forRange_some {σ τ : Type} (n : ℕ) (init : σ) (f : σ → ℕ → Py σ) (g : τ → ℕ → Py τ) (φ : σ → τ)
    (H : ∀ st k, g (φ st) k = (f st k).map φ) : forRange n (φ init) g = (forRange n init f).map φ := by
  unfold forRange
  induction n with
  | zero => rfl
  | succ n ih =>
    rw [List.range_succ, List.foldlM_append, List.foldlM_append, ih]
    cases List.foldlM f init (List.range n) with
    | error e => rfl
    | ok st =>
      simp only [Except.map, ok_bind, List.foldlM_cons, List.foldlM_nil, H]
      cases f st n <;> rfl

/-- without NaN the loop is the one of C16 -/
theorem mtie_fallback_nv_some (x : List ℝ) (m : ℕ) :
    mtie_fallback_nv (x.map some) m = (mtie_fallback x m).map some := by
  unfold mtie_fallback_nv mtie_fallback
  rw [List.length_map]
  split_ifs
  · rfl
  · rfl
  · rw [slice_map_some, nvExt_map _ rfl, nvExt_map _ rfl]
    cases npMax (slice x (0 : ℕ) m) with
    | error e => rfl
    | ok u =>
    cases npMin (slice x (0 : ℕ) m) with
    | error e => rfl
    | ok v =>
    simp only [Except.map, ok_bind]
    rw [show (some u, some v, nv2 (· - ·) (some u) (some v)) =
      (fun t : ℝ × ℝ × ℝ => (some t.1, some t.2.1, some t.2.2)) (u, v, u - v) from rfl,
      forRange_some _ _ (fun st k => mtie_fallback_step x m st (k + 1)) _
        (fun t : ℝ × ℝ × ℝ => ((some t.1, some t.2.1, some t.2.2) : NV × NV × NV)) ?_]
    · cases forRange ((x.length : ℤ) - m - 1).toNat (u, v, u - v) (fun st k => mtie_fallback_step x m st (k + 1)) <;> rfl
    · intro st k
      unfold mtie_fallback_step_nv mtie_fallback_step
      rw [pyGet_map_some, pyGet_map_some]
      cases pyGet x (((k + 1 : ℕ) : ℤ) - 1) with
      | error e => rfl
      | ok old =>
      cases pyGet x ((m + (k + 1) : ℕ) : ℤ) with
      | error e => rfl
      | ok new =>
      simp only [Except.map, ok_bind]
      have hA : slide_max_nv (x.map some) (k + 1) (m + (k + 1)) (some st.1) (some old) (some new) =
          (slide_max x (k + 1) (m + (k + 1)) st.1 old new).map some := by
        unfold slide_max_nv slide_max
        rw [slice_map_some, nvExt_map _ rfl]
        simp only [nvEq_some, nvLt_some]
        split_ifs <;> rfl
      have hB : slide_min_nv (x.map some) (k + 1) (m + (k + 1)) (some st.2.1) (some old) (some new) =
          (slide_min x (k + 1) (m + (k + 1)) st.2.1 old new).map some := by
        unfold slide_min_nv slide_min
        rw [slice_map_some, nvExt_map _ rfl]
        simp only [nvEq_some, nvLt_some]
        split_ifs <;> rfl
      rw [hA, hB]
      cases slide_max x (k + 1) (m + (k + 1)) st.1 old new with
      | error e => rfl
      | ok A =>
      cases slide_min x (k + 1) (m + (k + 1)) st.2.1 old new with
      | error e => rfl
      | ok B =>
      simp only [Except.map, ok_bind, nv2, nvLt_some]
      split_ifs <;> rfl

/-- rows of a table with NaN -/
theorem runTausNv_eq (ms : List ℕ) (body : ℕ → Py (NV × NV × ℤ)) (tau : ℕ → ℝ) (dev err : ℕ → NV) (n : ℕ → ℤ)
    (H : ∀ m ∈ ms, body m = .ok (dev m, err m, n m)) :
    runTausNv (ms.map tau) ms (fun _ m => body m) =
      if ms.filter (fun m => decide (1 < n m)) = [] then .error .userWarning else
      .ok ⟨(ms.filter (fun m => decide (1 < n m))).map tau, (ms.filter (fun m => decide (1 < n m))).map dev,
        (ms.filter (fun m => decide (1 < n m))).map err, (ms.filter (fun m => decide (1 < n m))).map n⟩ := by
  unfold runTausNv
  have e0 : ms.zipIdx.mapM (fun p => body p.1) = .ok (ms.map (fun m => (dev m, err m, n m))) := by
    rw [mapM_ok ms.zipIdx _ (fun p => (dev p.1, err p.1, n p.1)) (fun p hp => H p.1 (by
      obtain ⟨a, b⟩ := p
      exact List.mem_of_getElem? (List.mem_zipIdx_iff_getElem?.1 hp)))]
    congr 1
    conv_rhs => rw [show ms = ms.zipIdx.map Prod.fst by simp]
    rw [List.map_map]; rfl
  rw [e0]
  simp only [ok_bind, List.map_map]
  unfold remove_small_ns_nv
  simp only [List.map_map, maskSel_map_map, ok_bind, List.length_map, List.length_eq_zero_iff,
    List.map_eq_nil_iff]
  rfl

/-- **C115.** `mtie` on phase data with NaN, whichever rolling windows fail for lack of memory.  It raises the
error it raises on any completion of the data, or returns the same taus and counts.  Where the windows fit, the
value is NaN if there is a NaN anywhere and the true MTIE otherwise.  Where they do not, it is NaN exactly if one
of the first `m` samples is NaN; otherwise it is a number, at most the MTIE of any completion.  The error bars
are the values over the root of the count. -/
theorem mtie_mem_nan (fails : ℕ → Bool) {d : List NV} {x : List ℝ} (h : Completes d x) (rate : ℝ)
    (taus : TausArg) :
    (∃ e, mtie_mem_nv fails d rate "phase" taus = .error e ∧ mtie x rate "phase" taus = .error e) ∨
    ∃ (ms : List ℕ) (g : ℕ → NV) (o : DevOut ℝ), mtie x rate "phase" taus = .ok o ∧
      o.taus = ms.map (fun m : ℕ => (m : ℝ) / rate) ∧ o.devs = ms.map (fun m => Spec.mtie (seq x) x.length m) ∧
      mtie_mem_nv fails d rate "phase" taus = .ok ⟨o.taus, ms.map g,
        ms.map (fun m => (g m).map (fun v => v / √((x.length : ℝ) - m))), o.ns⟩ ∧
      ∀ m ∈ ms, (g m = none ↔ ∃ i, (fails m = true → i < m) ∧ d[i]? = some none) ∧
        ∀ v, g m = some v → 0 ≤ v ∧ v ≤ Spec.mtie (seq x) x.length m ∧
          (fails m = false → v = Spec.mtie (seq x) x.length m) := by
  have hl := h.length_eq
  have R : ∀ m : ℕ, ∃ r : NV, 0 < m → m < x.length →
      mtie_body_mem_nv fails d m = .ok (r, r.map (fun v => v / √((x.length : ℝ) - m)), (x.length : ℤ) - m) ∧
      (1 < (x.length : ℤ) - m → (r = none ↔ ∃ i, (fails m = true → i < m) ∧ d[i]? = some none) ∧
        ∀ v, r = some v → 0 ≤ v ∧ v ≤ Spec.mtie (seq x) x.length m ∧
          (fails m = false → v = Spec.mtie (seq x) x.length m)) := by
    intro m
    by_cases hm : 0 < m ∧ m < x.length
    · obtain ⟨hm0, hmN⟩ := hm
      by_cases hf : fails m = true
      · obtain ⟨r, h1, h2, h3⟩ := mtie_fallback_nan h m hm0 hmN
        refine ⟨r, fun _ _ => ⟨?_, fun _ => ⟨?_, fun v hv => ⟨(h3 v hv).1, (h3 v hv).2, fun hc => ?_⟩⟩⟩⟩
        · unfold mtie_body_mem_nv
          simp only [hf, if_true, h1, ok_bind, hl]
          push_cast
          rfl
        · rw [h2]
          simp only [hf, forall_const]
        · rw [hf] at hc; cases hc
      · obtain ⟨a, b, h1, h2, h3, h4⟩ := mtie_row_nan h m hm0 hmN (∀ i < x.length, d[i]? ≠ some none) Iff.rfl
        have e : mtie_body_nv d m = mtie_windows_nv d m >>= fun dev =>
            .ok (dev, dev.map (fun v => v / √(((d.length : ℤ) - m : ℤ) : ℝ)), (d.length : ℤ) - m) := by
          unfold mtie_body_nv mtie_windows_nv
          split_ifs
          · rfl
          · simp only [bind_assoc]
        have hb : b = (Spec.mtie (seq x) x.length m, Spec.mtie (seq x) x.length m / √((x.length : ℝ) - m),
            (x.length : ℤ) - m) := by
          unfold mtie_body at h2
          simp only [if_false, mtie_windows_eq x m hmN, ok_bind, Except.ok.injEq, Bool.false_eq_true] at h2
          rw [← h2]
          push_cast
          rfl
        rw [e] at h1
        cases hw : mtie_windows_nv d m with
        | error e => rw [hw] at h1; cases h1
        | ok r =>
          rw [hw, ok_bind, Except.ok.injEq] at h1
          refine ⟨r, fun _ _ => ⟨?_, fun hn => ?_⟩⟩
          · unfold mtie_body_mem_nv
            simp only [hf, if_false, hw, ok_bind, hl, Bool.false_eq_true]
            push_cast
            rfl
          · obtain ⟨k, _⟩ := h4 (by rw [hb]; exact hn)
            rw [← h1, hb] at k
            simp only [nanUnless] at k
            have hf' : fails m = false := by simpa using hf
            rw [hf']
            by_cases hc : ∀ i < x.length, d[i]? ≠ some none
            · rw [if_pos hc] at k
              refine ⟨⟨fun e => (by rw [k] at e; cases e), ?_⟩, fun v hv => ?_⟩
              · rintro ⟨i, _, hi⟩
                have : i < d.length := (List.getElem?_eq_some_iff.1 hi).1
                exact absurd hi (hc i (by omega))
              · rw [k, Option.some.injEq] at hv
                rw [← hv]
                refine ⟨?_, le_rfl, fun _ => rfl⟩
                have := sub_le_mtie (x := seq x) (N := x.length) (m := m) (s := 0) (a := 0) (b := 0)
                  le_rfl (by omega) (by omega) le_rfl (by omega) (by omega)
                rwa [sub_self] at this
            · rw [if_neg hc] at k
              refine ⟨⟨fun _ => ?_, fun _ => k⟩, fun v hv => by rw [k] at hv; cases hv⟩
              push Not at hc
              obtain ⟨i, _, hi⟩ := hc
              exact ⟨i, nofun, hi⟩
    · exact ⟨none, fun a b => absurd ⟨a, b⟩ hm⟩
  choose g hg using R
  rw [mtie_phase_eq]
  unfold mtie_mem_nv input_to_phase_nv table
  simp only [if_true, ok_bind, tau_generator_eq, effMax_default, hl]
  rcases factors_cases (N := x.length) (rate := rate) (taus := taus) (even := false)
    (mx := x.length) with ⟨e, he⟩ | ⟨ms, hms⟩
  · left; rw [he]; exact ⟨e, rfl, rfl⟩
  · rw [hms]
    simp only [ok_bind, sweep]
    rw [runTausNv_eq ms _ _ g (fun m => (g m).map (fun v => v / √((x.length : ℝ) - m)))
      (fun m => (x.length : ℤ) - m) (fun m hm => by
        obtain ⟨a, b, _⟩ := factors_mem hms hm
        exact (hg m a b).1)]
    split_ifs with h0
    · left; exact ⟨_, rfl, rfl⟩
    · right
      refine ⟨_, g, _, rfl, rfl, rfl, rfl, fun m hm => ?_⟩
      obtain ⟨a, b, _⟩ := factors_mem hms (List.mem_of_mem_filter hm)
      rw [List.mem_filter, decide_eq_true_eq] at hm
      exact (hg m a b).2 hm.2

theorem pyGet_nat_ok {α : Type} (d : List α) (k : ℕ) (h : k < d.length) : pyGet d (k : ℕ) = .ok d[k] := by
  unfold pyGet
  have e : (if (k : ℤ) < 0 then (k : ℤ) + d.length else (k : ℤ)) = k := if_neg (by omega)
  simp only [e]
  rw [if_neg (by omega), Int.toNat_natCast, List.getElem?_eq_getElem h]

/-- C115: the low-memory loop can go deaf.  If the third sample is NaN and the second exceeds the first, the value
at `m = 2` is the difference of the first two samples, whatever follows. -/
theorem mtie_fallback_deaf (a b : ℝ) (hab : a < b) (T : List NV) :
    mtie_fallback_nv (some a :: some b :: none :: T) 2 = .ok (some (b - a)) := by
  set d : List NV := some a :: some b :: none :: T with hd
  have hlen : d.length = T.length + 3 := by rw [hd]; simp
  unfold mtie_fallback_nv
  rw [if_neg (by omega), if_neg (by omega)]
  have e0 : slice d (0 : ℕ) (2 : ℕ) = [a, b].map some := by
    rw [slice_nat]
    rfl
  rw [e0, nvExt_map _ rfl, nvExt_map _ rfl]
  have e1 : npMax [a, b] = .ok b := by simp [npMax, max_eq_right hab.le]
  have e2 : npMin [a, b] = .ok a := by simp [npMin, min_eq_left hab.le]
  rw [e1, e2]
  simp only [Except.map, ok_bind]
  obtain ⟨st, s1, s2⟩ := forRange_inv ((d.length : ℤ) - (2 : ℕ) - 1).toNat (some b, some a, nv2 (· - ·) (some b) (some a))
    (fun st k => mtie_fallback_step_nv d 2 st (k + 1))
    (fun k st => st.2.2 = some (b - a) ∧ ((k = 0 ∧ st.1 = some b ∧ st.2.1 = some a) ∨ st.2.1 = none))
    ⟨rfl, Or.inl ⟨rfl, rfl, rfl⟩⟩
    (fun k hk st hst => by
      obtain ⟨h1, h2⟩ := hst
      unfold mtie_fallback_step_nv
      have e3 : (((k + 1 : ℕ) : ℤ) - 1) = (k : ℕ) := by push_cast; ring
      have hk2 : 2 + (k + 1) < d.length := by omega
      have hk1 : k < d.length := by omega
      rw [e3, pyGet_nat_ok d k hk1, pyGet_nat_ok d (2 + (k + 1)) hk2]
      simp only [ok_bind]
      have hA : ∃ A, slide_max_nv d (k + 1) (2 + (k + 1)) st.1 d[k] d[2 + (k + 1)] = .ok A := by
        unfold slide_max_nv
        split_ifs
        · obtain ⟨r, hr, _⟩ := nvMax_tab (n := 2) two_pos (fun i => d.getD (k + 1 + i) none)
          refine ⟨r, ?_⟩
          rw [← hr]
          congr 1
          rw [slice_nat]
          apply tab_ext
          · rw [List.length_drop, List.length_take, min_eq_left hk2.le]
            exact Nat.add_sub_cancel ..
          · intro i hi
            rw [List.getElem?_drop, List.getElem?_take, if_pos (by omega),
              List.getElem?_eq_getElem (by omega), List.getD_eq_getElem _ _ (by omega)]
        · exact ⟨_, rfl⟩
        · exact ⟨_, rfl⟩
      obtain ⟨A, hA⟩ := hA
      have hB : slide_min_nv d (k + 1) (2 + (k + 1)) st.2.1 d[k] d[2 + (k + 1)] = .ok none := by
        unfold slide_min_nv
        rcases h2 with ⟨rfl, _, h2⟩ | h2
        · rw [if_pos ⟨a, h2, rfl⟩]
          apply nvExt_none
          rw [slice_nat]
          simp [hd]
        · have n1 : ¬ nvEq st.2.1 d[k] := by
            rintro ⟨_, h, _⟩
            rw [h2] at h
            cases h
          have n2 : ¬ nvLt d[2 + (k + 1)] st.2.1 := by
            rintro ⟨_, _, _, h, _⟩
            rw [h2] at h
            cases h
          rw [if_neg n1, if_neg n2, h2]
      rw [hA, hB]
      simp only [ok_bind]
      refine ⟨_, rfl, ?_, Or.inr rfl⟩
      simp only
      rw [if_neg, h1]
      rintro ⟨_, _, _, h, _⟩
      cases A <;> cases h)
  rw [s1]
  simp only [ok_bind, s2.1]

/-- C115: so the value can be finite while the MTIE of every completion of the data is arbitrarily large; with enough
memory the same call gives NaN -/
theorem mtie_fallback_nan_unbounded (B : ℝ) :
    ∃ d : List NV, (none : NV) ∈ d ∧ mtie_fallback_nv d 2 = .ok (some 1) ∧
      ∀ x, Completes d x → B ≤ Spec.mtie (seq x) x.length 2 := by
  refine ⟨[some 0, some 1, none, some 0, some B], by simp, ?_, fun x hx => ?_⟩
  · have := mtie_fallback_deaf 0 1 one_pos [some 0, some B]
    rwa [sub_zero] at this
  · have hl := hx.length_eq
    have e3 : seq x 3 = 0 ∧ seq x 4 = B := by
      unfold Completes at hx
      obtain ⟨_, _, _, k1, rfl⟩ := List.forall₂_cons_left_iff.1 hx
      obtain ⟨_, _, _, k2, rfl⟩ := List.forall₂_cons_left_iff.1 k1
      obtain ⟨_, _, _, k3, rfl⟩ := List.forall₂_cons_left_iff.1 k2
      obtain ⟨u, _, hu, k4, rfl⟩ := List.forall₂_cons_left_iff.1 k3
      obtain ⟨w, _, hw, _, rfl⟩ := List.forall₂_cons_left_iff.1 k4
      simp only [reduceCtorEq, Option.some.injEq, false_or] at hu hw
      rw [hu, hw]
      exact ⟨rfl, rfl⟩
    simp only [List.length_cons, List.length_nil] at hl
    have := sub_le_mtie (x := seq x) (N := x.length) (m := 2) (s := 3) (a := 4) (b := 3)
      (by omega) (by omega) (by omega) (by omega) (by omega) (by omega)
    rwa [e3.1, e3.2, sub_zero] at this

/-- the hypotheses are met: these data have a completion, and both kinds of values occur -/
example : Completes [some 0, some 1, none, some 5] [0, 1, 2, 5] ∧
    (∃ r, mtie_fallback_nv [some 0, some 1, none, some 5] 2 = .ok r ∧ r ≠ none) ∧
    mtie_fallback_nv [some 0, some 1, none, some 5] 3 = .ok none := by
  have h : Completes [some 0, some 1, none, some 5] [0, 1, 2, 5] := by simp [Completes]
  refine ⟨h, ⟨_, mtie_fallback_deaf 0 1 one_pos [some 5], by simp⟩, ?_⟩
  obtain ⟨r, h1, h2, _⟩ := mtie_fallback_nan h 3 (by norm_num) (by simp)
  rw [h1, h2.2 ⟨2, by norm_num, rfl⟩]

end AT
