import Verif.Spec.NanTwo
import Verif.Props.Nan
import Verif.Props.NanMore
import Verif.Props.Hat

/-!
# C112: what NaN in the data does to `gcodev` and to the three-cornered hat
-/

namespace AT

open Spec Finset Real Classical

theorem gcodev_row_nan {d₁ d₂ : List NV} {x₁ x₂ : List ℝ} (h₁ : Completes d₁ x₁)
    (h₂ : Completes d₂ x₂) (hl : x₁.length = x₂.length) (rate : ℝ) (m : ℕ)
    (hm0 : 0 < m) (hmN : m < x₂.length) :
    RowRel (Clean .oadev d₁ m ∧ Clean .oadev d₂ m) (Clean .oadev d₁ m ∧ Clean .oadev d₂ m)
      (calc_gcodev_phase_nv d₁ d₂ rate m 1) (calc_gcodev_phase x₁ x₂ rate m 1) := by
  have hC : ∀ (d : List NV) (N : ℕ), d.length = N → ∀ g : ℕ → Prop, (∀ i, d[i]? ≠ some none ↔ g i) →
      (Clean .oadev d m ↔ ∀ i, i + 2 * m < N → g (2 * m + i) ∧ g (m + i) ∧ g (0 + i)) := by
    intro d N hN g hg
    unfold Clean Reads
    simp only [hN, hg, Nat.zero_add]
    constructor
    · intro hc k hk
      exact ⟨hc _ ⟨k, hk, Or.inr (Or.inr (by ring))⟩, hc _ ⟨k, hk, Or.inr (Or.inl (by ring))⟩,
        hc _ ⟨k, hk, Or.inl rfl⟩⟩
    · rintro hc i ⟨k, hk, hi⟩
      obtain ⟨a, b, c⟩ := hc k hk
      rcases hi with rfl | rfl | rfl
      · exact c
      · rwa [add_comm] at b
      · rwa [add_comm] at a
  have L1 := h₁.length_eq
  have L2 := h₂.length_eq
  set N := x₂.length with hN
  obtain ⟨g₁, hg₁⟩ : ∃ g : ℕ → Prop, ∀ i, d₁[i]? ≠ some none ↔ g i :=
    ⟨fun i => d₁[i]? ≠ some none, fun _ => Iff.rfl⟩
  obtain ⟨g₂, hg₂⟩ : ∃ g : ℕ → Prop, ∀ i, d₂[i]? ≠ some none ↔ g i :=
    ⟨fun i => d₂[i]? ≠ some none, fun _ => Iff.rfl⟩
  have hG₁ := hC d₁ N (by omega) g₁ hg₁
  have hG₂ := hC d₂ N (by omega) g₂ hg₂
  have hd₁ : d₁ = tab N (fun i => nanUnless (g₁ i) (seq x₁ i)) := by
    have := h₁.eq_tab
    simp only [hg₁, hl] at this
    exact this
  have hd₂ : d₂ = tab N (fun i => nanUnless (g₂ i) (seq x₂ i)) := by
    have := h₂.eq_tab
    simp only [hg₂] at this
    exact this
  have hp₁ : x₁ = tab N (seq x₁) := by have := eq_tab_seq x₁; rwa [hl] at this
  have hp₂ : x₂ = tab N (seq x₂) := eq_tab_seq x₂
  rw [hG₁, hG₂]
  obtain ⟨f₁, hf₁⟩ : ∃ f, seq x₁ = f := ⟨_, rfl⟩
  obtain ⟨f₂, hf₂⟩ : ∃ f, seq x₂ = f := ⟨_, rfl⟩
  rw [hf₁] at hd₁ hp₁
  rw [hf₂] at hd₂ hp₂
  clear_value N
  rw [hd₁, hd₂, hp₁, hp₂]
  unfold calc_gcodev_phase_nv calc_gcodev_phase
  simp only [sliceStep_tab _ _ _ _ one_pos, ok_bind, tab_length, one_mul, Nat.add_sub_cancel,
    Nat.div_one, mul_one, Nat.sub_zero]
  have hmin : min (min N (N - m)) (N - 2 * m) = N - 2 * m := by omega
  simp only [hmin]
  generalize hn2 : N - 2 * m = n2 at *
  generalize hn1 : N - m = n1 at *
  rcases Nat.eq_zero_or_pos n2 with h | h
  · subst h
    simp only [if_true, sliceTo_nat, take_tab]
    have q1 : min 1 n1 = 1 := by omega
    have q0 : min 1 N = 1 := by omega
    simp only [q1, q0, Nat.min_zero, tab_zero, vscale_tab, vsub, vadd, vmul, map_tab, vop_nil_one,
      ok_bind]
    have e1 : vop (fun x1 x2 : ℝ => x1 * x2) [] [] = .ok [] := by simp [vop]
    have e2 : vop (nv2 (fun x1 x2 : ℝ => x1 * x2)) [] [] = .ok [] := by simp [vop]
    rw [e1, e2]
    exact ⟨_, _, rfl, rfl, rfl, fun h => absurd h (by simp)⟩
  · simp only [if_neg (by omega : ¬ n2 = 0), sliceTo_nat, take_tab, min_self]
    have q1 : min n2 n1 = n2 := by omega
    have q0 : min n2 N = n2 := by omega
    simp only [q1, q0, vscale_tab, vsub, vadd, vmul, map_tab, vop_tab, ok_bind, npSum_tab,
      nanUnless_map, nanUnless_nv2, nvSum_tab]
    have e : (∀ i < n2, ((g₁ (2 * m + i) ∧ g₁ (m + i)) ∧ g₁ (0 + i)) ∧
        (g₂ (2 * m + i) ∧ g₂ (m + i)) ∧ g₂ (0 + i)) ↔
        (∀ i, i + 2 * m < N → g₁ (2 * m + i) ∧ g₁ (m + i) ∧ g₁ (0 + i)) ∧
        (∀ i, i + 2 * m < N → g₂ (2 * m + i) ∧ g₂ (m + i) ∧ g₂ (0 + i)) := by
      constructor
      · intro h
        exact ⟨fun i hi => by have := h i (by omega); tauto, fun i hi => by have := h i (by omega); tauto⟩
      · rintro ⟨h, h'⟩ i hi
        have := h i (by omega)
        have := h' i (by omega)
        tauto
    refine ⟨_, _, rfl, rfl, rfl, fun _ => ?_⟩
    simp only
    generalize (∑ i ∈ range n2, _ : ℝ) = S
    generalize hQ : (∀ i < n2, _) = Q at e ⊢
    rw [← e]
    by_cases hq : Q
    · simp only [nanUnless, if_pos hq, Option.some.injEq, exists_eq_left', Option.map_some]
      split_ifs <;> exact ⟨rfl, rfl⟩
    · simp [nanUnless, if_neg hq]

/-- C112: NaN in the phase data of `gcodev`, two series of the same length. Replace the NaN by any
numbers: the call raises the same exception, or it returns the same averaging times and counts,
and in the row of factor `m` the same codeviation and error if no second difference of either
series involves a NaN, and NaN otherwise. -/
theorem nan_gcodev (d₁ d₂ : List NV) (x₁ x₂ : List ℝ) (h₁ : Completes d₁ x₁)
    (h₂ : Completes d₂ x₂) (hl : d₁.length = d₂.length) (rate : ℝ) (taus : TausArg) :
    SameUpToNan rate (fun m => Clean .oadev d₁ m ∧ Clean .oadev d₂ m)
      (fun m => Clean .oadev d₁ m ∧ Clean .oadev d₂ m)
      (gcodev x₁ x₂ rate "phase" taus) (gcodev_nv d₁ d₂ rate "phase" taus) := by
  have L1 := h₁.length_eq
  have L2 := h₂.length_eq
  have hx : x₁.length = x₂.length := by omega
  unfold gcodev gcodev_nv input_to_phase input_to_phase_nv
  simp only [if_true, ok_bind]
  have key := driver_nan h₂ rate taus (fun p _ _ m => calc_gcodev_phase_nv d₁ p rate m 1)
    (fun p _ _ m => calc_gcodev_phase x₁ p rate m 1)
    (fun m => Clean .oadev d₁ m ∧ Clean .oadev d₂ m) (fun m => Clean .oadev d₁ m ∧ Clean .oadev d₂ m)
    (fun _ ts i m hm0 hmN _ => gcodev_row_nan h₁ h₂ hx rate m hm0 hmN)
  rw [tau_generator_eq x₁, tau_generator_eq d₁, L1, hx]
  cases hf : factors x₂.length rate taus false (effMax x₂.length (-1)) with
  | error e =>
    exact Or.inl ⟨e, rfl, rfl⟩
  | ok ms =>
    simp only [ok_bind]
    exact key

theorem list_eq_tab {α : Type} (l : List α) (a : α) : l = tab l.length (fun i => l.getD i a) := by
  refine tab_ext rfl (fun i hi => ?_)
  rw [List.getD_eq_getElem?_getD, List.getElem?_eq_getElem hi]
  rfl

theorem zipWith_tab {α β γ : Type} (f : α → β → γ) (n : ℕ) (g : ℕ → α) (h : ℕ → β) :
    List.zipWith f (tab n g) (tab n h) = tab n (fun i => f (g i) (h i)) := by
  simp [tab, List.zipWith_map, List.zipWith_self]

theorem rows_factors {fn : DevName} {x : List ℝ} {rate : ℝ} {taus : TausArg} {o : DevOut ℝ}
    (ho : fn.run x rate "phase" taus = .ok o) (hr : rate ≠ 0) {rows : List (ℕ × ℝ × ℝ × ℤ)}
    (ht : o.taus = rows.map (fun w => (w.1 : ℝ) / rate)) :
    (rows.map Prod.fst).Pairwise (· < ·) ∧
      ∀ m, m ∈ rows.map Prod.fst ↔ Reported fn x.length rate taus m := by
  obtain ⟨kept, _, k1, k2, k3, _⟩ := run_ok fn x rate taus o ho
  rw [k3] at ht
  have inj : Function.Injective (fun m : ℕ => (m : ℝ) / rate) := by
    intro a b hab
    have := (div_left_inj' hr).1 hab
    exact_mod_cast this
  have : kept = rows.map Prod.fst := by
    apply inj.list_map
    rw [ht, List.map_map]
    rfl
  rw [← this]
  exact ⟨k1, k2⟩

/-- The hat of three outcomes that are the same up to NaN. -/
theorem hat_nan_gen (fn : DevName) (f : List NV → ℝ → String → TausArg → Py NanOut)
    (ab bc ca : List ℝ) (dab dbc dca : List NV) (h1 : ab.length = bc.length)
    (h2 : ab.length = ca.length) (rate : ℝ) (taus : TausArg) {Ga Gb Gc Ea Eb Ec : ℕ → Prop}
    (Hab : SameUpToNan rate Ga Ea (fn.run ab rate "phase" taus) (f dab rate "phase" taus))
    (Hbc : SameUpToNan rate Gb Eb (fn.run bc rate "phase" taus) (f dbc rate "phase" taus))
    (Hca : SameUpToNan rate Gc Ec (fn.run ca rate "phase" taus) (f dca rate "phase" taus)) :
    SameUpToNan rate (fun m => Ga m ∧ Gb m ∧ Gc m) (fun m => Ga m ∧ Gb m ∧ Gc m)
      (three_cornered_hat_phase ab bc ca rate taus fn)
      (three_cornered_hat_phase_nv dab dbc dca rate taus f) := by
  unfold three_cornered_hat_phase three_cornered_hat_phase_nv
  rcases Hab with ⟨e, ha, ha'⟩ | ⟨ra, ha, ha'⟩
  · exact Or.inl ⟨e, by rw [ha]; rfl, by rw [ha']; rfl⟩
  rcases Hbc with ⟨e, hb, hb'⟩ | ⟨rb, hb, hb'⟩
  · rcases run_same fn ab bc h1 rate taus with ⟨e', q, _⟩ | ⟨_, _, _, q⟩
    · rw [q] at ha; cases ha
    · rw [q] at hb; cases hb
  rcases Hca with ⟨e, hc, hc'⟩ | ⟨rc, hc, hc'⟩
  · rcases run_same fn ab ca h2 rate taus with ⟨e', q, _⟩ | ⟨_, _, _, q⟩
    · rw [q] at ha; cases ha
    · rw [q] at hc; cases hc
  have hr : rate ≠ 0 := by
    intro h0
    have := (run_cases fn ab rate taus).1
    rw [ha, if_pos h0] at this
    split_ifs at this <;> cases this
  obtain ⟨pa, ma⟩ := rows_factors ha hr rfl
  obtain ⟨pb, mb⟩ := rows_factors hb hr rfl
  obtain ⟨pc, mc⟩ := rows_factors hc hr rfl
  rw [← h1] at mb
  rw [← h2] at mc
  have eb : rb.map Prod.fst = ra.map Prod.fst :=
    sorted_unique pb pa (fun m => (mb m).trans (ma m).symm)
  have ec : rc.map Prod.fst = ra.map Prod.fst :=
    sorted_unique pc pa (fun m => (mc m).trans (ma m).symm)
  have lb : rb.length = ra.length := by simpa using congrArg List.length eb
  have lc : rc.length = ra.length := by simpa using congrArg List.length ec
  have ta := list_eq_tab ra (0, 0, 0, 0)
  have tb := list_eq_tab rb (0, 0, 0, 0)
  have tc := list_eq_tab rc (0, 0, 0, 0)
  rw [lb] at tb
  rw [lc] at tc
  generalize (fun i => ra.getD i (0, 0, 0, 0)) = A at ta
  generalize (fun i => rb.getD i (0, 0, 0, 0)) = B at tb
  generalize (fun i => rc.getD i (0, 0, 0, 0)) = C at tc
  generalize ra.length = n at ta tb tc
  subst ta tb tc
  rw [map_tab, map_tab] at eb ec
  have qb : ∀ i < n, (B i).1 = (A i).1 := by
    intro i hi
    have := congrArg (fun l => l[i]?) eb
    simp only [tab_getElem?, if_pos hi, Option.some.injEq] at this
    exact this
  have qc : ∀ i < n, (C i).1 = (A i).1 := by
    intro i hi
    have := congrArg (fun l => l[i]?) ec
    simp only [tab_getElem?, if_pos hi, Option.some.injEq] at this
    exact this
  rw [ha, hb, hc, ha', hb', hc']
  right
  simp only [ok_bind, map_tab, vmul, vadd, vsub, vop_tab, tab_length, and_self, pyAssert_true trivial,
    vscale_tab, zipWith_tab]
  set D : ℕ → ℝ := fun i => √(if 0.5 * ((A i).2.1 * (A i).2.1 + (C i).2.1 * (C i).2.1 - (B i).2.1 * (B i).2.1) < 0
    then 0 else 0.5 * ((A i).2.1 * (A i).2.1 + (C i).2.1 * (C i).2.1 - (B i).2.1 * (B i).2.1)) with hD
  refine ⟨tab n (fun i => ((A i).1, D i, D i / √((A i).2.2.2 : ℝ), (A i).2.2.2)), ?_, ?_⟩
  · simp only [map_tab, hD]
  · simp only [map_tab]
    have key : ∀ i < n, (nv2 (· - ·) (nv2 (· + ·)
        (nv2 (· * ·) (if Ga (A i).1 then some (A i).2.1 else none) (if Ga (A i).1 then some (A i).2.1 else none))
        (nv2 (· * ·) (if Gc (C i).1 then some (C i).2.1 else none) (if Gc (C i).1 then some (C i).2.1 else none)))
        (nv2 (· * ·) (if Gb (B i).1 then some (B i).2.1 else none) (if Gb (B i).1 then some (B i).2.1 else none))) =
        if Ga (A i).1 ∧ Gb (A i).1 ∧ Gc (A i).1 then
          some ((A i).2.1 * (A i).2.1 + (C i).2.1 * (C i).2.1 - (B i).2.1 * (B i).2.1) else none := by
      intro i hi
      rw [qb i hi, qc i hi]
      by_cases g1 : Ga (A i).1 <;> by_cases g2 : Gb (A i).1 <;> by_cases g3 : Gc (A i).1 <;>
        simp [g1, g2, g3, nv2]
    rw [Except.ok.injEq, NanOut.mk.injEq]
    refine ⟨rfl, tab_congr (fun i hi => ?_), tab_congr (fun i hi => ?_), rfl⟩
    · rw [key i hi]
      split_ifs <;> rfl
    · rw [key i hi]
      split_ifs <;> rfl

/-- C112: NaN in the three phase series of the hat, of the same length. Replace the NaN by any
numbers: the call raises the same exception, or it returns the same averaging times and counts,
and in the row of factor `m` the same deviation and error if no sample of the three series used
for `m` is NaN, and NaN for both otherwise: the assignment of 0 to the negative variances does
not reach it. -/
theorem nan_hat (fn : NanFnAll) (dab dbc dca : List NV) (ab bc ca : List ℝ)
    (hab : Completes dab ab) (hbc : Completes dbc bc) (hca : Completes dca ca)
    (h1 : dab.length = dbc.length) (h2 : dab.length = dca.length) (rate : ℝ) (taus : TausArg) :
    SameUpToNan rate
      (fun m => CleanAll fn dab m ∧ CleanAll fn dbc m ∧ CleanAll fn dca m)
      (fun m => CleanAll fn dab m ∧ CleanAll fn dbc m ∧ CleanAll fn dca m)
      (three_cornered_hat_phase ab bc ca rate taus fn.name)
      (three_cornered_hat_phase_nv dab dbc dca rate taus fn.runNv) := by
  have L1 := hab.length_eq
  have L2 := hbc.length_eq
  have L3 := hca.length_eq
  cases fn with
  | first fn =>
    have e : ∀ x, (NanFnAll.first fn).name.run x rate "phase" taus = fn.run x rate "phase" taus := by
      intro x; cases fn <;> rfl
    refine hat_nan_gen _ _ ab bc ca dab dbc dca (by omega) (by omega) rate taus
      (Ea := fun m => fn = .tierms ∨ Clean fn dab m) (Eb := fun m => fn = .tierms ∨ Clean fn dbc m)
      (Ec := fun m => fn = .tierms ∨ Clean fn dca m) ?_ ?_ ?_
    · rw [e]; exact nan_dev fn _ _ hab rate taus
    · rw [e]; exact nan_dev fn _ _ hbc rate taus
    · rw [e]; exact nan_dev fn _ _ hca rate taus
  | more fn =>
    have e : ∀ x, (NanFnAll.more fn).name.run x rate "phase" taus = fn.run x rate "phase" taus := by
      intro x; cases fn <;> rfl
    refine hat_nan_gen _ _ ab bc ca dab dbc dca (by omega) (by omega) rate taus
      (Ea := CleanMore fn dab) (Eb := CleanMore fn dbc) (Ec := CleanMore fn dca) ?_ ?_ ?_
    · rw [e]; exact nan_dev_more fn _ _ hab rate taus
    · rw [e]; exact nan_dev_more fn _ _ hbc rate taus
    · rw [e]; exact nan_dev_more fn _ _ hca rate taus

theorem completes_some (x : List ℝ) : Completes (x.map some) x := by
  unfold Completes
  rw [List.forall₂_map_left_iff, List.forall₂_same]
  exact fun v _ => Or.inr rfl

theorem clean_some (fn : NanFn) (x : List ℝ) (m : ℕ) : Clean fn (x.map some) m := by
  intro i _ h
  rw [List.getElem?_map] at h
  cases hi : x[i]? <;> rw [hi] at h <;> simp at h

/-- C112: without NaN the model is that of `Model/Dev`. -/
theorem nan_gcodev_free (x₁ x₂ : List ℝ) (hl : x₁.length = x₂.length) (rate : ℝ) (taus : TausArg) :
    gcodev_nv (x₁.map some) (x₂.map some) rate "phase" taus =
      (gcodev x₁ x₂ rate "phase" taus).map (fun o => ⟨o.taus, o.devs.map some,
        match o.errs with | .arr l => l.map some | .lst _ => [], o.ns⟩) := by
  rcases nan_gcodev _ _ _ _ (completes_some x₁) (completes_some x₂) (by simpa using hl) rate taus with
    ⟨e, h1, h2⟩ | ⟨rows, h1, h2⟩
  · rw [h1, h2]; rfl
  · rw [h1, h2]
    simp only [clean_some, and_self, if_true, Except.map, List.map_map]
    rfl

/-- C112: frequency data. `frequency2phase` cuts off the NaN at the ends of each series on its
own, and the codeviation pairs what is left from the first sample on: if the two series lack
different ends, a frequency of the first is multiplied with a frequency of the second taken at
another time (`p ≠ p'`), without a warning. -/
theorem nan_gcodev_shift (a b : List ℝ) (ha : a ≠ []) (hl : a.length = b.length) (p q p' q' : ℕ)
    (rate : ℝ) (taus : TausArg) :
    gcodev_nv (List.replicate p none ++ a.map some ++ List.replicate q none)
      (List.replicate p' none ++ b.map some ++ List.replicate q' none) rate "freq" taus =
      (gcodev a b rate "freq" taus).map (fun o => ⟨o.taus, o.devs.map some,
        match o.errs with | .arr l => l.map some | .lst _ => [], o.ns⟩) := by
  have hb : b ≠ [] := by
    intro h; rw [h] at hl; exact ha (List.length_eq_zero_iff.1 hl)
  have e : ("freq" = "phase") = False := by simp
  have f : ∀ (p q : ℕ) (a : List ℝ), a ≠ [] →
      frequency2phase_nv (List.replicate p none ++ a.map some ++ List.replicate q none) rate =
      (frequency2phase a rate).map (List.map some) := by
    intro p q a ha
    rw [← frequency2phase_nv_some]
    obtain ⟨v, l, rfl⟩ := List.exists_cons_of_ne_nil ha
    have ht : trim_data (List.replicate p none ++ (v :: l).map some ++ List.replicate q none) =
        .ok ((v :: l).map some) := by
      refine trim_data_split p q _ v ((v :: l).getLast (by simp)) (by simp) ?_
      rw [List.getLast?_map, List.getLast?_eq_getLast_of_ne_nil (by simp)]
      rfl
    unfold frequency2phase_nv
    rw [ht, trim_data_idem _ _ ht]
  have g : ∀ x₁ x₂ : List NV, gcodev_nv x₁ x₂ rate "freq" taus = (do
      let p ← frequency2phase_nv x₁ rate
      let q ← frequency2phase_nv x₂ rate
      gcodev_nv p q rate "phase" taus) := by
    intro x₁ x₂
    simp only [gcodev_nv, input_to_phase_nv, e, if_false, if_true, ok_bind]
  have g' : gcodev a b rate "freq" taus = (do
      let p ← frequency2phase a rate
      let q ← frequency2phase b rate
      gcodev p q rate "phase" taus) := by
    simp only [gcodev, input_to_phase, e, if_false, if_true, ok_bind]
  rw [g, g', f p q a ha, f p' q' b hb]
  by_cases hr : rate = 0
  · simp [frequency2phase, hr, Except.map, error_bind]
  · rw [frequency2phase_eq a ha rate hr, frequency2phase_eq b hb rate hr]
    simp only [Except.map, ok_bind]
    rw [nan_gcodev_free _ _ (by simp [hl])]
    rfl

/-- C112: the shift is not harmless. Two records of the same frequency 0, 0, 1, 1, 0, one without
its first value and one without its last, agree wherever both have a value, with overlapping
Allan deviation 1/2 there; the codeviation of the two records is 0. -/
theorem nan_gcodev_misaligned :
    (∃ e n, gcodev_nv [none, some 0, some 1, some 1, some 0] [some 0, some 0, some 1, some 1, none]
      1 "freq" (.list [1]) = .ok ⟨[1], [some 0], e, n⟩) ∧
    (∃ e n, gcodev_nv [some 0, some 1, some 1] [some 0, some 1, some 1]
      1 "freq" (.list [1]) = .ok ⟨[1], [some (1 / 2)], e, n⟩) := by
  have e : ("freq" = "phase") = False := by simp
  have t1 : (TausArg.list [1]) = .list [((1 : ℕ) : ℝ) / 1] := by norm_num
  constructor
  · have h := nan_gcodev_shift [0, 1, 1, 0] [0, 0, 1, 1] (by simp) rfl 1 0 0 1 1 (.list [1])
    simp only [List.replicate, List.nil_append, List.cons_append, List.map_cons, List.map_nil,
      List.append_nil] at h
    rw [h]
    have f1 : frequency2phase [0, 1, 1, 0] 1 = .ok [0, -1 / 2, 0, 1 / 2, 0] := by
      simp [frequency2phase, npMean, npSum, npCumsum]; norm_num
    have f2 : frequency2phase [0, 0, 1, 1] 1 = .ok [0, -1 / 2, -1, -1 / 2, 0] := by
      simp [frequency2phase, npMean, npSum, npCumsum]; norm_num
    have g : gcodev [0, 1, 1, 0] [0, 0, 1, 1] 1 "freq" (.list [1]) =
        gcodev [0, -1 / 2, 0, 1 / 2, 0] [0, -1 / 2, -1, -1 / 2, 0] 1 "phase" (.list [1]) := by
      simp only [gcodev, input_to_phase, e, if_false, if_true, f1, f2, ok_bind]
    rw [g, t1, gcodev_phase_eq _ _ (by simp), table_single _ _ (by norm_num) _ _ _ _ _ 1 (by norm_num)
      (by simp) (by simp) (by simp) (by simp)]
    simp only [Except.map, List.map_cons, List.map_nil]
    have v : Spec.gcodev (seq [0, -1 / 2, 0, 1 / 2, 0]) (seq [0, -1 / 2, -1, -1 / 2, 0]) 5 1
        ((1 : ℕ) / 1) = 0 := by
      simp [Spec.gcodev, sum_range_succ, d2, seq]; norm_num
    simp only [List.length_cons, List.length_nil, Nat.zero_add, Nat.reduceAdd, Nat.cast_one,
      div_one] at v ⊢
    rw [v]
    exact ⟨_, _, rfl⟩
  · have h := nan_gcodev_shift [0, 1, 1] [0, 1, 1] (by simp) rfl 0 0 0 0 1 (.list [1])
    simp only [List.replicate, List.nil_append, List.map_cons, List.map_nil,
      List.append_nil] at h
    rw [h]
    have f1 : frequency2phase [0, 1, 1] 1 = .ok [0, -2 / 3, -1 / 3, 0] := by
      simp [frequency2phase, npMean, npSum, npCumsum]; norm_num
    have g : gcodev [0, 1, 1] [0, 1, 1] 1 "freq" (.list [1]) =
        gcodev [0, -2 / 3, -1 / 3, 0] [0, -2 / 3, -1 / 3, 0] 1 "phase" (.list [1]) := by
      simp only [gcodev, input_to_phase, e, if_false, if_true, f1, ok_bind]
    rw [g, t1, gcodev_phase_eq _ _ (by simp), table_single _ _ (by norm_num) _ _ _ _ _ 1 (by norm_num)
      (by simp) (by simp) (by simp) (by simp)]
    simp only [Except.map, List.map_cons, List.map_nil]
    have v : Spec.gcodev (seq [0, -2 / 3, -1 / 3, 0]) (seq [0, -2 / 3, -1 / 3, 0]) 4 1
        ((1 : ℕ) / 1) = 1 / 2 := by
      simp [Spec.gcodev, sum_range_succ, d2, seq]
      norm_num
    simp only [List.length_cons, List.length_nil, Nat.zero_add, Nat.reduceAdd, Nat.cast_one,
      div_one] at v ⊢
    rw [v]
    exact ⟨_, _, rfl⟩

/-- The hypotheses are met: one NaN in the first series, at a sample used for `m = 1`. -/
example : SameUpToNan 1
    (fun m => Clean .oadev [some 1, none, some 0, some 3, some 2] m ∧ Clean .oadev ([0, 1, 1, 2, 5].map some) m)
    (fun m => Clean .oadev [some 1, none, some 0, some 3, some 2] m ∧ Clean .oadev ([0, 1, 1, 2, 5].map some) m)
    (gcodev [1, 7, 0, 3, 2] [0, 1, 1, 2, 5] 1 "phase" .none)
    (gcodev_nv [some 1, none, some 0, some 3, some 2] ([0, 1, 1, 2, 5].map some) 1 "phase" .none) :=
  nan_gcodev _ _ _ _ (by simp [Completes]) (completes_some _) (by simp) 1 .none

example : ¬ Clean .oadev [some 1, none, some 0, some 3, some 2] 1 ∧
    Clean .oadev [some 1, none, some 0, some 3, some 2] 2 := by
  constructor
  · intro h
    exact h 1 ⟨0, by simp, Or.inr (Or.inl rfl)⟩ rfl
  · rintro i ⟨k, hk, hi⟩
    simp only [List.length_cons, List.length_nil] at hk
    obtain rfl : k = 0 := by omega
    rcases hi with rfl | rfl | rfl <;> simp

example : SameUpToNan 1
    (fun m => Clean .mdev [some 1, none, some 0, some 3] m ∧ Clean .mdev ([0, 1, 1, 2].map some) m ∧
      Clean .mdev ([1, 1, 0, 2].map some) m)
    (fun m => Clean .mdev [some 1, none, some 0, some 3] m ∧ Clean .mdev ([0, 1, 1, 2].map some) m ∧
      Clean .mdev ([1, 1, 0, 2].map some) m)
    (three_cornered_hat_phase [1, 7, 0, 3] [0, 1, 1, 2] [1, 1, 0, 2] 1 .none .mdev)
    (three_cornered_hat_phase_nv [some 1, none, some 0, some 3] ([0, 1, 1, 2].map some)
      ([1, 1, 0, 2].map some) 1 .none mdev_nv) :=
  nan_hat (.first .mdev) _ _ _ _ _ _ (by simp [Completes]) (completes_some _) (completes_some _) (by simp) (by simp)
    1 .none

end AT
