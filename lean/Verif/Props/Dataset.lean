import Verif.Model.Dataset
import Verif.Props.Shape
import Verif.Props.Hat

/-!
# Dataset: C39, C40, C41
-/

namespace AT

open Spec

/-! ## C39 -/

/-- the inputs in force after the uses `ops` of an object created with `i` -/
def Spec.inputAfter (i : Inp) : List Op → Inp
  | [] => i
  | .set_input j :: ops => inputAfter j ops
  | .compute _ :: ops => inputAfter i ops

/-- what a successful `compute` needs: a known name of a deviation function and an evaluation
that gives `r` -/
def Spec.Succeeds (call : String → Inp → Py Res) (f : String) (i : Inp) (r : Res) : Prop :=
  f ∈ moduleNames ∧ (['d', 'e', 'v'] <:+ f.toList ∨ f = "theo1" ∨ f = "mtie" ∨ f = "tierms") ∧
    call f i = .ok r

theorem lastThree_iff (f : String) : lastThree f = ['d', 'e', 'v'] ↔ ['d', 'e', 'v'] <:+ f.toList := by
  unfold lastThree
  rw [List.suffix_iff_eq_drop]
  exact eq_comm

theorem compute_ok_iff (call : String → Inp → Py Res) (s : Dataset) (f : String) (r : Res) :
    (s.compute call f).1 = .ok r ↔ Spec.Succeeds call f s.inp r := by
  unfold Dataset.compute Spec.Succeeds
  rw [← lastThree_iff]
  by_cases h1 : f ∈ moduleNames
  · by_cases h2 : lastThree f = ['d', 'e', 'v'] ∨ f = "theo1" ∨ f = "mtie" ∨ f = "tierms"
    · rw [if_neg (by simpa using h1), if_neg (by
        simp only [List.mem_cons, List.not_mem_nil, or_false]
        tauto)]
      cases call f s.inp <;> simp [h1, h2]
    · rw [if_neg (by simpa using h1), if_pos (by
        simp only [List.mem_cons, List.not_mem_nil, or_false]
        tauto)]
      simp [h2]
  · rw [if_pos h1]
    simp [h1]

/-- **C39.** `compute` stores what it returns and the name of the function; a failing `compute`
changes nothing. -/
theorem compute_state (call : String → Inp → Py Res) (s : Dataset) (f : String) :
    (∃ r, (s.compute call f).1 = .ok r ∧ (s.compute call f).2 = ⟨s.inp, .filled r f⟩) ∨
    (∃ e, (s.compute call f).1 = .error e ∧ (s.compute call f).2 = s) := by
  by_cases h1 : f ∉ moduleNames
  · exact Or.inr ⟨.attributeError, by unfold Dataset.compute; rw [if_pos h1],
      by unfold Dataset.compute; rw [if_pos h1]⟩
  by_cases h2 : lastThree f ≠ ['d', 'e', 'v'] ∧ ¬ f ∈ ["theo1", "mtie", "tierms"]
  · exact Or.inr ⟨.runtimeError, by unfold Dataset.compute; rw [if_neg h1, if_pos h2],
      by unfold Dataset.compute; rw [if_neg h1, if_pos h2]⟩
  unfold Dataset.compute
  rw [if_neg h1, if_neg h2]
  cases call f s.inp with
  | error e => exact Or.inr ⟨e, rfl, rfl⟩
  | ok r => exact Or.inl ⟨r, rfl, rfl⟩

theorem uses_snoc (call : String → Inp → Py Res) (s : Dataset) (ops : List Op) (o : Op) :
    s.uses call (ops ++ [o]) = (s.uses call ops).step call o := by
  simp [Dataset.uses]

theorem inputAfter_snoc (i : Inp) (ops : List Op) (o : Op) :
    Spec.inputAfter i (ops ++ [o]) = match o with
      | .set_input j => j
      | .compute _ => Spec.inputAfter i ops := by
  induction ops generalizing i with
  | nil => cases o <;> rfl
  | cons p ops ih =>
    cases p with
    | set_input j => exact ih j
    | compute f => exact ih i

/-- **C39.** After any sequence of `set_input` and `compute` calls the inputs are those of the last
`set_input` (or of the constructor), and `out` is either still empty, no `compute` having
succeeded, or holds the result and the name of the last successful `compute`, evaluated on the
inputs in force at that call. -/
theorem dataset_history (call : String → Inp → Py Res) (i : Inp) (ops : List Op) :
    ((Dataset.init i).uses call ops).inp = Spec.inputAfter i ops ∧
    ((((Dataset.init i).uses call ops).out = .empty ∧
        ∀ pre f post r, ops = pre ++ .compute f :: post →
          ¬ Spec.Succeeds call f (Spec.inputAfter i pre) r) ∨
      (∃ pre f post r, ops = pre ++ .compute f :: post ∧
        Spec.Succeeds call f (Spec.inputAfter i pre) r ∧
        ((Dataset.init i).uses call ops).out = .filled r f ∧
        ∀ mid g post' r', post = mid ++ .compute g :: post' →
          ¬ Spec.Succeeds call g (Spec.inputAfter i (pre ++ .compute f :: mid)) r')) := by
  induction ops using List.reverseRecOn with
  | nil =>
    refine ⟨rfl, Or.inl ⟨rfl, ?_⟩⟩
    intro pre f post r h
    simp at h
  | append_singleton ops o ih =>
    obtain ⟨h1, h2⟩ := ih
    rw [uses_snoc, inputAfter_snoc]
    set s := (Dataset.init i).uses call ops with hs
    -- a step that does not change `out`, the new use not being a successful compute
    have keep : (s.step call o).out = s.out →
        (∀ f r, o = .compute f → ¬ Spec.Succeeds call f (Spec.inputAfter i ops) r) →
        ((((s.step call o)).out = .empty ∧
        ∀ pre f post r, ops ++ [o] = pre ++ .compute f :: post →
          ¬ Spec.Succeeds call f (Spec.inputAfter i pre) r) ∨
      (∃ pre f post r, ops ++ [o] = pre ++ .compute f :: post ∧
        Spec.Succeeds call f (Spec.inputAfter i pre) r ∧
        (s.step call o).out = .filled r f ∧
        ∀ mid g post' r', post = mid ++ .compute g :: post' →
          ¬ Spec.Succeeds call g (Spec.inputAfter i (pre ++ .compute f :: mid)) r')) := by
      intro hout hno
      rw [hout]
      rcases h2 with ⟨he, hf⟩ | ⟨pre, f, post, r, e1, e2, e3, e4⟩
      · refine Or.inl ⟨he, ?_⟩
        intro pre f post r h
        rcases List.eq_nil_or_concat post with hp | ⟨post', x, hp⟩
        · rw [hp] at h
          have := List.append_inj' h rfl
          obtain ⟨rfl, h3⟩ := this
          exact hno f r (by simpa using h3)
        · rw [hp, List.concat_eq_append, ← List.cons_append, ← List.append_assoc] at h
          exact hf pre f post' r (List.append_inj' h rfl).1
      · refine Or.inr ⟨pre, f, post ++ [o], r, by rw [e1]; simp, e2, e3, ?_⟩
        intro mid g post' r' h
        rcases List.eq_nil_or_concat post' with hp | ⟨post'', x, hp⟩
        · rw [hp] at h
          obtain ⟨h4, h3⟩ := List.append_inj' h rfl
          rw [← h4, ← e1]
          exact hno g r' (by simpa using h3)
        · rw [hp, List.concat_eq_append, ← List.cons_append, ← List.append_assoc] at h
          exact e4 mid g post'' r' (List.append_inj' h rfl).1
    cases o with
    | set_input j => exact ⟨rfl, keep rfl (fun f r h => by cases h)⟩
    | compute f =>
      rcases compute_state call s f with ⟨r, hr, hst⟩ | ⟨e, he, hst⟩
      · refine ⟨?_, Or.inr ⟨ops, f, [], r, rfl, ?_, ?_, ?_⟩⟩
        · show ((s.compute call f).2).inp = _
          rw [hst]
          exact h1
        · rw [compute_ok_iff, h1] at hr
          exact hr
        · show ((s.compute call f).2).out = _
          rw [hst]
        · intro mid g post' r' h
          simp at h
      · refine ⟨?_, keep ?_ ?_⟩
        · show ((s.compute call f).2).inp = _
          rw [hst]
          exact h1
        · show ((s.compute call f).2).out = _
          rw [hst]
        · intro g r hg hsu
          cases hg
          rw [← h1, ← compute_ok_iff, he] at hsu
          cases hsu

/-- two computations with new inputs in between, the last one failing: the result is that of the
first -/
example (call : String → Inp → Py Res) (i j : Inp) (r : Res)
    (h : call "adev" i = .ok r) (h' : call "mdev" j = .error .userWarning) :
    ((Dataset.init i).uses call [.compute "adev", .set_input j, .compute "mdev"]).out
      = .filled r "adev" := by
  have e1 : (Dataset.init i).compute call "adev" = (.ok r, ⟨i, .filled r "adev"⟩) := by
    unfold Dataset.compute
    rw [if_neg (by decide), if_neg (by decide)]
    have h0 : call "adev" (Dataset.init i).inp = .ok r := h
    simp only [h0]
    rfl
  have e2 : (Dataset.mk j (.filled r "adev")).compute call "mdev" =
      (.error .userWarning, ⟨j, .filled r "adev"⟩) := by
    unfold Dataset.compute
    rw [if_neg (by decide), if_neg (by decide)]
    simp only [h']
  simp [Dataset.uses, Dataset.step, Dataset.set_input, e1, e2]

/-! ## C40 -/

/-- **C40.** The outcome of `compute` for every string: AttributeError for names that are not
defined in allantools, RuntimeError for other names that neither end in `dev` nor are `theo1`,
`mtie`, `tierms`; in both cases nothing is evaluated and the object is unchanged.  Otherwise it is
the outcome of the evaluation. -/
theorem compute_name (call : String → Inp → Py Res) (s : Dataset) (f : String) :
    (f ∉ moduleNames → s.compute call f = (.error .attributeError, s)) ∧
    (f ∈ moduleNames → ¬ (['d', 'e', 'v'] <:+ f.toList) → f ≠ "theo1" → f ≠ "mtie" → f ≠ "tierms" →
      s.compute call f = (.error .runtimeError, s)) ∧
    (f ∈ moduleNames → (['d', 'e', 'v'] <:+ f.toList ∨ f = "theo1" ∨ f = "mtie" ∨ f = "tierms") →
      (s.compute call f).1 = call f s.inp) := by
  refine ⟨fun h => ?_, fun h h1 h2 h3 h4 => ?_, fun h h1 => ?_⟩
  · unfold Dataset.compute
    rw [if_pos h]
  · unfold Dataset.compute
    rw [if_neg (by simpa using h), if_pos]
    rw [← lastThree_iff] at h1
    simp only [List.mem_cons, List.not_mem_nil, or_false]
    tauto
  · unfold Dataset.compute
    rw [← lastThree_iff] at h1
    rw [if_neg (by simpa using h), if_neg (by
        simp only [List.mem_cons, List.not_mem_nil, or_false]
        tauto)]
    cases call f s.inp <;> rfl

example (call : String → Inp → Py Res) (s : Dataset) :
    s.compute call "nosuch" = (.error .attributeError, s) ∧ (s.compute call "mtie").1 = call "mtie" s.inp :=
  ⟨(compute_name call s "nosuch").1 (by decide), (compute_name call s "mtie").2.2 (by decide) (by simp)⟩

/-- the fourteen functions of one data set and the names under which the package exports them -/
noncomputable def Spec.devTable : List (String × (List ℝ → ℝ → String → TausArg → Py (DevOut ℝ))) :=
  [("adev", AT.adev), ("oadev", AT.oadev), ("mdev", AT.mdev), ("tdev", AT.tdev), ("hdev", AT.hdev),
    ("ohdev", AT.ohdev), ("pdev", AT.pdev), ("totdev", AT.totdev), ("mtotdev", AT.mtotdev),
    ("ttotdev", AT.ttotdev), ("htotdev", AT.htotdev), ("theo1", AT.theo1), ("tierms", AT.tierms),
    ("mtie", AT.mtie)]

theorem compute_names_aux (f : String) :
    (f ∈ moduleNames ∧ (['d', 'e', 'v'] <:+ f.toList ∨ f = "theo1" ∨ f = "mtie" ∨ f = "tierms")) ↔
      (∃ fn, devOfName f = some fn) ∨ f = "gradev" ∨ f = "gcodev" ∨ f = "psd_piecewise_to_adev" := by
  constructor
  · rintro ⟨h, h1⟩
    rw [← lastThree_iff] at h1
    simp only [moduleNames, List.mem_cons, List.not_mem_nil, or_false] at h
    have key : ∀ g : String, (lastThree g = ['d', 'e', 'v'] ∨ g = "theo1" ∨ g = "mtie" ∨ g = "tierms") →
        f = g → ((devOfName g).isSome ∨ g = "gradev" ∨ g = "gcodev" ∨ g = "psd_piecewise_to_adev") →
        ((∃ fn, devOfName f = some fn) ∨ f = "gradev" ∨ f = "gcodev" ∨ f = "psd_piecewise_to_adev") := by
      intro g _ hg hs
      subst hg
      rwa [Option.isSome_iff_exists] at hs
    rcases h with h | h | h | h | h | h | h | h | h | h | h | h | h | h | h | h | h | h | h | h | h | h | h | h | h | h | h | h | h | h | h | h | h | h | h | h | h | h | h | h | h | h | h | h | h | h | h | h | h | h | h | h | h | h | h | h | h | h | h <;>
      first
      | (exfalso; subst h; revert h1; decide)
      | exact key _ (h ▸ h1) h (by decide)
  · intro h
    rw [← lastThree_iff]
    rcases h with ⟨fn, h⟩ | h | h | h
    · unfold devOfName at h
      split at h <;> first | (cases h; done) | (exact ⟨by decide, by decide⟩)
    · subst h; exact ⟨by decide, by decide⟩
    · subst h; exact ⟨by decide, by decide⟩
    · subst h; exact ⟨by decide, by decide⟩

theorem devOfName_iff (f : String) :
    (∃ fn, devOfName f = some fn) ↔ f ∈ ["adev", "oadev", "mdev", "tdev", "hdev", "ohdev", "pdev",
      "totdev", "mtotdev", "ttotdev", "htotdev", "theo1", "tierms", "mtie"] := by
  constructor
  · rintro ⟨fn, h⟩
    unfold devOfName at h
    split at h <;> first | (cases h; done) | decide
  · intro h
    simp only [List.mem_cons, List.not_mem_nil, or_false] at h
    rcases h with h | h | h | h | h | h | h | h | h | h | h | h | h | h <;> subst h <;> exact ⟨_, rfl⟩

/-- **C40.** The names that are evaluated: the fourteen functions, `gradev`, and two others. -/
theorem compute_names (f : String) :
    (f ∈ moduleNames ∧ (['d', 'e', 'v'] <:+ f.toList ∨ f = "theo1" ∨ f = "mtie" ∨ f = "tierms")) ↔
      f ∈ ["adev", "oadev", "mdev", "tdev", "hdev", "ohdev", "pdev", "totdev", "mtotdev", "ttotdev",
        "htotdev", "theo1", "tierms", "mtie"] ∨
      f = "gradev" ∨ f = "gcodev" ∨ f = "psd_piecewise_to_adev" := by
  rw [compute_names_aux, devOfName_iff]

/-- the two other names raise TypeError, whatever the input -/
theorem compute_odd_names (ppf : ℝ → ℝ → NV) (s : Dataset) (f : String)
    (h : f = "gcodev" ∨ f = "psd_piecewise_to_adev") :
    s.compute (callStd ppf) f = (.error .typeError, s) := by
  have hc : callStd ppf f s.inp = .error .typeError := by
    unfold callStd
    cases s.inp.data with
    | none => rfl
    | some d => rcases h with rfl | rfl <;> simp [devOfName]
  have hm : f ∈ moduleNames ∧ lastThree f = ['d', 'e', 'v'] := by
    rcases h with rfl | rfl <;> exact ⟨by decide, by decide⟩
  unfold Dataset.compute
  rw [if_neg (by simpa using hm.1), if_neg (by simp [hm.2]), hc]

/-- **C40.** For the fourteen functions `compute` is the call of the function of that name on the
stored inputs. -/
theorem compute_dev (ppf : ℝ → ℝ → NV) (s : Dataset) (f : String)
    (fn : List ℝ → ℝ → String → TausArg → Py (DevOut ℝ)) (h : (f, fn) ∈ Spec.devTable)
    (data : List ℝ) (hd : s.inp.data = some data) :
    (s.compute (callStd ppf) f).1 =
      (fn data s.inp.rate s.inp.data_type s.inp.taus).map toRes := by
  have key : ∃ d, devOfName f = some d ∧ d.run = fn := by
    simp only [Spec.devTable, List.mem_cons, Prod.mk.injEq, List.not_mem_nil, or_false] at h
    rcases h with h | h | h | h | h | h | h | h | h | h | h | h | h | h <;>
      obtain ⟨rfl, rfl⟩ := h <;> exact ⟨_, rfl, rfl⟩
  obtain ⟨d, h1, rfl⟩ := key
  have hn := (compute_names f).2 (Or.inl ((devOfName_iff f).1 ⟨d, h1⟩))
  rw [(compute_name (callStd ppf) s f).2.2 hn.1 hn.2]
  unfold callStd
  rw [hd, h1]

example (ppf : ℝ → ℝ → NV) (rate : ℝ) :
    ((Dataset.init ⟨some [0, 1, 3, 2, 5], rate, "phase", .none⟩).compute (callStd ppf) "hdev").1 =
      (AT.hdev [0, 1, 3, 2, 5] rate "phase" .none).map toRes :=
  compute_dev ppf _ "hdev" AT.hdev (by simp [Spec.devTable]) _ rfl

/-- **C40.** `compute("gradev")` is the call of `gradev` on the stored inputs, none of which is a gap,
at the default confidence of 90% and for the default noise type. -/
theorem compute_gradev (ppf : ℝ → ℝ → NV) (s : Dataset) (data : List ℝ) (hd : s.inp.data = some data) :
    (s.compute (callStd ppf) "gradev").1 =
      gradev ppf (data.map some) s.inp.rate s.inp.data_type s.inp.taus (9 / 10) "wp" := by
  have hn := (compute_names "gradev").2 (Or.inr (Or.inl rfl))
  rw [(compute_name (callStd ppf) s "gradev").2.2 hn.1 hn.2]
  unfold callStd
  rw [hd]
  rfl

/-! ## C41 -/

theorem write_rows_ok (r : Res) (g : ℕ → Line) (is : List ℕ) (acc : List Line)
    (h : ∀ i ∈ is, write_row r i = .ok (g i)) : write_rows r is acc = (acc ++ is.map g, .ok ()) := by
  induction is generalizing acc with
  | nil => simp [write_rows]
  | cons i is ih =>
    rw [write_rows, h i (by simp)]
    simp only
    rw [ih _ (fun j hj => h j (by simp [hj]))]
    simp

/-- **C41, what is written.** When the stored result is that of one of the fourteen functions for
phase data at a positive rate, `write_results` succeeds, changes no other file, and the file
consists of the header and one line per point, with tau, the number of terms, the deviation, and
the deviation minus and plus half the error bar.  The first column is `⌊m/m₀⌋`, with `m₀` the
first factor: this is the averaging factor only if `m₀ = 1`. -/
theorem write_results_partial (s : Dataset) (fn : DevName) (x : List ℝ) (rate : ℝ) (hr : 0 < rate)
    (taus : TausArg) (o : DevOut ℝ) (ho : fn.run x rate "phase" taus = .ok o) (id : String)
    (hs : s.out = .filled (toRes o) id) (fs : Files) (name : String) (hp : List (String × String)) :
    ∃ kept : List ℕ, ∃ m0 : ℕ, kept.head? = some m0 ∧ 0 < m0 ∧
      (∀ m, m ∈ kept ↔ Reported fn x.length rate taus m) ∧ kept.Pairwise (· < ·) ∧
      (s.write_results fs name hp).2 = .ok () ∧
      (∀ other, other ≠ name → (s.write_results fs name hp).1 other = fs other) ∧
      (s.write_results fs name hp).1 name = some ([.generated, .dataType s.inp.data_type,
        .rate s.inp.rate] ++ hp.map (fun p => .param p.1 p.2) ++ [.fields id] ++
        kept.map (fun (m : ℕ) => .row (m / m0 : ℕ) (m / rate) (count fn x.length m)
          (some (value fn (seq x) x.length rate m
            - errOf fn x.length m (value fn (seq x) x.length rate m) / 2))
          (some (value fn (seq x) x.length rate m))
          (some (value fn (seq x) x.length rate m
            + errOf fn x.length m (value fn (seq x) x.length rate m) / 2)))) := by
  obtain ⟨kept, hne, hsort, hk, h1, h2, h3, h4⟩ := run_ok fn x rate taus o ho
  obtain ⟨m0, rest, hkept⟩ : ∃ m0 rest, kept = m0 :: rest := List.exists_cons_of_ne_nil hne
  have hm0 : 0 < m0 := ((hk m0).1 (by simp [hkept])).1
  have hsg : ∀ m, sign fn rate m = 1 := by
    intro m
    have : ¬ rate < 0 := not_lt.2 hr.le
    cases fn <;> simp [sign, rateSign, this]
  simp only [hsg, one_mul] at h2 h3
  set V : ℕ → ℝ := fun m => value fn (seq x) x.length rate m with hV
  refine ⟨kept, m0, by rw [hkept]; rfl, hm0, hk, hsort, ?_⟩
  have hrow : ∀ i ∈ List.range (toRes o).taus.length, write_row (toRes o) i = .ok
      ((fun (m : ℕ) => Line.row (m / m0 : ℕ) (m / rate) (count fn x.length m)
          (some (V m - errOf fn x.length m (V m) / 2)) (some (V m))
          (some (V m + errOf fn x.length m (V m) / 2))) (kept.getD i 0)) := by
    intro i hi
    have hi' : i < kept.length := by
      rw [List.mem_range] at hi
      simpa [toRes, h1] using hi
    have e : ∀ {β : Type} (g : ℕ → β), kept.map g = tab kept.length (fun i => g (kept.getD i 0)) := by
      intro β g
      conv_lhs => rw [eq_tab kept 0, map_tab]
    unfold write_row toRes
    simp only [h1, h2, h3, h4, List.map_map]
    rw [e, e, e, e]
    simp only [pyGet_tab_nat _ _ _ hi', ok_bind]
    have h0 := pyGet_tab_nat kept.length (fun i => ((kept.getD i 0 : ℕ) : ℝ) / rate) 0
      (by rw [hkept]; simp)
    rw [Nat.cast_zero] at h0
    rw [h0]
    simp only [ok_bind, Function.comp, Option.map_some]
    have hdiv : ((kept.getD i 0 : ℕ) : ℝ) / rate / (((kept.getD 0 0 : ℕ) : ℝ) / rate)
        = ((kept.getD i 0 : ℕ) : ℝ) / (m0 : ℝ) := by
      rw [show kept.getD 0 0 = m0 by rw [hkept]; rfl]
      have : (m0 : ℝ) ≠ 0 := by positivity
      field_simp
    rw [hdiv]
    unfold write_row.pyInt
    rw [if_pos (by positivity), Int.floor_div_natCast, Int.floor_natCast]
    rfl
  have hw : s.write_results fs name hp = (Function.update fs name (some (headerLines s hp ++ [.fields id] ++
        kept.map (fun (m : ℕ) => Line.row (m / m0 : ℕ) (m / rate) (count fn x.length m)
          (some (V m - errOf fn x.length m (V m) / 2)) (some (V m))
          (some (V m + errOf fn x.length m (V m) / 2))))), .ok ()) := by
    unfold Dataset.write_results
    rw [hs]
    simp only
    rw [write_rows_ok _ _ _ _ hrow]
    simp only
    have : (List.range (toRes o).taus.length).map (fun i => kept.getD i 0) = kept := by
      conv_rhs => rw [eq_tab kept 0]
      simp [toRes, h1, tab]
    conv_rhs => rw [← this, List.map_map]
    rfl
  rw [hw]
  exact ⟨rfl, fun other h => Function.update_of_ne h _ _, Function.update_self _ _ _⟩

/-- averaging factor and tau of a line -/
def Spec.afTau : Line → Option (ℤ × ℝ)
  | .row af tau _ _ _ _ => some (af, tau)
  | _ => none

/-- the averaging factors and taus in a file -/
def Spec.points (l : List Line) : List (ℤ × ℝ) := l.filterMap Spec.afTau

theorem headerLines_points (s : Dataset) (hp : List (String × String)) (id : String) :
    Spec.points ([.generated, .dataType s.inp.data_type, .rate s.inp.rate] ++
      hp.map (fun p => .param p.1 p.2) ++ [.fields id]) = [] := by
  unfold Spec.points
  rw [List.filterMap_eq_nil_iff]
  intro l hl
  simp only [List.cons_append, List.nil_append, List.mem_cons, List.mem_append, List.mem_map,
    List.not_mem_nil, or_false] at hl
  rcases hl with rfl | rfl | rfl | ⟨q, _, rfl⟩ | rfl <;> rfl

/-- **C41.** If the averaging factor 1 is among the reported ones, the first two columns of the file
are exactly the reported factors and their taus. -/
theorem write_results_af (s : Dataset) (fn : DevName) (x : List ℝ) (rate : ℝ) (hr : 0 < rate)
    (taus : TausArg) (o : DevOut ℝ) (ho : fn.run x rate "phase" taus = .ok o) (id : String)
    (h1 : Reported fn x.length rate taus 1)
    (hs : s.out = .filled (toRes o) id) (fs : Files) (name : String) (hp : List (String × String)) :
    ∃ kept : List ℕ, ∃ l, (∀ m, m ∈ kept ↔ Reported fn x.length rate taus m) ∧
      kept.Pairwise (· < ·) ∧ (s.write_results fs name hp).1 name = some l ∧
      Spec.points l = kept.map (fun (m : ℕ) => ((m : ℤ), (m : ℝ) / rate)) := by
  obtain ⟨kept, m0, h2, h3, h4, h5, _, _, h7⟩ :=
    write_results_partial s fn x rate hr taus o ho id hs fs name hp
  have hm0 : m0 = 1 := by
    cases kept with
    | nil => simp at h2
    | cons a l =>
      simp only [List.head?_cons, Option.some.injEq] at h2
      subst h2
      have := (h4 1).2 h1
      rcases List.mem_cons.1 this with h | h
      · exact h.symm
      · have := List.rel_of_pairwise_cons h5 h
        omega
  subst hm0
  refine ⟨kept, _, h4, h5, h7, ?_⟩
  have := headerLines_points s hp id
  unfold Spec.points at this ⊢
  rw [List.filterMap_append, this, List.nil_append, List.filterMap_map]
  simp [Spec.afTau, Function.comp_def]

/-- **C41 is false of the code: averaging factors.** The first column of the first point is always
1.  With `taus=[2]` at rate 1 the only line says averaging factor 1, tau 2. -/
theorem write_results_af_wrong (s : Dataset) (fs : Files) (name : String) (hp : List (String × String)) :
    ∃ o, DevName.oadev.run [0, 1, 0, 1, 0, 1] 1 "phase" (.list [2]) = .ok o ∧
      (s.out = .filled (toRes o) "oadev" →
        ∃ l, (s.write_results fs name hp).1 name = some l ∧ Spec.points l = [(1, 2)]) := by
  obtain ⟨kept, hs, hk, hr⟩ := (run_cases .oadev [0, 1, 0, 1, 0, 1] 1 (.list [2])).2
      (by norm_num) rfl (by simp)
  have hk1 : kept = [2] := by
    apply sorted_unique hs (by simp)
    intro m
    rw [hk]
    simp only [Reported, Requested, List.mem_singleton, exists_eq_left, List.length_cons,
      List.length_nil, count, lenOf, maxOf]
    norm_num
    constructor
    · rintro ⟨_, _, _, _, h, _⟩
      have := isRound_unique h (show IsRound 2 ((2 : ℕ) : ℤ) by norm_num [IsRound])
      exact_mod_cast this
    · rintro rfl
      exact ⟨by simp, by simp, by norm_num, by simp, by norm_num [IsRound], by norm_num⟩
  have hrun := hr
  rw [if_neg (by simp [hk1])] at hrun
  refine ⟨_, hrun, fun h => ?_⟩
  obtain ⟨kept', m0, h1, h2, h3, h4, h5, h6, h7⟩ :=
    write_results_partial s .oadev [0, 1, 0, 1, 0, 1] 1 one_pos (.list [2]) _ hrun "oadev" h fs name hp
  have hk2 : kept' = [2] := by
    rw [← hk1]
    exact sorted_unique h4 hs (fun m => (h3 m).trans (hk m).symm)
  subst hk2
  simp only [List.head?_cons, Option.some.injEq] at h1
  subst h1
  refine ⟨_, h7, ?_⟩
  have := headerLines_points s hp "oadev"
  unfold Spec.points at this ⊢
  rw [List.filterMap_append, this]
  simp [Spec.afTau]

/-- **C41 is false of the code: existing files.** When nothing was computed, `write_results` raises
TypeError and the previous content of the file, whatever it was, is replaced by the header. -/
theorem write_results_loses (s : Dataset) (h : s.out = .empty) (fs : Files) (name : String)
    (hp : List (String × String)) :
    (s.write_results fs name hp).2 = .error .typeError ∧
    (s.write_results fs name hp).1 name = some ([.generated, .dataType s.inp.data_type,
      .rate s.inp.rate] ++ hp.map (fun p => .param p.1 p.2)) ∧
    (∀ other, other ≠ name → (s.write_results fs name hp).1 other = fs other) := by
  unfold Dataset.write_results
  rw [h]
  exact ⟨rfl, Function.update_self _ _ _, fun other h => Function.update_of_ne h _ _⟩

/-- **C41 is false of the code: gradev.** After a successful `compute("gradev")` the error bars are a
pair of arrays, so that `write_results` always raises TypeError and destroys the file. -/
theorem write_results_gradev (s : Dataset) (r : Res) (id : String) (l : List (List NV))
    (h : s.out = .filled r id) (hl : r.errs = .lst l) (hne : r.taus ≠ [])
    (hd : r.devs.length = r.taus.length) (hn : r.ns.length = r.taus.length) (fs : Files) (name : String)
    (hp : List (String × String)) :
    (s.write_results fs name hp).2 = .error .typeError ∧
    (s.write_results fs name hp).1 name = some ([.generated, .dataType s.inp.data_type,
      .rate s.inp.rate] ++ hp.map (fun p => .param p.1 p.2) ++ [.fields id]) := by
  obtain ⟨k, hk⟩ : ∃ k, r.taus.length = k + 1 :=
    ⟨r.taus.length - 1, by have := List.length_pos_iff.2 hne; omega⟩
  have hget : ∀ {α : Type} (l : List α), l.length = k + 1 → ∃ v, pyGet l ((0 : ℕ) : ℤ) = .ok v := by
    intro α l hl
    cases l with
    | nil => simp at hl
    | cons v l => exact ⟨v, rfl⟩
  obtain ⟨a, ha⟩ := hget r.taus hk
  obtain ⟨b, hb⟩ := hget r.devs (hd.trans hk)
  obtain ⟨c, hc⟩ := hget r.ns (hn.trans hk)
  have hrow : write_row r 0 = .error .typeError := by
    unfold write_row
    rw [hl, ha]
    rw [Nat.cast_zero] at ha
    simp only [ok_bind, ha, hb, hc]
  unfold Dataset.write_results
  rw [h]
  simp only
  rw [hk, List.range_succ_eq_map, write_rows, hrow]
  exact ⟨rfl, Function.update_self _ _ _⟩

example (i : Inp) := write_results_gradev ⟨i, .filled ⟨[1], [2], .lst [[some 1, some 3]], [4]⟩ "gradev"⟩ _ _ _
  rfl rfl (by simp) rfl rfl

end AT
