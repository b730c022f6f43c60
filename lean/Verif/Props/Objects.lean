import Verif.Props.Kasdin
import Verif.Props.Plot

/-!
# C83: histories of `Noise` and `Plot` objects

Property: after any sequence of `set_input` and `generateNoise` calls a `Noise` object has the
settings of the last `set_input`, and its `time_series` is that of the last `generateNoise` which did
not raise, made with the settings in force at that call; and a `Plot` object shows, on logarithmic
axes, the results of all the data sets plotted, in order, each under its name.
-/

namespace AT

open Spec

/-! ## Noise -/

/-- `nr`, `qd` and `b` after the uses `ops` of an object created with `i` -/
def Spec.settingsAfter (i : ℕ × ℝ × ℝ) : List NoiseOp → ℕ × ℝ × ℝ
  | [] => i
  | .set_input nr qd b :: ops => settingsAfter (nr, qd, b) ops
  | .generate _ :: ops => settingsAfter i ops

/-- the series made from the draw `z`: the white noise `√qd z` through the filter of `b` -/
noncomputable def Spec.series (p : ℕ × ℝ × ℝ) (z : List ℝ) : List ℝ :=
  (List.range p.1).map (kasdinNoise p.2.2 (fun i => √p.2.1 * z.getD i 0))

theorem settingsAfter_snoc (i : ℕ × ℝ × ℝ) (ops : List NoiseOp) (o : NoiseOp) :
    settingsAfter i (ops ++ [o]) = match o with
      | .set_input nr qd b => (nr, qd, b)
      | .generate _ => settingsAfter i ops := by
  induction ops generalizing i with
  | nil => cases o <;> rfl
  | cons p ops ih =>
    cases p with
    | set_input nr qd b => exact ih _
    | generate z => exact ih _

theorem noise_uses_snoc (s : Noise) (ops : List NoiseOp) (o : NoiseOp) :
    s.uses (ops ++ [o]) = (s.uses ops).step o := by
  simp [Noise.uses]

/-- **C83.** After any sequence of `set_input` and `generateNoise` calls the settings are those of
the last `set_input` (or of the constructor), and `time_series` is either still empty, every
`generateNoise` having been called with `nr = 0`, or the filtered noise of the last `generateNoise`
with another `nr`, made with the settings in force at that call. -/
theorem noise_history (nr : ℕ) (qd b : ℝ) (ops : List NoiseOp) :
    (((Noise.init nr qd b).uses ops).nr, ((Noise.init nr qd b).uses ops).qd,
      ((Noise.init nr qd b).uses ops).b) = settingsAfter (nr, qd, b) ops ∧
    ((((Noise.init nr qd b).uses ops).time_series = [] ∧
        ∀ pre z post, ops = pre ++ .generate z :: post → (settingsAfter (nr, qd, b) pre).1 = 0) ∨
      (∃ pre z post, ops = pre ++ .generate z :: post ∧
        0 < (settingsAfter (nr, qd, b) pre).1 ∧
        ((Noise.init nr qd b).uses ops).time_series = series (settingsAfter (nr, qd, b) pre) z ∧
        ∀ mid z' post', post = mid ++ .generate z' :: post' →
          (settingsAfter (nr, qd, b) (pre ++ .generate z :: mid)).1 = 0)) := by
  induction ops using List.reverseRecOn with
  | nil =>
    refine ⟨rfl, Or.inl ⟨rfl, ?_⟩⟩
    intro pre z post h
    simp at h
  | append_singleton ops o ih =>
    obtain ⟨h1, h2⟩ := ih
    rw [noise_uses_snoc, settingsAfter_snoc]
    set s := (Noise.init nr qd b).uses ops with hs
    set i := (nr, qd, b) with hi
    have keep : (s.step o).time_series = s.time_series →
        (∀ z, o = .generate z → (settingsAfter i ops).1 = 0) →
        (((s.step o).time_series = [] ∧
        ∀ pre z post, ops ++ [o] = pre ++ .generate z :: post → (settingsAfter i pre).1 = 0) ∨
      (∃ pre z post, ops ++ [o] = pre ++ .generate z :: post ∧
        0 < (settingsAfter i pre).1 ∧
        (s.step o).time_series = series (settingsAfter i pre) z ∧
        ∀ mid z' post', post = mid ++ .generate z' :: post' →
          (settingsAfter i (pre ++ .generate z :: mid)).1 = 0)) := by
      intro hout hno
      rw [hout]
      rcases h2 with ⟨he, hf⟩ | ⟨pre, z, post, e1, e2, e3, e4⟩
      · refine Or.inl ⟨he, ?_⟩
        intro pre z post h
        rcases List.eq_nil_or_concat post with hp | ⟨post', x, hp⟩
        · rw [hp] at h
          obtain ⟨rfl, h3⟩ := List.append_inj' h rfl
          exact hno z (by simpa using h3)
        · rw [hp, List.concat_eq_append, ← List.cons_append, ← List.append_assoc] at h
          exact hf pre z post' (List.append_inj' h rfl).1
      · refine Or.inr ⟨pre, z, post ++ [o], by rw [e1]; simp, e2, e3, ?_⟩
        intro mid z' post' h
        rcases List.eq_nil_or_concat post' with hp | ⟨post'', x, hp⟩
        · rw [hp] at h
          obtain ⟨h4, h3⟩ := List.append_inj' h rfl
          rw [← h4, ← e1]
          exact hno z' (by simpa using h3)
        · rw [hp, List.concat_eq_append, ← List.cons_append, ← List.append_assoc] at h
          exact e4 mid z' post'' (List.append_inj' h rfl).1
    cases o with
    | set_input nr' qd' b' => exact ⟨rfl, keep rfl (fun z h => by cases h)⟩
    | generate z =>
      have hn : s.nr = (settingsAfter i ops).1 := by rw [← h1]
      rcases Nat.eq_zero_or_pos s.nr with h0 | h0
      · have hst : s.step (.generate z) = s := by
          unfold Noise.step; simp only; rw [generateNoise_zero s z h0]
        refine ⟨by rw [hst]; exact h1, keep (by rw [hst]) (fun _ _ => by rw [← hn]; exact h0)⟩
      · have hst : s.step (.generate z) = { s with
            time_series := series (settingsAfter i ops) z } := by
          unfold Noise.step; simp only; rw [generateNoise_eq s z h0, ← h1]; rfl
        refine ⟨by rw [hst]; exact h1, Or.inr ⟨ops, z, [], rfl, by rw [← hn]; exact h0, by rw [hst], ?_⟩⟩
        intro mid z' post' h
        simp at h

/-- eight values of white noise are made, then the settings are changed to random walk and to a
length of zero, and the second `generateNoise` raises: the old series is still there -/
example (z z' : List ℝ) :
    ((Noise.init 8 4 0).uses [.generate z, .set_input 0 1 (-2), .generate z']).time_series =
      (List.range 8).map (fun i => 2 * z.getD i 0) ∧
    ((Noise.init 8 4 0).uses [.generate z, .set_input 0 1 (-2), .generate z']).b = -2 := by
  have h4 : √(4 : ℝ) = 2 := by rw [show (4 : ℝ) = 2 ^ 2 by norm_num]; exact Real.sqrt_sq two_pos.le
  obtain ⟨h1, h2⟩ := noise_history 8 4 0 [.generate z, .set_input 0 1 (-2), .generate z']
  refine ⟨?_, by simpa [settingsAfter] using congrArg (fun p => p.2.2) h1⟩
  rcases h2 with ⟨_, h⟩ | ⟨pre, w, post, e1, e2, e3, _⟩
  · have := h [] z _ rfl
    simp [settingsAfter] at this
  · rcases pre with _ | ⟨p, _ | ⟨q, _ | ⟨r, pre⟩⟩⟩
    · simp only [List.nil_append, List.cons.injEq, NoiseOp.generate.injEq] at e1
      rw [e3, ← e1.1]
      simp [series, settingsAfter, kasdinNoise_white, h4]
    · simp at e1
    · simp only [List.cons_append, List.nil_append, List.cons.injEq] at e1
      obtain ⟨rfl, rfl, _⟩ := e1
      simp [settingsAfter] at e2
    · simp at e1

/-! ## Plot -/

/-- **C83.** Plotting any list of data sets whose results can be drawn, with any choice of error
bars and grid for each, on a new `Plot` object sets both axes to logarithmic scale and then draws
them in order; every call succeeds. -/
theorem plot_sequence (mplNone : Py Unit) (l : List (Dataset × Bool × Bool)) (res : Dataset → Res × String)
    (h : ∀ p ∈ l, p.1.out = .filled (res p.1).1 (res p.1).2 ∧ Drawable (res p.1).1) :
    l.foldlM (fun ax p => plot mplNone ax p.1 p.2.1 p.2.2) plotInit =
      .ok (.xscale "log" :: .yscale "log" ::
        l.flatMap (fun p => drawing (res p.1).1 (res p.1).2 p.2.1 p.2.2)) := by
  have key : ∀ (l : List (Dataset × Bool × Bool)) (ax : List AxCall),
      (∀ p ∈ l, p.1.out = .filled (res p.1).1 (res p.1).2 ∧ Drawable (res p.1).1) →
      l.foldlM (fun ax p => plot mplNone ax p.1 p.2.1 p.2.2) ax =
        .ok (ax ++ l.flatMap (fun p => drawing (res p.1).1 (res p.1).2 p.2.1 p.2.2)) := by
    intro l
    induction l with
    | nil => intro ax _; simp
    | cons p l ih =>
      intro ax hl
      have hp := hl p (by simp)
      rw [List.foldlM_cons, plot_filled mplNone ax p.1 _ _ hp.1 hp.2, ok_bind,
        ih _ (fun q hq => hl q (by simp [hq])), List.flatMap_cons, List.append_assoc]
  exact key l plotInit h

/-- two data sets, the first with error bars, the second with a grid -/
example (mplNone : Py Unit) (i : Inp) : [((⟨i, .filled ⟨[1, 2], [5, 4], .arr [some 1, some 3], []⟩ "adev"⟩ : Dataset),
      true, false), (⟨i, .filled ⟨[3], [7], .arr [none], []⟩ "theo1"⟩, false, true)].foldlM
        (fun ax p => plot mplNone ax p.1 p.2.1 p.2.2) plotInit =
    .ok [.xscale "log", .yscale "log", .errorbar [1, 2] [5, 4] (.arr [some 1, some 3]), .xlabel "Tau",
      .ylabel (some "adev"), .gridOff, .line [3] [7], .xlabel "Tau", .ylabel (some "theo1"),
      .grid "minor" "0.65", .grid "major" "0.25"] := by
  rw [plot_sequence mplNone _ (fun s => match s.out with
    | .filled r f => (r, f)
    | .empty => (⟨[], [], .arr [], []⟩, ""))]
  · rfl
  · intro p hp
    simp only [List.mem_cons, List.not_mem_nil, or_false] at hp
    rcases hp with rfl | rfl
    · refine ⟨rfl, rfl, Or.inl ⟨_, rfl, rfl, ?_⟩⟩
      intro v hv a ha
      simp only [List.mem_cons, List.not_mem_nil, or_false] at hv
      rcases hv with rfl | rfl <;> cases ha <;> norm_num
    · refine ⟨rfl, rfl, Or.inl ⟨_, rfl, rfl, ?_⟩⟩
      intro v hv a ha
      simp only [List.mem_cons, List.not_mem_nil, or_false] at hv
      rw [hv] at ha
      cases ha

end AT
