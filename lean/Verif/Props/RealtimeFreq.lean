import Verif.Props.Realtime
import Verif.Props.Convert
import Verif.Props.Invar
import Verif.Props.Hat

/-!
# Streaming frequency data: C37
-/

namespace AT

open Finset Real Spec

theorem bind_ok_iff {α β : Type} {e : Py α} {f : α → Py β} {b : β} :
    (e >>= f) = .ok b ↔ ∃ a, e = .ok a ∧ f a = .ok b := by
  cases e with
  | error e => simp [error_bind]
  | ok a => simp [ok_bind]

theorem forRange_pres {σ : Type} (P : σ → Prop) (f : σ → ℕ → Py σ) (n : ℕ)
    (hf : ∀ s i s', P s → f s i = .ok s' → P s') (s s' : σ) (hs : P s)
    (h : forRange n s f = .ok s') : P s' := by
  unfold forRange at h
  generalize List.range n = l at h
  induction l generalizing s with
  | nil =>
    cases h
    exact hs
  | cons i l ih =>
    rw [List.foldlM_cons, bind_ok_iff] at h
    obtain ⟨s1, h1, h2⟩ := h
    exact ih s1 (hf _ _ _ hs h1) h2

theorem update_af_x (c : RtCfg) (st st' : Rt) (h : rt_auto c st = .ok st') : st'.x = st.x := by
  unfold rt_auto update_af at h
  split_ifs at h
  · simp only [bind_ok_iff] at h
    obtain ⟨t, -, h⟩ := h
    cases h
    split_ifs <;> rfl
  · cases h
    rfl

/-- `add_phase` appends its argument to the stored samples -/
theorem add_phase_x (k : RtName) (c : RtCfg) (st st' : Rt) (v : ℝ)
    (h : k.add_phase c st v = .ok st') : st'.x = st.x ++ [v] := by
  cases k
  · simp only [RtName.add_phase, oadev_add_phase, bind_ok_iff] at h
    obtain ⟨s1, h1, h2⟩ := h
    rw [update_af_x c _ _ h2]
    refine forRange_pres (fun s => s.x = st.x ++ [v]) _ _ ?_ _ _ rfl h1
    intro s i s' hs hb
    rw [bind_ok_iff] at hb
    obtain ⟨af, -, hb⟩ := hb
    split_ifs at hb
    · simp only [oadev_update_S, bind_ok_iff] at hb
      obtain ⟨_, -, _, -, _, -, _, -, _, -, _, -, _, -, _, -, hb⟩ := hb
      cases hb
      exact hs
    · cases hb
      exact hs
  · simp only [RtName.add_phase, ohdev_add_phase, bind_ok_iff] at h
    obtain ⟨s1, h1, h2⟩ := h
    rw [update_af_x c _ _ h2]
    refine forRange_pres (fun s => s.x = st.x ++ [v]) _ _ ?_ _ _ rfl h1
    intro s i s' hs hb
    rw [bind_ok_iff] at hb
    obtain ⟨af, -, hb⟩ := hb
    split_ifs at hb
    · simp only [ohdev_update_S, bind_ok_iff] at hb
      obtain ⟨_, -, _, -, _, -, _, -, _, -, _, -, _, -, _, -, _, -, hb⟩ := hb
      cases hb
      exact hs
    · cases hb
      exact hs
  · simp only [RtName.add_phase, tdev_add_phase, bind_ok_iff] at h
    obtain ⟨s1, h1, h2⟩ := h
    rw [update_af_x c _ _ h2]
    refine forRange_pres (fun s => s.x = st.x ++ [v]) _ _ ?_ _ _ rfl h1
    have hdev : ∀ (s : Rt) (i : ℕ) (s' : Rt), tdev_update_dev s i = .ok s' → s'.x = s.x := by
      intro s i s' hb
      simp only [tdev_update_dev, bind_ok_iff] at hb
      obtain ⟨_, -, _, -, _, -, _, -, _, -, hb⟩ := hb
      cases hb
      rfl
    intro s i s' hs hb
    rw [bind_ok_iff] at hb
    obtain ⟨af, -, hb⟩ := hb
    split_ifs at hb
    · simp only [tdev_update_S, bind_ok_iff] at hb
      obtain ⟨_, -, _, -, _, -, _, -, _, -, _, -, _, -, _, -, _, -, _, -, hb⟩ := hb
      rw [hdev _ _ _ hb]
      exact hs
    · simp only [tdev_update_S3n, bind_ok_iff] at hb
      obtain ⟨_, -, _, -, _, -, _, -, _, -, _, -, hb⟩ := hb
      split_ifs at hb
      · simp only [tdev_S3n_last, bind_ok_iff] at hb
        obtain ⟨_, -, _, -, hb⟩ := hb
        rw [hdev _ _ _ hb]
        exact hs
      · cases hb
        exact hs
    · cases hb
      exact hs

/-- running sums of the frequency samples after the first, starting from `s` -/
def Spec.runSums (s : ℝ) : List ℝ → List ℝ
  | [] => []
  | f :: fs => (s + f) :: runSums (s + f) fs

/-- the phase samples `0, f₁, f₁+f₂, …` of the frequency samples `f₁, f₂, …` -/
def Spec.integrated (fs : List ℝ) : List ℝ :=
  if fs = [] then [] else 0 :: runSums 0 fs

theorem pyGet_last (l : List ℝ) (v : ℝ) : pyGet (l ++ [v]) (-1) = .ok v := by
  unfold pyGet
  simp

theorem feed_frequency_from (k : RtName) (c : RtCfg) (fs : List ℝ) (st : Rt) (l : List ℝ) (s : ℝ)
    (hx : st.x = l ++ [s]) : k.feed_frequency c st fs = k.feed c st (Spec.runSums s fs) := by
  induction fs generalizing st l s with
  | nil => rfl
  | cons f fs ih =>
    unfold RtName.feed_frequency RtName.feed Spec.runSums
    rw [List.foldlM_cons, List.foldlM_cons]
    have h1 : k.add_frequency c st f = k.add_phase c st (s + f) := by
      unfold RtName.add_frequency
      rw [if_neg (by rw [hx]; simp)]
      simp only [ok_bind]
      rw [hx, pyGet_last, ok_bind]
    rw [h1]
    cases h : k.add_phase c st (s + f) with
    | error e => rfl
    | ok st' =>
      simp only [ok_bind]
      exact ih st' st.x (s + f) (add_phase_x k c st st' _ h)

/-- **C37, first half.** From a fresh object, feeding the frequencies `f₁, f₂, …` is feeding the
phases `0, f₁, f₁+f₂, …`, for every class, every configuration (also automatic averaging
factors) and whatever happens (also exceptions). -/
theorem feed_frequency_eq (k : RtName) (c : RtCfg) (afs : List ℕ) (b : Bool) (fs : List ℝ) :
    k.feed_frequency c (rt_init afs b) fs = k.feed c (rt_init afs b) (Spec.integrated fs) := by
  cases fs with
  | nil => rfl
  | cons f fs =>
    unfold Spec.integrated
    rw [if_neg (by simp)]
    unfold RtName.feed
    rw [List.foldlM_cons]
    unfold RtName.feed_frequency
    rw [List.foldlM_cons]
    unfold RtName.add_frequency
    rw [if_pos (show (rt_init afs b).x = [] from rfl)]
    cases h : k.add_phase c (rt_init afs b) 0 with
    | error e => rfl
    | ok st =>
      have hx := add_phase_x k c _ _ _ h
      simp only [ok_bind]
      rw [hx, pyGet_last]
      simp only [ok_bind]
      have := feed_frequency_from k c (f :: fs) st (rt_init afs b).x 0 hx
      unfold RtName.feed_frequency RtName.feed at this
      rw [← this, List.foldlM_cons]
      unfold RtName.add_frequency
      rw [if_neg (by rw [hx]; simp)]
      simp only [ok_bind]
      rw [hx, pyGet_last, ok_bind]

theorem runSums_eq (s : ℝ) (fs : List ℝ) :
    Spec.runSums s fs = tab fs.length (fun i => s + ∑ j ∈ range (i + 1), fs.getD j 0) := by
  induction fs generalizing s with
  | nil => rfl
  | cons f fs ih =>
    rw [Spec.runSums, ih, List.length_cons, tab_succ']
    congr 1
    · simp
    · apply tab_congr
      intro i _
      conv_rhs => rw [sum_range_succ']
      simp only [List.getD_cons_succ, List.getD_cons_zero]
      ring

theorem integrated_eq (fs : List ℝ) (h : fs ≠ []) :
    Spec.integrated fs = tab (fs.length + 1) (fun i => ∑ j ∈ range i, seq fs j) := by
  unfold Spec.integrated
  rw [if_neg h, runSums_eq, tab_succ']
  congr 1
  · apply tab_congr
    intro i _
    rw [zero_add]
    rfl

/-- the batch functions of frequency data are those of the integrated phase, times `tau0` -/
theorem run_freq_integrated (fn : DevName) (h1 : fn ≠ .tierms) (h2 : fn ≠ .mtie)
    (fs : List ℝ) (h : fs ≠ []) (tau0 : ℝ) (ht : 0 < tau0) (taus : TausArg) :
    fn.run fs (1 / tau0) "freq" taus =
      (fn.run (Spec.integrated fs) (1 / tau0) "phase" taus).map (DevOut.scale tau0) := by
  rw [run_freq, frequency2phase_eq fs h (1 / tau0) (by positivity), ok_bind]
  rw [← run_affine fn h1 h2 (Spec.integrated fs) 0 (-Spec.mean fs) (1 / tau0) taus]
  have := run_scale fn ((Spec.integrated fs).mapIdx (fun i v => v + (0 + -Spec.mean fs * i))) tau0
    (1 / tau0) taus
  rw [abs_of_pos ht] at this
  rw [← this]
  congr 1
  rw [integrated_eq fs h]
  symm
  apply tab_ext (by simp)
  intro i hi
  rw [List.getElem?_map, List.getElem?_mapIdx, tab_getElem?, if_pos hi]
  simp only [Option.map_some, Option.some.injEq]
  rw [sum_sub_distrib, sum_const, card_range, nsmul_eq_mul]
  field_simp
  ring

/-- **C37, second half, as far as it is true.** Fed with frequency data, the streaming class
reports `1/tau0` times what the batch function reports for the same frequency data at rate
`1/tau0`.  The property asks for equality, which holds exactly for `tau0 = 1` (or a zero
deviation): the integration in `add_frequency` forgets the factor `tau0`. -/
theorem realtime_freq_batch_partial (k : RtName) (tau0 : ℝ) (p : ℕ) (afs : List ℕ) (ht : 0 < tau0)
    (ha : ∀ a ∈ afs, 0 < a) (fs : List ℝ) (hf : fs ≠ []) (st : Rt)
    (hst : k.feed_frequency (rt_cfg tau0 false p) (rt_init afs false) fs = .ok st)
    (taus : TausArg) (o : DevOut ℝ) (ho : k.batch.run fs (1 / tau0) "freq" taus = .ok o)
    (i j a : ℕ) (hi : afs[i]? = some a) (hj : o.taus[j]? = some (a * tau0)) :
    (st.dev[i]?).map (fun d => tau0 * d) = o.devs[j]? := by
  rw [feed_frequency_eq] at hst
  rw [run_freq_integrated _ (by cases k <;> simp [RtName.batch]) (by cases k <;> simp [RtName.batch])
    fs hf tau0 ht] at ho
  cases h : k.batch.run (Spec.integrated fs) (1 / tau0) "phase" taus with
  | error e => rw [h] at ho; cases ho
  | ok o' =>
    rw [h] at ho
    cases ho
    rw [realtime_batch_af k tau0 p afs ht ha _ st hst taus o' h i j a hi hj]
    simp [DevOut.scale]

/-- with `tau0 = 1` the streaming class fed with frequency data agrees with the batch function -/
theorem realtime_freq_batch_one (k : RtName) (p : ℕ) (afs : List ℕ)
    (ha : ∀ a ∈ afs, 0 < a) (fs : List ℝ) (hf : fs ≠ []) (st : Rt)
    (hst : k.feed_frequency (rt_cfg 1 false p) (rt_init afs false) fs = .ok st)
    (taus : TausArg) (o : DevOut ℝ) (ho : k.batch.run fs 1 "freq" taus = .ok o)
    (i j a : ℕ) (hi : afs[i]? = some a) (hj : o.taus[j]? = some (a : ℝ)) :
    st.dev[i]? = o.devs[j]? := by
  have := realtime_freq_batch_partial k 1 p afs one_pos ha fs hf st hst taus o (by simpa using ho)
    i j a hi (by simpa using hj)
  rw [← this]
  simp

/-- frequency data never raises with fixed averaging factors, and the reported values are those
of the batch formula for the integrated phase -/
theorem realtime_freq_eq (k : RtName) (tau0 : ℝ) (p : ℕ) (afs : List ℕ) (ht : 0 < tau0)
    (ha : ∀ a ∈ afs, 0 < a) (fs : List ℝ) :
    ∃ st, k.feed_frequency (rt_cfg tau0 false p) (rt_init afs false) fs = .ok st ∧
      st.x = Spec.integrated fs ∧
      st.dev = afs.map (fun a => if (Spec.integrated fs).length < k.need a then 0
        else value k.batch (seq (Spec.integrated fs)) (Spec.integrated fs).length (1 / tau0) a) := by
  obtain ⟨st, h1, h2, _, h3⟩ := realtime_eq k tau0 p afs ht ha (Spec.integrated fs)
  exact ⟨st, (feed_frequency_eq k _ afs false fs).trans h1, h2, h3⟩

example := realtime_freq_eq .tdev 2 4 [1, 2] (by norm_num) (by simp) [0, 1, 5, 2, 2, 7]

/-- **C37 is false of the code for `tau0 ≠ 1`.** Three frequency samples at `tau0 = 2`: the batch
function gives 2 at `tau = 2`, the streaming class gives 1. -/
theorem realtime_freq_wrong :
    (∃ o, DevName.oadev.run [0, 4, 4] (1 / 2) "freq" (.list [2]) = .ok o ∧
      o.taus = [2] ∧ o.devs = [2]) ∧
    (∃ st, RtName.feed_frequency .oadev (rt_cfg 2 false 4) (rt_init [1] false) [0, 4, 4] = .ok st ∧
      rt_taus (rt_cfg 2 false 4) st = [2] ∧ st.dev = [1]) := by
  have hx : Spec.integrated [0, 4, 4] = [0, 0, 4, 8] := by
    rw [Spec.integrated, if_neg (List.cons_ne_nil _ _)]
    norm_num [Spec.runSums]
  have hv : value .oadev (seq [0, 0, 4, 8]) 4 (1 / 2) 1 = 1 := by
    simp [value, Spec.oadev, rms, d2, seq, sum_range_succ]
    norm_num
  constructor
  · have h := run_freq_integrated .oadev (by simp) (by simp) [0, 4, 4] (by simp) 2 two_pos (.list [2])
    rw [hx] at h
    obtain ⟨kept, hs, hk, hr⟩ := (run_cases .oadev [0, 0, 4, 8] (1 / 2) (.list [2])).2
      (by norm_num) rfl (by simp)
    have hk1 : kept = [1] := by
      apply sorted_unique hs (by simp)
      intro m
      rw [hk]
      simp only [Reported, Requested, List.mem_singleton, exists_eq_left, List.length_cons,
        List.length_nil, count, lenOf, maxOf]
      norm_num
      constructor
      · rintro ⟨_, _, _, _, h, _⟩
        have := isRound_unique h (show IsRound 1 ((1 : ℕ) : ℤ) by norm_num [IsRound])
        exact_mod_cast this
      · rintro rfl
        exact ⟨by simp, by simp, by norm_num, by simp, by norm_num [IsRound], by norm_num⟩
    subst hk1
    rw [if_neg (by simp)] at hr
    rw [hr] at h
    refine ⟨_, h, ?_, ?_⟩
    · simp [DevOut.scale]
    · have h0 : sign .oadev (1 / 2) 1 = 1 := by norm_num [sign, rateSign]
      simp only [List.map_cons, List.map_nil, DevOut.scale, List.length_cons, List.length_nil]
      norm_num at h0 hv ⊢
      rw [h0, hv]
      norm_num
  · obtain ⟨st, h1, h2, h3, h4⟩ := realtime_eq .oadev 2 4 [1] two_pos (by simp) [0, 0, 4, 8]
    refine ⟨st, ?_, ?_, ?_⟩
    · rw [feed_frequency_eq, hx, h1]
    · unfold rt_taus
      rw [h3]
      simp [rt_cfg]
    · rw [h4]
      simp only [List.map_cons, List.map_nil, RtName.need, RtName.batch, List.length_cons,
        List.length_nil]
      norm_num at hv ⊢
      exact hv

end AT
