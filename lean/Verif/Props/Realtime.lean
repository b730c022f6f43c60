import Verif.Lemmas.Realtime
import Verif.Props.Shape

/-!
# Streaming statistics: C34, C35, C36

After every stream the streaming classes hold exactly the batch statistics.
-/

namespace AT

open Finset Real Spec

theorem getD_pos {afs : List ℕ} (ha : ∀ a ∈ afs, 0 < a) (i : ℕ) (hi : i < afs.length) :
    0 < afs.getD i 0 := by
  have : afs.getD i 0 = afs[i] := by simp [List.getD, hi]
  rw [this]
  exact ha _ (List.getElem_mem hi)

theorem rt_init_eq (afs : List ℕ) :
    rt_init afs false = rtSt [] afs.length (fun i => afs.getD i 0) (fun _ => (0, 0, 0)) 0 0 := by
  have h : List.replicate afs.length (0 : ℝ) = tab afs.length (fun _ => 0) := by
    apply tab_ext (by simp)
    intro i hi
    simp [hi]
  unfold rt_init rtSt rtMk
  simp only [h, Bool.false_eq_true, if_false]
  rw [← eq_tab afs 0]

theorem feed_fixed_state (k : RtName) (tau0 : ℝ) (p : ℕ) (afs : List ℕ) (ht : tau0 ≠ 0)
    (ha : ∀ a ∈ afs, 0 < a) (X : ℕ → ℝ) (n : ℕ) :
    k.feed (rt_cfg tau0 false p) (rt_init afs false) (tab n X) =
      .ok (rtSt (tab n X) afs.length (fun i => afs.getD i 0)
        (fun i => k.entry tau0 X (afs.getD i 0) 0 n) 0 0) := by
  unfold RtName.feed
  induction n with
  | zero =>
    rw [rt_init_eq]
    rfl
  | succ n ih =>
    rw [show tab (n + 1) X = tab n X ++ [X n] from tab_succ n X, List.foldlM_append, ih]
    simp only [ok_bind, List.foldlM_cons, List.foldlM_nil]
    rw [add_phase_eq k _ X n _ _ _ _ _ (by exact ht) (getD_pos ha)]
    unfold rt_auto rt_cfg
    simp only [Bool.false_eq_true, if_false]
    rw [← tab_succ]
    simp only [ok_bind, pure_eq_ok]
    congr 1
    apply rtSt_congr _ _ _ _ (fun i _ => rfl)
    intro i _
    conv_rhs => unfold RtName.entry
    rw [Nat.zero_add]

/-- the batch function of a streaming class -/
def RtName.batch : RtName → DevName
  | .oadev => .oadev
  | .ohdev => .ohdev
  | .tdev => .tdev

/-- the number of samples from which on a value is reported -/
def RtName.need (k : RtName) (a : ℕ) : ℕ :=
  match k with
  | .oadev => 2 * a + 1
  | .ohdev => 3 * a + 1
  | .tdev => 3 * a

/-- the entry of a factor that was present from the start -/
theorem entry_dev (k : RtName) (tau0 : ℝ) (ht : 0 < tau0) (X : ℕ → ℝ) (a n : ℕ) (ha : 0 < a) :
    (k.entry tau0 X a 0 n).1 = if n < k.need a then 0 else value k.batch X n (1 / tau0) a := by
  cases k
  · rw [oadev_entry]
    simp only [Nat.zero_add, Nat.zero_sub, RtName.batch, value]
    by_cases h : n < 2 * a + 1
    · rw [if_pos (by omega), if_pos (show n < RtName.need .oadev a from h)]
    · rw [if_neg (by omega), if_neg (show ¬ n < RtName.need .oadev a from h)]
      unfold Spec.oadev rms
      rw [← range_eq_Ico, show (a : ℝ) / (1 / tau0) = a * tau0 by field_simp]
  · rw [ohdev_entry]
    simp only [Nat.zero_add, Nat.zero_sub, RtName.batch, value]
    by_cases h : n < 3 * a + 1
    · rw [if_pos (by omega), if_pos (show n < RtName.need .ohdev a from h)]
    · rw [if_neg (by omega), if_neg (show ¬ n < RtName.need .ohdev a from h)]
      unfold Spec.ohdev rms
      rw [← range_eq_Ico, show (a : ℝ) / (1 / tau0) = a * tau0 by field_simp]
  · rw [tdev_entry _ _ _ _ _ (by omega)]
    simp only [Nat.zero_add, Nat.zero_sub, RtName.batch, value, range_zero, sum_empty,
      sub_zero]
    by_cases h : n < 3 * a
    · rw [if_pos h, if_pos (show n < RtName.need .tdev a from h)]
    · rw [if_neg h, if_neg (show ¬ n < RtName.need .tdev a from h)]
      unfold Spec.tdev Spec.mdev rms
      rw [show (a : ℝ) / (1 / tau0) = a * tau0 by field_simp]
      have hτ : 0 ≤ a * tau0 / √3 := by positivity
      rw [← Real.sqrt_sq hτ, ← Real.sqrt_mul (sq_nonneg _)]
      congr 1
      have ha' : (a : ℝ) ≠ 0 := by positivity
      have hN : (n : ℝ) - 3 * a + 1 ≠ 0 := by
        have : (3 * a : ℝ) ≤ n := by exact_mod_cast not_lt.1 h
        intro h
        linarith
      rw [div_pow, Real.sq_sqrt (by norm_num)]
      field_simp
      ring

/-- **C34, C35, C36, all three classes.** After any stream the streaming class has stored the
stream, kept its averaging factors, and reports for every factor the value of the batch formula
for all the samples seen so far, or 0 while there are too few samples.  No exception is ever
raised (in particular the assertion in `tdev_realtime.update_S` holds). -/
theorem realtime_eq (k : RtName) (tau0 : ℝ) (p : ℕ) (afs : List ℕ) (ht : 0 < tau0)
    (ha : ∀ a ∈ afs, 0 < a) (xs : List ℝ) :
    ∃ st, k.feed (rt_cfg tau0 false p) (rt_init afs false) xs = .ok st ∧
      st.x = xs ∧ st.afs = afs ∧
      st.dev = afs.map (fun a => if xs.length < k.need a then 0
        else value k.batch (seq xs) xs.length (1 / tau0) a) := by
  have h := feed_fixed_state k tau0 p afs ht.ne' ha (seq xs) xs.length
  have hx : tab xs.length (seq xs) = xs := (eq_tab xs 0).symm
  rw [hx] at h
  refine ⟨_, h, rfl, (eq_tab afs 0).symm, ?_⟩
  unfold rtSt rtMk
  simp only
  conv_rhs => rw [eq_tab afs 0, map_tab]
  apply tab_congr
  intro i hi
  exact entry_dev k tau0 ht _ _ _ (getD_pos ha i hi)

/-- **C34.** `oadev_realtime` -/
theorem oadev_realtime_eq (tau0 : ℝ) (p : ℕ) (afs : List ℕ) (ht : 0 < tau0)
    (ha : ∀ a ∈ afs, 0 < a) (xs : List ℝ) :
    ∃ st, RtName.feed .oadev (rt_cfg tau0 false p) (rt_init afs false) xs = .ok st ∧
      st.dev = afs.map (fun (a : ℕ) => if xs.length < 2 * a + 1 then 0
        else Spec.oadev (seq xs) xs.length a (a * tau0)) := by
  obtain ⟨st, h, _, _, h2⟩ := realtime_eq .oadev tau0 p afs ht ha xs
  refine ⟨st, h, h2.trans ?_⟩
  apply List.map_congr_left
  intro a _
  simp only [RtName.batch, value]
  rw [show (a : ℝ) / (1 / tau0) = a * tau0 by field_simp]
  rfl

/-- **C35.** `ohdev_realtime` -/
theorem ohdev_realtime_eq (tau0 : ℝ) (p : ℕ) (afs : List ℕ) (ht : 0 < tau0)
    (ha : ∀ a ∈ afs, 0 < a) (xs : List ℝ) :
    ∃ st, RtName.feed .ohdev (rt_cfg tau0 false p) (rt_init afs false) xs = .ok st ∧
      st.dev = afs.map (fun (a : ℕ) => if xs.length < 3 * a + 1 then 0
        else Spec.ohdev (seq xs) xs.length a (a * tau0)) := by
  obtain ⟨st, h, _, _, h2⟩ := realtime_eq .ohdev tau0 p afs ht ha xs
  refine ⟨st, h, h2.trans ?_⟩
  apply List.map_congr_left
  intro a _
  simp only [RtName.batch, value]
  rw [show (a : ℝ) / (1 / tau0) = a * tau0 by field_simp]
  rfl

example := ohdev_realtime_eq 2 4 [1, 3] (by norm_num) (by simp) [0, 1, 5, 2, 2, 7]

/-- **C36.** `tdev_realtime`, with its method `mdev()` -/
theorem tdev_realtime_eq (tau0 : ℝ) (p : ℕ) (afs : List ℕ) (ht : 0 < tau0)
    (ha : ∀ a ∈ afs, 0 < a) (xs : List ℝ) :
    ∃ st, RtName.feed .tdev (rt_cfg tau0 false p) (rt_init afs false) xs = .ok st ∧
      st.dev = afs.map (fun (a : ℕ) => if xs.length < 3 * a then 0
        else Spec.tdev (seq xs) xs.length a (a * tau0)) ∧
      tdev_mdev (rt_cfg tau0 false p) st = .ok (afs.map (fun (a : ℕ) => if xs.length < 3 * a then 0
        else Spec.mdev (seq xs) xs.length a (a * tau0))) := by
  obtain ⟨st, h, _, h1, h2⟩ := realtime_eq .tdev tau0 p afs ht ha xs
  have h3 : st.dev = afs.map (fun (a : ℕ) => if xs.length < 3 * a then 0
        else Spec.tdev (seq xs) xs.length a (a * tau0)) := by
    refine h2.trans ?_
    apply List.map_congr_left
    intro a _
    simp only [RtName.batch, value]
    rw [show (a : ℝ) / (1 / tau0) = a * tau0 by field_simp]
    rfl
  refine ⟨st, h, h3, ?_⟩
  unfold tdev_mdev
  rw [h1, h3]
  set A : ℕ → ℕ := fun i => afs.getD i 0 with hA
  have e : ∀ g : ℕ → ℝ, afs.map g = tab afs.length (fun i => g (A i)) := by
    intro g
    conv_lhs => rw [eq_tab afs 0, map_tab]
  rw [e, e]
  set T : ℕ → ℝ := fun i => if xs.length < 3 * A i then 0
        else Spec.tdev (seq xs) xs.length (A i) (A i * tau0) with hT
  set M : ℕ → ℝ := fun i => if xs.length < 3 * A i then 0
        else Spec.mdev (seq xs) xs.length (A i) (A i * tau0) with hM
  have hi0 : ∀ i < afs.length, T i * √3 / (A i * tau0) = M i := by
    intro i hi
    have ha0 : (0 : ℝ) < A i := by
      exact_mod_cast getD_pos ha i hi
    simp only [hT, hM]
    split_ifs
    · simp
    · unfold Spec.tdev
      field_simp
  have hafs : afs = tab afs.length A := eq_tab afs 0
  rw [forRange_eq (fun j => tab afs.length (fun i => if i < j then M i else T i)) (by simp)]
  · congr 1
    exact tab_congr (fun i hi => if_pos hi)
  · intro i hi
    have ha0 : (0 : ℝ) < A i := by
      exact_mod_cast getD_pos ha i hi
    rw [show pyGet afs (i : ℤ) = .ok (A i) by
      conv_lhs => rw [hafs]
      exact pyGet_tab_nat _ _ _ hi]
    simp only [ok_bind, pyGet_tab_nat _ _ _ hi, lt_irrefl, if_false]
    rw [pyDiv_ne (by unfold rt_cfg; positivity)]
    simp only [ok_bind]
    rw [pySet_tab _ _ _ hi]
    congr 1
    apply tab_congr
    intro q hq
    by_cases hqi : q = i
    · subst hqi
      rw [Function.update_self, if_pos (by omega)]
      exact hi0 q hi
    · rw [Function.update_of_ne hqi]
      by_cases h5 : q < i
      · rw [if_pos h5, if_pos (by omega)]
      · rw [if_neg h5, if_neg (by omega)]

example := tdev_realtime_eq 2 4 [1, 3] (by norm_num) (by simp) [0, 1, 5, 2, 2, 7]

theorem realtime_batch_af (k : RtName) (tau0 : ℝ) (p : ℕ) (afs : List ℕ) (ht : 0 < tau0)
    (ha : ∀ a ∈ afs, 0 < a) (xs : List ℝ) (st : Rt)
    (hst : k.feed (rt_cfg tau0 false p) (rt_init afs false) xs = .ok st)
    (taus : TausArg) (o : DevOut ℝ) (ho : k.batch.run xs (1 / tau0) "phase" taus = .ok o)
    (i j a : ℕ) (hi : afs[i]? = some a) (hj : o.taus[j]? = some (a * tau0)) :
    st.dev[i]? = o.devs[j]? := by
  obtain ⟨st', h1, _, _, h2⟩ := realtime_eq k tau0 p afs ht ha xs
  rw [hst] at h1
  cases h1
  obtain ⟨kept, _, _, hk, e1, e2, _, _⟩ := run_ok _ _ _ _ _ ho
  rw [h2, e2, List.getElem?_map, List.getElem?_map, hi]
  rw [e1, List.getElem?_map] at hj
  cases hm : kept[j]? with
  | none => rw [hm] at hj; cases hj
  | some m =>
    rw [hm] at hj
    simp only [Option.map_some, Option.some.injEq] at hj ⊢
    have hma : m = a := by
      have : (m : ℝ) = a := by
        field_simp at hj
        exact hj
      exact_mod_cast this
    subst hma
    have hmem : m ∈ kept := List.mem_of_getElem? hm
    have hr := ((hk m).1 hmem).2.2.2.2.2
    have hs : sign k.batch (1 / tau0) m = 1 := by
      have : ¬ (1 / tau0 < 0) := not_lt.2 (by positivity)
      cases k <;> simp only [RtName.batch, sign, rateSign, if_neg this]
    have hn : ¬ xs.length < k.need m := by
      cases k <;> simp only [RtName.batch, count, RtName.need] at hr ⊢ <;> omega
    rw [if_neg hn, hs, one_mul]

/-- **C34, C35, C36 against the batch functions.** Where the batch function for the samples fed so far,
with any request of averaging times, and the streaming class report the same averaging time, they report
the same deviation. -/
theorem realtime_batch (k : RtName) (tau0 : ℝ) (p : ℕ) (afs : List ℕ) (ht : 0 < tau0)
    (ha : ∀ a ∈ afs, 0 < a) (xs : List ℝ) (st : Rt)
    (hst : k.feed (rt_cfg tau0 false p) (rt_init afs false) xs = .ok st)
    (taus : TausArg) (o : DevOut ℝ) (ho : k.batch.run xs (1 / tau0) "phase" taus = .ok o)
    (i j : ℕ) (t : ℝ) (hi : (rt_taus (rt_cfg tau0 false p) st)[i]? = some t) (hj : o.taus[j]? = some t) :
    st.dev[i]? = o.devs[j]? := by
  have hafs : st.afs = afs := by
    obtain ⟨st', h1, _, h2, _⟩ := realtime_eq k tau0 p afs ht ha xs
    rw [hst] at h1
    cases h1
    exact h2
  unfold rt_taus at hi
  rw [hafs, List.getElem?_map] at hi
  cases h : afs[i]? with
  | none => rw [h] at hi; cases hi
  | some a =>
    rw [h] at hi
    simp only [Option.map_some, Option.some.injEq] at hi
    refine realtime_batch_af k tau0 p afs ht ha xs st hst taus o ho i j a h (hj.trans ?_)
    rw [← hi, mul_comm]
    rfl

/-- six samples with the factors 1 and 2: the batch function reports the times 2 and 4 of the streaming class -/
example (st : Rt) (h : RtName.feed .oadev (rt_cfg 2 false 4) (rt_init [1, 2] false) [0, 1, 0, 1, 0, 3] = .ok st)
    (o : DevOut ℝ) (ho : DevName.run .oadev [0, 1, 0, 1, 0, 3] (1 / 2) "phase" (.str "all") = .ok o)
    (hj : o.taus[1]? = some 4) : st.dev[1]? = o.devs[1]? := by
  refine realtime_batch .oadev 2 4 [1, 2] two_pos (by simp) _ st h _ o ho 1 1 4 ?_ hj
  obtain ⟨st', h1, _, h2, _⟩ := realtime_eq .oadev 2 4 [1, 2] two_pos (by simp) [0, 1, 0, 1, 0, 3]
  rw [h] at h1
  cases h1
  simp [rt_taus, h2, rt_cfg]
  norm_num

/-- a stream of five samples for the factors 1 and 2: both have a value -/
example : ∃ st, RtName.feed .oadev (rt_cfg 1 false 4) (rt_init [1, 2] false) [0, 1, 0, 1, 0] = .ok st ∧
    st.dev = [√2, 0] := by
  obtain ⟨st, h, h2⟩ := oadev_realtime_eq 1 4 [1, 2] one_pos (by simp) [0, 1, 0, 1, 0]
  refine ⟨st, h, h2.trans ?_⟩
  simp [Spec.oadev, rms, d2, seq, sum_range_succ]
  norm_num

end AT
