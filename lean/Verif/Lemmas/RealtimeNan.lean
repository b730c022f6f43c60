import Verif.Spec.RealtimeNan
import Verif.Lemmas.Realtime
import Verif.Lemmas.NanMore
import Verif.Props.Realtime
import Verif.Props.RealtimeAuto

/-!
# Lemmas about the streaming classes on streams with NaN
-/

namespace AT

open Finset Real Spec Classical

/-- the state with the given contents -/
def rtMkNv (x : List NV) (k : ℕ) (a : ℕ → ℕ) (d S So : ℕ → NV) (ai ad : ℕ) : RtNv :=
  ⟨x, tab k a, tab k d, tab k S, tab k So, ai, ad⟩

/-- one pass over the averaging factors, each of which changes its own entries only -/
theorem rt_loop_nv (x : List NV) (k : ℕ) (a : ℕ → ℕ) (ai ad : ℕ) (d S So : ℕ → NV)
    (body : RtNv → ℕ → Py RtNv) (u : ℕ → NV × NV × NV → NV × NV × NV)
    (H : ∀ idx < k, ∀ d S So : ℕ → NV, body (rtMkNv x k a d S So ai ad) idx =
      .ok (rtMkNv x k a (Function.update d idx (u idx (d idx, S idx, So idx)).1)
        (Function.update S idx (u idx (d idx, S idx, So idx)).2.1)
        (Function.update So idx (u idx (d idx, S idx, So idx)).2.2) ai ad)) :
    forRange k (rtMkNv x k a d S So ai ad) body =
      .ok (rtMkNv x k a (fun i => (u i (d i, S i, So i)).1) (fun i => (u i (d i, S i, So i)).2.1)
        (fun i => (u i (d i, S i, So i)).2.2) ai ad) := by
  have mix : ∀ (f g : ℕ → NV) (j : ℕ),
      Function.update (fun i => if i < j then g i else f i) j (g j) =
        fun i => if i < j + 1 then g i else f i := by
    intro f g j
    funext i
    by_cases h : i = j
    · subst h
      simp
    · rw [Function.update_of_ne h]
      by_cases h2 : i < j
      · rw [if_pos h2, if_pos (by omega)]
      · rw [if_neg h2, if_neg (by omega)]
  have := forRange_ok k (fun j => rtMkNv x k a
    (fun i => if i < j then (u i (d i, S i, So i)).1 else d i)
    (fun i => if i < j then (u i (d i, S i, So i)).2.1 else S i)
    (fun i => if i < j then (u i (d i, S i, So i)).2.2 else So i) ai ad) body (by
      intro j hj
      rw [H j hj]
      simp only [lt_irrefl, if_false]
      rw [mix d (fun i => (u i (d i, S i, So i)).1) j,
        mix S (fun i => (u i (d i, S i, So i)).2.1) j,
        mix So (fun i => (u i (d i, S i, So i)).2.2) j])
  simp only [Nat.not_lt_zero, if_false] at this
  rw [this]
  congr 1
  unfold rtMkNv
  congr 1 <;> exact tab_congr (fun i hi => if_pos hi)


theorem pyGet_tab_sub_nv (n : ℕ) (D : ℕ → NV) (m : ℕ) (hm : m ≤ n) :
    pyGet (tab (n + 1) D) (((n + 1 : ℕ) : ℤ) - 1 - m) = .ok (D (n - m)) := by
  rw [pyGet_tab _ _ _ (by push_cast; omega) (by push_cast; omega)]
  congr 2
  omega

theorem pyGet_tab_top_nv (n : ℕ) (D : ℕ → NV) :
    pyGet (tab (n + 1) D) (((n + 1 : ℕ) : ℤ) - 1) = .ok (D n) := by
  have := pyGet_tab_sub_nv n D 0 (by omega)
  simpa using this

/-- `x[n] - 2 x[n-a] + x[n-2a]` -/
noncomputable def nvD2 (D : ℕ → NV) (n a : ℕ) : NV :=
  nv2 (· + ·) (nv2 (· - ·) (D n) (nvScale 2 (D (n - a)))) (D (n - 2 * a))

/-- `x[n] - 3 x[n-a] + 3 x[n-2a] - x[n-3a]` -/
noncomputable def nvD3 (D : ℕ → NV) (n a : ℕ) : NV :=
  nv2 (· - ·) (nv2 (· + ·) (nv2 (· - ·) (D n) (nvScale 3 (D (n - a)))) (nvScale 3 (D (n - 2 * a))))
    (D (n - 3 * a))

/-- the same in the order of `tdev_realtime.update_S` -/
noncomputable def nvD3' (D : ℕ → NV) (n a : ℕ) : NV :=
  nv2 (· + ·) (nv2 (· - ·) (nv2 (· + ·) (nvScale (-1) (D (n - 3 * a))) (nvScale 3 (D (n - 2 * a))))
    (nvScale 3 (D (n - a)))) (D n)

/-- `S + x[n] - 2 x[n-a] + x[n-2a]` -/
noncomputable def nvS2 (s : NV) (D : ℕ → NV) (n a : ℕ) : NV :=
  nv2 (· + ·) (nv2 (· - ·) (nv2 (· + ·) s (D n)) (nvScale 2 (D (n - a)))) (D (n - 2 * a))

/-- new entries (deviation, sum, overall sum) when sample `n` (counted from 0) is added -/
noncomputable def RtName.updNv (k : RtName) (tau0 : ℝ) (D : ℕ → NV) (n a : ℕ) (p : NV × NV × NV) :
    NV × NV × NV :=
  match k with
  | .oadev =>
    if 2 * a ≤ n then
      let s := nv2 (· + ·) p.2.1 ((nvD2 D n a).map (fun v => v ^ 2))
      (s.map (fun s => √(s / (2 * (a * tau0) ^ 2 * ((n + 1 : ℕ) - 2 * a)))), s, p.2.2)
    else p
  | .ohdev =>
    if 3 * a ≤ n then
      let s := nv2 (· + ·) p.2.1 ((nvD3 D n a).map (fun v => v ^ 2))
      (s.map (fun s => √(s / (6 * (a * tau0) ^ 2 * ((n + 1 : ℕ) - 3 * a)))), s, p.2.2)
    else p
  | .tdev =>
    if 3 * a ≤ n then
      let s := nv2 (· + ·) p.2.1 (nvD3' D n a)
      let so := nv2 (· + ·) p.2.2 (s.map (fun v => v ^ 2))
      (so.map (fun so => √(so / (6 * (a : ℝ) ^ 2 * ((n + 1 : ℕ) - 3 * a + 1)))), s, so)
    else if 2 * a ≤ n then
      let s := nvS2 p.2.1 D n a
      if n + 1 = 3 * a then
        ((s.map (fun v => v ^ 2)).map (fun so => √(so / (6 * (a : ℝ) ^ 2 * ((n + 1 : ℕ) - 3 * a + 1)))),
          s, s.map (fun v => v ^ 2))
      else (p.1, s, p.2.2)
    else p

theorem oadev_body_nv (c : RtCfg) (D : ℕ → NV) (n k : ℕ) (a : ℕ → ℕ) (ai ad : ℕ)
    (ht : c.tau0 ≠ 0) (ha : ∀ i < k, 0 < a i) (idx : ℕ) (hi : idx < k) (d S So : ℕ → NV) :
    (do
      let af ← pyGet (rtMkNv (tab (n + 1) D) k a d S So ai ad).afs idx
      if 2 * af + 1 ≤ (rtMkNv (tab (n + 1) D) k a d S So ai ad).x.length then
        oadev_update_S_nv c (rtMkNv (tab (n + 1) D) k a d S So ai ad) idx
      else .ok (rtMkNv (tab (n + 1) D) k a d S So ai ad)) =
      .ok (rtMkNv (tab (n + 1) D) k a
        (Function.update d idx (RtName.updNv .oadev c.tau0 D n (a idx) (d idx, S idx, So idx)).1)
        (Function.update S idx (RtName.updNv .oadev c.tau0 D n (a idx) (d idx, S idx, So idx)).2.1)
        (Function.update So idx (RtName.updNv .oadev c.tau0 D n (a idx) (d idx, S idx, So idx)).2.2)
        ai ad) := by
  have h0 := ha idx hi
  simp only [rtMkNv, tab_length, pyGet_tab_nat k a idx hi, ok_bind, RtName.updNv]
  by_cases h : 2 * a idx ≤ n
  · rw [if_pos (by omega), if_pos h]
    unfold oadev_update_S_nv
    have e0 := pyGet_tab_top_nv n D
    have e1 := pyGet_tab_sub_nv n D (a idx) (by omega)
    have e2 := pyGet_tab_sub_nv n D (2 * a idx) h
    have hpos : (0 : ℝ) < (n : ℝ) + 1 - 2 * a idx := by
      have : (2 * a idx : ℝ) ≤ n := by exact_mod_cast h
      linarith
    have ha' : (a idx : ℝ) ≠ 0 := by positivity
    simp only [tab_length, pyGet_tab_nat k a idx hi, ok_bind, e0, e1,
      pyGet_tab_nat k S idx hi, pySet_tab k _ idx hi]
    push_cast at e2 ⊢
    rw [e2]
    simp only [ok_bind]
    rw [pyDiv_ne (by
      have : (n : ℝ) + 1 - 1 + 1 - 2 * a idx = n + 1 - 2 * a idx := by ring
      rw [this]
      positivity)]
    simp only [ok_bind, Function.update_eq_self, nvD2, one_div_mul_eq_div,
      show (n : ℝ) + 1 - 1 + 1 - 2 * a idx = n + 1 - 2 * a idx by ring]
  · rw [if_neg (by omega), if_neg h]
    simp only [Function.update_eq_self]

theorem ohdev_body_nv (c : RtCfg) (D : ℕ → NV) (n k : ℕ) (a : ℕ → ℕ) (ai ad : ℕ)
    (ht : c.tau0 ≠ 0) (ha : ∀ i < k, 0 < a i) (idx : ℕ) (hi : idx < k) (d S So : ℕ → NV) :
    (do
      let af ← pyGet (rtMkNv (tab (n + 1) D) k a d S So ai ad).afs idx
      if 3 * af < (rtMkNv (tab (n + 1) D) k a d S So ai ad).x.length then
        ohdev_update_S_nv c (rtMkNv (tab (n + 1) D) k a d S So ai ad) idx
      else .ok (rtMkNv (tab (n + 1) D) k a d S So ai ad)) =
      .ok (rtMkNv (tab (n + 1) D) k a
        (Function.update d idx (RtName.updNv .ohdev c.tau0 D n (a idx) (d idx, S idx, So idx)).1)
        (Function.update S idx (RtName.updNv .ohdev c.tau0 D n (a idx) (d idx, S idx, So idx)).2.1)
        (Function.update So idx (RtName.updNv .ohdev c.tau0 D n (a idx) (d idx, S idx, So idx)).2.2)
        ai ad) := by
  have h0 := ha idx hi
  simp only [rtMkNv, tab_length, pyGet_tab_nat k a idx hi, ok_bind, RtName.updNv]
  by_cases h : 3 * a idx ≤ n
  · rw [if_pos (by omega), if_pos h]
    unfold ohdev_update_S_nv
    have e0 := pyGet_tab_top_nv n D
    have e1 := pyGet_tab_sub_nv n D (a idx) (by omega)
    have e2 := pyGet_tab_sub_nv n D (2 * a idx) (by omega)
    have e3 := pyGet_tab_sub_nv n D (3 * a idx) h
    have hpos : (0 : ℝ) < (n : ℝ) + 1 - 3 * a idx := by
      have : (3 * a idx : ℝ) ≤ n := by exact_mod_cast h
      linarith
    have ha' : (a idx : ℝ) ≠ 0 := by positivity
    simp only [tab_length, pyGet_tab_nat k a idx hi, ok_bind, e0, e1,
      pyGet_tab_nat k S idx hi, pySet_tab k _ idx hi]
    push_cast at e2 e3 ⊢
    rw [e2]
    simp only [ok_bind]
    rw [e3]
    simp only [ok_bind]
    rw [pyDiv_ne (by
      have : (n : ℝ) + 1 - 1 + 1 - 3 * a idx = n + 1 - 3 * a idx := by ring
      rw [this]
      positivity)]
    simp only [ok_bind, Function.update_eq_self, nvD3, one_div_mul_eq_div,
      show (n : ℝ) + 1 - 1 + 1 - 3 * a idx = n + 1 - 3 * a idx by ring]
  · rw [if_neg (by omega), if_neg h]
    simp only [Function.update_eq_self]

theorem tdev_dev_nv (x : List NV) (N k : ℕ) (a : ℕ → ℕ) (ai ad : ℕ) (hx : x.length = N)
    (idx : ℕ) (hi : idx < k) (d S So : ℕ → NV) (ha : 0 < a idx) (hN : 3 * a idx ≤ N) :
    tdev_update_dev_nv (rtMkNv x k a d S So ai ad) idx =
      .ok (rtMkNv x k a (Function.update d idx
        ((So idx).map (fun so => √(so / (6 * (a idx : ℝ) ^ 2 * (N - 3 * a idx + 1)))))) S So ai ad) := by
  have ha' : (a idx : ℝ) ≠ 0 := by positivity
  have hpos : (0 : ℝ) < (N : ℝ) - 3 * a idx + 1 := by
    have : (3 * a idx : ℝ) ≤ N := by exact_mod_cast hN
    linarith
  simp only [tdev_update_dev_nv, rtMkNv, pyGet_tab_nat k a idx hi, pyGet_tab_nat k So idx hi,
    ok_bind, hx]
  rw [pyDiv_ne hpos.ne', ok_bind, pyDiv_ne (by positivity), ok_bind, pySet_tab k _ idx hi, ok_bind]
  congr 5
  funext v
  rw [show (1 : ℝ) / 6 * (1 / ((N : ℝ) - 3 * a idx + 1)) * (1 / (a idx : ℝ) ^ 2) * v
    = v / (6 * (a idx : ℝ) ^ 2 * (N - 3 * a idx + 1)) by field_simp]

theorem tdev_body_nv (tau0 : ℝ) (D : ℕ → NV) (n k : ℕ) (a : ℕ → ℕ) (ai ad : ℕ)
    (ha : ∀ i < k, 0 < a i) (idx : ℕ) (hi : idx < k) (d S So : ℕ → NV) :
    (do
      let af ← pyGet (rtMkNv (tab (n + 1) D) k a d S So ai ad).afs idx
      if 3 * af + 1 ≤ (rtMkNv (tab (n + 1) D) k a d S So ai ad).x.length then
        tdev_update_S_nv (rtMkNv (tab (n + 1) D) k a d S So ai ad) idx
      else if 2 * af + 1 ≤ (rtMkNv (tab (n + 1) D) k a d S So ai ad).x.length then
        tdev_update_S3n_nv (rtMkNv (tab (n + 1) D) k a d S So ai ad) idx
      else .ok (rtMkNv (tab (n + 1) D) k a d S So ai ad)) =
      .ok (rtMkNv (tab (n + 1) D) k a
        (Function.update d idx (RtName.updNv .tdev tau0 D n (a idx) (d idx, S idx, So idx)).1)
        (Function.update S idx (RtName.updNv .tdev tau0 D n (a idx) (d idx, S idx, So idx)).2.1)
        (Function.update So idx (RtName.updNv .tdev tau0 D n (a idx) (d idx, S idx, So idx)).2.2)
        ai ad) := by
  have h0 := ha idx hi
  have e0 := pyGet_tab_top_nv n D
  have hl : (rtMkNv (tab (n + 1) D) k a d S So ai ad).afs = tab k a := rfl
  have hx : (rtMkNv (tab (n + 1) D) k a d S So ai ad).x = tab (n + 1) D := rfl
  have hS : (rtMkNv (tab (n + 1) D) k a d S So ai ad).S = tab k S := rfl
  have hSo : (rtMkNv (tab (n + 1) D) k a d S So ai ad).So = tab k So := rfl
  rw [hl, hx, pyGet_tab_nat k a idx hi, ok_bind, tab_length]
  simp only [RtName.updNv]
  by_cases h : 3 * a idx ≤ n
  · rw [if_pos (by omega), if_pos h]
    have e1 := pyGet_tab_sub_nv n D (a idx) (by omega)
    have e2 := pyGet_tab_sub_nv n D (2 * a idx) (by omega)
    have e3 := pyGet_tab_sub_nv n D (3 * a idx) h
    rw [Nat.cast_mul] at e2 e3
    unfold tdev_update_S_nv
    simp only [hl, hx, hS, hSo, tab_length, pyGet_tab_nat k a idx hi, ok_bind, e0, e1,
      pyGet_tab_nat k S idx hi, pyGet_tab_nat k So idx hi, pySet_tab k _ idx hi,
      pyAssert_true (show 3 * a idx + 1 ≤ n + 1 by omega)]
    erw [e3]
    rw [ok_bind]
    erw [e2]
    rw [ok_bind]
    have := tdev_dev_nv (tab (n + 1) D) (n + 1) k a ai ad (tab_length _ _) idx hi d
      (Function.update S idx (nv2 (· + ·) (S idx) (nvD3' D n (a idx))))
      (Function.update So idx (nv2 (· + ·) (So idx)
        ((nv2 (· + ·) (S idx) (nvD3' D n (a idx))).map (fun v => v ^ 2)))) h0 (by omega)
    simp only [Function.update_self] at this
    exact this
  · rw [if_neg (by omega), if_neg h]
    by_cases h2 : 2 * a idx ≤ n
    · rw [if_pos (by omega), if_pos h2]
      have e1 := pyGet_tab_sub_nv n D (a idx) (by omega)
      have e2 := pyGet_tab_sub_nv n D (2 * a idx) (by omega)
      rw [Nat.cast_mul] at e2
      unfold tdev_update_S3n_nv
      simp only [hl, hx, hS, hSo, tab_length, pyGet_tab_nat k a idx hi, ok_bind, e0, e1,
        pyGet_tab_nat k S idx hi, pySet_tab k _ idx hi]
      erw [e2]
      simp only [ok_bind]
      by_cases h3 : n + 1 = 3 * a idx
      · rw [if_pos h3, if_pos h3]
        unfold tdev_S3n_last_nv
        simp only [pyGet_tab_nat k _ idx hi, ok_bind, pySet_tab k _ idx hi,
          Function.update_self]
        have := tdev_dev_nv (tab (n + 1) D) (n + 1) k a ai ad (tab_length _ _) idx hi d
          (Function.update S idx (nvS2 (S idx) D n (a idx)))
          (Function.update So idx ((nvS2 (S idx) D n (a idx)).map (fun v => v ^ 2))) h0 (by omega)
        simp only [Function.update_self] at this
        exact this
      · rw [if_neg h3, if_neg h3]
        simp only [Function.update_eq_self]
        rfl
    · rw [if_neg (by omega), if_neg h2]
      simp only [Function.update_eq_self]

/-- the state with entries `E i = (dev, S, So)` -/
def rtStNv (x : List NV) (K : ℕ) (a : ℕ → ℕ) (E : ℕ → NV × NV × NV) (ai ad : ℕ) : RtNv :=
  rtMkNv x K a (fun i => (E i).1) (fun i => (E i).2.1) (fun i => (E i).2.2) ai ad

theorem rtStNv_congr (x : List NV) (K : ℕ) {a b : ℕ → ℕ} {E F : ℕ → NV × NV × NV} (ai ad : ℕ)
    (h1 : ∀ i < K, a i = b i) (h : ∀ i < K, E i = F i) :
    rtStNv x K a E ai ad = rtStNv x K b F ai ad := by
  unfold rtStNv rtMkNv
  rw [tab_congr h1, tab_congr (fun i hi => congrArg Prod.fst (h i hi)),
    tab_congr (fun i hi => congrArg (fun p => p.2.1) (h i hi)),
    tab_congr (fun i hi => congrArg (fun p => p.2.2) (h i hi))]

theorem add_phase_nv_eq (k : RtName) (c : RtCfg) (D : ℕ → NV) (n K : ℕ) (a : ℕ → ℕ)
    (E : ℕ → NV × NV × NV) (ai ad : ℕ) (ht : c.tau0 ≠ 0) (ha : ∀ i < K, 0 < a i) :
    k.add_phase_nv c (rtStNv (tab n D) K a E ai ad) (D n) =
      rt_auto_nv c (rtStNv (tab (n + 1) D) K a (fun i => k.updNv c.tau0 D n (a i) (E i)) ai ad) := by
  have hs : ∀ d S So : ℕ → NV, { rtMkNv (tab n D) K a d S So ai ad with
      x := (rtMkNv (tab n D) K a d S So ai ad).x ++ [D n] } =
        rtMkNv (tab (n + 1) D) K a d S So ai ad := by
    intro d S So
    unfold rtMkNv
    simp only [tab_succ]
  have hl : ∀ d S So : ℕ → NV, (rtMkNv (tab n D) K a d S So ai ad).afs.length = K := by
    intro d S So
    simp [rtMkNv]
  cases k
  · simp only [RtName.add_phase_nv, oadev_add_phase_nv, rtStNv, hs, hl]
    rw [rt_loop_nv (tab (n + 1) D) K a ai ad _ _ _ _
      (fun i p => RtName.updNv .oadev c.tau0 D n (a i) p)]
    · rfl
    · intro idx hi d S So
      exact oadev_body_nv c D n K a ai ad ht ha idx hi d S So
  · simp only [RtName.add_phase_nv, ohdev_add_phase_nv, rtStNv, hs, hl]
    rw [rt_loop_nv (tab (n + 1) D) K a ai ad _ _ _ _
      (fun i p => RtName.updNv .ohdev c.tau0 D n (a i) p)]
    · rfl
    · intro idx hi d S So
      exact ohdev_body_nv c D n K a ai ad ht ha idx hi d S So
  · simp only [RtName.add_phase_nv, tdev_add_phase_nv, rtStNv, hs, hl]
    rw [rt_loop_nv (tab (n + 1) D) K a ai ad _ _ _ _
      (fun i p => RtName.updNv .tdev c.tau0 D n (a i) p)]
    · rfl
    · intro idx hi d S So
      exact tdev_body_nv c.tau0 D n K a ai ad ha idx hi d S So

/-! ## the history of one entry -/

/-- the entry for averaging factor `a` that was created with zeros when `t` samples had been
seen, `j` samples later -/
noncomputable def RtName.entryNv (k : RtName) (tau0 : ℝ) (D : ℕ → NV) (a t : ℕ) :
    ℕ → NV × NV × NV
  | 0 => (some 0, some 0, some 0)
  | j + 1 => k.updNv tau0 D (t + j) a (k.entryNv tau0 D a t j)

theorem streamClean_succ (k : RtName) (g : ℕ → Prop) (a s j : ℕ) :
    StreamClean k g a s (s + (j + 1)) ↔
      StreamClean k g a s (s + j) ∧ ∀ i, StreamReads k a (s + j) i → g i := by
  constructor
  · intro h
    exact ⟨fun t h1 h2 => h t h1 (by omega), h (s + j) (by omega) (by omega)⟩
  · rintro ⟨h1, h2⟩ t h3 h4
    rcases Nat.lt_or_ge t (s + j) with h | h
    · exact h1 t h3 h
    · rw [show t = s + j by omega]
      exact h2

theorem nvD2_nan (g : ℕ → Prop) (X : ℕ → ℝ) (n a : ℕ) (h : 2 * a ≤ n) :
    nvD2 (fun i => nanUnless (g i) (X i)) n a =
      nanUnless (g n ∧ g (n - a) ∧ g (n - 2 * a)) (d2 X a (n - 2 * a)) := by
  simp only [nvD2, nvScale_nan, nanUnless_nv2]
  refine nanUnless_congr (by tauto) (fun _ => ?_)
  unfold d2
  rw [show n - 2 * a + 2 * a = n by omega, show n - 2 * a + a = n - a by omega]

theorem nvS2_nan (g : ℕ → Prop) (X : ℕ → ℝ) (n a : ℕ) (h : 2 * a ≤ n) (G : Prop) (s : ℝ) :
    nvS2 (nanUnless G s) (fun i => nanUnless (g i) (X i)) n a =
      nanUnless (G ∧ g n ∧ g (n - a) ∧ g (n - 2 * a)) (s + d2 X a (n - 2 * a)) := by
  simp only [nvS2, nvScale_nan, nanUnless_nv2]
  refine nanUnless_congr (by tauto) (fun _ => ?_)
  unfold d2
  rw [show n - 2 * a + 2 * a = n by omega, show n - 2 * a + a = n - a by omega]
  ring

theorem nvD3_nan (g : ℕ → Prop) (X : ℕ → ℝ) (n a : ℕ) (h : 3 * a ≤ n) :
    nvD3 (fun i => nanUnless (g i) (X i)) n a =
      nanUnless (g n ∧ g (n - a) ∧ g (n - 2 * a) ∧ g (n - 3 * a)) (d3 X a (n - 3 * a)) := by
  simp only [nvD3, nvScale_nan, nanUnless_nv2]
  refine nanUnless_congr (by tauto) (fun _ => ?_)
  unfold d3
  rw [show n - 3 * a + 3 * a = n by omega, show n - 3 * a + 2 * a = n - a by omega,
    show n - 3 * a + a = n - 2 * a by omega]

theorem nvD3'_nan (g : ℕ → Prop) (X : ℕ → ℝ) (n a : ℕ) (h : 3 * a ≤ n) :
    nvD3' (fun i => nanUnless (g i) (X i)) n a =
      nanUnless (g n ∧ g (n - a) ∧ g (n - 2 * a) ∧ g (n - 3 * a)) (d3 X a (n - 3 * a)) := by
  simp only [nvD3', nvScale_nan, nanUnless_nv2]
  refine nanUnless_congr (by tauto) (fun _ => ?_)
  unfold d3
  rw [show n - 3 * a + 3 * a = n by omega, show n - 3 * a + 2 * a = n - a by omega,
    show n - 3 * a + a = n - 2 * a by omega]
  ring

theorem prod3_ext {α β γ : Type} {p : α × β × γ} {a : α} {b : β} {c : γ} (h1 : p.1 = a)
    (h2 : p.2.1 = b) (h3 : p.2.2 = c) : p = (a, b, c) := by
  subst h1 h2 h3
  rfl

/-- what NaN does to an entry -/
theorem entryNv_eq (k : RtName) (tau0 : ℝ) (g : ℕ → Prop) (X : ℕ → ℝ) (a s j : ℕ) (ha : 0 < a) :
    k.entryNv tau0 (fun i => nanUnless (g i) (X i)) a s j =
      (nanUnless (s + j < k.need a ∨ StreamClean k g a s (s + j)) (k.entry tau0 X a s j).1,
        nanUnless (StreamClean k g a s (s + j)) (k.entry tau0 X a s j).2.1,
        nanUnless (k ≠ .tdev ∨ s + j < 3 * a ∨ StreamClean k g a s (s + j))
          (k.entry tau0 X a s j).2.2) := by
  induction j with
  | zero =>
    have h0 : StreamClean k g a s (s + 0) := fun t h1 h2 => by omega
    simp only [RtName.entryNv, RtName.entry, h0, or_true, nanUnless, if_true]
  | succ j ih =>
    rw [RtName.entryNv, RtName.entry, ih]
    have hC := streamClean_succ k g a s j
    set C := StreamClean k g a s (s + j) with hCd
    set C' := StreamClean k g a s (s + (j + 1)) with hCd'
    set e := k.entry tau0 X a s j with he
    set n := s + j with hn
    have hn1 : s + (j + 1) = n + 1 := by omega
    cases k with
    | oadev =>
      simp only [RtName.updNv, RtName.upd, RtName.need, ne_eq, reduceCtorEq, not_false_eq_true,
        true_or]
      by_cases h : 2 * a ≤ n
      · have hr : (∀ i, StreamReads .oadev a n i → g i) ↔ (g n ∧ g (n - a) ∧ g (n - 2 * a)) := by
          simp only [StreamReads, h, true_and]
          constructor
          · intro H; exact ⟨H _ (by simp), H _ (by simp), H _ (by simp)⟩
          · rintro ⟨h1, h2, h3⟩ i (rfl | rfl | rfl) <;> assumption
        rw [hr] at hC
        rw [if_pos h, if_pos h]
        simp only [nvD2_nan _ _ _ _ h, nanUnless_map, nanUnless_nv2]
        refine prod3_ext (nanUnless_congr ?_ fun _ => rfl) (nanUnless_congr ?_ fun _ => rfl) rfl
        · rw [← hC, hn1]
          constructor
          · exact Or.inr
          · rintro (h1 | h1)
            · omega
            · exact h1
        · exact hC.symm
      · have hr : ∀ i, StreamReads .oadev a n i → g i := fun i hi => absurd hi.1 h
        rw [if_neg h, if_neg h]
        have : C' ↔ C := by rw [hC]; exact ⟨fun h => h.1, fun h => ⟨h, hr⟩⟩
        refine prod3_ext (nanUnless_congr ?_ fun _ => rfl) (nanUnless_congr this.symm fun _ => rfl) rfl
        rw [this, hn1]
        constructor <;> · intro; left; omega
    | ohdev =>
      simp only [RtName.updNv, RtName.upd, RtName.need, ne_eq, reduceCtorEq, not_false_eq_true,
        true_or]
      by_cases h : 3 * a ≤ n
      · have hr : (∀ i, StreamReads .ohdev a n i → g i) ↔
            (g n ∧ g (n - a) ∧ g (n - 2 * a) ∧ g (n - 3 * a)) := by
          simp only [StreamReads, h, true_and]
          constructor
          · intro H; exact ⟨H _ (by simp), H _ (by simp), H _ (by simp), H _ (by simp)⟩
          · rintro ⟨h1, h2, h3, h4⟩ i (rfl | rfl | rfl | rfl) <;> assumption
        rw [hr] at hC
        rw [if_pos h, if_pos h]
        simp only [nvD3_nan _ _ _ _ h, nanUnless_map, nanUnless_nv2]
        refine prod3_ext (nanUnless_congr ?_ fun _ => rfl) (nanUnless_congr ?_ fun _ => rfl) rfl
        · rw [← hC, hn1]
          constructor
          · exact Or.inr
          · rintro (h1 | h1)
            · omega
            · exact h1
        · exact hC.symm
      · have hr : ∀ i, StreamReads .ohdev a n i → g i := fun i hi => absurd hi.1 h
        rw [if_neg h, if_neg h]
        have : C' ↔ C := by rw [hC]; exact ⟨fun h => h.1, fun h => ⟨h, hr⟩⟩
        refine prod3_ext (nanUnless_congr ?_ fun _ => rfl) (nanUnless_congr this.symm fun _ => rfl) rfl
        rw [this, hn1]
        constructor <;> · intro; left; omega
    | tdev =>
      simp only [RtName.updNv, RtName.upd, tdevU, RtName.need, ne_eq, not_true_eq_false, false_or]
      by_cases h : 3 * a ≤ n
      · have hr : (∀ i, StreamReads .tdev a n i → g i) ↔
            (g n ∧ g (n - a) ∧ g (n - 2 * a) ∧ g (n - 3 * a)) := by
          simp only [StreamReads, h, true_and, show 2 * a ≤ n by omega]
          constructor
          · intro H; exact ⟨H _ (by simp), H _ (by simp), H _ (by simp), H _ (by simp)⟩
          · rintro ⟨h1, h2, h3, h4⟩ i (rfl | rfl | rfl | rfl) <;> assumption
        rw [hr] at hC
        rw [if_pos h, if_pos h]
        simp only [nvD3'_nan _ _ _ _ h, nanUnless_map, nanUnless_nv2]
        have h1 : ¬ n < 3 * a := by omega
        have h2 : ¬ s + (j + 1) < 3 * a := by omega
        refine prod3_ext (nanUnless_congr ?_ fun _ => rfl) (nanUnless_congr hC.symm fun _ => rfl)
          (nanUnless_congr ?_ fun _ => rfl) <;>
        · rw [hC]
          simp only [h1, h2, false_or]
          tauto
      · rw [if_neg h, if_neg h]
        by_cases h2 : 2 * a ≤ n
        · have hr : (∀ i, StreamReads .tdev a n i → g i) ↔ (g n ∧ g (n - a) ∧ g (n - 2 * a)) := by
            simp only [StreamReads, h, false_and, or_false, h2, true_and]
            constructor
            · intro H; exact ⟨H _ (by simp), H _ (by simp), H _ (by simp)⟩
            · rintro ⟨h1, h2, h3⟩ i (rfl | rfl | rfl) <;> assumption
          rw [hr] at hC
          rw [if_pos h2, if_pos h2]
          by_cases h3 : n + 1 = 3 * a
          · rw [if_pos h3, if_pos h3]
            simp only [nvS2_nan _ _ _ _ h2, nanUnless_map]
            have h4 : ¬ s + (j + 1) < 3 * a := by omega
            refine prod3_ext (nanUnless_congr ?_ fun _ => rfl) (nanUnless_congr hC.symm fun _ => rfl)
              (nanUnless_congr ?_ fun _ => rfl) <;>
            · rw [hC]
              simp only [h4, false_or]
          · rw [if_neg h3, if_neg h3]
            simp only [nvS2_nan _ _ _ _ h2]
            have h4 : n < 3 * a := by omega
            have h5 : s + (j + 1) < 3 * a := by omega
            refine prod3_ext (nanUnless_congr ?_ fun _ => rfl) (nanUnless_congr hC.symm fun _ => rfl)
              (nanUnless_congr ?_ fun _ => rfl) <;>
            · simp only [h4, h5, true_or]
        · have hr : ∀ i, StreamReads .tdev a n i → g i := fun i hi => absurd hi.1 h2
          rw [if_neg h2, if_neg h2]
          have : C' ↔ C := by rw [hC]; exact ⟨fun h => h.1, fun h => ⟨h, hr⟩⟩
          have h4 : n < 3 * a := by omega
          have h5 : s + (j + 1) < 3 * a := by omega
          refine prod3_ext (nanUnless_congr ?_ fun _ => rfl) (nanUnless_congr this.symm fun _ => rfl)
            (nanUnless_congr ?_ fun _ => rfl) <;>
          · simp only [h4, h5, true_or]

/-! ## the whole state -/

theorem rt_init_nv_eq (afs : List ℕ) :
    rt_init_nv afs false =
      rtStNv [] afs.length (fun i => afs.getD i 0) (fun _ => (some 0, some 0, some 0)) 0 0 := by
  have h : List.replicate afs.length (some 0 : NV) = tab afs.length (fun _ => some 0) := by
    apply tab_ext (by simp)
    intro i hi
    simp [hi]
  unfold rt_init_nv rtStNv rtMkNv
  simp only [h, Bool.false_eq_true, if_false]
  rw [← eq_tab afs 0]

theorem feed_fixed_state_nv (k : RtName) (tau0 : ℝ) (p : ℕ) (afs : List ℕ) (ht : tau0 ≠ 0)
    (ha : ∀ a ∈ afs, 0 < a) (D : ℕ → NV) (n : ℕ) :
    k.feed_nv (rt_cfg tau0 false p) (rt_init_nv afs false) (tab n D) =
      .ok (rtStNv (tab n D) afs.length (fun i => afs.getD i 0)
        (fun i => k.entryNv tau0 D (afs.getD i 0) 0 n) 0 0) := by
  unfold RtName.feed_nv
  induction n with
  | zero =>
    rw [rt_init_nv_eq]
    rfl
  | succ n ih =>
    rw [show tab (n + 1) D = tab n D ++ [D n] from tab_succ n D, List.foldlM_append, ih]
    simp only [ok_bind, List.foldlM_cons, List.foldlM_nil]
    rw [add_phase_nv_eq k _ D n _ _ _ _ _ (by exact ht) (getD_pos ha)]
    unfold rt_auto_nv rt_cfg
    simp only [Bool.false_eq_true, if_false]
    rw [← tab_succ]
    simp only [ok_bind, pure_eq_ok]
    congr 1
    apply rtStNv_congr _ _ _ _ (fun i _ => rfl)
    intro i _
    conv_rhs => unfold RtName.entryNv
    rw [Nat.zero_add]

theorem update_af_nv_eq (tau0 : ℝ) (p : ℕ) (hp : 0 < p) (x : List NV) (K : ℕ) (a : ℕ → ℕ)
    (E : ℕ → NV × NV × NV) :
    update_af_nv (rt_cfg tau0 true p) (rtStNv x (K + 1) a E (K % p) (K / p)) =
      .ok (if 2 * Spec.autoAf p (K + 1) + 1 ≤ x.length then
        rtStNv x (K + 2) (fun i => if i < K + 1 then a i else Spec.autoAf p (K + 1))
          (fun i => if i < K + 1 then E i else (some 0, some 0, some 0)) ((K + 1) % p) ((K + 1) / p)
        else rtStNv x (K + 1) a E (K % p) (K / p)) := by
  have hr := Nat.mod_lt K hp
  have hK := Nat.div_add_mod K p
  have key : ∃ q r, (if K % p + 1 = p then 0 else K % p + 1) = r ∧
      (if K % p + 1 = p then K / p + 1 else K / p) = q ∧ r < p ∧ K + 1 = p * q + r ∧
      (K + 1) % p = r ∧ (K + 1) / p = q := by
    by_cases h : K % p + 1 = p
    · have e : K + 1 = p * (K / p + 1) + 0 := by
        rw [Nat.mul_add]
        omega
      refine ⟨K / p + 1, 0, by rw [if_pos h], by rw [if_pos h], hp, e, ?_, ?_⟩
      · rw [e, Nat.mul_add_mod]
        exact Nat.zero_mod p
      · rw [e, Nat.mul_add_div hp]
        simp
    · have e : K + 1 = p * (K / p) + (K % p + 1) := by omega
      refine ⟨K / p, K % p + 1, by rw [if_neg h], by rw [if_neg h], by omega, e, ?_, ?_⟩
      · rw [e, Nat.mul_add_mod]
        exact Nat.mod_eq_of_lt (by omega)
      · rw [e, Nat.mul_add_div hp, Nat.div_eq_of_lt (show K % p + 1 < p by omega), Nat.add_zero]
  obtain ⟨q, r, h1, h2, h3, h4, h5, h6⟩ := key
  unfold update_af_nv
  rw [af_taus_eq tau0 true p hp]
  simp only [rtStNv, rtMkNv, tab_length]
  rw [h1, h2, pyGet_tab_nat p _ r h3, ok_bind, pow_split p hp, ← h4, h5, h6]
  have happ : ∀ {α : Type} (f : ℕ → α) (v : α), tab (K + 1) f ++ [v] =
      tab (K + 2) (fun i => if i < K + 1 then f i else v) := by
    intro α f v
    rw [tab_succ (K + 1), if_neg (lt_irrefl _)]
    congr 1
    exact tab_congr (fun i hi => (if_pos hi).symm)
  simp only [happ]
  unfold Spec.autoAf
  congr 1
  split_ifs
  · congr 1 <;> · apply tab_congr; intro i _; split_ifs <;> rfl
  · rfl

/-- the state in automatic mode after the first `n` samples -/
theorem feed_auto_state_nv (k : RtName) (tau0 : ℝ) (p : ℕ) (hp : 0 < p) (a0 : ℕ) (ht : tau0 ≠ 0)
    (D : ℕ → NV) (n : ℕ) :
    k.feed_nv (rt_cfg tau0 true p) (rt_init_nv [a0] true) (tab n D) =
      .ok (rtStNv (tab n D) (autoCount p n) (Spec.autoAf p)
        (fun i => k.entryNv tau0 D (Spec.autoAf p i) (Spec.addTime p i) (n - Spec.addTime p i))
        ((autoCount p n - 1) % p) ((autoCount p n - 1) / p)) := by
  unfold RtName.feed_nv
  induction n with
  | zero =>
    simp [rt_init_nv, rtStNv, rtMkNv, autoCount, tab_succ, autoAf_zero, RtName.entryNv, pure_eq_ok]
  | succ n ih =>
    rw [show tab (n + 1) D = tab n D ++ [D n] from tab_succ n D, List.foldlM_append, ih]
    simp only [ok_bind, List.foldlM_cons, List.foldlM_nil]
    rw [add_phase_nv_eq k _ D n _ _ _ _ _ (by exact ht) (fun i _ => autoAf_pos p i), ← tab_succ]
    unfold rt_auto_nv
    rw [if_pos (show (rt_cfg tau0 true p).auto_afs = true from rfl)]
    have hK : 0 < autoCount p n := (autoCount_spec p n 0).2 (Nat.zero_le _)
    obtain ⟨K, hK'⟩ : ∃ K, autoCount p n = K + 1 := ⟨autoCount p n - 1, by omega⟩
    have hupd : ∀ i < autoCount p n, k.updNv (rt_cfg tau0 true p).tau0 D n (Spec.autoAf p i)
        (k.entryNv tau0 D (Spec.autoAf p i) (Spec.addTime p i) (n - Spec.addTime p i)) =
        k.entryNv tau0 D (Spec.autoAf p i) (Spec.addTime p i) (n + 1 - Spec.addTime p i) := by
      intro i hi
      have := (autoCount_spec p n i).1 hi
      rw [show n + 1 - Spec.addTime p i = n - Spec.addTime p i + 1 by omega]
      conv_rhs => unfold RtName.entryNv
      rw [show Spec.addTime p i + (n - Spec.addTime p i) = n by omega]
      rfl
    rw [rtStNv_congr _ _ _ _ (fun i _ => rfl) hupd, hK', show K + 1 - 1 = K by omega,
      update_af_nv_eq tau0 p hp, tab_length, ok_bind, pure_eq_ok]
    congr 1
    have hc : autoCount p (n + 1) = if 2 * Spec.autoAf p (K + 1) + 1 ≤ n + 1 then K + 2 else K + 1 := by
      conv_lhs => unfold autoCount
      rw [hK']
    by_cases h : 2 * Spec.autoAf p (K + 1) + 1 ≤ n + 1
    · rw [if_pos h] at hc
      rw [if_pos h, hc, show K + 2 - 1 = K + 1 by omega]
      have hT : Spec.addTime p (K + 1) = n + 1 := by
        have h1 : Spec.addTime p (K + 1) ≤ n + 1 := (autoCount_spec p (n + 1) (K + 1)).1 (by omega)
        have h2 : ¬ Spec.addTime p (K + 1) ≤ n := fun h => by
          have := (autoCount_spec p n (K + 1)).2 h
          omega
        omega
      apply rtStNv_congr
      · intro i hi
        split_ifs with h3
        · rfl
        · rw [show i = K + 1 by omega]
      · intro i hi
        split_ifs with h3
        · rfl
        · rw [show i = K + 1 by omega, hT, Nat.sub_self]
          rfl
    · rw [if_neg h] at hc
      rw [if_neg h, hc, show K + 1 - 1 = K by omega]

end AT
