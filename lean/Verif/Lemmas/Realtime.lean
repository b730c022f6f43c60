import Verif.Model.Realtime
import Verif.Lemmas.Gradev
import Verif.Lemmas.Adev

/-!
# Lemmas about the streaming classes

A state is described by functions: `X` the stream, of which the first `n` samples were seen,
`a i` the averaging factors, `d i`, `S i`, `So i` the entries of the arrays.
-/

namespace AT

open Finset Real Spec

theorem set_tab {α : Type} (k : ℕ) (f : ℕ → α) (j : ℕ) (v : α) :
    (tab k f).set j v = tab k (Function.update f j v) := by
  apply tab_ext (by simp)
  intro i hi
  rw [List.getElem?_set]
  by_cases h : j = i
  · subst h
    simp [hi]
  · rw [if_neg h, tab_getElem?, if_pos hi, Function.update_of_ne (Ne.symm h)]

theorem pySet_tab {α : Type} (k : ℕ) (f : ℕ → α) (j : ℕ) (hj : j < k) (v : α) :
    pySet (tab k f) j v = .ok (tab k (Function.update f j v)) := by
  unfold pySet
  rw [tab_length, if_pos hj, set_tab]

/-- the state with the given contents -/
def rtMk (x : List ℝ) (k : ℕ) (a : ℕ → ℕ) (d S So : ℕ → ℝ) (ai ad : ℕ) : Rt :=
  ⟨x, tab k a, tab k d, tab k S, tab k So, ai, ad⟩

/-- one pass over the averaging factors, each of which changes its own entries only -/
theorem rt_loop (x : List ℝ) (k : ℕ) (a : ℕ → ℕ) (ai ad : ℕ) (d S So : ℕ → ℝ)
    (body : Rt → ℕ → Py Rt) (u : ℕ → ℝ × ℝ × ℝ → ℝ × ℝ × ℝ)
    (H : ∀ idx < k, ∀ d S So : ℕ → ℝ, body (rtMk x k a d S So ai ad) idx =
      .ok (rtMk x k a (Function.update d idx (u idx (d idx, S idx, So idx)).1)
        (Function.update S idx (u idx (d idx, S idx, So idx)).2.1)
        (Function.update So idx (u idx (d idx, S idx, So idx)).2.2) ai ad)) :
    forRange k (rtMk x k a d S So ai ad) body =
      .ok (rtMk x k a (fun i => (u i (d i, S i, So i)).1) (fun i => (u i (d i, S i, So i)).2.1)
        (fun i => (u i (d i, S i, So i)).2.2) ai ad) := by
  have mix : ∀ (f g : ℕ → ℝ) (j : ℕ),
      Function.update (fun i => if i < j then g i else f i) j (g j) =
        fun i => if i < j + 1 then g i else f i := by
    intro f g j
    funext i
    by_cases h : i = j
    · subst h
      simp
    · rw [Function.update_of_ne h]
      by_cases h2 : i < j
      · rw [if_pos h2, if_pos (by omega)]
      · rw [if_neg h2, if_neg (by omega)]
  have := forRange_ok k (fun j => rtMk x k a
    (fun i => if i < j then (u i (d i, S i, So i)).1 else d i)
    (fun i => if i < j then (u i (d i, S i, So i)).2.1 else S i)
    (fun i => if i < j then (u i (d i, S i, So i)).2.2 else So i) ai ad) body (by
      intro j hj
      rw [H j hj]
      simp only [lt_irrefl, if_false]
      rw [mix d (fun i => (u i (d i, S i, So i)).1) j,
        mix S (fun i => (u i (d i, S i, So i)).2.1) j,
        mix So (fun i => (u i (d i, S i, So i)).2.2) j])
  simp only [Nat.not_lt_zero, if_false] at this
  rw [this]
  congr 1
  unfold rtMk
  congr 1 <;> exact tab_congr (fun i hi => if_pos hi)

theorem pyGet_tab_sub (n : ℕ) (X : ℕ → ℝ) (m : ℕ) (hm : m ≤ n) :
    pyGet (tab (n + 1) X) (((n + 1 : ℕ) : ℤ) - 1 - m) = .ok (X (n - m)) := by
  rw [pyGet_tab _ _ _ (by push_cast; omega) (by push_cast; omega)]
  congr 2
  omega

/-- `update_S` of oadev_realtime -/
theorem oadev_body (c : RtCfg) (X : ℕ → ℝ) (n k : ℕ) (a : ℕ → ℕ) (ai ad : ℕ)
    (ht : c.tau0 ≠ 0) (ha : ∀ i < k, 0 < a i) (idx : ℕ) (hi : idx < k) (d S So : ℕ → ℝ) :
    (do
      let af ← pyGet (rtMk (tab (n + 1) X) k a d S So ai ad).afs idx
      if 2 * af + 1 ≤ (rtMk (tab (n + 1) X) k a d S So ai ad).x.length then
        oadev_update_S c (rtMk (tab (n + 1) X) k a d S So ai ad) idx
      else .ok (rtMk (tab (n + 1) X) k a d S So ai ad)) =
      .ok (rtMk (tab (n + 1) X) k a
        (Function.update d idx (if 2 * a idx ≤ n then
          √((S idx + d2 X (a idx) (n - 2 * a idx) ^ 2) / (2 * (a idx * c.tau0) ^ 2 * ((n + 1 : ℕ) - 2 * a idx)))
          else d idx))
        (Function.update S idx (if 2 * a idx ≤ n then S idx + d2 X (a idx) (n - 2 * a idx) ^ 2
          else S idx))
        (Function.update So idx (So idx)) ai ad) := by
  have h0 := ha idx hi
  simp only [rtMk, tab_length, pyGet_tab_nat k a idx hi, ok_bind]
  by_cases h : 2 * a idx ≤ n
  · rw [if_pos (by omega), if_pos h, if_pos h]
    unfold oadev_update_S
    have e0 : pyGet (tab (n + 1) X) (((n + 1 : ℕ) : ℤ) - 1) = .ok (X n) := by
      have := pyGet_tab_sub n X 0 (by omega)
      simpa using this
    have e1 := pyGet_tab_sub n X (a idx) (by omega)
    have e2 := pyGet_tab_sub n X (2 * a idx) h
    have hpos : (0 : ℝ) < (n : ℝ) + 1 - 2 * a idx := by
      have : (2 * a idx : ℝ) ≤ n := by exact_mod_cast h
      linarith
    have ha' : (a idx : ℝ) ≠ 0 := by positivity
    simp only [tab_length, pyGet_tab_nat k a idx hi, ok_bind, e0, e1,
      pyGet_tab_nat k S idx hi, pySet_tab k _ idx hi]
    push_cast at e2 ⊢
    rw [e2]
    simp only [ok_bind]
    rw [pyDiv_ne (by
      have : (n : ℝ) + 1 - 1 + 1 - 2 * a idx = n + 1 - 2 * a idx := by ring
      rw [this]
      positivity)]
    simp only [ok_bind, Function.update_eq_self]
    have hd : X n - 2 * X (n - a idx) + X (n - 2 * a idx) = d2 X (a idx) (n - 2 * a idx) := by
      unfold d2
      rw [show n - 2 * a idx + 2 * a idx = n by omega, show n - 2 * a idx + a idx = n - a idx by omega]
    rw [hd, one_div_mul_eq_div, show (n : ℝ) + 1 - 1 + 1 - 2 * a idx = n + 1 - 2 * a idx by ring]
  · rw [if_neg (by omega), if_neg h, if_neg h]
    simp only [Function.update_eq_self]

/-- `update_S` of ohdev_realtime -/
theorem ohdev_body (c : RtCfg) (X : ℕ → ℝ) (n k : ℕ) (a : ℕ → ℕ) (ai ad : ℕ)
    (ht : c.tau0 ≠ 0) (ha : ∀ i < k, 0 < a i) (idx : ℕ) (hi : idx < k) (d S So : ℕ → ℝ) :
    (do
      let af ← pyGet (rtMk (tab (n + 1) X) k a d S So ai ad).afs idx
      if 3 * af < (rtMk (tab (n + 1) X) k a d S So ai ad).x.length then
        ohdev_update_S c (rtMk (tab (n + 1) X) k a d S So ai ad) idx
      else .ok (rtMk (tab (n + 1) X) k a d S So ai ad)) =
      .ok (rtMk (tab (n + 1) X) k a
        (Function.update d idx (if 3 * a idx ≤ n then
          √((S idx + d3 X (a idx) (n - 3 * a idx) ^ 2) / (6 * (a idx * c.tau0) ^ 2 * ((n + 1 : ℕ) - 3 * a idx)))
          else d idx))
        (Function.update S idx (if 3 * a idx ≤ n then S idx + d3 X (a idx) (n - 3 * a idx) ^ 2
          else S idx))
        (Function.update So idx (So idx)) ai ad) := by
  have h0 := ha idx hi
  simp only [rtMk, tab_length, pyGet_tab_nat k a idx hi, ok_bind]
  by_cases h : 3 * a idx ≤ n
  · rw [if_pos (by omega), if_pos h, if_pos h]
    unfold ohdev_update_S
    have e0 : pyGet (tab (n + 1) X) (((n + 1 : ℕ) : ℤ) - 1) = .ok (X n) := by
      have := pyGet_tab_sub n X 0 (by omega)
      simpa using this
    have e1 := pyGet_tab_sub n X (a idx) (by omega)
    have e2 := pyGet_tab_sub n X (2 * a idx) (by omega)
    have e3 := pyGet_tab_sub n X (3 * a idx) h
    have hpos : (0 : ℝ) < (n : ℝ) + 1 - 3 * a idx := by
      have : (3 * a idx : ℝ) ≤ n := by exact_mod_cast h
      linarith
    have ha' : (a idx : ℝ) ≠ 0 := by positivity
    simp only [tab_length, pyGet_tab_nat k a idx hi, ok_bind, e0, e1,
      pyGet_tab_nat k S idx hi, pySet_tab k _ idx hi]
    push_cast at e2 e3 ⊢
    rw [e2]
    simp only [ok_bind]
    rw [e3]
    simp only [ok_bind]
    rw [pyDiv_ne (by
      have : (n : ℝ) + 1 - 1 + 1 - 3 * a idx = n + 1 - 3 * a idx := by ring
      rw [this]
      positivity)]
    simp only [ok_bind, Function.update_eq_self]
    have hd : X n - 3 * X (n - a idx) + 3 * X (n - 2 * a idx) - X (n - 3 * a idx)
        = d3 X (a idx) (n - 3 * a idx) := by
      unfold d3
      rw [show n - 3 * a idx + 3 * a idx = n by omega,
        show n - 3 * a idx + 2 * a idx = n - a idx by omega,
        show n - 3 * a idx + a idx = n - 2 * a idx by omega]
    rw [hd, one_div_mul_eq_div, show (n : ℝ) + 1 - 1 + 1 - 3 * a idx = n + 1 - 3 * a idx by ring]
  · rw [if_neg (by omega), if_neg h, if_neg h]
    simp only [Function.update_eq_self]

theorem tdev_dev (x : List ℝ) (N k : ℕ) (a : ℕ → ℕ) (ai ad : ℕ) (hx : x.length = N)
    (idx : ℕ) (hi : idx < k) (d S So : ℕ → ℝ) (ha : 0 < a idx) (hN : 3 * a idx ≤ N) :
    tdev_update_dev (rtMk x k a d S So ai ad) idx =
      .ok (rtMk x k a (Function.update d idx
        √(So idx / (6 * (a idx : ℝ) ^ 2 * (N - 3 * a idx + 1)))) S So ai ad) := by
  have ha' : (a idx : ℝ) ≠ 0 := by positivity
  have hpos : (0 : ℝ) < (N : ℝ) - 3 * a idx + 1 := by
    have : (3 * a idx : ℝ) ≤ N := by exact_mod_cast hN
    linarith
  simp only [tdev_update_dev, rtMk, pyGet_tab_nat k a idx hi, pyGet_tab_nat k So idx hi, ok_bind, hx]
  rw [pyDiv_ne hpos.ne', ok_bind, pyDiv_ne (by positivity), ok_bind, pySet_tab k _ idx hi, ok_bind]
  congr 5
  rw [show (1 : ℝ) / 6 * (1 / ((N : ℝ) - 3 * a idx + 1)) * (1 / (a idx : ℝ) ^ 2) * So idx
    = So idx / (6 * (a idx : ℝ) ^ 2 * (N - 3 * a idx + 1)) by field_simp]

/-- new entries of tdev_realtime when sample `n` (counted from 0) is added -/
noncomputable def tdevU (X : ℕ → ℝ) (n a : ℕ) (p : ℝ × ℝ × ℝ) : ℝ × ℝ × ℝ :=
  if 3 * a ≤ n then
    let s := p.2.1 + d3 X a (n - 3 * a)
    let so := p.2.2 + s ^ 2
    (√(so / (6 * (a : ℝ) ^ 2 * ((n + 1 : ℕ) - 3 * a + 1))), s, so)
  else if 2 * a ≤ n then
    let s := p.2.1 + d2 X a (n - 2 * a)
    if n + 1 = 3 * a then
      (√(s ^ 2 / (6 * (a : ℝ) ^ 2 * ((n + 1 : ℕ) - 3 * a + 1))), s, s ^ 2)
    else (p.1, s, p.2.2)
  else p

/-- the loop body of tdev_realtime -/
theorem tdev_body (X : ℕ → ℝ) (n k : ℕ) (a : ℕ → ℕ) (ai ad : ℕ)
    (ha : ∀ i < k, 0 < a i) (idx : ℕ) (hi : idx < k) (d S So : ℕ → ℝ) :
    (do
      let af ← pyGet (rtMk (tab (n + 1) X) k a d S So ai ad).afs idx
      if 3 * af + 1 ≤ (rtMk (tab (n + 1) X) k a d S So ai ad).x.length then
        tdev_update_S (rtMk (tab (n + 1) X) k a d S So ai ad) idx
      else if 2 * af + 1 ≤ (rtMk (tab (n + 1) X) k a d S So ai ad).x.length then
        tdev_update_S3n (rtMk (tab (n + 1) X) k a d S So ai ad) idx
      else .ok (rtMk (tab (n + 1) X) k a d S So ai ad)) =
      .ok (rtMk (tab (n + 1) X) k a
        (Function.update d idx (tdevU X n (a idx) (d idx, S idx, So idx)).1)
        (Function.update S idx (tdevU X n (a idx) (d idx, S idx, So idx)).2.1)
        (Function.update So idx (tdevU X n (a idx) (d idx, S idx, So idx)).2.2) ai ad) := by
  have h0 := ha idx hi
  have e0 : pyGet (tab (n + 1) X) (((n + 1 : ℕ) : ℤ) - 1) = .ok (X n) := by
    have := pyGet_tab_sub n X 0 (by omega)
    simpa using this
  have hl : (rtMk (tab (n + 1) X) k a d S So ai ad).afs = tab k a := rfl
  have hx : (rtMk (tab (n + 1) X) k a d S So ai ad).x = tab (n + 1) X := rfl
  have hS : (rtMk (tab (n + 1) X) k a d S So ai ad).S = tab k S := rfl
  have hSo : (rtMk (tab (n + 1) X) k a d S So ai ad).So = tab k So := rfl
  rw [hl, hx, pyGet_tab_nat k a idx hi, ok_bind, tab_length]
  unfold tdevU
  by_cases h : 3 * a idx ≤ n
  · rw [if_pos (by omega), if_pos h]
    have e1 := pyGet_tab_sub n X (a idx) (by omega)
    have e2 := pyGet_tab_sub n X (2 * a idx) (by omega)
    have e3 := pyGet_tab_sub n X (3 * a idx) h
    rw [Nat.cast_mul] at e2 e3
    unfold tdev_update_S
    have hd : -1 * X (n - 3 * a idx) + 3 * X (n - 2 * a idx) - 3 * X (n - a idx) + X n
        = d3 X (a idx) (n - 3 * a idx) := by
      unfold d3
      rw [show n - 3 * a idx + 3 * a idx = n by omega,
        show n - 3 * a idx + 2 * a idx = n - a idx by omega,
        show n - 3 * a idx + a idx = n - 2 * a idx by omega]
      ring
    simp only [hl, hx, hS, hSo, tab_length, pyGet_tab_nat k a idx hi, ok_bind, e0, e1,
      pyGet_tab_nat k S idx hi, pyGet_tab_nat k So idx hi, pySet_tab k _ idx hi,
      pyAssert_true (show 3 * a idx + 1 ≤ n + 1 by omega)]
    erw [e3]
    rw [ok_bind]
    erw [e2]
    rw [ok_bind]
    have := tdev_dev (tab (n + 1) X) (n + 1) k a ai ad (tab_length _ _) idx hi d
      (Function.update S idx (S idx + d3 X (a idx) (n - 3 * a idx)))
      (Function.update So idx (So idx + (S idx + d3 X (a idx) (n - 3 * a idx)) ^ 2)) h0 (by omega)
    simp only [Function.update_self] at this
    simp only [hd]
    exact this
  · rw [if_neg (by omega), if_neg h]
    by_cases h2 : 2 * a idx ≤ n
    · rw [if_pos (by omega), if_pos h2]
      have e1 := pyGet_tab_sub n X (a idx) (by omega)
      have e2 := pyGet_tab_sub n X (2 * a idx) (by omega)
      rw [Nat.cast_mul] at e2
      have hd : S idx + X n - 2 * X (n - a idx) + X (n - 2 * a idx)
          = S idx + d2 X (a idx) (n - 2 * a idx) := by
        unfold d2
        rw [show n - 2 * a idx + 2 * a idx = n by omega, show n - 2 * a idx + a idx = n - a idx by omega]
        ring
      unfold tdev_update_S3n
      simp only [hl, hx, hS, hSo, tab_length, pyGet_tab_nat k a idx hi, ok_bind, e0, e1,
        pyGet_tab_nat k S idx hi, pySet_tab k _ idx hi]
      erw [e2]
      simp only [ok_bind, hd]
      by_cases h3 : n + 1 = 3 * a idx
      · rw [if_pos h3, if_pos h3]
        unfold tdev_S3n_last
        simp only [pyGet_tab_nat k _ idx hi, ok_bind, pySet_tab k _ idx hi,
          Function.update_self]
        have := tdev_dev (tab (n + 1) X) (n + 1) k a ai ad (tab_length _ _) idx hi d
          (Function.update S idx (S idx + d2 X (a idx) (n - 2 * a idx)))
          (Function.update So idx ((S idx + d2 X (a idx) (n - 2 * a idx)) ^ 2)) h0 (by omega)
        simp only [Function.update_self] at this
        exact this
      · rw [if_neg h3, if_neg h3]
        simp only [Function.update_eq_self]
        rfl
    · rw [if_neg (by omega), if_neg h2]
      simp only [Function.update_eq_self]

/-! ## one sample -/

/-- new entries (deviation, sum, overall sum) when sample `n` (counted from 0) is added -/
noncomputable def RtName.upd (k : RtName) (tau0 : ℝ) (X : ℕ → ℝ) (n a : ℕ) (p : ℝ × ℝ × ℝ) :
    ℝ × ℝ × ℝ :=
  match k with
  | .oadev =>
    if 2 * a ≤ n then
      (√((p.2.1 + d2 X a (n - 2 * a) ^ 2) / (2 * (a * tau0) ^ 2 * ((n + 1 : ℕ) - 2 * a))),
        p.2.1 + d2 X a (n - 2 * a) ^ 2, p.2.2)
    else p
  | .ohdev =>
    if 3 * a ≤ n then
      (√((p.2.1 + d3 X a (n - 3 * a) ^ 2) / (6 * (a * tau0) ^ 2 * ((n + 1 : ℕ) - 3 * a))),
        p.2.1 + d3 X a (n - 3 * a) ^ 2, p.2.2)
    else p
  | .tdev => tdevU X n a p

/-- the state with entries `E i = (dev, S, So)` -/
def rtSt (x : List ℝ) (K : ℕ) (a : ℕ → ℕ) (E : ℕ → ℝ × ℝ × ℝ) (ai ad : ℕ) : Rt :=
  rtMk x K a (fun i => (E i).1) (fun i => (E i).2.1) (fun i => (E i).2.2) ai ad

theorem rtSt_congr (x : List ℝ) (K : ℕ) {a b : ℕ → ℕ} {E F : ℕ → ℝ × ℝ × ℝ} (ai ad : ℕ)
    (h1 : ∀ i < K, a i = b i) (h : ∀ i < K, E i = F i) : rtSt x K a E ai ad = rtSt x K b F ai ad := by
  unfold rtSt rtMk
  rw [tab_congr h1, tab_congr (fun i hi => congrArg Prod.fst (h i hi)),
    tab_congr (fun i hi => congrArg (fun p => p.2.1) (h i hi)),
    tab_congr (fun i hi => congrArg (fun p => p.2.2) (h i hi))]

theorem add_phase_eq (k : RtName) (c : RtCfg) (X : ℕ → ℝ) (n K : ℕ) (a : ℕ → ℕ)
    (E : ℕ → ℝ × ℝ × ℝ) (ai ad : ℕ) (ht : c.tau0 ≠ 0) (ha : ∀ i < K, 0 < a i) :
    k.add_phase c (rtSt (tab n X) K a E ai ad) (X n) =
      rt_auto c (rtSt (tab (n + 1) X) K a (fun i => k.upd c.tau0 X n (a i) (E i)) ai ad) := by
  have hs : ∀ d S So : ℕ → ℝ, { rtMk (tab n X) K a d S So ai ad with
      x := (rtMk (tab n X) K a d S So ai ad).x ++ [X n] } = rtMk (tab (n + 1) X) K a d S So ai ad := by
    intro d S So
    unfold rtMk
    simp only [tab_succ]
  have hl : ∀ d S So : ℕ → ℝ, (rtMk (tab n X) K a d S So ai ad).afs.length = K := by
    intro d S So
    simp [rtMk]
  cases k
  · simp only [RtName.add_phase, oadev_add_phase, rtSt, hs, hl]
    rw [rt_loop (tab (n + 1) X) K a ai ad _ _ _ _ (fun i p => RtName.upd .oadev c.tau0 X n (a i) p)]
    · rfl
    · intro idx hi d S So
      refine (oadev_body c X n K a ai ad ht ha idx hi d S So).trans ?_
      unfold RtName.upd
      split_ifs <;> rfl
  · simp only [RtName.add_phase, ohdev_add_phase, rtSt, hs, hl]
    rw [rt_loop (tab (n + 1) X) K a ai ad _ _ _ _ (fun i p => RtName.upd .ohdev c.tau0 X n (a i) p)]
    · rfl
    · intro idx hi d S So
      refine (ohdev_body c X n K a ai ad ht ha idx hi d S So).trans ?_
      unfold RtName.upd
      split_ifs <;> rfl
  · simp only [RtName.add_phase, tdev_add_phase, rtSt, hs, hl]
    rw [rt_loop (tab (n + 1) X) K a ai ad _ _ _ _ (fun i p => RtName.upd .tdev c.tau0 X n (a i) p)]
    · rfl
    · intro idx hi d S So
      exact tdev_body X n K a ai ad ha idx hi d S So

/-! ## the history of one entry -/

/-- the entry for averaging factor `a` that was created with zeros when `t` samples had been
seen, `j` samples later -/
noncomputable def RtName.entry (k : RtName) (tau0 : ℝ) (X : ℕ → ℝ) (a t : ℕ) : ℕ → ℝ × ℝ × ℝ
  | 0 => (0, 0, 0)
  | j + 1 => k.upd tau0 X (t + j) a (k.entry tau0 X a t j)

theorem oadev_entry (tau0 : ℝ) (X : ℕ → ℝ) (a t j : ℕ) :
    RtName.entry .oadev tau0 X a t j =
      (if j = 0 ∨ t + j ≤ 2 * a then 0 else
        √((∑ i ∈ Ico (t - 2 * a) (t + j - 2 * a), d2 X a i ^ 2)
          / (2 * (a * tau0) ^ 2 * ((t + j : ℕ) - 2 * a))),
        ∑ i ∈ Ico (t - 2 * a) (t + j - 2 * a), d2 X a i ^ 2, 0) := by
  induction j with
  | zero => simp [RtName.entry]
  | succ j ih =>
    unfold RtName.entry
    rw [ih]
    unfold RtName.upd
    simp only
    by_cases h : 2 * a ≤ t + j
    · have hs : ∑ i ∈ Ico (t - 2 * a) (t + (j + 1) - 2 * a), d2 X a i ^ 2 =
          ∑ i ∈ Ico (t - 2 * a) (t + j - 2 * a), d2 X a i ^ 2 + d2 X a (t + j - 2 * a) ^ 2 := by
        rw [show t + (j + 1) - 2 * a = t + j - 2 * a + 1 by omega, sum_Ico_succ_top (by omega)]
      rw [if_pos h, if_neg (by omega), hs]
      rfl
    · rw [if_neg h, if_pos (by omega), if_pos (by omega), show t + (j + 1) - 2 * a = 0 by omega,
        show t + j - 2 * a = 0 by omega]

theorem ohdev_entry (tau0 : ℝ) (X : ℕ → ℝ) (a t j : ℕ) :
    RtName.entry .ohdev tau0 X a t j =
      (if j = 0 ∨ t + j ≤ 3 * a then 0 else
        √((∑ i ∈ Ico (t - 3 * a) (t + j - 3 * a), d3 X a i ^ 2)
          / (6 * (a * tau0) ^ 2 * ((t + j : ℕ) - 3 * a))),
        ∑ i ∈ Ico (t - 3 * a) (t + j - 3 * a), d3 X a i ^ 2, 0) := by
  induction j with
  | zero => simp [RtName.entry]
  | succ j ih =>
    unfold RtName.entry
    rw [ih]
    unfold RtName.upd
    simp only
    by_cases h : 3 * a ≤ t + j
    · have hs : ∑ i ∈ Ico (t - 3 * a) (t + (j + 1) - 3 * a), d3 X a i ^ 2 =
          ∑ i ∈ Ico (t - 3 * a) (t + j - 3 * a), d3 X a i ^ 2 + d3 X a (t + j - 3 * a) ^ 2 := by
        rw [show t + (j + 1) - 3 * a = t + j - 3 * a + 1 by omega, sum_Ico_succ_top (by omega)]
      rw [if_pos h, if_neg (by omega), hs]
      rfl
    · rw [if_neg h, if_pos (by omega), if_pos (by omega), show t + (j + 1) - 3 * a = 0 by omega,
        show t + j - 3 * a = 0 by omega]

/-- moving the window of second differences by one sample adds a third difference -/
theorem window_succ (X : ℕ → ℝ) (a q : ℕ) :
    ∑ i ∈ range a, d2 X a (q + 1 + i) = ∑ i ∈ range a, d2 X a (q + i) + d3 X a q := by
  have h1 : ∑ i ∈ range (a + 1), d2 X a (q + i) = ∑ i ∈ range a, d2 X a (q + 1 + i) + d2 X a q := by
    rw [sum_range_succ']
    congr 1
    exact sum_congr rfl (fun i _ => by rw [show q + (i + 1) = q + 1 + i by omega])
  rw [sum_range_succ] at h1
  have h2 : d3 X a q = d2 X a (q + a) - d2 X a q := by
    unfold d3 d2
    rw [show q + a + 2 * a = q + 3 * a by omega, show q + a + a = q + 2 * a by omega]
    ring
  linarith

/-- an entry of tdev_realtime that was created before `3a` samples were seen: the second
differences before its creation (`i < t - 2a`) are missing from every window sum -/
theorem tdev_entry (tau0 : ℝ) (X : ℕ → ℝ) (a t j : ℕ) (ht : t < 3 * a) :
    RtName.entry .tdev tau0 X a t j =
      (if t + j < 3 * a then 0 else
        √((∑ q ∈ range (t + j - 3 * a + 1),
            (∑ i ∈ range a, d2 X a (q + i) - ∑ i ∈ range (t - 2 * a), d2 X a i) ^ 2)
          / (6 * (a : ℝ) ^ 2 * ((t + j : ℕ) - 3 * a + 1))),
        (if t + j ≤ 3 * a then ∑ i ∈ range (t + j - 2 * a), d2 X a i
          else ∑ i ∈ range a, d2 X a (t + j - 3 * a + i)) - ∑ i ∈ range (t - 2 * a), d2 X a i,
        if t + j < 3 * a then 0 else ∑ q ∈ range (t + j - 3 * a + 1),
          (∑ i ∈ range a, d2 X a (q + i) - ∑ i ∈ range (t - 2 * a), d2 X a i) ^ 2) := by
  induction j with
  | zero =>
    unfold RtName.entry
    rw [if_pos (by omega), if_pos (by omega), if_pos (by omega)]
    simp
  | succ j ih =>
    unfold RtName.entry
    rw [ih]
    unfold RtName.upd tdevU
    simp only
    set C := ∑ i ∈ range (t - 2 * a), d2 X a i with hC
    by_cases h : 3 * a ≤ t + j
    · have hw : (if t + j ≤ 3 * a then ∑ i ∈ range (t + j - 2 * a), d2 X a i
          else ∑ i ∈ range a, d2 X a (t + j - 3 * a + i)) = ∑ i ∈ range a, d2 X a (t + j - 3 * a + i) := by
        split_ifs with h'
        · rw [show t + j - 2 * a = a by omega]
          exact sum_congr rfl (fun i _ => by rw [show t + j - 3 * a + i = i by omega])
        · rfl
      have hn : ∑ i ∈ range a, d2 X a (t + j - 3 * a + i) - C + d3 X a (t + j - 3 * a) =
          ∑ i ∈ range a, d2 X a (t + (j + 1) - 3 * a + i) - C := by
        rw [show t + (j + 1) - 3 * a = t + j - 3 * a + 1 by omega, window_succ]
        ring
      have hso : ∑ q ∈ range (t + (j + 1) - 3 * a + 1), (∑ i ∈ range a, d2 X a (q + i) - C) ^ 2 =
          ∑ q ∈ range (t + j - 3 * a + 1), (∑ i ∈ range a, d2 X a (q + i) - C) ^ 2 +
          (∑ i ∈ range a, d2 X a (t + (j + 1) - 3 * a + i) - C) ^ 2 := by
        rw [show t + (j + 1) - 3 * a + 1 = t + j - 3 * a + 1 + 1 by omega, sum_range_succ]
        rw [show t + (j + 1) - 3 * a = t + j - 3 * a + 1 by omega]
      rw [if_pos h, hw, hn, if_neg (show ¬ t + j < 3 * a by omega),
        if_neg (show ¬ t + (j + 1) < 3 * a by omega),
        if_neg (show ¬ t + (j + 1) ≤ 3 * a by omega), if_neg (show ¬ t + (j + 1) < 3 * a by omega), hso]
      rfl
    · rw [if_neg h]
      by_cases h2 : 2 * a ≤ t + j
      · have hs : ∑ i ∈ range (t + j - 2 * a), d2 X a i - C + d2 X a (t + j - 2 * a) =
            ∑ i ∈ range (t + (j + 1) - 2 * a), d2 X a i - C := by
          rw [show t + (j + 1) - 2 * a = t + j - 2 * a + 1 by omega, sum_range_succ]
          ring
        rw [if_pos h2, if_pos (show t + j ≤ 3 * a by omega), hs, if_pos (show t + j < 3 * a by omega),
          if_pos (show t + j < 3 * a by omega), if_pos (show t + (j + 1) ≤ 3 * a by omega)]
        by_cases h3 : t + j + 1 = 3 * a
        · rw [if_pos h3, if_neg (show ¬ t + (j + 1) < 3 * a by omega),
            if_neg (show ¬ t + (j + 1) < 3 * a by omega), show t + (j + 1) - 3 * a + 1 = 1 by omega,
            sum_range_one, show t + (j + 1) - 2 * a = a by omega]
          simp only [Nat.zero_add, Nat.add_assoc]
        · rw [if_neg h3, if_pos (show t + (j + 1) < 3 * a by omega),
            if_pos (show t + (j + 1) < 3 * a by omega)]
      · rw [if_neg h2, if_pos (show t + j < 3 * a by omega), if_pos (show t + j < 3 * a by omega),
          if_pos (show t + (j + 1) < 3 * a by omega),
          if_pos (show t + (j + 1) < 3 * a by omega), if_pos (show t + (j + 1) ≤ 3 * a by omega),
          if_pos (show t + j ≤ 3 * a by omega), show t + (j + 1) - 2 * a = 0 by omega,
          show t + j - 2 * a = 0 by omega]

end AT
