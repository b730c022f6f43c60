import Verif.Lemmas.FloatRange
import Verif.Model.Float
import Verif.Props.Float

/-!
# The rounded deviations stay in the normal range
-/

namespace AT

open Spec

variable {fl r : ℝ → ℝ} {sum sum' : List ℝ → ℝ}

/-- at most `2^47` multiples of `2^g` of at most `2^b` -/
def Arr (g b : ℤ) (l : List ℝ) : Prop := l.length ≤ 2 ^ 47 ∧ ∀ v ∈ l, Grid g b v

theorem Arr.mono {g b g' b' : ℤ} {l : List ℝ} (h : Arr g b l) (hg : g' ≤ g) (hb : b ≤ b') : Arr g' b' l :=
  ⟨h.1, fun v hv => (h.2 v hv).mono hg hb⟩

theorem Arr.sublist {g b : ℤ} {l l' : List ℝ} (h : Arr g b l) (hs : l'.Sublist l) : Arr g b l' :=
  ⟨hs.length_le.trans h.1, fun v hv => h.2 v (hs.subset hv)⟩

theorem everyNth_sublist {α : Type} (s : ℕ) (l : List α) : (everyNth s l).Sublist l := by
  induction hn : l.length using Nat.strong_induction_on generalizing l with
  | _ n ih =>
    match l with
    | [] => simp [everyNth]
    | x :: xs =>
      rw [everyNth]
      apply List.Sublist.cons_cons
      refine (ih (xs.drop (s - 1)).length ?_ _ rfl).trans (List.drop_sublist _ _)
      subst hn
      simp only [List.length_drop, List.length_cons]; omega

theorem Arr.sliceFrom {g b : ℤ} {l : List ℝ} (h : Arr g b l) (k : ℤ) : Arr g b (sliceFrom l k) :=
  h.sublist (List.drop_sublist _ _)

theorem Arr.sliceTo {g b : ℤ} {l : List ℝ} (h : Arr g b l) (k : ℤ) : Arr g b (sliceTo l k) :=
  h.sublist (List.take_sublist _ _)

theorem Arr.slice {g b : ℤ} {l : List ℝ} (h : Arr g b l) (j k : ℤ) : Arr g b (slice l j k) :=
  h.sublist ((List.drop_sublist _ _).trans (List.take_sublist _ _))

theorem RangePair.g (P : RangePair fl r sum sum') {g b : ℤ} {x : ℝ} (h : Grid g b x) (hg : -1022 ≤ g)
    (hb : b ≤ 1023) : fl x = r x ∧ Grid g b (r x) :=
  ⟨P.agree x (h.mag.range hg hb), h.round (P.binary x)⟩

theorem RangePair.m (P : RangePair fl r sum sum') {a b : ℤ} {x : ℝ} (h : Mag a b x) (ha : -1022 ≤ a)
    (hb : b ≤ 1023) : fl x = r x ∧ Mag a b (r x) :=
  ⟨P.agree x (h.range ha hb), h.round (P.binary x)⟩

theorem RangePair.floatRound (P : RangePair fl r sum sum') : FloatRound r := fun x => isBinary64_rel (P.binary x)

theorem RangePair.s (P : RangePair fl r sum sum') {g b : ℤ} {l : List ℝ} (h : Arr g b l) (hg : -1022 ≤ g)
    (hb : b ≤ 970) : sum l = sum' l ∧ Grid g (b + 47) (sum' l) :=
  P.sum_agree g b l h.1 h.2 hg hb

/-! ## Array operations -/

/-- two computations give the same, and if they succeed the value has the property `Q` -/
def Same {β : Type} (Q : β → Prop) (x y : Py β) : Prop := x = y ∧ ∀ v, y = .ok v → Q v

theorem Same.error {β : Type} {Q : β → Prop} (e : PyErr) : Same Q (.error e) (.error e) :=
  ⟨rfl, fun _ h => by cases h⟩

theorem Same.ok {β : Type} {Q : β → Prop} {v w : β} (h : v = w) (hQ : Q w) : Same Q (.ok v) (.ok w) :=
  ⟨by rw [h], fun _ h => by cases h; exact hQ⟩

theorem Same.bind {α β : Type} {Q : β → Prop} {R : α → Prop} {x y : Py α} {F G : α → Py β} (h : Same R x y)
    (K : ∀ v, R v → Same Q (F v) (G v)) : Same Q (x >>= F) (y >>= G) := by
  obtain ⟨rfl, h⟩ := h
  cases x with
  | error e => exact Same.error e
  | ok v => exact K v (h v rfl)

theorem Same.mono {β : Type} {Q R : β → Prop} {x y : Py β} (h : Same Q x y) (hQ : ∀ v, Q v → R v) : Same R x y :=
  ⟨h.1, fun v hv => hQ v (h.2 v hv)⟩

theorem sliceStep_bind {β : Type} {Q : β → Prop} {g b : ℤ} {l : List ℝ} (h : Arr g b l) (k : ℤ) (s : ℕ)
    {F G : List ℝ → Py β} (K : ∀ l', Arr g b l' → Same Q (F l') (G l')) :
    Same Q (sliceStep l k s >>= F) (sliceStep l k s >>= G) := by
  unfold sliceStep
  split_ifs
  · exact Same.error _
  · exact K _ ((h.sliceFrom k).sublist (everyNth_sublist _ _))

/-- element-wise operations -/
theorem vop_same {α β γ : Type} {A : α → Prop} {B : β → Prop} {C : γ → Prop} {f f' : α → β → γ} {a : List α}
    {c : List β} {L : ℕ} (hla : a.length ≤ L) (hlc : c.length ≤ L) (ha : ∀ u ∈ a, A u) (hc : ∀ v ∈ c, B v)
    (H : ∀ u v, A u → B v → f u v = f' u v ∧ C (f' u v)) :
    Same (fun l => l.length ≤ L ∧ ∀ w ∈ l, C w) (vop f a c) (vop f' a c) := by
  have zw : List.zipWith f a c = List.zipWith f' a c := by
    apply List.ext_getElem
    · simp
    · intro i h1 h2
      rw [List.getElem_zipWith, List.getElem_zipWith]
      exact (H _ _ (ha _ (List.getElem_mem _)) (hc _ (List.getElem_mem _))).1
  unfold vop
  by_cases hl : a.length = c.length
  · rw [if_pos hl, if_pos hl]
    refine Same.ok zw ⟨by rw [List.length_zipWith]; exact (min_le_left _ _).trans hla, fun v hv => ?_⟩
    obtain ⟨i, hi, rfl⟩ := List.getElem_of_mem hv
    rw [List.getElem_zipWith]
    exact (H _ _ (ha _ (List.getElem_mem _)) (hc _ (List.getElem_mem _))).2
  · rw [if_neg hl, if_neg hl]
    split
    · rename_i x
      refine Same.ok (List.map_congr_left fun v hv => (H _ _ (ha x (by simp)) (hc v hv)).1)
        ⟨by simpa using hlc, fun v hv => ?_⟩
      obtain ⟨w, hw, rfl⟩ := List.mem_map.1 hv
      exact (H _ _ (ha x (by simp)) (hc w hw)).2
    · rename_i y _
      refine Same.ok (List.map_congr_left fun v hv => (H _ _ (ha v hv) (hc y (by simp))).1)
        ⟨by simpa using hla, fun v hv => ?_⟩
      obtain ⟨w, hw, rfl⟩ := List.mem_map.1 hv
      exact (H _ _ (ha w hw) (hc y (by simp))).2
    · exact Same.error _

theorem RangePair.vsub (P : RangePair fl r sum sum') {β : Type} {Q : β → Prop} {g b : ℤ} {a c : List ℝ}
    (ha : Arr g b a) (hc : Arr g b c) (hg : -1022 ≤ g) (hb : b ≤ 1022) {F G : List ℝ → Py β}
    (K : ∀ l, Arr g (b + 1) l → Same Q (F l) (G l)) : Same Q (vsub_fl fl a c >>= F) (vsub_fl r a c >>= G) :=
  (vop_same ha.1 hc.1 ha.2 hc.2 (fun _ _ hu hv => P.g (hu.sub hv) hg (by omega))).bind K

theorem RangePair.vadd (P : RangePair fl r sum sum') {β : Type} {Q : β → Prop} {g b : ℤ} {a c : List ℝ}
    (ha : Arr g b a) (hc : Arr g b c) (hg : -1022 ≤ g) (hb : b ≤ 1022) {F G : List ℝ → Py β}
    (K : ∀ l, Arr g (b + 1) l → Same Q (F l) (G l)) : Same Q (vadd_fl fl a c >>= F) (vadd_fl r a c >>= G) :=
  (vop_same ha.1 hc.1 ha.2 hc.2 (fun _ _ hu hv => P.g (hu.add hv) hg (by omega))).bind K

theorem RangePair.vmul (P : RangePair fl r sum sum') {β : Type} {Q : β → Prop} {g b g' b' : ℤ} {a c : List ℝ}
    (ha : Arr g b a) (hc : Arr g' b' c) (hg : -1022 ≤ g + g') (hb : b + b' ≤ 1023) {F G : List ℝ → Py β}
    (K : ∀ l, Arr (g + g') (b + b') l → Same Q (F l) (G l)) :
    Same Q (vmul_fl fl a c >>= F) (vmul_fl r a c >>= G) :=
  (vop_same ha.1 hc.1 ha.2 hc.2 (fun _ _ hu hv => P.g (hu.mul hv) hg hb)).bind K

theorem map_agree {g b g' b' : ℤ} {f f' : ℝ → ℝ} {a : List ℝ} (ha : Arr g b a)
    (H : ∀ u, Grid g b u → f u = f' u ∧ Grid g' b' (f' u)) : a.map f = a.map f' ∧ Arr g' b' (a.map f') := by
  refine ⟨List.map_congr_left fun v hv => (H v (ha.2 v hv)).1, by simpa using ha.1, fun v hv => ?_⟩
  obtain ⟨w, hw, rfl⟩ := List.mem_map.1 hv
  exact (H w (ha.2 w hw)).2

theorem RangePair.vscale (P : RangePair fl r sum sum') {g b : ℤ} {n k : ℕ} {a : List ℝ} (ha : Arr g b a)
    (hn : n ≤ 2 ^ k) (hg : -1022 ≤ g) (hb : b + k ≤ 1023) :
    vscale_fl fl n a = vscale_fl r n a ∧ Arr g (b + k) (vscale_fl r n a) := by
  apply map_agree ha
  intro u hu
  apply P.g _ hg hb
  have := (Grid.natCast hn).mul hu
  rwa [zero_add, add_comm] at this

theorem RangePair.vscale2 (P : RangePair fl r sum sum') {g b : ℤ} {a : List ℝ} (ha : Arr g b a)
    (hg : -1022 ≤ g) (hb : b ≤ 1000) :
    vscale_fl fl 2 a = vscale_fl r 2 a ∧ Arr g (b + 1) (vscale_fl r 2 a) := by
  have := P.vscale (n := 2) (k := 1) ha (by norm_num) hg (by push_cast; omega)
  simpa using this

theorem RangePair.vscale3 (P : RangePair fl r sum sum') {g b : ℤ} {a : List ℝ} (ha : Arr g b a)
    (hg : -1022 ≤ g) (hb : b ≤ 1000) :
    vscale_fl fl 3 a = vscale_fl r 3 a ∧ Arr g (b + 2) (vscale_fl r 3 a) := by
  have := P.vscale (n := 3) (k := 2) ha (by norm_num) hg (by push_cast; omega)
  simpa using this

theorem RangePair.cumsum_aux (P : RangePair fl r sum sum') {g b : ℤ} (hg : -1022 ≤ g) (hb : b ≤ 970) (l : List ℝ) :
    ∀ (c : ℝ) (n : ℕ), n + l.length ≤ 2 ^ 47 → (∀ v ∈ l, Grid g b v) → OnGrid g c → |c| ≤ n * (2 : ℝ) ^ b →
      cumsum_fl fl c l = cumsum_fl r c l ∧ ∀ v ∈ cumsum_fl r c l, Grid g (b + 47) v := by
  induction l with
  | nil => intro c n _ _ _ _; simp [cumsum_fl]
  | cons v vs ih =>
    intro c n hn hv hc hcb
    simp only [List.length_cons] at hn
    have hv0 := hv v (by simp)
    have h1 : OnGrid g (c + v) := hc.add hv0.1
    have h2 : |c + v| ≤ ((n + 1 : ℕ) : ℝ) * (2 : ℝ) ^ b := by
      refine (abs_add_le _ _).trans ?_
      push_cast
      linarith [hv0.2]
    have h3 : ((n + 1 : ℕ) : ℝ) * (2 : ℝ) ^ b ≤ (2 : ℝ) ^ (b + 47) := by
      rw [add_comm b, two_zpow_add]
      apply mul_le_mul_of_nonneg_right _ (two_zpow_pos b).le
      have : n + 1 ≤ 2 ^ 47 := by omega
      exact_mod_cast this
    obtain ⟨e, h4⟩ := P.g (⟨h1, h2.trans h3⟩ : Grid g (b + 47) (c + v)) hg (by omega)
    have h5 := isBinary64_abs_le (P.binary (c + v)) (by omega) h2
    obtain ⟨e', h6⟩ := ih (r (c + v)) (n + 1) (by omega) (fun w hw => hv w (by simp [hw])) h4.1 h5
    simp only [cumsum_fl, e, e']
    refine ⟨trivial, fun w hw => ?_⟩
    rcases List.mem_cons.1 hw with rfl | hw
    · exact h4
    · exact h6 w hw

theorem cumsum_fl_length (l : List ℝ) : ∀ c, (cumsum_fl r c l).length = l.length := by
  induction l with
  | nil => intro c; rfl
  | cons v vs ih => intro c; simp [cumsum_fl, ih]

theorem RangePair.cumsum (P : RangePair fl r sum sum') {g b : ℤ} {a : List ℝ} (ha : Arr g b a)
    (hg : -1022 ≤ g) (hb : b ≤ 970) :
    npCumsum_fl fl a = npCumsum_fl r a ∧ Arr g (b + 47) (npCumsum_fl r a) := by
  match a, ha with
  | [], _ => exact ⟨rfl, by simp [npCumsum_fl], by simp [npCumsum_fl]⟩
  | v :: vs, ha =>
    have h0 := ha.2 v (by simp)
    have hl := ha.1
    simp only [List.length_cons] at hl
    obtain ⟨e, h⟩ := P.cumsum_aux hg hb vs v 1 (by omega) (fun w hw => ha.2 w (by simp [hw])) h0.1
      (by simpa using h0.2)
    simp only [npCumsum_fl, e]
    refine ⟨trivial, by simp only [List.length_cons, cumsum_fl_length]; omega, fun w hw => ?_⟩
    rcases List.mem_cons.1 hw with rfl | hw
    · exact h0.mono le_rfl (by omega)
    · exact h w hw

theorem Mag.two : Mag 0 1 2 := Or.inr (by norm_num)

/-! ## The deviations -/

theorem Arr.len_le {g b : ℤ} {l : List ℝ} (h : Arr g b l) : l.length ≤ 2 ^ 47 := h.1

/-- the end of `calc_adev_phase`: from the sum of squares to the deviation and its error bar -/
theorem RangePair.adev_tail (P : RangePair fl r sum sum') {s rate : ℝ} (hs : Grid (-686) 600 s) (n m : ℕ)
    (hn : n ≤ 2 ^ 47) (hm : m ≤ 2 ^ 47) (hr : Mag (-40) 40 rate) :
    fl (fl (fl √(fl (s / fl (2 * n))) / m) * rate) = r (r (r √(r (s / r (2 * n))) / m) * rate) ∧
    fl (fl (fl (fl √(fl (s / fl (2 * n))) / m) * rate) / fl √n) =
      r (r (r (r √(r (s / r (2 * n))) / m) * rate) / r √n) := by
  have n1 := Mag.natCast hn
  have m1 := Mag.natCast hm
  obtain ⟨e1, h1⟩ := P.m (Mag.two.mul n1) (by norm_num) (by norm_num)
  obtain ⟨e2, h2⟩ := P.m (hs.mag.div h1) (by norm_num) (by norm_num)
  obtain ⟨e3, h3⟩ := P.m (Mag.sqrt (a := -367) (b := 300) (h2.mono (by norm_num) (by norm_num)))
    (by norm_num) (by norm_num)
  obtain ⟨e4, h4⟩ := P.m (h3.div m1) (by norm_num) (by norm_num)
  obtain ⟨e5, h5⟩ := P.m (h4.mul hr) (by norm_num) (by norm_num)
  obtain ⟨e6, h6⟩ := P.m (Mag.sqrt (a := 0) (b := 24) (n1.mono (by norm_num) (by norm_num)))
    (by norm_num) (by norm_num)
  obtain ⟨e7, h7⟩ := P.m (h5.div h6) (by norm_num) (by norm_num)
  rw [e1, e2, e3, e4, e5, e6, e7]
  exact ⟨rfl, rfl⟩

theorem RangePair.calc_adev (P : RangePair fl r sum sum') {phase : List ℝ} {rate : ℝ}
    (hp : Arr (-343) 240 phase) (hr : Mag (-40) 40 rate) (m s : ℕ) (hm : m ≤ 2 ^ 47) :
    Same (fun _ => True) (calc_adev_phase_fl fl sum phase rate m s) (calc_adev_phase_fl r sum' phase rate m s) := by
  unfold calc_adev_phase_fl
  refine sliceStep_bind hp _ _ fun d2 h2 => ?_
  refine sliceStep_bind hp _ _ fun d1 h1 => ?_
  refine sliceStep_bind hp _ _ fun d0 h0 => ?_
  dsimp only
  generalize hn : (if min (min d0.length d1.length) d2.length = 0 then 1
    else min (min d0.length d1.length) d2.length) = n
  have hn' : n ≤ 2 ^ 47 := by
    have := h0.len_le
    split_ifs at hn <;> omega
  obtain ⟨e, h1'⟩ := P.vscale2 (h1.sliceTo n)  (by norm_num) (by norm_num)
  rw [e]
  refine P.vsub ((h2.sliceTo n).mono le_rfl (by norm_num)) h1' (by norm_num) (by norm_num) fun a ha => ?_
  refine P.vadd ha ((h0.sliceTo n).mono le_rfl (by norm_num)) (by norm_num) (by norm_num) fun v hv => ?_
  refine P.vmul hv hv (by norm_num) (by norm_num) fun sq hsq => ?_
  obtain ⟨es, hs⟩ := P.s hsq (by norm_num) (by norm_num)
  obtain ⟨t1, t2⟩ := P.adev_tail (hs.mono (by norm_num) (by norm_num)) n m hn' hm hr
  rw [es, t2, t1]
  exact Same.ok rfl trivial

theorem RangePair.calc_hdev (P : RangePair fl r sum sum') {phase : List ℝ} {rate : ℝ}
    (hp : Arr (-343) 240 phase) (hr : Mag (-40) 40 rate) (m s : ℕ) (hm : m ≤ 2 ^ 47) :
    Same (fun _ => True) (calc_hdev_phase_fl fl sum phase rate m s) (calc_hdev_phase_fl r sum' phase rate m s) := by
  unfold calc_hdev_phase_fl
  split_ifs
  · exact Same.error _
  refine sliceStep_bind hp _ _ fun d3 h3 => ?_
  refine sliceStep_bind hp _ _ fun d2 h2 => ?_
  refine sliceStep_bind hp _ _ fun d1 h1 => ?_
  refine sliceStep_bind hp _ _ fun d0 h0 => ?_
  dsimp only
  generalize hn : min (min (min d0.length d1.length) d2.length) d3.length = n
  have hn0 : n ≤ 2 ^ 47 := by
    have := h0.len_le
    omega
  obtain ⟨e2, h2'⟩ := P.vscale3 (h2.sliceTo n)  (by norm_num) (by norm_num)
  obtain ⟨e1, h1'⟩ := P.vscale3 (h1.sliceTo n)  (by norm_num) (by norm_num)
  rw [e2, e1]
  refine P.vsub ((h3.sliceTo n).mono le_rfl (by norm_num)) h2' (by norm_num) (by norm_num) fun a ha => ?_
  refine P.vadd ha (h1'.mono le_rfl (by norm_num)) (by norm_num) (by norm_num) fun a ha => ?_
  refine P.vsub ha ((h0.sliceTo n).mono le_rfl (by norm_num)) (by norm_num) (by norm_num) fun v hv => ?_
  refine P.vmul hv hv (by norm_num) (by norm_num) fun sq hsq => ?_
  obtain ⟨es, hs⟩ := P.s hsq (by norm_num) (by norm_num)
  rw [es]
  generalize hk : (if n = 0 then 1 else n) = k
  have hk' : k ≤ 2 ^ 47 := by split_ifs at hk <;> omega
  have n1 := Mag.natCast hk'
  have m1 := Mag.natCast hm
  have six : Mag 0 3 6 := Or.inr (by norm_num)
  obtain ⟨f1, g1⟩ := P.m (Mag.one.div hr) (by norm_num) (by norm_num)
  obtain ⟨f2, g2⟩ := P.m (g1.mul m1) (by norm_num) (by norm_num)
  obtain ⟨f3, g3⟩ := P.m (hs.mag.div six) (by norm_num) (by norm_num)
  obtain ⟨f4, g4⟩ := P.m (g3.div n1) (by norm_num) (by norm_num)
  obtain ⟨f5, g5⟩ := P.m (Mag.sqrt (a := -370) (b := 300) (g4.mono (by norm_num) (by norm_num)))
    (by norm_num) (by norm_num)
  obtain ⟨f6, g6⟩ := P.m (g5.div g2) (by norm_num) (by norm_num)
  obtain ⟨f7, g7⟩ := P.m (Mag.sqrt (a := 0) (b := 24) (n1.mono (by norm_num) (by norm_num)))
    (by norm_num) (by norm_num)
  obtain ⟨f8, g8⟩ := P.m (g6.div g7) (by norm_num) (by norm_num)
  rw [f1, f2, f3, f4, f5, f6, f7, f8]
  exact Same.ok rfl trivial

theorem RangePair.mdev_body (P : RangePair fl r sum sum') {phase taus : List ℝ}
    (hp : Arr (-343) 240 phase) (ht : ∀ t ∈ taus, Mag (-40) 87 t) (i m : ℕ) (hm : m ≤ 2 ^ 47) :
    Same (fun row => Mag (-510) 400 row.1 ∧ Mag 0 48 (row.2.2 : ℝ)) (mdev_body_fl fl sum phase taus i m)
      (mdev_body_fl r sum' phase taus i m) := by
  unfold mdev_body_fl
  have hget : pyGet taus (i : ℤ) = .error .indexError ∨ ∃ t ∈ taus, pyGet taus (i : ℤ) = .ok t := by
    unfold pyGet
    simp only [if_neg (by omega : ¬ ((i : ℤ) < 0)), Int.toNat_natCast]
    cases h : taus[i]? with
    | none => left; rfl
    | some v => right; exact ⟨v, List.mem_of_getElem? h, rfl⟩
  rcases hget with e | ⟨t, htm, e⟩
  · rw [e, error_bind, error_bind]; exact Same.error _
  rw [e, ok_bind, ok_bind]
  have ht := ht t htm
  dsimp only
  generalize min (min (slice phase ((0 : ℕ) : ℤ) (m : ℕ)).length (slice phase (m : ℕ) ((2 * m : ℕ) : ℤ)).length)
    (slice phase ((2 * m : ℕ) : ℤ) ((3 * m : ℕ) : ℤ)).length = n1
  generalize hn : min (min (min (sliceFrom phase ((0 : ℕ) : ℤ)).length (sliceFrom phase ((1 * m : ℕ) : ℤ)).length)
    (sliceFrom phase ((2 * m : ℕ) : ℤ)).length) (sliceFrom phase ((3 * m : ℕ) : ℤ)).length = n2
  have hn2 : n2 + 1 ≤ 2 ^ 48 := by
    have := (hp.sliceFrom ((0 : ℕ) : ℤ)).len_le
    omega
  obtain ⟨e1, h1⟩ := P.vscale2 ((hp.slice (m : ℕ) ((2 * m : ℕ) : ℤ)).sliceTo n1) (by norm_num) (by norm_num)
  obtain ⟨e2, h2⟩ := P.vscale3 ((hp.sliceFrom ((2 * m : ℕ) : ℤ)).sliceTo n2) (by norm_num) (by norm_num)
  obtain ⟨e3, h3⟩ := P.vscale3 ((hp.sliceFrom ((1 * m : ℕ) : ℤ)).sliceTo n2) (by norm_num) (by norm_num)
  rw [e1, e2, e3]
  refine P.vsub (((hp.slice _ _).sliceTo _).mono le_rfl (by norm_num)) h1 (by norm_num) (by norm_num)
    fun a ha => ?_
  refine P.vadd ha (((hp.slice _ _).sliceTo _).mono le_rfl (by norm_num)) (by norm_num) (by norm_num)
    fun a ha => ?_
  obtain ⟨es, hs⟩ := P.s ha (by norm_num) (by norm_num)
  rw [es]
  obtain ⟨ev, hv⟩ := P.g (hs.mul hs) (by norm_num) (by norm_num)
  rw [ev]
  refine P.vsub (((hp.sliceFrom _).sliceTo _).mono le_rfl (by norm_num)) h2 (by norm_num) (by norm_num)
    fun c hc => ?_
  refine P.vadd hc (h3.mono le_rfl (by norm_num)) (by norm_num) (by norm_num) fun c hc => ?_
  refine P.vsub hc (((hp.sliceFrom _).sliceTo _).mono le_rfl (by norm_num)) (by norm_num) (by norm_num)
    fun c hc => ?_
  obtain ⟨ec, hcs⟩ := P.cumsum hc (by norm_num) (by norm_num)
  rw [ec]
  obtain ⟨em, hms⟩ := map_agree (g' := -343) (b' := 300) (f := fun c => fl (sum' a + c)) (f' := fun c => r (sum' a + c)) hcs
    (fun u hu => P.g (((hs.mono (g' := -343) (b' := 299) (by norm_num) (by norm_num)).add
      (hu.mono (by norm_num) (by norm_num))).mono (by norm_num) (by norm_num)) (by norm_num) (by norm_num))
  rw [em]
  refine P.vmul hms hms (by norm_num) (by norm_num) fun sq hsq => ?_
  obtain ⟨eq, hq⟩ := P.s hsq (by norm_num) (by norm_num)
  rw [eq]
  have n1 := Mag.natCast hn2
  have m1 := Mag.natCast hm
  obtain ⟨f0, g0⟩ := P.g ((hv.mono (g' := -686) (b' := 660) (by norm_num) (by norm_num)).add
    (hq.mono (by norm_num) (by norm_num))) (by norm_num) (by norm_num)
  obtain ⟨f1, g1⟩ := P.m (Mag.two.mul m1) (by norm_num) (by norm_num)
  obtain ⟨f2, g2⟩ := P.m (g1.mul m1) (by norm_num) (by norm_num)
  obtain ⟨f3, g3⟩ := P.m (g2.mul ht) (by norm_num) (by norm_num)
  obtain ⟨f4, g4⟩ := P.m (g3.mul ht) (by norm_num) (by norm_num)
  obtain ⟨f5, g5⟩ := P.m (g4.mul n1) (by norm_num) (by norm_num)
  obtain ⟨f6, g6⟩ := P.m (g0.mag.div g5) (by norm_num) (by norm_num)
  obtain ⟨f7, g7⟩ := P.m (Mag.sqrt (a := -510) (b := 400) (g6.mono (by norm_num) (by norm_num)))
    (by norm_num) (by norm_num)
  obtain ⟨f8, g8⟩ := P.m (Mag.sqrt (a := 0) (b := 24) (n1.mono (by norm_num) (by norm_num)))
    (by norm_num) (by norm_num)
  obtain ⟨f9, g9⟩ := P.m (g7.div g8) (by norm_num) (by norm_num)
  rw [f0, f1, f2, f3, f4, f5, f6, f7, f8, f9]
  exact Same.ok rfl ⟨g7, by exact_mod_cast n1⟩

end AT
