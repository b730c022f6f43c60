import Verif.Lemmas.FloatRangeRun
import Verif.Model.FloatMore

/-!
# The other rounded deviations stay in the normal range
-/

namespace AT

open Spec

variable {fl r : ℝ → ℝ} {sum sum' : List ℝ → ℝ}

theorem Same.refl {β : Type} {Q : β → Prop} {x : Py β} (h : ∀ v, x = .ok v → Q v) : Same Q x x := ⟨rfl, h⟩

theorem Grid.intCast {k : ℤ} {b : ℕ} (h : |k| ≤ 2 ^ b) : Grid 0 b (k : ℝ) := by
  refine ⟨⟨k, by simp⟩, ?_⟩
  rw [zpow_natCast]
  exact_mod_cast h

theorem Grid.half {g b : ℤ} {x : ℝ} (h : Grid g b x) : Grid (g - 1) b (x / 2) := by
  have h2 : Grid (-1) (-1) (2⁻¹ : ℝ) := ⟨⟨1, by norm_num⟩, by norm_num⟩
  have := h.mul h2
  rw [div_eq_mul_inv]
  exact this.mono (by omega) (by omega)

theorem pyGet_same {l : List ℝ} {R : ℝ → Prop} (h : ∀ v ∈ l, R v) (i : ℤ) : Same R (pyGet l i) (pyGet l i) := by
  refine Same.refl fun v hv => ?_
  unfold pyGet at hv
  dsimp only at hv
  split_ifs at hv <;> split at hv <;> cases hv
  all_goals exact h _ (List.mem_of_getElem? (by assumption))

theorem npMax_same {l : List ℝ} {R : ℝ → Prop} (h : ∀ v ∈ l, R v) : Same R (npMax l) (npMax l) := by
  refine Same.refl fun v hv => ?_
  cases l with
  | nil => cases hv
  | cons a l =>
    cases hv
    induction l generalizing a with
    | nil => exact h a (by simp)
    | cons b l ih =>
      simp only [List.foldl_cons]
      apply ih
      intro v hv
      rcases List.mem_cons.1 hv with rfl | hv
      · rcases max_choice a b with e | e <;> rw [e] <;> exact h _ (by simp)
      · exact h v (by simp [hv])

theorem npMin_same {l : List ℝ} {R : ℝ → Prop} (h : ∀ v ∈ l, R v) : Same R (npMin l) (npMin l) := by
  refine Same.refl fun v hv => ?_
  cases l with
  | nil => cases hv
  | cons a l =>
    cases hv
    induction l generalizing a with
    | nil => exact h a (by simp)
    | cons b l ih =>
      simp only [List.foldl_cons]
      apply ih
      intro v hv
      rcases List.mem_cons.1 hv with rfl | hv
      · rcases min_choice a b with e | e <;> rw [e] <;> exact h _ (by simp)
      · exact h v (by simp [hv])

theorem forRange_same {σ : Type} {n : ℕ} {init : σ} {f f' : σ → ℕ → Py σ} (Inv : ℕ → σ → Prop) (h0 : Inv 0 init)
    (H : ∀ i < n, ∀ s, Inv i s → Same (Inv (i + 1)) (f s i) (f' s i)) :
    Same (Inv n) (forRange n init f) (forRange n init f') := by
  induction n with
  | zero => exact Same.ok rfl h0
  | succ n ih =>
    have := ih fun i hi => H i (by omega)
    unfold forRange at *
    rw [List.range_succ, List.foldlM_append, List.foldlM_append]
    refine this.bind fun s hs => ?_
    simp only [List.foldlM_cons, List.foldlM_nil]
    exact (H n (by omega) s hs).bind fun v hv => Same.ok rfl hv

/-! ## Running sums -/

/-- a multiple of `2^g` of at most `n * 2^b` -/
def Acc (g b : ℤ) (n : ℕ) (c : ℝ) : Prop := OnGrid g c ∧ |c| ≤ n * (2 : ℝ) ^ b

theorem Acc.zero (g b : ℤ) : Acc g b 0 0 := ⟨⟨0, by simp⟩, by simp⟩

theorem Acc.grid {g b : ℤ} {n k : ℕ} {c : ℝ} (h : Acc g b n c) (hn : n ≤ 2 ^ k) : Grid g (b + k) c := by
  refine ⟨h.1, h.2.trans ?_⟩
  rw [add_comm b, two_zpow_add]
  apply mul_le_mul_of_nonneg_right _ (two_zpow_pos b).le
  rw [zpow_natCast]
  exact_mod_cast hn

theorem RangePair.acc (P : RangePair fl r sum sum') {g b : ℤ} {n : ℕ} {c v : ℝ} (h : Acc g b n c)
    (hv : Grid g b v) (hn : n < 2 ^ 47) (hg : -1022 ≤ g) (hb : b ≤ 970) :
    fl (c + v) = r (c + v) ∧ Acc g b (n + 1) (r (c + v)) := by
  have h1 : Acc g b (n + 1) (c + v) := by
    refine ⟨h.1.add hv.1, (abs_add_le _ _).trans ?_⟩
    push_cast
    linarith [hv.2, h.2]
  obtain ⟨e, h4⟩ := P.g (h1.grid (k := 47) (by omega)) hg (by push_cast; omega)
  exact ⟨e, h4.1, isBinary64_abs_le (P.binary (c + v)) (by omega) h1.2⟩

theorem RangePair.pySum_aux (P : RangePair fl r sum sum') {g b : ℤ} (hg : -1022 ≤ g) (hb : b ≤ 970) (l : List ℝ) :
    ∀ (c : ℝ) (n : ℕ), n + l.length ≤ 2 ^ 47 → (∀ v ∈ l, Grid g b v) → Acc g b n c →
      l.foldl (fun s v => fl (s + v)) c = l.foldl (fun s v => r (s + v)) c ∧
        Grid g (b + 47) (l.foldl (fun s v => r (s + v)) c) := by
  induction l with
  | nil => intro c n hn _ hc; exact ⟨rfl, hc.grid (k := 47) (by simpa using hn)⟩
  | cons v vs ih =>
    intro c n hn hv hc
    simp only [List.length_cons] at hn
    obtain ⟨e, h⟩ := P.acc hc (hv v (by simp)) (by omega) hg hb
    simp only [List.foldl_cons, e]
    exact ih _ (n + 1) (by omega) (fun w hw => hv w (by simp [hw])) h

theorem RangePair.pySum (P : RangePair fl r sum sum') {g b : ℤ} {l : List ℝ} (h : Arr g b l) (hg : -1022 ≤ g)
    (hb : b ≤ 970) : pySum_fl fl l = pySum_fl r l ∧ Grid g (b + 47) (pySum_fl r l) :=
  P.pySum_aux hg hb l 0 0 (by simpa using h.1) h.2 (Acc.zero g b)

/-! ## `tierms` and `mtie` -/

theorem RangePair.tierms_body (P : RangePair fl r sum sum') {phase : List ℝ} (hp : Arr (-343) 240 phase) (m : ℕ)
    (hm : m ≤ 2 ^ 47) :
    Same (fun _ => True) (tierms_body_fl fl sum phase m) (tierms_body_fl r sum' phase m) := by
  unfold tierms_body_fl column_stack
  by_cases hl : (sliceTo phase (-(m : ℤ))).length = (sliceFrom phase (m : ℕ)).length
  swap
  · rw [if_neg hl]; exact Same.error _
  rw [if_pos hl]
  simp only [ok_bind]
  have hmem : ∀ p ∈ (sliceTo phase (-(m : ℤ))).zip (sliceFrom phase (m : ℕ)),
      Grid (-343) 240 p.1 ∧ Grid (-343) 240 p.2 := fun p hp' =>
    ⟨(hp.sliceTo _).2 _ (List.of_mem_zip hp').1, (hp.sliceFrom _).2 _ (List.of_mem_zip hp').2⟩
  have hlen : ((sliceTo phase (-(m : ℤ))).zip (sliceFrom phase (m : ℕ))).length ≤ 2 ^ 47 := by
    rw [List.length_zip]
    exact (min_le_left _ _).trans (hp.sliceTo _).1
  generalize (sliceTo phase (-(m : ℤ))).zip (sliceFrom phase (m : ℕ)) = z at *
  have hmax : Arr (-343) 240 (z.map (fun p => max p.1 p.2)) := by
    refine ⟨by simpa using hlen, fun v hv => ?_⟩
    obtain ⟨p, hp, rfl⟩ := List.mem_map.1 hv
    rcases max_choice p.1 p.2 with e | e <;> rw [e]
    · exact (hmem p hp).1
    · exact (hmem p hp).2
  have hmin : Arr (-343) 240 (z.map (fun p => min p.1 p.2)) := by
    refine ⟨by simpa using hlen, fun v hv => ?_⟩
    obtain ⟨p, hp, rfl⟩ := List.mem_map.1 hv
    rcases min_choice p.1 p.2 with e | e <;> rw [e]
    · exact (hmem p hp).1
    · exact (hmem p hp).2
  refine P.vsub hmax hmin (by norm_num) (by norm_num) fun v hv => ?_
  refine P.vmul hv hv (by norm_num) (by norm_num) fun sq hsq => ?_
  obtain ⟨es, hs⟩ := P.s hsq (by norm_num) (by norm_num)
  have n1 := Mag.natCast hsq.1
  obtain ⟨e1, h1⟩ := P.m (hs.mag.div n1) (by norm_num) (by norm_num)
  obtain ⟨e2, h2⟩ := P.m (Mag.sqrt (a := -367) (b := 300) (h1.mono (by norm_num) (by norm_num)))
    (by norm_num) (by norm_num)
  have hk : |(phase.length : ℤ) - m| ≤ 2 ^ 48 := by
    have := hp.1
    rw [abs_le]; omega
  obtain ⟨e3, h3⟩ := P.m (Mag.sqrt (a := 0) (b := 24) ((Grid.intCast hk).mag.mono (by norm_num) (by norm_num)))
    (by norm_num) (by norm_num)
  have e4 : fl 0 = r 0 := P.agree 0 (Or.inl rfl)
  rw [es, e1, e2, e3]
  simp only [zero_div, e4]
  exact Same.ok rfl trivial

theorem RangePair.mtie_body (P : RangePair fl r sum sum') {phase : List ℝ} (hp : Arr (-343) 240 phase) (m : ℕ)
    (hm : m ≤ 2 ^ 47) :
    Same (fun _ => True) (mtie_body_fl fl phase m) (mtie_body_fl r phase m) := by
  unfold mtie_body_fl
  have hw : Same (fun rw => rw.length ≤ 2 ^ 47 ∧ ∀ l ∈ rw, ∀ v ∈ l, Grid (-343) 240 v)
      (mtie_rolling_window phase ((m : ℤ) + 1)) (mtie_rolling_window phase ((m : ℤ) + 1)) := by
    refine Same.refl fun rw hrw => ?_
    unfold mtie_rolling_window at hrw
    split_ifs at hrw
    cases hrw
    refine ⟨?_, fun l hl v hv => ?_⟩
    · have := hp.1
      unfold tab
      rw [List.length_map, List.length_range]
      omega
    · obtain ⟨i, _, rfl⟩ := List.mem_map.1 hl
      exact (hp.slice _ _).2 v hv
  refine hw.bind fun rw hrw => ?_
  have mx : ∀ {f : List ℝ → Py ℝ}, (∀ l ∈ rw, Same (Grid (-343) 240) (f l) (f l)) →
      Same (Arr (-343) 240) (rw.mapM f) (rw.mapM f) := by
    intro f hf
    refine Same.refl fun v hv => ⟨?_, (mapM_same rw hf).2 v hv⟩
    have hl : ∀ (l : List (List ℝ)) (v : List ℝ), l.mapM f = .ok v → v.length = l.length := by
      intro l
      induction l with
      | nil => intro v hv; cases hv; rfl
      | cons a l ih =>
        intro v hv
        rw [List.mapM_cons] at hv
        cases h1 : f a with
        | error e => rw [h1, error_bind] at hv; cases hv
        | ok b =>
        cases h2 : l.mapM f with
        | error e => rw [h1, ok_bind, h2, error_bind] at hv; cases hv
        | ok bs =>
          rw [h1, ok_bind, h2, ok_bind] at hv
          cases hv
          simp [ih bs h2]
    rw [hl rw v hv]
    exact hrw.1
  refine (mx fun l hl => npMax_same (hrw.2 l hl)).bind fun a ha => ?_
  refine (mx fun l hl => npMin_same (hrw.2 l hl)).bind fun c hc => ?_
  refine P.vsub ha hc (by norm_num) (by norm_num) fun t ht => ?_
  refine (npMax_same ht.2).bind fun d hd => ?_
  have hk : |(phase.length : ℤ) - m| ≤ 2 ^ 48 := by
    have := hp.1
    rw [abs_le]; omega
  obtain ⟨e3, h3⟩ := P.m (Mag.sqrt (a := 0) (b := 24) ((Grid.intCast hk).mag.mono (by norm_num) (by norm_num)))
    (by norm_num) (by norm_num)
  obtain ⟨e4, h4⟩ := P.m (hd.mag.div h3) (by norm_num) (by norm_num)
  simp only [e3, e4]
  exact Same.ok rfl trivial

/-! ## `gcodev` -/

theorem RangePair.calc_gcodev (P : RangePair fl r sum sum') {p q : List ℝ} {rate : ℝ}
    (hp : Arr (-343) 240 p) (hq : Arr (-343) 240 q) (hr : Mag (-40) 40 rate) (m s : ℕ) (hm : m ≤ 2 ^ 47) :
    Same (fun _ => True) (calc_gcodev_phase_fl fl sum p q rate m s) (calc_gcodev_phase_fl r sum' p q rate m s) := by
  unfold calc_gcodev_phase_fl
  refine sliceStep_bind hp _ _ fun d2 h2 => ?_
  refine sliceStep_bind hp _ _ fun d1 h1 => ?_
  refine sliceStep_bind hp _ _ fun d0 h0 => ?_
  refine sliceStep_bind hq _ _ fun c2 k2 => ?_
  refine sliceStep_bind hq _ _ fun c1 k1 => ?_
  refine sliceStep_bind hq _ _ fun c0 k0 => ?_
  dsimp only
  generalize hn2 : (if min (min d0.length d1.length) d2.length = 0 then 1
    else min (min c0.length c1.length) c2.length) = n2
  generalize hn : (if min (min d0.length d1.length) d2.length = 0 then 1
    else min (min d0.length d1.length) d2.length) = n
  have hn' : n ≤ 2 ^ 47 := by
    have := h0.len_le
    split_ifs at hn <;> omega
  obtain ⟨e, h1'⟩ := P.vscale2 (h1.sliceTo n) (by norm_num) (by norm_num)
  obtain ⟨e', k1'⟩ := P.vscale2 (k1.sliceTo n2) (by norm_num) (by norm_num)
  rw [e, e']
  refine P.vsub ((h2.sliceTo n).mono le_rfl (by norm_num)) h1' (by norm_num) (by norm_num) fun a ha => ?_
  refine P.vadd ha ((h0.sliceTo n).mono le_rfl (by norm_num)) (by norm_num) (by norm_num) fun v hv => ?_
  refine P.vsub ((k2.sliceTo n2).mono le_rfl (by norm_num)) k1' (by norm_num) (by norm_num) fun a ha => ?_
  refine P.vadd ha ((k0.sliceTo n2).mono le_rfl (by norm_num)) (by norm_num) (by norm_num) fun w hw => ?_
  refine P.vmul hv hw (by norm_num) (by norm_num) fun sq hsq => ?_
  obtain ⟨es, hs⟩ := P.s hsq (by norm_num) (by norm_num)
  have hs' : Grid (-686) 600 (sum' sq) := hs.mono (by norm_num) (by norm_num)
  have habs : Grid (-686) 600 |sum' sq| := by
    rcases abs_choice (sum' sq) with e | e <;> rw [e]
    · exact hs'
    · exact hs'.neg
  obtain ⟨t1, t2⟩ := P.adev_tail hs' n m hn' hm hr
  obtain ⟨u1, u2⟩ := P.adev_tail habs n m hn' hm hr
  rw [es]
  by_cases h0 : 0 ≤ sum' sq
  · simp only [if_pos h0]
    rw [t2, t1]
    exact Same.ok rfl trivial
  · simp only [if_neg h0]
    rw [u2, u1]
    exact Same.ok rfl trivial

/-! ## `totdev` -/

theorem RangePair.scaledOnes (P : RangePair fl r sum sum') {b : ℤ} {c : ℝ} (hc : Grid (-343) b c) (hb : b ≤ 1000)
    (n : ℤ) (hn : n ≤ 2 ^ 47) :
    Same (Arr (-343) (b + 1)) (scaledOnes_fl fl (fl (2 * c)) n) (scaledOnes_fl r (r (2 * c)) n) := by
  unfold scaledOnes_fl
  have h2 : Grid 0 1 (2 : ℝ) := ⟨⟨2, by norm_num⟩, by norm_num⟩
  obtain ⟨e1, h1⟩ := P.g (h2.mul hc) (by norm_num) (by omega)
  obtain ⟨e3, h3⟩ := P.g h1 (by norm_num) (by omega)
  split_ifs
  · exact Same.error _
  · rw [mul_one, mul_one, e1, e3]
    refine Same.ok rfl ⟨by rw [List.length_replicate]; omega, fun v hv => ?_⟩
    rw [(List.mem_replicate.1 hv).2]
    exact h3.mono (by norm_num) (by omega)

theorem Arr.reverse {g b : ℤ} {l : List ℝ} (h : Arr g b l) : Arr g b l.reverse :=
  ⟨by simpa using h.1, fun v hv => h.2 v (List.mem_reverse.1 hv)⟩

theorem normIdx_le (n : ℕ) (i : ℤ) : normIdx n i ≤ n := by
  unfold normIdx
  split_ifs <;> omega

theorem setSlice_same {g b : ℤ} {xs ys : List ℝ} (hx : Arr g b xs) (hy : Arr g b ys) (i j : ℤ) :
    Same (Arr g b) (setSlice xs i j ys) (setSlice xs i j ys) := by
  refine Same.refl fun v hv => ?_
  unfold setSlice at hv
  dsimp only at hv
  have l1 := normIdx_le xs.length i
  have l2 := normIdx_le xs.length j
  generalize normIdx xs.length i = lo at *
  generalize normIdx xs.length j = hi at *
  have key : ∀ zs : List ℝ, zs.length = max lo hi - lo → (∀ v ∈ zs, Grid g b v) →
      Arr g b (xs.take lo ++ zs ++ xs.drop (max lo hi)) := by
    intro zs hz hg
    refine ⟨?_, fun w hw => ?_⟩
    · have := hx.1
      simp only [List.length_append, List.length_take, List.length_drop, hz]
      omega
    · rcases List.mem_append.1 hw with hw | hw
      · rcases List.mem_append.1 hw with hw | hw
        · exact hx.2 w (List.mem_of_mem_take hw)
        · exact hg w hw
      · exact hx.2 w (List.mem_of_mem_drop hw)
  split_ifs at hv with h1
  · cases hv
    exact key ys h1 hy.2
  · split at hv
    · cases hv
      refine key _ (by simp) fun w hw => ?_
      rw [(List.mem_replicate.1 hw).2]
      exact hy.2 _ (by simp)
    · cases hv

theorem RangePair.totdev_extend (P : RangePair fl r sum sum') {phase : List ℝ} (hp : Arr (-343) 240 phase)
    (hN : phase.length ≤ 2 ^ 45) :
    Same (fun o => Arr (-343) 243 o.1 ∧ o.2 ≤ 2 ^ 47) (totdev_extend_fl fl phase) (totdev_extend_fl r phase) := by
  unfold totdev_extend_fl
  refine (pyGet_same hp.2 _).bind fun first hf => ?_
  refine (P.scaledOnes hf (by norm_num) _ (by omega)).bind fun x1 h1 => ?_
  refine P.vsub h1 ((hp.slice _ _).mono (by norm_num) (by norm_num)) (by norm_num) (by norm_num) fun x1 h1 => ?_
  refine (pyGet_same hp.2 _).bind fun last hl => ?_
  refine (P.scaledOnes hl (by norm_num) _ (by omega)).bind fun x2 h2 => ?_
  refine P.vsub h2 ((hp.slice _ _).reverse.mono (by norm_num) (by norm_num)) (by norm_num) (by norm_num)
    fun x2 h2 => ?_
  refine Same.bind (R := fun _ => True) (Same.refl fun _ _ => trivial) fun _ _ => ?_
  refine Same.bind (R := Arr (-343) 243) (Same.refl fun x hx => ?_) fun x hx => ?_
  · unfold AT.scaledOnes at hx
    split_ifs at hx
    cases hx
    refine ⟨by rw [List.length_replicate]; omega, fun v hv => ?_⟩
    rw [(List.mem_replicate.1 hv).2]
    exact Grid.zero _ _
  refine (setSlice_same hx (h1.reverse.mono (by norm_num) (by norm_num)) _ _).bind fun x hx => ?_
  refine (setSlice_same hx (hp.mono (by norm_num) (by norm_num)) _ _).bind fun x hx => ?_
  refine (setSlice_same hx (h2.mono (by norm_num) (by norm_num)) _ _).bind fun x hx => ?_
  exact Same.ok rfl ⟨hx, by simpa using h1.1⟩

theorem RangePair.totdev_body (P : RangePair fl r sum sum') {x : List ℝ} {rate : ℝ} (hx : Arr (-343) 243 x)
    (hr : Mag (-40) 40 rate) (mid N m : ℕ) (hmid : mid ≤ 2 ^ 47) (hN : N ≤ 2 ^ 47) (hm : m ≤ 2 ^ 47) :
    Same (fun _ => True) (totdev_body_fl fl sum x mid N rate m) (totdev_body_fl r sum' x mid N rate m) := by
  unfold totdev_body_fl
  dsimp only
  generalize min (min (sliceFrom x ((mid : ℤ) + 1)).length (sliceFrom x ((mid : ℤ) + m + 1)).length)
    (sliceFrom x ((mid : ℤ) - m + 1)).length = e
  obtain ⟨e1, h1⟩ := P.vscale2 ((hx.sliceFrom ((mid : ℤ) + 1)).sliceTo e) (by norm_num) (by norm_num)
  rw [e1]
  refine P.vsub (((hx.sliceFrom _).sliceTo _).mono le_rfl (by norm_num)) h1 (by norm_num) (by norm_num)
    fun a ha => ?_
  refine P.vadd ha (((hx.sliceFrom _).sliceTo _).mono le_rfl (by norm_num)) (by norm_num) (by norm_num)
    fun v hv => ?_
  refine P.vmul (hv.sliceTo _) (hv.sliceTo _) (by norm_num) (by norm_num) fun sq hsq => ?_
  obtain ⟨es, hs⟩ := P.s hsq (by norm_num) (by norm_num)
  have m1 := Mag.natCast hm
  have d1 := Mag.natCast hmid
  have n1 : Mag 0 48 ((N : ℝ) - 2) := by
    have hk : |(N : ℤ) - 2| ≤ 2 ^ 48 := by rw [abs_le]; omega
    have := (Grid.intCast hk).mag
    push_cast at this
    exact this
  obtain ⟨f1, g1⟩ := P.m (m1.div hr) (by norm_num) (by norm_num)
  obtain ⟨f2, g2⟩ := P.m (g1.mul g1) (by norm_num) (by norm_num)
  obtain ⟨f3, g3⟩ := P.m (Mag.two.mul g2) (by norm_num) (by norm_num)
  obtain ⟨f4, g4⟩ := P.m (g3.mul n1) (by norm_num) (by norm_num)
  obtain ⟨f5, g5⟩ := P.m (hs.mag.div g4) (by norm_num) (by norm_num)
  obtain ⟨f6, g6⟩ := P.m (Mag.sqrt (a := -470) (b := 400) (g5.mono (by norm_num) (by norm_num)))
    (by norm_num) (by norm_num)
  obtain ⟨f7, g7⟩ := P.m (Mag.sqrt (a := 0) (b := 24) (d1.mono (by norm_num) (by norm_num)))
    (by norm_num) (by norm_num)
  obtain ⟨f8, g8⟩ := P.m (g6.div g7) (by norm_num) (by norm_num)
  rw [es, f1, f2, f3, f4, f5, f6, f7, f8]
  exact Same.ok rfl trivial

/-! ## `pdev` -/

theorem RangePair.pdev_weights (P : RangePair fl r sum sum') (m : ℕ) (hm : m ≤ 2 ^ 47) :
    (npLinspace_fl fl ((m : ℝ) - 1) m).map (fun k => fl (fl (fl ((m : ℝ) - 1) / 2) - k)) =
      (npLinspace_fl r ((m : ℝ) - 1) m).map (fun k => r (r (r ((m : ℝ) - 1) / 2) - k)) ∧
    Arr (-1) 48 ((npLinspace_fl r ((m : ℝ) - 1) m).map (fun k => r (r (r ((m : ℝ) - 1) / 2) - k))) := by
  have n1 : Grid 0 47 ((m : ℝ) - 1) := by
    have hk : |(m : ℤ) - 1| ≤ 2 ^ 47 := by rw [abs_le]; omega
    have := Grid.intCast hk
    push_cast at this
    exact this
  obtain ⟨f1, g1⟩ := P.g n1 (by norm_num) (by norm_num)
  obtain ⟨f2, g2⟩ := P.g g1.half (by norm_num) (by norm_num)
  have q : Grid 0 0 (((m : ℝ) - 1) / ((m : ℝ) - 1)) := by
    by_cases h : (m : ℝ) - 1 = 0
    · rw [h, div_zero]; exact Grid.zero _ _
    · rw [div_self h]; exact ⟨⟨1, by norm_num⟩, by norm_num⟩
  obtain ⟨f3, g3⟩ := P.g q (by norm_num) (by norm_num)
  have lin : npLinspace_fl fl ((m : ℝ) - 1) m = npLinspace_fl r ((m : ℝ) - 1) m ∧
      Arr 0 47 (npLinspace_fl r ((m : ℝ) - 1) m) := by
    unfold npLinspace_fl tab
    have key : ∀ k ∈ List.range m,
        (if k + 1 = m then (m : ℝ) - 1 else fl (fl (k * fl (((m : ℝ) - 1) / ((m : ℝ) - 1))) + 0)) =
          (if k + 1 = m then (m : ℝ) - 1 else r (r (k * r (((m : ℝ) - 1) / ((m : ℝ) - 1))) + 0)) ∧
        Grid 0 47 (if k + 1 = m then (m : ℝ) - 1 else r (r (k * r (((m : ℝ) - 1) / ((m : ℝ) - 1))) + 0)) := by
      intro k hk
      rw [List.mem_range] at hk
      by_cases h : k + 1 = m
      · rw [if_pos h, if_pos h]; exact ⟨rfl, n1⟩
      · rw [if_neg h, if_neg h]
        have hk' : Grid 0 47 (k : ℝ) := Grid.natCast (b := 47) (by omega)
        obtain ⟨f4, g4⟩ := P.g (hk'.mul g3) (by norm_num) (by norm_num)
        obtain ⟨f5, g5⟩ := P.g g4 (by norm_num) (by norm_num)
        rw [add_zero, add_zero, f3, f4, f5]
        exact ⟨rfl, g5.mono (by norm_num) (by norm_num)⟩
    refine ⟨List.map_congr_left fun k hk => (key k hk).1, by simpa using hm, fun v hv => ?_⟩
    obtain ⟨k, hk, rfl⟩ := List.mem_map.1 hv
    exact (key k hk).2
  rw [lin.1, f1, f2]
  exact map_agree lin.2 fun u hu => P.g ((g2.sub (hu.mono (by norm_num) le_rfl)).mono (by norm_num) (by norm_num))
    (by norm_num) (by norm_num)

theorem RangePair.calc_pdev (P : RangePair fl r sum sum') {phase : List ℝ} {rate : ℝ}
    (hp : Arr (-152) 100 phase) (hr : Mag (-40) 40 rate) (m : ℕ) (hm : m ≤ 2 ^ 47) :
    Same (fun _ => True) (calc_pdev_phase_fl fl sum phase rate m) (calc_pdev_phase_fl r sum' phase rate m) := by
  unfold calc_pdev_phase_fl
  by_cases h1 : m = 1
  · simp only [if_pos h1]
    refine sliceStep_bind hp _ _ fun d2 h2 => ?_
    refine sliceStep_bind hp _ _ fun d1 h1 => ?_
    refine sliceStep_bind hp _ _ fun d0 h0 => ?_
    generalize hn : (if min (min d0.length d1.length) d2.length = 0 then 1
      else min (min d0.length d1.length) d2.length) = n
    have hn' : n ≤ 2 ^ 47 := by
      have := h0.len_le
      split_ifs at hn <;> omega
    obtain ⟨e, h1'⟩ := P.vscale2 (h1.sliceTo n)  (by norm_num) (by norm_num)
    rw [e]
    refine P.vsub ((h2.sliceTo n).mono le_rfl (by norm_num)) h1' (by norm_num) (by norm_num) fun a ha => ?_
    refine P.vadd ha ((h0.sliceTo n).mono le_rfl (by norm_num)) (by norm_num) (by norm_num) fun v hv => ?_
    refine P.vmul hv hv (by norm_num) (by norm_num) fun sq hsq => ?_
    obtain ⟨es, hs⟩ := P.s hsq (by norm_num) (by norm_num)
    obtain ⟨t1, t2⟩ := P.adev_tail (hs.mono (by norm_num) (by norm_num)) n m hn' hm hr
    rw [es, t2, t1]
    exact Same.ok rfl trivial
  · simp only [if_neg h1]
    generalize hM : (phase.length : ℤ) - 2 * m = M
    have hM' : |M| ≤ 2 ^ 48 := by
      have := hp.1
      rw [abs_le]; omega
    by_cases hM1 : M < 1
    · rw [if_pos hM1, if_pos hM1]; exact Same.ok rfl trivial
    rw [if_neg hM1, if_neg hM1]
    have hM2 : M.toNat ≤ 2 ^ 47 := by
      have := hp.1
      omega
    obtain ⟨ew, hw⟩ := P.pdev_weights m hm
    refine (forRange_same (Acc (-306) 440) (Acc.zero _ _) fun i hi s hs => ?_).bind fun s hs => ?_
    · rw [ew]
      refine P.vsub (hp.slice _ _) (hp.slice _ _) (by norm_num) (by norm_num) fun dx hdx => ?_
      refine P.vmul hw hdx (by norm_num) (by norm_num) fun p hpp => ?_
      obtain ⟨e1, h1⟩ := P.pySum hpp (by norm_num) (by norm_num)
      obtain ⟨e2, h2⟩ := P.g (h1.mul h1) (by norm_num) (by norm_num)
      obtain ⟨e3, h3⟩ := P.acc hs (h2.mono (by norm_num) (by norm_num)) (by omega) (by norm_num) (by norm_num)
      rw [e1, e2, e3]
      exact Same.ok rfl h3
    · have s1 := (hs.grid hM2).mag
      have m1 := Mag.natCast hm
      have M1 : Mag 0 48 (M : ℝ) := (Grid.intCast hM').mag
      have c72 : Mag 0 7 (72 : ℝ) := Or.inr (by norm_num)
      have m4 : Mag 0 188 ((m : ℝ) ^ 4) := by
        have := (m1.mul m1).mul (m1.mul m1)
        rw [show (m : ℝ) ^ 4 = m * m * (m * m) by ring]
        exact this.mono (by norm_num) (by norm_num)
      obtain ⟨f1, g1⟩ := P.m (Mag.one.div hr) (by norm_num) (by norm_num)
      obtain ⟨f2, g2⟩ := P.m (m1.mul g1) (by norm_num) (by norm_num)
      obtain ⟨f3, g3⟩ := P.m (g2.mul g2) (by norm_num) (by norm_num)
      obtain ⟨f4, g4⟩ := P.m (M1.mul m4) (by norm_num) (by norm_num)
      obtain ⟨f5, g5⟩ := P.m (g4.mul g3) (by norm_num) (by norm_num)
      obtain ⟨f6, g6⟩ := P.m (c72.mul s1) (by norm_num) (by norm_num)
      obtain ⟨f7, g7⟩ := P.m (g6.div g5) (by norm_num) (by norm_num)
      obtain ⟨f8, g8⟩ := P.m (Mag.sqrt (a := -450) (b := 400) (g7.mono (by norm_num) (by norm_num)))
        (by norm_num) (by norm_num)
      obtain ⟨f9, g9⟩ := P.m (Mag.sqrt (a := 0) (b := 24) (M1.mono (by norm_num) (by norm_num)))
        (by norm_num) (by norm_num)
      obtain ⟨f10, g10⟩ := P.m (g8.div g9) (by norm_num) (by norm_num)
      rw [f1, f2, f3, f4, f5, f6, f7, f8, f9, f10]
      exact Same.ok rfl trivial

/-! ## `theo1` -/

theorem RangePair.theo1_body (P : RangePair fl r sum sum') {phase : List ℝ} {tau0 : ℝ}
    (hp : Arr (-152) 100 phase) (ht : Mag (-40) 40 tau0) (m : ℕ) (hm : m ≤ 2 ^ 47) :
    Same (fun _ => True) (theo1_body_fl fl phase tau0 m) (theo1_body_fl r phase tau0 m) := by
  unfold theo1_body_fl
  have hN := hp.1
  refine Same.bind (R := fun _ => True) (Same.refl fun _ _ => trivial) fun _ _ => ?_
  have m1 : Grid 0 47 (m : ℝ) := Grid.natCast hm
  obtain ⟨em, gm⟩ := P.g m1.half (by norm_num) (by norm_num)
  have hk : |(phase.length : ℤ) - m| ≤ 2 ^ 48 := by rw [abs_le]; omega
  have n1 : Grid 0 48 ((phase.length : ℝ) - m) := by
    have := Grid.intCast hk
    push_cast at this
    exact this
  refine (forRange_same (fun i st => Acc (-404) 260 i st.1) (Acc.zero _ _) fun i hi st hst => ?_).bind
    fun st hst => ?_
  · refine Same.bind (R := fun st => Grid (-404) 260 st.1) ?_ fun st' hst' => ?_
    · refine (forRange_same (fun d st => Acc (-404) 213 d st.1) (Acc.zero _ _) fun d hd st hst => ?_).mono
        fun st hst => (show Acc (-404) 213 (m / 2) st.1 from hst).grid (k := 47) (by omega)
      refine (pyGet_same hp.2 _).bind fun a ha => ?_
      refine (pyGet_same hp.2 _).bind fun b hb => ?_
      refine (pyGet_same hp.2 _).bind fun c hc => ?_
      refine (pyGet_same hp.2 _).bind fun e he => ?_
      have d1 : Grid 0 47 (d : ℝ) := Grid.natCast (b := 47) (by omega)
      obtain ⟨f1, g1⟩ := P.g (gm.sub (d1.mono (by norm_num) le_rfl)) (by norm_num) (by norm_num)
      obtain ⟨f2, g2⟩ := P.m (Mag.one.div g1.mag) (by norm_num) (by norm_num)
      have g2' := (Mag.one.div g1.mag).round_grid (P.binary _)
      obtain ⟨f3, g3⟩ := P.g (ha.sub hb) (by norm_num) (by norm_num)
      obtain ⟨f4, g4⟩ := P.g (g3.add (hc.mono le_rfl (by norm_num))) (by norm_num) (by norm_num)
      obtain ⟨f5, g5⟩ := P.g (g4.sub (he.mono le_rfl (by norm_num))) (by norm_num) (by norm_num)
      obtain ⟨f6, g6⟩ := P.g (g5.mul g5) (by norm_num) (by norm_num)
      obtain ⟨f7, g7⟩ := P.g (g2'.mul g6) (by norm_num) (by norm_num)
      obtain ⟨f8, g8⟩ := P.acc hst (g7.mono (by norm_num) (by norm_num)) (by omega) (by norm_num) (by norm_num)
      dsimp only
      rw [em, f1, f2, f3, f4, f5, f6, f7, f8]
      exact Same.ok rfl g8
    · obtain ⟨f1, g1⟩ := P.acc hst hst' (by omega) (by norm_num) (by norm_num)
      simp only [f1]
      exact Same.ok rfl g1
  · obtain ⟨dev, n⟩ := st
    dsimp only at hst ⊢
    have s1 := (hst.grid (k := 47) (by omega)).mag
    have c34 : Mag (-1) 0 (0.75 : ℝ) := Or.inr (by norm_num)
    obtain ⟨f0, g0⟩ := P.g (n1.mul m1).half (by norm_num) (by norm_num)
    obtain ⟨f1, g1⟩ := P.m (m1.mag.mul ht) (by norm_num) (by norm_num)
    obtain ⟨f2, g2⟩ := P.m (g1.mul g1) (by norm_num) (by norm_num)
    obtain ⟨f3, g3⟩ := P.m (c34.mul n1.mag) (by norm_num) (by norm_num)
    obtain ⟨f4, g4⟩ := P.m (g3.mul g2) (by norm_num) (by norm_num)
    obtain ⟨f5, g5⟩ := P.m (s1.div g4) (by norm_num) (by norm_num)
    obtain ⟨f6, g6⟩ := P.m (Mag.sqrt (a := -450) (b := 400) (g5.mono (by norm_num) (by norm_num)))
      (by norm_num) (by norm_num)
    obtain ⟨f7, g7⟩ := P.m (Mag.sqrt (a := 0) (b := 24) (n1.mag.mono (by norm_num) (by norm_num)))
      (by norm_num) (by norm_num)
    obtain ⟨f8, g8⟩ := P.m (g6.div g7) (by norm_num) (by norm_num)
    simp only [f0, f1, f2, f3, f4, f5, f6, f7, f8]
    exact Same.refl fun _ _ => trivial

/-! ## Whole runs -/

theorem RangePair.tierms (P : RangePair fl r sum sum') (log10grid : List ℝ) {x : List ℝ} {rate : ℝ} {taus : TausArg}
    (hx : Arr (-343) 240 x) (hr : Mag (-40) 40 rate) (ht : SafeTaus rate taus) (hR : RangeTaus rate taus) :
    tierms_fl fl sum log10grid x rate taus = tierms_fl r sum' log10grid x rate taus :=
  (P.run log10grid x false (-1) (D := fun _ => True) (n := fun _ => True) hx.1 hr ht hR
    (body := fun _ _ _ m => tierms_body_fl fl sum x m) (body' := fun _ _ _ m => tierms_body_fl r sum' x m)
    fun _ _ _ m hm => (P.tierms_body hx m hm).mono fun _ _ => ⟨trivial, trivial⟩).1

theorem RangePair.mtie (P : RangePair fl r sum sum') (log10grid : List ℝ) {x : List ℝ} {rate : ℝ} {taus : TausArg}
    (hx : Arr (-343) 240 x) (hr : Mag (-40) 40 rate) (ht : SafeTaus rate taus) (hR : RangeTaus rate taus) :
    mtie_fl fl log10grid x rate taus = mtie_fl r log10grid x rate taus :=
  (P.run log10grid x false (-1) (D := fun _ => True) (n := fun _ => True) hx.1 hr ht hR
    (body := fun x _ _ m => mtie_body_fl fl x m) (body' := fun x _ _ m => mtie_body_fl r x m)
    fun _ _ _ m hm => (P.mtie_body hx m hm).mono fun _ _ => ⟨trivial, trivial⟩).1

theorem RangePair.gcodev (P : RangePair fl r sum sum') (log10grid : List ℝ) {x y : List ℝ} {rate : ℝ}
    {taus : TausArg} (hx : Arr (-343) 240 x) (hy : Arr (-343) 240 y) (hr : Mag (-40) 40 rate)
    (ht : SafeTaus rate taus) (hR : RangeTaus rate taus) :
    gcodev_fl fl sum log10grid x y rate taus = gcodev_fl r sum' log10grid x y rate taus := by
  unfold gcodev_fl
  refine ((P.tau log10grid x false (-1) hx.1 hr ht hR).bind (Q := fun _ => True) fun o ho => ?_).1
  obtain ⟨d, ms, ts⟩ := o
  obtain ⟨rfl, -, -⟩ := ho
  refine (P.run log10grid y false (-1) (D := fun _ => True) (n := fun _ => True) hy.1 hr ht hR
    (body := fun y _ _ m => calc_gcodev_phase_fl fl sum d y rate m 1)
    (body' := fun y _ _ m => calc_gcodev_phase_fl r sum' d y rate m 1)
    fun _ _ _ m hm => (P.calc_gcodev hx hy hr m 1 hm).mono fun _ _ => ⟨trivial, trivial⟩).mono fun _ _ => trivial

theorem RangePair.totdev (P : RangePair fl r sum sum') (log10grid : List ℝ) {x : List ℝ} {rate : ℝ} {taus : TausArg}
    (hx : Arr (-343) 240 x) (hN : x.length ≤ 2 ^ 45) (hr : Mag (-40) 40 rate) (ht : SafeTaus rate taus)
    (hR : RangeTaus rate taus) :
    totdev_fl fl sum log10grid x rate taus = totdev_fl r sum' log10grid x rate taus := by
  unfold totdev_fl
  refine ((P.tau log10grid x false (-1) hx.1 hr ht hR).bind (Q := fun _ => True) fun o ho => ?_).1
  obtain ⟨d, ms, ts⟩ := o
  obtain ⟨rfl, h2, h3⟩ := ho
  refine (P.totdev_extend hx hN).bind fun o ho => ?_
  obtain ⟨e, mid⟩ := o
  exact (runTaus_same (A := fun _ => True) (D := fun _ => True) (n := fun _ => True) (fun _ _ => trivial)
    fun i m hm => (P.totdev_body ho.1 hr mid d.length m ho.2 hx.1 ((h2 m hm).le.trans hx.1)).mono
      fun _ _ => ⟨trivial, trivial⟩).mono fun _ _ => trivial

theorem RangePair.pdev (P : RangePair fl r sum sum') (log10grid : List ℝ) {x : List ℝ} {rate : ℝ} {taus : TausArg}
    (hx : Arr (-152) 100 x) (hr : Mag (-40) 40 rate) (ht : SafeTaus rate taus) (hR : RangeTaus rate taus) :
    pdev_fl fl sum log10grid x rate taus = pdev_fl r sum' log10grid x rate taus :=
  (P.run log10grid x false (-1) (D := fun _ => True) (n := fun _ => True) hx.1 hr ht hR
    (body := fun x _ _ m => calc_pdev_phase_fl fl sum x rate m)
    (body' := fun x _ _ m => calc_pdev_phase_fl r sum' x rate m)
    fun _ _ _ m hm => (P.calc_pdev hx hr m hm).mono fun _ _ => ⟨trivial, trivial⟩).1

theorem RangePair.theo1 (P : RangePair fl r sum sum') (log10grid : List ℝ) {x : List ℝ} {rate : ℝ} {taus : TausArg}
    (hx : Arr (-152) 100 x) (hr : Mag (-40) 40 rate) (ht : SafeTaus rate taus) (hR : RangeTaus rate taus) :
    theo1_fl fl log10grid x rate taus = theo1_fl r log10grid x rate taus := by
  unfold theo1_fl
  split_ifs
  · rfl
  obtain ⟨e, h⟩ := P.m (Mag.one.div hr) (by norm_num) (by norm_num)
  rw [e]
  exact (P.run log10grid x true (-1) (D := fun _ => True) (n := fun _ => True) hx.1 hr ht hR
    (body := fun x _ _ m => theo1_body_fl fl x (r (1 / rate)) m)
    (body' := fun x _ _ m => theo1_body_fl r x (r (1 / rate)) m)
    fun _ _ _ m hm => (P.theo1_body hx (h.mono (by norm_num) (by norm_num)) m hm).mono
      fun _ _ => ⟨trivial, trivial⟩).1

end AT
