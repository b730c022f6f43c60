import Verif.Lemmas.FloatRangeTot
import Verif.Props.RealtimeFloat

/-!
# The rounded streaming classes stay in the normal range
-/

namespace AT

open Spec

variable {fl r : ℝ → ℝ} {sum sum' : List ℝ → ℝ}

/-- two sequences agree up to `N` and keep to the grid of stored phases -/
def RtGrid (N : ℕ) (X Y : ℕ → ℝ) : Prop := ∀ i < N, X i = Y i ∧ Grid (-152) 147 (Y i)

theorem Grid.three {g b : ℤ} {v : ℝ} (h : Grid g b v) : Grid g (b + 2) (3 * v) := by
  have := (Grid.natCast (n := 3) (b := 2) (by norm_num)).mul h
  exact (by simpa using this : Grid g (2 + b) (3 * v)).mono le_rfl (by omega)

theorem Grid.two {g b : ℤ} {v : ℝ} (h : Grid g b v) : Grid g (b + 1) (2 * v) := by
  have := (Grid.natCast (n := 2) (b := 1) (by norm_num)).mul h
  exact (by simpa using this : Grid g (1 + b) (2 * v)).mono le_rfl (by omega)

theorem RangePair.d2F (P : RangePair fl r sum sum') {N : ℕ} {X Y : ℕ → ℝ} (h : RtGrid N X Y) (a q : ℕ)
    (hq : q + 2 * a < N) : d2F fl X a q = d2F r Y a q ∧ Grid (-152) 153 (d2F r Y a q) := by
  obtain ⟨x0, g0⟩ := h q (by omega)
  obtain ⟨x1, g1⟩ := h (q + a) (by omega)
  obtain ⟨x2, g2⟩ := h _ hq
  unfold AT.d2F
  rw [x0, x1, x2]
  obtain ⟨e1, h1⟩ := P.g g1.two (by norm_num) (by norm_num)
  rw [e1]
  obtain ⟨e2, h2⟩ := P.g ((g2.mono (b' := 148) le_rfl (by norm_num)).sub (h1.mono le_rfl (by norm_num))) (by norm_num) (by norm_num)
  rw [e2]
  obtain ⟨e3, h3⟩ := P.g (h2.add (g0.mono (b' := 149) le_rfl (by norm_num))) (by norm_num) (by norm_num)
  exact ⟨e3, h3.mono le_rfl (by norm_num)⟩

theorem RangePair.d3F (P : RangePair fl r sum sum') {N : ℕ} {X Y : ℕ → ℝ} (h : RtGrid N X Y) (a q : ℕ)
    (hq : q + 3 * a < N) : d3F fl X a q = d3F r Y a q ∧ Grid (-152) 153 (d3F r Y a q) := by
  obtain ⟨x0, g0⟩ := h q (by omega)
  obtain ⟨x1, g1⟩ := h (q + a) (by omega)
  obtain ⟨x2, g2⟩ := h (q + 2 * a) (by omega)
  obtain ⟨x3, g3⟩ := h _ hq
  unfold AT.d3F
  rw [x0, x1, x2, x3]
  obtain ⟨e1, h1⟩ := P.g g1.three (by norm_num) (by norm_num)
  obtain ⟨e2, h2⟩ := P.g g2.three (by norm_num) (by norm_num)
  rw [e1, e2]
  obtain ⟨e3, h3⟩ := P.g ((g3.mono (b' := 149) le_rfl (by norm_num)).sub (h2.mono le_rfl (by norm_num))) (by norm_num) (by norm_num)
  rw [e3]
  obtain ⟨e4, h4⟩ := P.g (h3.add (h1.mono (b' := 150) le_rfl (by norm_num))) (by norm_num) (by norm_num)
  rw [e4]
  obtain ⟨e5, h5⟩ := P.g (h4.sub (g0.mono (b' := 151) le_rfl (by norm_num))) (by norm_num) (by norm_num)
  exact ⟨e5, h5.mono le_rfl (by norm_num)⟩

theorem RangePair.d3G (P : RangePair fl r sum sum') {N : ℕ} {X Y : ℕ → ℝ} (h : RtGrid N X Y) (a q : ℕ)
    (hq : q + 3 * a < N) : d3G fl X a q = d3G r Y a q ∧ Grid (-152) 153 (d3G r Y a q) := by
  obtain ⟨x0, g0⟩ := h q (by omega)
  obtain ⟨x1, g1⟩ := h (q + a) (by omega)
  obtain ⟨x2, g2⟩ := h (q + 2 * a) (by omega)
  obtain ⟨x3, g3⟩ := h _ hq
  unfold AT.d3G
  rw [x0, x1, x2, x3]
  obtain ⟨e0, h0⟩ := P.g (by have := g0.neg; rwa [neg_eq_neg_one_mul (Y q)] at this) (by norm_num) (by norm_num)
  obtain ⟨e1, h1⟩ := P.g g1.three (by norm_num) (by norm_num)
  obtain ⟨e2, h2⟩ := P.g g2.three (by norm_num) (by norm_num)
  rw [e0, e1, e2]
  obtain ⟨e3, h3⟩ := P.g ((h0.mono (b' := 149) le_rfl (by norm_num)).add (h1.mono le_rfl (by norm_num))) (by norm_num) (by norm_num)
  rw [e3]
  obtain ⟨e4, h4⟩ := P.g (h3.sub (h2.mono (b' := 150) le_rfl (by norm_num))) (by norm_num) (by norm_num)
  rw [e4]
  obtain ⟨e5, h5⟩ := P.g (h4.add (g3.mono (b' := 151) le_rfl (by norm_num))) (by norm_num) (by norm_num)
  exact ⟨e5, h5.mono le_rfl (by norm_num)⟩

theorem RangePair.square (P : RangePair fl r sum sum') {b : ℤ} {v : ℝ} (h : Grid (-152) b v) (hb : b ≤ 400) :
    fl (v ^ 2) = r (v ^ 2) ∧ Grid (-304) (b + b) (r (v ^ 2)) := by
  have h2 := h.mul h
  rw [← pow_two] at h2
  exact P.g h2 (by norm_num) (by omega)

theorem RangePair.accF (P : RangePair fl r sum sum') {v w : ℕ → ℝ} {M : ℕ} (hM : M ≤ 2 ^ 46)
    (h : ∀ q < M, v q = w q ∧ Grid (-152) 153 (w q)) (m : ℕ) (hm : m ≤ M) :
    accF fl v m = accF r w m ∧ Acc (-304) 306 m (accF r w m) := by
  induction m with
  | zero => exact ⟨rfl, Acc.zero _ _⟩
  | succ m ih =>
    obtain ⟨e, h1⟩ := ih (by omega)
    obtain ⟨e2, h2⟩ := h m (by omega)
    obtain ⟨e3, h3⟩ := P.square h2 (by norm_num)
    unfold AT.accF
    rw [e, e2, e3]
    exact P.acc h1 (h3.mono le_rfl (by norm_num)) (by omega) (by norm_num) (by norm_num)

theorem RangePair.accB (P : RangePair fl r sum sum') {v w : ℕ → ℝ} {M : ℕ} (hM : M ≤ 2 ^ 46)
    (h : ∀ q < M, v q = w q ∧ Grid (-152) 200 (w q)) (m : ℕ) (hm : m < M) :
    accB fl v m = accB r w m ∧ Acc (-304) 400 (m + 1) (accB r w m) := by
  induction m with
  | zero =>
    obtain ⟨e2, h2⟩ := h 0 hm
    obtain ⟨e3, h3⟩ := P.square h2 (by norm_num)
    unfold AT.accB
    rw [e2, e3]
    exact ⟨rfl, h3.1, by simpa using h3.2⟩
  | succ m ih =>
    obtain ⟨e, h1⟩ := ih (by omega)
    obtain ⟨e2, h2⟩ := h (m + 1) hm
    obtain ⟨e3, h3⟩ := P.square h2 (by norm_num)
    unfold AT.accB
    rw [e, e2, e3]
    exact P.acc h1 (h3.mono le_rfl (by norm_num)) (by omega) (by norm_num) (by norm_num)

theorem RangePair.winA (P : RangePair fl r sum sum') {N : ℕ} (hN : N ≤ 2 ^ 45) {X Y : ℕ → ℝ}
    (h : RtGrid N X Y) (a q : ℕ) (hq : q + 2 * a ≤ N) (hqa : 3 * q ≤ N) :
    winA fl X a q = winA r Y a q ∧ Acc (-152) 153 (3 * q) (winA r Y a q) := by
  induction q with
  | zero => exact ⟨rfl, Acc.zero _ _⟩
  | succ q ih =>
    obtain ⟨e, h1⟩ := ih (by omega) (by omega)
    obtain ⟨x0, g0⟩ := h q (by omega)
    obtain ⟨x1, g1⟩ := h (q + a) (by omega)
    obtain ⟨x2, g2⟩ := h (q + 2 * a) (by omega)
    unfold AT.winA
    rw [e, x0, x1, x2]
    obtain ⟨e1, k1⟩ := P.g g1.two (by norm_num) (by norm_num)
    rw [e1]
    obtain ⟨e2, k2⟩ := P.acc h1 (g2.mono le_rfl (by norm_num)) (by omega) (by norm_num) (by norm_num)
    rw [e2]
    obtain ⟨e3, k3⟩ := P.acc_sub k2 (k1.mono le_rfl (by norm_num)) (by omega) (by norm_num) (by norm_num)
    rw [e3]
    exact P.acc (n := 3 * q + 2) k3 (g0.mono le_rfl (by norm_num)) (by omega) (by norm_num) (by norm_num)

theorem RangePair.winB (P : RangePair fl r sum sum') {N : ℕ} (hN : N ≤ 2 ^ 45) {X Y : ℕ → ℝ}
    (h : RtGrid N X Y) (a j : ℕ) (hj : j + 3 * a ≤ N) :
    winB fl X a j = winB r Y a j ∧ Acc (-152) 153 (3 * a + j) (winB r Y a j) := by
  induction j with
  | zero => exact P.winA hN h a a (by omega) (by omega)
  | succ j ih =>
    obtain ⟨e, h1⟩ := ih (by omega)
    obtain ⟨e2, h2⟩ := P.d3G h a j (by omega)
    unfold AT.winB
    rw [e, e2]
    exact P.acc (n := 3 * a + j) h1 h2 (by omega) (by norm_num) (by norm_num)

theorem RangePair.tau_sq (P : RangePair fl r sum sum') {tau0 : ℝ} (ht : Mag (-40) 40 tau0) {a : ℕ} (ha : a ≤ 2 ^ 46) :
    fl (a * tau0) = r (a * tau0) ∧ fl (r (a * tau0) ^ 2) = r (r (a * tau0) ^ 2) ∧
      Mag (-80) 172 (r (r (a * tau0) ^ 2)) ∧ Mag (-40) 86 (r (a * tau0)) := by
  obtain ⟨e1, h1⟩ := P.m ((Mag.natCast ha).mul ht) (by norm_num) (by norm_num)
  have h2 := h1.mul h1
  rw [← pow_two] at h2
  obtain ⟨e2, h2⟩ := P.m h2 (by norm_num) (by norm_num)
  exact ⟨e1, e2, h2.mono (by norm_num) (by norm_num), h1.mono (by norm_num) (by norm_num)⟩

theorem RangePair.rt_den (P : RangePair fl r sum sum') {c tau0 : ℝ} (hc : Mag 0 3 c) (ht : Mag (-40) 40 tau0) {a n : ℕ}
    (ha : a ≤ 2 ^ 46) (hn : n ≤ 2 ^ 46) :
    fl (fl (c * fl (fl (a * tau0) ^ 2)) * n) = r (r (c * r (r (a * tau0) ^ 2)) * n) ∧
      Mag (-80) 221 (r (r (c * r (r (a * tau0) ^ 2)) * n)) := by
  obtain ⟨e1, e2, h2, -⟩ := P.tau_sq ht ha
  rw [e1, e2]
  obtain ⟨e3, h3⟩ := P.m (hc.mul h2) (by norm_num) (by norm_num)
  rw [e3]
  obtain ⟨e4, h4⟩ := P.m (h3.mul (Mag.natCast hn)) (by norm_num) (by norm_num)
  exact ⟨e4, h4.mono (by norm_num) (by norm_num)⟩

theorem RangePair.devF (P : RangePair fl r sum sum') {c tau0 : ℝ} (hc : Mag 0 3 c) (ht : Mag (-40) 40 tau0) {a n : ℕ}
    (ha : a ≤ 2 ^ 46) (hn : n ≤ 2 ^ 46) {s : ℝ} (hs : Mag (-304) 352 s) :
    devF fl c tau0 a n s = devF r c tau0 a n s := by
  obtain ⟨e, h⟩ := P.rt_den hc ht ha hn
  unfold AT.devF
  rw [e]
  obtain ⟨e1, h1⟩ := P.m (Mag.one.div h) (by norm_num) (by norm_num)
  rw [e1]
  obtain ⟨e2, h2⟩ := P.m (h1.mul hs) (by norm_num) (by norm_num)
  rw [e2]
  exact (P.m (h2.mono (a' := 2 * (-300)) (b' := 2 * 300) (by norm_num) (by norm_num)).sqrt (by norm_num) (by norm_num)).1

theorem RangePair.devG (P : RangePair fl r sum sum') {a n : ℕ} (ha : a ≤ 2 ^ 46) (hn : n ≤ 2 ^ 46) {s : ℝ}
    (hs : Mag (-304) 446 s) :
    devG fl a n s = devG r a n s ∧ Mag (-300) 300 (devG r a n s) := by
  have hsq := (Mag.natCast ha).mul (Mag.natCast ha)
  rw [← pow_two] at hsq
  obtain ⟨e0, h0⟩ := P.m hsq (by norm_num) (by norm_num)
  unfold AT.devG
  rw [e0]
  obtain ⟨e1, h1⟩ := P.m (show Mag (-3) 0 (1 / 6) from Or.inr (by norm_num [abs_of_pos])) (by norm_num) (by norm_num)
  obtain ⟨e2, h2⟩ := P.m (Mag.one.div (Mag.natCast hn)) (by norm_num) (by norm_num)
  obtain ⟨e3, h3⟩ := P.m (Mag.one.div h0) (by norm_num) (by norm_num)
  rw [e1, e2, e3]
  obtain ⟨e4, h4⟩ := P.m (h1.mul h2) (by norm_num) (by norm_num)
  rw [e4]
  obtain ⟨e5, h5⟩ := P.m (h4.mul h3) (by norm_num) (by norm_num)
  rw [e5]
  obtain ⟨e6, h6⟩ := P.m (h5.mul hs) (by norm_num) (by norm_num)
  rw [e6]
  exact P.m (h6.mono (a' := 2 * (-300)) (b' := 2 * 300) (by norm_num) (by norm_num)).sqrt (by norm_num) (by norm_num)

theorem RangePair.rtDen (P : RangePair fl r sum sum') {tau0 : ℝ} (ht : Mag (-40) 40 tau0) (ht0 : 0 < tau0)
    {a N : ℕ} (ha : 0 < a) (hN : N ≤ 2 ^ 46) : RtDen fl tau0 a N := by
  have hr := rtDen_of_round P.floatRound ht0 ha N
  refine ⟨fun m h0 h1 h2 => ?_, fun m h0 h1 h2 => ?_, fun h2 => ?_⟩
  · rw [(P.rt_den (Or.inr (by norm_num)) ht (by omega) (by omega)).1]
    exact hr.two m h0 h1 h2
  · rw [(P.rt_den (Or.inr (by norm_num)) ht (by omega) (by omega)).1]
    exact hr.six m h0 h1 h2
  · have hsq := (Mag.natCast (n := a) (b := 46) (by omega)).mul (Mag.natCast (n := a) (b := 46) (by omega))
    rw [← pow_two] at hsq
    rw [(P.m hsq (by norm_num) (by norm_num)).1]
    exact hr.sq h2

/-- the entries of the two roundings agree -/
theorem RangePair.entryF (P : RangePair fl r sum sum') (k : RtName) {tau0 : ℝ} (ht : Mag (-40) 40 tau0)
    {X Y : ℕ → ℝ} {n : ℕ} (hn : n ≤ 2 ^ 45) (h : RtGrid n X Y) {a : ℕ} (ha : 0 < a) :
    k.entryF fl tau0 X a n = k.entryF r tau0 Y a n ∧
      (k = .tdev → Mag (-300) 300 (k.entryF r tau0 Y a n).1) := by
  cases k
  · rw [oadev_entryF, oadev_entryF]
    refine ⟨?_, nofun⟩
    by_cases hc : n ≤ 2 * a
    · rw [if_pos hc, if_pos hc, show n - 2 * a = 0 by omega]; rfl
    · obtain ⟨e, h1⟩ := P.accF (v := AT.d2F fl X a) (w := AT.d2F r Y a) (M := n - 2 * a) (by omega)
        (fun q hq => P.d2F h a q (by omega)) (n - 2 * a) le_rfl
      rw [if_neg hc, if_neg hc, e, P.devF (Or.inr (by norm_num)) ht (by omega) (by omega)
        ((h1.grid (k := 46) (by omega)).mag.mono (by norm_num) (by norm_num))]
  · rw [ohdev_entryF, ohdev_entryF]
    refine ⟨?_, nofun⟩
    by_cases hc : n ≤ 3 * a
    · rw [if_pos hc, if_pos hc, show n - 3 * a = 0 by omega]; rfl
    · obtain ⟨e, h1⟩ := P.accF (v := AT.d3F fl X a) (w := AT.d3F r Y a) (M := n - 3 * a) (by omega)
        (fun q hq => P.d3F h a q (by omega)) (n - 3 * a) le_rfl
      rw [if_neg hc, if_neg hc, e, P.devF (Or.inr (by norm_num)) ht (by omega) (by omega)
        ((h1.grid (k := 46) (by omega)).mag.mono (by norm_num) (by norm_num))]
  · rw [tdev_entryF _ _ _ _ ha, tdev_entryF _ _ _ _ ha]
    by_cases hc : n < 3 * a
    · simp only [if_pos hc]
      refine ⟨?_, fun _ => Or.inl rfl⟩
      by_cases h2 : 2 * a ≤ n
      · rw [(P.winA hn h a (n - 2 * a) (by omega) (by omega)).1]
      · rw [show n - 2 * a = 0 by omega]; rfl
    · simp only [if_neg hc]
      have hw : ∀ q < n + 1 - 3 * a, AT.winB fl X a q = AT.winB r Y a q ∧ Grid (-152) 200 (AT.winB r Y a q) := by
        intro q hq
        obtain ⟨e, h1⟩ := P.winB hn h a q (by omega)
        exact ⟨e, (h1.grid (k := 47) (by omega)).mono le_rfl (by norm_num)⟩
      obtain ⟨e, h1⟩ := P.accB (M := n + 1 - 3 * a) (by omega) hw (n - 3 * a) (by omega)
      obtain ⟨e2, h2⟩ := P.devG (a := a) (n := n + 1 - 3 * a) (by omega) (by omega)
        ((h1.grid (k := 46) (by omega)).mag.mono (by norm_num) (by norm_num))
      rw [e, (hw (n - 3 * a) (by omega)).1, e2]
      exact ⟨rfl, fun _ => h2⟩

/-- the phases that `add_frequency` stores -/
theorem RangePair.intF (P : RangePair fl r sum sum') {f : ℕ → ℝ} {n : ℕ} (hn : n ≤ 2 ^ 46)
    (h : ∀ i < n, Grid (-152) 100 (f i)) : RtGrid (n + 1) (intF fl f) (intF r f) := by
  have key : ∀ i ≤ n, AT.intF fl f i = AT.intF r f i ∧ Acc (-152) 100 i (AT.intF r f i) := by
    intro i hi
    induction i with
    | zero => exact ⟨rfl, Acc.zero _ _⟩
    | succ i ih =>
      obtain ⟨e, h1⟩ := ih (by omega)
      unfold AT.intF
      rw [e]
      exact P.acc h1 (h i (by omega)) (by omega) (by norm_num) (by norm_num)
  intro i hi
  obtain ⟨e, h1⟩ := key i (by omega)
  exact ⟨e, (h1.grid (k := 46) (by omega)).mono le_rfl (by norm_num)⟩

theorem RangePair.feed (P : RangePair fl r sum sum') (k : RtName) {tau0 : ℝ} (ht : ModerateRate tau0) (p : ℕ)
    (afs : List ℕ) (ha : ∀ a ∈ afs, 0 < a) (xs : List ℝ) (hx : ∀ v ∈ xs, Moderate v) (hN : xs.length ≤ 2 ^ 45) :
    k.feed_fl fl (rt_cfg tau0 false p) (rt_init afs false) xs =
      k.feed_fl r (rt_cfg tau0 false p) (rt_init afs false) xs := by
  have hxs : tab xs.length (seq xs) = xs := (eq_tab xs 0).symm
  have h1 := feed_fl_den (fl := fl) k tau0 p afs ha (seq xs) xs.length
    (fun a h => P.rtDen (ModerateRate.mag ht) (ModerateRate.pos ht) (ha a h) (by omega))
  have h2 := feed_fl_state P.floatRound k tau0 p afs (ModerateRate.pos ht) ha (seq xs) xs.length
  rw [hxs] at h1 h2
  rw [h1, h2]
  congr 1
  refine rtSt_congr _ _ _ _ (fun _ _ => rfl) fun i hi => (P.entryF k (ModerateRate.mag ht) hN ?_ (getD_pos ha i hi)).1
  intro i hi
  refine ⟨rfl, Grid.mono (Moderate.grid (hx _ ?_)) le_rfl (by norm_num)⟩
  rw [seq, List.getD_eq_getElem _ _ hi]
  exact List.getElem_mem hi

theorem RangePair.feed_frequency (P : RangePair fl r sum sum') (k : RtName) {tau0 : ℝ} (ht : ModerateRate tau0) (p : ℕ)
    (afs : List ℕ) (ha : ∀ a ∈ afs, 0 < a) (fs : List ℝ) (hne : fs ≠ []) (hf : ∀ v ∈ fs, Moderate v)
    (hN : fs.length < 2 ^ 45) :
    k.feed_frequency_fl fl (rt_cfg tau0 false p) (rt_init afs false) fs =
      k.feed_frequency_fl r (rt_cfg tau0 false p) (rt_init afs false) fs := by
  have hpos : 0 < fs.length := List.length_pos_iff.2 hne
  have hfs : tab fs.length (seq fs) = fs := (eq_tab fs 0).symm
  have h1 := feed_frequency_fl_den (fl := fl) k tau0 p afs ha (seq fs) fs.length hpos
    (fun a h => P.rtDen (ModerateRate.mag ht) (ModerateRate.pos ht) (ha a h) (by omega))
  have h2 := feed_frequency_fl_state P.floatRound k tau0 p afs (ModerateRate.pos ht) ha (seq fs) fs.length hpos
  rw [hfs] at h1 h2
  rw [h1, h2]
  have hG := P.intF (f := seq fs) (n := fs.length) (by omega) (by
    intro i hi
    refine Moderate.grid (hf _ ?_)
    rw [seq, List.getD_eq_getElem _ _ hi]
    exact List.getElem_mem hi)
  congr 1
  rw [tab_congr fun i hi => (hG i hi).1]
  exact rtSt_congr _ _ _ _ (fun _ _ => rfl) fun i hi => (P.entryF k (ModerateRate.mag ht) (by omega) hG (getD_pos ha i hi)).1

/-- the method `mdev` after a stream of phases -/
theorem RangePair.rt_mdev (P : RangePair fl r sum sum') {tau0 : ℝ} (ht : ModerateRate tau0) (p : ℕ)
    (afs : List ℕ) (ha : ∀ a ∈ afs, 0 < a) (ha' : ∀ a ∈ afs, a ≤ 2 ^ 46) (xs : List ℝ) (hx : ∀ v ∈ xs, Moderate v)
    (hN : xs.length ≤ 2 ^ 45) (st : Rt)
    (hst : RtName.feed_fl r .tdev (rt_cfg tau0 false p) (rt_init afs false) xs = .ok st) :
    tdev_mdev_fl fl (rt_cfg tau0 false p) st = tdev_mdev_fl r (rt_cfg tau0 false p) st := by
  have hxs : tab xs.length (seq xs) = xs := (eq_tab xs 0).symm
  have h2 := feed_fl_state P.floatRound .tdev tau0 p afs (ModerateRate.pos ht) ha (seq xs) xs.length
  rw [hxs, hst] at h2
  cases h2
  have hden : ∀ a ∈ afs, fl ((a : ℕ) * tau0) = r ((a : ℕ) * tau0) ∧ Mag (-40) 86 (r ((a : ℕ) * tau0)) := by
    intro a h
    obtain ⟨e, -, -, h1⟩ := P.tau_sq (ModerateRate.mag ht) (ha' a h)
    exact ⟨e, h1⟩
  rw [tdev_mdev_fl_eq P.floatRound tau0 p afs (ModerateRate.pos ht) ha, tdev_mdev_fl_den tau0 p afs]
  · congr 1
    apply tab_congr
    intro i hi
    have hm := (P.entryF .tdev (ModerateRate.mag ht) hN (X := seq xs) (Y := seq xs) (by
      intro i hi
      refine ⟨rfl, Grid.mono (Moderate.grid (hx _ ?_)) le_rfl (by norm_num)⟩
      rw [seq, List.getD_eq_getElem _ _ hi]
      exact List.getElem_mem hi) (getD_pos ha i hi)).2 rfl
    obtain ⟨e, h1⟩ := hden (afs.getD i 0) (by rw [List.getD_eq_getElem _ _ hi]; exact List.getElem_mem hi)
    have h3 : Mag 0 1 √3 := Mag.sqrt (Or.inr (by norm_num))
    obtain ⟨e3, h3⟩ := P.m h3 (by norm_num) (by norm_num)
    rw [e, e3]
    obtain ⟨e4, h4⟩ := P.m (hm.mul h3) (by norm_num) (by norm_num)
    rw [e4]
    exact (P.m (h4.div h1) (by norm_num) (by norm_num)).1
  · intro a h
    rw [(hden a h).1]
    exact (fl_pos P.floatRound (mul_pos (by exact_mod_cast ha a h) (ModerateRate.pos ht))).ne'

end AT
