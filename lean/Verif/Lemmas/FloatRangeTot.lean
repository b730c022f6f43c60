import Verif.Lemmas.FloatRangeMore
import Verif.Model.FloatTot
import Verif.Lemmas.Mtot
import Mathlib.Data.List.GetD

/-!
# The rounded `mtotdev`, `ttotdev` and `htotdev` stay in the normal range
-/

namespace AT

open Spec

variable {fl r : ℝ → ℝ} {sum sum' : List ℝ → ℝ}

/-! ## Running sums of squares -/

/-- zero, or at least `2^a`; at most `n * 2^b` -/
def PAcc (a b : ℤ) (n : ℕ) (c : ℝ) : Prop := (c = 0 ∨ (2 : ℝ) ^ a ≤ c) ∧ c ≤ n * (2 : ℝ) ^ b

theorem PAcc.zero (a b : ℤ) : PAcc a b 0 0 := ⟨Or.inl rfl, by simp⟩

theorem PAcc.mag {a b : ℤ} {n k : ℕ} {c : ℝ} (h : PAcc a b n c) (hn : n ≤ 2 ^ k) : Mag a (b + k) c := by
  rcases h.1 with h1 | h1
  · exact Or.inl h1
  · right
    rw [abs_of_pos ((two_zpow_pos a).trans_le h1)]
    refine ⟨h1, h.2.trans ?_⟩
    rw [add_comm b, two_zpow_add]
    apply mul_le_mul_of_nonneg_right _ (two_zpow_pos b).le
    rw [zpow_natCast]
    exact_mod_cast hn

theorem IsBinary64.nonneg {x y : ℝ} (hx : 0 ≤ x) (h : IsBinary64 x y) : 0 ≤ y := by
  rcases h with ⟨_, rfl⟩ | ⟨e, k, -, -, h3, rfl⟩
  · exact le_rfl
  · have hp := two_zpow_pos e
    have h1 : (-1 : ℝ) < k := by
      have := (abs_le.1 h3.1).2
      have h0 : 0 ≤ x / (2 : ℝ) ^ e := div_nonneg hx hp.le
      linarith
    have h2 : (0 : ℤ) ≤ k := by
      have : (-1 : ℤ) < k := by exact_mod_cast h1
      omega
    have h3 : (0 : ℝ) ≤ k := by exact_mod_cast h2
    positivity

theorem RangePair.pacc (P : RangePair fl r sum sum') {a b : ℤ} {n : ℕ} {c v : ℝ} (h : PAcc a b n c)
    (hv : Mag a b v) (hv0 : 0 ≤ v) (hn : n < 2 ^ 47) (ha : -1022 ≤ a) (hb : b ≤ 970) :
    fl (c + v) = r (c + v) ∧ PAcc a b (n + 1) (r (c + v)) := by
  have hp := two_zpow_pos a
  have hv1 : v = 0 ∨ (2 : ℝ) ^ a ≤ v := by
    rcases hv with hv | hv
    · exact Or.inl hv
    · right; have := hv.1; rwa [abs_of_nonneg hv0] at this
  have hv2 : v ≤ (2 : ℝ) ^ b := by
    rcases hv with hv | hv
    · rw [hv]; exact (two_zpow_pos b).le
    · have := hv.2; rwa [abs_of_nonneg hv0] at this
  have hc0 : 0 ≤ c := by
    rcases h.1 with h1 | h1
    · exact h1.ge
    · linarith
  have h1 : PAcc a b (n + 1) (c + v) := by
    refine ⟨?_, ?_⟩
    · rcases h.1 with h1 | h1
      · rw [h1, zero_add]; exact hv1
      · right; linarith
    · push_cast
      linarith [h.2]
  have h2 := h1.mag (k := 47) (by omega)
  obtain ⟨e, h4⟩ := P.m h2 ha (by push_cast; omega)
  refine ⟨e, ?_, ?_⟩
  · have h0 := IsBinary64.nonneg (add_nonneg hc0 hv0) (P.binary (c + v))
    rcases h4 with h4 | h4
    · exact Or.inl h4
    · right; have := h4.1; rwa [abs_of_nonneg h0] at this
  · refine (le_abs_self _).trans (isBinary64_abs_le (P.binary (c + v)) (by omega) ?_)
    rw [abs_of_nonneg (add_nonneg hc0 hv0)]
    exact h1.2

theorem RangePair.nonneg (P : RangePair fl r sum sum') {x : ℝ} (hx : 0 ≤ x) : 0 ≤ r x :=
  IsBinary64.nonneg hx (P.binary x)

theorem PAcc.nonneg {a b : ℤ} {n : ℕ} {c : ℝ} (h : PAcc a b n c) : 0 ≤ c := by
  rcases h.1 with h1 | h1
  · exact h1.ge
  · exact (two_zpow_pos a).le.trans h1

/-! ## The slope of a subsequence -/

theorem RangePair.tot_slope (P : RangePair fl r sum sum') {g b s t : ℤ} {L : ℕ} {xs : List ℝ} (hx : Arr g b xs)
    (hl : xs.length ≤ 2 ^ L) (m : ℕ) (hm : m ≤ 2 ^ L) {scale scale' : ℝ → ℝ}
    (hs : ∀ d, Mag 0 (L + 2) d → scale d = scale' d ∧ Mag s t (scale' d))
    (hg : -1022 ≤ g - L - 52) (hg' : -1022 ≤ g - L - 52 - t) (hb : b ≤ 900) (hb' : b + 48 - s ≤ 1023)
    (hL : L ≤ 45) :
    tot_slope_fl fl sum scale xs m = tot_slope_fl r sum' scale' xs m ∧
      Mag (g - L - 52 - t) (b + 48 - s) (tot_slope_fl r sum' scale' xs m) := by
  have mean : ∀ l : List ℝ, l.Sublist xs → fl (sum l / l.length) = r (sum' l / l.length) ∧
      Grid (g - L - 52) (b + 47) (r (sum' l / l.length)) := by
    intro l hl'
    obtain ⟨e, h⟩ := P.s (hx.sublist hl') (by omega) (by omega)
    have h1 := (h.mag.div (Mag.natCast (hl'.length_le.trans hl)))
    obtain ⟨e', h'⟩ := P.m h1 (by omega) (by omega)
    rw [e, e']
    exact ⟨rfl, (h1.round_grid (P.binary _)).mono (by omega) (by omega)⟩
  unfold tot_slope_fl
  dsimp only
  obtain ⟨e1, g1⟩ := mean (sliceTo xs (⌊(3 * m / 2 : ℝ)⌋).toNat) (List.take_sublist _ _)
  obtain ⟨e2, g2⟩ := mean (sliceFrom xs (⌈(3 * m / 2 : ℝ)⌉).toNat) (List.drop_sublist _ _)
  obtain ⟨e3, g3⟩ := P.g (g2.sub g1) (by omega) (by omega)
  have h2 : (2 : ℝ) ^ ((L : ℤ) + 2) = 2 ^ L * 4 := by
    rw [two_zpow_add, zpow_natCast]; norm_num
  have hmR : (m : ℝ) ≤ 2 ^ L := by exact_mod_cast hm
  rw [e1, e2, e3]
  split_ifs with hodd
  · have i1 : (0.5 * (3 * (m : ℝ) - 1)) = ((3 * m / 2 : ℕ) : ℝ) := by
      have : ((3 * m : ℕ) : ℝ) = ((2 * (3 * m / 2) + 1 : ℕ) : ℝ) := by congr 1; omega
      push_cast at this
      rw [this]; ring
    have g4 : Grid 0 (L + 2 - 1) (((3 * m / 2 : ℕ) : ℝ)) := by
      have : 3 * m / 2 ≤ 2 ^ (L + 1) := by rw [pow_succ]; omega
      refine (Grid.natCast this).mono le_rfl (by push_cast; omega)
    obtain ⟨e4, g4⟩ := P.g g4 (by omega) (by omega)
    have one : Grid 0 ((L : ℤ) + 2 - 1) (1 : ℝ) := by
      have := Grid.natCast (n := 1) (b := L + 1) Nat.one_le_two_pow
      rw [Nat.cast_one] at this
      exact this.mono le_rfl (by push_cast; omega)
    obtain ⟨e5, g5⟩ := P.g (g4.add one) (by omega) (by omega)
    obtain ⟨e6, g6⟩ := hs _ (g5.mono le_rfl (by omega)).mag
    obtain ⟨e7, g7⟩ := P.m (g3.mag.div g6) (by omega) (by omega)
    rw [i1, e4, e5, e6, e7]
    exact ⟨rfl, g7.mono (by omega) (by omega)⟩
  · have c : Mag 0 1 (0.5 * 3 : ℝ) := Or.inr (by norm_num)
    obtain ⟨e4, g4⟩ := P.m c (by norm_num) (by norm_num)
    obtain ⟨e5, g5⟩ := P.m (g4.mul (Mag.natCast hm)) (by norm_num) (by omega)
    obtain ⟨e6, g6⟩ := hs _ (g5.mono (by norm_num) (by omega))
    obtain ⟨e7, g7⟩ := P.m (g3.mag.div g6) (by omega) (by omega)
    rw [e4, e5, e6, e7]
    exact ⟨rfl, g7.mono (by omega) (by omega)⟩

/-! ## The inner loop -/

theorem Grid.acc {g b : ℤ} {v : ℝ} (h : Grid g b v) : Acc g b 1 v := ⟨h.1, by simpa using h.2⟩

theorem RangePair.acc_sub (P : RangePair fl r sum sum') {g b : ℤ} {n : ℕ} {c v : ℝ} (h : Acc g b n c)
    (hv : Grid g b v) (hn : n < 2 ^ 47) (hg : -1022 ≤ g) (hb : b ≤ 970) :
    fl (c - v) = r (c - v) ∧ Acc g b (n + 1) (r (c - v)) := by
  have := P.acc h hv.neg hn hg hb
  rwa [← sub_eq_add_neg] at this

theorem RangePair.sum_acc (P : RangePair fl r sum sum') {g b : ℤ} {l : List ℝ} (h : Arr g b l) (hg : -1022 ≤ g)
    (hb : b ≤ 900) : sum l = sum' l ∧ Acc g (b + 47) 1 (sum' l) :=
  ⟨(P.s h hg (by omega)).1, (P.s h hg (by omega)).2.acc⟩

theorem RangePair.tot_inner (P : RangePair fl r sum sum') {g b : ℤ} {L : ℕ} {xs : List ℝ} (hx : Arr g b xs)
    (m : ℕ) (hm : m ≤ 2 ^ L) (hg : -1022 ≤ 2 * (g - L)) (hb : b ≤ 300) (hL : L ≤ 43) :
    Same (PAcc (2 * (g - L)) (2 * (b + 98)) (6 * m)) (tot_inner_fl fl sum xs m) (tot_inner_fl r sum' xs m) := by
  have hp : (2 : ℕ) ^ L ≤ 2 ^ 43 := Nat.pow_le_pow_right (by norm_num) hL
  unfold tot_inner_fl
  refine Same.bind (R := fun st => PAcc (2 * (g - L)) (2 * (b + 98)) (6 * m) st.2.2.2) ?_ fun st hst => Same.ok rfl hst
  refine (forRange_same (fun j st => (0 < j → Acc g (b + 47) (2 * j) st.1 ∧ Acc g (b + 47) (2 * j) st.2.1 ∧
    Acc g (b + 47) (2 * j) st.2.2.1) ∧ PAcc (2 * (g - L)) (2 * (b + 98)) j st.2.2.2)
    ⟨fun h => absurd h (by simp), PAcc.zero _ _⟩ fun j hj st hst => ?_).mono fun st hst => hst.2
  obtain ⟨hst, hsq⟩ := hst
  have up : ∀ {n k : ℕ} {c : ℝ}, Acc g (b + 47) n c → n ≤ k → Acc g (b + 47) k c := by
    intro n k c h hnk
    refine ⟨h.1, h.2.trans ?_⟩
    apply mul_le_mul_of_nonneg_right _ (two_zpow_pos _).le
    exact_mod_cast hnk
  have tail : ∀ {x1 x2 x3 : ℝ}, Acc g (b + 47) (2 * (j + 1)) x1 → Acc g (b + 47) (2 * (j + 1)) x2 →
      Acc g (b + 47) (2 * (j + 1)) x3 →
      fl (st.2.2.2 + fl (fl (fl (fl (x1 - fl (2 * x2)) + x3) / m) * fl (fl (fl (x1 - fl (2 * x2)) + x3) / m))) =
        r (st.2.2.2 + r (r (r (r (x1 - r (2 * x2)) + x3) / m) * r (r (r (x1 - r (2 * x2)) + x3) / m))) ∧
      PAcc (2 * (g - L)) (2 * (b + 98)) (j + 1)
        (r (st.2.2.2 + r (r (r (r (x1 - r (2 * x2)) + x3) / m) * r (r (r (x1 - r (2 * x2)) + x3) / m)))) := by
    intro x1 x2 x3 h1 h2 h3
    have g1 := h1.grid (k := 47) (by omega)
    have g2 := h2.grid (k := 47) (by omega)
    have g3 := h3.grid (k := 47) (by omega)
    push_cast at g1 g2 g3
    have two : Grid 0 1 (2 : ℝ) := by simpa using Grid.natCast (n := 2) (b := 1) (by norm_num)
    obtain ⟨e4, g4⟩ := P.g ((two.mul g2).mono (g' := g) (b' := b + 95) (by omega) (by omega)) (by omega) (by omega)
    obtain ⟨e5, g5⟩ := P.g ((g1.mono le_rfl (b' := b + 95) (by omega)).sub g4) (by omega) (by omega)
    obtain ⟨e6, g6⟩ := P.g (g5.add (g3.mono le_rfl (by omega))) (by omega) (by omega)
    obtain ⟨e7, g7⟩ := P.m (g6.mag.div (Mag.natCast hm)) (by omega) (by omega)
    obtain ⟨e8, g8⟩ := P.m (g7.mul g7) (by omega) (by omega)
    obtain ⟨e9, g9⟩ := P.pacc hsq (g8.mono (by omega) (by omega)) (P.nonneg (mul_self_nonneg _)) (by omega)
      (by omega) (by omega)
    rw [e4, e5, e6, e7, e8, e9]
    exact ⟨rfl, g9⟩
  dsimp only
  by_cases h0 : j = 0
  · simp only [if_pos h0]
    obtain ⟨e1, a1⟩ := P.sum_acc (hx.slice (0 : ℕ) (m : ℕ)) (by omega) (by omega)
    obtain ⟨e2, a2⟩ := P.sum_acc (hx.slice (m : ℕ) (2 * m : ℕ)) (by omega) (by omega)
    obtain ⟨e3, a3⟩ := P.sum_acc (hx.slice (2 * m : ℕ) (3 * m : ℕ)) (by omega) (by omega)
    rw [e1, e2, e3, ok_bind, ok_bind]
    dsimp only
    obtain ⟨t1, t2⟩ := tail (up a1 (by omega)) (up a2 (by omega)) (up a3 (by omega))
    rw [t1]
    exact Same.ok rfl ⟨fun _ => ⟨up a1 (by omega), up a2 (by omega), up a3 (by omega)⟩, t2⟩
  · simp only [if_neg h0]
    obtain ⟨h1, h2, h3⟩ := hst (by omega)
    have key : ∀ {c u v : ℝ}, Acc g (b + 47) (2 * j) c → Grid g b u → Grid g b v →
        fl (fl (c - u) + v) = r (r (c - u) + v) ∧ Acc g (b + 47) (2 * (j + 1)) (r (r (c - u) + v)) := by
      intro c u v hc hu hv
      obtain ⟨e1, a1⟩ := P.acc_sub hc (hu.mono le_rfl (by omega)) (by omega) (by omega) (by omega)
      obtain ⟨e2, a2⟩ := P.acc a1 (hv.mono le_rfl (by omega)) (by omega) (by omega) (by omega)
      rw [e1, e2]
      exact ⟨rfl, a2⟩
    refine (pyGet_same hx.2 _).bind fun a1 ha1 => ?_
    refine (pyGet_same hx.2 _).bind fun b1 hb1 => ?_
    refine (pyGet_same hx.2 _).bind fun a2 ha2 => ?_
    refine (pyGet_same hx.2 _).bind fun b2 hb2 => ?_
    refine (pyGet_same hx.2 _).bind fun a3 ha3 => ?_
    refine (pyGet_same hx.2 _).bind fun b3 hb3 => ?_
    obtain ⟨e1, k1⟩ := key h1 ha1 hb1
    obtain ⟨e2, k2⟩ := key h2 ha2 hb2
    obtain ⟨e3, k3⟩ := key h3 ha3 hb3
    rw [e1, e2, e3, ok_bind, ok_bind]
    dsimp only
    obtain ⟨t1, t2⟩ := tail k1 k2 k3
    rw [t1]
    exact Same.ok rfl ⟨fun _ => ⟨k1, k2, k3⟩, t2⟩

theorem Mag.nat_mul {n k : ℕ} {c L : ℕ} (hc : c ≤ 2 ^ k) (hn : n ≤ 2 ^ L) : Mag 0 (k + L) ((c : ℝ) * n) := by
  have := (Mag.natCast hc).mul (Mag.natCast hn)
  simpa using this

theorem slice_len_le (l : List ℝ) (i j : ℤ) : (slice l i j).length ≤ l.length :=
  ((List.drop_sublist _ _).trans (List.take_sublist _ _)).length_le

/-- detrending, then the mirrored sequence -/
theorem tot_extend {g b g' b' : ℤ} {xs : List ℝ} (hx : Arr g b xs) (hl : xs.length ≤ 2 ^ 44) {f f' : ℝ → ℕ → ℝ}
    (H : ∀ v i, Grid g b v → i < xs.length → f v i = f' v i ∧ Grid g' b' (f' v i)) :
    xs.zipIdx.map (fun p => f p.1 p.2) = xs.zipIdx.map (fun p => f' p.1 p.2) ∧
      Arr g' b' ((xs.zipIdx.map (fun p => f' p.1 p.2)).reverse ++ xs.zipIdx.map (fun p => f' p.1 p.2) ++
        (xs.zipIdx.map (fun p => f' p.1 p.2)).reverse) := by
  have key : ∀ p ∈ xs.zipIdx, f p.1 p.2 = f' p.1 p.2 ∧ Grid g' b' (f' p.1 p.2) := by
    intro p hp
    have h1 := List.mem_zipIdx_iff_getElem?.1 hp
    exact H _ _ (hx.2 _ (List.mem_of_getElem? h1)) (List.getElem?_eq_some_iff.1 h1).1
  have h2 : ∀ w ∈ xs.zipIdx.map (fun p => f' p.1 p.2), Grid g' b' w := by
    intro w hw
    obtain ⟨p, hp, rfl⟩ := List.mem_map.1 hw
    exact (key p hp).2
  refine ⟨List.map_congr_left fun p hp => (key p hp).1, ?_, fun w hw => ?_⟩
  · simp only [List.length_append, List.length_reverse, List.length_map, List.length_zipIdx]
    omega
  · simp only [List.mem_append, List.mem_reverse, or_self] at hw
    exact h2 w hw

theorem pyAssert_same (p : Prop) [Decidable p] : Same (fun _ => p) (pyAssert p) (pyAssert p) := by
  refine ⟨rfl, fun v hv => ?_⟩
  unfold pyAssert at hv
  split_ifs at hv with h
  exact h

/-! ## `mtotdev` -/

theorem RangePair.calc_mtotdev (P : RangePair fl r sum sum') {phase : List ℝ} {rate : ℝ}
    (hp : Arr (-152) 100 phase) (hN : phase.length ≤ 2 ^ 26) (hr : Mag (-40) 40 rate) (m : ℕ) (hm : m ≤ 2 ^ 26) :
    Same (fun row => Mag (-511) 430 row.1 ∧ Mag 0 48 (row.2.2 : ℝ)) (calc_mtotdev_phase_fl fl sum phase rate m)
      (calc_mtotdev_phase_fl r sum' phase rate m) := by
  unfold calc_mtotdev_phase_fl
  dsimp only
  obtain ⟨et, ht⟩ := P.m (Mag.one.div hr) (by norm_num) (by norm_num)
  replace ht : Mag (-40) 40 (r (1 / rate)) := ht.mono (by norm_num) (by norm_num)
  simp only [et]
  generalize hK : (phase.length : ℤ) - 3 * m + 1 = K
  have hK' : K.toNat ≤ 2 ^ 27 := by omega
  refine (forRange_same (fun i (st : ℝ × ℕ) => PAcc (-861) 735 i st.1) (PAcc.zero _ _) fun i hi st hst => ?_).bind
    fun st hst => ?_
  · have hxs := hp.slice (i : ℕ) (i + 3 * m : ℕ)
    have hl := (slice_len_le phase (i : ℕ) (i + 3 * m : ℕ)).trans hN
    generalize slice phase (i : ℕ) (i + 3 * m : ℕ) = xs at hxs hl ⊢
    refine (pyAssert_same _).bind fun _ _ => ?_
    obtain ⟨es, hs⟩ := P.tot_slope (L := 26) (s := -40) (t := 68) hxs hl m hm
      (scale := fun d => fl (d * r (1 / rate))) (scale' := fun d => r (d * r (1 / rate)))
      (fun d hd => by
        obtain ⟨e, h⟩ := P.m (hd.mul ht) (by norm_num) (by norm_num)
        exact ⟨e, h.mono (by norm_num) (by norm_num)⟩)
      (by norm_num) (by norm_num) (by norm_num) (by norm_num) (by norm_num)
    rw [es]
    generalize tot_slope_fl r sum' (fun d => r (d * r (1 / rate))) xs m = slope at hs
    obtain ⟨ex, hx⟩ := tot_extend (g' := -390) (b' := 255) hxs (hl.trans (by norm_num))
      (f := fun v i => fl (v - fl (fl (slope * (i : ℕ)) * r (1 / rate))))
      (f' := fun v i => r (v - r (r (slope * (i : ℕ)) * r (1 / rate))))
      (fun v i hv hi => by
        obtain ⟨e1, h1⟩ := P.m (hs.mul (Mag.natCast (b := 26) (hi.le.trans hl))) (by norm_num) (by norm_num)
        have h2 := h1.mul ht
        obtain ⟨e2, _⟩ := P.m h2 (by norm_num) (by norm_num)
        have h3 := h2.round_grid (P.binary _)
        obtain ⟨e4, h4⟩ := P.g ((hv.mono (g' := -390) (b' := 254) (by norm_num) (by norm_num)).sub
          (h3.mono (by norm_num) (by norm_num))) (by norm_num) (by norm_num)
        rw [e1, e2, e4]
        exact ⟨rfl, h4⟩)
    rw [ex]
    refine (pyAssert_same _).bind fun _ _ => ?_
    refine (P.tot_inner (L := 26) hx m hm (by norm_num) (by norm_num) (by norm_num)).bind fun q hq => ?_
    have h6 : Mag 0 29 (6 * (m : ℝ)) := by
      have := Mag.nat_mul (k := 3) (c := 6) (by norm_num) hm
      simpa using this
    have hq' := hq.mag (k := 29) (by omega)
    obtain ⟨e1, h1⟩ := P.m h6 (by norm_num) (by norm_num)
    obtain ⟨e2, h2⟩ := P.m (Mag.one.div h1) (by norm_num) (by norm_num)
    obtain ⟨e3, h3⟩ := P.m (h2.mul hq') (by norm_num) (by norm_num)
    have hnn : 0 ≤ r (r (1 / r (6 * (m : ℝ))) * q) :=
      P.nonneg (mul_nonneg (P.nonneg (div_nonneg zero_le_one (P.nonneg (by positivity)))) hq.nonneg)
    obtain ⟨e4, h4⟩ := P.pacc hst (h3.mono (by norm_num) (by norm_num)) hnn (by omega) (by norm_num) (by norm_num)
    simp only [e1, e2, e3, e4]
    exact Same.ok rfl h4
  · obtain ⟨dev, n⟩ := st
    dsimp only at hst ⊢
    refine (pyAssert_same _).bind fun _ hn => ?_
    have hn' : n ≤ 2 ^ 27 := by omega
    have hd := hst.mag hK'
    have k1 : Mag 0 27 (K : ℝ) := by
      rw [← hn, Int.cast_natCast]; exact Mag.natCast hn'
    have m1 := Mag.natCast hm
    obtain ⟨e1, h1⟩ := P.m (m1.mul ht) (by norm_num) (by norm_num)
    obtain ⟨e2, h2⟩ := P.m (h1.mul h1) (by norm_num) (by norm_num)
    obtain ⟨e3, h3⟩ := P.m (Mag.two.mul h2) (by norm_num) (by norm_num)
    obtain ⟨e4, h4⟩ := P.m (h3.mul k1) (by norm_num) (by norm_num)
    obtain ⟨e5, h5⟩ := P.m (hd.mul Mag.one) (by norm_num) (by norm_num)
    obtain ⟨e6, h6⟩ := P.m (h5.div h4) (by norm_num) (by norm_num)
    obtain ⟨e7, h7⟩ := P.m (Mag.sqrt (a := -511) (b := 430) (h6.mono (by norm_num) (by norm_num)))
      (by norm_num) (by norm_num)
    obtain ⟨e8, h8⟩ := P.m (Mag.sqrt (a := 0) (b := 24) ((Mag.natCast hn').mono (by norm_num) (by norm_num)))
      (by norm_num) (by norm_num)
    obtain ⟨e9, h9⟩ := P.m (h7.div h8) (by norm_num) (by norm_num)
    rw [e1, e2, e3, e4, e5, e6, e7, e8, e9]
    refine Same.ok rfl ⟨h7, ?_⟩
    rw [Int.cast_natCast]
    exact (Mag.natCast hn').mono (by norm_num) (by norm_num)

/-! ## `htotdev` -/

theorem RangePair.calc_htotdev (P : RangePair fl r sum sum') {freq : List ℝ}
    (hp : Arr (-244) 141 freq) (hN : freq.length ≤ 2 ^ 39) (m : ℕ) (hm : m ≤ 2 ^ 39) :
    Same (fun _ => True) (calc_htotdev_freq_fl fl sum freq m) (calc_htotdev_freq_fl r sum' freq m) := by
  unfold calc_htotdev_freq_fl
  dsimp only
  generalize hK : (freq.length : ℤ) - 3 * m + 1 = K
  have hK' : K.toNat ≤ 2 ^ 40 := by omega
  refine (forRange_same (fun i (st : ℝ × ℕ) => PAcc (-979) 800 i st.1) (PAcc.zero _ _) fun i hi st hst => ?_).bind
    fun st hst => ?_
  · have hxs := hp.slice (i : ℕ) (i + 3 * m : ℕ)
    have hl := (slice_len_le freq (i : ℕ) (i + 3 * m : ℕ)).trans hN
    generalize slice freq (i : ℕ) (i + 3 * m : ℕ) = xs at hxs hl ⊢
    refine (pyAssert_same _).bind fun _ _ => ?_
    obtain ⟨es, hs⟩ := P.tot_slope (L := 39) (s := 0) (t := 41) hxs hl m hm
      (scale := fun d => d) (scale' := fun d => d)
      (fun d hd => ⟨rfl, hd.mono (by norm_num) (by norm_num)⟩)
      (by norm_num) (by norm_num) (by norm_num) (by norm_num) (by norm_num)
    rw [es]
    generalize tot_slope_fl r sum' (fun d => d) xs m = slope at hs
    have hfl : ⌊(3 * m / 2 : ℝ)⌋ = ((3 * m / 2 : ℕ) : ℤ) := by
      have := floor_half (3 * m)
      push_cast at this ⊢
      exact this
    obtain ⟨ex, hx⟩ := tot_extend (g' := -428) (b' := 232) hxs (hl.trans (by norm_num))
      (f := fun v i => fl (v - fl (slope * fl ((i : ℕ) - ⌊(3 * m / 2 : ℝ)⌋))))
      (f' := fun v i => r (v - r (slope * r ((i : ℕ) - ⌊(3 * m / 2 : ℝ)⌋))))
      (fun v i hv hi => by
        have hi' := hi.le.trans hl
        have hk : |(i : ℤ) - ⌊(3 * m / 2 : ℝ)⌋| ≤ 2 ^ 41 := by
          rw [hfl, abs_le]; omega
        have h0 := (Grid.intCast hk).mag
        push_cast at h0
        obtain ⟨e0, h0⟩ := P.m h0 (by norm_num) (by norm_num)
        have h2 := hs.mul h0
        obtain ⟨e2, _⟩ := P.m h2 (by norm_num) (by norm_num)
        have h3 := h2.round_grid (P.binary _)
        obtain ⟨e4, h4⟩ := P.g ((hv.mono (g' := -428) (b' := 231) (by norm_num) (by norm_num)).sub
          (h3.mono (by norm_num) (by norm_num))) (by norm_num) (by norm_num)
        rw [e0, e2, e4]
        exact ⟨rfl, h4⟩)
    rw [ex]
    refine (pyAssert_same _).bind fun _ _ => ?_
    refine (P.tot_inner (L := 39) hx m hm (by norm_num) (by norm_num) (by norm_num)).bind fun q hq => ?_
    have h6 : Mag 0 45 (6 * ((6 * m : ℕ) : ℝ)) := by
      have := Mag.nat_mul (k := 6) (c := 36) (by norm_num) hm
      push_cast at this ⊢
      rw [← mul_assoc]
      norm_num at this ⊢
      exact this
    have hq' := hq.mag (k := 42) (by omega)
    obtain ⟨e1, h1⟩ := P.m h6 (by norm_num) (by norm_num)
    obtain ⟨e2, h2⟩ := P.m (Mag.one.div h1) (by norm_num) (by norm_num)
    obtain ⟨e3, h3⟩ := P.m (h2.mul hq') (by norm_num) (by norm_num)
    have hnn : 0 ≤ r (r (1 / r (6 * ((6 * m : ℕ) : ℝ))) * q) :=
      P.nonneg (mul_nonneg (P.nonneg (div_nonneg zero_le_one (P.nonneg (by positivity)))) hq.nonneg)
    obtain ⟨e4, h4⟩ := P.pacc hst (h3.mono (by norm_num) (by norm_num)) hnn (by omega) (by norm_num) (by norm_num)
    simp only [e1, e2, e3, e4]
    exact Same.ok rfl h4
  · obtain ⟨dev, n⟩ := st
    dsimp only at hst ⊢
    refine (pyAssert_same _).bind fun _ hn => ?_
    have hn' : n ≤ 2 ^ 40 := by omega
    have hd := hst.mag hK'
    have k1 : Mag 0 40 (K : ℝ) := by
      rw [← hn, Int.cast_natCast]; exact Mag.natCast hn'
    obtain ⟨e5, h5⟩ := P.m (hd.mul Mag.one) (by norm_num) (by norm_num)
    obtain ⟨e6, h6⟩ := P.m (h5.div k1) (by norm_num) (by norm_num)
    obtain ⟨e7, h7⟩ := P.m (Mag.sqrt (a := -511) (b := 430) (h6.mono (by norm_num) (by norm_num)))
      (by norm_num) (by norm_num)
    obtain ⟨e8, h8⟩ := P.m (Mag.sqrt (a := 0) (b := 24) ((Mag.natCast hn').mono (by norm_num) (by norm_num)))
      (by norm_num) (by norm_num)
    obtain ⟨e9, h9⟩ := P.m (h7.div h8) (by norm_num) (by norm_num)
    rw [e5, e6, e7, e8, e9]
    exact Same.ok rfl trivial

/-! ## Whole runs -/

theorem RangePair.third (P : RangePair fl r sum sum') {n : ℕ} (hn : n ≤ 2 ^ 47) :
    fl ((n : ℝ) / 3) = r ((n : ℝ) / 3) := by
  have three : Mag 0 2 3 := Or.inr (by norm_num)
  exact (P.m ((Mag.natCast hn).div three) (by norm_num) (by norm_num)).1

theorem RangePair.mtotdev (P : RangePair fl r sum sum') (log10grid : List ℝ) {x : List ℝ} {rate : ℝ} {taus : TausArg}
    (hx : Arr (-152) 100 x) (hN : x.length ≤ 2 ^ 26) (hr : Mag (-40) 40 rate) (ht : SafeTaus rate taus)
    (hR : RangeTaus rate taus) :
    Same (fun o => (∀ t ∈ o.taus, Mag (-40) 87 t) ∧ (∀ d ∈ o.devs, Mag (-511) 430 d) ∧
      ∀ k : ℤ, k ∈ o.ns → Mag 0 48 (k : ℝ)) (mtotdev_fl fl sum log10grid x rate taus)
      (mtotdev_fl r sum' log10grid x rate taus) := by
  unfold mtotdev_fl
  rw [P.third hx.1]
  refine (P.tau log10grid x false _ hx.1 hr ht hR).bind fun o ho => ?_
  obtain ⟨d, ms, ts⟩ := o
  obtain ⟨rfl, h2, h3⟩ := ho
  exact runTaus_same (D := Mag (-511) 430) (n := fun k => Mag 0 48 (k : ℝ)) h3
    fun i m hm => P.calc_mtotdev hx hN hr m ((h2 m hm).le.trans hN)

theorem RangePair.scale_tdev (P : RangePair fl r sum sum') {o : DevOut ℝ} (h1 : ∀ t ∈ o.taus, Mag (-40) 87 t)
    (h2 : ∀ d ∈ o.devs, Mag (-511) 430 d) (hn : ∀ k : ℤ, k ∈ o.ns → Mag 0 48 (k : ℝ)) :
    Same (fun _ => True) (scaleToTdev_fl fl o) (scaleToTdev_fl r o) := by
  have three : Mag 0 2 3 := Or.inr (by norm_num)
  obtain ⟨e3, h3⟩ := P.m (Mag.sqrt (a := 0) (b := 1) (three.mono (by norm_num) (by norm_num)))
    (by norm_num) (by norm_num)
  unfold scaleToTdev_fl vmul_fl
  refine (vop_same (C := Mag (-552) 520) (le_max_left _ _) (le_max_right _ _) h1 h2
    (fun u v hu hv => P.m ((hu.mul hv).mono (by norm_num) (by norm_num)) (by norm_num) (by norm_num))).bind fun td htd => ?_
  rw [e3]
  have key : ∀ v ∈ td, fl (v / r √3) = r (v / r √3) ∧ Mag (-553) 520 (r (v / r √3)) := fun v hv =>
    P.m (((htd.2 v hv).div h3).mono (by norm_num) (by norm_num)) (by norm_num) (by norm_num)
  have em : td.map (fun v => fl (v / r √3)) = td.map (fun v => r (v / r √3)) :=
    List.map_congr_left fun v hv => (key v hv).1
  have hm : ∀ w ∈ td.map (fun v => r (v / r √3)), Mag (-553) 520 w := by
    intro w hw
    obtain ⟨v, hv, rfl⟩ := List.mem_map.1 hw
    exact (key v hv).2
  rw [em]
  refine (vop_same (C := fun _ => True) (le_max_left _ _) (le_max_right _ _) hm hn (fun u k hu hk => ?_)).bind
    fun _ _ => Same.ok rfl trivial
  obtain ⟨a1, b1⟩ := P.m (Mag.sqrt (a := 0) (b := 24) (hk.mono (by norm_num) (by norm_num)))
    (by norm_num) (by norm_num)
  obtain ⟨a2, b2⟩ := P.m (hu.div b1) (by norm_num) (by norm_num)
  rw [a1, a2]
  exact ⟨rfl, trivial⟩

theorem RangePair.ttotdev (P : RangePair fl r sum sum') (log10grid : List ℝ) {x : List ℝ} {rate : ℝ} {taus : TausArg}
    (hx : Arr (-152) 100 x) (hN : x.length ≤ 2 ^ 26) (hr : Mag (-40) 40 rate) (ht : SafeTaus rate taus)
    (hR : RangeTaus rate taus) :
    ttotdev_fl fl sum log10grid x rate taus = ttotdev_fl r sum' log10grid x rate taus :=
  ((P.mtotdev log10grid hx hN hr ht hR).bind fun _ ho => P.scale_tdev ho.1 ho.2.1 ho.2.2).1

/-- the loop over the averaging factors, for phases and frequencies in range -/
theorem RangePair.htotdev_run (P : RangePair fl r sum sum') (log10grid : List ℝ) {x y : List ℝ} {rate : ℝ}
    {taus : TausArg} (hx : Arr (-343) 240 x) (hy : Arr (-244) 141 y) (hN : y.length ≤ 2 ^ 39)
    (hr : Mag (-40) 40 rate) (ht : SafeTaus rate taus) (hR : RangeTaus rate taus) :
    Same (fun _ => True)
      (tau_generator_fl fl log10grid y rate taus false (fl ((y.length : ℝ) / 3)) >>= fun o => runTaus o.2.2 o.2.1
        (fun _ mj => if mj = 1 then calc_hdev_phase_fl fl sum x rate mj 1 else calc_htotdev_freq_fl fl sum o.1 mj))
      (tau_generator_fl r log10grid y rate taus false (r ((y.length : ℝ) / 3)) >>= fun o => runTaus o.2.2 o.2.1
        (fun _ mj => if mj = 1 then calc_hdev_phase_fl r sum' x rate mj 1 else calc_htotdev_freq_fl r sum' o.1 mj)) := by
  rw [P.third hy.1]
  refine (P.tau log10grid y false _ hy.1 hr ht hR).bind fun o ho => ?_
  obtain ⟨d, ms, ts⟩ := o
  obtain ⟨rfl, h2, h3⟩ := ho
  refine (runTaus_same (A := fun _ => True) (D := fun _ => True) (n := fun _ => True) (fun _ _ => trivial)
    fun i m hm => ?_).mono fun _ _ => trivial
  have hm' := (h2 m hm).le.trans hN
  split_ifs
  · exact (P.calc_hdev hx hr m 1 (hm'.trans (by norm_num))).mono fun _ _ => ⟨trivial, trivial⟩
  · exact (P.calc_htotdev hy hN m hm').mono fun _ _ => ⟨trivial, trivial⟩

theorem RangePair.phase2frequency (P : RangePair fl r sum sum') {x : List ℝ} {rate : ℝ}
    (hx : Arr (-152) 100 x) (hr : Mag (-40) 40 rate) :
    phase2frequency_fl fl x rate = phase2frequency_fl r x rate ∧ Arr (-244) 141 (phase2frequency_fl r x rate) := by
  unfold phase2frequency_fl vscale_fl tab
  have key : ∀ i, fl (rate * fl (x.getD (i + 1) 0 - x.getD i 0)) = r (rate * r (x.getD (i + 1) 0 - x.getD i 0)) ∧
      Grid (-244) 141 (r (rate * r (x.getD (i + 1) 0 - x.getD i 0))) := by
    intro i
    have hg : ∀ j, Grid (-152) 100 (x.getD j 0) := by
      intro j
      by_cases hj : j < x.length
      · rw [List.getD_eq_getElem _ _ hj]; exact hx.2 _ (List.getElem_mem hj)
      · rw [List.getD_eq_default _ _ (by omega)]; exact Grid.zero _ _
    obtain ⟨e1, h1⟩ := P.g ((hg (i + 1)).sub (hg i)) (by norm_num) (by norm_num)
    have h2 := hr.mul h1.mag
    obtain ⟨e2, _⟩ := P.m h2 (by norm_num) (by norm_num)
    rw [e1, e2]
    exact ⟨rfl, (h2.round_grid (P.binary _)).mono (by norm_num) (by norm_num)⟩
  simp only [List.map_map]
  refine ⟨List.map_congr_left fun i _ => (key i).1, ?_, fun v hv => ?_⟩
  · have := hx.1
    simp only [List.length_map, List.length_range]
    omega
  · obtain ⟨i, _, rfl⟩ := List.mem_map.1 hv
    exact (key i).2

theorem RangePair.htotdev (P : RangePair fl r sum sum') (log10grid : List ℝ) {x : List ℝ} {rate : ℝ} {taus : TausArg}
    (hx : Arr (-152) 100 x) (hN : x.length ≤ 2 ^ 39) (hr : Mag (-40) 40 rate) (ht : SafeTaus rate taus)
    (hR : RangeTaus rate taus) :
    htotdev_fl fl sum log10grid x rate taus = htotdev_fl r sum' log10grid x rate taus := by
  unfold htotdev_fl
  obtain ⟨e, h⟩ := P.phase2frequency hx hr
  rw [e]
  have hl : (phase2frequency_fl r x rate).length ≤ 2 ^ 39 := by
    simp only [phase2frequency_fl, vscale_fl, tab, List.length_map, List.length_range]
    omega
  exact (P.htotdev_run log10grid (hx.mono (by norm_num) (by norm_num)) h hl hr ht hR).1

theorem RangePair.htotdev_freq (P : RangePair fl r sum sum') (log10grid : List ℝ) {y : List ℝ} {rate : ℝ}
    {taus : TausArg} (hy : Arr (-152) 100 y) (hN : y.length ≤ 2 ^ 39) (hr : Mag (-40) 40 rate)
    (ht : SafeTaus rate taus) (hR : RangeTaus rate taus) :
    htotdev_freq_fl fl sum log10grid y rate taus = htotdev_freq_fl r sum' log10grid y rate taus := by
  unfold htotdev_freq_fl
  exact ((P.freq hy.2 (hN.trans (by norm_num)) hr).bind (Q := fun _ => True) fun x hx =>
    P.htotdev_run log10grid hx (hy.mono (by norm_num) (by norm_num)) hN hr ht hR).1

end AT
