import Verif.Props.PsdInv

/-!
# C55: continuity of the reconstruction and the round trip
-/

namespace AT

open MeasureTheory Set Real Spec

/-- the piecewise PSD with coefficients `h` and exponents `alpha` is continuous at the node
number `j` -/
def Spec.ContinuousAtNode (fn h al : List ℝ) (j : ℕ) : Prop :=
  h.getD j 0 * fn.getD j 0 ^ al.getD j 0 = h.getD (j + 1) 0 * fn.getD j 0 ^ al.getD (j + 1) 0

/-- C55: all points are used (no two consecutive slopes within `mu_tol`): the result, and
the characterisation of the nodes where the reconstructed PSD is continuous -/
theorem adev2psd_nodes {quad : Quad} (hq : QuadExact quad) (adev taus : List ℝ) (vartype : String) (tol : ℝ) (b : Bool)
    (htol : 0 ≤ tol) (hv : ValidPoints adev taus) (hb : IsVar vartype b) (h3 : 3 ≤ adev.length)
    (hdiff : ∀ i, i + 1 < adev.length - 1 → tol < |segSlope adev taus (i + 1) - segSlope adev taus i|)
    (hok : ∀ i < adev.length - 1, Converges b (segSlope adev taus i)) :
    ∃ fn Sy h al : List ℝ, adev2psd_piecewise_approx quad adev taus vartype tol =
        .ok (fn.map some, Sy.map some, h.map some, al) ∧
      fn.length = adev.length - 2 ∧ Sy.length = adev.length - 2 ∧
      h.length = adev.length - 1 ∧ al.length = adev.length - 1 ∧
      (∀ f ∈ fn, 0 < f) ∧ (∀ x ∈ h, 0 < x) ∧
      (∀ j < adev.length - 2, Sy.getD j 0 = h.getD j 0 * fn.getD j 0 ^ al.getD j 0) ∧
      (∀ j < adev.length - 1, al.getD j 0 = -segSlope adev taus (adev.length - 2 - j) - 1) ∧
      ∀ j < adev.length - 2, ContinuousAtNode fn h al j ↔
        taus.getD (adev.length - 2 - j) 0 = 10 * taus.getD (adev.length - 3 - j) 0 := by
  have hk := kept_all (n := adev.length - 1) (by omega) hdiff
  have hok' : ∀ i ∈ List.range (adev.length - 1), Converges b (segSlope adev taus i) :=
    fun i hi => hok i (List.mem_range.1 hi)
  obtain ⟨Sy, h1, h2⟩ := adev2psd_eq hq adev taus vartype tol b htol hv hb _ hk hok'
    (by rw [List.length_range]; omega)
  subst h2
  simp only [List.length_range] at h1
  have e2 : adev.length - 1 - 1 = adev.length - 2 := by omega
  have e3 : adev.length - 1 - 2 = adev.length - 3 := by omega
  rw [e2, e3] at h1
  have hidx : ∀ j < adev.length - 1, (List.range (adev.length - 1)).getD (adev.length - 2 - j) 0 = adev.length - 2 - j :=
    fun j hj => range_getD (by omega)
  refine ⟨tab (adev.length - 2) (fun j => nodeF b adev taus (List.range (adev.length - 1)) (adev.length - 3 - j)),
    tab (adev.length - 2) (fun j => lineH b adev taus (adev.length - 2 - j) *
      nodeF b adev taus (List.range (adev.length - 1)) (adev.length - 3 - j) ^
        (-segSlope adev taus (adev.length - 2 - j) - 1)),
    tab (adev.length - 1) (fun j => lineH b adev taus (adev.length - 2 - j)),
    tab (adev.length - 1) (fun j => -segSlope adev taus (adev.length - 2 - j) - 1),
    ?_, by simp, by simp, by simp, by simp, ?_, ?_, ?_, ?_, ?_⟩
  · rw [h1, map_tab, map_tab, map_tab]
    congr 1
    refine Prod.ext rfl (Prod.ext ?_ (Prod.ext ?_ ?_))
    · exact tab_congr (fun j hj => by rw [hidx j (by omega)])
    · exact tab_congr (fun j hj => by rw [hidx j (by omega)])
    · exact tab_congr (fun j hj => by rw [hidx j (by omega)])
  · intro f hf
    obtain ⟨j, hj, rfl⟩ := List.mem_map.1 hf
    have := List.mem_range.1 hj
    exact nodeF_pos hv hk.lt hok' (by rw [List.length_range]; omega)
  · intro f hf
    obtain ⟨j, hj, rfl⟩ := List.mem_map.1 hf
    have := List.mem_range.1 hj
    exact lineH_pos hv (by omega) (hok _ (by omega))
  · intro j hj
    rw [tab_getD, if_pos hj, tab_getD, if_pos (by omega), tab_getD, if_pos hj, tab_getD, if_pos (by omega)]
  · intro j hj
    rw [tab_getD, if_pos hj]
  · intro j hj
    unfold ContinuousAtNode
    rw [tab_getD, if_pos (by omega), tab_getD, if_pos hj, tab_getD, if_pos (by omega), tab_getD, if_pos (by omega),
      tab_getD, if_pos (by omega)]
    have := adev2psd_continuous_iff_decade (b := b) htol hv hdiff hok (adev.length - 3 - j) (by omega)
    rw [show adev.length - 3 - j + 1 = adev.length - 2 - j by omega] at this
    rw [show adev.length - 2 - (j + 1) = adev.length - 3 - j by omega]
    exact this

/-- C55, the part that holds: for times spaced by exact factors of ten and distinct
slopes the reconstructed PSD is continuous at every returned node.  Missing: other spacings, for
which the property is false (`adev2psd_octave_wrong`). -/
theorem adev2psd_continuous_partial {quad : Quad} (hq : QuadExact quad) (adev taus : List ℝ) (vartype : String)
    (tol : ℝ) (b : Bool) (htol : 0 ≤ tol) (hv : ValidPoints adev taus) (hb : IsVar vartype b) (h3 : 3 ≤ adev.length)
    (hdiff : ∀ i, i + 1 < adev.length - 1 → tol < |segSlope adev taus (i + 1) - segSlope adev taus i|)
    (hok : ∀ i < adev.length - 1, Converges b (segSlope adev taus i))
    (hdec : ∀ i, i + 1 < taus.length → taus.getD (i + 1) 0 = 10 * taus.getD i 0) :
    ∃ fn Sy h al : List ℝ, adev2psd_piecewise_approx quad adev taus vartype tol =
        .ok (fn.map some, Sy.map some, h.map some, al) ∧
      fn.length = adev.length - 2 ∧ h.length = adev.length - 1 ∧ al.length = adev.length - 1 ∧
      ∀ j < fn.length, ContinuousAtNode fn h al j := by
  obtain ⟨fn, Sy, h, al, h1, h2, -, h4, h5, -, -, -, -, h6⟩ :=
    adev2psd_nodes hq adev taus vartype tol b htol hv hb h3 hdiff hok
  refine ⟨fn, Sy, h, al, h1, h2, h4, h5, fun j hj => (h6 j (by omega)).2 ?_⟩
  have := hdec (adev.length - 3 - j) (by rw [← hv.length]; omega)
  rwa [show adev.length - 3 - j + 1 = adev.length - 2 - j by omega] at this

theorem slope_octave : segSlope [1, 1, √2] [1, 2, 4] 0 = 0 ∧ segSlope [1, 1, √2] [1, 2, 4] 1 = 1 := by
  constructor
  · simp [segSlope]
  · have h2 : log 2 ≠ 0 := (log_pos one_lt_two).ne'
    have h4 : log 4 = 2 * log 2 := by
      rw [show (4 : ℝ) = 2 ^ 2 by norm_num, log_pow]
      push_cast
      rfl
    simp only [segSlope, List.getD_cons_succ, List.getD_cons_zero, log_one, sub_zero, h4, log_sqrt (by norm_num : (0 : ℝ) ≤ 2)]
    field_simp
    norm_num

theorem valid_octave : ValidPoints [1, 1, √2] [1, 2, 4] := by
  refine ⟨rfl, by norm_num, ?_, ?_, ?_⟩
  · simp
  · simp
  · intro i hi
    have : i + 1 < 3 := hi
    rcases i with - | - | i
    · norm_num
    · norm_num
    · omega

/-- C55 is false of the code for other spacings: with octave spaced times 1, 2, 4 the
reconstructed PSD jumps at the returned node -/
theorem adev2psd_octave_wrong {quad : Quad} (hq : QuadExact quad) (vartype : String) (hb : IsVar vartype false) :
    ∃ fn Sy h al : List ℝ, adev2psd_piecewise_approx quad [1, 1, √2] [1, 2, 4] vartype (1 / 100000) =
        .ok (fn.map some, Sy.map some, h.map some, al) ∧ fn.length = 1 ∧ ¬ ContinuousAtNode fn h al 0 := by
  obtain ⟨fn, Sy, h, al, h1, h2, -, -, -, -, -, -, -, h6⟩ :=
    adev2psd_nodes hq [1, 1, √2] [1, 2, 4] vartype (1 / 100000) false (by norm_num) valid_octave hb (by norm_num)
      (by
        intro i hi
        have : i + 1 < 2 := hi
        obtain rfl : i = 0 := by omega
        rw [slope_octave.1, slope_octave.2]
        norm_num)
      (by
        intro i hi
        have : i < 2 := hi
        have : i = 0 ∨ i = 1 := by omega
        rcases this with rfl | rfl
        · rw [slope_octave.1]
          constructor <;> norm_num
        · rw [slope_octave.2]
          constructor <;> norm_num)
  refine ⟨fn, Sy, h, al, h1, h2, ?_⟩
  rw [h6 0 (by norm_num)]
  norm_num

/-! ## a single power law -/

/-- a single power law: `adev² = B * tau ** mu` at all points -/
def Spec.SingleSlope (adev taus : List ℝ) (B mu : ℝ) : Prop :=
  ∀ i < adev.length, adev.getD i 0 ^ 2 = B * taus.getD i 0 ^ mu

theorem single_slope_eq {adev taus : List ℝ} {B mu : ℝ} (hv : ValidPoints adev taus) (hB : 0 < B)
    (hs : SingleSlope adev taus B mu) {i : ℕ} (hi : i < adev.length - 1) : segSlope adev taus i = mu := by
  have l : ∀ j < adev.length, 2 * log (adev.getD j 0) = log B + mu * log (taus.getD j 0) := by
    intro j hj
    have t := valid_taus_pos hv hj
    have := congrArg log (hs j hj)
    rw [log_mul hB.ne' (rpow_pos_of_pos t _).ne', log_rpow t, log_pow] at this
    exact_mod_cast this
  have l0 := l i (by omega)
  have l1 := l (i + 1) (by omega)
  have hlt : log (taus.getD i 0) < log (taus.getD (i + 1) 0) :=
    log_lt_log (valid_taus_pos hv (by omega)) (hv.increasing i (by rw [← hv.length]; omega))
  unfold segSlope
  rw [div_eq_iff (by linarith)]
  linarith

theorem kept_single {sl : ℕ → ℝ} {tol mu : ℝ} {n : ℕ} (htol : 0 ≤ tol) (hn : 0 < n) (h : ∀ i < n, sl i = mu) :
    KeptSegments sl tol n [0] := by
  refine ⟨by simp, by simpa using hn, rfl, by simp, fun j hj => ?_⟩
  rcases Nat.eq_zero_or_pos j with rfl | hj0
  · simp
  · right
    refine ⟨0, by simp, hj0, by simp, ?_⟩
    rw [h j hj, h 0 hn, sub_self, abs_zero]
    exact htol

/-- C55: the reconstruction of a single power law.  The PSD has one segment, but two
"nodes" are returned, the reciprocals of the first two times. -/
theorem adev2psd_single {quad : Quad} (hq : QuadExact quad) (adev taus : List ℝ) (vartype : String) (tol : ℝ) (b : Bool)
    (htol : 0 ≤ tol) (hv : ValidPoints adev taus) (hb : IsVar vartype b) (B mu : ℝ) (hB : 0 < B)
    (hs : SingleSlope adev taus B mu) (hc : Converges b mu) :
    adev2psd_piecewise_approx quad adev taus vartype tol =
      .ok ([some (1 / taus.getD 1 0), some (1 / taus.getD 0 0)],
        [some (B / (2 * powerJ b mu * π ^ mu) * (1 / taus.getD 1 0) ^ (-mu - 1)),
          some (B / (2 * powerJ b mu * π ^ mu) * (1 / taus.getD 0 0) ^ (-mu - 1))],
        [some (B / (2 * powerJ b mu * π ^ mu))], [-mu - 1]) := by
  have h2 := hv.two
  have hsl : ∀ i < adev.length - 1, segSlope adev taus i = mu := fun i hi => single_slope_eq hv hB hs hi
  have hk := kept_single htol (n := adev.length - 1) (by omega) hsl
  rw [adev2psd_valid quad adev taus vartype tol b hv hb, psdFilter_eq hv.two hk]
  have hacc : ¬ ∃ m ∈ [0].map (segSlope adev taus), ¬ Accepted b m := by
    rintro ⟨m, hm, hn⟩
    rw [List.map_singleton, List.mem_singleton, hsl 0 (by omega)] at hm
    subst hm
    exact hn ⟨hc.1.le, hc.2.le⟩
  have hBB : adev.getD 1 0 ^ 2 * taus.getD 1 0 ^ (-mu) = B := by
    rw [hs 1 (by omega), mul_assoc, ← rpow_add (valid_taus_pos hv (by omega)), add_neg_cancel, rpow_zero, mul_one]
  have hne : 2 * powerJ b mu * π ^ mu ≠ 0 :=
    (mul_pos (mul_pos two_pos (powerJ_pos hc)) (rpow_pos_of_pos pi_pos _)).ne'
  dsimp only
  rw [if_neg hacc]
  have hhi : (tab ([0].map (segSlope adev taus)).length (fun i =>
      nvDiv (some ((adev.getD 0 0 :: [0].map (fun i => adev.getD (i + 1) 0)).getD (i + 1) 0 ^ 2 *
        (taus.getD 0 0 :: [0].map (fun i => taus.getD (i + 1) 0)).getD (i + 1) 0 ^
          (-([0].map (segSlope adev taus)).getD i 0)))
        (nv2 (· * ·) (nv2 (· * ·) (some 2) (quad (powerIntegrand b (([0].map (segSlope adev taus)).getD i 0))
          ((0 : ℝ) : WithTop ℝ) ⊤)) (some (π ^ ([0].map (segSlope adev taus)).getD i 0))))).reverse =
      [some (B / (2 * powerJ b mu * π ^ mu))] := by
    have e : ([0].map (segSlope adev taus)).getD 0 0 = mu := hsl 0 (by omega)
    show [nvDiv (some (adev.getD 1 0 ^ 2 * taus.getD 1 0 ^ (-([0].map (segSlope adev taus)).getD 0 0)))
      (nv2 (· * ·) (nv2 (· * ·) (some 2) (quad (powerIntegrand b (([0].map (segSlope adev taus)).getD 0 0))
          ((0 : ℝ) : WithTop ℝ) ⊤)) (some (π ^ ([0].map (segSlope adev taus)).getD 0 0)))] = _
    rw [e, hBB, quad_power hq hc]
    simp only [nv2, nvDiv, if_neg hne]
  rw [hhi]
  have hal : tab ([0].map (segSlope adev taus)).length (fun i => -([0].map (segSlope adev taus)).getD
      (([0].map (segSlope adev taus)).length - 1 - i) 0 - 1) = [-mu - 1] := by
    show [-segSlope adev taus 0 - 1] = _
    rw [hsl 0 (by omega)]
  rw [hal]
  have hl : (adev.getD 0 0 :: [0].map (fun i => adev.getD (i + 1) 0)).length = 2 := rfl
  rw [if_pos hl, if_pos hl]
  have hfn : ((taus.getD 0 0 :: [0].map (fun i => taus.getD (i + 1) 0)).map (fun t => some (1 / t))).reverse =
    [some (1 / taus.getD 1 0), some (1 / taus.getD 0 0)] := rfl
  rw [hfn]
  have p1 : 0 < 1 / taus.getD 1 0 := one_div_pos.2 (valid_taus_pos hv (by omega))
  have p0 : 0 < 1 / taus.getD 0 0 := one_div_pos.2 (valid_taus_pos hv (by omega))
  simp only [List.map_cons, List.map_nil, List.getD_cons_zero, nvPow, if_pos p1, if_pos p0, nv2]

theorem psdTerm_power {quad : Quad} (hq : QuadExact quad) {tau B mu : ℝ} (ht : 0 < tau) (hc : Converges false mu) :
    psdTerm quad tau (B / (2 * powerJ false mu * π ^ mu)) (-mu - 1) ((0 : ℝ) : WithTop ℝ) ⊤ =
      some (B * tau ^ mu / 2) := by
  unfold psdTerm
  have hz : (0 : WithTop ℝ).map (fun e => π * tau * e) = ((0 : ℝ) : WithTop ℝ) := by
    show ((π * tau * 0 : ℝ) : WithTop ℝ) = _
    rw [mul_zero]
  have h := quad_power hq hc
  rw [powerIntegrand_allan] at h
  have hz' : (((0 : ℝ) : WithTop ℝ)).map (fun e => π * tau * e) = ((0 : ℝ) : WithTop ℝ) := hz
  rw [hz', WithTop.map_top, h, nv2]
  congr 1
  have hJ := (powerJ_pos hc).ne'
  have hp := (rpow_pos_of_pos pi_pos mu).ne'
  have hpt := (rpow_pos_of_pos (mul_pos pi_pos ht) mu).ne'
  rw [show -mu - 1 + 1 = -mu by ring, rpow_neg (mul_pos pi_pos ht).le, mul_rpow pi_pos.le ht.le]
  have ht' := (rpow_pos_of_pos ht mu).ne'
  field_simp

/-- C55: the one-segment PSD reconstructed from a single power law gives back the power law
when it is integrated over all frequencies (no nodes) -/
theorem psd_single_roundtrip {quad : Quad} (hq : QuadExact quad) (B mu : ℝ) (hB : 0 < B) (hc : Converges false mu)
    (taus : List ℝ) (ht : ∀ t ∈ taus, 0 < t) :
    psd_piecewise_to_adev quad [B / (2 * powerJ false mu * π ^ mu)] [-mu - 1] [] taus =
      .ok (taus.map (fun t => some √(B * t ^ mu))) := by
  rw [psd_piecewise_to_adev_total _ _ _ _ _ (by simp) (by simp)]
  congr 1
  apply List.map_congr_left
  intro t h
  have ht' := ht t h
  show nvSqrt (nv2 (· * ·) (some 2) (psdTotal quad t (((0 : ℝ) : WithTop ℝ) :: ⊤ :: []) (_ :: []) (_ :: []))) = _
  rw [psdTotal_cons, psdTotal_nil, nvAdd_zero, psdTerm_power hq ht' hc]
  have hpos := mul_pos hB (rpow_pos_of_pos ht' mu)
  simp only [nv2, nvSqrt]
  rw [show 2 * (B * t ^ mu / 2) = B * t ^ mu by ring, if_neg (not_lt.2 hpos.le)]

/-- C55, the part of the round trip that holds: the coefficients of the reconstruction of a single power law
give back the deviations when passed with an empty list of nodes.  Missing: the round
trip with the returned nodes, which is false (`adev2psd_roundtrip_wrong`). -/
theorem adev2psd_roundtrip_partial {quad : Quad} (hq : QuadExact quad) (adev taus : List ℝ) (vartype : String)
    (tol : ℝ) (htol : 0 ≤ tol) (hv : ValidPoints adev taus) (hb : IsVar vartype false) (B mu : ℝ) (hB : 0 < B)
    (hs : SingleSlope adev taus B mu) (hc : Converges false mu) :
    ∃ fn Sy h al, adev2psd_piecewise_approx quad adev taus vartype tol = .ok (fn, Sy, h.map some, al) ∧
      psd_piecewise_to_adev quad h al [] taus = .ok (adev.map some) := by
  have h := adev2psd_single hq adev taus vartype tol false htol hv hb B mu hB hs hc
  refine ⟨_, _, [B / (2 * powerJ false mu * π ^ mu)], _, h, ?_⟩
  rw [psd_single_roundtrip hq B mu hB hc taus hv.taus_pos]
  congr 1
  conv_lhs => rw [eq_tab taus 0]
  conv_rhs => rw [eq_tab adev 0]
  rw [map_tab, map_tab, ← hv.length]
  apply tab_congr
  intro i hi
  rw [← hs i hi, sqrt_sq (valid_adev_pos hv hi).le]

/-- C55 is false of the code: with the nodes that adev2psd_piecewise_approx returns for a
single power law, psd_piecewise_to_adev integrates only up to the first of them, and every
value is strictly smaller than the original deviation -/
theorem adev2psd_roundtrip_wrong {quad : Quad} (hq : QuadExact quad) (adev taus : List ℝ) (vartype : String)
    (tol : ℝ) (htol : 0 ≤ tol) (hv : ValidPoints adev taus) (hb : IsVar vartype false) (B mu : ℝ) (hB : 0 < B)
    (hs : SingleSlope adev taus B mu) (hc : Converges false mu) :
    ∃ (fn : List ℝ) (Sy : List NV) (h al r : List ℝ), adev2psd_piecewise_approx quad adev taus vartype tol = .ok (fn.map some, Sy, h.map some, al) ∧
      psd_piecewise_to_adev quad h al fn taus = .ok (r.map some) ∧ r.length = adev.length ∧
      ∀ i < adev.length, r.getD i 0 < adev.getD i 0 := by
  have h := adev2psd_single hq adev taus vartype tol false htol hv hb B mu hB hs hc
  have h2 := hv.two
  have ha : 0 < B / (2 * powerJ false mu * π ^ mu) :=
    div_pos hB (mul_pos (mul_pos two_pos (powerJ_pos hc)) (rpow_pos_of_pos pi_pos _))
  set x := B / (2 * powerJ false mu * π ^ mu) with hx
  have hc0 : 0 < 1 / taus.getD 1 0 := one_div_pos.2 (valid_taus_pos hv (by omega))
  set c := 1 / taus.getD 1 0 with hcdef
  have s1 : SegOk (-mu - 1) 0 (c : WithTop ℝ) :=
    ⟨le_rfl, WithTop.coe_le_coe.2 hc0.le, fun _ => by have : mu < 2 := hc.2; linarith, fun h => absurd h WithTop.coe_ne_top⟩
  have s2 : SegOk (-mu - 1) c ⊤ := ⟨hc0.le, le_top, fun h => absurd h hc0.ne', fun _ => by linarith [hc.1]⟩
  have hval : ∀ t, 0 < t → ∃ v, psdTerm quad t x (-mu - 1) ((0 : ℝ) : WithTop ℝ) (c : WithTop ℝ) = some v ∧
      0 ≤ v ∧ 2 * v < B * t ^ mu := by
    intro t ht
    have a1 := psdTerm_eq hq ht x s1
    have a2 := psdTerm_eq hq ht x s2
    have add := psdTerm_add hq ht x (a := -mu - 1) le_rfl hc0.le hc0 le_top (fun _ => by have : mu < 2 := hc.2; linarith)
      (fun _ => by linarith [hc.1])
    rw [a1.2, a2.2, psdTerm_power hq ht hc, nv2] at add
    injection add with add
    refine ⟨_, a1.2, ?_, ?_⟩
    · refine setIntegral_nonneg (measurableSet_seg _ _) (fun f hf => ?_)
      refine mul_nonneg (mul_nonneg ha.le (rpow_nonneg hf.1.le _)) (div_nonneg (by positivity) (by positivity))
    · have hpos : 0 < ∫ f in seg c ⊤, x * f ^ (-mu - 1) * allanWeight t f := by
        rw [setIntegral_congr_fun (measurableSet_seg _ _) (fun f hf =>
          psd_weight_eq ht (hc0.trans hf.1) x (-mu - 1)), integral_const_mul,
          integral_seg_scale (mul_pos pi_pos ht), WithTop.map_top, seg_top]
        refine mul_pos (div_pos ha (rpow_pos_of_pos (mul_pos pi_pos ht) _)) (mul_pos (inv_pos.2 (mul_pos pi_pos ht)) ?_)
        exact psdIntegrand_tail_pos (by linarith [hc.1]) (mul_pos (mul_pos pi_pos ht) hc0)
      linarith
  choose! v hv1 hv2 hv3 using hval
  refine ⟨[c, 1 / taus.getD 0 0], _, [x], [-mu - 1], taus.map (fun t => √(2 * v t)), h, ?_, ?_, ?_⟩
  · rw [psd_piecewise_to_adev_total _ _ _ _ _ (by simp) (by simp), List.map_map]
    congr 1
    apply List.map_congr_left
    intro t ht
    have ht' := hv.taus_pos t ht
    show nvSqrt (nv2 (· * ·) (some 2) (psdTotal quad t
      (((0 : ℝ) : WithTop ℝ) :: (c : WithTop ℝ) :: _) (x :: []) (_ :: []))) = _
    rw [psdTotal_cons, psdTotal_nil, nvAdd_zero, hv1 t ht']
    simp only [nv2, nvSqrt]
    rw [if_neg (not_lt.2 (by linarith [hv2 t ht']))]
    rfl
  · rw [List.length_map, hv.length]
  · intro i hi
    have ht := valid_taus_pos hv hi
    have e : (taus.map (fun t => √(2 * v t))).getD i 0 = √(2 * v (taus.getD i 0)) := by
      rw [hv.length] at hi
      simp [List.getD_eq_getElem?_getD, List.getElem?_eq_getElem hi]
    rw [e]
    apply (sqrt_lt' (valid_adev_pos hv hi)).2
    rw [hs i hi]
    exact hv3 _ ht

/-- the names are compared without regard to case -/
theorem isVar_examples : IsVar "adev" false ∧ IsVar "ADEV" false ∧ IsVar "Hdev" true := by
  refine ⟨?_, ?_, ?_⟩ <;> (unfold IsVar; apply String.toList_inj.1; simp [String.toLower, String.toList_map])

/-- white frequency noise, `adev² = 1/tau`, at the times 1 and 4 is a single power law -/
example : ValidPoints [1, 1 / 2] [1, 4] ∧ SingleSlope [1, 1 / 2] [1, 4] 1 (-1) ∧ Converges false (-1) := by
  refine ⟨⟨rfl, by norm_num, by norm_num, by norm_num, ?_⟩, ?_, by unfold Converges; norm_num⟩
  · intro i hi
    have : i + 1 < 2 := hi
    obtain rfl : i = 0 := by omega
    norm_num
  · intro i hi
    have : i < 2 := hi
    have : i = 0 ∨ i = 1 := by omega
    rcases this with rfl | rfl
    · norm_num
    · norm_num [rpow_neg_one]

/-! ## the end points of the accepted range -/

theorem not_integrable_one_div (c : ℝ) (hc : 0 < c) : ¬ IntegrableOn (fun z : ℝ => z⁻¹) (Ioi c) := by
  intro h
  have : IntegrableOn (fun z : ℝ => z ^ (-1 : ℝ)) (Ioi c) := by
    refine (integrableOn_congr_fun (fun z hz => ?_) measurableSet_Ioi).2 h
    rw [rpow_neg_one]
  rw [integrableOn_Ioi_rpow_iff hc] at this
  exact lt_irrefl _ this

theorem integrableOn_Ioi_comp_add_right_iff (g : ℝ → ℝ) (a c : ℝ) :
    IntegrableOn (fun z => g (z + c)) (Ioi a) ↔ IntegrableOn g (Ioi (a + c)) := by
  rw [← integrable_indicator_iff measurableSet_Ioi, ← integrable_indicator_iff measurableSet_Ioi]
  have e : (Ioi a).indicator (fun z => g (z + c)) = fun z => (Ioi (a + c)).indicator g (z + c) := by
    ext z
    by_cases hz : z ∈ Ioi a
    · rw [indicator_of_mem hz, indicator_of_mem (by simpa using hz)]
    · rw [indicator_of_notMem hz, indicator_of_notMem (by simpa using hz)]
  rw [e]
  constructor
  · intro h
    simpa using h.comp_add_right (-c)
  · intro h
    exact h.comp_add_right c

/-- the integral `J(-2)` of white phase noise diverges at infinity -/
theorem not_integrable_neg_two : ¬ IntegrableOn (powerIntegrand false (-2)) (Ioi 0) := by
  intro h
  have h1 : IntegrableOn (fun z : ℝ => sin z ^ 4 / z) (Ioi 0) := by
    refine (integrableOn_congr_fun (fun z hz => ?_) measurableSet_Ioi).2 h
    simp only [powerIntegrand, Bool.false_eq_true, if_false, one_mul]
    rw [show (3 : ℝ) + -2 = 1 by norm_num, rpow_one]
  have h2 : IntegrableOn (fun z : ℝ => sin (z + π / 2) ^ 4 / (z + π / 2)) (Ioi 0) := by
    have := (integrableOn_Ioi_comp_add_right_iff (fun z : ℝ => sin z ^ 4 / z) 0 (π / 2)).2
      (h1.mono_set (Ioi_subset_Ioi (by rw [zero_add]; positivity)))
    exact this
  have hpi := pi_pos
  have h3 : IntegrableOn (fun z : ℝ => 1 / 2 * (z + π / 2)⁻¹) (Ioi 0) := by
    refine (h1.add h2).mono' (by fun_prop) ?_
    refine (ae_restrict_iff' measurableSet_Ioi).2 (Filter.Eventually.of_forall fun z hz => ?_)
    have hz' : (0 : ℝ) < z := hz
    have hp : 0 < z + π / 2 := by positivity
    rw [norm_of_nonneg (by positivity)]
    simp only [Pi.add_apply, sin_add_pi_div_two]
    have e1 : sin z ^ 4 / (z + π / 2) ≤ sin z ^ 4 / z :=
      div_le_div_of_nonneg_left (by positivity) hz' (by linarith)
    have e2 : 1 / 2 ≤ sin z ^ 4 + cos z ^ 4 := by
      nlinarith [sin_sq_add_cos_sq z, sq_nonneg (sin z ^ 2 - cos z ^ 2)]
    calc 1 / 2 * (z + π / 2)⁻¹ ≤ (sin z ^ 4 + cos z ^ 4) * (z + π / 2)⁻¹ :=
          mul_le_mul_of_nonneg_right e2 (inv_nonneg.2 hp.le)
      _ = sin z ^ 4 / (z + π / 2) + cos z ^ 4 / (z + π / 2) := by ring
      _ ≤ _ := by linarith
  have h4 : IntegrableOn (fun z : ℝ => (z + π / 2)⁻¹) (Ioi 0) := by
    have := h3.const_mul 2
    refine (integrableOn_congr_fun (fun z hz => ?_) measurableSet_Ioi).2 this
    ring
  have h5 : IntegrableOn (fun z : ℝ => z⁻¹) (Ioi (0 + π / 2)) :=
    (integrableOn_Ioi_comp_add_right_iff (fun z : ℝ => z⁻¹) 0 (π / 2)).1 h4
  exact not_integrable_one_div _ (by rw [zero_add]; positivity) h5

/-- the integral `J(2)` of frequency drift like noise diverges at zero -/
theorem not_integrable_two : ¬ IntegrableOn (powerIntegrand false 2) (Ioi 0) := by
  intro h
  have h1 := h.mono_set (Ioc_subset_Ioi_self : Ioc (0 : ℝ) 1 ⊆ Ioi 0)
  have h2 : IntegrableOn (fun z : ℝ => z⁻¹) (Ioc 0 1) := by
    have h3 := h1.const_mul ((π / 2) ^ 4)
    refine h3.mono' (by fun_prop) ?_
    refine (ae_restrict_iff' measurableSet_Ioc).2 (Filter.Eventually.of_forall fun z hz => ?_)
    have hz' : 0 < z := hz.1
    rw [norm_of_nonneg (by positivity)]
    simp only [powerIntegrand, Bool.false_eq_true, if_false, one_mul]
    have hs : 2 / π * z ≤ sin z := mul_le_sin hz'.le (by linarith [hz.2, two_le_pi])
    have hs4 : (2 / π * z) ^ 4 ≤ sin z ^ 4 := pow_le_pow_left₀ (by positivity) hs 4
    rw [show (3 : ℝ) + 2 = ((5 : ℕ) : ℝ) by norm_num, rpow_natCast]
    calc z⁻¹ = (π / 2) ^ 4 * ((2 / π * z) ^ 4 / z ^ 5) := by
          have := pi_pos.ne'
          field_simp
      _ ≤ _ := by gcongr
  have h6 : IntervalIntegrable (fun z : ℝ => z⁻¹) volume 0 1 :=
    (intervalIntegrable_iff_integrableOn_Ioc_of_le zero_le_one).2 h2
  rw [intervalIntegrable_inv_iff] at h6
  simp at h6

/-- The check of the code is `-2 <= mu <= 2`, so that input of slope -2 (white phase noise,
`adev` proportional to `1/tau`) or 2 is accepted although the integral is infinite: no
exception is raised, whatever the integration routine returns. -/
theorem adev2psd_divergent_accepted (quad : Quad) (adev taus : List ℝ) (vartype : String) (tol : ℝ)
    (htol : 0 ≤ tol) (hv : ValidPoints adev taus) (hb : IsVar vartype false) (B mu : ℝ) (hB : 0 < B)
    (hs : SingleSlope adev taus B mu) (hmu : mu = -2 ∨ mu = 2) :
    ¬ IntegrableOn (powerIntegrand false mu) (Ioi 0) ∧
      ∃ r, adev2psd_piecewise_approx quad adev taus vartype tol = .ok r := by
  constructor
  · rcases hmu with rfl | rfl
    · exact not_integrable_neg_two
    · exact not_integrable_two
  · have h2 := hv.two
    have hsl : ∀ i < adev.length - 1, segSlope adev taus i = mu := fun i hi => single_slope_eq hv hB hs hi
    have hk := kept_single htol (n := adev.length - 1) (by omega) hsl
    rw [adev2psd_valid quad adev taus vartype tol false hv hb, psdFilter_eq hv.two hk]
    have hacc : ¬ ∃ m ∈ [0].map (segSlope adev taus), ¬ Accepted false m := by
      rintro ⟨m, hm, hn⟩
      rw [List.map_singleton, List.mem_singleton, hsl 0 (by omega)] at hm
      subst hm
      apply hn
      rcases hmu with rfl | rfl <;> constructor <;> norm_num
    dsimp only
    rw [if_neg hacc]
    exact ⟨_, rfl⟩

end AT
