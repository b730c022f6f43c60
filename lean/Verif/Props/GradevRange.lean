import Verif.Props.FloatGradev
import Verif.Props.HatRange

/-!
# `gradev` with a limited range of exponents
-/

namespace AT

open Spec

variable {fl r : ℝ → ℝ} {sum sum' : List ℝ → ℝ}

/-- an array with NaN whose numbers are on a grid -/
def ArrNV (g b : ℤ) (l : List NV) : Prop := l.length ≤ 2 ^ 47 ∧ ∀ o ∈ l, ∀ v, o = some v → Grid g b v

theorem ArrNV.mono {g b g' b' : ℤ} {l : List NV} (h : ArrNV g b l) (hg : g' ≤ g) (hb : b ≤ b') : ArrNV g' b' l :=
  ⟨h.1, fun o ho v hv => (h.2 o ho v hv).mono hg hb⟩

theorem ArrNV.sublist {g b : ℤ} {l l' : List NV} (h : ArrNV g b l) (hs : l'.Sublist l) : ArrNV g b l' :=
  ⟨hs.length_le.trans h.1, fun v hv => h.2 v (hs.subset hv)⟩

theorem ArrNV.sliceTo {g b : ℤ} {l : List NV} (h : ArrNV g b l) (k : ℤ) : ArrNV g b (sliceTo l k) :=
  h.sublist (List.take_sublist _ _)

theorem sliceStep_bind_nv {β : Type} {Q : β → Prop} {g b : ℤ} {l : List NV} (h : ArrNV g b l) (k : ℤ) (s : ℕ)
    {F G : List NV → Py β} (K : ∀ l', ArrNV g b l' → Same Q (F l') (G l')) :
    Same Q (sliceStep l k s >>= F) (sliceStep l k s >>= G) := by
  unfold sliceStep
  split_ifs
  · exact Same.error _
  · exact K _ (h.sublist ((everyNth_sublist _ _).trans (List.drop_sublist _ _)))

/-- element-wise operations on arrays with NaN -/
theorem vop_same_nv {g b g' b' : ℤ} {f f' : ℝ → ℝ → ℝ} {a c : List NV} (ha : ArrNV g b a) (hc : ArrNV g b c)
    (H : ∀ u v, Grid g b u → Grid g b v → f u v = f' u v ∧ Grid g' b' (f' u v)) :
    Same (ArrNV g' b') (vop (nv2 f) a c) (vop (nv2 f') a c) :=
  vop_same (A := fun o : NV => ∀ v, o = some v → Grid g b v) (B := fun o : NV => ∀ v, o = some v → Grid g b v)
    (C := fun o : NV => ∀ v, o = some v → Grid g' b' v) ha.1 hc.1 ha.2 hc.2 (by
      intro u v hu hv
      cases u with
      | none => exact ⟨rfl, nofun⟩
      | some u =>
      cases v with
      | none => exact ⟨rfl, nofun⟩
      | some v =>
      obtain ⟨e, h⟩ := H u v (hu u rfl) (hv v rfl)
      refine ⟨by simp only [nv2, e], ?_⟩
      intro w hw
      simp only [nv2, Option.some.injEq] at hw
      exact hw ▸ h)

theorem map_agree_nv {g b g' b' : ℤ} {f f' : ℝ → ℝ} {a : List NV} (ha : ArrNV g b a)
    (H : ∀ u, Grid g b u → f u = f' u ∧ Grid g' b' (f' u)) :
    a.map (Option.map f) = a.map (Option.map f') ∧ ArrNV g' b' (a.map (Option.map f')) := by
  have key : ∀ o ∈ a, Option.map f o = Option.map f' o ∧ ∀ v, Option.map f' o = some v → Grid g' b' v := by
    intro o ho
    cases o with
    | none => exact ⟨rfl, nofun⟩
    | some u =>
      obtain ⟨e, h⟩ := H u (ha.2 _ ho u rfl)
      refine ⟨by simp only [Option.map_some, e], ?_⟩
      intro w hw
      simp only [Option.map_some, Option.some.injEq] at hw
      exact hw ▸ h
  refine ⟨List.map_congr_left fun o ho => (key o ho).1, by simpa using ha.1, fun v hv => ?_⟩
  obtain ⟨w, hw, rfl⟩ := List.mem_map.1 hv
  exact (key w hw).2

theorem ArrNV.numbers {g b : ℤ} {l : List NV} (h : ArrNV g b l) : Arr g b (numbers l) := by
  refine ⟨(List.length_filterMap_le _ _).trans h.1, fun v hv => ?_⟩
  obtain ⟨o, ho, e⟩ := List.mem_filterMap.1 hv
  exact h.2 o ho v e

theorem RangePair.calc_gradev (P : RangePair fl r sum sum') (ppf : ℝ → ℝ → NV) {data : List NV} {rate : ℝ}
    (hp : ArrNV (-343) 240 data) (hr : Mag (-40) 40 rate) (m s : ℕ) (hm : m ≤ 2 ^ 47) (c : ℝ) (nt : String) :
    calc_gradev_phase_fl fl sum ppf data rate m s c nt = calc_gradev_phase_fl r sum' ppf data rate m s c nt := by
  unfold calc_gradev_phase_fl
  refine (sliceStep_bind_nv (Q := fun _ => True) hp _ _ fun d2 h2 => ?_).1
  refine sliceStep_bind_nv hp _ _ fun d1 h1 => ?_
  refine sliceStep_bind_nv hp _ _ fun d0 h0 => ?_
  dsimp only
  generalize min (min d0.length d1.length) d2.length = k
  have two : Grid 0 1 2 := by simpa using Grid.natCast (n := 2) (b := 1) (by norm_num)
  obtain ⟨e, h1'⟩ := map_agree_nv (g' := -343) (b' := 241) (f := fun v => fl (2 * v)) (f' := fun v => r (2 * v))
    (h1.sliceTo k) fun u hu => P.g ((two.mul hu).mono (by norm_num) (by norm_num)) (by norm_num) (by norm_num)
  rw [e]
  refine (vop_same_nv (g' := -343) (b' := 242) ((h2.sliceTo k).mono le_rfl (by norm_num)) h1'
    fun _ _ hu hv => P.g (hu.sub hv) (by norm_num) (by norm_num)).bind fun a ha => ?_
  refine (vop_same_nv (g' := -343) (b' := 243) ha ((h0.sliceTo k).mono le_rfl (by norm_num))
    fun _ _ hu hv => P.g (hu.add hv) (by norm_num) (by norm_num)).bind fun v hv => ?_
  obtain ⟨e2, h3⟩ := map_agree_nv (g' := -686) (b' := 486) (f := fun v => fl (v * v)) (f' := fun v => r (v * v))
    hv fun u hu => P.g ((hu.mul hu).mono (by norm_num) (by norm_num)) (by norm_num) (by norm_num)
  rw [e2]
  obtain ⟨es, hs⟩ := P.s h3.numbers (by norm_num) (by norm_num)
  have hn : (if (v.filter Option.isSome).length = 0 then 1 else (v.filter Option.isSome).length) ≤ 2 ^ 47 := by
    have := List.length_filter_le Option.isSome v
    have := hv.1
    split_ifs <;> omega
  rw [es, (P.adev_tail (hs.mono (by norm_num) (by norm_num)) _ m hn hm hr).1]
  exact Same.refl fun _ _ => trivial

theorem RangePair.gradev (P : RangePair fl r sum sum') (ppf : ℝ → ℝ → NV) (log10grid : List ℝ) {x : List NV}
    {rate : ℝ} {taus : TausArg} (hx : ArrNV (-343) 240 x) (hr : Mag (-40) 40 rate) (ht : SafeTaus rate taus)
    (hR : RangeTaus rate taus) (c : ℝ) (nt : String) :
    gradev_fl fl sum ppf log10grid x rate taus c nt = gradev_fl r sum' ppf log10grid x rate taus c nt := by
  unfold gradev_fl
  refine ((P.tau log10grid x false (-1) hx.1 hr ht hR).bind (Q := fun _ => True) fun o ho => ?_).1
  obtain ⟨d, ms, ts⟩ := o
  obtain ⟨rfl, h2, -⟩ := ho
  unfold gradevTaus
  refine (mapM_same (R := fun _ => True) ms fun m hm =>
    ⟨P.calc_gradev ppf hx hr m 1 ((h2 m hm).le.trans hx.1) c nt, fun _ _ => trivial⟩).bind fun rows _ => ?_
  exact Same.refl fun _ _ => trivial

/-- C119: `gradev` of phase data with a limited range of exponents keeps the bound of C111 -/
theorem gradev_range (hfl : Binary64Range fl) (hsum : ∀ l, FloatSum fl l (sum l)) (ppf : ℝ → ℝ → NV)
    (log10grid : List ℝ) (x : List NV) (hx : ∀ v, some v ∈ x → Moderate v) (B : ℝ)
    (hB : ∀ v, some v ∈ x → |v| ≤ B) (rate : ℝ) (hr : ModerateRate rate)
    (taus : TausArg) (hN : x.length ≤ 2 ^ 47) (ht : SafeTaus rate taus) (hR : RangeTaus rate taus)
    (c : ℝ) (nt : String) :
    (∃ e, gradev_fl fl sum ppf log10grid x rate taus c nt = .error e ∧
      gradev ppf x rate "phase" taus c nt = .error e) ∨
    ∃ o o', gradev_fl fl sum ppf log10grid x rate taus c nt = .ok o ∧
      gradev ppf x rate "phase" taus c nt = .ok o' ∧ CurveClose (adevBound B) o o' := by
  obtain ⟨r, sum', P⟩ := exists_rangePair hfl hsum
  have hA : ArrNV (-343) 240 x := ⟨hN, fun o ho v e => by
    subst e
    exact (Moderate.grid (hx v ho)).mono (by norm_num) (by norm_num)⟩
  rw [P.gradev ppf log10grid hA (ModerateRate.mag hr) ht hR]
  exact gradev_float P.floatRound P.hsum ppf log10grid x B hB rate (ModerateRate.pos hr) taus hN ht c nt

/-- a rounding with limited exponents and data with a NaN that meet the hypotheses of
`gradev_range` -/
example (ppf : ℝ → ℝ → NV) : ∃ (fl : ℝ → ℝ) (sum : List ℝ → ℝ) (o : DevOut NV), Binary64Range fl ∧
    ¬ FloatRound fl ∧ (∀ l, FloatSum fl l (sum l)) ∧
    gradev_fl fl sum ppf [] [some 0, some 1, some 0, none, some 1, some 2, some 2] 1
      (.list [((1 : ℕ) : ℝ) / 1]) 0.68 "wp" = .ok o ∧ o.ns = [2] := by
  obtain ⟨fl, f1, f2, _⟩ := exists_binary64Range
  obtain ⟨sum, hsum⟩ := exists_floatSum fl
  set x : List NV := [some 0, some 1, some 0, none, some 1, some 2, some 2] with hx
  have hs : SafeTaus 1 (.list [((1 : ℕ) : ℝ) / 1]) := by
    intro t ht
    rw [List.mem_singleton] at ht
    exact ⟨1, by norm_num, by rw [ht]; norm_num⟩
  have hf : factors x.length 1 (.list [((1 : ℕ) : ℝ) / 1]) false x.length = .ok [1] :=
    factors_single _ 1 one_ne_zero false _ 1 one_pos (by simp [hx]) (by simp [hx]) (by simp)
  have hc : complete (seqNV x) x.length 1 = {0, 4} := by
    ext i
    unfold complete
    simp only [Finset.mem_filter, Finset.mem_range, hx, List.length_cons, List.length_nil,
      Finset.mem_insert, Finset.mem_singleton]
    constructor
    · rintro ⟨h1, h2⟩
      interval_cases i <;> simp [seqNV] at h2 ⊢
    · rintro (rfl | rfl) <;> simp [seqNV]
  have hp : present (seqNV x) x.length ≠ 1 := by
    unfold present
    intro h
    obtain ⟨a, ha⟩ := Finset.card_eq_one.1 h
    have h0 : (0 : ℕ) ∈ ({a} : Finset ℕ) := by rw [← ha]; simp [hx, seqNV]
    have h1 : (1 : ℕ) ∈ ({a} : Finset ℕ) := by rw [← ha]; simp [hx, seqNV]
    rw [Finset.mem_singleton] at h0 h1
    omega
  have hcr : ¬ gradevCrash x [1] "wp" := by
    rintro ⟨_, m, hm, _, h⟩
    rw [List.mem_singleton] at hm
    exact hp (hm ▸ h)
  have hex := (gradev_phase_eq ppf x 1 (.list [((1 : ℕ) : ℝ) / 1]) 0.68 "wp" [1] hf).2 hcr
  have hok : ∃ o', gradev ppf x 1 "phase" (.list [((1 : ℕ) : ℝ) / 1]) 0.68 "wp" = .ok o' ∧ o'.ns = [2] := by
    rw [hex]
    unfold sweep2
    exact ⟨_, rfl, rfl⟩
  obtain ⟨o', h', hn⟩ := hok
  have m1 : Moderate 1 := Or.inr ⟨by simpa using (isBinary64_pow 0).1, by norm_num⟩
  have m2 : Moderate 2 := Or.inr ⟨by simpa using (isBinary64_pow 1).1, by norm_num⟩
  have hv : ∀ v, some v ∈ x → v = 0 ∨ v = 1 ∨ v = 2 := by
    intro v hv
    simp only [hx, List.mem_cons, Option.some.injEq, List.not_mem_nil, or_false, reduceCtorEq, false_or] at hv
    tauto
  rcases gradev_range f1 hsum ppf [] x (fun v h => by
      rcases hv v h with rfl | rfl | rfl
      exacts [Or.inl rfl, m1, m2]) 2 (fun v h => by rcases hv v h with rfl | rfl | rfl <;> norm_num) 1
      (by constructor <;> norm_num) (.list [((1 : ℕ) : ℝ) / 1]) (by simp [hx]) hs (by
        intro t ht
        rw [List.mem_singleton] at ht
        rw [ht, show ((1 : ℕ) : ℝ) / 1 * 1 = 1 by norm_num]
        exact Mag.one.range (by norm_num) (by norm_num)) 0.68 "wp" with ⟨e, _, h2⟩ | ⟨o, o'', h1, h2, h3⟩
  · rw [h'] at h2; cases h2
  · rw [h'] at h2
    cases h2
    exact ⟨fl, sum, o, f1, f2, hsum, h1, h3.ns.trans hn⟩

end AT
