import Verif.Lemmas.Psd
import Verif.Lemmas.Run

/-!
# C56: psd_piecewise_to_adev
-/

namespace AT

open MeasureTheory Set Real Spec

/-- The piecewise power-law PSD: between the nodes number `j` and `j + 1` it is
`h[j] * f ** alpha[j]` (the value at the nodes does not matter for the integral) -/
noncomputable def Spec.psdSy (h alpha nodes : List ℝ) (f : ℝ) : ℝ :=
  h.getD (nodes.countP (fun c => decide (c < f))) 0 * f ^ (alpha.getD (nodes.countP (fun c => decide (c < f))) 0)

/-- the transfer function of the Allan variance, NIST SP 1065 eq. (65) -/
noncomputable def Spec.allanWeight (tau f : ℝ) : ℝ := sin (π * f * tau) ^ 4 / (π * f * tau) ^ 2

/-- a term of the sum over the segments -/
noncomputable def psdTerm (quad : Quad) (tau x a : ℝ) (l u : WithTop ℝ) : NV :=
  nv2 (· * ·) (some (x / (π * tau) ^ (a + 1)))
    (quad (psdIntegrand a) (l.map (fun e => π * tau * e)) (u.map (fun e => π * tau * e)))

/-- sum of floats that may be NaN -/
noncomputable def nvSumL (l : List NV) : NV := l.foldr (nv2 (· + ·)) (some 0)

theorem nvAdd_assoc (a b c : NV) : nv2 (· + ·) (nv2 (· + ·) a b) c = nv2 (· + ·) a (nv2 (· + ·) b c) := by
  rcases a with - | a <;> rcases b with - | b <;> rcases c with - | c <;> simp [nv2, add_assoc]

theorem nvAdd_zero (a : NV) : nv2 (· + ·) a (some 0) = a := by
  rcases a with - | a <;> simp [nv2]

theorem zero_nvAdd (a : NV) : nv2 (· + ·) (some 0) a = a := by
  rcases a with - | a <;> simp [nv2]

theorem nvSumL_append (l : List NV) (x : NV) : nvSumL (l ++ [x]) = nv2 (· + ·) (nvSumL l) x := by
  induction l with
  | nil => simp [nvSumL, nvAdd_zero, zero_nvAdd]
  | cons y l ih =>
    have h : ∀ (y : NV) (l : List NV), nvSumL (y :: l) = nv2 (· + ·) y (nvSumL l) := fun _ _ => rfl
    rw [List.cons_append, h, h, ih, nvAdd_assoc]

/-- the sum over all segments -/
noncomputable def psdTotal (quad : Quad) (tau : ℝ) (edges : List (WithTop ℝ)) (h alpha : List ℝ) : NV :=
  nvSumL (tab h.length (fun i =>
    psdTerm quad tau (h.getD i 0) (alpha.getD i 0) (edges.getD i ⊤) (edges.getD (i + 1) ⊤)))

theorem psdTotal_cons (quad : Quad) (tau : ℝ) (l u : WithTop ℝ) (es : List (WithTop ℝ)) (x a : ℝ) (h al : List ℝ) :
    psdTotal quad tau (l :: u :: es) (x :: h) (a :: al) =
      nv2 (· + ·) (psdTerm quad tau x a l u) (psdTotal quad tau (u :: es) h al) := by
  unfold psdTotal
  rw [List.length_cons, tab_succ']
  rfl

theorem psdTotal_nil (quad : Quad) (tau : ℝ) (es : List (WithTop ℝ)) (al : List ℝ) :
    psdTotal quad tau es [] al = some 0 := rfl

/-- the list of segment edges -/
def psdEdges (l : ℝ) (nodes : List ℝ) : List (WithTop ℝ) :=
  (l : WithTop ℝ) :: (nodes.map (fun f : ℝ => (f : WithTop ℝ)) ++ [⊤])

theorem pyGet_nat {α : Type} (xs : List α) (i : ℕ) (d : α) (h : i < xs.length) :
    pyGet xs (i : ℤ) = .ok (xs.getD i d) := by
  rw [eq_tab xs d, pyGet_tab_nat _ _ _ h, tab_getD, if_pos h]

theorem pyGet_nat_error {α : Type} (xs : List α) (i : ℕ) (h : xs.length ≤ i) :
    pyGet xs (i : ℤ) = .error .indexError := by
  unfold pyGet
  simp only [show ¬ ((i : ℤ) < 0) by omega, if_false]
  rw [Int.toNat_natCast, List.getElem?_eq_none h]

/-- the result for lists of matching lengths -/
theorem psd_piecewise_to_adev_total (quad : Quad) (h alpha nodes taus : List ℝ)
    (hh : h.length ≤ nodes.length + 1) (ha : h.length ≤ alpha.length) :
    psd_piecewise_to_adev quad h alpha nodes taus =
      .ok (taus.map (fun tau => nvSqrt (nv2 (· * ·) (some 2) (psdTotal quad tau (psdEdges 0 nodes) h alpha)))) := by
  unfold psd_piecewise_to_adev
  refine mapM_ok _ _ _ (fun tau _ => ?_)
  have key : forRange h.length (some 0) (psdSegment quad h alpha (psdEdges 0 nodes) tau) =
      .ok (psdTotal quad tau (psdEdges 0 nodes) h alpha) := by
    refine forRange_eq (fun i => nvSumL (tab i (fun i =>
      psdTerm quad tau (h.getD i 0) (alpha.getD i 0) ((psdEdges 0 nodes).getD i ⊤)
        ((psdEdges 0 nodes).getD (i + 1) ⊤)))) rfl (fun i hi => ?_)
    have he : (psdEdges 0 nodes).length = nodes.length + 2 := by simp [psdEdges]
    unfold psdSegment
    rw [pyGet_nat h i 0 hi, pyGet_nat alpha i 0 (by omega), pyGet_nat _ i ⊤ (by omega),
      show ((i : ℤ) + 1) = ((i + 1 : ℕ) : ℤ) by push_cast; rfl, pyGet_nat _ (i + 1) ⊤ (by omega)]
    simp only [ok_bind]
    rw [tab_succ, nvSumL_append]
    rfl
  show (forRange h.length (some 0) (psdSegment quad h alpha (psdEdges 0 nodes) tau) >>= _) = _
  rw [key]
  rfl

/-- C56: a mismatch of the lengths is an IndexError -/
theorem psd_index_error (quad : Quad) (h alpha nodes taus : List ℝ) (ht : taus ≠ [])
    (hh : nodes.length + 1 < h.length ∨ alpha.length < h.length) :
    psd_piecewise_to_adev quad h alpha nodes taus = .error .indexError := by
  obtain ⟨tau, taus, rfl⟩ := List.exists_cons_of_ne_nil ht
  unfold psd_piecewise_to_adev
  have he : (psdEdges 0 nodes).length = nodes.length + 2 := by simp [psdEdges]
  have hgood : ∀ n ≤ h.length, n ≤ min (nodes.length + 1) alpha.length → ∀ s, ∃ v,
      (List.range n).foldlM (psdSegment quad h alpha (psdEdges 0 nodes) tau) s = .ok v := by
    intro n hn hm
    induction n with
    | zero => exact fun s => ⟨s, rfl⟩
    | succ n ih =>
      intro s
      obtain ⟨v, hv⟩ := ih (by omega) (by omega) s
      rw [List.range_succ, List.foldlM_append, hv, ok_bind, List.foldlM_cons]
      unfold psdSegment
      rw [pyGet_nat h n 0 (by omega), ok_bind, pyGet_nat alpha n 0 (by omega), ok_bind,
        pyGet_nat _ n ⊤ (by omega), ok_bind,
        show ((n : ℤ) + 1) = ((n + 1 : ℕ) : ℤ) by push_cast; rfl, pyGet_nat _ (n + 1) ⊤ (by omega)]
      exact ⟨_, rfl⟩
  have key : ∀ n ≤ h.length, min (nodes.length + 1) alpha.length < n → ∀ s,
      forRange n s (psdSegment quad h alpha (psdEdges 0 nodes) tau) = .error .indexError := by
    intro n hn hm
    induction n with
    | zero => omega
    | succ n ih =>
      intro s
      unfold forRange at ih ⊢
      rw [List.range_succ, List.foldlM_append]
      rcases Nat.lt_or_ge (min (nodes.length + 1) alpha.length) n with h' | h'
      · rw [ih (by omega) h']
        rfl
      · have hfail : ∀ s, psdSegment quad h alpha (psdEdges 0 nodes) tau s n = .error .indexError := by
          intro s
          unfold psdSegment
          rw [pyGet_nat h n 0 (by omega), ok_bind]
          rcases Nat.lt_or_ge n alpha.length with h2 | h2
          · rw [pyGet_nat alpha n 0 h2, ok_bind, pyGet_nat _ n ⊤ (by omega), ok_bind,
              show ((n : ℤ) + 1) = ((n + 1 : ℕ) : ℤ) by push_cast; rfl, pyGet_nat_error _ (n + 1) (by omega)]
            rfl
          · rw [pyGet_nat_error alpha n h2]
            rfl
        obtain ⟨v, hv⟩ := hgood n (by omega) h' s
        rw [hv, ok_bind, List.foldlM_cons, hfail]
        rfl
  have := key h.length le_rfl (by omega) (some 0)
  rw [List.mapM_cons]
  show ((forRange h.length (some 0) (psdSegment quad h alpha (psdEdges 0 nodes) tau) >>= _) >>= _) = _
  rw [this]
  rfl

example (quad : Quad) : psd_piecewise_to_adev quad [1, 2] [0, 1] [] [3] = .error .indexError :=
  psd_index_error quad _ _ _ _ (by simp) (by simp)

/-- the transfer function in the variable of integration -/
theorem psd_weight_eq {tau f : ℝ} (ht : 0 < tau) (hf : 0 < f) (x a : ℝ) :
    x * f ^ a * allanWeight tau f = x / (π * tau) ^ a * psdIntegrand a (π * tau * f) := by
  have hz : 0 < π * tau := mul_pos pi_pos ht
  unfold allanWeight psdIntegrand
  rw [show π * f * tau = π * tau * f by ring, rpow_sub (mul_pos hz hf), rpow_two, mul_rpow hz.le hf.le]
  have h1 := (rpow_pos_of_pos hz a).ne'
  have h2 := (rpow_pos_of_pos hf a).ne'
  generalize (π * tau) ^ a = A at *
  generalize f ^ a = F at *
  field_simp

/-- one segment -/
theorem psdTerm_eq {quad : Quad} (hq : QuadExact quad) {tau : ℝ} (ht : 0 < tau) (x : ℝ) {a l : ℝ} {u : WithTop ℝ}
    (hs : SegOk a l u) :
    IntegrableOn (fun f => x * f ^ a * allanWeight tau f) (seg l u) ∧
    psdTerm quad tau x a l u = some (∫ f in seg l u, x * f ^ a * allanWeight tau f) := by
  have hz : 0 < π * tau := mul_pos pi_pos ht
  have hcongr : ∀ f ∈ seg l u, x * f ^ a * allanWeight tau f =
      x / (π * tau) ^ a * psdIntegrand a (π * tau * f) := fun f hf =>
    psd_weight_eq ht (hs.1.trans_lt hf.1) x a
  have hs' : SegOk a (π * tau * l) (u.map (fun e => π * tau * e)) := by
    obtain ⟨h0, h1, h2, h3⟩ := hs
    refine ⟨by positivity, ?_, ?_, ?_⟩
    · induction u using WithTop.recTopCoe with
      | top => simp
      | coe u =>
        rw [WithTop.map_coe, WithTop.coe_le_coe]
        exact mul_le_mul_of_nonneg_left (WithTop.coe_le_coe.1 h1) hz.le
    · intro h
      exact h2 ((mul_eq_zero.1 h).resolve_left hz.ne')
    · intro h
      apply h3
      induction u using WithTop.recTopCoe with
      | top => rfl
      | coe u =>
        rw [WithTop.map_coe] at h
        exact absurd h WithTop.coe_ne_top
  have hint := integrable_seg hs'
  constructor
  · refine (integrableOn_congr_fun hcongr (measurableSet_seg _ _)).2 ?_
    exact ((integrable_seg_scale hz l u _).2 hint).const_mul _
  · rw [setIntegral_congr_fun (measurableSet_seg _ _) hcongr, integral_const_mul,
      integral_seg_scale hz l u (psdIntegrand a), psdTerm, WithTop.map_coe, hq _ _ _ hs'.2.1 hint, nv2]
    congr 1
    rw [rpow_add_one hz.ne']
    field_simp

theorem psdSy_lt {h alpha nodes : List ℝ} {c f x a : ℝ} (hs : (c :: nodes).Pairwise (· ≤ ·)) (hf : f ≤ c) :
    psdSy (x :: h) (a :: alpha) (c :: nodes) f = x * f ^ a := by
  have : (c :: nodes).countP (fun c => decide (c < f)) = 0 := by
    rw [List.countP_eq_zero]
    intro d hd
    simp only [decide_eq_true_eq, not_lt]
    rcases List.mem_cons.1 hd with rfl | hd
    · exact hf
    · exact hf.trans (List.rel_of_pairwise_cons hs hd)
  unfold psdSy
  rw [this]
  rfl

theorem psdSy_gt {h alpha nodes : List ℝ} {c f x a : ℝ} (hf : c < f) :
    psdSy (x :: h) (a :: alpha) (c :: nodes) f = psdSy h alpha nodes f := by
  unfold psdSy
  rw [List.countP_cons_of_pos (by simpa using hf)]
  rfl

/-- the sum over the segments is the integral over all frequencies -/
theorem psdTotal_eq {quad : Quad} (hq : QuadExact quad) {tau : ℝ} (ht : 0 < tau) (nodes : List ℝ) :
    ∀ (l : ℝ) (h alpha : List ℝ), 0 ≤ l → (l :: nodes).Pairwise (· ≤ ·) → (∀ c ∈ nodes, 0 < c) →
      h.length = nodes.length + 1 → alpha.length = nodes.length + 1 →
      (l = 0 → -3 < alpha.getD 0 0) → alpha.getD nodes.length 0 < 1 →
      IntegrableOn (fun f => psdSy h alpha nodes f * allanWeight tau f) (Ioi l) ∧
      psdTotal quad tau (psdEdges l nodes) h alpha =
        some (∫ f in Ioi l, psdSy h alpha nodes f * allanWeight tau f) := by
  induction nodes with
  | nil =>
    intro l h alpha hl _ _ hh ha hfirst hlast
    obtain ⟨x, rfl⟩ := List.length_eq_one_iff.1 hh
    obtain ⟨a, rfl⟩ := List.length_eq_one_iff.1 ha
    have hs : SegOk a l ⊤ := ⟨hl, le_top, hfirst, fun _ => hlast⟩
    have := psdTerm_eq hq ht x hs
    rw [seg_top] at this
    refine ⟨this.1, ?_⟩
    show psdTotal quad tau ((l : WithTop ℝ) :: ⊤ :: []) (x :: []) (a :: []) = _
    rw [psdTotal_cons, psdTotal_nil, this.2, nvAdd_zero]
    rfl
  | cons c nodes ih =>
    intro l h alpha hl hsort hpos hh ha hfirst hlast
    obtain ⟨x, h, rfl⟩ := List.exists_cons_of_length_eq_add_one hh
    obtain ⟨a, alpha, rfl⟩ := List.exists_cons_of_length_eq_add_one ha
    have hc : 0 < c := hpos c (by simp)
    have hlc : l ≤ c := List.rel_of_pairwise_cons hsort (by simp)
    have hsort' := (List.pairwise_cons.1 hsort).2
    have ih' := ih c h alpha hc.le hsort' (fun d hd => hpos d (by simp [hd])) (by simpa using hh)
      (by simpa using ha) (fun h => absurd h hc.ne') (by simpa using hlast)
    have hs : SegOk a l (c : WithTop ℝ) :=
      ⟨hl, WithTop.coe_le_coe.2 hlc, hfirst, fun h => absurd h (WithTop.coe_ne_top)⟩
    have hterm := psdTerm_eq hq ht x hs
    have e1 : ∀ f ∈ seg l (c : WithTop ℝ), psdSy (x :: h) (a :: alpha) (c :: nodes) f * allanWeight tau f =
        x * f ^ a * allanWeight tau f := fun f hf => by
      rw [psdSy_lt hsort' (WithTop.coe_le_coe.1 hf.2)]
    have e2 : ∀ f ∈ Ioi c, psdSy (x :: h) (a :: alpha) (c :: nodes) f * allanWeight tau f =
        psdSy h alpha nodes f * allanWeight tau f := fun f hf => by
      rw [psdSy_gt hf]
    have i1 := (integrableOn_congr_fun e1 (measurableSet_seg _ _)).2 hterm.1
    have i2 := (integrableOn_congr_fun e2 measurableSet_Ioi).2 ih'.1
    have hu : (c : WithTop ℝ) ≤ ⊤ := le_top
    refine ⟨?_, ?_⟩
    · rw [← seg_top, seg_union hlc hu, seg_top]
      exact i1.union i2
    · show psdTotal quad tau ((l : WithTop ℝ) :: (c : WithTop ℝ) :: _) _ _ = _
      rw [psdTotal_cons, hterm.2]
      change nv2 (· + ·) _ (psdTotal quad tau (psdEdges c nodes) h alpha) = _
      rw [ih'.2, nv2, ← seg_top l, integral_seg_union hlc hu _ i1 (by rw [seg_top]; exact i2), seg_top,
        setIntegral_congr_fun (measurableSet_seg _ _) e1, setIntegral_congr_fun measurableSet_Ioi e2]

/-- C56: for a PSD whose variance integral converges at both ends, every returned value is
the square root of the Allan variance integral of the piecewise PSD -/
theorem psd_piecewise_to_adev_eq {quad : Quad} (hq : QuadExact quad) (h alpha nodes taus : List ℝ)
    (ht : ∀ t ∈ taus, 0 < t) (hsort : nodes.Pairwise (· ≤ ·)) (hpos : ∀ c ∈ nodes, 0 < c)
    (hh : h.length = nodes.length + 1) (ha : alpha.length = nodes.length + 1)
    (hnn : ∀ x ∈ h, 0 ≤ x) (hfirst : -3 < alpha.getD 0 0) (hlast : alpha.getD nodes.length 0 < 1) :
    psd_piecewise_to_adev quad h alpha nodes taus =
      .ok (taus.map (fun tau => some √(2 * ∫ f in Ioi 0, psdSy h alpha nodes f * allanWeight tau f))) := by
  rw [psd_piecewise_to_adev_total quad h alpha nodes taus (by omega) (by omega)]
  congr 1
  apply List.map_congr_left
  intro tau htau
  rw [(psdTotal_eq hq (ht tau htau) nodes 0 h alpha le_rfl
    (List.pairwise_cons.2 ⟨fun c hc => (hpos c hc).le, hsort⟩) hpos hh ha (fun _ => hfirst) hlast).2, nv2, nvSqrt]
  have : 0 ≤ ∫ f in Ioi 0, psdSy h alpha nodes f * allanWeight tau f := by
    refine setIntegral_nonneg measurableSet_Ioi (fun f hf => ?_)
    refine mul_nonneg (mul_nonneg ?_ (rpow_nonneg (le_of_lt hf) _)) ?_
    · rw [List.getD_eq_getElem?_getD]
      rcases hx : h[nodes.countP (fun c => decide (c < f))]? with - | x
      · exact le_rfl
      · exact hnn x (List.mem_of_getElem? hx)
    · exact div_nonneg (by positivity) (by positivity)
  rw [if_neg (not_lt.2 (by positivity))]

/-- C56: a returned number is never negative -/
theorem psd_nonneg (quad : Quad) (h alpha nodes taus : List ℝ) (r : List NV)
    (hr : psd_piecewise_to_adev quad h alpha nodes taus = .ok r) (d : ℝ) (hd : some d ∈ r) : 0 ≤ d := by
  rcases taus with - | ⟨t, taus⟩
  · obtain rfl : [] = r := by injection hr
    simp at hd
  by_cases hlen : h.length ≤ nodes.length + 1 ∧ h.length ≤ alpha.length
  · rw [psd_piecewise_to_adev_total quad h alpha nodes _ hlen.1 hlen.2] at hr
    injection hr with hr
    subst hr
    obtain ⟨tau, -, e⟩ := List.mem_map.1 hd
    unfold nvSqrt at e
    split at e
    · split at e
      · simp at e
      · injection e with e
        rw [← e]
        exact sqrt_nonneg _
    · simp at e
  · rw [psd_index_error quad h alpha nodes _ (by simp) (by omega)] at hr
    simp at hr

theorem nvSumL_scale (c : ℝ) (l : List NV) :
    nvSumL (l.map (fun v => nv2 (· * ·) (some c) v)) = nv2 (· * ·) (some c) (nvSumL l) := by
  induction l with
  | nil => simp [nvSumL, nv2]
  | cons a l ih =>
    have h : ∀ (y : NV) (l : List NV), nvSumL (y :: l) = nv2 (· + ·) y (nvSumL l) := fun _ _ => rfl
    rw [List.map_cons, h, h, ih]
    rcases a with - | a <;> rcases nvSumL l with - | b <;> simp [nv2, mul_add]

theorem psdTotal_scale (quad : Quad) (tau : ℝ) (edges : List (WithTop ℝ)) (h alpha : List ℝ) (c : ℝ) :
    psdTotal quad tau edges (h.map (fun x => c * x)) alpha = nv2 (· * ·) (some c) (psdTotal quad tau edges h alpha) := by
  unfold psdTotal
  rw [← nvSumL_scale, map_tab, List.length_map]
  congr 1
  apply tab_congr
  intro i hi
  rw [show (h.map (fun x => c * x)).getD i 0 = c * h.getD i 0 by
    simp only [List.getD_eq_getElem?_getD, List.getElem?_map, List.getElem?_eq_getElem hi, Option.map_some,
      Option.getD_some]]
  unfold psdTerm
  rcases quad (psdIntegrand (alpha.getD i 0)) _ _ with - | I
  · rfl
  · simp only [nv2]
    congr 1
    ring

/-- C56: the result scales with the square root of the PSD coefficients.  For every
integration routine and every list of segments; the error cases are included. -/
theorem psd_scale (quad : Quad) (h alpha nodes taus : List ℝ) (c : ℝ) (hc : 0 < c) :
    psd_piecewise_to_adev quad (h.map (fun x => c * x)) alpha nodes taus =
      (psd_piecewise_to_adev quad h alpha nodes taus).map
        (fun r => r.map (fun v => nv2 (· * ·) (some √c) v)) := by
  rcases taus with - | ⟨t, taus⟩
  · rfl
  by_cases hlen : h.length ≤ nodes.length + 1 ∧ h.length ≤ alpha.length
  · rw [psd_piecewise_to_adev_total quad h alpha nodes _ hlen.1 hlen.2,
      psd_piecewise_to_adev_total quad _ alpha nodes _ (by simpa using hlen.1) (by simpa using hlen.2)]
    simp only [Except.map, List.map_map]
    congr 1
    apply List.map_congr_left
    intro tau _
    rw [psdTotal_scale, Function.comp]
    rcases psdTotal quad tau (psdEdges 0 nodes) h alpha with - | s
    · rfl
    · simp only [nv2, nvSqrt]
      have e : 2 * (c * s) = c * (2 * s) := by ring
      rw [e]
      by_cases hs : 2 * s < 0
      · rw [if_pos (mul_neg_of_pos_of_neg hc hs), if_pos hs]
      · rw [if_neg (not_lt.2 (mul_nonneg hc.le (not_lt.1 hs))), if_neg hs, sqrt_mul hc.le]
  · rw [psd_index_error quad h alpha nodes _ (by simp) (by omega),
      psd_index_error quad _ alpha nodes _ (by simp) (by rw [List.length_map]; omega)]
    rfl

example (quad : Quad) := psd_scale quad [1, 2] [0, -1] [3] [4, 5] 7 (by norm_num)

/-- two adjacent segments with the same coefficient and exponent -/
theorem psdTerm_add {quad : Quad} (hq : QuadExact quad) {tau : ℝ} (ht : 0 < tau) (x : ℝ) {a l c : ℝ} {u : WithTop ℝ}
    (hl : 0 ≤ l) (hlc : l ≤ c) (hc : 0 < c) (hcu : (c : WithTop ℝ) ≤ u) (h1 : l = 0 → -3 < a) (h2 : u = ⊤ → a < 1) :
    nv2 (· + ·) (psdTerm quad tau x a l c) (psdTerm quad tau x a c u) = psdTerm quad tau x a l u := by
  have s1 : SegOk a l (c : WithTop ℝ) := ⟨hl, WithTop.coe_le_coe.2 hlc, h1, fun h => absurd h WithTop.coe_ne_top⟩
  have s2 : SegOk a c u := ⟨hc.le, hcu, fun h => absurd h hc.ne', h2⟩
  have s3 : SegOk a l u := ⟨hl, (WithTop.coe_le_coe.2 hlc).trans hcu, h1, h2⟩
  rw [(psdTerm_eq hq ht x s1).2, (psdTerm_eq hq ht x s2).2, (psdTerm_eq hq ht x s3).2, nv2,
    integral_seg_union hlc hcu _ (psdTerm_eq hq ht x s1).1 (psdTerm_eq hq ht x s2).1]

theorem psdTotal_split {quad : Quad} (hq : QuadExact quad) {tau : ℝ} (ht : 0 < tau) (f2 h2 a2 : List ℝ) (x a c : ℝ)
    (hlast : f2 = [] → a < 1) (f1 : List ℝ) :
    ∀ (l : ℝ) (h1 a1 : List ℝ), 0 ≤ l → (l :: (f1 ++ c :: f2)).Pairwise (· ≤ ·) →
      (∀ d ∈ f1 ++ c :: f2, 0 < d) → h1.length = f1.length → a1.length = f1.length →
      (l = 0 → f1 = [] → -3 < a) →
      psdTotal quad tau (psdEdges l (f1 ++ c :: f2)) (h1 ++ x :: x :: h2) (a1 ++ a :: a :: a2) =
        psdTotal quad tau (psdEdges l (f1 ++ f2)) (h1 ++ x :: h2) (a1 ++ a :: a2) := by
  induction f1 with
  | nil =>
    intro l h1 a1 hl hsort hpos hh ha hfirst
    obtain rfl := List.length_eq_zero_iff.1 hh
    obtain rfl := List.length_eq_zero_iff.1 ha
    have hc : 0 < c := hpos c (by simp)
    have hlc : l ≤ c := List.rel_of_pairwise_cons hsort (by simp)
    rcases f2 with - | ⟨d, f2⟩
    · show psdTotal quad tau ((l : WithTop ℝ) :: (c : WithTop ℝ) :: ⊤ :: []) (x :: x :: h2) (a :: a :: a2) =
        psdTotal quad tau ((l : WithTop ℝ) :: ⊤ :: []) (x :: h2) (a :: a2)
      rw [psdTotal_cons, psdTotal_cons, psdTotal_cons, ← nvAdd_assoc,
        psdTerm_add hq ht x hl hlc hc le_top (fun h => hfirst h rfl) (fun _ => hlast rfl)]
    · have hcd : c ≤ d := by
        have := (List.pairwise_cons.1 hsort).2
        exact List.rel_of_pairwise_cons this (by simp)
      show psdTotal quad tau ((l : WithTop ℝ) :: (c : WithTop ℝ) :: (d : WithTop ℝ) :: _) (x :: x :: h2) (a :: a :: a2) =
        psdTotal quad tau ((l : WithTop ℝ) :: (d : WithTop ℝ) :: _) (x :: h2) (a :: a2)
      rw [psdTotal_cons, psdTotal_cons, psdTotal_cons, ← nvAdd_assoc,
        psdTerm_add hq ht x hl hlc hc (WithTop.coe_le_coe.2 hcd) (fun h => hfirst h rfl)
          (fun h => absurd h WithTop.coe_ne_top)]
  | cons d f1 ih =>
    intro l h1 a1 hl hsort hpos hh ha hfirst
    obtain ⟨y, h1, rfl⟩ := List.exists_cons_of_length_eq_add_one hh
    obtain ⟨b, a1, rfl⟩ := List.exists_cons_of_length_eq_add_one ha
    have hd : 0 < d := hpos d (by simp)
    have := ih d h1 a1 hd.le (List.pairwise_cons.1 hsort).2 (fun e he => hpos e (by simp at he ⊢; tauto))
      (by simpa using hh) (by simpa using ha) (fun h => absurd h hd.ne')
    show psdTotal quad tau ((l : WithTop ℝ) :: (d : WithTop ℝ) :: _) (y :: _) (b :: _) =
      psdTotal quad tau ((l : WithTop ℝ) :: (d : WithTop ℝ) :: _) (y :: _) (b :: _)
    rw [psdTotal_cons, psdTotal_cons]
    exact congrArg _ this

/-- C56: splitting a segment at an additional node `c`, with the same coefficient and
exponent on both sides, does not change the result.  The integral of the split segment
must converge: this needs `-3 < a` when it starts at 0 and `a < 1` when it is unbounded. -/
theorem psd_split {quad : Quad} (hq : QuadExact quad) (f1 f2 h1 h2 a1 a2 taus : List ℝ) (x a c : ℝ)
    (ht : ∀ t ∈ taus, 0 < t) (hsort : (f1 ++ c :: f2).Pairwise (· ≤ ·)) (hpos : ∀ d ∈ f1 ++ c :: f2, 0 < d)
    (hh1 : h1.length = f1.length) (ha1 : a1.length = f1.length)
    (hh2 : h2.length = f2.length) (ha2 : a2.length = f2.length)
    (hfirst : f1 = [] → -3 < a) (hlast : f2 = [] → a < 1) :
    psd_piecewise_to_adev quad (h1 ++ x :: x :: h2) (a1 ++ a :: a :: a2) (f1 ++ c :: f2) taus =
      psd_piecewise_to_adev quad (h1 ++ x :: h2) (a1 ++ a :: a2) (f1 ++ f2) taus := by
  rw [psd_piecewise_to_adev_total _ _ _ _ _ (by simp; omega) (by simp; omega),
    psd_piecewise_to_adev_total _ _ _ _ _ (by simp; omega) (by simp; omega)]
  congr 1
  apply List.map_congr_left
  intro tau htau
  rw [psdTotal_split hq (ht tau htau) f2 h2 a2 x a c hlast f1 0 h1 a1 le_rfl
    (List.pairwise_cons.2 ⟨fun d hd => (hpos d hd).le, hsort⟩) hpos hh1 ha1 (fun _ => hfirst)]

/-- white phase noise up to 1 Hz and white frequency noise above is such a PSD, and so is
its second segment split at 5 Hz -/
example : ∃ quad : Quad, ∀ tau > 0, psd_piecewise_to_adev quad [2, 3, 3] [1, 0, 0] [1, 5] [tau] =
    .ok [some √(2 * ∫ f in Ioi 0, psdSy [2, 3] [1, 0] [1] f * allanWeight tau f)] := by
  obtain ⟨quad, hq⟩ := exists_quadExact
  refine ⟨quad, fun tau ht => ?_⟩
  have h1 := psd_split hq [1] [] [2] [] [1] [] [tau] 3 0 5 (by simpa using ht) (by norm_num) (by norm_num)
    rfl rfl rfl rfl (by simp) (by norm_num)
  have h2 := psd_piecewise_to_adev_eq hq [2, 3] [1, 0] [1] [tau] (by simpa using ht) (by norm_num) (by norm_num)
    rfl rfl (by norm_num) (by norm_num) (by norm_num)
  exact h1.trans h2

end AT
