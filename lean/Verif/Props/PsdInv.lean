import Verif.Props.Psd

/-!
# C55: adev2psd_piecewise_approx
-/

namespace AT

open MeasureTheory Set Real Spec

/-! ## the merging of slopes -/

/-- the slope of `log adev²` against `log tau` between the points `i` and `i + 1` -/
noncomputable def Spec.segSlope (adev taus : List ℝ) (i : ℕ) : ℝ :=
  2 * (log (adev.getD (i + 1) 0) - log (adev.getD i 0)) / (log (taus.getD (i + 1) 0) - log (taus.getD i 0))

/-- `idx` lists the segments kept when a slope that differs by at most `tol` from the last
kept one is dropped: the first segment is kept, consecutive kept slopes differ by more than
`tol`, and a segment that is not kept has a slope within `tol` of the last kept one before it -/
structure Spec.KeptSegments (sl : ℕ → ℝ) (tol : ℝ) (n : ℕ) (idx : List ℕ) : Prop where
  sorted : idx.Pairwise (· < ·)
  lt : ∀ i ∈ idx, i < n
  first : idx.head? = some 0
  differ : idx.IsChain (fun i j => tol < |sl j - sl i|)
  near : ∀ j < n, j ∈ idx ∨ ∃ i ∈ idx, i < j ∧ (∀ i' ∈ idx, i' ≤ i ∨ j < i') ∧ |sl j - sl i| ≤ tol

theorem psdFilter_spec (adev taus : List ℝ) (tol : ℝ) (h2 : 2 ≤ adev.length) :
    ∃ idx, KeptSegments (segSlope adev taus) tol (adev.length - 1) idx ∧
      psdFilter adev taus tol = (idx.map (segSlope adev taus),
        adev.getD 0 0 :: idx.map (fun i => adev.getD (i + 1) 0),
        taus.getD 0 0 :: idx.map (fun i => taus.getD (i + 1) 0)) := by
  unfold psdFilter
  obtain ⟨m, hm⟩ : ∃ m, adev.length - 1 = m + 1 := ⟨adev.length - 2, by omega⟩
  rw [hm]
  clear h2 hm
  induction m with
  | zero =>
    refine ⟨[0], ⟨by simp, by simp, rfl, by simp, ?_⟩, ?_⟩
    · intro j hj
      left
      simp
      omega
    · simp [psdSlope, segSlope]
  | succ m ih =>
    obtain ⟨idx, hk, he⟩ := ih
    rw [List.range_succ, List.foldl_append, he]
    have hne : idx ≠ [] := by
      intro h
      have := hk.first
      rw [h] at this
      simp at this
    obtain ⟨idx', last, rfl⟩ : ∃ idx' last, idx = idx' ++ [last] :=
      ⟨_, _, (List.dropLast_append_getLast hne).symm⟩
    have hsl : psdSlope adev taus (m + 1 + 1) = segSlope adev taus (m + 1) := rfl
    have hmax : ∀ i ∈ idx' ++ [last], i ≤ last := by
      intro i hi
      rcases List.mem_append.1 hi with h | h
      · exact ((List.pairwise_append.1 hk.sorted).2.2 i h last (by simp)).le
      · simp at h
        omega
    have hlast : last < m + 1 := hk.lt last (by simp)
    simp only [List.foldl_cons, List.foldl_nil, hsl]
    have hg : ((idx' ++ [last]).map (segSlope adev taus)).getLastD 0 = segSlope adev taus last := by simp
    rw [hg]
    by_cases hc : tol < |segSlope adev taus (m + 1) - segSlope adev taus last|
    · refine ⟨idx' ++ [last] ++ [m + 1], ⟨?_, ?_, ?_, ?_, ?_⟩, ?_⟩
      · rw [List.pairwise_append]
        refine ⟨hk.sorted, by simp, fun a ha b hb => ?_⟩
        obtain rfl : b = m + 1 := by simpa using hb
        exact hk.lt a ha
      · intro i hi
        rcases List.mem_append.1 hi with h | h
        · exact (hk.lt i h).trans (by omega)
        · obtain rfl : i = m + 1 := by simpa using h
          omega
      · rw [List.head?_append_of_ne_nil _ hne]
        exact hk.first
      · rw [List.isChain_append]
        refine ⟨hk.differ, by simp, ?_⟩
        intro x hx y hy
        simp at hx hy
        subst hx hy
        exact hc
      · intro j hj
        rcases Nat.lt_or_ge j (m + 1) with h | h
        · rcases hk.near j h with h' | ⟨i, hi, hij, hbet, hd⟩
          · left
            simp at h' ⊢
            tauto
          · right
            refine ⟨i, by simp at hi ⊢; tauto, hij, ?_, hd⟩
            intro i' hi'
            rcases List.mem_append.1 hi' with h' | h'
            · exact hbet i' h'
            · right
              obtain rfl : i' = m + 1 := by simpa using h'
              omega
        · left
          simp
          omega
      · rw [if_pos (Or.inr hc)]
        simp
    · refine ⟨idx' ++ [last], ⟨hk.sorted, fun i hi => (hk.lt i hi).trans (by omega), hk.first, hk.differ, ?_⟩, ?_⟩
      · intro j hj
        rcases Nat.lt_or_ge j (m + 1) with h | h
        · exact hk.near j h
        · obtain rfl : j = m + 1 := by omega
          right
          exact ⟨last, by simp, hlast, fun i' hi' => Or.inl (hmax i' hi'), not_lt.1 hc⟩
      · rw [if_neg]
        rintro (h | h)
        · simp at h
        · exact hc h

theorem Spec.KeptSegments.pred {sl : ℕ → ℝ} {tol : ℝ} {n : ℕ} {idx : List ℕ} (h : KeptSegments sl tol n idx) {j : ℕ}
    (hj : j ∈ idx) (h0 : j ≠ 0) :
    ∃ p ∈ idx, p < j ∧ (∀ i ∈ idx, i ≤ p ∨ j ≤ i) ∧ tol < |sl j - sl p| := by
  obtain ⟨l1, l2, rfl⟩ := List.append_of_mem hj
  rcases List.eq_nil_or_concat l1 with rfl | ⟨l, p, rfl⟩
  · have := h.first
    simp at this
    omega
  · rw [List.concat_eq_append, List.append_assoc, List.singleton_append] at h ⊢
    have hs := h.sorted
    rw [List.pairwise_append] at hs
    have hp := List.pairwise_cons.1 hs.2.1
    refine ⟨p, by simp, hp.1 j (by simp), ?_, ?_⟩
    · intro i hi
      rcases List.mem_append.1 hi with h' | h'
      · exact Or.inl (hs.2.2 i h' p (by simp)).le
      · rcases List.mem_cons.1 h' with rfl | h'
        · exact Or.inl le_rfl
        · rcases List.mem_cons.1 h' with rfl | h'
          · exact Or.inr le_rfl
          · exact Or.inr ((List.pairwise_cons.1 hp.2).1 i h').le
    · have hc := h.differ
      rw [List.isChain_append] at hc
      exact (List.isChain_cons_cons.1 hc.2.1).1

theorem Spec.KeptSegments.zero_mem {sl : ℕ → ℝ} {tol : ℝ} {n : ℕ} {idx : List ℕ} (h : KeptSegments sl tol n idx) : 0 ∈ idx :=
  List.mem_of_mem_head? h.first

/-- the kept segments are determined -/
theorem Spec.KeptSegments.unique {sl : ℕ → ℝ} {tol : ℝ} {n : ℕ} {idx idx' : List ℕ} (h : KeptSegments sl tol n idx)
    (h' : KeptSegments sl tol n idx') : idx = idx' := by
  have key : ∀ j, ∀ {idx idx' : List ℕ}, KeptSegments sl tol n idx → KeptSegments sl tol n idx' →
      (∀ i < j, i ∈ idx ↔ i ∈ idx') → j ∈ idx → j ∈ idx' := by
    intro j idx idx' h h' ih hj
    by_contra hn
    have h0 : j ≠ 0 := by
      rintro rfl
      exact hn h'.zero_mem
    obtain ⟨p, hp, hpj, hbet, hd⟩ := h.pred hj h0
    rcases h'.near j (h.lt j hj) with hm | ⟨i, hi, hij, hbet', hd'⟩
    · exact hn hm
    · have hi1 : i ∈ idx := (ih i hij).2 hi
      have hp1 : p ∈ idx' := (ih p hpj).1 hp
      have : i = p := by
        rcases hbet i hi1 with a | a
        · rcases hbet' p hp1 with b | b <;> omega
        · omega
      subst this
      exact absurd hd (not_lt.2 hd')
  have mem : ∀ j, j ∈ idx ↔ j ∈ idx' := by
    intro j
    induction j using Nat.strong_induction_on with
    | _ j ih => exact ⟨key j h h' ih, key j h' h (fun i hi => (ih i hi).symm)⟩
  refine List.Perm.eq_of_pairwise (le := (· ≤ ·)) (fun a b _ _ h1 h2 => le_antisymm h1 h2)
    (h.sorted.imp le_of_lt) (h'.sorted.imp le_of_lt) ?_
  exact (List.perm_ext_iff_of_nodup (h.sorted.imp ne_of_lt) (h'.sorted.imp ne_of_lt)).2 mem

/-- the filter keeps the kept segments -/
theorem psdFilter_eq {adev taus : List ℝ} {tol : ℝ} (h2 : 2 ≤ adev.length) {idx : List ℕ}
    (h : KeptSegments (segSlope adev taus) tol (adev.length - 1) idx) :
    psdFilter adev taus tol = (idx.map (segSlope adev taus),
        adev.getD 0 0 :: idx.map (fun i => adev.getD (i + 1) 0),
        taus.getD 0 0 :: idx.map (fun i => taus.getD (i + 1) 0)) := by
  obtain ⟨idx', h', e⟩ := psdFilter_spec adev taus tol h2
  rw [e, h.unique h']

/-! ## the integrals -/

/-- the integrals of the Allan and Hadamard variances of a power law -/
noncomputable def Spec.powerIntegrand (hadamard : Bool) (mu z : ℝ) : ℝ :=
  (if hadamard then 4 / 3 * sin z ^ 2 else 1) * sin z ^ 4 / z ^ (3 + mu)

theorem powerIntegrand_allan (mu : ℝ) : powerIntegrand false mu = psdIntegrand (-mu - 1) := by
  ext z
  simp only [powerIntegrand, psdIntegrand, Bool.false_eq_true, if_false, one_mul]
  rw [show 2 - (-mu - 1) = 3 + mu by ring]

theorem powerIntegrand_hadamard (mu z : ℝ) :
    powerIntegrand true mu z = 4 / 3 * (sin z ^ 2 * psdIntegrand (-mu - 1) z) := by
  simp only [powerIntegrand, psdIntegrand, if_true]
  rw [show 2 - (-mu - 1) = 3 + mu by ring]
  ring

theorem powerIntegrand_nonneg (b : Bool) (mu : ℝ) {z : ℝ} (hz : 0 ≤ z) : 0 ≤ powerIntegrand b mu z := by
  unfold powerIntegrand
  refine div_nonneg (mul_nonneg ?_ (by positivity)) (rpow_nonneg hz _)
  split <;> positivity

theorem measurable_powerIntegrand (b : Bool) (mu : ℝ) : Measurable (powerIntegrand b mu) := by
  unfold powerIntegrand
  cases b <;> simp <;> fun_prop

/-- the range of slopes for which the integral converges -/
def Spec.Converges (hadamard : Bool) (mu : ℝ) : Prop := -2 < mu ∧ mu < if hadamard then 4 else 2

theorem integrable_power {b : Bool} {mu : ℝ} (h : Converges b mu) : IntegrableOn (powerIntegrand b mu) (Ioi 0) := by
  cases b
  · have h2 : mu < 2 := h.2
    rw [powerIntegrand_allan, ← seg_top]
    exact integrable_seg ⟨le_rfl, le_top, fun _ => by linarith [h.2], fun _ => by linarith [h.1]⟩
  · have h2 : mu < 4 := h.2
    rw [← Ioc_union_Ioi_eq_Ioi (zero_le_one' ℝ)]
    refine IntegrableOn.union ?_ ?_
    · have hi : IntegrableOn (fun z : ℝ => 4 / 3 * psdIntegrand (-mu + 1) z) (Ioc 0 1) :=
        (integrable_small (by linarith) 1).const_mul _
      refine hi.mono' (measurable_powerIntegrand true mu).aestronglyMeasurable ?_
      refine (ae_restrict_iff' measurableSet_Ioc).2 (Filter.Eventually.of_forall fun z hz => ?_)
      rw [norm_of_nonneg (powerIntegrand_nonneg _ _ hz.1.le), powerIntegrand_hadamard]
      refine mul_le_mul_of_nonneg_left ?_ (by norm_num)
      have e : psdIntegrand (-mu + 1) z = z ^ 2 * psdIntegrand (-mu - 1) z := by
        unfold psdIntegrand
        rw [show 2 - (-mu - 1) = 2 - (-mu + 1) + 2 by ring, rpow_add hz.1, rpow_two]
        have := (rpow_pos_of_pos hz.1 (2 - (-mu + 1))).ne'
        have := hz.1.ne'
        field_simp
      rw [e]
      refine mul_le_mul_of_nonneg_right ?_ (psdIntegrand_nonneg _ hz.1.le)
      exact sq_le_sq.2 (abs_sin_le_abs)
    · have hi : IntegrableOn (fun z : ℝ => 4 / 3 * psdIntegrand (-mu - 1) z) (Ioi 1) :=
        (integrable_large (by linarith [h.1]) one_pos).const_mul _
      refine hi.mono' (measurable_powerIntegrand true mu).aestronglyMeasurable ?_
      refine (ae_restrict_iff' measurableSet_Ioi).2 (Filter.Eventually.of_forall fun z hz => ?_)
      have hz' : (0 : ℝ) < z := one_pos.trans hz
      rw [norm_of_nonneg (powerIntegrand_nonneg _ _ hz'.le), powerIntegrand_hadamard]
      refine mul_le_mul_of_nonneg_left ?_ (by norm_num)
      exact mul_le_of_le_one_left (psdIntegrand_nonneg _ hz'.le) (sin_sq_le_one z)

/-- a non-negative function that vanishes only where the sine does has a positive integral
over every half-line -/
theorem integral_tail_pos {g : ℝ → ℝ} {l : ℝ} (hl : 0 ≤ l) (hg : IntegrableOn g (Ioi l))
    (h0 : ∀ z, 0 < z → 0 ≤ g z) (h1 : ∀ z, 0 < z → sin z ≠ 0 → g z ≠ 0) : 0 < ∫ z in Ioi l, g z := by
  rw [setIntegral_pos_iff_support_of_nonneg_ae]
  · obtain ⟨N, hN⟩ := exists_nat_gt (l / π)
    have hN' : l < N * π := (div_lt_iff₀ pi_pos).1 hN
    have hsub : Ioo (N * π) (N * π + π) ⊆ Function.support g ∩ Ioi l := by
      intro z hz
      refine ⟨?_, hN'.trans hz.1⟩
      have hs : 0 < sin (z - N * π) := sin_pos_of_pos_of_lt_pi (by linarith [hz.1]) (by linarith [hz.2])
      rw [sin_sub_nat_mul_pi] at hs
      have h0 : sin z ≠ 0 := by
        rintro h
        rw [h, mul_zero] at hs
        exact lt_irrefl _ hs
      exact h1 z (by linarith [hz.1]) h0
    refine lt_of_lt_of_le ?_ (measure_mono hsub)
    rw [Real.volume_Ioo]
    simp [pi_pos]
  · refine (ae_restrict_iff' measurableSet_Ioi).2 (Filter.Eventually.of_forall fun z hz => ?_)
    exact h0 z (hl.trans_lt hz)
  · exact hg

theorem powerIntegrand_ne {b : Bool} {mu z : ℝ} (hz : 0 < z) (hs : sin z ≠ 0) : powerIntegrand b mu z ≠ 0 := by
  unfold powerIntegrand
  refine div_ne_zero (mul_ne_zero ?_ (pow_ne_zero _ hs)) (rpow_pos_of_pos hz _).ne'
  split
  · exact mul_ne_zero (by norm_num) (pow_ne_zero _ hs)
  · exact one_ne_zero

/-- `J(mu)` of the source -/
noncomputable def Spec.powerJ (hadamard : Bool) (mu : ℝ) : ℝ := ∫ z in Ioi 0, powerIntegrand hadamard mu z

theorem powerJ_pos {b : Bool} {mu : ℝ} (h : Converges b mu) : 0 < powerJ b mu :=
  integral_tail_pos le_rfl (integrable_power h) (fun _ hz => powerIntegrand_nonneg _ _ hz.le)
    (fun _ hz hs => powerIntegrand_ne hz hs)

/-! ## input validation -/

/-- valid input: at least two points, positive, with increasing times -/
structure Spec.ValidPoints (adev taus : List ℝ) : Prop where
  length : adev.length = taus.length
  two : 2 ≤ adev.length
  adev_pos : ∀ a ∈ adev, 0 < a
  taus_pos : ∀ t ∈ taus, 0 < t
  increasing : ∀ i, i + 1 < taus.length → taus.getD i 0 < taus.getD (i + 1) 0

/-- the range of slopes that the code accepts -/
def Spec.Accepted (hadamard : Bool) (mu : ℝ) : Prop := -2 ≤ mu ∧ mu ≤ if hadamard then 4 else 2

noncomputable instance (b : Bool) (mu : ℝ) : Decidable (Accepted b mu) := Classical.dec _

theorem diff_pos_iff (taus : List ℝ) :
    (∀ d ∈ npDiff taus, 0 < d) ↔ ∀ i, i + 1 < taus.length → taus.getD i 0 < taus.getD (i + 1) 0 := by
  have e : npDiff taus = tab (taus.length - 1) (fun i => taus.getD (i + 1) 0 - taus.getD i 0) := by
    conv_lhs => rw [eq_tab taus 0]
    rw [npDiff_tab]
  rw [e]
  constructor
  · intro h i hi
    have := h (taus.getD (i + 1) 0 - taus.getD i 0) (List.mem_map.2 ⟨i, List.mem_range.2 (by omega), rfl⟩)
    linarith
  · intro h d hd
    obtain ⟨i, hi, rfl⟩ := List.mem_map.1 hd
    have := h i (by have := List.mem_range.1 hi; omega)
    linarith

/-- which of the two variances is meant -/
def Spec.IsVar (vartype : String) (hadamard : Bool) : Prop :=
  vartype.toLower = if hadamard then "hdev" else "adev"

/-- C55: invalid points and unknown variance types are rejected with a ValueError -/
theorem adev2psd_reject (quad : Quad) (adev taus : List ℝ) (vartype : String) (tol : ℝ)
    (h : ¬ ValidPoints adev taus ∨ ∀ b, ¬ IsVar vartype b) :
    adev2psd_piecewise_approx quad adev taus vartype tol = .error .valueError := by
  unfold adev2psd_piecewise_approx
  split
  · rfl
  rename_i h1
  split
  · rfl
  rename_i h2
  split
  · rfl
  rename_i h3
  split
  · rfl
  rename_i h4
  have hv : ValidPoints adev taus := by
    refine ⟨not_not.1 h1, not_lt.1 h2, ?_, ?_, ?_⟩
    · intro a ha
      by_contra hc
      exact h3 (Or.inl ⟨a, ha, not_lt.1 hc⟩)
    · intro a ha
      by_contra hc
      exact h3 (Or.inr ⟨a, ha, not_lt.1 hc⟩)
    · exact (diff_pos_iff taus).1 (not_not.1 h4)
  have hb := h.resolve_left (not_not.2 hv)
  have h5 : ¬ (vartype.toLower = "adev" ∨ vartype.toLower = "hdev") := by
    rintro (h | h)
    · exact hb false h
    · exact hb true h
  simp only [h5, not_false_eq_true, if_true]

/-- decreasing times, and an unknown kind of variance -/
example (quad : Quad) : adev2psd_piecewise_approx quad [1, 2] [2, 1] "adev" 0 = .error .valueError ∧
    adev2psd_piecewise_approx quad [1, 2] [1, 2] "tdev" 0 = .error .valueError := by
  constructor
  · apply adev2psd_reject
    left
    intro h
    have := h.increasing 0 (by simp)
    norm_num at this
  · apply adev2psd_reject
    right
    intro b
    have : "tdev".toLower = "tdev" := by
      apply String.toList_inj.1
      simp [String.toLower, String.toList_map]
    unfold IsVar
    rw [this]
    cases b <;> decide

/-- after validation -/
theorem adev2psd_valid (quad : Quad) (adev taus : List ℝ) (vartype : String) (tol : ℝ) (b : Bool)
    (hv : ValidPoints adev taus) (hb : IsVar vartype b) :
    adev2psd_piecewise_approx quad adev taus vartype tol =
      (let s := psdFilter adev taus tol
      let mus := s.1
      let fadev := s.2.1
      let ftau := s.2.2
      if ∃ mu ∈ mus, ¬ Accepted b mu then .error .valueError
      else
        let k := mus.length
        let mu := fun i : ℕ => mus.getD i 0
        let B := fun i : ℕ => fadev.getD (i + 1) 0 ^ 2 * ftau.getD (i + 1) 0 ^ (-mu i)
        let I := fun i : ℕ => quad (powerIntegrand b (mu i)) ((0 : ℝ) : WithTop ℝ) ⊤
        let hi : List NV :=
          (tab k (fun i => nvDiv (some (B i)) (nv2 (· * ·) (nv2 (· * ·) (some 2) (I i)) (some (π ^ mu i))))).reverse
        let alphas : List ℝ := tab k (fun i => -mu (k - 1 - i) - 1)
        let f_nodes : List NV :=
          if fadev.length = 2 then (ftau.map (fun t => some (1 / t))).reverse
          else (tab (k - 1) (fun i => nv2 (· * ·) (some (1 / (10 * π * ftau.getD i 0)))
            (nvPow (nvDiv (I i) (I (i + 1))) (nvDiv (some 1) (some (mu (i + 1) - mu i)))))).reverse
        let Sy_nodes : List NV :=
          if fadev.length = 2 then
            f_nodes.map (fun f => nv2 (· * ·) (hi.getD 0 none) (nvPow f (some (alphas.getD 0 0))))
          else tab f_nodes.length (fun i =>
            nv2 (· * ·) (hi.getD i none) (nvPow (f_nodes.getD i none) (some (alphas.getD i 0))))
        .ok (f_nodes, Sy_nodes, hi, alphas)) := by
  unfold adev2psd_piecewise_approx
  rw [if_neg (not_not.2 hv.length), if_neg (not_lt.2 hv.two), if_neg, if_neg (not_not.2 ((diff_pos_iff taus).2 hv.increasing))]
  · have hvt : vartype.toLower = "adev" ∨ vartype.toLower = "hdev" := by
      unfold IsVar at hb
      cases b
      · exact Or.inl hb
      · exact Or.inr hb
    have hw : psdWeight vartype.toLower = fun z => if b then 4 / 3 * sin z ^ 2 else 1 := by
      ext z
      unfold IsVar at hb
      unfold psdWeight
      rw [hb]
      cases b
      · simp
      · simp
    have hacc : (∃ mu ∈ (psdFilter adev taus tol).1, (vartype.toLower = "adev" ∧ ¬ (-2 ≤ mu ∧ mu ≤ 2)) ∨
        (vartype.toLower = "hdev" ∧ ¬ (-2 ≤ mu ∧ mu ≤ 4))) ↔
        ∃ mu ∈ (psdFilter adev taus tol).1, ¬ Accepted b mu := by
      unfold IsVar at hb
      rw [hb]
      unfold Accepted
      cases b <;> simp
    simp only [hvt, not_true_eq_false, if_false, hw]
    by_cases hc : ∃ mu ∈ (psdFilter adev taus tol).1, ¬ Accepted b mu
    · rw [if_pos hc, if_pos (hacc.2 hc)]
    · rw [if_neg hc, if_neg (fun h => hc (hacc.1 h))]
      rfl
  · rintro (⟨a, ha, h⟩ | ⟨a, ha, h⟩)
    · exact absurd (hv.adev_pos a ha) (not_lt.2 h)
    · exact absurd (hv.taus_pos a ha) (not_lt.2 h)

/-- C55: a kept slope outside the accepted range is rejected with a ValueError -/
theorem adev2psd_slope_reject (quad : Quad) (adev taus : List ℝ) (vartype : String) (tol : ℝ) (b : Bool)
    (hv : ValidPoints adev taus) (hb : IsVar vartype b) (idx : List ℕ)
    (hidx : KeptSegments (segSlope adev taus) tol (adev.length - 1) idx)
    (hbad : ∃ i ∈ idx, ¬ Accepted b (segSlope adev taus i)) :
    adev2psd_piecewise_approx quad adev taus vartype tol = .error .valueError := by
  rw [adev2psd_valid quad adev taus vartype tol b hv hb]
  rw [psdFilter_eq hv.two hidx]
  obtain ⟨i, hi, h⟩ := hbad
  exact if_pos ⟨_, List.mem_map.2 ⟨i, hi, rfl⟩, h⟩

/-- the values of the power law and of the PSD on the kept segment number `i` -/
noncomputable def Spec.lineB (adev taus : List ℝ) (i : ℕ) : ℝ :=
  adev.getD (i + 1) 0 ^ 2 * taus.getD (i + 1) 0 ^ (-segSlope adev taus i)

/-- the PSD coefficient of a segment -/
noncomputable def Spec.lineH (b : Bool) (adev taus : List ℝ) (i : ℕ) : ℝ :=
  lineB adev taus i / (2 * powerJ b (segSlope adev taus i) * π ^ segSlope adev taus i)

/-- the start time of the kept segment number `i` -/
def Spec.startTime (taus : List ℝ) (idx : List ℕ) (i : ℕ) : ℝ :=
  (taus.getD 0 0 :: idx.map (fun i => taus.getD (i + 1) 0)).getD i 0

/-- the frequency node that the code computes between the kept segments `i` and `i + 1` -/
noncomputable def Spec.nodeF (b : Bool) (adev taus : List ℝ) (idx : List ℕ) (i : ℕ) : ℝ :=
  1 / (10 * π * startTime taus idx i) *
    (powerJ b (segSlope adev taus (idx.getD i 0)) / powerJ b (segSlope adev taus (idx.getD (i + 1) 0))) ^
      (1 / (segSlope adev taus (idx.getD (i + 1) 0) - segSlope adev taus (idx.getD i 0)))

theorem chain_getD {idx : List ℕ} {R : ℕ → ℕ → Prop} (h : idx.IsChain R) (i : ℕ) (hi : i + 1 < idx.length) :
    R (idx.getD i 0) (idx.getD (i + 1) 0) := by
  have := List.isChain_iff_getElem.1 h i hi
  simpa [List.getD_eq_getElem?_getD, List.getElem?_eq_getElem hi,
    List.getElem?_eq_getElem (show i < idx.length by omega)] using this

theorem map_getD {α : Type} (l : List ℕ) (f : ℕ → α) (d : α) (i : ℕ) (hi : i < l.length) :
    (l.map f).getD i d = f (l.getD i 0) := by
  simp [List.getD_eq_getElem?_getD, List.getElem?_eq_getElem hi]

theorem getD_mem {l : List ℕ} {i : ℕ} (hi : i < l.length) : l.getD i 0 ∈ l := by
  simp [List.getD_eq_getElem?_getD, List.getElem?_eq_getElem hi]

theorem valid_taus_pos {adev taus : List ℝ} (hv : ValidPoints adev taus) {i : ℕ} (hi : i < adev.length) :
    0 < taus.getD i 0 := by
  rw [hv.length] at hi
  apply hv.taus_pos
  simp [List.getD_eq_getElem?_getD, List.getElem?_eq_getElem hi]

theorem valid_adev_pos {adev taus : List ℝ} (hv : ValidPoints adev taus) {i : ℕ} (hi : i < adev.length) :
    0 < adev.getD i 0 := by
  apply hv.adev_pos
  simp [List.getD_eq_getElem?_getD, List.getElem?_eq_getElem hi]

theorem startTime_pos {adev taus : List ℝ} (hv : ValidPoints adev taus) {idx : List ℕ}
    (hlt : ∀ i ∈ idx, i < adev.length - 1) {i : ℕ} (hi : i < idx.length + 1) : 0 < startTime taus idx i := by
  have := hv.two
  unfold startTime
  rcases i with - | i
  · exact valid_taus_pos hv (by omega)
  · have hi' : i < idx.length := by omega
    show 0 < (idx.map (fun i => taus.getD (i + 1) 0)).getD i 0
    rw [map_getD _ _ _ _ hi']
    have := hlt _ (getD_mem hi')
    exact valid_taus_pos hv (by omega)

theorem lineB_pos {adev taus : List ℝ} (hv : ValidPoints adev taus) {i : ℕ} (hi : i < adev.length - 1) :
    0 < lineB adev taus i := by
  have h1 := valid_adev_pos hv (show i + 1 < adev.length by omega)
  have h2 := valid_taus_pos hv (show i + 1 < adev.length by omega)
  exact mul_pos (pow_pos h1 2) (rpow_pos_of_pos h2 _)

theorem lineH_pos {adev taus : List ℝ} (hv : ValidPoints adev taus) {i : ℕ} (hi : i < adev.length - 1) {b : Bool}
    (hc : Converges b (segSlope adev taus i)) : 0 < lineH b adev taus i :=
  div_pos (lineB_pos hv hi) (mul_pos (mul_pos two_pos (powerJ_pos hc)) (rpow_pos_of_pos pi_pos _))

theorem nodeF_pos {adev taus : List ℝ} (hv : ValidPoints adev taus) {idx : List ℕ} {b : Bool}
    (hlt : ∀ i ∈ idx, i < adev.length - 1) (hok : ∀ i ∈ idx, Converges b (segSlope adev taus i))
    {i : ℕ} (hi : i + 1 < idx.length) : 0 < nodeF b adev taus idx i := by
  have h1 := startTime_pos hv hlt (show i < idx.length + 1 by omega)
  have h2 := powerJ_pos (hok _ (getD_mem (show i < idx.length by omega)))
  have h3 := powerJ_pos (hok _ (getD_mem hi))
  have := pi_pos
  unfold nodeF
  exact mul_pos (by positivity) (rpow_pos_of_pos (div_pos h2 h3) _)

theorem result_aux {fn fn' hi hi' : List NV} {al al' : List ℝ} (F : List NV → List NV → List ℝ → List NV)
    (h1 : fn = fn') (h2 : hi = hi') (h3 : al = al') :
    (Except.ok (fn, F fn hi al, hi, al) : Py (List NV × List NV × List NV × List ℝ)) =
      .ok (fn', F fn' hi' al', hi', al') := by
  subst h1 h2 h3
  rfl

theorem quad_power {quad : Quad} (hq : QuadExact quad) {b : Bool} {mu : ℝ} (h : Converges b mu) :
    quad (powerIntegrand b mu) ((0 : ℝ) : WithTop ℝ) ⊤ = some (powerJ b mu) := by
  rw [hq _ _ _ le_top (by rw [seg_top]; exact integrable_power h), seg_top, powerJ]

/-- C55: the result in explicit form, in the order of increasing frequency -/
theorem adev2psd_eq {quad : Quad} (hq : QuadExact quad) (adev taus : List ℝ) (vartype : String) (tol : ℝ) (b : Bool)
    (htol : 0 ≤ tol) (hv : ValidPoints adev taus) (hb : IsVar vartype b) (idx : List ℕ)
    (hidx : KeptSegments (segSlope adev taus) tol (adev.length - 1) idx)
    (hok : ∀ i ∈ idx, Converges b (segSlope adev taus i)) (hk : 2 ≤ idx.length) :
    ∃ Sy, adev2psd_piecewise_approx quad adev taus vartype tol =
      .ok (tab (idx.length - 1) (fun j => some (nodeF b adev taus idx (idx.length - 2 - j))),
        Sy,
        tab idx.length (fun j => some (lineH b adev taus (idx.getD (idx.length - 1 - j) 0))),
        tab idx.length (fun j => -segSlope adev taus (idx.getD (idx.length - 1 - j) 0) - 1)) ∧
      Sy = tab (idx.length - 1) (fun j => some (lineH b adev taus (idx.getD (idx.length - 1 - j) 0) *
        nodeF b adev taus idx (idx.length - 2 - j) ^ (-segSlope adev taus (idx.getD (idx.length - 1 - j) 0) - 1))) := by
  rw [adev2psd_valid quad adev taus vartype tol b hv hb]
  rw [psdFilter_eq hv.two hidx]
  have hmu : ∀ i < idx.length, (idx.map (segSlope adev taus)).getD i 0 = segSlope adev taus (idx.getD i 0) :=
    fun i hi => map_getD _ _ _ _ hi
  have hacc : ¬ ∃ mu ∈ idx.map (segSlope adev taus), ¬ Accepted b mu := by
    rintro ⟨mu, hmem, hn⟩
    obtain ⟨i, hi, rfl⟩ := List.mem_map.1 hmem
    have := hok i hi
    exact hn ⟨this.1.le, this.2.le⟩
  have hlen : ¬ (adev.getD 0 0 :: idx.map (fun i => adev.getD (i + 1) 0)).length = 2 := by
    simp
    omega
  dsimp only
  rw [if_neg hacc, if_neg hlen, if_neg hlen, List.length_map]
  refine ⟨_, result_aux (fun fn hi al => tab fn.length (fun i =>
    nv2 (· * ·) (hi.getD i none) (nvPow (fn.getD i none) (some (al.getD i 0))))) ?_ ?_ ?_, ?_⟩
  · rw [reverse_tab]
    apply tab_congr
    intro j hj
    have e : idx.length - 1 - 1 - j = idx.length - 2 - j := by omega
    rw [e]
    set i := idx.length - 2 - j with hi
    have hi1 : i + 1 < idx.length := by omega
    have hi0 : i < idx.length := by omega
    have hc0 := hok _ (getD_mem hi0)
    have hc1 := hok _ (getD_mem hi1)
    rw [hmu i hi0, hmu (i + 1) hi1, quad_power hq hc0, quad_power hq hc1]
    have hd := chain_getD hidx.differ i hi1
    have hd' : segSlope adev taus (idx.getD (i + 1) 0) - segSlope adev taus (idx.getD i 0) ≠ 0 := by
      intro h
      rw [h, abs_zero] at hd
      linarith
    simp only [nvDiv, if_neg (powerJ_pos hc1).ne', if_neg hd', nvPow, if_pos (div_pos (powerJ_pos hc0) (powerJ_pos hc1)),
      nv2]
    rfl
  · rw [reverse_tab]
    apply tab_congr
    intro j hj
    set i := idx.length - 1 - j with hi
    have hi0 : i < idx.length := by omega
    have hc0 := hok _ (getD_mem hi0)
    rw [hmu i hi0, quad_power hq hc0]
    have hne : 2 * powerJ b (segSlope adev taus (idx.getD i 0)) * π ^ segSlope adev taus (idx.getD i 0) ≠ 0 :=
      (mul_pos (mul_pos two_pos (powerJ_pos hc0)) (rpow_pos_of_pos pi_pos _)).ne'
    have g1 : (adev.getD 0 0 :: idx.map (fun i => adev.getD (i + 1) 0)).getD (i + 1) 0 = adev.getD (idx.getD i 0 + 1) 0 :=
      map_getD _ _ _ _ hi0
    have g2 : (taus.getD 0 0 :: idx.map (fun i => taus.getD (i + 1) 0)).getD (i + 1) 0 = taus.getD (idx.getD i 0 + 1) 0 :=
      map_getD _ _ _ _ hi0
    simp only [nv2, nvDiv, if_neg hne, g1, g2]
    rfl
  · apply tab_congr
    intro j hj
    rw [hmu _ (by omega)]
  · rw [tab_length]
    apply tab_congr
    intro j hj
    rw [tab_getD, if_pos (by omega), tab_getD, if_pos (by omega), tab_getD, if_pos (by omega)]
    simp only [nvPow, nv2]
    rw [if_pos (nodeF_pos hv hidx.lt hok (by omega))]

/-! ## continuity -/

/-- algebra of the node frequency -/
theorem node_algebra {B0 B1 J0 J1 m0 m1 t : ℝ} (hB0 : 0 < B0) (hB1 : 0 < B1) (hJ0 : 0 < J0) (hJ1 : 0 < J1)
    (ht : 0 < t) (hd : m1 - m0 ≠ 0) :
    let f := 1 / (10 * π * t) * (J0 / J1) ^ (1 / (m1 - m0))
    (B1 / (2 * J1 * π ^ m1) * f ^ (-m1 - 1) = B0 / (2 * J0 * π ^ m0) * f ^ (-m0 - 1)) ↔
      B0 * (10 * t) ^ m0 = B1 * (10 * t) ^ m1 := by
  intro f
  have hpi := pi_pos
  have hr : 0 < J0 / J1 := div_pos hJ0 hJ1
  have hf : 0 < f := mul_pos (by positivity) (rpow_pos_of_pos hr _)
  have h10 : (0 : ℝ) < 10 * t := by positivity
  have p0 := rpow_pos_of_pos hpi m0
  have p1 := rpow_pos_of_pos hpi m1
  have q0 := rpow_pos_of_pos h10 m0
  have q1 := rpow_pos_of_pos h10 m1
  have lf : log f = -(log π + log (10 * t)) + (log J0 - log J1) / (m1 - m0) := by
    have e : 1 / (10 * π * t) = (π * (10 * t))⁻¹ := by rw [one_div]; congr 1; ring
    rw [show f = (π * (10 * t))⁻¹ * (J0 / J1) ^ (1 / (m1 - m0)) by rw [← e],
      log_mul (by positivity) (rpow_pos_of_pos hr _).ne', log_inv, log_mul hpi.ne' h10.ne', log_rpow hr,
      log_div hJ0.ne' hJ1.ne']
    ring
  have ll : ∀ B J m : ℝ, 0 < B → 0 < J → log (B / (2 * J * π ^ m) * f ^ (-m - 1)) =
      log B - (log 2 + log J + m * log π) + (-m - 1) * log f := by
    intro B J m hB hJ
    have := rpow_pos_of_pos hpi m
    rw [log_mul (by positivity) (rpow_pos_of_pos hf _).ne', log_div hB.ne' (by positivity), log_rpow hf,
      log_mul (by positivity) this.ne', log_mul two_ne_zero hJ.ne', log_rpow hpi]
  have lr : ∀ B m : ℝ, 0 < B → log (B * (10 * t) ^ m) = log B + m * log (10 * t) := by
    intro B m hB
    rw [log_mul hB.ne' (rpow_pos_of_pos h10 _).ne', log_rpow h10]
  have hpos : ∀ B J m : ℝ, 0 < B → 0 < J → 0 < B / (2 * J * π ^ m) * f ^ (-m - 1) := by
    intro B J m hB hJ
    have h1 := rpow_pos_of_pos hpi m
    have h2 := rpow_pos_of_pos hf (-m - 1)
    positivity
  rw [← log_injOn_pos.eq_iff (hpos B1 J1 m1 hB1 hJ1) (hpos B0 J0 m0 hB0 hJ0),
    ← log_injOn_pos.eq_iff (mul_pos hB0 q0) (mul_pos hB1 q1), ll _ _ _ hB1 hJ1, ll _ _ _ hB0 hJ0, lr _ _ hB0, lr _ _ hB1, lf]
  have e : (m1 - m0) * ((log J0 - log J1) / (m1 - m0)) = log J0 - log J1 := by field_simp
  constructor <;> intro h <;> linarith [h, e]

/-- C55: the reconstructed PSD is continuous at a returned node exactly when the power laws
of the two adjacent segments agree at ten times the start time of the earlier one -/
theorem adev2psd_continuous_iff {adev taus : List ℝ} {tol : ℝ} {b : Bool}
    (htol : 0 ≤ tol) (hv : ValidPoints adev taus) {idx : List ℕ}
    (hidx : KeptSegments (segSlope adev taus) tol (adev.length - 1) idx)
    (hok : ∀ i ∈ idx, Converges b (segSlope adev taus i)) (i : ℕ) (hi : i + 1 < idx.length) :
    (lineH b adev taus (idx.getD (i + 1) 0) *
        nodeF b adev taus idx i ^ (-segSlope adev taus (idx.getD (i + 1) 0) - 1) =
      lineH b adev taus (idx.getD i 0) * nodeF b adev taus idx i ^ (-segSlope adev taus (idx.getD i 0) - 1)) ↔
    lineB adev taus (idx.getD i 0) * (10 * startTime taus idx i) ^ segSlope adev taus (idx.getD i 0) =
      lineB adev taus (idx.getD (i + 1) 0) *
        (10 * startTime taus idx i) ^ segSlope adev taus (idx.getD (i + 1) 0) := by
  have hi0 : i < idx.length := by omega
  have hd := chain_getD hidx.differ i hi
  have hd' : segSlope adev taus (idx.getD (i + 1) 0) - segSlope adev taus (idx.getD i 0) ≠ 0 := by
    intro h
    rw [h, abs_zero] at hd
    linarith
  exact node_algebra (lineB_pos hv (hidx.lt _ (getD_mem hi0))) (lineB_pos hv (hidx.lt _ (getD_mem hi)))
    (powerJ_pos (hok _ (getD_mem hi0))) (powerJ_pos (hok _ (getD_mem hi)))
    (startTime_pos hv hidx.lt (by omega)) hd'

/-- the power law of a segment passes through both of its points -/
theorem lineB_start {adev taus : List ℝ} (hv : ValidPoints adev taus) {i : ℕ} (hi : i < adev.length - 1) :
    lineB adev taus i * taus.getD i 0 ^ segSlope adev taus i = adev.getD i 0 ^ 2 := by
  have a0 := valid_adev_pos hv (show i < adev.length by omega)
  have a1 := valid_adev_pos hv (show i + 1 < adev.length by omega)
  have t0 := valid_taus_pos hv (show i < adev.length by omega)
  have t1 := valid_taus_pos hv (show i + 1 < adev.length by omega)
  have hlt : log (taus.getD i 0) < log (taus.getD (i + 1) 0) :=
    log_lt_log t0 (hv.increasing i (by rw [← hv.length]; omega))
  have p1 := rpow_pos_of_pos t1 (-segSlope adev taus i)
  have p0 := rpow_pos_of_pos t0 (segSlope adev taus i)
  have hd : log (taus.getD (i + 1) 0) - log (taus.getD i 0) ≠ 0 := by linarith
  refine log_injOn_pos (Set.mem_Ioi.2 ?_) (Set.mem_Ioi.2 (pow_pos a0 2)) ?_
  · exact mul_pos (lineB_pos hv hi) p0
  · unfold lineB
    rw [log_mul (by positivity) p0.ne', log_mul (by positivity) p1.ne', log_rpow t0, log_rpow t1, log_pow, log_pow]
    have : segSlope adev taus i * (log (taus.getD (i + 1) 0) - log (taus.getD i 0)) =
        2 * (log (adev.getD (i + 1) 0) - log (adev.getD i 0)) := by
      unfold segSlope
      field_simp
    push_cast
    linarith

theorem lineB_end {adev taus : List ℝ} (hv : ValidPoints adev taus) {i : ℕ} (hi : i < adev.length - 1) :
    lineB adev taus i * taus.getD (i + 1) 0 ^ segSlope adev taus i = adev.getD (i + 1) 0 ^ 2 := by
  have t1 := valid_taus_pos hv (show i + 1 < adev.length by omega)
  unfold lineB
  rw [mul_assoc, ← rpow_add t1, neg_add_cancel, rpow_zero, mul_one]

/-- when all consecutive slopes differ, every segment is kept -/
theorem kept_all {sl : ℕ → ℝ} {tol : ℝ} {n : ℕ} (hn : 0 < n) (h : ∀ i, i + 1 < n → tol < |sl (i + 1) - sl i|) :
    KeptSegments sl tol n (List.range n) := by
  refine ⟨List.pairwise_lt_range, fun i hi => List.mem_range.1 hi, ?_, ?_, fun j hj => Or.inl (List.mem_range.2 hj)⟩
  · rw [List.head?_range, if_neg hn.ne']
  · rw [List.isChain_iff_getElem]
    intro i hi
    simp only [List.getElem_range]
    exact h i (by simpa using hi)

theorem range_getD {n i : ℕ} (hi : i < n) : (List.range n).getD i 0 = i := by
  simp [List.getD_eq_getElem?_getD, hi]

theorem startTime_range {taus : List ℝ} {n i : ℕ} (hi : i ≤ n) : startTime taus (List.range n) i = taus.getD i 0 := by
  unfold startTime
  rcases i with - | i
  · rfl
  · show ((List.range n).map (fun i => taus.getD (i + 1) 0)).getD i 0 = _
    rw [map_getD _ _ _ _ (by simpa using hi), range_getD (by omega)]

/-- C55: when all consecutive slopes differ, so that all points are used, the PSD is
continuous at the node belonging to the points `i`, `i + 1`, `i + 2` if and only if
`tau[i+1]` is exactly ten times `tau[i]` -/
theorem adev2psd_continuous_iff_decade {adev taus : List ℝ} {tol : ℝ} {b : Bool} (htol : 0 ≤ tol)
    (hv : ValidPoints adev taus)
    (hdiff : ∀ i, i + 1 < adev.length - 1 → tol < |segSlope adev taus (i + 1) - segSlope adev taus i|)
    (hok : ∀ i < adev.length - 1, Converges b (segSlope adev taus i)) (i : ℕ) (hi : i + 2 < adev.length) :
    (lineH b adev taus (i + 1) *
        nodeF b adev taus (List.range (adev.length - 1)) i ^ (-segSlope adev taus (i + 1) - 1) =
      lineH b adev taus i * nodeF b adev taus (List.range (adev.length - 1)) i ^ (-segSlope adev taus i - 1)) ↔
    taus.getD (i + 1) 0 = 10 * taus.getD i 0 := by
  have hk := kept_all (n := adev.length - 1) (by omega) hdiff
  have key := adev2psd_continuous_iff htol hv hk (fun j hj => hok j (List.mem_range.1 hj)) i
    (by rw [List.length_range]; omega)
  rw [range_getD (show i < adev.length - 1 by omega), range_getD (show i + 1 < adev.length - 1 by omega),
    startTime_range (by omega)] at key
  rw [key]
  have t0 := valid_taus_pos hv (show i < adev.length by omega)
  have t1 := valid_taus_pos hv (show i + 1 < adev.length by omega)
  have e0 := lineB_end hv (show i < adev.length - 1 by omega)
  have e1 := lineB_start hv (show i + 1 < adev.length - 1 by omega)
  have b0 := lineB_pos hv (show i < adev.length - 1 by omega)
  have b1 := lineB_pos hv (show i + 1 < adev.length - 1 by omega)
  have hd : segSlope adev taus (i + 1) - segSlope adev taus i ≠ 0 := by
    intro h
    have := hdiff i (by omega)
    rw [h, abs_zero] at this
    linarith
  have h10 : 0 < 10 * taus.getD i 0 := by linarith
  constructor
  · intro h
    have q0 := rpow_pos_of_pos h10 (segSlope adev taus i)
    have q1 := rpow_pos_of_pos h10 (segSlope adev taus (i + 1))
    have r0 := rpow_pos_of_pos t1 (segSlope adev taus i)
    have r1 := rpow_pos_of_pos t1 (segSlope adev taus (i + 1))
    have l1 : log (lineB adev taus i) + segSlope adev taus i * log (10 * taus.getD i 0) =
        log (lineB adev taus (i + 1)) + segSlope adev taus (i + 1) * log (10 * taus.getD i 0) := by
      rw [← log_rpow h10, ← log_rpow h10, ← log_mul b0.ne' q0.ne', ← log_mul b1.ne' q1.ne', h]
    have l2 : log (lineB adev taus i) + segSlope adev taus i * log (taus.getD (i + 1) 0) =
        log (lineB adev taus (i + 1)) + segSlope adev taus (i + 1) * log (taus.getD (i + 1) 0) := by
      rw [← log_rpow t1, ← log_rpow t1, ← log_mul b0.ne' r0.ne', ← log_mul b1.ne' r1.ne', e0, e1]
    have l3 : (segSlope adev taus (i + 1) - segSlope adev taus i) *
        (log (taus.getD (i + 1) 0) - log (10 * taus.getD i 0)) = 0 := by linarith
    have l4 := (mul_eq_zero.1 l3).resolve_left hd
    exact log_injOn_pos (Set.mem_Ioi.2 t1) (Set.mem_Ioi.2 h10) (by linarith)
  · intro h
    rw [← h, e0, e1]

end AT
