import Verif.Model.Noise
import Verif.Props.Kasdin
import Verif.Lemmas.Realtime

/-!
# C54: Timmer-Koenig synthesis
-/

namespace AT

open Finset Real

/-- `f` lies in the `k`-th segment: at or above the first `k` nodes, below the others -/
def Spec.InSegment (f_nodes : List ℝ) (k : ℕ) (f : ℝ) : Prop :=
  k ≤ f_nodes.length ∧ (∀ j < k, f_nodes.getD j 0 ≤ f) ∧
    ∀ j, k ≤ j → j < f_nodes.length → f < f_nodes.getD j 0

open Spec

/-- for ascending nodes every frequency lies in a segment -/
theorem exists_segment (f_nodes : List ℝ) (hs : f_nodes.Pairwise (· < ·)) (f : ℝ) :
    ∃ k, InSegment f_nodes k f := by
  induction f_nodes with
  | nil => exact ⟨0, by simp [InSegment]⟩
  | cons a l ih =>
    rw [List.pairwise_cons] at hs
    by_cases ha : a ≤ f
    · obtain ⟨k, h0, h1, h2⟩ := ih hs.2
      refine ⟨k + 1, by simpa using h0, fun j hj => ?_, fun j hj hl => ?_⟩
      · rcases j with - | j
        · simpa using ha
        · simpa using h1 j (by omega)
      · rcases j with - | j
        · omega
        · simpa using h2 j (by omega) (by simpa using hl)
    · refine ⟨0, by simp, by simp, fun j _ hl => ?_⟩
      rcases j with - | j
      · simpa using ha
      · have hl' : j < l.length := by simpa using hl
        have hm : l[j] ∈ l := List.getElem_mem hl'
        have := hs.1 _ hm
        simp only [List.getD_cons_succ]
        rw [List.getD_eq_getElem _ _ hl']
        linarith [not_le.1 ha]

theorem getLastD_eq (l : List ℝ) : l.getLastD 0 = l.getD (l.length - 1) 0 := by
  rcases List.eq_nil_or_concat l with rfl | ⟨t, a, rfl⟩
  · rfl
  · simp

theorem find_unique (p : ℕ → Bool) (a m k : ℕ) (hk : a ≤ k) (hk' : k < a + m) (hp : p k = true)
    (hu : ∀ j, a ≤ j → j < a + m → p j = true → j = k) : (List.range' a m).find? p = some k := by
  rcases hf : (List.range' a m).find? p with - | j
  · rw [List.find?_eq_none] at hf
    exact absurd hp (hf k (by simp [List.mem_range'_1]; omega))
  · have h1 := List.find?_some hf
    have h2 := List.mem_of_find?_eq_some hf
    rw [List.mem_range'_1] at h2
    rw [hu j h2.1 h2.2 h1]

/-- C54: the PSD at a frequency is that of the segment it lies in; missing is the case of a
frequency equal to the last node -/
theorem tkSy_eq_partial (f_nodes h alpha : List ℝ) (hl : h.length = f_nodes.length + 1)
    (ha : alpha.length = f_nodes.length + 1) (f : ℝ) (k : ℕ) (hk : InSegment f_nodes k f)
    (hne : f_nodes = [] ∨ f ≠ f_nodes.getLastD 0) :
    tkSy f_nodes (h ++ [h.getLastD 0]) (alpha ++ [alpha.getLastD 0]) f =
      h.getD k 0 * f ^ alpha.getD k 0 := by
  obtain ⟨h0, h1, h2⟩ := hk
  have g : ∀ (l : List ℝ) (a : ℝ) (i : ℕ), i < l.length → (l ++ [a]).getD i 0 = l.getD i 0 :=
    fun l a i hi => by
      rw [List.getD_append _ _ _ _ hi]
  unfold tkSy
  by_cases hN : f_nodes.length = 0
  · have hk0 : k = 0 := by omega
    rw [if_neg (by omega), if_neg (by omega), if_pos hN, g _ _ _ (by omega), g _ _ _ (by omega), hk0]
  by_cases hk0 : k = 0
  · subst hk0
    rw [if_pos ⟨by omega, h2 0 le_rfl (by omega)⟩, g _ _ _ (by omega), g _ _ _ (by omega)]
  have hge : f_nodes.getD 0 0 ≤ f := h1 0 (by omega)
  rw [if_neg (by intro h; linarith [h.2])]
  have hne' : f ≠ f_nodes.getLastD 0 := by
    rcases hne with h | h
    · rw [h] at hN; exact absurd rfl hN
    · exact h
  rw [getLastD_eq] at hne' ⊢
  by_cases hkN : k = f_nodes.length
  · have hlast := h1 (f_nodes.length - 1) (by omega)
    rw [if_pos ⟨by omega, lt_of_le_of_ne hlast hne'.symm⟩, getLastD_eq (h ++ _), getLastD_eq (alpha ++ _),
      getLastD_eq h, getLastD_eq alpha]
    simp [hl, ha, hkN]
  · have hlast := h2 (f_nodes.length - 1) (by omega) (by omega)
    rw [if_neg (by intro h; linarith [h.2]), if_neg hN, tkInner,
      find_unique _ 1 _ k (by omega) (by omega)]
    · simp only
      rw [g _ _ _ (by omega), g _ _ _ (by omega)]
    · simp only [Bool.and_eq_true, decide_eq_true_eq]
      exact ⟨h1 (k - 1) (by omega), h2 k le_rfl (by omega)⟩
    · intro j hj hj' hp
      simp only [Bool.and_eq_true, decide_eq_true_eq] at hp
      by_contra hjk
      rcases Nat.lt_or_ge j k with h | h
      · linarith [h1 j h]
      · linarith [h2 (j - 1) (by omega) (by omega)]

/-- C54 fails at the last node: the PSD there is set to zero -/
theorem tkSy_last_wrong (f_nodes h_ext alpha_ext : List ℝ) (hN : f_nodes ≠ []) (f : ℝ)
    (hk : InSegment f_nodes f_nodes.length f) (hf : f = f_nodes.getLastD 0) :
    tkSy f_nodes h_ext alpha_ext f = 0 := by
  have hN' : 0 < f_nodes.length := List.length_pos_iff.2 hN
  obtain ⟨-, h1, -⟩ := hk
  unfold tkSy
  rw [if_neg (by intro h; linarith [h.2, h1 0 hN']), if_neg (by intro h; linarith [h.2]), if_neg (by omega),
    tkInner, List.find?_eq_none.2]
  intro j hj
  rw [List.mem_range'_1] at hj
  simp only [Bool.and_eq_true, decide_eq_true_eq, not_and, not_lt]
  intro _
  exact h1 j (by omega)

example : tkSy [1, 2] [3, 3, 3, 3] [0, 0, 0, 0] 2 = 0 :=
  tkSy_last_wrong _ _ _ (by simp) 2
    ⟨le_rfl, by intro j hj; simp at hj; interval_cases j <;> norm_num, by intro j h1 h2; simp at h1 h2; omega⟩ rfl

/-- `k`-th grid frequency -/
noncomputable def Spec.tkFreq (n : ℕ) (dt : ℝ) (k : ℕ) : ℝ :=
  1 / ((n - 1) * dt) + k * ((1 / (2 * dt) - 1 / ((n - 1) * dt)) / (n / 2 : ℕ))

/-- the random spectral coefficient at the `k`-th grid frequency -/
noncomputable def Spec.tkCoeff (S : ℝ → ℝ) (z : ℕ → ℝ) (n : ℕ) (dt : ℝ) (k : ℕ) : ℂ :=
  ((√(S (tkFreq n dt k) / (2 * π * tkFreq n dt k) ^ 2) / 2 : ℝ) : ℂ) *
    (z (2 * (k - 1)) + Complex.I * z (2 * (k - 1) + 1))

/-- the synthesised phase for even `n` -/
noncomputable def Spec.tkPhase (S : ℝ → ℝ) (z : ℕ → ℝ) (n : ℕ) (dt : ℝ) (t : ℕ) : ℝ :=
  √((n - 1) / dt) / n *
    (2 * ∑ k ∈ range (n / 2 - 1), (tkCoeff S z n dt (k + 1) * expRoot n ((t * (k + 1) : ℕ) : ℤ)).re +
      (tkCoeff S z n dt (n / 2) * expRoot n ((t * (n / 2) : ℕ) : ℤ)).re)

/-- arguments that pass the checks at the start -/
structure Spec.TkValid (f_nodes h alpha : List ℝ) (duration timestep : ℝ) : Prop where
  dur : 0 < duration
  step : 0 < timestep
  len : h.length = alpha.length
  pos : 0 < h.length
  nodes : f_nodes = [] ∨ f_nodes.length + 1 = h.length

/-- the samples of `S_x` after the first has been cleared -/
theorem tkSx_eq (S : ℝ → ℝ) (n : ℕ) (dt : ℝ) (hn : 4 ≤ n) :
    ((npLinspace (1 / (((n : ℝ) - 1) * dt)) (1 / (2 * dt)) (n / 2 + 1)).map
      (fun f => S f / (2 * π * f) ^ 2)).set 0 0 =
    tab (n / 2 + 1) (fun k => if k = 0 then 0 else S (tkFreq n dt k) / (2 * π * tkFreq n dt k) ^ 2) := by
  rw [npLinspace, if_neg (by omega), map_tab, set_tab]
  apply tab_congr
  intro k _
  rw [Function.update_apply]
  split_ifs
  · rfl
  · have : ((n / 2 + 1 : ℕ) : ℝ) - 1 = (n / 2 : ℕ) := by push_cast; ring
    rw [this]
    rfl

/-- the half spectrum -/
noncomputable def tkHalf (S : ℝ → ℝ) (z : ℕ → ℝ) (n : ℕ) (dt : ℝ) (j : ℕ) : ℂ :=
  if 1 ≤ j ∧ j < n / 2 + 1 then tkCoeff S z n dt j else 0

/-- NaN in the spectrum -/
def Spec.TkNan (S : ℝ → ℝ) (n : ℕ) (dt : ℝ) : Prop :=
  ∃ k, 1 ≤ k ∧ k ≤ n / 2 ∧ S (tkFreq n dt k) / (2 * π * tkFreq n dt k) ^ 2 < 0

/-- the PSD that the code samples -/
noncomputable def tkS (f_nodes h alpha : List ℝ) : ℝ → ℝ :=
  tkSy f_nodes (h ++ [h.getLastD 0]) (alpha ++ [alpha.getLastD 0])

/-- the last part of the function, from the complete spectrum on -/
noncomputable def tkFinish (X : List ℂ) (nan : Prop) [Decidable nan] (n : ℕ) (dt : ℝ) (output : String) :
    Py (List NV) :=
  let x := (npIfft X).map (fun v => (v * ((√(((n : ℝ) - 1) / dt) : ℝ) : ℂ)).re)
  if output = "phase" then .ok (if nan then tab n (fun _ => none) else x.map some)
  else if output = "freq" then
    .ok (some 0 :: (if nan then tab (n - 1) (fun _ => none) else (npDiff x).map (fun v => some (v / dt))))
  else .error .valueError

open Classical in
theorem tk_core (z : ℕ → ℝ) (f_nodes h alpha : List ℝ) (duration dt : ℝ) (output : String)
    (hv : TkValid f_nodes h alpha duration dt) (n : ℕ) (hn : n = ⌊duration / dt⌋₊) (h4 : 4 ≤ n) :
    timmer_koenig_from_psd z f_nodes h alpha duration dt output =
      match npSetFrom (tab n (tkHalf (tkS f_nodes h alpha) z n dt)) (n / 2 + 1)
        (tab (n / 2 - 1) (fun i => (starRingEnd ℂ) (tkHalf (tkS f_nodes h alpha) z n dt (n / 2 - 1 - i)))) with
      | .error e => .error e
      | .ok X => tkFinish X (TkNan (tkS f_nodes h alpha) n dt) n dt output := by
  have hl := hv.len
  have hnod : f_nodes.length = 0 ∨ (f_nodes.length : ℤ) = (h.length : ℤ) - 1 := by
    rcases hv.nodes with h | h
    · left; rw [h]; rfl
    · right; omega
  have hd := hv.dur
  have ht := hv.step
  have hp := hv.pos
  unfold timmer_koenig_from_psd
  rw [if_neg (by push Not; exact ⟨hd, ht⟩), if_neg (by simpa using hl), if_neg (not_not.2 hnod),
    if_neg (by omega)]
  simp only
  rw [← hn, if_neg (by omega)]
  have e1 := tkSx_eq (tkS f_nodes h alpha) n dt h4
  unfold tkS at e1
  rw [e1]
  have e2 : (tab n fun j => if 1 ≤ j ∧ j < n / 2 + 1 then
      ((√((tab (n / 2 + 1) (fun k => if k = 0 then 0 else
        tkSy f_nodes (h ++ [h.getLastD 0]) (alpha ++ [alpha.getLastD 0]) (tkFreq n dt k) /
          (2 * π * tkFreq n dt k) ^ 2)).getD j 0) / 2 : ℝ) : ℂ) *
        ((z (2 * (j - 1)) : ℂ) + Complex.I * (z (2 * (j - 1) + 1) : ℂ)) else 0) =
      tab n (tkHalf (tkS f_nodes h alpha) z n dt) := by
    apply tab_congr
    intro j _
    unfold tkHalf tkCoeff tkS
    split_ifs with hj
    · rw [tab_getD, if_pos hj.2, if_neg (by omega)]
    · rfl
  rw [e2]
  have e3 : ((slice (tab n (tkHalf (tkS f_nodes h alpha) z n dt)) 1 ((n / 2 : ℕ) : ℤ)).reverse.map (starRingEnd ℂ)) =
      tab (n / 2 - 1) (fun i => (starRingEnd ℂ) (tkHalf (tkS f_nodes h alpha) z n dt (n / 2 - 1 - i))) := by
    have := slice_tab n (tkHalf (tkS f_nodes h alpha) z n dt) 1 (n / 2) (Nat.div_le_self _ _)
    rw [Nat.cast_one] at this
    rw [this, reverse_tab, map_tab]
    apply tab_congr
    intro i hi
    congr 2
    omega
  rw [e3]
  have e4 : ((tab (n / 2 + 1) (fun k => if k = 0 then 0 else
        tkSy f_nodes (h ++ [h.getLastD 0]) (alpha ++ [alpha.getLastD 0]) (tkFreq n dt k) /
          (2 * π * tkFreq n dt k) ^ 2)).any (fun v => decide (v < 0)) = true) ↔
      TkNan (tkS f_nodes h alpha) n dt := by
    rw [List.any_eq_true]
    unfold tab TkNan
    constructor
    · rintro ⟨v, hv, hneg⟩
      obtain ⟨k, hk, rfl⟩ := List.mem_map.1 hv
      have hk' := List.mem_range.1 hk
      have hneg' := of_decide_eq_true hneg
      by_cases hk0 : k = 0
      · rw [if_pos hk0] at hneg'
        exact absurd hneg' (lt_irrefl _)
      · rw [if_neg hk0] at hneg'
        exact ⟨k, by omega, by omega, hneg'⟩
    · rintro ⟨k, hk1, hk2, hneg⟩
      refine ⟨_, List.mem_map.2 ⟨k, List.mem_range.2 (by omega), rfl⟩, decide_eq_true ?_⟩
      rw [if_neg (by omega)]
      exact hneg
  generalize npSetFrom _ _ _ = r
  rcases r with e | X
  · rfl
  · simp only [tkFinish, e4]

theorem npSetFrom_eq {α : Type} (X : List α) (lo : ℕ) (v : List α) (h : v.length = X.length - lo) :
    npSetFrom X lo v = .ok (X.take lo ++ v) := by
  unfold npSetFrom
  exact if_pos h

theorem npSetFrom_ne {α : Type} (X : List α) (lo : ℕ) (v : List α) (h : v.length ≠ X.length - lo)
    (h1 : v.length ≠ 1) : npSetFrom X lo v = .error .valueError := by
  unfold npSetFrom
  rw [if_neg h]
  match v, h1 with
  | [], _ => rfl
  | [a], h1 => exact absurd rfl h1
  | a :: b :: l, _ => rfl

/-- C54 fails for odd `n` from 7 on: the mirrored half spectrum does not fit and the assignment
raises ValueError -/
theorem tk_odd_wrong (z : ℕ → ℝ) (f_nodes h alpha : List ℝ) (duration dt : ℝ) (output : String)
    (hv : TkValid f_nodes h alpha duration dt) (h7 : 7 ≤ ⌊duration / dt⌋₊) (ho : ⌊duration / dt⌋₊ % 2 = 1) :
    timmer_koenig_from_psd z f_nodes h alpha duration dt output = .error .valueError := by
  rw [tk_core z f_nodes h alpha duration dt output hv _ rfl (by omega), npSetFrom_ne]
  · rw [tab_length, tab_length]; omega
  · rw [tab_length]; omega

theorem tkFinish_length (X : List ℂ) (nan : Prop) [Decidable nan] (dt : ℝ) (output : String)
    (ho : output = "phase" ∨ output = "freq") (hX : 0 < X.length) :
    ∃ l, tkFinish X nan X.length dt output = .ok l ∧ l.length = X.length := by
  unfold tkFinish npIfft
  rcases ho with rfl | rfl
  · rw [if_pos rfl]
    refine ⟨_, rfl, ?_⟩
    split_ifs <;> simp
  · rw [if_neg (by decide), if_pos rfl]
    refine ⟨_, rfl, ?_⟩
    rw [map_tab, npDiff_tab]
    split_ifs <;> simp <;> omega

/-- C54: for even `n` (and for `n = 5`) the function returns `n` samples -/
theorem tk_length_partial (z : ℕ → ℝ) (f_nodes h alpha : List ℝ) (duration dt : ℝ) (output : String)
    (hv : TkValid f_nodes h alpha duration dt) (ho : output = "phase" ∨ output = "freq")
    (h4 : 4 ≤ ⌊duration / dt⌋₊) (he : ⌊duration / dt⌋₊ % 2 = 0 ∨ ⌊duration / dt⌋₊ = 5) :
    ∃ l, timmer_koenig_from_psd z f_nodes h alpha duration dt output = .ok l ∧
      l.length = ⌊duration / dt⌋₊ := by
  classical
  rw [tk_core z f_nodes h alpha duration dt output hv _ rfl h4]
  set n := ⌊duration / dt⌋₊
  obtain ⟨X, hX, hl⟩ : ∃ X, npSetFrom (tab n (tkHalf (tkS f_nodes h alpha) z n dt)) (n / 2 + 1)
        (tab (n / 2 - 1) (fun i => (starRingEnd ℂ) (tkHalf (tkS f_nodes h alpha) z n dt (n / 2 - 1 - i)))) = .ok X ∧
        X.length = n := by
    rcases he with he | he
    · refine ⟨_, npSetFrom_eq _ _ _ (by rw [tab_length, tab_length]; omega), ?_⟩
      simp
      omega
    · rw [he]
      refine ⟨_, by unfold npSetFrom; rw [if_neg (by simp)]; rfl, ?_⟩
      simp
  rw [hX]
  have := tkFinish_length X (TkNan (tkS f_nodes h alpha) n dt) dt output ho (by omega)
  rw [hl] at this
  exact this

/-- C54: fewer than 4 samples, or another `output`, raise ValueError -/
theorem tk_reject (z : ℕ → ℝ) (f_nodes h alpha : List ℝ) (duration dt : ℝ) (output : String)
    (hv : TkValid f_nodes h alpha duration dt)
    (hr : ⌊duration / dt⌋₊ < 4 ∨ (output ≠ "phase" ∧ output ≠ "freq")) :
    timmer_koenig_from_psd z f_nodes h alpha duration dt output = .error .valueError := by
  classical
  by_cases h4 : ⌊duration / dt⌋₊ < 4
  · have hl := hv.len
    have hnod : f_nodes.length = 0 ∨ (f_nodes.length : ℤ) = (h.length : ℤ) - 1 := by
      rcases hv.nodes with h | h
      · left; rw [h]; rfl
      · right; omega
    have hd := hv.dur
    have ht := hv.step
    have hp := hv.pos
    unfold timmer_koenig_from_psd
    rw [if_neg (by push Not; exact ⟨hd, ht⟩), if_neg (by simpa using hl), if_neg (not_not.2 hnod),
      if_neg (by omega)]
    simp only
    rw [if_pos h4]
  · have ho : output ≠ "phase" ∧ output ≠ "freq" := hr.resolve_left h4
    rw [tk_core z f_nodes h alpha duration dt output hv _ rfl (by omega)]
    have : ∀ (X : List ℂ) (P : Prop) [Decidable P] (n : ℕ), tkFinish X P n dt output = .error .valueError :=
      fun X P _ n => by
        unfold tkFinish
        rw [if_neg ho.1, if_neg ho.2]
    simp only [this]
    rcases hX : npSetFrom (tab ⌊duration / dt⌋₊ (tkHalf (tkS f_nodes h alpha) z ⌊duration / dt⌋₊ dt)) (⌊duration / dt⌋₊ / 2 + 1)
        (tab (⌊duration / dt⌋₊ / 2 - 1) (fun i => (starRingEnd ℂ) (tkHalf (tkS f_nodes h alpha) z ⌊duration / dt⌋₊ dt (⌊duration / dt⌋₊ / 2 - 1 - i)))) with e | X
    · simp only
      unfold npSetFrom at hX
      split_ifs at hX
      split at hX <;> simp_all
    · rfl

/-- C54: invalid arguments raise -/
theorem tk_invalid (z : ℕ → ℝ) (f_nodes h alpha : List ℝ) (duration dt : ℝ) (output : String)
    (hv : ¬ TkValid f_nodes h alpha duration dt) :
    ∃ e, timmer_koenig_from_psd z f_nodes h alpha duration dt output = .error e := by
  unfold timmer_koenig_from_psd
  by_cases h1 : duration ≤ 0 ∨ dt ≤ 0
  · rw [if_pos h1]; exact ⟨_, rfl⟩
  rw [if_neg h1]
  by_cases h2 : h.length ≠ alpha.length
  · rw [if_pos h2]; exact ⟨_, rfl⟩
  rw [if_neg h2]
  by_cases h3 : ¬ (f_nodes.length = 0 ∨ (f_nodes.length : ℤ) = (h.length : ℤ) - 1)
  · rw [if_pos h3]; exact ⟨_, rfl⟩
  rw [if_neg h3]
  by_cases h4 : h.length = 0
  · rw [if_pos h4]; exact ⟨_, rfl⟩
  · exfalso
    push Not at h1 h2 h3
    exact hv ⟨h1.1, h1.2, h2, by omega, by
      rcases h3 with h | h
      · left; exact List.length_eq_zero_iff.1 h
      · right; omega⟩

example (z : ℕ → ℝ) := tk_invalid z [] [1, 2] [0] 8 1 "phase" (by intro h; simpa using h.3)

/-- real part of the inverse transform of a spectrum with Hermitian symmetry -/
theorem ifft_hermitian (H : ℕ → ℂ) (p t : ℕ) (hp : 1 ≤ p) (h0 : H 0 = 0) :
    (∑ k ∈ range (2 * p), (if k < p + 1 then H k else (starRingEnd ℂ) (H (2 * p - k))) *
        expRoot (2 * p) ((t * k : ℕ) : ℤ)).re =
      2 * ∑ k ∈ range (p - 1), (H (k + 1) * expRoot (2 * p) ((t * (k + 1) : ℕ) : ℤ)).re +
        (H p * expRoot (2 * p) ((t * p : ℕ) : ℤ)).re := by
  obtain ⟨q, rfl⟩ : ∃ q, p = q + 1 := ⟨p - 1, by omega⟩
  have hn : 2 * (q + 1) ≠ 0 := by omega
  rw [show range (2 * (q + 1)) = range ((q + 1 + 1) + q) by congr 1; ring, sum_range_add]
  rw [Complex.add_re, Complex.re_sum, Complex.re_sum]
  have e1 : ∑ k ∈ range (q + 1 + 1), ((if k < q + 1 + 1 then H k else (starRingEnd ℂ) (H (2 * (q + 1) - k))) *
        expRoot (2 * (q + 1)) ((t * k : ℕ) : ℤ)).re =
      ∑ k ∈ range q, (H (k + 1) * expRoot (2 * (q + 1)) ((t * (k + 1) : ℕ) : ℤ)).re +
        (H (q + 1) * expRoot (2 * (q + 1)) ((t * (q + 1) : ℕ) : ℤ)).re := by
    rw [sum_congr rfl (fun k hk => by rw [if_pos (mem_range.1 hk)]), sum_range_succ', h0]
    simp only [zero_mul, Complex.zero_re, add_zero]
    rw [sum_range_succ]
  have e2 : ∑ k ∈ range q, ((if q + 1 + 1 + k < q + 1 + 1 then H (q + 1 + 1 + k)
        else (starRingEnd ℂ) (H (2 * (q + 1) - (q + 1 + 1 + k)))) *
        expRoot (2 * (q + 1)) ((t * (q + 1 + 1 + k) : ℕ) : ℤ)).re =
      ∑ k ∈ range q, (H (k + 1) * expRoot (2 * (q + 1)) ((t * (k + 1) : ℕ) : ℤ)).re := by
    rw [← sum_range_reflect]
    apply sum_congr rfl
    intro k hk
    have hk' := mem_range.1 hk
    rw [if_neg (by omega), show 2 * (q + 1) - (q + 1 + 1 + (q - 1 - k)) = k + 1 by omega]
    have he : expRoot (2 * (q + 1)) ((t * (q + 1 + 1 + (q - 1 - k)) : ℕ) : ℤ) =
        (starRingEnd ℂ) (expRoot (2 * (q + 1)) ((t * (k + 1) : ℕ) : ℤ)) := by
      rw [expRoot_conj, ← expRoot_period (2 * (q + 1)) hn (-((t * (k + 1) : ℕ) : ℤ)) t]
      congr 1
      have : q + 1 + 1 + (q - 1 - k) = 2 * (q + 1) - (k + 1) := by omega
      rw [this]
      push_cast [Nat.cast_sub (show k + 1 ≤ 2 * (q + 1) by omega)]
      ring
    rw [he, ← map_mul, Complex.conj_re]
  rw [e1, e2, Nat.add_sub_cancel]
  ring

/-- C54: the synthesised series for even `n` and non-negative PSD: phase samples, or their first
differences over the time step after a leading zero -/
theorem tk_even (z : ℕ → ℝ) (f_nodes h alpha : List ℝ) (duration dt : ℝ)
    (hv : TkValid f_nodes h alpha duration dt) (n : ℕ) (hn : n = ⌊duration / dt⌋₊) (h4 : 4 ≤ n)
    (he : n % 2 = 0) (hh : ¬ TkNan (tkS f_nodes h alpha) n dt) :
    timmer_koenig_from_psd z f_nodes h alpha duration dt "phase" =
        .ok (tab n (fun t => some (tkPhase (tkS f_nodes h alpha) z n dt t))) ∧
      timmer_koenig_from_psd z f_nodes h alpha duration dt "freq" =
        .ok (some 0 :: tab (n - 1) (fun t =>
          some ((tkPhase (tkS f_nodes h alpha) z n dt (t + 1) - tkPhase (tkS f_nodes h alpha) z n dt t) / dt))) := by
  classical
  obtain ⟨p, rfl⟩ : ∃ p, n = 2 * p := ⟨n / 2, by omega⟩
  have hp : 2 * p / 2 = p := by omega
  set S := tkS f_nodes h alpha
  have hX : npSetFrom (tab (2 * p) (tkHalf S z (2 * p) dt)) (2 * p / 2 + 1)
        (tab (2 * p / 2 - 1) (fun i => (starRingEnd ℂ) (tkHalf S z (2 * p) dt (2 * p / 2 - 1 - i)))) =
      .ok (tab (2 * p) (fun k => if k < p + 1 then tkHalf S z (2 * p) dt k
        else (starRingEnd ℂ) (tkHalf S z (2 * p) dt (2 * p - k)))) := by
    rw [npSetFrom_eq _ _ _ (by rw [tab_length, tab_length]; omega), take_tab, hp, min_eq_left (by omega),
      append_tab, show p + 1 + (p - 1) = 2 * p by omega]
    congr 1
    apply tab_congr
    intro k _
    split_ifs
    · rfl
    · congr 2
      omega
  have hx : (npIfft (tab (2 * p) (fun k => if k < p + 1 then tkHalf S z (2 * p) dt k
        else (starRingEnd ℂ) (tkHalf S z (2 * p) dt (2 * p - k))))).map
        (fun v => (v * ((√((((2 * p : ℕ) : ℝ) - 1) / dt) : ℝ) : ℂ)).re) =
      tab (2 * p) (tkPhase S z (2 * p) dt) := by
    rw [npIfft, tab_length, map_tab]
    apply tab_congr
    intro t _
    rw [sum_congr rfl (fun k hk => by rw [tab_getD, if_pos (mem_range.1 hk)])]
    have hr := ifft_hermitian (tkHalf S z (2 * p) dt) p t (by omega) (by simp [tkHalf])
    have hc : ∀ (A : ℂ) (c : ℝ) (m : ℕ), (A / (m : ℂ) * (c : ℂ)).re = c / m * A.re := fun A c m => by
      rw [mul_comm, Complex.re_ofReal_mul, Complex.div_natCast_re]
      ring
    rw [hc, hr, tkPhase, hp]
    congr 2
    · congr 1
      apply sum_congr rfl
      intro k hk
      have := mem_range.1 hk
      rw [tkHalf, if_pos (by omega)]
    · rw [tkHalf, if_pos (by omega)]
  constructor
  · rw [tk_core z f_nodes h alpha duration dt _ hv _ hn h4, hX]
    simp only [tkFinish]
    rw [if_pos trivial, if_neg hh, hx, map_tab]
  · rw [tk_core z f_nodes h alpha duration dt _ hv _ hn h4, hX]
    simp only [tkFinish]
    rw [if_neg (by decide), if_pos trivial, if_neg hh, hx, npDiff_tab, map_tab]

/-- C54 fails for `n = 5`: the conjugate of the first coefficient is put at both mirrored places,
where the second should have the conjugate of the second coefficient -/
theorem tk_five (z : ℕ → ℝ) (f_nodes h alpha : List ℝ) (duration dt : ℝ)
    (hv : TkValid f_nodes h alpha duration dt) (hn : 5 = ⌊duration / dt⌋₊)
    (hh : ¬ TkNan (tkS f_nodes h alpha) 5 dt) :
    timmer_koenig_from_psd z f_nodes h alpha duration dt "phase" =
      .ok (tab 5 (fun t => some (√(4 / dt) / 5 *
        (tkCoeff (tkS f_nodes h alpha) z 5 dt 1 * expRoot 5 t +
          tkCoeff (tkS f_nodes h alpha) z 5 dt 2 * expRoot 5 (2 * t) +
          (starRingEnd ℂ) (tkCoeff (tkS f_nodes h alpha) z 5 dt 1) * expRoot 5 (3 * t) +
          (starRingEnd ℂ) (tkCoeff (tkS f_nodes h alpha) z 5 dt 1) * expRoot 5 (4 * t)).re))) := by
  classical
  set S := tkS f_nodes h alpha
  have hX : npSetFrom (tab 5 (tkHalf S z 5 dt)) (5 / 2 + 1)
        (tab (5 / 2 - 1) (fun i => (starRingEnd ℂ) (tkHalf S z 5 dt (5 / 2 - 1 - i)))) =
      .ok [0, tkCoeff S z 5 dt 1, tkCoeff S z 5 dt 2, (starRingEnd ℂ) (tkCoeff S z 5 dt 1),
        (starRingEnd ℂ) (tkCoeff S z 5 dt 1)] := by
    unfold npSetFrom
    rw [if_neg (by simp)]
    simp [tab, List.range_succ, tkHalf, List.replicate]
  rw [tk_core z f_nodes h alpha duration dt _ hv 5 hn (by norm_num), hX]
  simp only [tkFinish]
  rw [if_pos trivial, if_neg hh, npIfft, map_tab, map_tab]
  congr 1
  apply tab_congr
  intro t _
  have hc : ∀ (A : ℂ) (c : ℝ) (m : ℕ), (A / (m : ℂ) * (c : ℂ)).re = c / m * A.re := fun A c m => by
    rw [mul_comm, Complex.re_ofReal_mul, Complex.div_natCast_re]
    ring
  rw [hc]
  have h4 : ((5 : ℕ) : ℝ) - 1 = 4 := by norm_num
  simp only [List.length_cons, List.length_nil, Nat.reduceAdd, sum_range_succ, range_zero, sum_empty, h4]
  simp
  left
  have e2 : (t : ℤ) * 2 = 2 * t := by ring
  have e3 : (t : ℤ) * 3 = 3 * t := by ring
  have e4 : (t : ℤ) * 4 = 4 * t := by ring
  rw [e2, e3, e4]

theorem tkFreq_pos (n : ℕ) (dt : ℝ) (k : ℕ) (hn : 4 ≤ n) (hk : k ≤ n / 2) (ht : 0 < dt) :
    0 < tkFreq n dt k := by
  have hn' : (4 : ℝ) ≤ n := by exact_mod_cast hn
  have h1 : 0 < 1 / (((n : ℝ) - 1) * dt) := by
    apply one_div_pos.2; apply mul_pos _ ht; linarith
  have h2 : 0 < 1 / (2 * dt) := by positivity
  have hp : (0 : ℝ) < (n / 2 : ℕ) := by exact_mod_cast (show 0 < n / 2 by omega)
  have hk' : (k : ℝ) ≤ (n / 2 : ℕ) := by exact_mod_cast hk
  have hq : 0 ≤ (k : ℝ) / (n / 2 : ℕ) := by positivity
  have hq1 : (k : ℝ) / (n / 2 : ℕ) ≤ 1 := (div_le_one hp).2 hk'
  unfold tkFreq
  have : 1 / (((n : ℝ) - 1) * dt) + k * ((1 / (2 * dt) - 1 / (((n : ℝ) - 1) * dt)) / (n / 2 : ℕ)) =
      (1 - (k : ℝ) / (n / 2 : ℕ)) * (1 / (((n : ℝ) - 1) * dt)) + (k : ℝ) / (n / 2 : ℕ) * (1 / (2 * dt)) := by
    ring
  rw [this]
  rcases hq1.lt_or_eq with h | h
  · exact add_pos_of_pos_of_nonneg (mul_pos (by linarith) h1) (by positivity)
  · rw [h]; linarith

/-- non-negative coefficients give no NaN -/
theorem tkNan_of_nonneg (f_nodes h alpha : List ℝ) (n : ℕ) (dt : ℝ) (hn : 4 ≤ n) (ht : 0 < dt)
    (hh : ∀ v ∈ h, 0 ≤ v) : ¬ TkNan (tkS f_nodes h alpha) n dt := by
  have hd : ∀ l : List ℝ, (∀ v ∈ l, 0 ≤ v) → ∀ i, 0 ≤ l.getD i 0 := fun l hl i => by
    rcases Nat.lt_or_ge i l.length with hi | hi
    · rw [List.getD_eq_getElem _ _ hi]; exact hl _ (List.getElem_mem hi)
    · rw [List.getD_eq_default _ _ hi]
  have hlast : 0 ≤ h.getLastD 0 := by rw [getLastD_eq]; exact hd h hh _
  have hext : ∀ v ∈ h ++ [h.getLastD 0], 0 ≤ v := fun v hv => by
    rcases List.mem_append.1 hv with h' | h'
    · exact hh v h'
    · rw [List.mem_singleton.1 h']; exact hlast
  rintro ⟨k, hk1, hk2, hneg⟩
  have hf := tkFreq_pos n dt k hn hk2 ht
  have hS : 0 ≤ tkS f_nodes h alpha (tkFreq n dt k) := by
    unfold tkS tkSy tkInner
    split_ifs
    · exact mul_nonneg (hd _ hext _) (rpow_nonneg hf.le _)
    · rw [getLastD_eq (h ++ _)]; exact mul_nonneg (hd _ hext _) (rpow_nonneg hf.le _)
    · exact mul_nonneg (hd _ hext _) (rpow_nonneg hf.le _)
    · split
      · exact mul_nonneg (hd _ hext _) (rpow_nonneg hf.le _)
      · exact le_rfl
  have : 0 ≤ tkS f_nodes h alpha (tkFreq n dt k) / (2 * π * tkFreq n dt k) ^ 2 := by positivity
  linarith

/-- the hypotheses are met by white noise of 4 samples -/
example : TkValid [] [1] [0] 4 1 ∧ ⌊(4 : ℝ) / 1⌋₊ = 4 ∧ ¬ TkNan (tkS [] [1] [0]) 4 1 :=
  ⟨⟨by norm_num, by norm_num, rfl, by norm_num, Or.inl rfl⟩, by norm_num,
    tkNan_of_nonneg _ _ _ _ _ le_rfl one_pos (by simp)⟩

/-- and those of the failure by 7 samples -/
example (z : ℕ → ℝ) : timmer_koenig_from_psd z [] [1] [0] 7 1 "phase" = .error .valueError :=
  tk_odd_wrong z [] [1] [0] 7 1 _ ⟨by norm_num, by norm_num, rfl, by norm_num, Or.inl rfl⟩
    (by norm_num) (by norm_num)

end AT
