import Verif.Model.FloatHat
import Verif.Spec.FloatHat
import Verif.Props.FloatErr
import Verif.Props.Gradev

/-!
# C111: rounding errors of gradev

Property: in double precision `gradev` of phase data with gaps returns the same exception as in
exact arithmetic, or the same taus (up to one rounding), the same numbers of complete second
differences, and deviations with the same error bound as `oadev`, wherever the gaps are.
-/

namespace AT

open Spec Finset Real

variable {fl : ℝ → ℝ} {sum : List ℝ → ℝ}

/-- the positions of `S` below `n`, in order -/
def posList (S : Finset ℕ) (n : ℕ) : List ℕ := (List.range n).filter (fun i => decide (i ∈ S))

theorem posList_mem {S : Finset ℕ} {n i : ℕ} (h : i ∈ posList S n) : i ∈ S := by
  unfold posList at h
  rw [List.mem_filter, decide_eq_true_eq] at h
  exact h.2

theorem posList_sum {S : Finset ℕ} {n : ℕ} (hS : ∀ i ∈ S, i < n) (h : ℕ → ℝ) :
    ((posList S n).map h).sum = ∑ i ∈ S, h i := by
  have nd : (posList S n).Nodup := List.nodup_range.filter _
  rw [← List.sum_toFinset _ nd]
  congr 1
  ext i
  rw [List.mem_toFinset]
  constructor
  · exact posList_mem
  · intro hi
    unfold posList
    rw [List.mem_filter, decide_eq_true_eq, List.mem_range]
    exact ⟨hS i hi, hi⟩

theorem posList_length {S : Finset ℕ} {n : ℕ} (hS : ∀ i ∈ S, i < n) : (posList S n).length = S.card := by
  have := posList_sum hS (fun _ => 1)
  simp at this
  exact_mod_cast this

theorem numbers_tab (S : Finset ℕ) (n : ℕ) (f : ℕ → NV) (g : ℕ → ℝ)
    (h : ∀ i < n, f i = if i ∈ S then some (g i) else none) :
    numbers (tab n f) = (posList S n).map g := by
  unfold numbers posList tab
  have : ∀ l : List ℕ, (∀ i ∈ l, i < n) →
      (l.map f).filterMap id = (l.filter (fun i => decide (i ∈ S))).map g := by
    intro l
    induction l with
    | nil => intro _; rfl
    | cons a l ih =>
      intro hl
      have ih := ih (fun i hi => hl i (List.mem_cons_of_mem _ hi))
      have ha := h a (hl a (List.mem_cons_self ..))
      rw [List.map_cons, ha]
      by_cases hS : a ∈ S
      · rw [if_pos hS, List.filterMap_cons_some (by rfl), ih, List.filter_cons_of_pos (by simpa using hS)]
        rfl
      · rw [if_neg hS, List.filterMap_cons_none (by rfl), ih, List.filter_cons_of_neg (by simpa using hS)]
  exact this _ (fun i hi => List.mem_range.1 hi)

/-- one row of `gradev`: the deviation is as close as that of `oadev`, and the rest of the
computation depends on the numbers of samples only -/
theorem calc_gradev_phase_fl_eq (hfl : FloatRound fl) (hsum : ∀ l, FloatSum fl l (sum l))
    (ppf : ℝ → ℝ → NV) (x : List NV) (B : ℝ) (hB : ∀ v, some v ∈ x → |v| ≤ B) (rate : ℝ) (hr : 0 < rate)
    (m : ℕ) (hm0 : 0 < m) (hN : x.length ≤ 2 ^ 47) (c : ℝ) (nt : String) :
    ∃ dev : ℝ, calc_gradev_phase_fl fl sum ppf x rate m 1 c nt =
      (do
        let e ← gradev_err ppf dev c (present (seqNV x) x.length) m
          (max 1 (complete (seqNV x) x.length m).card) nt
        .ok (dev, e, ((max 1 (complete (seqNV x) x.length m).card : ℕ) : ℤ))) ∧
      (0 < (complete (seqNV x) x.length m).card →
        |dev - √((∑ i ∈ complete (seqNV x) x.length m, d2 (Spec.val (seqNV x)) m i ^ 2) /
          (2 * ((complete (seqNV x) x.length m).card : ℝ))) / m * rate| ≤
        adevBound B (m / rate) (√((∑ i ∈ complete (seqNV x) x.length m, d2 (Spec.val (seqNV x)) m i ^ 2) /
          (2 * ((complete (seqNV x) x.length m).card : ℝ))) / m * rate)
          ((complete (seqNV x) x.length m).card : ℤ)) := by
  unfold calc_gradev_phase_fl
  have hXB : ∀ i v, seqNV x i = some v → |v| ≤ B := by
    intro i v h
    apply hB
    unfold seqNV at h
    by_cases hi : i < x.length
    · rw [List.getD_eq_getElem _ _ hi] at h
      rw [← h]; exact List.getElem_mem _
    · rw [List.getD_eq_default _ _ (by omega)] at h; cases h
  set N := x.length with hNx
  set X := seqNV x with hX
  rw [show x = tab N X from eq_tab_seqNV x]
  rw [sliceStep_tab _ _ _ _ one_pos, sliceStep_tab _ _ _ _ one_pos, sliceStep_tab _ _ _ _ one_pos]
  simp only [ok_bind, tab_length, one_mul, mul_one, Nat.div_one, Nat.add_sub_cancel, Nat.sub_zero]
  have hmin : min (min N (N - m)) (N - 2 * m) = N - 2 * m := by omega
  simp only [hmin, sliceTo_nat, take_tab]
  have q1 : min (N - 2 * m) (N - 2 * m) = N - 2 * m := min_self _
  have q2 : min (N - 2 * m) (N - m) = N - 2 * m := by omega
  have q3 : min (N - 2 * m) N = N - 2 * m := by omega
  simp only [q1, q2, q3, map_tab, vop_tab, ok_bind, filter_length_tab]
  set w : ℕ → ℝ := fun i => fl (fl (Spec.val X (i + 2 * m) - fl (2 * Spec.val X (i + m))) + Spec.val X i) with hw
  have hv : ∀ i, nv2 (fun u v => fl (u + v)) (nv2 (fun u v => fl (u - v)) (X (2 * m + i))
      (Option.map (fun v => fl (2 * v)) (X (m + i)))) (X (0 + i)) =
      if (X i).isSome = true ∧ (X (i + m)).isSome = true ∧ (X (i + 2 * m)).isSome = true
        then some (w i) else none := by
    intro i
    simp only [hw, Spec.val]
    rw [Nat.zero_add, Nat.add_comm m i, Nat.add_comm (2 * m) i]
    cases X i <;> cases X (i + m) <;> cases X (i + 2 * m) <;> simp [nv2]
  set S := complete X N m with hS
  have hSm : ∀ i, i ∈ S ↔ i < N - 2 * m ∧
      ((X i).isSome = true ∧ (X (i + m)).isSome = true ∧ (X (i + 2 * m)).isSome = true) := by
    intro i
    rw [hS]; unfold complete
    rw [Finset.mem_filter, Finset.mem_range]
  have hSn : ∀ i ∈ S, i < N - 2 * m := fun i hi => ((hSm i).1 hi).1
  have hcard : ((range (N - 2 * m)).filter (fun i => (nv2 (fun u v => fl (u + v))
      (nv2 (fun u v => fl (u - v)) (X (2 * m + i))
      (Option.map (fun v => fl (2 * v)) (X (m + i)))) (X (0 + i))).isSome = true)) = S := by
    ext i
    rw [Finset.mem_filter, Finset.mem_range, hSm, hv]
    apply and_congr_right
    intro _
    split_ifs with h <;> simp [h]
  rw [hcard]
  have hnum := numbers_tab S (N - 2 * m) (fun i => Option.map (fun v => fl (v * v))
      (nv2 (fun u v => fl (u + v)) (nv2 (fun u v => fl (u - v)) (X (2 * m + i))
      (Option.map (fun v => fl (2 * v)) (X (m + i)))) (X (0 + i)))) (fun i => fl (w i * w i)) (by
    intro i hi
    simp only [hv, hSm, hi, true_and]
    split_ifs <;> rfl)
  rw [hnum]
  have hn : (if S.card = 0 then 1 else S.card) = max 1 S.card := by split_ifs <;> omega
  have hP : ((range N).filter (fun i => (X i).isSome = true)).card = present X N := rfl
  simp only [hn, hP]
  refine ⟨_, rfl, fun hpos => ?_⟩
  have hmax : max 1 S.card = S.card := by omega
  rw [hmax]
  set L := posList S (N - 2 * m) with hL
  have hLl : L.length = S.card := posList_length hSn
  set K := S.card with hK
  have hLs : ∀ h : ℕ → ℝ, ∑ i ∈ S, h i = ∑ j ∈ range K, h (L.getD j 0) := by
    intro h
    rw [← posList_sum hSn h, ← hL]
    conv_lhs => rw [eq_tab L 0]
    rw [map_tab, sum_tab, hLl]
  have hLt : L.map (fun i => fl (w i * w i)) = tab K (fun j => fl (w (L.getD j 0) * w (L.getD j 0))) := by
    conv_lhs => rw [eq_tab L 0]
    rw [map_tab, hLl]
  have hLm : ∀ j < K, L.getD j 0 ∈ S := by
    intro j hj
    rw [List.getD_eq_getElem _ _ (by omega)]
    exact posList_mem (List.getElem_mem _)
  have hB0 : 0 ≤ B := by
    have h0 := ((hSm _).1 (hLm 0 hpos)).2.1
    obtain ⟨v, hv⟩ := Option.isSome_iff_exists.1 h0
    exact (abs_nonneg _).trans (hXB _ v hv)
  have hval : ∀ i, |Spec.val X i| ≤ B := by
    intro i
    unfold Spec.val
    cases h : X i with
    | none => simpa using hB0
    | some v => simpa using hXB i v h
  set d : ℕ → ℝ := fun i => d2 (Spec.val X) m i with hd
  have hvd : ∀ j < K, |w (L.getD j 0) - d (L.getD j 0)| ≤ ((1 + unitRoundoff) ^ 3 - 1) * (4 * B) := by
    intro j _
    exact (d2_near hfl (hval _) (hval _) (hval _)).2
  have hKN : K ≤ 2 ^ 47 := by
    have : K ≤ N - 2 * m := by
      have := Finset.card_le_card (show S ⊆ range (N - 2 * m) from fun i hi => Finset.mem_range.2 (hSn i hi))
      rwa [Finset.card_range] at this
    omega
  rw [hLt, hLs]
  have hn' : (0 : ℝ) < K := by exact_mod_cast hpos
  have hm' : (0 : ℝ) < m := by exact_mod_cast hm0
  have h1 := sumsq_near hfl hpos (hsum (tab K (fun j => fl (w (L.getD j 0) * w (L.getD j 0)))))
  have h2 := (h1.div (Near.of_fl hfl (2 * (K : ℝ))) (by positivity) (by
    unfold unitRoundoff; norm_num)).fl hfl
  have h3 := ((((h2.sqrt (div_nonneg (Finset.sum_nonneg fun i _ => sq_nonneg _)
    (by positivity))).fl hfl).div_const (m : ℝ)).fl hfl).mul_const rate |>.fl hfl
  rw [div_mul_eq_mul_div, mul_div_assoc] at h3
  have h4 := dev_bound _ K hpos (fun j => w (L.getD j 0)) (fun j => d (L.getD j 0)) 2 _ (rate / m) _
    two_pos (by positivity) h3 hvd
  have h5 := simple_bound (K := K + 2 * 1 + 1 + 1 + 1 + 1) (by omega)
    (D := √((∑ i ∈ range K, d (L.getD i 0) ^ 2) / (2 * K)) * (rate / m))
    (E := ((1 + unitRoundoff) ^ 3 - 1) * (4 * B) / √2 * (rate / m)) (by positivity)
    (by have := near_eps_nonneg 3; positivity)
  have h6 := eta_two hB0 (show 0 ≤ rate / m by positivity)
  have e1 : √((∑ i ∈ range K, d (L.getD i 0) ^ 2) / (2 * K)) / m * rate =
    √((∑ i ∈ range K, d (L.getD i 0) ^ 2) / (2 * K)) * (rate / m) := by ring
  have e2 : 10 * unitRoundoff * B / (m / rate) = 10 * unitRoundoff * B * (rate / m) := by
    field_simp
  have e3 : ((K + 2 * 1 + 1 + 1 + 1 + 1 : ℕ) : ℝ) = K + 6 := by push_cast; ring
  unfold adevBound
  rw [e1, e2]
  rw [e3] at h5
  have h7 : 0 ≤ unitRoundoff * B * (rate / m) := by
    have := unitRoundoff_pos; positivity
  refine (h4.trans h5).trans ?_
  push_cast
  nlinarith

theorem sweep2_close (bound : ℝ → ℝ → ℤ → ℝ) (ms : List ℕ) (tau' tau devfl dev : ℕ → ℝ)
    (l h l' h' : ℕ → NV) (n : ℕ → ℤ)
    (H : ∀ m ∈ ms, 1 < n m → |tau' m - tau m| ≤ unitRoundoff * |tau m| ∧
      |devfl m - dev m| ≤ bound (tau m) (dev m) (n m)) :
    (∃ e, sweep2 ms tau' devfl l h n = .error e ∧ sweep2 ms tau dev l' h' n = .error e) ∨
    ∃ o o', sweep2 ms tau' devfl l h n = .ok o ∧ sweep2 ms tau dev l' h' n = .ok o' ∧
      CurveClose bound o o' := by
  unfold sweep2
  set kept := ms.filter (fun m => decide (1 < n m)) with hk
  simp only
  by_cases h0 : kept = []
  · left; rw [if_pos h0, if_pos h0]; exact ⟨_, rfl, rfl⟩
  right
  rw [if_neg h0, if_neg h0]
  have H' : ∀ m ∈ kept, |tau' m - tau m| ≤ unitRoundoff * |tau m| ∧
      |devfl m - dev m| ≤ bound (tau m) (dev m) (n m) := by
    intro m hm
    rw [hk, List.mem_filter, decide_eq_true_eq] at hm
    exact H m hm.1 hm.2
  clear_value kept
  have gd : ∀ {β : Type} (f : ℕ → β) (z : β) (i : ℕ) (hi : i < kept.length),
      (kept.map f).getD i z = f kept[i] := by
    intro β f z i hi
    rw [List.getD_eq_getElem _ _ (by simpa using hi), List.getElem_map]
  refine ⟨_, _, rfl, rfl, ⟨rfl, ?_, by simp, ?_⟩⟩
  · simp only
    rw [List.forall₂_map_left_iff, List.forall₂_map_right_iff, List.forall₂_same]
    exact fun m hm => (H' m hm).1
  · intro i hi
    simp only [List.length_map] at hi
    simp only [gd _ _ i hi]
    exact (H' _ (List.getElem_mem hi)).2

/-- C111: `gradev` of phase data with gaps in floating point.  Whatever the gaps, the outcome is the
same exception as in exact arithmetic, or a table with the same counts, the taus within one
rounding and the deviations within the bound of `oadev` for the number of complete differences. -/
theorem gradev_float (hfl : FloatRound fl) (hsum : ∀ l, FloatSum fl l (sum l)) (ppf : ℝ → ℝ → NV)
    (log10grid : List ℝ) (x : List NV) (B : ℝ) (hB : ∀ v, some v ∈ x → |v| ≤ B) (rate : ℝ) (hr : 0 < rate)
    (taus : TausArg) (hN : x.length ≤ 2 ^ 47) (ht : SafeTaus rate taus) (c : ℝ) (nt : String) :
    (∃ e, gradev_fl fl sum ppf log10grid x rate taus c nt = .error e ∧
      gradev ppf x rate "phase" taus c nt = .error e) ∨
    ∃ o o', gradev_fl fl sum ppf log10grid x rate taus c nt = .ok o ∧
      gradev ppf x rate "phase" taus c nt = .ok o' ∧ CurveClose (adevBound B) o o' := by
  have hfl' : gradev_fl fl sum ppf log10grid x rate taus c nt =
      (factors x.length rate taus false x.length >>= fun ms =>
        gradevTaus (ms.map (fun (m : ℕ) => fl ((m : ℝ) / rate))) ms
          (fun mj => calc_gradev_phase_fl fl sum ppf x rate mj 1 c nt)) := by
    unfold gradev_fl
    rw [tau_generator_float_safe hfl log10grid x rate taus false (-1) hN ht, effMax_default]
    cases factors x.length rate taus false x.length <;> simp only [ok_bind, error_bind]
  rw [hfl']
  rcases factors_cases (N := x.length) (rate := rate) (taus := taus) (even := false)
    (mx := x.length) with ⟨e, he⟩ | ⟨ms, hms⟩
  · left
    exact ⟨e, by rw [he]; rfl, gradev_phase_error ppf x rate taus c nt e he⟩
  rw [hms, ok_bind]
  choose dev hdev hbnd using fun (m : ℕ) => fun (h : 0 < m) =>
    calc_gradev_phase_fl_eq hfl hsum ppf x B hB rate hr m h hN c nt
  -- the rows
  set K := fun m => (complete (seqNV x) x.length m).card with hK
  have crash : ∀ m (h : 0 < m), nt = "wp" ∧ 1 < K m ∧ present (seqNV x) x.length = m →
      calc_gradev_phase_fl fl sum ppf x rate m 1 c nt = .error .zeroDivisionError := by
    rintro m h ⟨h1, h2, h3⟩
    rw [hdev m h]
    have hP := present_ge _ _ m h h2
    unfold gradev_err
    rw [if_pos (by simp only [hK] at h2; omega), (edf_simple_gradev _ m hP h nt).1 ⟨h1, h3⟩]
    rfl
  have row : ∀ m (h : 0 < m), ¬ (nt = "wp" ∧ 1 < K m ∧ present (seqNV x) x.length = m) →
      ∃ bars, calc_gradev_phase_fl fl sum ppf x rate m 1 c nt = .ok (dev m h, bars, ((max 1 (K m) : ℕ) : ℤ)) := by
    intro m h hc
    rw [hdev m h]
    unfold gradev_err
    by_cases h2 : 1 < K m
    · have hP := present_ge _ _ m h h2
      obtain ⟨v, hv⟩ := (edf_simple_gradev _ m hP h nt).2 (fun hh => hc ⟨hh.1, h2, hh.2⟩)
      rw [if_pos (by simp only [hK] at h2; omega), hv]
      exact ⟨_, rfl⟩
    · rw [if_neg (by simp only [hK] at h2; omega)]
      exact ⟨_, rfl⟩
  by_cases hc : gradevCrash x ms nt
  · left
    refine ⟨.zeroDivisionError, ?_, (gradev_phase_eq ppf x rate taus c nt ms hms).1 hc⟩
    obtain ⟨h1, m, hm, h2, h3⟩ := hc
    unfold gradevTaus
    rw [mapM_error ms _ .zeroDivisionError]
    · rfl
    · intro a ha
      have h0 := (factors_mem hms ha).1
      by_cases hc : nt = "wp" ∧ 1 < K a ∧ present (seqNV x) x.length = a
      · exact Or.inr (crash a h0 hc)
      · obtain ⟨bars, h⟩ := row a h0 hc
        exact Or.inl ⟨_, h⟩
    · exact ⟨m, hm, crash m (factors_mem hms hm).1 ⟨h1, h2, h3⟩⟩
  · rw [(gradev_phase_eq ppf x rate taus c nt ms hms).2 hc]
    have R : ∀ m : ℕ, ∃ r : ℝ × (NV × NV), m ∈ ms → calc_gradev_phase_fl fl sum ppf x rate m 1 c nt =
        .ok (r.1, r.2, ((max 1 (K m) : ℕ) : ℤ)) ∧ ∀ h, r.1 = dev m h := by
      intro m
      by_cases hm : m ∈ ms
      · have h0 := (factors_mem hms hm).1
        obtain ⟨bars, h⟩ := row m h0 (fun h => hc ⟨h.1, m, hm, h.2.1, h.2.2⟩)
        exact ⟨(dev m h0, bars), fun _ => ⟨h, fun _ => rfl⟩⟩
      · exact ⟨(0, (none, none)), fun h => absurd h hm⟩
    choose r hrw using R
    rw [gradevTaus_eq ms _ (fun m => fl ((m : ℝ) / rate)) (fun m => (r m).1) (fun m => (r m).2)
      (fun m => (K m : ℤ)) (by
        intro m hm
        refine ⟨_, (hrw m hm).1, ?_, ?_⟩
        · push_cast; omega
        · intro h
          have h' : 1 < K m := by exact_mod_cast h
          have : max 1 (K m) = K m := by omega
          rw [this])]
    apply sweep2_close
    intro m hm hn
    have hn' : 1 < K m := by exact_mod_cast hn
    have h0 := (factors_mem hms hm).1
    refine ⟨hfl _, ?_⟩
    rw [(hrw m hm).2 h0]
    have hb := hbnd m h0 (by simp only [hK] at hn'; omega)
    have hd : √((∑ i ∈ complete (seqNV x) x.length m, d2 (Spec.val (seqNV x)) m i ^ 2) /
        (2 * ((complete (seqNV x) x.length m).card : ℝ))) / m * rate = Spec.gradevDev x rate m := by
      rw [sqrt_norm _ 2 _ two_pos (by exact_mod_cast (by simp only [hK] at hn'; omega :
        0 < (complete (seqNV x) x.length m).card)) m h0 rate hr.ne']
      rfl
    rw [hd] at hb
    exact hb

/-- Seven samples with one gap: two complete second differences, the table has one row in double
precision too. -/
example (ppf : ℝ → ℝ → NV) : ∃ (fl : ℝ → ℝ) (sum : List ℝ → ℝ) (o : DevOut NV), (∀ x, IsBinary64 x (fl x)) ∧
    (∀ l, FloatSum fl l (sum l)) ∧
    gradev_fl fl sum ppf [] [some 0, some 1, some 0, none, some 5, some 2, some 7] 1
      (.list [((1 : ℕ) : ℝ) / 1]) 0.68 "wp" = .ok o ∧ o.ns = [2] := by
  choose fl hfl using exists_isBinary64
  obtain ⟨sum, hsum⟩ := exists_floatSum fl
  set x : List NV := [some 0, some 1, some 0, none, some 5, some 2, some 7] with hx
  have hs : SafeTaus 1 (.list [((1 : ℕ) : ℝ) / 1]) := by
    intro t ht
    rw [List.mem_singleton] at ht
    exact ⟨1, by norm_num, by rw [ht]; norm_num⟩
  have hf : factors x.length 1 (.list [((1 : ℕ) : ℝ) / 1]) false x.length = .ok [1] :=
    factors_single _ 1 one_ne_zero false _ 1 one_pos (by simp [hx]) (by simp [hx]) (by simp)
  have hc : complete (seqNV x) x.length 1 = {0, 4} := by
    ext i
    unfold complete
    simp only [Finset.mem_filter, Finset.mem_range, hx, List.length_cons, List.length_nil,
      Finset.mem_insert, Finset.mem_singleton]
    constructor
    · rintro ⟨h1, h2⟩
      interval_cases i <;> simp [seqNV] at h2 ⊢
    · rintro (rfl | rfl) <;> simp [seqNV]
  have hp : present (seqNV x) x.length ≠ 1 := by
    unfold present
    intro h
    obtain ⟨a, ha⟩ := Finset.card_eq_one.1 h
    have h0 : (0 : ℕ) ∈ ({a} : Finset ℕ) := by rw [← ha]; simp [hx, seqNV]
    have h1 : (1 : ℕ) ∈ ({a} : Finset ℕ) := by rw [← ha]; simp [hx, seqNV]
    rw [Finset.mem_singleton] at h0 h1
    omega
  have hcr : ¬ gradevCrash x [1] "wp" := by
    rintro ⟨_, m, hm, _, h⟩
    rw [List.mem_singleton] at hm
    exact hp (hm ▸ h)
  have hex := (gradev_phase_eq ppf x 1 (.list [((1 : ℕ) : ℝ) / 1]) 0.68 "wp" [1] hf).2 hcr
  have hok : ∃ o', gradev ppf x 1 "phase" (.list [((1 : ℕ) : ℝ) / 1]) 0.68 "wp" = .ok o' ∧ o'.ns = [2] := by
    rw [hex]
    unfold sweep2
    exact ⟨_, rfl, rfl⟩
  obtain ⟨o', h', hn⟩ := hok
  rcases gradev_float (fun x => isBinary64_rel (hfl x)) hsum ppf [] x 7 (by
      intro v hv
      simp only [hx, List.mem_cons, Option.some.injEq, List.not_mem_nil, or_false, reduceCtorEq, false_or] at hv
      rcases hv with rfl | rfl | rfl | rfl | rfl | rfl <;> norm_num) 1 one_pos
      (.list [((1 : ℕ) : ℝ) / 1]) (by simp [hx]) hs 0.68 "wp" with ⟨e, _, h2⟩ | ⟨o, o'', h1, h2, h3⟩
  · rw [h'] at h2; cases h2
  · rw [h'] at h2
    cases h2
    exact ⟨fl, sum, o, hfl, hsum, h1, h3.ns.trans hn⟩

end AT
