import Verif.Spec.Nan
import Verif.Props.Adev
import Verif.Props.Mdev
import Verif.Props.Convert
import Verif.Props.Api
import Verif.Lemmas.Mtie
import Verif.Lemmas.Simple

/-!
# C81: what NaN in the data does to the deviations
-/

namespace AT

open Spec Finset Real Classical

/-- a number if the condition holds, else NaN -/
noncomputable def nanUnless (G : Prop) (v : ℝ) : NV := if G then some v else none

theorem nanUnless_map (G : Prop) (v : ℝ) (f : ℝ → ℝ) :
    (nanUnless G v).map f = nanUnless G (f v) := by
  unfold nanUnless; split_ifs <;> rfl

theorem nanUnless_nv2 (G H : Prop) (v w : ℝ) (f : ℝ → ℝ → ℝ) :
    nv2 f (nanUnless G v) (nanUnless H w) = nanUnless (G ∧ H) (f v w) := by
  unfold nanUnless
  by_cases hG : G <;> by_cases hH : H <;> simp [hG, hH, nv2]

theorem nanUnless_congr {G H : Prop} {v w : ℝ} (h : G ↔ H) (hv : G → v = w) :
    nanUnless G v = nanUnless H w := by
  unfold nanUnless
  by_cases hG : G
  · rw [if_pos hG, if_pos (h.1 hG), hv hG]
  · rw [if_neg hG, if_neg (fun hH => hG (h.2 hH))]

theorem nvSum_tab (n : ℕ) (G : ℕ → Prop) (f : ℕ → ℝ) :
    nvSum (tab n (fun i => nanUnless (G i) (f i))) = nanUnless (∀ i < n, G i) (∑ i ∈ range n, f i) := by
  induction n generalizing G f with
  | zero => simp [nvSum, nanUnless]
  | succ n ih =>
    rw [tab_succ', nvSum, ih, nanUnless_nv2]
    refine nanUnless_congr ?_ (fun _ => ?_)
    · constructor
      · rintro ⟨h0, h⟩ i hi
        cases i with
        | zero => exact h0
        | succ i => exact h i (by omega)
      · intro h
        exact ⟨h 0 (by omega), fun i hi => h _ (by omega)⟩
    · rw [Finset.sum_range_succ' f n, add_comm]

theorem nvCumsum_nan (n : ℕ) (G : ℕ → Prop) (f : ℕ → ℝ) :
    nvCumsum (some 0) (tab n (fun i => nanUnless (G i) (f i))) =
      tab n (fun i => nanUnless (∀ j ≤ i, G j) (∑ j ∈ range (i + 1), f j)) := by
  rw [nvCumsum_tab]
  apply tab_congr
  intro i _
  have e : ∀ j, (nanUnless (G j) (f j)).isSome ↔ G j := by
    intro j; unfold nanUnless; split_ifs <;> simp_all
  simp only [e, Option.isSome_some, true_and, Option.getD_some, zero_add]
  unfold nanUnless
  by_cases h : ∀ j ≤ i, G j
  · rw [if_pos h, if_pos h]
    congr 1
    apply Finset.sum_congr rfl
    intro j hj
    rw [if_pos (h j (by have := Finset.mem_range.1 hj; omega))]
    rfl
  · rw [if_neg h, if_neg h]

/-- the data with NaN as a table over its completion -/
theorem Spec.Completes.eq_tab {d : List NV} {x : List ℝ} (h : Completes d x) :
    d = tab x.length (fun i => nanUnless (d[i]? ≠ some none) (seq x i)) := by
  have hl := h.length_eq
  refine tab_ext hl (fun i hi => ?_)
  have h1 : i < d.length := by omega
  have h2 := List.forall₂_iff_get.1 h
  have h3 := h2.2 i h1 hi
  rw [List.getElem?_eq_getElem h1]
  congr 1
  simp only [List.get_eq_getElem] at h3
  unfold nanUnless seq
  rcases h3 with h3 | h3
  · rw [h3]; simp
  · rw [h3, if_pos (by simp), List.getD_eq_getElem?_getD, List.getElem?_eq_getElem hi]
    rfl

theorem lt_ceil_iff (a s i : ℕ) (hs : 0 < s) : i < (a + s - 1) / s ↔ i * s < a := by
  rw [Nat.lt_iff_add_one_le, Nat.le_div_iff_mul_le hs, add_mul]
  omega

/-- row of the NaN run against the row of the run on the completion -/
def RowRel (G Ge : Prop) (r' : Py (NV × NV × ℤ)) (r : Py (ℝ × ℝ × ℤ)) : Prop :=
  ∃ a b, r' = .ok a ∧ r = .ok b ∧ a.2.2 = b.2.2 ∧
    (1 < b.2.2 → a.1 = nanUnless G b.1 ∧ a.2.1 = nanUnless Ge b.2.1)

theorem runTausNv_rel (ms : List ℕ) (tau : ℕ → ℝ) (body' : ℕ → ℕ → Py (NV × NV × ℤ))
    (body : ℕ → ℕ → Py (ℝ × ℝ × ℤ)) (G Ge : ℕ → Prop)
    (H : ∀ i m, ms[i]? = some m → RowRel (G m) (Ge m) (body' i m) (body i m)) :
    (runTaus (ms.map tau) ms body = .error .userWarning ∧
      runTausNv (ms.map tau) ms body' = .error .userWarning) ∨
    ∃ rows : List (ℕ × ℝ × ℝ × ℤ),
      runTaus (ms.map tau) ms body = .ok ⟨rows.map (fun r => tau r.1), rows.map (fun r => r.2.1),
        .arr (rows.map (fun r => r.2.2.1)), rows.map (fun r => r.2.2.2)⟩ ∧
      runTausNv (ms.map tau) ms body' = .ok ⟨rows.map (fun r => tau r.1),
        rows.map (fun r => nanUnless (G r.1) r.2.1),
        rows.map (fun r => nanUnless (Ge r.1) r.2.2.1), rows.map (fun r => r.2.2.2)⟩ := by
  have H' : ∀ p : ℕ × ℕ, ∃ a : NV × NV × ℤ, ∃ b : ℝ × ℝ × ℤ, p ∈ ms.zipIdx →
      (body' p.2 p.1 = .ok a ∧ body p.2 p.1 = .ok b ∧ a.2.2 = b.2.2 ∧
        (1 < b.2.2 → a.1 = nanUnless (G p.1) b.1 ∧ a.2.1 = nanUnless (Ge p.1) b.2.1)) := by
    intro p
    by_cases hp : p ∈ ms.zipIdx
    · obtain ⟨a, b, h⟩ := H p.2 p.1 (List.mem_zipIdx_iff_getElem?.1 hp)
      exact ⟨a, b, fun _ => h⟩
    · exact ⟨(none, none, 0), (0, 0, 0), fun h => absurd h hp⟩
  choose A B hAB using H'
  have e1 : ms.map tau = ms.zipIdx.map (fun q => tau q.1) := by
    conv_lhs => rw [show ms = ms.zipIdx.map Prod.fst by simp]
    rw [List.map_map]; rfl
  set kept := ms.zipIdx.filter (fun q => decide (1 < (B q).2.2)) with hkept
  have hA : ms.zipIdx.filter ((fun n : ℤ => decide (1 < n)) ∘ (fun r : NV × NV × ℤ => r.2.2) ∘ A)
      = kept := by
    apply List.filter_congr
    intro p hp
    simp only [Function.comp]
    rw [decide_eq_decide, (hAB p hp).2.2.1]
  have hB : ms.zipIdx.filter ((fun n : ℤ => decide (1 < n)) ∘ (fun r : ℝ × ℝ × ℤ => r.2.2) ∘ B)
      = kept := rfl
  have r1 : runTaus (ms.map tau) ms body =
      if kept = [] then .error .userWarning else .ok ⟨kept.map (fun q => tau q.1),
        kept.map (fun q => (B q).1), .arr (kept.map (fun q => (B q).2.1)),
        kept.map (fun q => (B q).2.2)⟩ := by
    unfold runTaus
    rw [mapM_ok ms.zipIdx _ B (fun p hp => (hAB p hp).2.1)]
    simp only [ok_bind]
    unfold remove_small_ns
    simp only [e1, List.map_map, maskSel_map_map, ok_bind, hB, List.length_eq_zero_iff,
      List.map_eq_nil_iff]
    rfl
  have r2 : runTausNv (ms.map tau) ms body' =
      if kept = [] then .error .userWarning else .ok ⟨kept.map (fun q => tau q.1),
        kept.map (fun q => (A q).1), kept.map (fun q => (A q).2.1),
        kept.map (fun q => (A q).2.2)⟩ := by
    unfold runTausNv
    rw [mapM_ok ms.zipIdx _ A (fun p hp => (hAB p hp).1)]
    simp only [ok_bind]
    unfold remove_small_ns_nv
    simp only [e1, List.map_map, maskSel_map_map, ok_bind, hA, List.length_eq_zero_iff,
      List.map_eq_nil_iff]
    rfl
  by_cases hk : kept = []
  · left
    rw [r1, r2, if_pos hk, if_pos hk]
    exact ⟨rfl, rfl⟩
  · right
    refine ⟨kept.map (fun q => (q.1, (B q).1, (B q).2.1, (B q).2.2)), ?_, ?_⟩
    · rw [r1, if_neg hk]
      simp only [List.map_map]
      rfl
    · rw [r2, if_neg hk]
      simp only [List.map_map]
      have hm : ∀ q ∈ kept, 1 < (B q).2.2 ∧ q ∈ ms.zipIdx := by
        intro q hq
        rw [hkept, List.mem_filter, decide_eq_true_eq] at hq
        exact ⟨hq.2, hq.1⟩
      congr 2
      · apply List.map_congr_left
        intro q hq
        exact ((hAB q (hm q hq).2).2.2.2 (hm q hq).1).1
      · apply List.map_congr_left
        intro q hq
        exact ((hAB q (hm q hq).2).2.2.2 (hm q hq).1).2
      · apply List.map_congr_left
        intro q hq
        exact (hAB q (hm q hq).2).2.2.1

theorem driver_nan {d : List NV} {x : List ℝ} (h : Completes d x) (rate : ℝ) (taus : TausArg)
    (body' : List NV → List ℝ → ℕ → ℕ → Py (NV × NV × ℤ))
    (body : List ℝ → List ℝ → ℕ → ℕ → Py (ℝ × ℝ × ℤ))
    (G Ge : ℕ → Prop)
    (H : rate ≠ 0 → ∀ (ts : List ℝ) i m, 0 < m → m < x.length → ts[i]? = some (m / rate) →
      RowRel (G m) (Ge m) (body' d ts i m) (body x ts i m)) :
    SameUpToNan rate G Ge
      (do let r ← tau_generator x rate taus
          runTaus r.2.2 r.2.1 (fun i m => body r.1 r.2.2 i m))
      (do let r ← tau_generator d rate taus
          runTausNv r.2.2 r.2.1 (fun i m => body' r.1 r.2.2 i m)) := by
  rw [tau_generator_eq, tau_generator_eq, h.length_eq]
  cases hf : factors x.length rate taus false (effMax x.length (-1)) with
  | error e => exact Or.inl ⟨e, rfl, rfl⟩
  | ok ms =>
    simp only [ok_bind]
    rcases runTausNv_rel ms (fun m : ℕ => (m : ℝ) / rate)
      (body' d (ms.map (fun m : ℕ => (m : ℝ) / rate))) (body x (ms.map (fun m : ℕ => (m : ℝ) / rate))) G Ge
      (fun i m hi => by
        obtain ⟨a, b, _⟩ := factors_mem hf (List.mem_of_getElem? hi)
        exact H (factors_ok_rate hf) _ i m a b (by rw [List.getElem?_map, hi]; rfl)) with h1 | h1
    · exact Or.inl ⟨_, h1⟩
    · exact Or.inr h1

theorem adev_row_nan {d : List NV} {x : List ℝ} (h : Completes d x) (rate : ℝ) (m s : ℕ)
    (hm0 : 0 < m) (hmN : m < x.length) (hs : 0 < s) (G : Prop)
    (hG : G ↔ ∀ i, i * s + 2 * m < x.length →
      d[2 * m + i * s]? ≠ some none ∧ d[m + i * s]? ≠ some none ∧ d[i * s]? ≠ some none) :
    RowRel G G (calc_adev_phase_nv d rate m s) (calc_adev_phase x rate m s) := by
  set N := x.length with hN
  obtain ⟨g, hg⟩ : ∃ g : ℕ → Prop, ∀ i, d[i]? ≠ some none ↔ g i := ⟨fun i => d[i]? ≠ some none, fun _ => Iff.rfl⟩
  simp only [hg] at hG
  have hd : d = tab N (fun i => nanUnless (g i) (seq x i)) := by
    have := h.eq_tab
    simp only [hg] at this
    exact this
  have hp : x = tab N (seq x) := eq_tab_seq x
  obtain ⟨f, hf⟩ : ∃ f, seq x = f := ⟨_, rfl⟩
  rw [hf] at hd hp
  have h0 : (N - 0 + s - 1) / s = (N + s - 1) / s := by simp
  have l1 := len_mono' N m (2 * m) s hs (by omega)
  have l2 := len_mono' N 0 m s hs (by omega)
  have p1 := len_pos N m s hs hmN
  have hi2 : ∀ i, i < (N - 2 * m + s - 1) / s ↔ i * s + 2 * m < N := by
    intro i; rw [lt_ceil_iff _ _ _ hs]; omega
  unfold calc_adev_phase_nv calc_adev_phase
  rw [hd, hp]
  simp only [sliceStep_tab _ _ _ _ hs, ok_bind, tab_length, one_mul]
  generalize hn2 : (N - 2 * m + s - 1) / s = n2 at *
  generalize hn1 : (N - m + s - 1) / s = n1 at *
  generalize hn0 : (N - 0 + s - 1) / s = n0 at *
  have hmin : min (min n0 n1) n2 = n2 := by omega
  simp only [hmin]
  rcases Nat.eq_zero_or_pos n2 with h | h
  · subst h
    simp only [if_true, sliceTo_nat, take_tab]
    have q1 : min 1 n1 = 1 := by omega
    have q0 : min 1 n0 = 1 := by omega
    simp only [q1, q0, Nat.min_zero, tab_zero, vscale_tab, vsub, vadd, vmul, map_tab, vop_nil_one,
      ok_bind]
    have e1 : vop (fun x1 x2 : ℝ => x1 * x2) [] [] = .ok [] := by simp [vop]
    have e2 : vop (nv2 (fun x1 x2 : ℝ => x1 * x2)) [] [] = .ok [] := by simp [vop]
    rw [e1, e2]
    exact ⟨_, _, rfl, rfl, rfl, fun h => absurd h (by simp)⟩
  · simp only [if_neg (by omega : ¬ n2 = 0), sliceTo_nat, take_tab, min_self]
    have q1 : min n2 n1 = n2 := by omega
    have q0 : min n2 n0 = n2 := by omega
    simp only [q1, q0, vscale_tab, vsub, vadd, vmul, map_tab, vop_tab, ok_bind, npSum_tab,
      nanUnless_map, nanUnless_nv2, nvSum_tab]
    have e : (∀ i < n2, ((g (2 * m + i * s) ∧ g (m + i * s)) ∧ g (0 + i * s)) ∧
        (g (2 * m + i * s) ∧ g (m + i * s)) ∧ g (0 + i * s)) ↔ G := by
      rw [hG]
      constructor
      · intro h i hi
        have := (h i ((hi2 i).2 hi)).1
        rw [Nat.zero_add] at this
        exact ⟨this.1.1, this.1.2, this.2⟩
      · intro h i hi
        have := h i ((hi2 i).1 hi)
        rw [Nat.zero_add]
        exact ⟨⟨⟨this.1, this.2.1⟩, this.2.2⟩, ⟨this.1, this.2.1⟩, this.2.2⟩
    exact ⟨_, _, rfl, rfl, rfl, fun _ => ⟨nanUnless_congr e (fun _ => rfl),
      nanUnless_congr e (fun _ => rfl)⟩⟩

theorem hdev_row_nan {d : List NV} {x : List ℝ} (h : Completes d x) (rate : ℝ) (hr : rate ≠ 0)
    (m s : ℕ) (hs : 0 < s) (G : Prop)
    (hG : G ↔ ∀ i, i * s + 3 * m < x.length → d[3 * m + i * s]? ≠ some none ∧
      d[2 * m + i * s]? ≠ some none ∧ d[m + i * s]? ≠ some none ∧ d[i * s]? ≠ some none) :
    RowRel G G (calc_hdev_phase_nv d rate m s) (calc_hdev_phase x rate m s) := by
  set N := x.length with hN
  obtain ⟨g, hg⟩ : ∃ g : ℕ → Prop, ∀ i, d[i]? ≠ some none ↔ g i := ⟨fun i => d[i]? ≠ some none, fun _ => Iff.rfl⟩
  simp only [hg] at hG
  have hd : d = tab N (fun i => nanUnless (g i) (seq x i)) := by
    have := h.eq_tab
    simp only [hg] at this
    exact this
  have hp : x = tab N (seq x) := eq_tab_seq x
  obtain ⟨f, hf⟩ : ∃ f, seq x = f := ⟨_, rfl⟩
  rw [hf] at hd hp
  have l3 := len_mono' N (2 * m) (3 * m) s hs (by omega)
  have l1 := len_mono' N m (2 * m) s hs (by omega)
  have l2 := len_mono' N 0 m s hs (by omega)
  have hi2 : ∀ i, i < (N - 3 * m + s - 1) / s ↔ i * s + 3 * m < N := by
    intro i; rw [lt_ceil_iff _ _ _ hs]; omega
  unfold calc_hdev_phase_nv calc_hdev_phase
  rw [hd, hp, if_neg hr, if_neg hr]
  simp only [sliceStep_tab _ _ _ _ hs, ok_bind, tab_length, one_mul]
  generalize hn3 : (N - 3 * m + s - 1) / s = n3 at *
  generalize hn2 : (N - 2 * m + s - 1) / s = n2 at *
  generalize hn1 : (N - m + s - 1) / s = n1 at *
  generalize hn0 : (N - 0 + s - 1) / s = n0 at *
  have hmin : min (min (min n0 n1) n2) n3 = n3 := by omega
  simp only [hmin, sliceTo_nat, take_tab, min_self]
  have q2 : min n3 n2 = n3 := by omega
  have q1 : min n3 n1 = n3 := by omega
  have q0 : min n3 n0 = n3 := by omega
  simp only [q2, q1, q0, vscale_tab, vsub, vadd, vmul, map_tab, vop_tab, ok_bind, npSum_tab,
    nanUnless_map, nanUnless_nv2, nvSum_tab]
  refine ⟨_, _, rfl, rfl, rfl, fun _ => ?_⟩
  have e : (∀ i < n3, (((g (3 * m + i * s) ∧ g (2 * m + i * s)) ∧ g (m + i * s)) ∧ g (0 + i * s)) ∧
      ((g (3 * m + i * s) ∧ g (2 * m + i * s)) ∧ g (m + i * s)) ∧ g (0 + i * s)) ↔ G := by
    rw [hG]
    constructor
    · intro h i hi
      have := (h i ((hi2 i).2 hi)).1
      rw [Nat.zero_add] at this
      exact ⟨this.1.1.1, this.1.1.2, this.1.2, this.2⟩
    · intro h i hi
      obtain ⟨a, b, c, e⟩ := h i ((hi2 i).1 hi)
      rw [Nat.zero_add]
      exact ⟨⟨⟨⟨a, b⟩, c⟩, e⟩, ⟨⟨a, b⟩, c⟩, e⟩
  exact ⟨nanUnless_congr e (fun _ => rfl), nanUnless_congr e (fun _ => rfl)⟩

theorem mdev_row_nan {d : List NV} {x : List ℝ} (h : Completes d x) (ts : List ℝ) (idx m : ℕ)
    (tau : ℝ) (ht : ts[idx]? = some tau) (G : Prop)
    (hG : G ↔ ∀ i < x.length, d[i]? ≠ some none) :
    RowRel G G (mdev_body_nv d ts idx m) (mdev_body x ts idx m) := by
  set N := x.length with hN
  obtain ⟨g, hg⟩ : ∃ g : ℕ → Prop, ∀ i, d[i]? ≠ some none ↔ g i := ⟨fun i => d[i]? ≠ some none, fun _ => Iff.rfl⟩
  simp only [hg] at hG
  have hd : d = tab N (fun i => nanUnless (g i) (seq x i)) := by
    have := h.eq_tab
    simp only [hg] at this
    exact this
  have hp : x = tab N (seq x) := eq_tab_seq x
  obtain ⟨f, hf⟩ : ∃ f, seq x = f := ⟨_, rfl⟩
  rw [hf] at hd hp
  have hgt : pyGet ts (idx : ℤ) = .ok tau := by
    unfold pyGet
    simp only [if_neg (by omega : ¬ ((idx : ℤ) < 0)), Int.toNat_natCast, ht]
  unfold mdev_body_nv mdev_body
  rw [hd, hp, hgt]
  simp only [ok_bind, slice_nat, sliceFrom_nat, take_tab, drop_tab, tab_length, sliceTo_nat]
  generalize he : min (min (min m N - 0) (min (2 * m) N - m)) (min (3 * m) N - 2 * m) = e
  have a0 : min e (min m N - 0) = e := by omega
  have a1 : min e (min (2 * m) N - m) = e := by omega
  have a2 : min e (min (3 * m) N - 2 * m) = e := by omega
  generalize he' : min (min (min (N - 0) (N - 1 * m)) (N - 2 * m)) (N - 3 * m) = e'
  have b : e' = N - 3 * m := by omega
  have b0 : min e' (N - 0) = e' := by omega
  have b1 : min e' (N - 1 * m) = e' := by omega
  have b2 : min e' (N - 2 * m) = e' := by omega
  have b3 : min e' (N - 3 * m) = e' := by omega
  simp only [a0, a1, a2, b0, b1, b2, b3, vscale_tab, vsub, vadd, vmul, vop_tab, ok_bind, npSum_tab,
    npCumsum_tab, map_tab, nanUnless_map, nanUnless_nv2, nvSum_tab, nvCumsum_nan]
  refine ⟨_, _, rfl, rfl, rfl, fun hn => ?_⟩
  simp only at hn
  have h3 : 3 * m < N := by omega
  have hem : e = m := by omega
  have key : ((∀ i < e, (g (2 * m + i) ∧ g (m + i)) ∧ g (0 + i)) ∧
      (∀ i < e', ((g (3 * m + i) ∧ g (2 * m + i)) ∧ g (1 * m + i)) ∧ g (0 + i))) ↔ G := by
    rw [hG, hem, b]
    constructor
    · rintro ⟨h1, h2⟩ i hi
      rcases Nat.lt_or_ge i (N - 3 * m) with hi' | hi'
      · have := (h2 i hi').2; rwa [Nat.zero_add] at this
      rcases Nat.lt_or_ge i m with c | c
      · have := (h1 i c).2; rwa [Nat.zero_add] at this
      rcases Nat.lt_or_ge i (2 * m) with c | c
      · have := (h1 (i - m) (by omega)).1.2
        rwa [show m + (i - m) = i by omega] at this
      rcases Nat.lt_or_ge i (3 * m) with c | c
      · have := (h1 (i - 2 * m) (by omega)).1.1
        rwa [show 2 * m + (i - 2 * m) = i by omega] at this
      · have := (h2 (i - 3 * m) (by omega)).1.1.1
        rwa [show 3 * m + (i - 3 * m) = i by omega] at this
    · intro h
      exact ⟨fun i hi => ⟨⟨h _ (by omega), h _ (by omega)⟩, h _ (by omega)⟩,
        fun i hi => ⟨⟨⟨h _ (by omega), h _ (by omega)⟩, h _ (by omega)⟩, h _ (by omega)⟩⟩
  have e2 : (((∀ i < e, (g (2 * m + i) ∧ g (m + i)) ∧ g (0 + i)) ∧
      (∀ i < e, (g (2 * m + i) ∧ g (m + i)) ∧ g (0 + i))) ∧
      (∀ i < e', ((∀ i < e, (g (2 * m + i) ∧ g (m + i)) ∧ g (0 + i)) ∧
          ∀ j ≤ i, ((g (3 * m + j) ∧ g (2 * m + j)) ∧ g (1 * m + j)) ∧ g (0 + j)) ∧
        ((∀ i < e, (g (2 * m + i) ∧ g (m + i)) ∧ g (0 + i)) ∧
          ∀ j ≤ i, ((g (3 * m + j) ∧ g (2 * m + j)) ∧ g (1 * m + j)) ∧ g (0 + j)))) ↔ G := by
    rw [← key]
    constructor
    · rintro ⟨⟨h1, _⟩, h2⟩
      exact ⟨h1, fun i hi => (h2 i hi).1.2 i le_rfl⟩
    · rintro ⟨h1, h2⟩
      exact ⟨⟨h1, h1⟩, fun i hi => ⟨⟨h1, fun j hj => h2 j (by omega)⟩, h1, fun j hj => h2 j (by omega)⟩⟩
  exact ⟨nanUnless_congr e2 (fun _ => rfl), nanUnless_congr e2 (fun _ => rfl)⟩

theorem tierms_row_nan {d : List NV} {x : List ℝ} (h : Completes d x) (m : ℕ)
    (hm0 : 0 < m) (hmN : m < x.length) (G : Prop)
    (hG : G ↔ ∀ i, i + m < x.length → d[i]? ≠ some none ∧ d[m + i]? ≠ some none) :
    RowRel G True (tierms_body_nv d m) (tierms_body x m) := by
  set N := x.length with hN
  obtain ⟨g, hg⟩ : ∃ g : ℕ → Prop, ∀ i, d[i]? ≠ some none ↔ g i := ⟨fun i => d[i]? ≠ some none, fun _ => Iff.rfl⟩
  simp only [hg] at hG
  have hd : d = tab N (fun i => nanUnless (g i) (seq x i)) := by
    have := h.eq_tab
    simp only [hg] at this
    exact this
  have hp : x = tab N (seq x) := eq_tab_seq x
  obtain ⟨f, hf⟩ : ∃ f, seq x = f := ⟨_, rfl⟩
  rw [hf] at hd hp
  have hl := h.length_eq
  unfold tierms_body_nv tierms_body
  rw [hd, hp]
  simp only [sliceTo_neg _ _ hm0, sliceFrom_nat, tab_length, take_tab, drop_tab]
  have e1 : min (N - m) N = N - m := by omega
  simp only [e1]
  have e2 : column_stack (tab (N - m) f) (tab (N - m) (fun i => f (m + i)))
      = .ok (tab (N - m) (fun i => (f i, f (m + i)))) := by
    unfold column_stack
    rw [if_pos (by simp)]
    congr 1
    apply tab_ext
    · simp
    · intro i hi
      rw [List.getElem?_zip_eq_some]
      exact ⟨by rw [tab_getElem?, if_pos hi], by rw [tab_getElem?, if_pos hi]⟩
  rw [e2]
  simp only [if_true, ok_bind, map_tab, vsub, vmul, vop_tab, npMean_tab, nanUnless_map,
    nanUnless_nv2, nvSum_tab, tab_length]
  refine ⟨_, _, rfl, rfl, rfl, fun _ => ⟨nanUnless_congr ?_ (fun _ => rfl), ?_⟩⟩
  · rw [hG]
    constructor
    · intro h i hi
      exact (h i (by omega)).1.1
    · intro h i hi
      have := h i (by omega)
      exact ⟨⟨this, this⟩, this, this⟩
  · simp [nanUnless]

theorem numbers_some (x : List ℝ) : numbers (x.map some) = x := by
  unfold numbers; simp

theorem nvExt_some (ext : List ℝ → Py ℝ) (x : List ℝ) (hx : x ≠ []) :
    nvExt ext (x.map some) = (ext x).map some := by
  unfold nvExt
  rw [if_neg (by simpa using hx), numbers_some, if_pos (by simp)]

theorem nvExt_none (ext : List ℝ → Py ℝ) (l : List NV) (hl : none ∈ l) :
    nvExt ext l = .ok none := by
  unfold nvExt
  rw [if_neg (by rintro rfl; simp at hl), if_neg]
  intro h
  have := List.all_eq_true.1 h none hl
  simp at this

/-- no NaN: the data are the completion itself -/
theorem Spec.Completes.eq_some {d : List NV} {x : List ℝ} (h : Completes d x)
    (hc : ∀ i < x.length, d[i]? ≠ some none) : d = x.map some := by
  rw [h.eq_tab]
  conv_rhs => rw [eq_tab_seq x, map_tab]
  apply tab_congr
  intro i hi
  rw [nanUnless, if_pos (hc i hi)]

theorem npMax_ok (l : List ℝ) (h : l ≠ []) : ∃ v, npMax l = .ok v := by
  cases l with
  | nil => exact absurd rfl h
  | cons a l => exact ⟨_, rfl⟩

theorem npMin_ok (l : List ℝ) (h : l ≠ []) : ∃ v, npMin l = .ok v := by
  cases l with
  | nil => exact absurd rfl h
  | cons a l => exact ⟨_, rfl⟩

theorem mtie_row_nan {d : List NV} {x : List ℝ} (h : Completes d x) (m : ℕ) (hm0 : 0 < m)
    (hmN : m < x.length) (G : Prop) (hG : G ↔ ∀ i < x.length, d[i]? ≠ some none) :
    RowRel G G (mtie_body_nv d m) (mtie_body (fun _ => false) x m) := by
  have hl := h.length_eq
  set N := x.length with hN
  -- the windows of the completion
  have hw : mtie_rolling_window x ((m : ℤ) + 1) =
      .ok (tab (N - m) (fun i => (x.take (i + (m + 1))).drop i)) := by
    unfold mtie_rolling_window
    rw [if_neg (by omega), if_neg (by omega)]
    have e : ((N : ℤ) - ((m : ℤ) + 1) + 1).toNat = N - m := by omega
    rw [← hN, e]
    congr 1
    apply tab_congr
    intro i _
    have e2 : ((i : ℕ) : ℤ) + ((m : ℤ) + 1) = ((i + (m + 1) : ℕ) : ℤ) := by push_cast; ring
    rw [e2, slice_nat]
  have hne : ∀ i < N - m, (x.take (i + (m + 1))).drop i ≠ [] := by
    intro i hi h0
    have := congrArg List.length h0
    simp at this
    omega
  have hmax : ∀ i, ∃ v, i < N - m → npMax ((x.take (i + (m + 1))).drop i) = .ok v := by
    intro i
    by_cases hi : i < N - m
    · obtain ⟨v, hv⟩ := npMax_ok _ (hne i hi); exact ⟨v, fun _ => hv⟩
    · exact ⟨0, fun h => absurd h hi⟩
  have hmin : ∀ i, ∃ v, i < N - m → npMin ((x.take (i + (m + 1))).drop i) = .ok v := by
    intro i
    by_cases hi : i < N - m
    · obtain ⟨v, hv⟩ := npMin_ok _ (hne i hi); exact ⟨v, fun _ => hv⟩
    · exact ⟨0, fun h => absurd h hi⟩
  choose M hM using hmax
  choose L hL using hmin
  obtain ⟨v, hv⟩ := npMax_ok (tab (N - m) (fun i => M i - L i)) (by
    intro h0; have := congrArg List.length h0; simp at this; omega)
  have mapM_tab : ∀ {α β : Type} (n : ℕ) (a : ℕ → α) (f : α → Py β) (b : ℕ → β),
      (∀ i < n, f (a i) = .ok (b i)) → (tab n a).mapM f = .ok (tab n b) := by
    intro α β n a f b hf
    induction n generalizing a b with
    | zero => rfl
    | succ n ih =>
      rw [tab_succ', tab_succ', List.mapM_cons, hf 0 (by omega),
        ih (fun i => a (i + 1)) (fun i => b (i + 1)) (fun i hi => hf _ (by omega))]
      rfl
  have hreal : mtie_body (fun _ => false) x m = .ok (v, v / √(((N : ℤ) - m : ℤ) : ℝ), (N : ℤ) - m) := by
    unfold mtie_body mtie_windows
    simp only [Bool.false_eq_true, if_false, hw, ok_bind,
      mapM_tab _ _ npMax M (fun i hi => hM i hi), mapM_tab _ _ npMin L (fun i hi => hL i hi),
      vsub, vop_tab, hv]
    rfl
  by_cases hc : ∀ i < N, d[i]? ≠ some none
  · have hd := h.eq_some hc
    have hsl : ∀ i : ℕ, slice (x.map some) (i : ℕ) ((i + (m + 1) : ℕ) : ℤ) =
        ((x.take (i + (m + 1))).drop i).map some := by
      intro i; rw [slice_nat, List.map_drop, List.map_take]
    have hMs : ∀ i < N - m, nvExt npMax (slice (x.map some) (i : ℕ) ((i + (m + 1) : ℕ) : ℤ))
        = .ok (some (M i)) := by
      intro i hi
      rw [hsl, nvExt_some _ _ (hne i hi), hM i hi]; rfl
    have hLs : ∀ i < N - m, nvExt npMin (slice (x.map some) (i : ℕ) ((i + (m + 1) : ℕ) : ℤ))
        = .ok (some (L i)) := by
      intro i hi
      rw [hsl, nvExt_some _ _ (hne i hi), hL i hi]; rfl
    refine ⟨(some v, some (v / √(((N : ℤ) - m : ℤ) : ℝ)), (N : ℤ) - m), _, ?_, hreal, rfl, fun _ => ?_⟩
    · unfold mtie_body_nv
      rw [hd, List.length_map, ← hN, if_neg (by omega)]
      simp only [mapM_tab _ _ (nvExt npMax) (fun i => some (M i)) hMs,
        mapM_tab _ _ (nvExt npMin) (fun i => some (L i)) hLs, ok_bind, vop_tab, nv2]
      have e : tab (N - m) (fun i => (some (M i - L i) : NV)) =
          (tab (N - m) (fun i => M i - L i)).map some := by rw [map_tab]
      rw [e, nvExt_some _ _ (by
        intro h0; have := congrArg List.length h0; simp at this; omega), hv]
      rfl
    · rw [nanUnless, nanUnless, if_pos (hG.2 hc), if_pos (hG.2 hc)]
      exact ⟨rfl, rfl⟩
  · have hc' : ¬ G := fun hg => hc (hG.1 hg)
    push Not at hc
    obtain ⟨j, hj, hjn⟩ := hc
    -- windows that contain the NaN give NaN
    have hsome : ∀ (ext : List ℝ → Py ℝ), (∀ l, l ≠ [] → ∃ v, ext l = .ok v) →
        ∀ i, ∃ w : NV, i < N - m → nvExt ext (slice d (i : ℕ) ((i + (m + 1) : ℕ) : ℤ)) = .ok w := by
      intro ext hext i
      by_cases hi : i < N - m
      · have hne' : slice d (i : ℕ) ((i + (m + 1) : ℕ) : ℤ) ≠ [] := by
          rw [slice_nat]
          intro h0
          have := congrArg List.length h0
          simp at this
          omega
        unfold nvExt
        rw [if_neg hne']
        split_ifs with ha
        · have hn : numbers (slice d (i : ℕ) ((i + (m + 1) : ℕ) : ℤ)) ≠ [] := by
            obtain ⟨a, t, hat⟩ := List.exists_cons_of_ne_nil hne'
            rw [hat] at ha ⊢
            have := List.all_eq_true.1 ha a (by simp)
            obtain ⟨v, rfl⟩ := Option.isSome_iff_exists.1 this
            simp [numbers]
          obtain ⟨v, hv⟩ := hext _ hn
          exact ⟨some v, fun _ => by rw [hv]; rfl⟩
        · exact ⟨none, fun _ => rfl⟩
      · exact ⟨none, fun h => absurd h hi⟩
    choose M' hM' using hsome npMax npMax_ok
    choose L' hL' using hsome npMin npMin_ok
    set i₀ := min j (N - m - 1) with hi₀
    have hi₀' : i₀ < N - m := by omega
    have hmem : none ∈ slice d (i₀ : ℕ) ((i₀ + (m + 1) : ℕ) : ℤ) := by
      rw [slice_nat]
      rw [List.mem_iff_getElem?]
      refine ⟨j - i₀, ?_⟩
      rw [List.getElem?_drop, List.getElem?_take, if_pos (by omega)]
      rw [show i₀ + (j - i₀) = j by omega, hjn]
    have hM0 : M' i₀ = none := by
      have := hM' i₀ hi₀'
      rw [nvExt_none _ _ hmem] at this
      injection this with this
      exact this.symm
    refine ⟨(none, none, (N : ℤ) - m), _, ?_, hreal, rfl, fun _ => ?_⟩
    · unfold mtie_body_nv
      rw [hl, if_neg (by omega)]
      simp only [mapM_tab _ _ (nvExt npMax) M' hM', mapM_tab _ _ (nvExt npMin) L' hL', ok_bind,
        vop_tab]
      rw [nvExt_none]
      · rfl
      · rw [List.mem_iff_getElem?]
        refine ⟨i₀, ?_⟩
        rw [tab_getElem?, if_pos hi₀', hM0]
        rfl
    · rw [nanUnless, nanUnless, if_neg hc', if_neg hc']
      exact ⟨rfl, rfl⟩

theorem vop_map_map {α β γ δ : Type} (l : List α) (a : α → β) (b : α → γ) (f : β → γ → δ) :
    vop f (l.map a) (l.map b) = .ok (l.map (fun r => f (a r) (b r))) := by
  unfold vop
  rw [if_pos (by simp)]
  congr 1
  induction l with
  | nil => rfl
  | cons c l ih => simp_all

/-- C81: NaN in phase data. Replace the NaN by any numbers: the call raises the same exception,
or it returns the same averaging times and counts, and in each row (factor `m`) the same
deviation and error if no sample used for `m` is NaN, and NaN for both otherwise; the error of
`tierms` is 0 even then. -/
theorem nan_dev (fn : NanFn) (d : List NV) (x : List ℝ) (h : Completes d x) (rate : ℝ)
    (taus : TausArg) :
    SameUpToNan rate (Clean fn d) (fun m => fn = .tierms ∨ Clean fn d m)
      (fn.run x rate "phase" taus) (fn.runNv d rate "phase" taus) := by
  have hl := h.length_eq
  have hmd : SameUpToNan rate (fun _ => ∀ i, i < d.length → d[i]? ≠ some none)
      (fun _ => ∀ i, i < d.length → d[i]? ≠ some none)
      (mdev x rate "phase" taus) (mdev_nv d rate "phase" taus) := by
    unfold mdev mdev_nv input_to_phase input_to_phase_nv
    simp only [if_true, ok_bind]
    refine driver_nan h rate taus (fun p ts i m => mdev_body_nv p ts i m)
      (fun p ts i m => mdev_body p ts i m) _ _ (fun _ ts i m _ _ ht => ?_)
    exact mdev_row_nan h ts i m _ ht _ (by rw [hl])
  cases fn with
  | adev =>
    simp only [NanFn.run, NanFn.runNv, reduceCtorEq, false_or]
    unfold adev adev_nv input_to_phase input_to_phase_nv
    simp only [if_true, ok_bind]
    refine driver_nan h rate taus (fun p _ _ m => calc_adev_phase_nv p rate m m)
      (fun p _ _ m => calc_adev_phase p rate m m) _ _ (fun _ ts i m hm0 hmN _ => ?_)
    refine adev_row_nan h rate m m hm0 hmN hm0 _ ?_
    unfold Clean Reads
    rw [hl]
    constructor
    · intro hc k hk
      exact ⟨hc _ ⟨k, hk, Or.inr (Or.inr (by ring))⟩, hc _ ⟨k, hk, Or.inr (Or.inl (by ring))⟩,
        hc _ ⟨k, hk, Or.inl rfl⟩⟩
    · rintro hc i ⟨k, hk, hi⟩
      obtain ⟨a, b, c⟩ := hc k hk
      rcases hi with rfl | rfl | rfl
      · exact c
      · rwa [add_comm] at b
      · rwa [add_comm] at a
  | oadev =>
    simp only [NanFn.run, NanFn.runNv, reduceCtorEq, false_or]
    unfold AT.oadev oadev_nv input_to_phase input_to_phase_nv
    simp only [if_true, ok_bind]
    refine driver_nan h rate taus (fun p _ _ m => calc_adev_phase_nv p rate m 1)
      (fun p _ _ m => calc_adev_phase p rate m 1) _ _ (fun _ ts i m hm0 hmN _ => ?_)
    refine adev_row_nan h rate m 1 hm0 hmN one_pos _ ?_
    unfold Clean Reads
    rw [hl]
    simp only [mul_one]
    constructor
    · intro hc k hk
      exact ⟨hc _ ⟨k, hk, Or.inr (Or.inr (by ring))⟩, hc _ ⟨k, hk, Or.inr (Or.inl (by ring))⟩,
        hc _ ⟨k, hk, Or.inl rfl⟩⟩
    · rintro hc i ⟨k, hk, hi⟩
      obtain ⟨a, b, c⟩ := hc k hk
      rcases hi with rfl | rfl | rfl
      · exact c
      · rwa [add_comm] at b
      · rwa [add_comm] at a
  | mdev =>
    simp only [NanFn.run, NanFn.runNv, reduceCtorEq, false_or]
    exact hmd
  | tdev =>
    simp only [NanFn.run, NanFn.runNv, reduceCtorEq, false_or]
    unfold AT.tdev tdev_nv input_to_phase input_to_phase_nv scaleToTdev
    simp only [if_true, ok_bind]
    rcases hmd with ⟨e, h1, h2⟩ | ⟨rows, h1, h2⟩
    · exact Or.inl ⟨e, by rw [h1]; rfl, by rw [h2]; rfl⟩
    · refine Or.inr ⟨rows.map (fun r => (r.1, r.1 / rate * r.2.1 / √3,
        r.1 / rate * r.2.1 / √3 / √(r.2.2.2 : ℝ), r.2.2.2)), ?_, ?_⟩
      · rw [h1]
        simp only [ok_bind, vmul, vop_map_map, List.map_map]
        rfl
      · rw [h2]
        simp only [ok_bind, vop_map_map, List.map_map]
        congr 2
        · apply List.map_congr_left
          intro r _
          by_cases hc : ∀ i, i < d.length → d[i]? ≠ some none
          · have hc' : Clean .tdev d r.1 := hc
            simp only [Function.comp, if_pos hc, if_pos hc', Option.map_some]
          · have hc' : ¬ Clean .tdev d r.1 := hc
            simp only [Function.comp, if_neg hc, if_neg hc', Option.map_none]
        · apply List.map_congr_left
          intro r _
          by_cases hc : ∀ i, i < d.length → d[i]? ≠ some none
          · have hc' : Clean .tdev d r.1 := hc
            simp only [Function.comp, if_pos hc, if_pos hc', Option.map_some]
          · have hc' : ¬ Clean .tdev d r.1 := hc
            simp only [Function.comp, if_neg hc, if_neg hc', Option.map_none]
  | hdev =>
    simp only [NanFn.run, NanFn.runNv, reduceCtorEq, false_or]
    unfold AT.hdev hdev_nv input_to_phase input_to_phase_nv
    simp only [if_true, ok_bind]
    refine driver_nan h rate taus (fun p _ _ m => calc_hdev_phase_nv p rate m m)
      (fun p _ _ m => calc_hdev_phase p rate m m) _ _ (fun hr ts i m hm0 hmN _ => ?_)
    refine hdev_row_nan h rate hr m m hm0 _ ?_
    unfold Clean Reads
    rw [hl]
    constructor
    · intro hc k hk
      exact ⟨hc _ ⟨k, hk, Or.inr (Or.inr (Or.inr (by ring)))⟩,
        hc _ ⟨k, hk, Or.inr (Or.inr (Or.inl (by ring)))⟩, hc _ ⟨k, hk, Or.inr (Or.inl (by ring))⟩,
        hc _ ⟨k, hk, Or.inl rfl⟩⟩
    · rintro hc i ⟨k, hk, hi⟩
      obtain ⟨a, b, c, e⟩ := hc k hk
      rcases hi with rfl | rfl | rfl | rfl
      · exact e
      · rwa [add_comm] at c
      · rwa [add_comm] at b
      · rwa [add_comm] at a
  | ohdev =>
    simp only [NanFn.run, NanFn.runNv, reduceCtorEq, false_or]
    unfold AT.ohdev ohdev_nv input_to_phase input_to_phase_nv
    simp only [if_true, ok_bind]
    refine driver_nan h rate taus (fun p _ _ m => calc_hdev_phase_nv p rate m 1)
      (fun p _ _ m => calc_hdev_phase p rate m 1) _ _ (fun hr ts i m hm0 hmN _ => ?_)
    refine hdev_row_nan h rate hr m 1 one_pos _ ?_
    unfold Clean Reads
    rw [hl]
    simp only [mul_one]
    constructor
    · intro hc k hk
      exact ⟨hc _ ⟨k, hk, Or.inr (Or.inr (Or.inr (by ring)))⟩,
        hc _ ⟨k, hk, Or.inr (Or.inr (Or.inl (by ring)))⟩, hc _ ⟨k, hk, Or.inr (Or.inl (by ring))⟩,
        hc _ ⟨k, hk, Or.inl rfl⟩⟩
    · rintro hc i ⟨k, hk, hi⟩
      obtain ⟨a, b, c, e⟩ := hc k hk
      rcases hi with rfl | rfl | rfl | rfl
      · exact e
      · rwa [add_comm] at c
      · rwa [add_comm] at b
      · rwa [add_comm] at a
  | tierms =>
    simp only [NanFn.run, NanFn.runNv, true_or]
    unfold AT.tierms tierms_nv input_to_phase input_to_phase_nv
    simp only [if_true, ok_bind]
    refine driver_nan h rate taus (fun _ _ _ m => tierms_body_nv d m)
      (fun _ _ _ m => tierms_body x m) _ _ (fun _ ts i m hm0 hmN _ => ?_)
    refine tierms_row_nan h m hm0 hmN _ ?_
    unfold Clean Reads
    rw [hl]
    constructor
    · intro hc k hk
      exact ⟨hc _ ⟨k, hk, Or.inl rfl⟩, hc _ ⟨k, hk, Or.inr (by ring)⟩⟩
    · rintro hc i ⟨k, hk, hi⟩
      obtain ⟨a, b⟩ := hc k hk
      rcases hi with rfl | rfl
      · exact a
      · rwa [add_comm] at b
  | mtie =>
    simp only [NanFn.run, NanFn.runNv, reduceCtorEq, false_or]
    unfold AT.mtie mtie_mem mtie_nv input_to_phase input_to_phase_nv
    simp only [if_true, ok_bind]
    refine driver_nan h rate taus (fun p _ _ m => mtie_body_nv p m)
      (fun p _ _ m => mtie_body (fun _ => false) p m) _ _ (fun _ ts i m hm0 hmN _ => ?_)
    exact mtie_row_nan h m hm0 hmN _ (by unfold Clean Reads; rw [hl])

/-- every NaN-marked array has a completion -/
theorem Spec.completes_fill (d : List NV) : Completes d (d.map (fun v => v.getD 0)) := by
  unfold Completes
  rw [List.forall₂_map_right_iff, List.forall₂_same]
  intro v _
  cases v <;> simp

/-- C81: data without NaN: the models that carry NaN agree with those of `Model/Dev.lean`. -/
theorem nan_free (fn : NanFn) (x : List ℝ) (rate : ℝ) (taus : TausArg) :
    fn.runNv (x.map some) rate "phase" taus =
      (fn.run x rate "phase" taus).map (fun o => ⟨o.taus, o.devs.map some,
        match o.errs with | .arr l => l.map some | .lst _ => [], o.ns⟩) := by
  have hc : Completes (x.map some) x := by
    unfold Completes
    rw [List.forall₂_map_left_iff, List.forall₂_same]
    exact fun v _ => Or.inr rfl
  have hcl : ∀ m, Clean fn (x.map some) m := by
    intro m i _
    rw [List.getElem?_map]
    cases x[i]? <;> simp
  rcases nan_dev fn _ x hc rate taus with ⟨e, h1, h2⟩ | ⟨rows, h1, h2⟩
  · rw [h1, h2]; rfl
  · rw [h1, h2]
    simp only [hcl, or_true, if_true, Except.map, List.map_map]
    rfl

/-- the name in the list of all deviation functions -/
def Spec.NanFn.name : NanFn → DevName
  | .adev => .adev
  | .oadev => .oadev
  | .mdev => .mdev
  | .tdev => .tdev
  | .hdev => .hdev
  | .ohdev => .ohdev
  | .tierms => .tierms
  | .mtie => .mtie

/-- the rows returned on `N` samples have a factor below `N` and more than one term -/
theorem rows_facts (fn : NanFn) (x : List ℝ) (rate : ℝ) (taus : TausArg)
    (rows : List (ℕ × ℝ × ℝ × ℤ)) (dv : List ℝ) (er : Errs ℝ) (ns : List ℤ)
    (h : fn.run x rate "phase" taus = .ok ⟨rows.map (fun w => w.1 / rate), dv, er, ns⟩) :
    ∀ w ∈ rows, 0 < w.1 ∧ w.1 < x.length ∧ 1 < count fn.name x.length w.1 := by
  have h1 : fn.run x rate "phase" taus = table x.length rate taus false x.length
      (fun m => Spec.sign fn.name rate m * Spec.value fn.name (seq x) x.length rate m)
      ((stat fn.name (seq x) x.length rate).err) (count fn.name x.length) := by
    have e : fn.run = fn.name.run := by cases fn <;> rfl
    rw [e, run_phase]
    cases fn <;> simp [Spec.result, Stat.table, NanFn.name, stat] <;> rfl
  rw [h1] at h
  unfold table at h
  cases hf : factors x.length rate taus false x.length with
  | error e => rw [hf] at h; cases h
  | ok ms =>
    rw [hf] at h
    simp only [ok_bind, sweep] at h
    split_ifs at h with hk
    injection h with h
    injection h with h2
    have hr := factors_ok_rate hf
    have hinj : Function.Injective (fun m : ℕ => (m : ℝ) / rate) := by
      intro a b hab
      simp only at hab
      rw [div_left_inj' hr] at hab
      exact_mod_cast hab
    have h3 : ms.filter (fun m => decide (1 < count fn.name x.length m)) = rows.map (fun w => w.1) := by
      apply List.map_injective_iff.2 hinj
      rw [h2, List.map_map]
      rfl
    intro w hw
    have h4 : w.1 ∈ ms.filter (fun m => decide (1 < count fn.name x.length m)) := by
      rw [h3]; exact List.mem_map_of_mem hw
    rw [List.mem_filter, decide_eq_true_eq] at h4
    obtain ⟨a, b, _⟩ := factors_mem hf h4.1
    exact ⟨a, b, h4.2⟩

/-- the sample is used whenever the data are long enough -/
theorem reads_of_span (fn : NanFn) (N m i : ℕ) (h1 : fn ≠ .adev) (h2 : fn ≠ .hdev) (hi : i < N)
    (hm : fn.span * m ≤ N) : Reads fn N m i := by
  cases fn with
  | adev => exact absurd rfl h1
  | hdev => exact absurd rfl h2
  | mdev => exact hi
  | tdev => exact hi
  | mtie => exact hi
  | oadev =>
    simp only [NanFn.span] at hm
    rcases Nat.lt_or_ge i (N - 2 * m) with h | h
    · exact ⟨i, by omega, Or.inl rfl⟩
    rcases Nat.lt_or_ge i (N - m) with h' | h'
    · exact ⟨i - m, by omega, Or.inr (Or.inl (by omega))⟩
    · exact ⟨i - 2 * m, by omega, Or.inr (Or.inr (by omega))⟩
  | ohdev =>
    simp only [NanFn.span] at hm
    rcases Nat.lt_or_ge i (N - 3 * m) with h | h
    · exact ⟨i, by omega, Or.inl rfl⟩
    rcases Nat.lt_or_ge i (N - 2 * m) with h' | h'
    · exact ⟨i - m, by omega, Or.inr (Or.inl (by omega))⟩
    rcases Nat.lt_or_ge i (N - m) with h' | h'
    · exact ⟨i - 2 * m, by omega, Or.inr (Or.inr (Or.inl (by omega)))⟩
    · exact ⟨i - 3 * m, by omega, Or.inr (Or.inr (Or.inr (by omega)))⟩
  | tierms =>
    simp only [NanFn.span] at hm
    rcases Nat.lt_or_ge i (N - m) with h | h
    · exact ⟨i, by omega, Or.inl rfl⟩
    · exact ⟨i - m, by omega, Or.inr (by omega)⟩

/-- the last sample is used in every row that is returned -/
theorem reads_last (fn : NanFn) (N m : ℕ) (h1 : fn ≠ .adev) (h2 : fn ≠ .hdev)
    (hN : m < N) (hn : 1 < count fn.name N m) : Reads fn N m (N - 1) := by
  cases fn with
  | adev => exact absurd rfl h1
  | hdev => exact absurd rfl h2
  | mdev => show N - 1 < N; omega
  | tdev => show N - 1 < N; omega
  | mtie => show N - 1 < N; omega
  | oadev =>
    simp only [count, NanFn.name] at hn
    exact ⟨N - 1 - 2 * m, by omega, Or.inr (Or.inr (by omega))⟩
  | ohdev =>
    simp only [count, NanFn.name] at hn
    exact ⟨N - 1 - 3 * m, by omega, Or.inr (Or.inr (Or.inr (by omega)))⟩
  | tierms =>
    exact ⟨N - 1 - m, by omega, Or.inr (by omega)⟩

/-- C81: a single NaN anywhere in the phase data makes every returned deviation NaN, for `mdev`,
`tdev` and `mtie` at all averaging times, for `oadev`, `ohdev` and `tierms` at least where
`3 m ≤ N`, `4 m ≤ N` and `2 m ≤ N`. -/
theorem nan_spreads (fn : NanFn) (h1 : fn ≠ .adev) (h2 : fn ≠ .hdev) (d : List NV) (j : ℕ)
    (hj : d[j]? = some none) (rate : ℝ) (taus : TausArg) (o : NanOut)
    (ho : fn.runNv d rate "phase" taus = .ok o) (t : ℝ) (v : NV) (htv : (t, v) ∈ o.taus.zip o.devs) :
    ∃ m : ℕ, t = m / rate ∧ m < d.length ∧ (fn.span * m ≤ d.length → v = none) := by
  have hc := completes_fill d
  rcases nan_dev fn d _ hc rate taus with ⟨e, _, h⟩ | ⟨rows, hx, h⟩
  · rw [ho] at h; cases h
  · rw [ho] at h
    injection h with h
    subst h
    simp only [List.zip_map', List.mem_map, Prod.mk.injEq] at htv
    obtain ⟨w, hw, rfl, rfl⟩ := htv
    have hf := rows_facts fn _ rate taus rows _ _ _ hx w hw
    rw [List.length_map] at hf
    refine ⟨w.1, rfl, hf.2.1, fun hs => ?_⟩
    rw [if_neg]
    intro hcl
    have hjl : j < d.length := (List.getElem?_eq_some_iff.1 hj).1
    exact hcl j (reads_of_span fn _ _ j h1 h2 hjl hs) hj

/-- C81: `adev` and `hdev` at factor `m` use only samples at multiples of `m`: if those are
numbers, the returned value is the one without the NaN, whatever the other samples are. -/
theorem nan_off_grid (fn : NanFn) (h : fn = .adev ∨ fn = .hdev) (d : List NV) (x : List ℝ)
    (hx : Completes d x) (rate : ℝ) (taus : TausArg) (o : DevOut ℝ)
    (ho : fn.run x rate "phase" taus = .ok o) :
    ∃ o', fn.runNv d rate "phase" taus = .ok o' ∧ o'.taus = o.taus ∧ o'.ns = o.ns ∧
      List.Forall₂ (fun (p : ℝ × ℝ) v => ∃ m : ℕ, p.1 = m / rate ∧
        ((∀ k, d[k * m]? ≠ some none) → v = some p.2)) (o.taus.zip o.devs) o'.devs := by
  rcases nan_dev fn d x hx rate taus with ⟨e, h1, _⟩ | ⟨rows, h1, h2⟩
  · rw [ho] at h1; cases h1
  · rw [ho] at h1
    injection h1 with h1
    subst h1
    refine ⟨_, h2, rfl, rfl, ?_⟩
    simp only [List.zip_map']
    rw [List.forall₂_map_left_iff, List.forall₂_map_right_iff, List.forall₂_same]
    intro w _
    refine ⟨w.1, rfl, fun hk => if_pos ?_⟩
    intro i hi
    rcases h with rfl | rfl
    · obtain ⟨k, _, hi⟩ := hi
      rcases hi with rfl | rfl | rfl
      · exact hk k
      · have := hk (k + 1); rwa [show (k + 1) * w.1 = k * w.1 + w.1 by ring] at this
      · have := hk (k + 2); rwa [show (k + 2) * w.1 = k * w.1 + 2 * w.1 by ring] at this
    · obtain ⟨k, _, hi⟩ := hi
      rcases hi with rfl | rfl | rfl | rfl
      · exact hk k
      · have := hk (k + 1); rwa [show (k + 1) * w.1 = k * w.1 + w.1 by ring] at this
      · have := hk (k + 2); rwa [show (k + 2) * w.1 = k * w.1 + 2 * w.1 by ring] at this
      · have := hk (k + 3); rwa [show (k + 3) * w.1 = k * w.1 + 3 * w.1 by ring] at this

theorem runNv_freq (fn : NanFn) (y : List NV) (rate : ℝ) (taus : TausArg) :
    fn.runNv y rate "freq" taus =
      (do let x ← frequency2phase_nv y rate; fn.runNv x rate "phase" taus) := by
  have e : ("freq" = "phase") = False := by simp
  cases fn <;>
    simp only [NanFn.runNv, adev_nv, oadev_nv, mdev_nv, tdev_nv, hdev_nv, ohdev_nv, tierms_nv,
      mtie_nv, input_to_phase_nv, if_true, e, if_false, ok_bind]

/-- C81: frequency data with a NaN between two numbers: `oadev`, `ohdev`, `mdev`, `tdev`, `tierms`
and `mtie` return NaN for every averaging time. -/
theorem nan_freq (fn : NanFn) (h1 : fn ≠ .adev) (h2 : fn ≠ .hdev) (y : List NV) (i k j : ℕ)
    (a b : ℝ) (hik : i < k) (hkj : k < j) (hi : y[i]? = some (some a)) (hk : y[k]? = some none)
    (hj : y[j]? = some (some b)) (rate : ℝ) (taus : TausArg) (o : NanOut)
    (ho : fn.runNv y rate "freq" taus = .ok o) : ∀ v ∈ o.devs, v = none := by
  rw [runNv_freq] at ho
  cases hx : frequency2phase_nv y rate with
  | error e => rw [hx] at ho; cases ho
  | ok x =>
    rw [hx, ok_bind] at ho
    have hr : rate ≠ 0 := by
      intro h0; unfold frequency2phase_nv at hx; rw [if_pos h0] at hx; cases hx
    cases ht : trim_data y with
    | error e =>
      unfold frequency2phase_nv at hx; rw [if_neg hr, ht] at hx; cases hx
    | ok t =>
      obtain ⟨⟨p, q, hy⟩, ⟨v, hv⟩, ⟨w, hw⟩⟩ := (trim_data_iff y t).1 ht
      -- the gap lies inside the trimmed data
      have hyl : y.length = p + t.length + q := by rw [hy]; simp; omega
      have hpi : p ≤ i := by
        by_contra hlt
        rw [hy, List.getElem?_append_left (by simp; omega), List.getElem?_append_left (by simp; omega),
          List.getElem?_replicate, if_pos (by omega)] at hi
        cases hi
      have hjq : j < p + t.length := by
        by_contra hge
        have hjl : j < y.length := (List.getElem?_eq_some_iff.1 hj).1
        rw [hy, List.getElem?_append_right (by simp; omega), List.getElem?_replicate,
          if_pos (by simp; omega)] at hj
        cases hj
      have htk : t[k - p]? = some none := by
        rw [hy, List.getElem?_append_left (by simp; omega),
          List.getElem?_append_right (by simp; omega)] at hk
        simpa using hk
      have hxl : x.length = t.length + 1 := by
        rw [frequency2phase_nv_eq y t ht rate hr] at hx
        injection hx with hx
        rw [← hx, tab_length]
      have hlast : x[x.length - 1]? = some none :=
        frequency2phase_nv_gap y t x ht rate hr hx (k - p) htk (x.length - 1) (by omega) (by omega)
      rcases nan_dev fn x _ (completes_fill x) rate taus with ⟨e, _, h⟩ | ⟨rows, hrun, h⟩
      · rw [ho] at h; cases h
      · rw [ho] at h
        injection h with h
        subst h
        intro u hu
        simp only [List.mem_map] at hu
        obtain ⟨r, hr', rfl⟩ := hu
        have hf := rows_facts fn _ rate taus rows _ _ _ hrun r hr'
        rw [List.length_map] at hf
        rw [if_neg]
        intro hcl
        exact hcl _ (reads_last fn _ _ h1 h2 hf.2.1 hf.2.2) hlast

/-- 7 points with a NaN at index 3, factor 2: `adev` uses the points 0, 2, 4, 6 and is not affected -/
example : Completes [some 0, some 1, some 5, none, some 3, some 9, some 1] [0, 1, 5, 7, 3, 9, 1] ∧
    Clean .adev [some 0, some 1, some 5, none, some 3, some 9, some 1] 2 ∧
    ¬ Clean .oadev [some 0, some 1, some 5, none, some 3, some 9, some 1] 2 := by
  refine ⟨by simp [Completes], ?_, ?_⟩
  · rintro i ⟨k, hk, hi⟩
    simp at hk
    have : k < 2 := by omega
    interval_cases k <;> rcases hi with rfl | rfl | rfl <;> simp
  · intro h
    exact h 3 ⟨1, by simp, Or.inr (Or.inl rfl)⟩ rfl

/-- the hypotheses of `nan_freq` are met: the call returns a table -/
example (o : NanOut)
    (ho : mdev_nv [some 1, none, some 3, some 2, some 5] 1 "freq" (.list [(1 : ℕ) / 1]) = .ok o) :
    ∀ v ∈ o.devs, v = none :=
  nan_freq .mdev (by simp) (by simp) _ 0 1 2 1 3 (by omega) (by omega) rfl rfl rfl 1 _ o ho

/-- a row-by-row reading of `nan_dev` for a call that returns one row -/
theorem nan_single (fn : NanFn) (d : List NV) (x : List ℝ) (hx : Completes d x) (rate : ℝ)
    (taus : TausArg) (m : ℕ) (a b : ℝ) (n : ℤ)
    (h : fn.run x rate "phase" taus = .ok ⟨[(m : ℝ) / rate], [a], .arr [b], [n]⟩) (hr : rate ≠ 0) :
    fn.runNv d rate "phase" taus = .ok ⟨[(m : ℝ) / rate], [if Clean fn d m then some a else none],
      [if fn = .tierms ∨ Clean fn d m then some b else none], [n]⟩ := by
  rcases nan_dev fn d x hx rate taus with ⟨e, h1, _⟩ | ⟨rows, h1, h2⟩
  · rw [h] at h1; cases h1
  · rw [h] at h1
    injection h1 with h1
    injection h1 with ht hd he hn
    injection he with he
    match rows, ht with
    | [w], ht =>
      simp only [List.map_cons, List.map_nil, List.cons.injEq, and_true] at ht hd he hn h2
      have hm : m = w.1 := by
        rw [div_left_inj' hr] at ht
        exact_mod_cast ht
      rw [h2, hm, hd, he, hn]
      congr

/-- 9 points at 2 Hz with a NaN at index 3, `m = 2`: `adev` does not see it, `oadev` returns NaN -/
example : adev_nv [some 0, some 1, some 0, none, some 3, some (-9), some 1, some 7, some 4] 2
      "phase" (.list [(2 : ℕ) / 2])
    = .ok ⟨[(2 : ℕ) / 2], [some (√(59 / 6))], [some (√(59 / 6) / √3)], [3]⟩ := by
  have hx : Completes [some 0, some 1, some 0, none, some 3, some (-9), some 1, some 7, some 4]
      [0, 1, 0, 1, 3, -9, 1, 7, 4] := by simp [Completes]
  have hc : Clean .adev [some 0, some 1, some 0, none, some 3, some (-9), some 1, some 7, some 4] 2 := by
    rintro i ⟨k, hk, hi⟩
    simp at hk
    have : k < 3 := by omega
    interval_cases k <;> rcases hi with rfl | rfl | rfl <;> simp
  have h := nan_single .adev _ _ hx 2 (.list [(2 : ℕ) / 2]) 2 (√(59 / 6)) (√(59 / 6) / √3) 3 (by
    rw [NanFn.run, adev_phase_eq _ _ (by norm_num), table_single _ _ (by norm_num) _ _ _ _ _ 2
      (by norm_num) (by simp) (by norm_num) (by simp) (by norm_num [decimated])]
    simp [Spec.adev, rms, d2, seq, Finset.sum_range_succ, decimated]
    norm_num) (by norm_num)
  rw [if_pos hc, if_pos (Or.inr hc)] at h
  exact h

end AT
