import Verif.Spec.NanMore
import Verif.Props.Nan
import Verif.Lemmas.Theo1
import Verif.Lemmas.Totdev
import Verif.Lemmas.Mtot

/-!
# Rows of pdev, totdev, theo1, mtotdev and htotdev of data with NaN
-/

namespace AT

open Spec Finset Real Classical

/-- the data with NaN and their completion as tables -/
theorem nan_tabs {d : List NV} {x : List ℝ} (h : Completes d x) :
    ∃ g : ℕ → Prop, (∀ i, d[i]? ≠ some none ↔ g i) ∧
      d = tab x.length (fun i => nanUnless (g i) (seq x i)) := by
  refine ⟨fun i => d[i]? ≠ some none, fun _ => Iff.rfl, ?_⟩
  exact h.eq_tab

theorem RowRel.weaken {G H : Prop} {r' : Py (NV × NV × ℤ)} {r : Py (ℝ × ℝ × ℤ)}
    (h : RowRel G G r' r) (hGH : ∀ b, r = .ok b → 1 < b.2.2 → (G ↔ H)) : RowRel H H r' r := by
  obtain ⟨a, b, h1, h2, h3, h4⟩ := h
  refine ⟨a, b, h1, h2, h3, fun hb => ?_⟩
  have e := hGH b h2 hb
  rw [(h4 hb).1, (h4 hb).2]
  exact ⟨nanUnless_congr e (fun _ => rfl), nanUnless_congr e (fun _ => rfl)⟩

theorem nvScale_nan (c : ℝ) (G : Prop) (v : ℝ) : nvScale c (nanUnless G v) = nanUnless G (c * v) :=
  nanUnless_map G v _

theorem nan_zero : (some 0 : NV) = nanUnless True 0 := by simp [nanUnless]

theorem adev_one_row_nan {d : List NV} {x : List ℝ} (h : Completes d x) (rate : ℝ)
    (hN : 1 < x.length) :
    RowRel (∀ i < x.length, d[i]? ≠ some none) (∀ i < x.length, d[i]? ≠ some none)
      (calc_adev_phase_nv d rate 1 1) (calc_adev_phase x rate 1 1) := by
  refine (adev_row_nan h rate 1 1 one_pos hN one_pos _ Iff.rfl).weaken (fun b hb h1 => ?_)
  obtain ⟨row, hrow, hn, _⟩ := calc_adev_phase_row x rate 1 1 one_pos hN one_pos
  rw [hb] at hrow
  injection hrow with hrow
  subst hrow
  rw [hn] at h1
  have h3 : 4 ≤ x.length := by
    simp at h1
    omega
  simp only [mul_one]
  constructor
  · intro H i hi
    rcases Nat.lt_or_ge (i + 2) x.length with c | c
    · exact (H i c).2.2
    · have := (H (i - 2) (by omega)).1
      rwa [show 2 + (i - 2) = i by omega] at this
  · intro H i hi
    exact ⟨H _ (by omega), H _ (by omega), H _ (by omega)⟩

theorem hdev_one_row_nan {d : List NV} {x : List ℝ} (h : Completes d x) (rate : ℝ) (hr : rate ≠ 0) :
    RowRel (∀ i < x.length, d[i]? ≠ some none) (∀ i < x.length, d[i]? ≠ some none)
      (calc_hdev_phase_nv d rate 1 1) (calc_hdev_phase x rate 1 1) := by
  refine (hdev_row_nan h rate hr 1 1 one_pos _ Iff.rfl).weaken (fun b hb h1 => ?_)
  obtain ⟨row, hrow, hn, _⟩ := calc_hdev_phase_row x rate hr 1 1 one_pos
  rw [hb] at hrow
  injection hrow with hrow
  subst hrow
  rw [hn] at h1
  have h3 : 5 ≤ x.length := by
    simp at h1
    omega
  simp only [mul_one]
  constructor
  · intro H i hi
    rcases Nat.lt_or_ge (i + 3) x.length with c | c
    · exact (H i c).2.2.2
    rcases Nat.lt_or_ge i 3 with c' | c'
    · have := (H 0 (by omega)).2.1
      rwa [show 2 + 0 = i by omega] at this
    · have := (H (i - 3) (by omega)).1
      rwa [show 3 + (i - 3) = i by omega] at this
  · intro H i hi
    exact ⟨H _ (by omega), H _ (by omega), H _ (by omega), H _ (by omega)⟩

theorem pdev_row_nan {d : List NV} {x : List ℝ} (h : Completes d x) (rate : ℝ) (m : ℕ)
    (hm1 : m ≠ 1) (hm0 : 0 < m) :
    RowRel (∀ i, i + 1 < x.length → d[i]? ≠ some none) (∀ i, i + 1 < x.length → d[i]? ≠ some none)
      (calc_pdev_phase_nv d rate m) (calc_pdev_phase x rate m) := by
  obtain ⟨g, hg, hd⟩ := nan_tabs h
  simp only [hg]
  set N := x.length with hN
  have hp : x = tab N (seq x) := eq_tab_seq x
  obtain ⟨f, hf⟩ : ∃ f, seq x = f := ⟨_, rfl⟩
  rw [hf] at hd hp
  unfold calc_pdev_phase_nv calc_pdev_phase
  rw [if_neg hm1, if_neg hm1, hd, hp]
  simp only [tab_length]
  by_cases hM : (N : ℤ) - 2 * m < 1
  · rw [if_pos hM, if_pos hM]
    exact ⟨_, _, rfl, rfl, rfl, fun h => absurd h (by simp)⟩
  rw [if_neg hM, if_neg hM]
  have hM' : ((N : ℤ) - 2 * m).toNat = N - 2 * m := by omega
  rw [hM']
  set A : ℕ → ℝ := fun i => ∑ k ∈ range m, (((m : ℝ) - 1) / 2 - (k : ℝ)) * (f (i + k) - f (i + m + k))
    with hA
  rw [forRange_eq (fun i => ∑ j ∈ range i, A j ^ 2) (by simp),
    forRange_eq (fun i => nanUnless (∀ j < i, ∀ k < m, g (j + k) ∧ g (j + m + k))
      (∑ j ∈ range i, A j ^ 2)) (by simp [nanUnless])]
  · simp only [ok_bind, nanUnless_map]
    refine ⟨_, _, rfl, rfl, rfl, fun _ => ?_⟩
    have e : (∀ j < N - 2 * m, ∀ k < m, g (j + k) ∧ g (j + m + k)) ↔ ∀ i, i + 1 < N → g i := by
      constructor
      · intro H i hi
        rcases Nat.lt_or_ge i (N - 2 * m) with c | c
        · exact (H i c 0 hm0).1
        rcases Nat.lt_or_ge i (N - 2 * m - 1 + m) with c' | c'
        · have := (H (N - 2 * m - 1) (by omega) (i - (N - 2 * m - 1)) (by omega)).1
          rwa [show N - 2 * m - 1 + (i - (N - 2 * m - 1)) = i by omega] at this
        · have := (H (N - 2 * m - 1) (by omega) (i - (N - 2 * m - 1) - m) (by omega)).2
          rwa [show N - 2 * m - 1 + m + (i - (N - 2 * m - 1) - m) = i by omega] at this
      · intro H j hj k hk
        exact ⟨H _ (by omega), H _ (by omega)⟩
    exact ⟨nanUnless_congr e (fun _ => rfl), nanUnless_congr e (fun _ => rfl)⟩
  · intro i hi
    rw [slice_tab _ _ _ _ (by omega), slice_tab _ _ _ _ (by omega)]
    have e1 : i + m - i = m := by omega
    have e2 : i + 2 * m - (i + m) = m := by omega
    rw [e1, e2, linspace_index, map_tab]
    simp only [vop_tab, ok_bind, nanUnless_nv2, nvScale_nan, nvSum_tab, nanUnless_map]
    congr 1
    refine nanUnless_congr ?_ (fun _ => by rw [Finset.sum_range_succ])
    constructor
    · rintro ⟨H1, H2⟩ j hj
      rcases Nat.lt_succ_iff_lt_or_eq.1 hj with c | c
      · exact H1 j c
      · subst c; exact H2
    · intro H
      exact ⟨fun j hj => H j (by omega), H i (by omega)⟩
  · intro i hi
    rw [slice_tab _ _ _ _ (by omega), slice_tab _ _ _ _ (by omega)]
    have e1 : i + m - i = m := by omega
    have e2 : i + 2 * m - (i + m) = m := by omega
    rw [e1, e2, linspace_index, map_tab]
    simp only [vsub, vmul, vop_tab, ok_bind, npSum_tab]
    rw [Finset.sum_range_succ]

theorem theo1_row_nan {d : List NV} {x : List ℝ} (h : Completes d x) (tau0 : ℝ) (m : ℕ)
    (hm : Even m) (hm0 : 0 < m) (hmN : m < x.length) :
    RowRel (∀ i < x.length, d[i]? ≠ some none) (∀ i < x.length, d[i]? ≠ some none)
      (theo1_body_nv d tau0 m) (theo1_body x tau0 m) := by
  obtain ⟨g, hg, hd⟩ := nan_tabs h
  simp only [hg]
  set N := x.length with hN
  have hp : x = tab N (seq x) := eq_tab_seq x
  obtain ⟨f, hf⟩ : ∃ f, seq x = f := ⟨_, rfl⟩
  rw [hf] at hd hp
  have hmod : m % 2 = 0 := Nat.even_iff.1 hm
  unfold theo1_body_nv theo1_body
  rw [pyAssert_true hmod, hd, hp]
  simp only [ok_bind, tab_length]
  have e1 : ((N : ℤ) - m).toNat = N - m := by omega
  rw [e1]
  set T : ℕ → ℕ → ℝ := fun i d => (1 / ((m : ℝ) / 2 - d)) *
    (f i - f (i + m / 2 - d) + f (i + m) - f (i + m / 2 + d)) ^ 2 with hT
  set R : ℕ → ℕ → Prop := fun i d => ((g i ∧ g (i + m / 2 - d)) ∧ g (i + m)) ∧ g (i + m / 2 + d) with hR
  rw [forRange_eq (fun i => (∑ j ∈ range i, ∑ d ∈ range (m / 2), T j d, i * (m / 2))) (by simp),
    forRange_eq (fun i => (nanUnless (∀ j < i, ∀ d < m / 2, R j d)
      (∑ j ∈ range i, ∑ d ∈ range (m / 2), T j d), i * (m / 2))) (by simp [nanUnless])]
  · simp only [ok_bind]
    have hm2 : ((m / 2 : ℕ) : ℝ) = (m : ℝ) / 2 := by
      have : m = 2 * (m / 2) := by omega
      have h' : (m : ℝ) = 2 * ((m / 2 : ℕ) : ℝ) := by exact_mod_cast this
      rw [h']; ring
    rw [pyAssert_true (by rw [Nat.cast_mul, Nat.cast_sub hmN.le, hm2]; ring)]
    simp only [ok_bind, nanUnless_map]
    refine ⟨_, _, rfl, rfl, rfl, fun _ => ?_⟩
    have e : (∀ j < N - m, ∀ d < m / 2, R j d) ↔ ∀ i < N, g i := by
      constructor
      · intro H i hi
        rcases Nat.lt_or_ge i (N - m) with c | c
        · exact (H i c 0 (by omega)).1.1.1
        rcases Nat.lt_or_ge (N - m - 1 + m / 2) i with c' | c'
        · rcases Nat.lt_or_ge (i + 1) N with c2 | c2
          · have := (H (N - m - 1) (by omega) (i - (N - m - 1 + m / 2)) (by omega)).2
            rwa [show N - m - 1 + m / 2 + (i - (N - m - 1 + m / 2)) = i by omega] at this
          · have := (H (N - m - 1) (by omega) 0 (by omega)).1.2
            rwa [show N - m - 1 + m = i by omega] at this
        · have := (H (N - m - 1) (by omega) (N - m - 1 + m / 2 - i) (by omega)).1.1.2
          rwa [show N - m - 1 + m / 2 - (N - m - 1 + m / 2 - i) = i by omega] at this
      · intro H j hj k hk
        exact ⟨⟨⟨H _ (by omega), H _ (by omega)⟩, H _ (by omega)⟩, H _ (by omega)⟩
    exact ⟨nanUnless_congr e (fun _ => rfl), nanUnless_congr e (fun _ => rfl)⟩
  · intro i hi
    rw [forRange_eq (fun d => (nanUnless (∀ j < d, R i j) (∑ j ∈ range d, T i j), i * (m / 2) + d))
      (by simp [nanUnless])]
    · simp only [ok_bind, nanUnless_nv2]
      congr 2
      · refine nanUnless_congr ?_ (fun _ => by rw [Finset.sum_range_succ])
        constructor
        · rintro ⟨H1, H2⟩ j hj
          rcases Nat.lt_succ_iff_lt_or_eq.1 hj with c | c
          · exact H1 j c
          · subst c; exact H2
        · intro H
          exact ⟨fun j hj => H j (by omega), H i (by omega)⟩
      · ring
    · intro d hd
      rw [pyGet_tab_nat _ _ _ (by omega), pyGet_tab _ _ _ (by omega) (by omega),
        pyGet_tab _ _ _ (by omega) (by omega), pyGet_tab _ _ _ (by omega) (by omega)]
      have f1 : ((i : ℤ) - d + (m / 2 : ℕ)).toNat = i + m / 2 - d := by omega
      have f2 : ((i : ℤ) + m).toNat = i + m := by omega
      have f3 : ((i : ℤ) + d + (m / 2 : ℕ)).toNat = i + m / 2 + d := by omega
      rw [f1, f2, f3]
      simp only [ok_bind, nanUnless_nv2, nanUnless_map]
      congr 2
      refine nanUnless_congr ?_ (fun _ => by rw [Finset.sum_range_succ])
      constructor
      · rintro ⟨H1, H2⟩ j hj
        rcases Nat.lt_succ_iff_lt_or_eq.1 hj with c | c
        · exact H1 j c
        · subst c; exact H2
      · intro H
        exact ⟨fun j hj => H j (by omega), H d (by omega)⟩
  · intro i hi
    rw [forRange_eq (fun d => (∑ j ∈ range d, T i j, i * (m / 2) + d)) (by simp)]
    · simp only [ok_bind]
      congr 2
      · rw [Finset.sum_range_succ]
      · ring
    · intro d hd
      rw [pyGet_tab_nat _ _ _ (by omega), pyGet_tab _ _ _ (by omega) (by omega),
        pyGet_tab _ _ _ (by omega) (by omega), pyGet_tab _ _ _ (by omega) (by omega)]
      simp only [ok_bind]
      congr 2
      rw [Finset.sum_range_succ]
      congr 1
      simp only [hT]
      have f1 : ((i : ℤ) - d + (m / 2 : ℕ)).toNat = i + m / 2 - d := by omega
      have f2 : ((i : ℤ) + m).toNat = i + m := by omega
      have f3 : ((i : ℤ) + d + (m / 2 : ℕ)).toNat = i + m / 2 + d := by omega
      rw [f1, f2, f3]

theorem setSlice_nv_tab (n : ℕ) (g h : ℕ → NV) (a b : ℕ) (za zb : ℤ) (ha : za = a) (hb : zb = b)
    (hab : a ≤ b) (hbn : b ≤ n) :
    setSlice_nv (tab n g) za zb (tab (b - a) h) =
      .ok (tab n (fun i => if i < a then g i else if i < b then h (i - a) else g i)) := by
  unfold setSlice_nv
  simp only [tab_length]
  rw [normIdx_of_nat n za a ha (by omega), normIdx_of_nat n zb b hb hbn]
  have hm : max a b = b := by omega
  rw [hm, if_pos rfl, take_tab, drop_tab, append_tab, append_tab]
  congr 1
  have e : min a n = a := by omega
  rw [e]
  have e2 : a + (b - a) + (n - b) = n := by omega
  rw [e2]
  apply tab_congr
  intro i hi
  have e3 : a + (b - a) = b := by omega
  simp only [e3]
  by_cases h1 : i < a
  · simp [h1, show i < b by omega]
  · by_cases h2 : i < b
    · simp [h1, h2]
    · simp only [h1, h2, if_false]
      congr 1; omega

theorem scaledOnes_nv_nat (c : NV) (n : ℕ) (z : ℤ) (h : z = n) :
    scaledOnes_nv c z = .ok (tab n (fun _ => c)) := by
  subst h
  unfold scaledOnes_nv
  rw [if_neg (by omega), replicate_eq_tab]
  simp

/-- no sample behind entry `j` of the reflected data is NaN -/
def reflectOk (g : ℕ → Prop) (N : ℕ) (j : ℤ) : Prop :=
  if j < 0 then g 0 ∧ g (-j).toNat
  else if j < N then g j.toNat
  else g (N - 1) ∧ g (2 * (N - 1) - j).toNat

theorem totdev_extend_nv_eq (g : ℕ → Prop) (x : ℕ → ℝ) (N : ℕ) (hN : 2 ≤ N) :
    totdev_extend_nv (tab N (fun i => nanUnless (g i) (x i))) =
      .ok (tab (3 * N - 4) (fun k => nanUnless (reflectOk g N ((k : ℤ) - ((N : ℤ) - 2)))
        (reflect x N ((k : ℤ) - ((N : ℤ) - 2)))), N - 2) := by
  set y : ℕ → NV := fun i => nanUnless (g i) (x i) with hy
  have hmid : slice (tab N y) 1 (-1) = tab (N - 2) (fun i => y (1 + i)) := by
    unfold slice
    rw [tab_length]
    have e1 : normIdx N (-1) = N - 1 := by
      have := normIdx_neg N 1 (by norm_num); simpa using this
    have e2 : normIdx N 1 = 1 := by
      have := normIdx_nat N 1
      simp only [Nat.cast_one] at this
      rw [this]; omega
    rw [e1, e2, take_tab, drop_tab]
    congr 1
    omega
  unfold totdev_extend_nv
  simp only [hmid, tab_length]
  have g0 : pyGet (tab N y) 0 = .ok (y 0) := by
    have := pyGet_tab_nat N y 0 (by omega); simpa using this
  have gl : pyGet (tab N y) (-1) = .ok (y (N - 1)) := by
    unfold pyGet
    simp only [tab_length, if_pos (by norm_num : (-1 : ℤ) < 0)]
    rw [if_neg (by omega), tab_getElem?]
    have : ((-1 : ℤ) + (N : ℤ)).toNat = N - 1 := by omega
    rw [this, if_pos (by omega)]
  rw [g0, gl]
  simp only [ok_bind]
  rw [scaledOnes_nv_nat _ (N - 2) _ (by omega), scaledOnes_nv_nat _ (N - 2) _ (by omega)]
  simp only [ok_bind, vop_tab, reverse_tab, tab_length]
  rw [pyAssert_true (by omega)]
  simp only [ok_bind]
  rw [scaledOnes_nv_nat _ (3 * N - 4) _ (by omega)]
  simp only [ok_bind]
  have s1 := setSlice_nv_tab (3 * N - 4) (fun _ => some 0)
    (fun i => nv2 (· - ·) (nvScale 2 (y 0)) (y (1 + (N - 2 - 1 - i))))
    0 (N - 2) 0 ((N : ℤ) - 2) (by simp) (by omega) (by omega) (by omega)
  rw [Nat.sub_zero] at s1
  rw [s1]
  simp only [ok_bind]
  have s2 := fun g => setSlice_nv_tab (3 * N - 4) g y
    (N - 2) (2 * N - 2) ((N : ℤ) - 2) (2 * ((N : ℤ) - 2) + 2) (by omega) (by omega) (by omega) (by omega)
  have e2 : 2 * N - 2 - (N - 2) = N := by omega
  rw [e2] at s2
  rw [s2]
  simp only [ok_bind, tab_length]
  have s3 := fun g => setSlice_nv_tab (3 * N - 4) g
    (fun i => nv2 (· - ·) (nvScale 2 (y (N - 1))) (y (1 + (N - 2 - 1 - i))))
    (2 * N - 2) (3 * N - 4) (2 * ((N : ℤ) - 2) + 2) ((3 * N - 4 : ℕ) : ℤ) (by omega) rfl (by omega)
    (by omega)
  have e3 : 3 * N - 4 - (2 * N - 2) = N - 2 := by omega
  rw [e3] at s3
  rw [s3]
  simp only [ok_bind]
  congr 2
  apply tab_congr
  intro i hi
  unfold reflect reflectOk
  by_cases h1 : i < N - 2
  · rw [if_pos (by omega : (i : ℤ) - ((N : ℤ) - 2) < 0), if_pos (by omega : (i : ℤ) - ((N : ℤ) - 2) < 0)]
    simp only [if_pos (by omega : i < 2 * N - 2), if_pos h1, Nat.not_lt_zero, if_false, Nat.sub_zero,
      hy, nvScale_nan, nanUnless_nv2]
    rw [show 1 + (N - 2 - 1 - i) = (-((i : ℤ) - ((N : ℤ) - 2))).toNat by omega]
  · rw [if_neg (by omega : ¬ (i : ℤ) - ((N : ℤ) - 2) < 0), if_neg (by omega : ¬ (i : ℤ) - ((N : ℤ) - 2) < 0)]
    by_cases h2 : i < 2 * N - 2
    · rw [if_pos (by omega : (i : ℤ) - ((N : ℤ) - 2) < N), if_pos (by omega : (i : ℤ) - ((N : ℤ) - 2) < N)]
      simp only [if_pos h2, if_neg h1, hy]
      rw [show i - (N - 2) = ((i : ℤ) - ((N : ℤ) - 2)).toNat by omega]
    · rw [if_neg (by omega : ¬ (i : ℤ) - ((N : ℤ) - 2) < N), if_neg (by omega : ¬ (i : ℤ) - ((N : ℤ) - 2) < N)]
      simp only [if_neg h2, if_pos (by omega : i < 3 * N - 4), hy, nvScale_nan, nanUnless_nv2]
      rw [show 1 + (N - 2 - 1 - (i - (2 * N - 2))) =
        (2 * ((N : ℤ) - 1) - ((i : ℤ) - ((N : ℤ) - 2))).toNat by omega]

theorem totdev_row_nan (g : ℕ → Prop) (x : ℕ → ℝ) (N : ℕ) (rate : ℝ) (m : ℕ) (hm0 : 0 < m)
    (hmN : m < N) :
    RowRel (∀ i < N, g i) (∀ i < N, g i)
      (totdev_body_nv (tab (3 * N - 4) (fun k => nanUnless (reflectOk g N ((k : ℤ) - ((N : ℤ) - 2)))
        (reflect x N ((k : ℤ) - ((N : ℤ) - 2))))) (N - 2) N rate m)
      (totdev_body (extTab x N) (N - 2) N rate m) := by
  unfold totdev_body totdev_body_nv extTab
  have sf : ∀ {α : Type} (z : ℤ) (k : ℕ), z = k → ∀ g : ℕ → α, sliceFrom (tab (3 * N - 4) g) z
      = tab (3 * N - 4 - k) (fun i => g (k + i)) := by
    intro α z k h g
    subst h
    rw [sliceFrom_nat, drop_tab]
  rw [sf _ (N - 2 + 1) (by omega), sf _ (N - 2 + m + 1) (by omega), sf _ (N - 2 + 1 - m) (by omega),
    sf _ (N - 2 + 1) (by omega), sf _ (N - 2 + m + 1) (by omega), sf _ (N - 2 + 1 - m) (by omega)]
  simp only [tab_length, sliceTo_nat, take_tab]
  generalize he : min (min (3 * N - 4 - (N - 2 + 1)) (3 * N - 4 - (N - 2 + m + 1)))
    (3 * N - 4 - (N - 2 + 1 - m)) = e
  have a0 : min e (3 * N - 4 - (N - 2 + 1)) = e := by omega
  have a1 : min e (3 * N - 4 - (N - 2 + m + 1)) = e := by omega
  have a2 : min e (3 * N - 4 - (N - 2 + 1 - m)) = e := by omega
  have a3 : min (N - 2) e = N - 2 := by omega
  simp only [a0, a1, a2, a3, vscale_tab, vsub, vadd, vop_tab, ok_bind, take_tab, vmul, npSum_tab,
    map_tab, nvScale_nan, nanUnless_nv2, nvSum_tab, nanUnless_map]
  refine ⟨_, _, rfl, rfl, rfl, fun hn => ?_⟩
  simp only at hn
  have e0 : ∀ i : ℕ, ((N - 2 + 1 - m + i : ℕ) : ℤ) - ((N : ℤ) - 2) = (i : ℤ) + 1 - m := by omega
  have e1 : ∀ i : ℕ, ((N - 2 + 1 + i : ℕ) : ℤ) - ((N : ℤ) - 2) = (i : ℤ) + 1 := by omega
  have e2 : ∀ i : ℕ, ((N - 2 + m + 1 + i : ℕ) : ℤ) - ((N : ℤ) - 2) = (i : ℤ) + 1 + m := by omega
  simp only [e0, e1, e2, and_self]
  have key : (∀ i < N - 2, (reflectOk g N ((i : ℤ) + 1 - m) ∧ reflectOk g N ((i : ℤ) + 1)) ∧
      reflectOk g N ((i : ℤ) + 1 + m)) ↔ ∀ i < N, g i := by
    constructor
    · intro H i hi
      have hc : ∀ j, j < N - 2 → g (j + 1) := by
        intro j hj
        have := (H j hj).1.2
        unfold reflectOk at this
        rw [if_neg (by omega), if_pos (by omega)] at this
        rwa [show ((j : ℤ) + 1).toNat = j + 1 by omega] at this
      rcases Nat.eq_zero_or_pos i with c | c
      · subst c
        have := (H 0 (by omega)).1.1
        unfold reflectOk at this
        rcases Nat.lt_or_ge 1 m with c' | c'
        · rw [if_pos (by omega)] at this
          exact this.1
        · rw [if_neg (by omega), if_pos (by omega)] at this
          rwa [show (((0 : ℕ) : ℤ) + 1 - m).toNat = 0 by omega] at this
      rcases Nat.lt_or_ge (i + 1) N with c' | c'
      · have := hc (i - 1) (by omega)
        rwa [show i - 1 + 1 = i by omega] at this
      · have := (H (N - 3) (by omega)).2
        unfold reflectOk at this
        rw [if_neg (by omega)] at this
        rcases Nat.lt_or_ge 1 m with c2 | c2
        · rw [if_neg (by omega)] at this
          rw [show i = N - 1 by omega]
          exact this.1
        · rw [if_pos (by omega)] at this
          rwa [show (((N - 3 : ℕ) : ℤ) + 1 + m).toNat = i by omega] at this
    · intro H i hi
      have hok : ∀ z : ℤ, -(N : ℤ) + 2 ≤ z → z ≤ 2 * (N : ℤ) - 3 → reflectOk g N z := by
        intro z h1 h2
        unfold reflectOk
        split_ifs
        · exact ⟨H _ (by omega), H _ (by omega)⟩
        · exact H _ (by omega)
        · exact ⟨H _ (by omega), H _ (by omega)⟩
      exact ⟨⟨hok _ (by omega) (by omega), hok _ (by omega) (by omega)⟩, hok _ (by omega) (by omega)⟩
  exact ⟨nanUnless_congr key (fun _ => rfl), nanUnless_congr key (fun _ => rfl)⟩

theorem nvSum_some (l : List ℝ) : nvSum (l.map some) = some (npSum l) := by
  induction l with
  | nil => rfl
  | cons a l ih =>
    rw [List.map_cons, nvSum, ih]
    rfl

theorem nvSum_none (l : List NV) (h : none ∈ l) : nvSum l = none := by
  induction l with
  | nil => simp at h
  | cons a l ih =>
    rw [nvSum]
    rcases List.mem_cons.1 h with c | c
    · rw [← c]; rfl
    · rw [ih c]; cases a <;> rfl

theorem nvMean_some (l : List ℝ) : nvMean (l.map some) = some (npMean l) := by
  unfold nvMean npMean
  rw [nvSum_some, List.length_map]
  rfl

theorem slice_map {α β : Type} (f : α → β) (l : List α) (a b : ℤ) :
    slice (l.map f) a b = (slice l a b).map f := by
  unfold slice
  simp only [List.length_map, List.map_drop, List.map_take]

theorem tot_slope_nv_some (l : List ℝ) (m : ℕ) (dt : ℝ) :
    tot_slope_nv (l.map some) m dt = some (tot_slope l m dt) := by
  unfold tot_slope_nv tot_slope
  simp only [sliceTo_nat, sliceFrom_nat, ← List.map_take, ← List.map_drop, nvMean_some]
  split_ifs <;> rfl

theorem pyGet_map {α β : Type} (f : α → β) (l : List α) (i : ℤ) :
    pyGet (l.map f) i = (pyGet l i).map f := by
  unfold pyGet
  simp only [List.length_map, List.getElem?_map]
  split_ifs <;> first | rfl | (cases l[i.toNat]? <;> rfl) | (cases l[(i + l.length).toNat]? <;> rfl)

theorem forRange_map {σ τ : Type} (n : ℕ) (init : σ) (ψ : σ → τ) (f : σ → ℕ → Py σ)
    (f' : τ → ℕ → Py τ) (H : ∀ st j, f' (ψ st) j = (f st j).map ψ) :
    forRange n (ψ init) f' = (forRange n init f).map ψ := by
  unfold forRange
  induction n with
  | zero => rfl
  | succ n ih =>
    rw [List.range_succ, List.foldlM_append, List.foldlM_append, ih]
    cases List.foldlM f init (List.range n) with
    | error e => rfl
    | ok s =>
      change List.foldlM f' (ψ s) [n] = (List.foldlM f s [n]).map ψ
      simp only [List.foldlM_cons, List.foldlM_nil, H]
      cases f s n <;> rfl

/-- the state of the inner loop without NaN -/
def someState (s : ℝ × ℝ × ℝ × ℝ) : NV × NV × NV × NV :=
  (some s.1, some s.2.1, some s.2.2.1, some s.2.2.2)

theorem tot_inner_nv_some (l : List ℝ) (m : ℕ) :
    tot_inner_nv (l.map some) m = (tot_inner l m).map some := by
  unfold tot_inner_nv tot_inner
  rw [show ((some 0, some 0, some 0, some 0) : NV × NV × NV × NV) = someState (0, 0, 0, 0) from rfl]
  rw [forRange_map (6 * m) (0, 0, 0, 0) someState (fun st j => do
    let (xmean1, xmean2, xmean3) ←
      if j = 0 then
        (.ok (npSum (slice l (0 : ℕ) (m : ℕ)), npSum (slice l (m : ℕ) (2 * m : ℕ)),
          npSum (slice l (2 * m : ℕ) (3 * m : ℕ))) : Py (ℝ × ℝ × ℝ))
      else do
        let a1 ← pyGet l ((j : ℤ) - 1)
        let b1 ← pyGet l ((j : ℤ) + m - 1)
        let a2 ← pyGet l ((m : ℤ) + j - 1)
        let b2 ← pyGet l ((j : ℤ) + 2 * m - 1)
        let a3 ← pyGet l (2 * (m : ℤ) + j - 1)
        let b3 ← pyGet l ((j : ℤ) + 3 * m - 1)
        .ok (st.1 - a1 + b1, st.2.1 - a2 + b2, st.2.2.1 - a3 + b3)
    .ok (xmean1, xmean2, xmean3, st.2.2.2 + ((xmean1 - 2 * xmean2 + xmean3) / m) ^ 2))]
  · cases forRange (6 * m) _ _ <;> rfl
  · intro st j
    by_cases hj : j = 0
    · simp only [if_pos hj, ok_bind, slice_map, nvSum_some]
      rfl
    · simp only [if_neg hj, pyGet_map]
      cases pyGet l ((j : ℤ) - 1) <;> [rfl; skip]
      cases pyGet l ((j : ℤ) + m - 1) <;> [rfl; skip]
      cases pyGet l ((m : ℤ) + j - 1) <;> [rfl; skip]
      cases pyGet l ((j : ℤ) + 2 * m - 1) <;> [rfl; skip]
      cases pyGet l (2 * (m : ℤ) + j - 1) <;> [rfl; skip]
      cases pyGet l ((j : ℤ) + 3 * m - 1) <;> rfl

theorem nv2_none_left (f : ℝ → ℝ → ℝ) (b : NV) : nv2 f none b = none := by cases b <;> rfl
theorem nv2_none_right (f : ℝ → ℝ → ℝ) (a : NV) : nv2 f a none = none := by cases a <;> rfl

theorem tot_inner_nv_none (l : ℕ → NV) (m : ℕ) (hm : 0 < m) (i : ℕ) (hi : i < 3 * m)
    (hl : l i = none) : tot_inner_nv (tab (9 * m) l) m = .ok none := by
  unfold tot_inner_nv
  obtain ⟨st, hst, hinv⟩ := forRange_inv (6 * m) ((some 0, some 0, some 0, some 0) : NV × NV × NV × NV)
    (fun st j => do
    let (xmean1, xmean2, xmean3) ←
      if j = 0 then
        (.ok (nvSum (slice (tab (9 * m) l) (0 : ℕ) (m : ℕ)), nvSum (slice (tab (9 * m) l) (m : ℕ) (2 * m : ℕ)),
          nvSum (slice (tab (9 * m) l) (2 * m : ℕ) (3 * m : ℕ))) : Py (NV × NV × NV))
      else do
        let a1 ← pyGet (tab (9 * m) l) ((j : ℤ) - 1)
        let b1 ← pyGet (tab (9 * m) l) ((j : ℤ) + m - 1)
        let a2 ← pyGet (tab (9 * m) l) ((m : ℤ) + j - 1)
        let b2 ← pyGet (tab (9 * m) l) ((j : ℤ) + 2 * m - 1)
        let a3 ← pyGet (tab (9 * m) l) (2 * (m : ℤ) + j - 1)
        let b3 ← pyGet (tab (9 * m) l) ((j : ℤ) + 3 * m - 1)
        .ok (nv2 (· + ·) (nv2 (· - ·) st.1 a1) b1, nv2 (· + ·) (nv2 (· - ·) st.2.1 a2) b2,
          nv2 (· + ·) (nv2 (· - ·) st.2.2.1 a3) b3)
    let t := nv2 (· + ·) (nv2 (· - ·) xmean1 (nvScale 2 xmean2)) xmean3
    .ok (xmean1, xmean2, xmean3, nv2 (· + ·) st.2.2.2 (t.map (fun t => (t / m) ^ 2))))
    (fun k st => 0 < k → st.2.2.2 = none) (by simp) (by
      intro j hj st hst
      by_cases h0 : j = 0
      · subst h0
        simp only [if_true, ok_bind]
        refine ⟨_, rfl, fun _ => ?_⟩
        rw [slice_tab _ _ _ _ (by omega), slice_tab _ _ _ _ (by omega), slice_tab _ _ _ _ (by omega)]
        have mem : ∀ a b : ℕ, a ≤ i → i < b → none ∈ tab (b - a) (fun k => l (a + k)) := by
          intro a b ha hb
          rw [List.mem_iff_getElem?]
          refine ⟨i - a, ?_⟩
          rw [tab_getElem?, if_pos (by omega), show a + (i - a) = i by omega, hl]
        rcases Nat.lt_or_ge i m with c | c
        · rw [nvSum_none _ (mem 0 m (by omega) c)]
          simp only [nv2_none_left, nv2_none_right, Option.map_none]
        rcases Nat.lt_or_ge i (2 * m) with c' | c'
        · rw [nvSum_none _ (mem m (2 * m) c c')]
          simp only [nvScale, nv2_none_left, nv2_none_right, Option.map_none]
        · rw [nvSum_none _ (mem (2 * m) (3 * m) c' hi)]
          simp only [nv2_none_right, Option.map_none]
      · simp only [if_neg h0]
        have hg : ∀ (z : ℤ) (k : ℕ), z = k → k < 9 * m → pyGet (tab (9 * m) l) z = .ok (l k) := by
          intro z k hz hk
          subst hz
          exact pyGet_tab_nat _ _ _ hk
        rw [hg _ (j - 1) (by omega) (by omega), hg _ (j - 1 + m) (by omega) (by omega),
          hg _ (j - 1 + m) (by omega) (by omega), hg _ (j - 1 + 2 * m) (by omega) (by omega),
          hg _ (j - 1 + 2 * m) (by omega) (by omega), hg _ (j - 1 + 3 * m) (by omega) (by omega)]
        simp only [ok_bind]
        refine ⟨_, rfl, fun _ => ?_⟩
        simp only [hst (by omega), nv2_none_left])
  rw [hst]
  simp only [ok_bind, hinv (by omega)]

theorem zipIdx_map_tab_gen {α β : Type} (n : ℕ) (s : ℕ → α) (F : α → ℕ → β) :
    (tab n s).zipIdx.map (fun p => F p.1 p.2) = tab n (fun k => F (s k) k) := by
  apply tab_ext
  · simp
  · intro i hi
    rw [List.getElem?_map, List.getElem?_zipIdx, tab_getElem?, if_pos hi]
    simp

/-- one subsequence: detrending, extension and inner loop -/
theorem tot_window_nan (g : ℕ → Prop) (s : ℕ → ℝ) (m : ℕ) (hm : 0 < m) (dt : ℝ) (F : ℝ → ℕ → ℝ) :
    ∃ w : ℝ,
      tot_inner (tab (9 * m) (mirror (fun k => s k - F (tot_slope (tab (3 * m) s) m dt) k) (3 * m))) m
        = .ok w ∧
      ∀ (x0 : List NV), x0 = tab (3 * m) (fun k => nv2 (· - ·) (nanUnless (g k) (s k))
          ((tot_slope_nv (tab (3 * m) (fun k => nanUnless (g k) (s k))) m dt).map (fun a => F a k))) →
        tot_inner_nv (x0.reverse ++ x0 ++ x0.reverse) m = .ok (nanUnless (∀ k < 3 * m, g k) w) := by
  set dd : ℕ → ℝ := fun k => s k - F (tot_slope (tab (3 * m) s) m dt) k with hdd
  refine ⟨_, tot_inner_eq _ _ hm, fun x0 hx0 => ?_⟩
  have e9 : 3 * (3 * m) = 9 * m := by ring
  by_cases hc : ∀ k < 3 * m, g k
  · have hs : tab (3 * m) (fun k => nanUnless (g k) (s k)) = (tab (3 * m) s).map some := by
      rw [map_tab]
      apply tab_congr
      intro k hk
      rw [nanUnless, if_pos (hc k hk)]
    have hx : x0 = (tab (3 * m) dd).map some := by
      rw [hx0, map_tab]
      apply tab_congr
      intro k hk
      rw [hs, tot_slope_nv_some, nanUnless, if_pos (hc k hk)]
      rfl
    rw [hx, ← List.map_reverse, ← List.map_append, ← List.map_append, mirror_tab, e9,
      tot_inner_nv_some, tot_inner_eq _ _ hm, nanUnless, if_pos hc]
    rfl
  · rw [nanUnless, if_neg hc]
    push Not at hc
    obtain ⟨k, hk, hgk⟩ := hc
    obtain ⟨l, hl, hlk⟩ : ∃ l : ℕ → NV, x0 = tab (3 * m) l ∧ l k = none := by
      refine ⟨_, hx0, ?_⟩
      simp only [nanUnless, if_neg hgk, nv2_none_left]
    rw [hl, reverse_tab, append_tab, append_tab,
      show 3 * m + 3 * m + 3 * m = 9 * m by ring]
    refine tot_inner_nv_none _ m hm (3 * m - 1 - k) (by omega) ?_
    simp only [if_pos (by omega : 3 * m - 1 - k < 3 * m + 3 * m), if_pos (by omega : 3 * m - 1 - k < 3 * m)]
    rw [show 3 * m - 1 - (3 * m - 1 - k) = k by omega, hlk]

/-- the loop over the subsequences -/
theorem tot_loop_nan (g : ℕ → Prop) (f : ℕ → ℝ) (N m : ℕ) (hm : 0 < m) (h3 : 3 * m ≤ N) (dt c : ℝ)
    (F : ℝ → ℕ → ℝ) : ∃ S : ℝ,
    forRange (N - 3 * m + 1) ((0, 0) : ℝ × ℕ) (fun st i => do
      let xs := slice (tab N f) (i : ℕ) (i + 3 * m : ℕ)
      pyAssert (xs.length = 3 * m)
      let slope := tot_slope xs m dt
      let x0 := xs.zipIdx.map (fun p => p.1 - F slope p.2)
      let x0_flip := x0.reverse
      let xstar := x0_flip ++ x0 ++ x0_flip
      pyAssert (xstar.length = 9 * m)
      let squaresum ← tot_inner xstar m
      let squaresum := c * squaresum
      .ok (st.1 + squaresum, st.2 + 1)) = .ok (S, N - 3 * m + 1) ∧
    forRange (N - 3 * m + 1) ((some 0, 0) : NV × ℕ) (fun st i => do
      let xs := slice (tab N (fun i => nanUnless (g i) (f i))) (i : ℕ) (i + 3 * m : ℕ)
      pyAssert (xs.length = 3 * m)
      let slope := tot_slope_nv xs m dt
      let x0 := xs.zipIdx.map (fun p => nv2 (· - ·) p.1 (slope.map (fun s => F s p.2)))
      let x0_flip := x0.reverse
      let xstar := x0_flip ++ x0 ++ x0_flip
      pyAssert (xstar.length = 9 * m)
      let squaresum ← tot_inner_nv xstar m
      let squaresum := nvScale c squaresum
      .ok (nv2 (· + ·) st.1 squaresum, st.2 + 1)) =
        .ok (nanUnless (∀ i < N, g i) S, N - 3 * m + 1) := by
  choose w hw hw' using fun i => tot_window_nan (fun k => g (i + k)) (fun k => f (i + k)) m hm dt F
  have e9 : 3 * (3 * m) = 9 * m := by ring
  refine ⟨∑ j ∈ range (N - 3 * m + 1), c * w j, ?_, ?_⟩
  · rw [forRange_eq (fun i => (∑ j ∈ range i, c * w j, i)) (by simp)]
    intro i hi
    simp only
    rw [slice_tab _ _ _ _ (by omega), show i + 3 * m - i = 3 * m by omega, pyAssert_true (by simp)]
    simp only [ok_bind]
    rw [zipIdx_map_tab_gen (3 * m) (fun k => f (i + k))
      (fun a k => a - F (tot_slope (tab (3 * m) (fun k => f (i + k))) m dt) k), mirror_tab,
      pyAssert_true (by simp; ring), e9, hw i]
    simp only [ok_bind]
    rw [Finset.sum_range_succ]
  · have key : (∀ j < N - 3 * m + 1, ∀ k < 3 * m, g (j + k)) ↔ ∀ i < N, g i := by
      constructor
      · intro H i hi
        rcases Nat.lt_or_ge i (N - 3 * m + 1) with c | c
        · exact H i c 0 (by omega)
        · have := H (N - 3 * m) (by omega) (i - (N - 3 * m)) (by omega)
          rwa [show N - 3 * m + (i - (N - 3 * m)) = i by omega] at this
      · intro H j hj k hk
        exact H _ (by omega)
    rw [← nanUnless_congr key (fun _ => rfl)]
    rw [forRange_eq (fun i => (nanUnless (∀ j < i, ∀ k < 3 * m, g (j + k)) (∑ j ∈ range i, c * w j), i))
      (by simp [nanUnless])]
    intro i hi
    simp only
    rw [slice_tab _ _ _ _ (by omega), show i + 3 * m - i = 3 * m by omega, pyAssert_true (by simp)]
    simp only [ok_bind]
    rw [zipIdx_map_tab_gen (3 * m) (fun k => nanUnless (g (i + k)) (f (i + k)))
      (fun a k => nv2 (· - ·) a ((tot_slope_nv (tab (3 * m)
        (fun k => nanUnless (g (i + k)) (f (i + k)))) m dt).map (fun s => F s k))),
      pyAssert_true (by simp; ring), hw' i _ rfl]
    simp only [ok_bind, nvScale_nan, nanUnless_nv2]
    congr 2
    refine nanUnless_congr ?_ (fun _ => by rw [Finset.sum_range_succ])
    constructor
    · rintro ⟨H1, H2⟩ j hj
      rcases Nat.lt_succ_iff_lt_or_eq.1 hj with c | c
      · exact H1 j c
      · subst c; exact H2
    · intro H
      exact ⟨fun j hj => H j (by omega), H i (by omega)⟩

theorem mtotdev_row_nan {d : List NV} {x : List ℝ} (h : Completes d x) (rate : ℝ) (m : ℕ)
    (hm0 : 0 < m) (h3 : 3 * m ≤ x.length) :
    RowRel (∀ i < x.length, d[i]? ≠ some none) (∀ i < x.length, d[i]? ≠ some none)
      (calc_mtotdev_phase_nv d rate m) (calc_mtotdev_phase x rate m) := by
  obtain ⟨g, hg, hd⟩ := nan_tabs h
  simp only [hg]
  set N := x.length with hN
  have hp : x = tab N (seq x) := eq_tab_seq x
  obtain ⟨f, hf⟩ : ∃ f, seq x = f := ⟨_, rfl⟩
  rw [hf] at hd hp
  obtain ⟨S, h1, h2⟩ := tot_loop_nan g f N m hm0 h3 (1 / rate) (1 / (6 * (m : ℝ)))
    (fun s k => s * k * (1 / rate))
  unfold calc_mtotdev_phase calc_mtotdev_phase_nv
  rw [hd, hp]
  simp only [tab_length]
  have hK : ((N : ℤ) - 3 * m + 1).toNat = N - 3 * m + 1 := by omega
  rw [hK, h1, h2]
  simp only [ok_bind]
  rw [pyAssert_true (by omega)]
  simp only [ok_bind, nanUnless_map]
  exact ⟨_, _, rfl, rfl, rfl, fun _ => ⟨rfl, rfl⟩⟩

theorem htotdev_row_nan {d : List NV} {x : List ℝ} (h : Completes d x) (m : ℕ)
    (hm0 : 0 < m) (h3 : 3 * m ≤ x.length) :
    RowRel (∀ i < x.length, d[i]? ≠ some none) (∀ i < x.length, d[i]? ≠ some none)
      (calc_htotdev_freq_nv d m) (calc_htotdev_freq x m) := by
  obtain ⟨g, hg, hd⟩ := nan_tabs h
  simp only [hg]
  set N := x.length with hN
  have hp : x = tab N (seq x) := eq_tab_seq x
  obtain ⟨f, hf⟩ : ∃ f, seq x = f := ⟨_, rfl⟩
  rw [hf] at hd hp
  obtain ⟨S, h1, h2⟩ := tot_loop_nan g f N m hm0 h3 1 (1 / (6 * ((6 * m : ℕ) : ℝ)))
    (fun s k => s * ((k : ℝ) - ⌊(3 * m / 2 : ℝ)⌋))
  unfold calc_htotdev_freq calc_htotdev_freq_nv
  rw [hd, hp]
  simp only [tab_length]
  have hK : ((N : ℤ) - 3 * m + 1).toNat = N - 3 * m + 1 := by omega
  rw [hK, h1, h2]
  simp only [ok_bind]
  rw [pyAssert_true (by omega)]
  simp only [ok_bind, nanUnless_map]
  exact ⟨_, _, rfl, rfl, rfl, fun _ => ⟨rfl, rfl⟩⟩

/-- `driver_nan` for the other arguments of `tau_generator` -/
theorem driver_nan_gen (d : List NV) (x : List ℝ) (hl : d.length = x.length) (rate : ℝ)
    (taus : TausArg) (even : Bool) (mx : ℝ)
    (body' : List NV → List ℝ → ℕ → ℕ → Py (NV × NV × ℤ))
    (body : List ℝ → List ℝ → ℕ → ℕ → Py (ℝ × ℝ × ℤ))
    (G Ge : ℕ → Prop)
    (H : rate ≠ 0 → ∀ (ts : List ℝ) i m, 0 < m → m < x.length → (m : ℝ) ≤ effMax x.length mx →
      (even = true → Even m) → RowRel (G m) (Ge m) (body' d ts i m) (body x ts i m)) :
    SameUpToNan rate G Ge
      (do let r ← tau_generator x rate taus even mx
          runTaus r.2.2 r.2.1 (fun i m => body r.1 r.2.2 i m))
      (do let r ← tau_generator d rate taus even mx
          runTausNv r.2.2 r.2.1 (fun i m => body' r.1 r.2.2 i m)) := by
  rw [tau_generator_eq, tau_generator_eq, hl]
  cases hf : factors x.length rate taus even (effMax x.length mx) with
  | error e => exact Or.inl ⟨e, rfl, rfl⟩
  | ok ms =>
    simp only [ok_bind]
    rcases runTausNv_rel ms (fun m : ℕ => (m : ℝ) / rate)
      (body' d (ms.map (fun m : ℕ => (m : ℝ) / rate))) (body x (ms.map (fun m : ℕ => (m : ℝ) / rate))) G Ge
      (fun i m hi => by
        obtain ⟨a, b, c, e, _⟩ := factors_mem hf (List.mem_of_getElem? hi)
        exact H (factors_ok_rate hf) _ i m a b c e) with h1 | h1
    · exact Or.inl ⟨_, h1⟩
    · exact Or.inr h1

end AT
