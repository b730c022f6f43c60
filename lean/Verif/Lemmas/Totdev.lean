import Verif.Lemmas.Adev

/-! # Lemmas for TOTDEV -/

namespace AT

open Spec Finset Real

/-- the doubly reflected series as a list: index `k` is time `k - (N-2)` -/
noncomputable def extTab (x : ℕ → ℝ) (N : ℕ) : List ℝ :=
  tab (3 * N - 4) (fun k => reflect x N ((k : ℤ) - ((N : ℤ) - 2)))

theorem replicate_eq_tab {α : Type} (n : ℕ) (c : α) : List.replicate n c = tab n (fun _ => c) := by
  apply tab_ext
  · simp
  · intro i hi; simp [hi]

theorem scaledOnes_nat (c : ℝ) (n : ℕ) (z : ℤ) (h : z = n) :
    scaledOnes c z = .ok (tab n (fun _ => c)) := by
  subst h
  unfold scaledOnes
  rw [if_neg (by omega), replicate_eq_tab]
  simp

theorem normIdx_of_nat (len : ℕ) (z : ℤ) (k : ℕ) (h : z = k) (hk : k ≤ len) : normIdx len z = k := by
  subst h; rw [normIdx_nat]; omega

theorem setSlice_tab (n : ℕ) (g h : ℕ → ℝ) (a b : ℕ) (za zb : ℤ) (ha : za = a) (hb : zb = b)
    (hab : a ≤ b) (hbn : b ≤ n) :
    setSlice (tab n g) za zb (tab (b - a) h) =
      .ok (tab n (fun i => if i < a then g i else if i < b then h (i - a) else g i)) := by
  unfold setSlice
  simp only [tab_length]
  rw [normIdx_of_nat n za a ha (by omega), normIdx_of_nat n zb b hb hbn]
  have hm : max a b = b := by omega
  rw [hm, if_pos rfl, take_tab, drop_tab, append_tab, append_tab]
  congr 1
  have e : min a n = a := by omega
  rw [e]
  have e2 : a + (b - a) + (n - b) = n := by omega
  rw [e2]
  apply tab_congr
  intro i hi
  have e3 : a + (b - a) = b := by omega
  simp only [e3]
  by_cases h1 : i < a
  · simp [h1, show i < b by omega]
  · by_cases h2 : i < b
    · simp [h1, h2]
    · simp only [h1, h2, if_false]
      congr 1; omega

theorem totdev_extend_eq (phase : List ℝ) (hN : 2 ≤ phase.length) :
    totdev_extend phase = .ok (extTab (seq phase) phase.length, phase.length - 2) := by
  set N := phase.length with hNdef
  set x := seq phase with hx
  have hp : phase = tab N x := eq_tab_seq phase
  have hmid : slice (tab N x) 1 (-1) = tab (N - 2) (fun i => x (1 + i)) := by
    unfold slice
    rw [tab_length]
    have e1 : normIdx N (-1) = N - 1 := by
      have := normIdx_neg N 1 (by norm_num); simpa using this
    have e2 : normIdx N 1 = 1 := by
      have := normIdx_nat N 1
      simp only [Nat.cast_one] at this
      rw [this]; omega
    rw [e1, e2, take_tab, drop_tab]
    congr 1
    omega
  unfold totdev_extend
  rw [hp]
  simp only [hmid, tab_length]
  have g0 : pyGet (tab N x) 0 = .ok (x 0) := by
    have := pyGet_tab_nat N x 0 (by omega); simpa using this
  have gl : pyGet (tab N x) (-1) = .ok (x (N - 1)) := by
    unfold pyGet
    simp only [tab_length, if_pos (by norm_num : (-1 : ℤ) < 0)]
    rw [if_neg (by omega), tab_getElem?]
    have : ((-1 : ℤ) + (N : ℤ)).toNat = N - 1 := by omega
    rw [this, if_pos (by omega)]
  rw [g0, gl]
  simp only [ok_bind]
  rw [scaledOnes_nat (2 * x 0) (N - 2) _ (by omega), scaledOnes_nat (2 * x (N - 1)) (N - 2) _ (by omega)]
  simp only [ok_bind, vsub, vop_tab, reverse_tab, tab_length]
  rw [pyAssert_true (by omega)]
  simp only [ok_bind]
  rw [scaledOnes_nat 0 (3 * N - 4) _ (by omega)]
  simp only [ok_bind]
  have s1 := setSlice_tab (3 * N - 4) (fun _ => 0) (fun i => 2 * x 0 - x (1 + (N - 2 - 1 - i)))
    0 (N - 2) 0 ((N : ℤ) - 2) (by simp) (by omega) (by omega) (by omega)
  rw [Nat.sub_zero] at s1
  rw [s1]
  simp only [ok_bind]
  have s2 := fun g => setSlice_tab (3 * N - 4) g x
    (N - 2) (2 * N - 2) ((N : ℤ) - 2) (2 * ((N : ℤ) - 2) + 2) (by omega) (by omega) (by omega) (by omega)
  have e2 : 2 * N - 2 - (N - 2) = N := by omega
  rw [e2] at s2
  rw [s2]
  simp only [ok_bind, tab_length]
  have s3 := fun g => setSlice_tab (3 * N - 4) g (fun i => 2 * x (N - 1) - x (1 + (N - 2 - 1 - i)))
    (2 * N - 2) (3 * N - 4) (2 * ((N : ℤ) - 2) + 2) ((3 * N - 4 : ℕ) : ℤ) (by omega) rfl (by omega)
    (by omega)
  have e3 : 3 * N - 4 - (2 * N - 2) = N - 2 := by omega
  rw [e3] at s3
  rw [s3]
  simp only [ok_bind]
  congr 2
  unfold extTab
  apply tab_congr
  intro i hi
  unfold reflect
  by_cases h1 : i < N - 2
  · rw [if_pos (by omega : (i : ℤ) - ((N : ℤ) - 2) < 0)]
    simp only [if_pos (by omega : i < 2 * N - 2), if_pos h1, Nat.not_lt_zero, if_false, Nat.sub_zero]
    congr 2; omega
  · rw [if_neg (by omega : ¬ (i : ℤ) - ((N : ℤ) - 2) < 0)]
    by_cases h2 : i < 2 * N - 2
    · rw [if_pos (by omega : (i : ℤ) - ((N : ℤ) - 2) < N)]
      simp only [if_pos h2, if_neg h1]
      congr 1; omega
    · rw [if_neg (by omega : ¬ (i : ℤ) - ((N : ℤ) - 2) < N)]
      simp only [if_neg h2, if_pos (by omega : i < 3 * N - 4)]
      congr 2; omega

theorem totdev_body_row (x : ℕ → ℝ) (N : ℕ) (rate : ℝ) (m : ℕ) (hm0 : 0 < m)
    (hmN : m < N) :
    totdev_body (extTab x N) (N - 2) N rate m = .ok (Spec.totdev x N m (m / rate),
      Spec.totdev x N m (m / rate) / √((N : ℝ) - 2), (N : ℤ) - 2) := by
  unfold totdev_body extTab
  have sf : ∀ (z : ℤ) (k : ℕ), z = k → ∀ g : ℕ → ℝ, sliceFrom (tab (3 * N - 4) g) z
      = tab (3 * N - 4 - k) (fun i => g (k + i)) := by
    intro z k h g
    subst h
    rw [sliceFrom_nat, drop_tab]
  rw [sf _ (N - 2 + 1) (by omega), sf _ (N - 2 + m + 1) (by omega), sf _ (N - 2 + 1 - m) (by omega)]
  simp only [tab_length, sliceTo_nat, take_tab]
  generalize he : min (min (3 * N - 4 - (N - 2 + 1)) (3 * N - 4 - (N - 2 + m + 1)))
    (3 * N - 4 - (N - 2 + 1 - m)) = e
  have a0 : min e (3 * N - 4 - (N - 2 + 1)) = e := by omega
  have a1 : min e (3 * N - 4 - (N - 2 + m + 1)) = e := by omega
  have a2 : min e (3 * N - 4 - (N - 2 + 1 - m)) = e := by omega
  simp only [a0, a1, a2, vscale_tab, vsub, vadd, vop_tab, ok_bind, take_tab, vmul]
  have a3 : min (N - 2) e = N - 2 := by omega
  rw [a3]
  simp only [npSum_tab]
  have hc : ((N - 2 : ℕ) : ℝ) = (N : ℝ) - 2 := by
    rw [Nat.cast_sub (by omega)]; push_cast; ring
  have hd : √((∑ i ∈ range (N - 2),
      (reflect x N (((N - 2 + 1 - m + i : ℕ) : ℤ) - ((N : ℤ) - 2)) -
        2 * reflect x N (((N - 2 + 1 + i : ℕ) : ℤ) - ((N : ℤ) - 2)) +
        reflect x N (((N - 2 + m + 1 + i : ℕ) : ℤ) - ((N : ℤ) - 2))) *
      (reflect x N (((N - 2 + 1 - m + i : ℕ) : ℤ) - ((N : ℤ) - 2)) -
        2 * reflect x N (((N - 2 + 1 + i : ℕ) : ℤ) - ((N : ℤ) - 2)) +
        reflect x N (((N - 2 + m + 1 + i : ℕ) : ℤ) - ((N : ℤ) - 2)))) /
      (2 * ((m : ℝ) / rate) ^ 2 * ((N : ℝ) - 2))) = Spec.totdev x N m (m / rate) := by
    unfold Spec.totdev rms
    congr 2
    apply Finset.sum_congr rfl
    intro i hi
    have e1 : ((N - 2 + 1 - m + i : ℕ) : ℤ) - ((N : ℤ) - 2) = (i : ℤ) + 1 - m := by omega
    have e2 : ((N - 2 + 1 + i : ℕ) : ℤ) - ((N : ℤ) - 2) = (i : ℤ) + 1 := by omega
    have e3 : ((N - 2 + m + 1 + i : ℕ) : ℤ) - ((N : ℤ) - 2) = (i : ℤ) + 1 + m := by omega
    rw [e1, e2, e3]
    ring
  rw [hd, hc]
  congr 3
  omega

end AT
