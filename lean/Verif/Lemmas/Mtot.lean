import Verif.Lemmas.Adev

/-! # Lemmas for MTOTDEV and HTOTDEV -/

namespace AT

open Spec Finset Real

theorem floor_half (n : ℕ) : ⌊((n : ℝ) / 2)⌋ = ((n / 2 : ℕ) : ℤ) := by
  rw [Int.floor_eq_iff]
  have h : n = 2 * (n / 2) + n % 2 := (Nat.div_add_mod n 2).symm
  have h2 : n % 2 < 2 := Nat.mod_lt _ (by norm_num)
  have h' : (n : ℝ) = 2 * ((n / 2 : ℕ) : ℝ) + ((n % 2 : ℕ) : ℝ) := by exact_mod_cast h
  have h0 : (0 : ℝ) ≤ ((n % 2 : ℕ) : ℝ) := by positivity
  have h1 : ((n % 2 : ℕ) : ℝ) < 2 := by exact_mod_cast h2
  rw [Int.cast_natCast]
  constructor <;> linarith

theorem ceil_half (n : ℕ) : ⌈((n : ℝ) / 2)⌉ = ((n - n / 2 : ℕ) : ℤ) := by
  rw [Int.ceil_eq_iff]
  have h : n = 2 * (n - n / 2) - n % 2 := by omega
  have h2 : n % 2 ≤ 1 := by omega
  have hle : n % 2 ≤ 2 * (n - n / 2) := by omega
  have h' : (n : ℝ) = 2 * ((n - n / 2 : ℕ) : ℝ) - ((n % 2 : ℕ) : ℝ) := by
    have := congrArg (fun k : ℕ => (k : ℝ)) h
    rw [Nat.cast_sub hle] at this
    rw [this]; push_cast; ring
  have h0 : (0 : ℝ) ≤ ((n % 2 : ℕ) : ℝ) := by positivity
  have h1 : ((n % 2 : ℕ) : ℝ) ≤ 1 := by exact_mod_cast h2
  rw [Int.cast_natCast]
  constructor <;> linarith

theorem tot_slope_eq (s : ℕ → ℝ) (m : ℕ) (dt : ℝ) :
    tot_slope (tab (3 * m) s) m dt = halfSlope s m dt := by
  unfold tot_slope halfSlope
  have e1 : ⌊(3 * (m : ℝ) / 2)⌋.toNat = 3 * m / 2 := by
    have := floor_half (3 * m)
    push_cast at this
    rw [this]
    omega
  have e2 : ⌈(3 * (m : ℝ) / 2)⌉.toNat = 3 * m - 3 * m / 2 := by
    have := ceil_half (3 * m)
    rw [Nat.cast_mul] at this
    push_cast at this
    rw [this]
    omega
  simp only [e1, e2, sliceTo_nat, sliceFrom_nat, take_tab, drop_tab, npMean_tab]
  have e3 : min (3 * m / 2) (3 * m) = 3 * m / 2 := by omega
  have e4 : 3 * m - (3 * m - 3 * m / 2) = 3 * m / 2 := by omega
  rw [e3, e4]
  split_ifs with h
  · congr 2
    have : 2 * (3 * m - 3 * m / 2) = 3 * m + 1 := by omega
    have h' : (2 : ℝ) * ((3 * m - 3 * m / 2 : ℕ) : ℝ) = 3 * m + 1 := by exact_mod_cast this
    norm_num
    linarith
  · congr 2
    have : 2 * (3 * m - 3 * m / 2) = 3 * m := by omega
    have h' : (2 : ℝ) * ((3 * m - 3 * m / 2 : ℕ) : ℝ) = 3 * m := by exact_mod_cast this
    norm_num
    linarith

theorem zipIdx_map_tab (n : ℕ) (s : ℕ → ℝ) (F : ℝ → ℕ → ℝ) :
    (tab n s).zipIdx.map (fun p => F p.1 p.2) = tab n (fun k => F (s k) k) := by
  apply tab_ext
  · simp
  · intro i hi
    rw [List.getElem?_map, List.getElem?_zipIdx, tab_getElem?, if_pos hi]
    simp

theorem mirror_tab (n : ℕ) (d : ℕ → ℝ) :
    (tab n d).reverse ++ tab n d ++ (tab n d).reverse = tab (3 * n) (mirror d n) := by
  rw [reverse_tab, append_tab, append_tab]
  have e : n + n + n = 3 * n := by ring
  rw [e]
  apply tab_congr
  intro i hi
  unfold mirror
  by_cases h1 : i < n
  · simp [h1, show i < n + n by omega]
  · by_cases h2 : i < 2 * n
    · simp only [h1, if_false, show i < n + n by omega, if_true, h2]
    · simp only [h1, if_false, show ¬ i < n + n by omega, h2]
      congr 1; omega

/-- sum of `m` consecutive values -/
noncomputable def winSum (e : ℕ → ℝ) (m j : ℕ) : ℝ := ∑ k ∈ range m, e (j + k)

theorem winSum_succ (e : ℕ → ℝ) (m j : ℕ) : winSum e m (j + 1) = winSum e m j - e j + e (j + m) := by
  have h1 : winSum e m (j + 1) = ∑ i ∈ range m, e (j + (i + 1)) := by
    apply Finset.sum_congr rfl; intro i _; congr 1; omega
  have h2 := Finset.sum_range_succ' (fun i => e (j + i)) m
  have h3 := Finset.sum_range_succ (fun i => e (j + i)) m
  rw [h1]
  unfold winSum
  simp only [Nat.add_zero] at h2
  linarith

theorem winSum_d2 (e : ℕ → ℝ) (m j : ℕ) :
    winSum e m j - 2 * winSum e m (j + m) + winSum e m (j + 2 * m) = ∑ k ∈ range m, d2 e m (j + k) := by
  unfold winSum d2
  rw [Finset.mul_sum, ← Finset.sum_sub_distrib, ← Finset.sum_add_distrib]
  apply Finset.sum_congr rfl
  intro k _
  have e1 : j + m + k = j + k + m := by ring
  have e2 : j + 2 * m + k = j + k + 2 * m := by ring
  rw [e1, e2]; ring

theorem tot_inner_eq (e : ℕ → ℝ) (m : ℕ) (hm : 0 < m) :
    tot_inner (tab (9 * m) e) m =
      .ok (∑ j ∈ range (6 * m), ((∑ k ∈ range m, d2 e m (j + k)) / m) ^ 2) := by
  unfold tot_inner
  set Q : ℕ → ℝ := fun j => ((∑ k ∈ range m, d2 e m (j + k)) / m) ^ 2 with hQ
  set st : ℕ → ℝ × ℝ × ℝ × ℝ := fun j =>
    if j = 0 then (0, 0, 0, 0)
    else (winSum e m (j - 1), winSum e m (j - 1 + m), winSum e m (j - 1 + 2 * m), ∑ i ∈ range j, Q i)
    with hst
  rw [forRange_eq st (by simp [hst])]
  · simp only [ok_bind, hst]
    rw [if_neg (by omega)]
  · intro j hj
    by_cases h0 : j = 0
    · subst h0
      simp only [if_true, ok_bind]
      rw [slice_tab _ _ _ _ (by omega), slice_tab _ _ _ _ (by omega), slice_tab _ _ _ _ (by omega)]
      simp only [npSum_tab, hst, if_true]
      rw [if_neg (by omega)]
      have s0 : ∑ i ∈ range (m - 0), e (0 + i) = winSum e m 0 := by simp [winSum]
      have s1 : ∑ i ∈ range (2 * m - m), e (m + i) = winSum e m (0 + m) := by
        have : 2 * m - m = m := by omega
        simp [winSum, this]
      have s2 : ∑ i ∈ range (3 * m - 2 * m), e (2 * m + i) = winSum e m (0 + 2 * m) := by
        have : 3 * m - 2 * m = m := by omega
        simp [winSum, this]
      rw [s0, s1, s2, winSum_d2]
      simp [hQ]
    · simp only [if_neg h0]
      have g : ∀ (z : ℤ) (k : ℕ), z = k → k < 9 * m → pyGet (tab (9 * m) e) z = .ok (e k) := by
        intro z k hz hk
        subst hz
        exact pyGet_tab_nat _ _ _ hk
      rw [g _ (j - 1) (by omega) (by omega), g _ (j - 1 + m) (by omega) (by omega),
        g _ (j - 1 + m) (by omega) (by omega), g _ (j - 1 + 2 * m) (by omega) (by omega),
        g _ (j - 1 + 2 * m) (by omega) (by omega), g _ (j - 1 + 3 * m) (by omega) (by omega)]
      simp only [ok_bind, hst, if_neg h0, if_neg (by omega : ¬ j + 1 = 0)]
      obtain ⟨i, rfl⟩ : ∃ i, j = i + 1 := ⟨j - 1, by omega⟩
      simp only [Nat.add_sub_cancel]
      have w0 := winSum_succ e m i
      have w1 := winSum_succ e m (i + m)
      have w2 := winSum_succ e m (i + 2 * m)
      have a1 : i + m + 1 = i + 1 + m := by ring
      have a2 : i + 2 * m + 1 = i + 1 + 2 * m := by ring
      have a3 : i + m + m = i + 2 * m := by ring
      have a4 : i + 2 * m + m = i + 3 * m := by ring
      rw [a1, a3] at w1
      rw [a2, a4] at w2
      rw [← w0, ← w1, ← w2, winSum_d2, Finset.sum_range_succ Q (i + 1)]

theorem d2_mirror_shift (f : ℕ → ℝ) (c : ℝ) (L m j : ℕ) :
    d2 (mirror (fun k => f k + c) L) m j = d2 (mirror f L) m j := by
  have h : ∀ i, mirror (fun k => f k + c) L i = mirror f L i + c := by
    intro i
    unfold mirror
    split_ifs <;> rfl
  unfold d2
  rw [h, h, h]; ring

theorem halfSlope_scale (s : ℕ → ℝ) (m : ℕ) (dt : ℝ) (h : dt ≠ 0) :
    halfSlope s m dt * dt = halfSlope s m 1 := by
  unfold halfSlope
  simp only [mul_one]
  rw [← div_div, div_mul_cancel₀ _ h]

theorem calc_mtotdev_phase_row (phase : List ℝ) (rate : ℝ) (hr : rate ≠ 0) (m : ℕ) (hm0 : 0 < m)
    (hmN : 3 * m ≤ phase.length) :
    calc_mtotdev_phase phase rate m = .ok (Spec.mtotdev (seq phase) phase.length m (m / rate),
      Spec.mtotdev (seq phase) phase.length m (m / rate) / √((phase.length : ℝ) - 3 * m + 1),
      (phase.length : ℤ) - 3 * m + 1) := by
  set N := phase.length with hN
  set x := seq phase with hx
  have hp : phase = tab N x := eq_tab_seq phase
  unfold calc_mtotdev_phase
  rw [hp]
  simp only [tab_length]
  have hK : ((N : ℤ) - 3 * m + 1).toNat = N - 3 * m + 1 := by omega
  rw [hK]
  rw [forRange_eq (fun i => (∑ j ∈ range i, totTerm (fun k => x (j + k)) m, i)) (by simp)]
  · simp only [ok_bind]
    rw [pyAssert_true (by omega)]
    simp only [ok_bind]
    have hc : ((N - 3 * m + 1 : ℕ) : ℝ) = (N : ℝ) - 3 * m + 1 := by
      rw [Nat.cast_add, Nat.cast_sub hmN]; push_cast; ring
    have hc' : (((N : ℤ) - 3 * m + 1 : ℤ) : ℝ) = (N : ℝ) - 3 * m + 1 := by push_cast; ring
    rw [hc, hc']
    have hd : √((∑ j ∈ range (N - 3 * m + 1), totTerm (fun k => x (j + k)) m) * 1 /
        (2 * ((m : ℝ) * (1 / rate)) ^ 2 * ((N : ℝ) - 3 * m + 1))) = Spec.mtotdev x N m (m / rate) := by
      unfold Spec.mtotdev
      rw [mul_one, mul_one_div]
    rw [hd]
    congr 3
    omega
  · intro i hi
    rw [slice_tab _ _ _ _ (by omega)]
    have e1 : i + 3 * m - i = 3 * m := by omega
    rw [e1, pyAssert_true (by simp)]
    simp only [ok_bind, tot_slope_eq]
    rw [zipIdx_map_tab (3 * m) (fun k => x (i + k))
      (fun a k => a - halfSlope (fun k => x (i + k)) m (1 / rate) * k * (1 / rate))]
    rw [mirror_tab, pyAssert_true (by simp; ring)]
    have e2 : 3 * (3 * m) = 9 * m := by ring
    rw [e2, tot_inner_eq _ _ hm0]
    simp only [ok_bind]
    congr 2
    rw [Finset.sum_range_succ]
    congr 1
    unfold totTerm
    have e3 : (fun k : ℕ => x (i + k) - halfSlope (fun k => x (i + k)) m (1 / rate) * k * (1 / rate))
        = (fun k : ℕ => x (i + k) - halfSlope (fun k => x (i + k)) m 1 * k) := by
      funext k
      rw [← halfSlope_scale _ _ (1 / rate) (by simpa using hr)]
      ring
    rw [e3]
    simp only
    rw [one_div, inv_mul_eq_div]

theorem calc_htotdev_freq_row (freq : List ℝ) (m : ℕ) (hm0 : 0 < m)
    (hmN : 3 * m ≤ freq.length) :
    calc_htotdev_freq freq m = .ok (Spec.htotdev (seq freq) freq.length m,
      Spec.htotdev (seq freq) freq.length m / √((freq.length : ℝ) - 3 * m + 1),
      (freq.length : ℤ) - 3 * m + 1) := by
  set N := freq.length with hN
  set x := seq freq with hx
  have hp : freq = tab N x := eq_tab_seq freq
  unfold calc_htotdev_freq
  rw [hp]
  simp only [tab_length]
  have hK : ((N : ℤ) - 3 * m + 1).toNat = N - 3 * m + 1 := by omega
  rw [hK]
  rw [forRange_eq (fun i => (∑ j ∈ range i, totTerm (fun k => x (j + k)) m / 6, i)) (by simp)]
  · simp only [ok_bind]
    rw [pyAssert_true (by omega)]
    simp only [ok_bind]
    have hc : ((N - 3 * m + 1 : ℕ) : ℝ) = (N : ℝ) - 3 * m + 1 := by
      rw [Nat.cast_add, Nat.cast_sub hmN]; push_cast; ring
    have hc' : (((N : ℤ) - 3 * m + 1 : ℤ) : ℝ) = (N : ℝ) - 3 * m + 1 := by push_cast; ring
    rw [hc, hc']
    have hd : √((∑ j ∈ range (N - 3 * m + 1), totTerm (fun k => x (j + k)) m / 6) * 1 /
        ((N : ℝ) - 3 * m + 1)) = Spec.htotdev x N m := by
      unfold Spec.htotdev
      rw [mul_one, ← Finset.sum_div, div_div]
    rw [hd]
    congr 3
    omega
  · intro i hi
    rw [slice_tab _ _ _ _ (by omega)]
    have e1 : i + 3 * m - i = 3 * m := by omega
    rw [e1, pyAssert_true (by simp)]
    simp only [ok_bind, tot_slope_eq]
    rw [zipIdx_map_tab (3 * m) (fun k => x (i + k))
      (fun a k => a - halfSlope (fun k => x (i + k)) m 1 * ((k : ℝ) - ⌊(3 * (m : ℝ) / 2)⌋))]
    rw [mirror_tab, pyAssert_true (by simp; ring)]
    have e2 : 3 * (3 * m) = 9 * m := by ring
    rw [e2, tot_inner_eq _ _ hm0]
    simp only [ok_bind]
    congr 2
    rw [Finset.sum_range_succ]
    congr 1
    unfold totTerm
    have e3 : (fun k : ℕ => x (i + k) - halfSlope (fun k => x (i + k)) m 1 *
          ((k : ℝ) - ⌊(3 * (m : ℝ) / 2)⌋))
        = (fun k : ℕ => (x (i + k) - halfSlope (fun k => x (i + k)) m 1 * k) +
          halfSlope (fun k => x (i + k)) m 1 * ⌊(3 * (m : ℝ) / 2)⌋) := by
      funext k; ring
    rw [e3]
    simp only [d2_mirror_shift]
    rw [one_div, inv_mul_eq_div, div_div]
    congr 1
    push_cast
    ring

theorem totTerm_congr (s t : ℕ → ℝ) (m : ℕ) (hm : 0 < m) (h : ∀ k < 3 * m, s k = t k) :
    totTerm s m = totTerm t m := by
  have hs : halfSlope s m 1 = halfSlope t m 1 := by
    unfold halfSlope
    have h1 : ∑ k ∈ range (3 * m / 2), s (3 * m - 3 * m / 2 + k)
        = ∑ k ∈ range (3 * m / 2), t (3 * m - 3 * m / 2 + k) :=
      Finset.sum_congr rfl (fun k hk => h _ (by rw [Finset.mem_range] at hk; omega))
    have h2 : ∑ k ∈ range (3 * m / 2), s k = ∑ k ∈ range (3 * m / 2), t k :=
      Finset.sum_congr rfl (fun k hk => h _ (by rw [Finset.mem_range] at hk; omega))
    simp only [h1, h2]
  unfold totTerm
  simp only [hs]
  have hmir : ∀ j < 9 * m, mirror (fun k => s k - halfSlope t m 1 * k) (3 * m) j
      = mirror (fun k => t k - halfSlope t m 1 * k) (3 * m) j := by
    intro j hj
    unfold mirror
    split_ifs with a b
    · simp only; rw [h _ (by omega)]
    · simp only; rw [h _ (by omega)]
    · simp only; rw [h _ (by omega)]
  congr 1
  apply Finset.sum_congr rfl
  intro j hj
  rw [Finset.mem_range] at hj
  congr 2
  apply Finset.sum_congr rfl
  intro k hk
  rw [Finset.mem_range] at hk
  unfold d2
  rw [hmir _ (by omega), hmir _ (by omega), hmir _ (by omega)]

theorem htotdev_congr (y z : ℕ → ℝ) (N m : ℕ) (hm : 0 < m) (h3 : 3 * m ≤ N)
    (h : ∀ i < N, y i = z i) : Spec.htotdev y N m = Spec.htotdev z N m := by
  unfold Spec.htotdev
  congr 2
  apply Finset.sum_congr rfl
  intro i hi
  rw [Finset.mem_range] at hi
  exact totTerm_congr _ _ m hm (fun k hk => h _ (by omega))

end AT
