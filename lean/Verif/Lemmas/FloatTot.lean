import Verif.Model.FloatTot
import Verif.Lemmas.Mtot
import Verif.Lemmas.RealtimeFloat
import Verif.Props.FloatMore

/-!
# Lemmas for the rounding errors of `mtotdev` and `htotdev`
-/

namespace AT

open Spec Finset Real

variable {fl : ℝ → ℝ} {sum : List ℝ → ℝ}

/-- dividing by a slightly wrong number -/
theorem NearA.div {n k : ℕ} {a b c d G : ℝ} (h : NearA n a b G) (h' : Near k c d) (hd : 0 < d)
    (hk : (1 + unitRoundoff) ^ k ≤ 3 / 2) : NearA (n + 2 * k) (a / c) (b / d) (G / d) := by
  have h1 := nearA_of_near ((Near.refl 1).div h' hd.ne' hk)
  rw [abs_of_pos (by positivity), Nat.zero_add] at h1
  have h2 := h.mul h1
  rwa [mul_one_div, mul_one_div, mul_one_div] at h2

/-- the updated window sum, after `j` steps -/
noncomputable def winFl (fl : ℝ → ℝ) (sum : List ℝ → ℝ) (e : ℕ → ℝ) (m off : ℕ) : ℕ → ℝ
  | 0 => sum (tab m (fun k => e (off + k)))
  | j + 1 => fl (fl (winFl fl sum e m off j - e (off + j)) + e (off + j + m))

theorem winSum_abs_le (e : ℕ → ℝ) (m j L : ℕ) (A : ℝ) (hL : j + m ≤ L) (h : ∀ i < L, |e i| ≤ A) :
    |winSum e m j| ≤ m * A := by
  unfold winSum
  refine (Finset.abs_sum_le_sum_abs _ _).trans ?_
  refine (Finset.sum_le_sum (g := fun _ => A) fun i hi => h _ ?_).trans (by simp)
  have := Finset.mem_range.1 hi
  omega

/-- the window sum with one value removed -/
theorem winSum_sub_le (e : ℕ → ℝ) (m j L : ℕ) (A : ℝ) (hm : 0 < m) (hL : j + m ≤ L) (h : ∀ i < L, |e i| ≤ A) :
    |winSum e m j - e j| ≤ m * A := by
  have hA : 0 ≤ A := (abs_nonneg _).trans (h 0 (by omega))
  obtain ⟨k, rfl⟩ : ∃ k, m = k + 1 := ⟨m - 1, by omega⟩
  have e1 : winSum e (k + 1) j - e j = winSum e k (j + 1) := by
    unfold winSum
    rw [Finset.sum_range_succ', add_zero, add_sub_cancel_right]
    exact Finset.sum_congr rfl fun i _ => by congr 1; omega
  rw [e1]
  refine (winSum_abs_le e k (j + 1) L A (by omega) h).trans ?_
  push_cast
  nlinarith

/-- updating a window sum costs two roundings of its size per step -/
theorem winFl_near' (hfl : FloatRound fl) (hsum : ∀ l, FloatSum fl l (sum l)) (e : ℕ → ℝ) (m off L : ℕ)
    (hm : 0 < m) (A : ℝ) (h : ∀ i < L, |e i| ≤ A) (j : ℕ) (hj : off + j + m ≤ L) :
    NearA (m - 1 + 2 * j) (winFl fl sum e m off j) (winSum e m (off + j)) (m * A) := by
  induction j with
  | zero =>
    have h1 := FloatSum.nearA_tab hfl (hsum (tab m (fun k => e (off + k)))) (k := 0)
      (g := fun k => e (off + k)) (G := fun _ => A) (fun i hi => NearA.exact (h _ (by omega)))
    rw [Finset.sum_const, Finset.card_range, nsmul_eq_mul] at h1
    exact h1
  | succ j ih =>
    have h1 := ih (by omega)
    have h2 : NearA (m - 1 + 2 * j) (winFl fl sum e m off j - e (off + j)) (winSum e m (off + j) - e (off + j))
        (m * A) := ⟨winSum_sub_le e m _ L A hm (by omega) h, by rw [sub_sub_sub_cancel_right]; exact h1.2⟩
    have h3 := h2.fl hfl
    have w := winSum_succ e m (off + j)
    have h4 : NearA (m - 1 + 2 * j + 1) (fl (winFl fl sum e m off j - e (off + j)) + e (off + j + m))
        (winSum e m (off + (j + 1))) (m * A) := by
      refine ⟨winSum_abs_le e m _ L A (by omega) h, ?_⟩
      rw [← Nat.add_assoc off j 1, w, add_sub_add_right_eq_sub]
      exact h3.2
    exact (h4.fl hfl).mono (by omega)

theorem winFl_near (hfl : FloatRound fl) (hsum : ∀ l, FloatSum fl l (sum l)) (e' e : ℕ → ℝ) (m off L K : ℕ)
    (hm : 0 < m) (A : ℝ) (h : ∀ i < L, NearA K (e' i) (e i) A) (j : ℕ) (hj : off + j + m ≤ L) :
    NearA (m - 1 + 2 * j + K) (winFl fl sum e' m off j) (winSum e m (off + j)) (m * A) := by
  have h1 := winFl_near' hfl hsum e' m off L hm ((1 + unitRoundoff) ^ K * A) (fun i hi => (h i hi).abs_le) j hj
  have h2 := NearA.sum (k := K) (range m) (fun k => e' (off + j + k)) (fun k => e (off + j + k)) (fun _ => A)
    (fun k hk => h _ (by have := Finset.mem_range.1 hk; omega))
  rw [Finset.sum_const, Finset.card_range, nsmul_eq_mul] at h2
  exact h1.trans h2 (le_of_eq (by ring))

/-- one second difference of averages -/
noncomputable def totQ (fl : ℝ → ℝ) (sum : List ℝ → ℝ) (e : ℕ → ℝ) (m j : ℕ) : ℝ :=
  fl (fl (fl (winFl fl sum e m 0 j - fl (2 * winFl fl sum e m m j)) + winFl fl sum e m (2 * m) j) / m)

theorem totQ_near (hfl : FloatRound fl) (hsum : ∀ l, FloatSum fl l (sum l)) (e' e : ℕ → ℝ) (m K : ℕ)
    (hm : 0 < m) (A : ℝ) (h : ∀ i < 9 * m, NearA K (e' i) (e i) A) (j : ℕ) (hj : j < 6 * m) :
    |totQ fl sum e' m j - (∑ k ∈ range m, d2 e m (j + k)) / m| ≤
      ((1 + unitRoundoff) ^ (13 * m + 1 + K) - 1) * (4 * A) := by
  have hm' : (0 : ℝ) < m := by exact_mod_cast hm
  have w0 := winFl_near hfl hsum e' e m 0 (9 * m) K hm A h j (by omega)
  have w1 := winFl_near hfl hsum e' e m m (9 * m) K hm A h j (by omega)
  have w2 := winFl_near hfl hsum e' e m (2 * m) (9 * m) K hm A h j (by omega)
  have a1 := (w1.const_mul 2).fl hfl
  have a2 := (((w0.mono (Nat.le_succ _)).sub a1).fl hfl)
  have a3 := ((a2.add (w2.mono (by omega))).fl hfl)
  have a4 := (a3.const_mul (1 / (m : ℝ))).fl hfl
  rw [one_div_mul_eq_div, one_div_mul_eq_div, show 0 + j = j by omega, show m + j = j + m by omega,
    show 2 * m + j = j + 2 * m by omega, winSum_d2] at a4
  have a5 := a4.mono (l := 13 * m + 1 + K) (by omega)
  refine a5.2.trans (le_of_eq ?_)
  congr 1
  rw [abs_of_pos (by positivity), abs_of_pos (by norm_num)]
  field_simp
  ring

theorem tot_inner_fl_eq (fl : ℝ → ℝ) (sum : List ℝ → ℝ) (e : ℕ → ℝ) (m : ℕ) (hm : 0 < m) :
    tot_inner_fl fl sum (tab (9 * m) e) m =
      .ok (seqSum fl (fun j => fl (totQ fl sum e m j * totQ fl sum e m j)) (6 * m)) := by
  unfold tot_inner_fl
  set Q : ℕ → ℝ := fun j => fl (totQ fl sum e m j * totQ fl sum e m j) with hQ
  set st : ℕ → ℝ × ℝ × ℝ × ℝ := fun j =>
    if j = 0 then (0, 0, 0, 0)
    else (winFl fl sum e m 0 (j - 1), winFl fl sum e m m (j - 1), winFl fl sum e m (2 * m) (j - 1),
      seqSum fl Q j) with hst
  rw [forRange_eq st (by simp [hst])]
  · simp only [ok_bind, hst]
    rw [if_neg (by omega)]
  · intro j hj
    by_cases h0 : j = 0
    · subst h0
      simp only [if_true, ok_bind]
      rw [slice_tab _ _ _ _ (by omega), slice_tab _ _ _ _ (by omega), slice_tab _ _ _ _ (by omega)]
      simp only [hst, if_true]
      rw [if_neg (by omega)]
      have s0 : m - 0 = m := rfl
      have s1 : 2 * m - m = m := by omega
      have s2 : 3 * m - 2 * m = m := by omega
      rw [s0, s1, s2]
      rfl
    · simp only [if_neg h0]
      have g : ∀ (z : ℤ) (k : ℕ), z = k → k < 9 * m → pyGet (tab (9 * m) e) z = .ok (e k) := by
        intro z k hz hk
        subst hz
        exact pyGet_tab_nat _ _ _ hk
      rw [g _ (j - 1) (by omega) (by omega), g _ (j - 1 + m) (by omega) (by omega),
        g _ (j - 1 + m) (by omega) (by omega), g _ (j - 1 + 2 * m) (by omega) (by omega),
        g _ (j - 1 + 2 * m) (by omega) (by omega), g _ (j - 1 + 3 * m) (by omega) (by omega)]
      simp only [ok_bind, hst, if_neg h0, if_neg (by omega : ¬ j + 1 = 0)]
      obtain ⟨i, rfl⟩ : ∃ i, j = i + 1 := ⟨j - 1, by omega⟩
      simp only [Nat.add_sub_cancel]
      have w0 : fl (fl (winFl fl sum e m 0 i - e i) + e (i + m)) = winFl fl sum e m 0 (i + 1) := by
        rw [winFl, Nat.zero_add]
      have w1 : fl (fl (winFl fl sum e m m i - e (i + m)) + e (i + 2 * m)) = winFl fl sum e m m (i + 1) := by
        rw [winFl, show m + i = i + m by omega, show i + m + m = i + 2 * m by omega]
      have w2 : fl (fl (winFl fl sum e m (2 * m) i - e (i + 2 * m)) + e (i + 3 * m)) =
          winFl fl sum e m (2 * m) (i + 1) := by
        rw [winFl, show 2 * m + i = i + 2 * m by omega, show i + 2 * m + m = i + 3 * m by omega]
      rw [w0, w1, w2]
      rfl

/-- the outer sum, the division and the root -/
theorem tot_core (hfl : FloatRound fl) (n m kd : ℕ) (V D : ℕ → ℕ → ℝ)
    (c den' den E : ℝ) (hc : 0 < c) (hden : 0 < den) (hkd : (1 + unitRoundoff) ^ kd ≤ 3 / 2)
    (hd : Near kd den' den) (hE : 0 ≤ E) (hK : n + 6 * m + 8 + 2 * kd ≤ 2 ^ 48)
    (h : ∀ i < n, ∀ j < 6 * m, |V i j - D i j| ≤ E) :
    |fl √(fl (fl (seqSum fl (fun i => fl (fl (1 / fl c) *
        seqSum fl (fun j => fl (V i j * V i j)) (6 * m))) n * 1) / den')) -
      √((∑ i ∈ range n, (∑ j ∈ range (6 * m), D i j ^ 2) / c) / den)| ≤
      2 * ((n : ℝ) + 6 * m + 8 + 2 * kd) * unitRoundoff *
        √((∑ i ∈ range n, (∑ j ∈ range (6 * m), D i j ^ 2) / c) / den) +
      17 / 16 * (E * √((n * (6 * m / c)) / den)) := by
  have c1 : Near 3 (fl (1 / fl c)) (1 / c) :=
    ((Near.refl 1).div (Near.of_fl hfl c) hc.ne' (by unfold unitRoundoff; norm_num)).fl hfl
  have c2 : ∀ i, Near (6 * m + 1) (seqSum fl (fun j => fl (V i j * V i j)) (6 * m))
      (∑ j ∈ range (6 * m), V i j ^ 2) := fun i =>
    seqSum_near hfl (6 * m) (fun j _ => sq_nonneg _) (fun j _ => by rw [pow_two]; exact Near.of_fl hfl _)
  have c3 : ∀ i, Near (3 + (6 * m + 1) + 1) (fl (fl (1 / fl c) *
      seqSum fl (fun j => fl (V i j * V i j)) (6 * m))) (1 / c * ∑ j ∈ range (6 * m), V i j ^ 2) := fun i =>
    (c1.mul (c2 i)).fl hfl
  have hS : ∀ F : ℕ → ℕ → ℝ, ∀ i, 0 ≤ 1 / c * ∑ j ∈ range (6 * m), F i j ^ 2 := fun F i => by positivity
  have c4 := (seqSum_near hfl n (fun i _ => hS V i) (fun i _ => c3 i))
  have c5 := (c4.mul (Near.refl 1)).fl hfl
  rw [mul_one (∑ i ∈ range n, _)] at c5
  have c6 := (((c5.div hd hden.ne' hkd).fl hfl).sqrt
    (div_nonneg (Finset.sum_nonneg fun i _ => hS V i) hden.le)).fl hfl
  have hq := wrms_perturb (range n ×ˢ range (6 * m)) (fun _ => 1 / c) (fun p => V p.1 p.2) (fun p => D p.1 p.2)
    den E hden hE (fun _ _ => by positivity)
    (fun p hp => h p.1 (Finset.mem_range.1 (Finset.mem_product.1 hp).1) p.2
      (Finset.mem_range.1 (Finset.mem_product.1 hp).2))
  rw [Finset.sum_product, Finset.sum_product, Finset.sum_product] at hq
  simp only [← Finset.mul_sum, Finset.sum_const, card_range, nsmul_eq_mul] at hq
  have e1 : ∀ F : ℕ → ℕ → ℝ, 1 / c * ∑ i ∈ range n, ∑ j ∈ range (6 * m), F i j ^ 2 =
      ∑ i ∈ range n, (∑ j ∈ range (6 * m), F i j ^ 2) / c := by
    intro F
    rw [Finset.mul_sum]
    exact Finset.sum_congr rfl fun i _ => one_div_mul_eq_div _ _
  have e2 : ∑ i ∈ range n, 1 / c * ∑ j ∈ range (6 * m), V i j ^ 2 =
      ∑ i ∈ range n, (∑ j ∈ range (6 * m), V i j ^ 2) / c :=
    Finset.sum_congr rfl fun i _ => one_div_mul_eq_div _ _
  rw [e1 V, e1 D] at hq
  rw [e2] at c6
  have h4 := near_perturb (K := n + (3 + (6 * m + 1) + 1) + 0 + 1 + 2 * kd + 1 + 1) (by omega) c6
    (Real.sqrt_nonneg _) (Real.sqrt_nonneg _) hq
  refine h4.trans (le_of_eq ?_)
  congr 1
  · push_cast
    ring
  · congr 3
    push_cast
    ring

/-- the slope of a subsequence -/
theorem tot_slope_fl_near (hfl : FloatRound fl) (hsum : ∀ l, FloatSum fl l (sum l)) (s : ℕ → ℝ) (m ks : ℕ)
    (hm : 0 < m) (B : ℝ) (hB : ∀ i < 3 * m, |s i| ≤ B) (scale : ℝ → ℝ) (dt : ℝ) (hdt : 0 < dt)
    (hs : ∀ d' d, Near 2 d' d → Near ks (scale d') (d * dt)) (hks : (1 + unitRoundoff) ^ ks ≤ 3 / 2) :
    NearA (3 * m / 2 + 2 + 2 * ks) (tot_slope_fl fl sum scale (tab (3 * m) s) m) (halfSlope s m dt)
      (2 * B / ((3 * m - 3 * m / 2 : ℕ) * dt)) := by
  unfold tot_slope_fl halfSlope
  have e1 : ⌊(3 * (m : ℝ) / 2)⌋.toNat = 3 * m / 2 := by
    have := floor_half (3 * m)
    push_cast at this
    rw [this]
    omega
  have e2 : ⌈(3 * (m : ℝ) / 2)⌉.toNat = 3 * m - 3 * m / 2 := by
    have := ceil_half (3 * m)
    rw [Nat.cast_mul] at this
    push_cast at this
    rw [this]
    omega
  simp only [e1, e2, sliceTo_nat, sliceFrom_nat, take_tab, drop_tab, tab_length]
  have e3 : min (3 * m / 2) (3 * m) = 3 * m / 2 := by omega
  have e4 : 3 * m - (3 * m - 3 * m / 2) = 3 * m / 2 := by omega
  rw [e3, e4]
  set h := 3 * m / 2 with hh
  have hh0 : 0 < h := by omega
  have a1 := mean_float hfl hsum h hh0 s B (fun i hi => hB i (by omega))
  have a2 := mean_float hfl hsum h hh0 (fun k => s (3 * m - h + k)) B (fun i hi => hB _ (by omega))
  have a3 := (a2.sub a1).fl hfl
  have hd : (0 : ℝ) < ((3 * m - h : ℕ) : ℝ) := by exact_mod_cast (show 0 < 3 * m - h by omega)
  have key : ∀ d', Near 2 d' ((3 * m - h : ℕ) : ℝ) →
      NearA (h + 2 + 2 * ks) (fl (fl (fl (sum (tab h (fun k => s (3 * m - h + k))) / h) -
        fl (sum (tab h s) / h)) / scale d'))
      (((∑ k ∈ range h, s (3 * m - h + k)) / h - (∑ k ∈ range h, s k) / h) / ((3 * m - h : ℕ) * dt))
      (2 * B / ((3 * m - h : ℕ) * dt)) := by
    intro d' hd'
    have := ((a3.div (hs _ _ hd') (by positivity) hks).fl hfl).mono (l := h + 2 + 2 * ks) (by omega)
    rwa [← two_mul] at this
  split_ifs with hp
  · apply key
    have e5 : ((3 * m - h : ℕ) : ℝ) = 0.5 * (3 * m - 1) + 1 := by
      have : 2 * (3 * m - h) = 3 * m + 1 := by omega
      have h' : (2 : ℝ) * ((3 * m - h : ℕ) : ℝ) = 3 * m + 1 := by exact_mod_cast this
      norm_num
      linarith
    rw [e5]
    have hm1 : (1 : ℝ) ≤ m := by exact_mod_cast hm
    exact ((Near.of_fl hfl (0.5 * (3 * (m : ℝ) - 1))).add ((Near.refl 1).mono (by omega))
      (by norm_num; linarith) (by norm_num)).fl hfl
  · apply key
    have e5 : ((3 * m - h : ℕ) : ℝ) = 0.5 * 3 * m := by
      have : 2 * (3 * m - h) = 3 * m := by omega
      have h' : (2 : ℝ) * ((3 * m - h : ℕ) : ℝ) = 3 * m := by exact_mod_cast this
      norm_num
      linarith
    rw [e5]
    exact ((Near.of_fl hfl (0.5 * 3)).mul (Near.refl (m : ℝ))).fl hfl

/-- mirroring keeps an agreement -/
theorem NearA.mirror {K : ℕ} {a b : ℕ → ℝ} {A : ℝ} (L : ℕ) (h : ∀ i < L, NearA K (a i) (b i) A) (i : ℕ)
    (hi : i < 3 * L) : NearA K (Spec.mirror a L i) (Spec.mirror b L i) A := by
  unfold Spec.mirror
  split_ifs with h1 h2
  · exact h _ (by omega)
  · exact h _ (by omega)
  · exact h _ (by omega)

/-- the detrended subsequence of `calc_mtotdev_phase` -/
theorem mtot_detrend (hfl : FloatRound fl) (hsum : ∀ l, FloatSum fl l (sum l)) (s : ℕ → ℝ) (m : ℕ)
    (hm : 0 < m) (B : ℝ) (hB : ∀ i < 3 * m, |s i| ≤ B) (rate : ℝ) (hr : 0 < rate) (k : ℕ) (hk : k < 3 * m) :
    NearA (3 * m / 2 + 14) (fl (s k - fl (fl (tot_slope_fl fl sum (fun d => fl (d * fl (1 / rate)))
      (tab (3 * m) s) m * k) * fl (1 / rate)))) (s k - halfSlope s m 1 * k) (5 * B) := by
  have hB0 : 0 ≤ B := (abs_nonneg _).trans (hB 0 (by omega))
  have t1 := Near.of_fl hfl (1 / rate)
  have a1 := tot_slope_fl_near hfl hsum s m 4 hm B hB (fun d => fl (d * fl (1 / rate))) (1 / rate) (by positivity)
    (fun d' d h => (h.mul t1).fl hfl) (by unfold unitRoundoff; norm_num)
  have a2 := (a1.mul (NearA.exact (le_refl |(k : ℝ)|))).fl hfl
  have a3 := (a2.mul (nearA_of_near t1)).fl hfl
  have d1 : (0 : ℝ) < ((3 * m - 3 * m / 2 : ℕ) : ℝ) := by
    exact_mod_cast (show 0 < 3 * m - 3 * m / 2 by omega)
  have a4 : NearA (3 * m / 2 + 13) (fl (fl (tot_slope_fl fl sum (fun d => fl (d * fl (1 / rate)))
      (tab (3 * m) s) m * k) * fl (1 / rate))) (halfSlope s m 1 * k) (4 * B) := by
    have e1 : halfSlope s m (1 / rate) * k * (1 / rate) = halfSlope s m 1 * k := by
      rw [← halfSlope_scale s m (1 / rate) (by positivity)]
      ring
    rw [e1] at a3
    refine (a3.mono (by omega)).mono_size ?_
    rw [abs_of_nonneg (show (0 : ℝ) ≤ k by positivity), abs_of_pos (by positivity)]
    have d2 : (k : ℝ) ≤ 2 * ((3 * m - 3 * m / 2 : ℕ) : ℝ) := by
      exact_mod_cast (show k ≤ 2 * (3 * m - 3 * m / 2) by omega)
    set d := ((3 * m - 3 * m / 2 : ℕ) : ℝ)
    calc 2 * B / (d * (1 / rate)) * k * (1 / rate) = 2 * B * (k / d) := by field_simp
      _ ≤ 2 * B * 2 := by
        apply mul_le_mul_of_nonneg_left _ (by positivity)
        rw [div_le_iff₀ d1]; exact d2
      _ = 4 * B := by ring
  have a5 := (((NearA.exact (hB k hk)).mono (Nat.zero_le _)).sub a4).fl hfl
  exact a5.mono_size (by linarith)

/-- the detrended subsequence of `calc_htotdev_freq` -/
theorem htot_detrend (hfl : FloatRound fl) (hsum : ∀ l, FloatSum fl l (sum l)) (s : ℕ → ℝ) (m : ℕ)
    (hm : 0 < m) (B : ℝ) (hB : ∀ i < 3 * m, |s i| ≤ B) (k : ℕ) (hk : k < 3 * m) :
    NearA (3 * m / 2 + 9) (fl (s k - fl (tot_slope_fl fl sum (fun d => d) (tab (3 * m) s) m *
      fl ((k : ℝ) - ⌊(3 * m / 2 : ℝ)⌋)))) (s k - halfSlope s m 1 * ((k : ℝ) - ⌊(3 * m / 2 : ℝ)⌋)) (3 * B) := by
  have hB0 : 0 ≤ B := (abs_nonneg _).trans (hB 0 (by omega))
  have a1 := tot_slope_fl_near hfl hsum s m 2 hm B hB (fun d => d) 1 one_pos
    (fun d' d h => by rw [mul_one]; exact h) (by unfold unitRoundoff; norm_num)
  have a3 := (a1.mul (nearA_of_near (Near.of_fl hfl ((k : ℝ) - ⌊(3 * m / 2 : ℝ)⌋)))).fl hfl
  have d1 : (0 : ℝ) < ((3 * m - 3 * m / 2 : ℕ) : ℝ) := by
    exact_mod_cast (show 0 < 3 * m - 3 * m / 2 by omega)
  have fh : ⌊(3 * m / 2 : ℝ)⌋ = ((3 * m / 2 : ℕ) : ℤ) := by
    have := floor_half (3 * m)
    push_cast at this ⊢
    exact this
  have d2 : |(k : ℝ) - ⌊(3 * m / 2 : ℝ)⌋| ≤ ((3 * m - 3 * m / 2 : ℕ) : ℝ) := by
    rw [fh, Int.cast_natCast, abs_le]
    have p1 : ((3 * m / 2 : ℕ) : ℝ) ≤ k + ((3 * m - 3 * m / 2 : ℕ) : ℝ) := by
      exact_mod_cast (show 3 * m / 2 ≤ k + (3 * m - 3 * m / 2) by omega)
    have p2 : (k : ℝ) ≤ ((3 * m / 2 : ℕ) : ℝ) + ((3 * m - 3 * m / 2 : ℕ) : ℝ) := by
      exact_mod_cast (show k ≤ 3 * m / 2 + (3 * m - 3 * m / 2) by omega)
    constructor <;> linarith
  have a4 := (a3.mono (l := 3 * m / 2 + 8) (by omega)).mono_size (H := 2 * B) (by
    set d := ((3 * m - 3 * m / 2 : ℕ) : ℝ)
    calc 2 * B / (d * 1) * |(k : ℝ) - ⌊(3 * m / 2 : ℝ)⌋| ≤ 2 * B / (d * 1) * d := by gcongr
      _ = 2 * B := by field_simp)
  have a5 := (((NearA.exact (hB k hk)).mono (Nat.zero_le _)).sub a4).fl hfl
  exact a5.mono_size (by linarith)

/-- rounding a third of an integer does not move it past an integer -/
theorem fl_third (hfl : FloatRound fl) (hint : IntExact fl) (N m : ℕ) (hN : N ≤ 2 ^ 47) :
    (m : ℝ) ≤ fl ((N : ℝ) / 3) ↔ (m : ℝ) ≤ (N : ℝ) / 3 := by
  have h := hfl ((N : ℝ) / 3)
  rw [abs_of_nonneg (show (0 : ℝ) ≤ (N : ℝ) / 3 by positivity)] at h
  have hN' : (N : ℝ) ≤ 2 ^ 47 := by exact_mod_cast hN
  have hs : unitRoundoff * ((N : ℝ) / 3) < 1 / 3 := by
    refine (mul_le_mul_of_nonneg_left (show (N : ℝ) / 3 ≤ 2 ^ 47 / 3 by linarith) unitRoundoff_pos.le).trans_lt ?_
    unfold unitRoundoff; norm_num
  obtain ⟨h1, h2⟩ := abs_le.1 h
  rcases lt_trichotomy (3 * m) N with hlt | heq | hgt
  · have : (3 : ℝ) * m + 1 ≤ N := by exact_mod_cast hlt
    constructor <;> intro <;> linarith
  · have e : (N : ℝ) / 3 = m := by rw [← heq]; push_cast; ring
    rw [e, hint m (by omega)]
  · have : (N : ℝ) + 1 ≤ 3 * m := by exact_mod_cast hgt
    constructor <;> intro <;> linarith

theorem effMax_fl_third (hfl : FloatRound fl) (hint : IntExact fl) (N : ℕ) (hN : N ≤ 2 ^ 47) :
    effMax N (fl ((N : ℝ) / 3)) = fl ((N : ℝ) / 3) := by
  unfold effMax
  rw [if_neg]
  intro h
  have := (fl_third hfl hint N 0 hN).2 (by push_cast; positivity)
  rw [h] at this
  norm_num at this

theorem factors_third (hfl : FloatRound fl) (hint : IntExact fl) (N : ℕ) (hN : N ≤ 2 ^ 47) (rate : ℝ)
    (taus : TausArg) :
    factors N rate taus false (effMax N (fl ((N : ℝ) / 3))) = factors N rate taus false ((N : ℝ) / 3) := by
  rw [effMax_fl_third hfl hint N hN]
  have e2 : admissible N rate taus false (fl ((N : ℝ) / 3)) = admissible N rate taus false ((N : ℝ) / 3) := by
    funext m
    unfold admissible
    refine decide_eq_decide.2 (and_congr_right' (and_congr_right' (and_congr_left' ?_)))
    exact fl_third hfl hint N m hN
  unfold factors
  rw [e2]

end AT
