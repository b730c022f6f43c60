import Verif.Lemmas.Value

/-! # Effect of affine, quadratic and scaling changes of the data on the statistics -/

namespace AT

open Spec Finset Real

/-! ## affine terms -/

theorem d2_affine (x : ℕ → ℝ) (a b : ℝ) (m i : ℕ) :
    d2 (fun i => x i + (a + b * i)) m i = d2 x m i := by
  unfold d2; push_cast; ring

theorem d3_quadratic (x : ℕ → ℝ) (a b c : ℝ) (m i : ℕ) :
    d3 (fun i => x i + (a + b * i + c * i ^ 2)) m i = d3 x m i := by
  unfold d3; push_cast; ring

theorem halfSlope_affine (s : ℕ → ℝ) (a b : ℝ) (m : ℕ) (hm : 0 < m) :
    halfSlope (fun k => s k + (a + b * k)) m 1 = halfSlope s m 1 + b := by
  unfold halfSlope
  simp only [mul_one]
  set h := 3 * m / 2 with hh
  have hpos : 0 < h := by omega
  have hle : h ≤ 3 * m := by omega
  have h1 : (h : ℝ) ≠ 0 := by positivity
  have h2 : ((3 * m - h : ℕ) : ℝ) ≠ 0 := by
    have : 0 < 3 * m - h := by omega
    positivity
  have e : ∑ k ∈ range h, (s (3 * m - h + k) + (a + b * ((3 * m - h + k : ℕ) : ℝ)))
      = ∑ k ∈ range h, s (3 * m - h + k) + ∑ k ∈ range h, (a + b * (k : ℝ))
        + h * (b * ((3 * m - h : ℕ) : ℝ)) := by
    rw [← Finset.sum_add_distrib, ← nsmul_eq_mul, ← Finset.card_range h, ← Finset.sum_const,
      Finset.card_range, ← Finset.sum_add_distrib]
    apply Finset.sum_congr rfl
    intro k _
    rw [Nat.cast_add]
    ring
  rw [e, Finset.sum_add_distrib (f := s)]
  field_simp
  ring

theorem totTerm_affine (s : ℕ → ℝ) (a b : ℝ) (m : ℕ) (hm : 0 < m) :
    totTerm (fun k => s k + (a + b * k)) m = totTerm s m := by
  unfold totTerm
  rw [halfSlope_affine s a b m hm]
  have : (fun k : ℕ => s k + (a + b * k) - (halfSlope s m 1 + b) * k)
      = fun k : ℕ => (s k - halfSlope s m 1 * k) + a := by
    funext k; ring
  simp only [this, d2_mirror_shift]

theorem mtotdev_affine (x : ℕ → ℝ) (a b : ℝ) (N m : ℕ) (hm : 0 < m) (τ : ℝ) :
    Spec.mtotdev (fun i => x i + (a + b * i)) N m τ = Spec.mtotdev x N m τ := by
  unfold Spec.mtotdev
  congr 2
  apply Finset.sum_congr rfl
  intro i _
  rw [← totTerm_affine (fun k => x (i + k)) (a + b * i) b m hm]
  congr 1
  funext k
  push_cast
  ring

theorem htotdev_affine (y : ℕ → ℝ) (a b : ℝ) (N m : ℕ) (hm : 0 < m) :
    Spec.htotdev (fun i => y i + (a + b * i)) N m = Spec.htotdev y N m := by
  unfold Spec.htotdev
  congr 2
  apply Finset.sum_congr rfl
  intro i _
  rw [← totTerm_affine (fun k => y (i + k)) (a + b * i) b m hm]
  congr 1
  funext k
  push_cast
  ring

theorem reflect_affine (x : ℕ → ℝ) (a b : ℝ) (N : ℕ) (hN : 0 < N) (j : ℤ) (h2 : j < 2 * N - 1) :
    reflect (fun i => x i + (a + b * i)) N j = reflect x N j + (a + b * j) := by
  unfold reflect
  split_ifs with h h'
  · have : (((-j).toNat : ℕ) : ℝ) = -(j : ℝ) := by
      have : (((-j).toNat : ℕ) : ℤ) = -j := by omega
      have := congrArg (Int.cast : ℤ → ℝ) this
      push_cast at this
      exact this
    simp only [this]; push_cast; ring
  · have : ((j.toNat : ℕ) : ℝ) = (j : ℝ) := by
      have : ((j.toNat : ℕ) : ℤ) = j := by omega
      have := congrArg (Int.cast : ℤ → ℝ) this
      push_cast at this
      exact this
    simp only [this]
  · have : (((2 * ((N : ℤ) - 1) - j).toNat : ℕ) : ℝ) = 2 * ((N : ℝ) - 1) - j := by
      have : (((2 * ((N : ℤ) - 1) - j).toNat : ℕ) : ℤ) = 2 * ((N : ℤ) - 1) - j := by omega
      have := congrArg (Int.cast : ℤ → ℝ) this
      push_cast at this
      exact this
    simp only [this, Nat.cast_sub (by omega : 1 ≤ N)]; push_cast; ring

theorem sum_centered (m : ℕ) : ∑ k ∈ range m, (((m : ℝ) - 1) / 2 - (k : ℝ)) = 0 := by
  rw [Finset.sum_sub_distrib, Finset.sum_const, Finset.card_range, nsmul_eq_mul]
  have : ∀ n : ℕ, ∑ k ∈ range n, (k : ℝ) = n * ((n : ℝ) - 1) / 2 := by
    intro n
    induction n with
    | zero => simp
    | succ n ih => rw [Finset.sum_range_succ, ih]; push_cast; ring
  rw [this]; ring

/-- adding a constant phase and a constant frequency offset -/
theorem value_affine (fn : DevName) (h1 : fn ≠ .tierms) (h2 : fn ≠ .mtie) (x : ℕ → ℝ) (a b : ℝ)
    {N m : ℕ} (rate : ℝ) (hu : Usable fn N m) :
    value fn (fun i => x i + (a + b * i)) N rate m = value fn x N rate m := by
  obtain ⟨hm, hl, hx, he, hc⟩ := hu
  have hoadev : ∀ m τ, Spec.oadev (fun i => x i + (a + b * i)) N m τ = Spec.oadev x N m τ := by
    intro m τ
    exact rms_congr _ (fun i _ => by rw [d2_affine])
  have hohdev : ∀ m τ, Spec.ohdev (fun i => x i + (a + b * i)) N m τ = Spec.ohdev x N m τ := by
    intro m τ
    refine rms_congr _ (fun i _ => ?_)
    unfold d3; push_cast; ring
  have hmdev : ∀ τ, Spec.mdev (fun i => x i + (a + b * i)) N m τ = Spec.mdev x N m τ := by
    intro τ
    exact rms_congr _ (fun i _ => by simp only [d2_affine])
  unfold value
  cases fn <;> simp only [count, lenOf, maxOf, reduceCtorEq, if_false, if_true] at *
  case adev =>
    refine rms_congr _ (fun i _ => ?_)
    have := d2_affine (fun k => x (k * m)) a (b * m) 1 i
    rw [← this]
    unfold d2; push_cast; ring
  case oadev => exact hoadev _ _
  case mdev => exact hmdev _
  case tdev => unfold Spec.tdev; rw [hmdev]
  case hdev =>
    refine rms_congr _ (fun i _ => ?_)
    unfold d3; push_cast; ring
  case ohdev => exact hohdev _ _
  case pdev =>
    unfold Spec.pdev
    split_ifs with h1
    · exact hoadev _ _
    · congr 3
      apply Finset.sum_congr rfl
      intro i _
      congr 1
      have e : ∀ k : ℕ, (((m : ℝ) - 1) / 2 - (k : ℝ)) *
          (x (i + k) + (a + b * ((i + k : ℕ) : ℝ)) - (x (i + m + k) + (a + b * ((i + m + k : ℕ) : ℝ))))
          = (((m : ℝ) - 1) / 2 - (k : ℝ)) * (x (i + k) - x (i + m + k))
            + (((m : ℝ) - 1) / 2 - (k : ℝ)) * (-(b * m)) := by
        intro k; push_cast; ring
      simp only [e]
      rw [Finset.sum_add_distrib, ← Finset.sum_mul, sum_centered]
      ring
  case totdev =>
    refine rms_congr _ (fun i hi => ?_)
    rw [reflect_affine x a b N (by omega) _ (by omega), reflect_affine x a b N (by omega) _ (by omega),
      reflect_affine x a b N (by omega) _ (by omega)]
    push_cast; ring
  case mtotdev => exact mtotdev_affine x a b N m hm _
  case ttotdev => rw [mtotdev_affine x a b N m hm]
  case htotdev =>
    unfold htotdev'
    split_ifs with h1
    · exact hohdev _ _
    · rw [← htotdev_affine (freqOf x rate) (rate * b) 0 _ m hm]
      congr 1
      funext i
      unfold freqOf; push_cast; ring
  case theo1 =>
    unfold Spec.theo1
    congr 2
    apply Finset.sum_congr rfl
    intro i hi
    apply Finset.sum_congr rfl
    intro d hd
    rw [Finset.mem_range] at hd
    congr 2
    obtain ⟨h, rfl⟩ := he trivial
    have e : (h + h) / 2 = h := by omega
    rw [e] at hd ⊢
    rw [show i + h - d = i + (h - d) by omega]
    push_cast [Nat.cast_sub hd.le]
    ring
  case tierms => exact absurd rfl h1
  case mtie => exact absurd rfl h2

/-! ## quadratic terms -/

/-- adding a frequency drift does not change the Hadamard statistics -/
theorem value_quadratic (fn : DevName) (h : fn = .hdev ∨ fn = .ohdev ∨ fn = .htotdev) (x : ℕ → ℝ)
    (a b c : ℝ) {N m : ℕ} (rate : ℝ) (hm : 0 < m) :
    value fn (fun i => x i + (a + b * i + c * i ^ 2)) N rate m = value fn x N rate m := by
  have hohdev : ∀ m τ, Spec.ohdev (fun i => x i + (a + b * i + c * i ^ 2)) N m τ
      = Spec.ohdev x N m τ := by
    intro m τ
    exact rms_congr _ (fun i _ => by rw [d3_quadratic])
  rcases h with rfl | rfl | rfl
  · refine rms_congr _ (fun i _ => ?_)
    unfold d3; push_cast; ring
  · exact hohdev _ _
  · unfold value htotdev'
    simp only
    split_ifs with h1
    · exact hohdev _ _
    · rw [← htotdev_affine (freqOf x rate) (rate * (b + c)) (rate * (2 * c)) _ m hm]
      congr 1
      funext i
      unfold freqOf; push_cast; ring

/-! ## scaling -/

theorem rms_scale (n : ℕ) (f : ℕ → ℝ) (c norm : ℝ) :
    rms n (fun i => c * f i) norm = |c| * rms n f norm := by
  unfold rms
  have : ∑ i ∈ range n, (c * f i) ^ 2 = c ^ 2 * ∑ i ∈ range n, f i ^ 2 := by
    rw [Finset.mul_sum]; exact Finset.sum_congr rfl (fun i _ => by ring)
  rw [this, mul_div_assoc, Real.sqrt_mul (sq_nonneg c), Real.sqrt_sq_eq_abs]

theorem sqrt_scale (c s n : ℝ) : √(c ^ 2 * s / n) = |c| * √(s / n) := by
  rw [mul_div_assoc, Real.sqrt_mul (sq_nonneg c), Real.sqrt_sq_eq_abs]

theorem d2_scale (x : ℕ → ℝ) (c : ℝ) (m i : ℕ) : d2 (fun i => c * x i) m i = c * d2 x m i := by
  unfold d2; ring

theorem d3_scale (x : ℕ → ℝ) (c : ℝ) (m i : ℕ) : d3 (fun i => c * x i) m i = c * d3 x m i := by
  unfold d3; ring

theorem totTerm_scale (s : ℕ → ℝ) (c : ℝ) (m : ℕ) :
    totTerm (fun k => c * s k) m = c ^ 2 * totTerm s m := by
  have hs : halfSlope (fun k => c * s k) m 1 = c * halfSlope s m 1 := by
    unfold halfSlope
    simp only [← Finset.mul_sum]
    ring
  unfold totTerm
  rw [hs]
  have e : (fun k : ℕ => c * s k - c * halfSlope s m 1 * k)
      = fun k : ℕ => c * (s k - halfSlope s m 1 * k) := by funext k; ring
  have em : mirror (fun k : ℕ => c * (s k - halfSlope s m 1 * k)) (3 * m)
      = fun j => c * mirror (fun k : ℕ => (s k - halfSlope s m 1 * k)) (3 * m) j := by
    funext j; unfold mirror; split_ifs <;> rfl
  simp only [e, em, d2_scale, ← Finset.mul_sum]
  rw [← mul_div_assoc, Finset.mul_sum]
  congr 1
  apply Finset.sum_congr rfl
  intro j _
  ring

theorem mtie_scale (x : ℕ → ℝ) (c : ℝ) (N m : ℕ) (hN : 0 < N) :
    Spec.mtie (fun i => c * x i) N m = |c| * Spec.mtie x N m := by
  obtain ⟨⟨i, j, a, b, d, h⟩, hle⟩ := mtie_isGreatest x N m hN
  apply mtie_of_greatest
  constructor
  · exact ⟨i, j, a, b, d, by rw [h, ← abs_mul, mul_sub]⟩
  · rintro e ⟨i, j, a, b, d, rfl⟩
    rw [← mul_sub, abs_mul]
    exact mul_le_mul_of_nonneg_left (hle i j a b d) (abs_nonneg c)

theorem value_scale (fn : DevName) (x : ℕ → ℝ) (c : ℝ) {N m : ℕ} (rate : ℝ) (hN : 0 < N) :
    value fn (fun i => c * x i) N rate m = |c| * value fn x N rate m := by
  have hoadev : ∀ m τ, Spec.oadev (fun i => c * x i) N m τ = |c| * Spec.oadev x N m τ := by
    intro m τ
    rw [Spec.oadev, Spec.oadev, ← rms_scale]
    exact rms_congr _ (fun i _ => by rw [d2_scale])
  have hohdev : ∀ m τ, Spec.ohdev (fun i => c * x i) N m τ = |c| * Spec.ohdev x N m τ := by
    intro m τ
    rw [Spec.ohdev, Spec.ohdev, ← rms_scale]
    exact rms_congr _ (fun i _ => by rw [d3_scale])
  have hmdev : ∀ τ, Spec.mdev (fun i => c * x i) N m τ = |c| * Spec.mdev x N m τ := by
    intro τ
    rw [Spec.mdev, Spec.mdev, ← rms_scale]
    exact rms_congr _ (fun i _ => by simp only [d2_scale, Finset.mul_sum])
  have hmtot : ∀ τ, Spec.mtotdev (fun i => c * x i) N m τ = |c| * Spec.mtotdev x N m τ := by
    intro τ
    unfold Spec.mtotdev
    rw [← sqrt_scale, Finset.mul_sum]
    congr 2
    exact Finset.sum_congr rfl (fun i _ => totTerm_scale _ c m)
  unfold value
  cases fn <;> simp only
  case adev =>
    rw [Spec.adev, Spec.adev, ← rms_scale]
    exact rms_congr _ (fun i _ => by rw [d2_scale (fun k => x (k * m))])
  case oadev => exact hoadev _ _
  case mdev => exact hmdev _
  case tdev => unfold Spec.tdev; rw [hmdev]; ring
  case hdev =>
    rw [Spec.hdev, Spec.hdev, ← rms_scale]
    exact rms_congr _ (fun i _ => by rw [d3_scale (fun k => x (k * m))])
  case ohdev => exact hohdev _ _
  case pdev =>
    unfold Spec.pdev
    split_ifs with h1
    · exact hoadev _ _
    · rw [← sqrt_scale]
      congr 2
      rw [Finset.mul_sum, Finset.mul_sum, Finset.mul_sum]
      apply Finset.sum_congr rfl
      intro i _
      simp only [← mul_sub, mul_left_comm _ c, ← Finset.mul_sum]
      ring
  case totdev =>
    rw [Spec.totdev, Spec.totdev, ← rms_scale]
    refine rms_congr _ (fun i _ => ?_)
    have : ∀ j, reflect (fun i => c * x i) N j = c * reflect x N j := by
      intro j; unfold reflect; split_ifs <;> ring
    simp only [this]; ring
  case mtotdev => exact hmtot _
  case ttotdev => rw [hmtot]; ring
  case htotdev =>
    unfold htotdev'
    split_ifs with h1
    · exact hohdev _ _
    · unfold Spec.htotdev
      rw [← sqrt_scale, Finset.mul_sum]
      congr 2
      refine Finset.sum_congr rfl (fun i _ => ?_)
      rw [← totTerm_scale]
      congr 1
      funext k
      unfold freqOf; ring
  case theo1 =>
    unfold Spec.theo1
    rw [← sqrt_scale, Finset.mul_sum]
    congr 2
    refine Finset.sum_congr rfl (fun i _ => ?_)
    rw [Finset.mul_sum]
    refine Finset.sum_congr rfl (fun d _ => ?_)
    ring
  case tierms =>
    rw [Spec.tierms, Spec.tierms, ← rms_scale]
    exact rms_congr _ (fun i _ => by ring)
  case mtie => exact mtie_scale x c N m hN

end AT
