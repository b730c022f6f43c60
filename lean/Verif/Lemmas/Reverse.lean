import Verif.Lemmas.Invar

/-! # Time reversal and change of rate -/

namespace AT

open Spec Finset Real

/-- the sum of squares over a reflected index range -/
theorem rms_reflect {n : ℕ} {f g : ℕ → ℝ} (c : ℝ) (h : ∀ i < n, f i ^ 2 = g (n - 1 - i) ^ 2) :
    rms n f c = rms n g c := by
  unfold rms
  rw [← Finset.sum_range_reflect (fun i => g i ^ 2) n]
  rw [Finset.sum_congr rfl (fun i hi => h i (Finset.mem_range.1 hi))]

theorem d2_rev (x : ℕ → ℝ) (N m i : ℕ) (h : i + 2 * m < N) :
    d2 (fun i => x (N - 1 - i)) m i = d2 x m (N - 2 * m - 1 - i) := by
  unfold d2
  simp only
  rw [show N - 2 * m - 1 - i + 2 * m = N - 1 - i by omega,
    show N - 2 * m - 1 - i + m = N - 1 - (i + m) by omega,
    show N - 2 * m - 1 - i = N - 1 - (i + 2 * m) by omega]
  ring

theorem d3_rev (x : ℕ → ℝ) (N m i : ℕ) (h : i + 3 * m < N) :
    d3 (fun i => x (N - 1 - i)) m i = - d3 x m (N - 3 * m - 1 - i) := by
  unfold d3
  simp only
  rw [show N - 3 * m - 1 - i + 3 * m = N - 1 - i by omega,
    show N - 3 * m - 1 - i + 2 * m = N - 1 - (i + m) by omega,
    show N - 3 * m - 1 - i + m = N - 1 - (i + 2 * m) by omega,
    show N - 3 * m - 1 - i = N - 1 - (i + 3 * m) by omega]
  ring

theorem reflect_rev (x : ℕ → ℝ) (N : ℕ) (j : ℤ) (h1 : -(N : ℤ) < j)
    (h2 : j < 2 * N - 1) :
    reflect (fun i => x (N - 1 - i)) N j = reflect x N (N - 1 - j) := by
  unfold reflect
  simp only [Nat.sub_zero, Nat.sub_self]
  split_ifs <;> first
    | omega
    | (congr 1; omega)
    | (congr 2; omega)

theorem mtie_rev (x : ℕ → ℝ) (N m : ℕ) :
    Spec.mtie (fun i => x (N - 1 - i)) N m = Spec.mtie x N m := by
  unfold Spec.mtie
  congr 1
  ext d
  constructor
  · rintro ⟨i, j, a, b, c, rfl⟩
    exact ⟨N - 1 - j, N - 1 - i, by omega, by omega, by omega, abs_sub_comm _ _⟩
  · rintro ⟨i, j, a, b, c, rfl⟩
    refine ⟨N - 1 - j, N - 1 - i, by omega, by omega, by omega, ?_⟩
    simp only
    rw [show N - 1 - (N - 1 - j) = j by omega, show N - 1 - (N - 1 - i) = i by omega, abs_sub_comm]

/-- reversing the data does not change the overlapping statistics -/
theorem value_rev (fn : DevName)
    (hfn : fn = .oadev ∨ fn = .mdev ∨ fn = .tdev ∨ fn = .ohdev ∨ fn = .totdev ∨ fn = .tierms ∨
      fn = .mtie) (x : ℕ → ℝ) {N m : ℕ} (rate : ℝ) (hu : Usable fn N m) :
    value fn (fun i => x (N - 1 - i)) N rate m = value fn x N rate m := by
  obtain ⟨hm, hl, hx, he, hc⟩ := hu
  have hmdev : 1 < (N : ℤ) - 3 * m + 1 →
      ∀ τ, Spec.mdev (fun i => x (N - 1 - i)) N m τ = Spec.mdev x N m τ := by
    intro hc τ
    refine rms_reflect _ (fun j hj => ?_)
    congr 1
    rw [← Finset.sum_range_reflect (fun i => d2 x m (N - 3 * m + 1 - 1 - j + i)) m]
    apply Finset.sum_congr rfl
    intro i hi
    rw [Finset.mem_range] at hi
    rw [d2_rev _ _ _ _ (by omega)]
    congr 1
    omega
  rcases hfn with rfl | rfl | rfl | rfl | rfl | rfl | rfl <;>
    simp only [count, lenOf, reduceCtorEq, if_false] at hl hc <;> simp only [value]
  · refine rms_reflect _ (fun i hi => ?_)
    rw [d2_rev _ _ _ _ (by omega)]
  · exact hmdev hc _
  · unfold Spec.tdev; rw [hmdev hc]
  · refine rms_reflect _ (fun i hi => ?_)
    rw [d3_rev _ _ _ _ (by omega), neg_sq]
  · refine rms_reflect _ (fun i hi => ?_)
    rw [reflect_rev x N _ (by omega) (by omega),
      reflect_rev x N _ (by omega) (by omega), reflect_rev x N _ (by omega) (by omega),
      show (N : ℤ) - 1 - ((i : ℤ) + 1 - m) = ((N - 2 - 1 - i : ℕ) : ℤ) + 1 + m by omega,
      show (N : ℤ) - 1 - ((i : ℤ) + 1) = ((N - 2 - 1 - i : ℕ) : ℤ) + 1 by omega,
      show (N : ℤ) - 1 - ((i : ℤ) + 1 + m) = ((N - 2 - 1 - i : ℕ) : ℤ) + 1 - m by omega]
    ring
  · refine rms_reflect _ (fun i hi => ?_)
    simp only
    rw [show N - 1 - (i + m) = N - m - 1 - i by omega,
      show N - m - 1 - i + m = N - 1 - i by omega]
    ring
  · exact mtie_rev x N m

/-! ## rate -/

/-- the factor by which a rate `r` multiplies the deviation found at rate 1 -/
noncomputable def rateFactor (fn : DevName) (r : ℝ) : ℝ :=
  match fn with
  | .tdev | .ttotdev | .tierms | .mtie => 1
  | _ => r

theorem sqrt_rate (S A t r n : ℝ) (hr : 0 < r) :
    √(S / (A * (t / r) ^ 2 * n)) = r * √(S / (A * (t / 1) ^ 2 * n)) := by
  have e : S / (A * (t / r) ^ 2 * n) = r ^ 2 * (S / (A * (t / 1) ^ 2 * n)) := by
    field_simp
  rw [e, Real.sqrt_mul (sq_nonneg r), Real.sqrt_sq hr.le]

theorem value_rate (fn : DevName) (x : ℕ → ℝ) (N m : ℕ) (r : ℝ) (hr : 0 < r) :
    value fn x N r m = rateFactor fn r * value fn x N 1 m := by
  have hoadev : ∀ m : ℕ, Spec.oadev x N m (m / r) = r * Spec.oadev x N m (m / 1) :=
    fun m => sqrt_rate _ _ _ _ _ hr
  have hohdev : ∀ m : ℕ, Spec.ohdev x N m (m / r) = r * Spec.ohdev x N m (m / 1) :=
    fun m => sqrt_rate _ _ _ _ _ hr
  have hmdev : Spec.mdev x N m (m / r) = r * Spec.mdev x N m (m / 1) := sqrt_rate _ _ _ _ _ hr
  have hmtot : Spec.mtotdev x N m (m / r) = r * Spec.mtotdev x N m (m / 1) := sqrt_rate _ _ _ _ _ hr
  unfold value rateFactor
  cases fn <;> simp only [one_mul]
  case adev => exact sqrt_rate _ _ _ _ _ hr
  case oadev => exact hoadev m
  case mdev => exact hmdev
  case tdev => unfold Spec.tdev; rw [hmdev]; field_simp
  case hdev => exact sqrt_rate _ _ _ _ _ hr
  case ohdev => exact hohdev m
  case pdev =>
    unfold Spec.pdev
    split_ifs with h
    · subst h; simpa using hoadev 1
    · have := sqrt_rate (72 * (∑ i ∈ range (N - 2 * m),
        (∑ k ∈ range m, (((m : ℝ) - 1) / 2 - (k : ℝ)) * (x (i + k) - x (i + m + k))) ^ 2))
        (((N : ℝ) - 2 * m) * (m : ℝ) ^ 4) m r 1 hr
      simpa only [mul_one] using this
  case totdev => exact sqrt_rate _ _ _ _ _ hr
  case mtotdev => exact hmtot
  case ttotdev => rw [hmtot]; field_simp
  case htotdev =>
    unfold htotdev'
    split_ifs with h
    · subst h; simpa using hohdev 1
    · unfold Spec.htotdev
      conv_rhs => rw [← abs_of_pos hr, ← sqrt_scale, Finset.mul_sum]
      congr 2
      refine Finset.sum_congr rfl (fun i _ => ?_)
      rw [← totTerm_scale]
      congr 1
      funext k
      unfold freqOf; ring
  case theo1 =>
    have := sqrt_rate (∑ i ∈ range (N - m), ∑ d ∈ range (m / 2),
      ((x i - x (i + m / 2 - d)) + (x (i + m) - x (i + m / 2 + d))) ^ 2 / (((m / 2 : ℕ) : ℝ) - d))
      (3 / 4 * ((N : ℝ) - m)) m r 1 hr
    unfold Spec.theo1
    simpa only [mul_one] using this

end AT
