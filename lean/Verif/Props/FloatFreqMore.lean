import Verif.Model.FloatMoreFreq
import Verif.Spec.FloatMoreFreq
import Verif.Props.FloatMore
import Verif.Lemmas.Invar

/-!
# C99: rounding errors of the other deviations for inexact phase data and for frequency data

Property: with every operation rounded to double precision `totdev`, `pdev`, `theo1`, `tierms`,
`mtie` and `gcodev` of phase data that carry errors of at most `δ` agree with the exact results up to
the bounds of C87 and a multiple of `δ/tau`; `tierms` and `mtie` see also a frequency offset.  For `N`
frequency values they agree with the exact functions up to the relative errors of C87 and an
absolute error of `c N²` roundings of `F/(rate tau)`, where `F` is the largest distance of a value from
the mean plus the possible error of the mean.  For `tierms` and `mtie` the error of the mean frequency
counts as such, times tau.
-/

namespace AT

open Spec Finset Real

variable {fl : ℝ → ℝ} {sum : List ℝ → ℝ}

/-! ## Errors of the data and errors of the computation -/

theorem Spec.FloatClose.toE {bound : ℝ → ℝ → ℤ → ℝ} {o o' : DevOut ℝ} (h : FloatClose bound o o') :
    FloatCloseE bound (fun _ d n => d / √(n : ℝ)) o o' :=
  ⟨h.ns, h.taus, h.devs_len, h.devs, by
    obtain ⟨e, h1, h2, h3⟩ := h.errs
    exact ⟨e, h1, h2, fun i hi => by rw [← h.ns]; exact h3 i hi⟩⟩

/-- two tables over the same factors -/
theorem near_of_float {A T T' : Py (DevOut ℝ)} {bound bound' errOf : ℝ → ℝ → ℤ → ℝ} {N : ℕ} {rate : ℝ}
    {taus : TausArg} {even : Bool} {mx : ℝ} {dev' dev err' err : ℕ → ℝ} {n : ℕ → ℤ}
    (h : (∃ e, A = .error e ∧ T' = .error e) ∨
      ∃ o o', A = .ok o ∧ T' = .ok o' ∧ FloatCloseE bound errOf o o')
    (hT' : T' = table N rate taus even mx dev' err' n) (hT : T = table N rate taus even mx dev err n)
    (H : ∀ m, 0 < m → m < N → (even = true → Even m) → 1 < n m → ∀ r,
      |r - dev' m| ≤ bound (m / rate) (dev' m) (n m) → |r - dev m| ≤ bound' (m / rate) (dev m) (n m)) :
    (∃ e, A = .error e ∧ T = .error e) ∨
      ∃ o o', A = .ok o ∧ T = .ok o' ∧ FloatCloseE bound' errOf o o' := by
  unfold table at hT' hT
  rcases factors_cases (N := N) (rate := rate) (taus := taus) (even := even) (mx := mx) with ⟨e, he⟩ | ⟨ms, hms⟩
  · rw [he] at hT' hT
    simp only [error_bind] at hT' hT
    rcases h with ⟨e', h1, h2⟩ | ⟨o, o', h1, h2, _⟩
    · left
      refine ⟨e', h1, ?_⟩
      rw [hT, ← hT', h2]
    · rw [hT'] at h2; cases h2
  rw [hms] at hT' hT
  simp only [ok_bind, sweep] at hT' hT
  set kept := ms.filter (fun m => decide (1 < n m)) with hk
  by_cases h0 : kept = []
  · rw [if_pos h0] at hT' hT
    rcases h with ⟨e', h1, h2⟩ | ⟨o, o', h1, h2, _⟩
    · left
      refine ⟨e', h1, ?_⟩
      rw [hT, ← hT', h2]
    · rw [hT'] at h2; cases h2
  rw [if_neg h0] at hT' hT
  rcases h with ⟨e', h1, h2⟩ | ⟨o, o', h1, h2, h3⟩
  · rw [hT'] at h2; cases h2
  right
  rw [hT'] at h2
  cases h2
  refine ⟨o, _, h1, hT, ⟨h3.ns, h3.taus, ?_, ?_, h3.errs⟩⟩
  · have := h3.devs_len
    simp only [List.length_map] at this ⊢
    exact this
  · intro i hi
    have h4 := h3.devs i hi
    simp only [List.length_map] at hi
    have gd : ∀ {β : Type} (f : ℕ → β) (z : β), (kept.map f).getD i z = f kept[i] := by
      intro β f z
      rw [List.getD_eq_getElem _ _ (by simpa using hi), List.getElem_map]
    simp only [gd] at h4 ⊢
    have hm : ∀ k ∈ kept, k ∈ ms ∧ 1 < n k := by
      intro k h
      rw [hk, List.mem_filter, decide_eq_true_eq] at h
      exact h
    replace hm := hm _ (List.getElem_mem hi)
    obtain ⟨a, b, _, c, _⟩ := factors_mem hms hm.1
    exact H _ a b c hm.2 _ h4

theorem near_of_close {A T T' : Py (DevOut ℝ)} {bound bound' : ℝ → ℝ → ℤ → ℝ} {N : ℕ} {rate : ℝ}
    {taus : TausArg} {even : Bool} {mx : ℝ} {dev' dev err' err : ℕ → ℝ} {n : ℕ → ℤ}
    (h : (∃ e, A = .error e ∧ T' = .error e) ∨
      ∃ o o', A = .ok o ∧ T' = .ok o' ∧ FloatClose bound o o')
    (hT' : T' = table N rate taus even mx dev' err' n) (hT : T = table N rate taus even mx dev err n)
    (H : ∀ m, 0 < m → m < N → (even = true → Even m) → 1 < n m → ∀ r,
      |r - dev' m| ≤ bound (m / rate) (dev' m) (n m) → |r - dev m| ≤ bound' (m / rate) (dev m) (n m)) :
    (∃ e, A = .error e ∧ T = .error e) ∨
      ∃ o o', A = .ok o ∧ T = .ok o' ∧ FloatClose bound' o o' := by
  rcases near_of_float (errOf := fun _ d n => d / √(n : ℝ))
    (h.imp id (fun ⟨o, o', h1, h2, h3⟩ => ⟨o, o', h1, h2, h3.toE⟩)) hT' hT H with h | ⟨o, o', h1, h2, h3⟩
  · exact Or.inl h
  · exact Or.inr ⟨o, o', h1, h2, h3.close⟩

/-! ## The exact deviations of data with errors -/

theorem reflect_near {x' x : ℕ → ℝ} {N : ℕ} {δ : ℝ} (h : ∀ i < N, |x' i - x i| ≤ δ) (j : ℤ)
    (h1 : -(N : ℤ) < j) (h2 : j ≤ 2 * ((N : ℤ) - 1)) : |reflect x' N j - reflect x N j| ≤ 3 * δ := by
  have hN : 0 < N := by omega
  have hδ : 0 ≤ δ := (abs_nonneg _).trans (h 0 hN)
  have key : ∀ a b : ℕ, a < N → b < N → |(2 * x' a - x' b) - (2 * x a - x b)| ≤ 3 * δ := by
    intro a b ha hb
    have p := abs_le.1 (h a ha)
    have q := abs_le.1 (h b hb)
    rw [abs_le]
    constructor <;> linarith [p.1, p.2, q.1, q.2]
  unfold reflect
  by_cases c1 : j < 0
  · rw [if_pos c1, if_pos c1]
    exact key _ _ (by omega) (by omega)
  rw [if_neg c1, if_neg c1]
  by_cases c2 : j < N
  · rw [if_pos c2, if_pos c2]
    exact (h _ (by omega)).trans (by linarith)
  · rw [if_neg c2, if_neg c2]
    exact key _ _ (by omega) (by omega)

theorem totdev_offset (x : ℕ → ℝ) (b : ℝ) (N m : ℕ) (hN : 0 < N) (hm : m < N) (τ : ℝ) :
    Spec.totdev (fun i => x i + b * i) N m τ = Spec.totdev x N m τ := by
  unfold Spec.totdev
  apply rms_congr
  intro k hk
  have e : (fun i : ℕ => x i + b * i) = fun i : ℕ => x i + (0 + b * i) := by funext i; ring
  rw [e, reflect_affine x 0 b N hN _ (by omega), reflect_affine x 0 b N hN _ (by omega),
    reflect_affine x 0 b N hN _ (by omega)]
  push_cast
  ring

theorem totdev_perturb {x' x : ℕ → ℝ} {N m : ℕ} {δ τ b : ℝ} (hτ : 0 < τ)
    (h : ∀ i < N, |x' i - (x i + b * i)| ≤ δ) (hm : m < N) (hn : 2 < N) :
    |Spec.totdev x' N m τ - Spec.totdev x N m τ| ≤ 8 * δ / (14 / 10) / τ := by
  rw [← totdev_offset x b N m (by omega) hm]
  have e : ((N : ℝ) - 2) = ((N - 2 : ℕ) : ℝ) := by rw [Nat.cast_sub hn.le]; push_cast; ring
  unfold Spec.totdev
  rw [e]
  refine rms_near _ (by omega) _ _ 2 τ _ _ two_pos hτ (by norm_num) sqrt_two_gt.le (fun k hk => ?_)
  have p1 := abs_le.1 (reflect_near h ((k : ℤ) + 1 - m) (by omega) (by omega))
  have p3 := abs_le.1 (reflect_near h ((k : ℤ) + 1 + m) (by omega) (by omega))
  have p2 := abs_le.1 (h (k + 1) (by omega))
  have q : ∀ z : ℕ → ℝ, reflect z N ((k : ℤ) + 1) = z (k + 1) := by
    intro z
    unfold reflect
    rw [if_neg (by omega), if_pos (by omega)]
    congr 1
  rw [q, q, abs_le]
  constructor <;> linarith [p1.1, p1.2, p2.1, p2.2, p3.1, p3.2]

theorem pdev_offset (x : ℕ → ℝ) (b : ℝ) (N m : ℕ) (τ : ℝ) :
    Spec.pdev (fun i => x i + b * i) N m τ = Spec.pdev x N m τ := by
  unfold Spec.pdev
  rw [oadev_offset]
  congr 5
  funext i
  congr 1
  have : ∀ k ∈ range m, (((m : ℝ) - 1) / 2 - k) * (x (i + k) + b * ((i + k : ℕ) : ℝ) -
      (x (i + m + k) + b * ((i + m + k : ℕ) : ℝ))) =
      (((m : ℝ) - 1) / 2 - k) * (x (i + k) - x (i + m + k)) - b * m * (((m : ℝ) - 1) / 2 - k) := by
    intro k _
    push_cast
    ring
  rw [Finset.sum_congr rfl this, Finset.sum_sub_distrib, ← Finset.mul_sum, sum_centered]
  ring

theorem pdev_perturb {x' x : ℕ → ℝ} {N m : ℕ} {δ τ b : ℝ} (hτ : 0 < τ)
    (h : ∀ i < N, |x' i - (x i + b * i)| ≤ δ) (hm : 0 < m) (hn : 2 * m < N) :
    |Spec.pdev x' N m τ - Spec.pdev x N m τ| ≤ 85 / 10 * δ / τ := by
  have hδ : 0 ≤ δ := (abs_nonneg _).trans (h 0 (by omega))
  by_cases h1 : m = 1
  · subst h1
    unfold Spec.pdev
    rw [if_pos rfl, if_pos rfl]
    refine (oadev_perturb hτ h hn).trans ?_
    apply div_le_div_of_nonneg_right _ hτ.le
    linarith
  rw [← pdev_offset x b]
  have hm' : (0 : ℝ) < m := by exact_mod_cast hm
  have e : ((N : ℝ) - 2 * m) = ((N - 2 * m : ℕ) : ℝ) := by rw [Nat.cast_sub hn.le]; push_cast; ring
  have hn' : (0 : ℝ) < ((N - 2 * m : ℕ) : ℝ) := by exact_mod_cast (by omega : 0 < N - 2 * m)
  unfold Spec.pdev
  rw [if_neg h1, if_neg h1, e]
  have e2 : ∀ S : ℝ, 72 * S / (((N - 2 * m : ℕ) : ℝ) * (m : ℝ) ^ 4 * τ ^ 2) =
      S / ((m : ℝ) ^ 4 * τ ^ 2 / 72 * ((N - 2 * m : ℕ) : ℝ)) := by
    intro S
    rw [div_eq_div_iff (by positivity) (by positivity)]
    ring
  rw [e2, e2]
  refine (rms_perturb _ (by omega) _ _ ((m : ℝ) ^ 4 * τ ^ 2 / 72) (m ^ 2 * δ) (by positivity)
    (fun i hi => ?_)).trans ?_
  · rw [← Finset.sum_sub_distrib]
    refine (Finset.abs_sum_le_sum_abs _ _).trans ?_
    calc ∑ k ∈ range m, |(((m : ℝ) - 1) / 2 - k) * (x' (i + k) - x' (i + m + k)) -
          (((m : ℝ) - 1) / 2 - k) * (x (i + k) + b * ((i + k : ℕ) : ℝ) -
            (x (i + m + k) + b * ((i + m + k : ℕ) : ℝ)))|
        ≤ ∑ k ∈ range m, (m : ℝ) / 2 * (2 * δ) := by
          apply Finset.sum_le_sum
          intro k hk
          rw [Finset.mem_range] at hk
          rw [← mul_sub, abs_mul]
          have hk1 : ((k : ℝ) + 1) ≤ m := by exact_mod_cast hk
          have hk0 : (0 : ℝ) ≤ k := Nat.cast_nonneg k
          have p := abs_le.1 (h (i + k) (by omega))
          have q := abs_le.1 (h (i + m + k) (by omega))
          apply mul_le_mul
          · rw [abs_le]; constructor <;> linarith
          · rw [abs_le]; constructor <;> linarith [p.1, p.2, q.1, q.2]
          · exact abs_nonneg _
          · positivity
      _ = (m : ℝ) ^ 2 * δ := by
          rw [Finset.sum_const, card_range, nsmul_eq_mul]; ring
  · have s1 : (10 / 85 : ℝ) * (m ^ 2 * τ) ≤ √((m : ℝ) ^ 4 * τ ^ 2 / 72) := by
      apply Real.le_sqrt_of_sq_le
      have : 0 ≤ (m : ℝ) ^ 4 * τ ^ 2 := by positivity
      calc ((10 / 85 : ℝ) * (m ^ 2 * τ)) ^ 2 = (10 / 85) ^ 2 * ((m : ℝ) ^ 4 * τ ^ 2) := by ring
        _ ≤ (m : ℝ) ^ 4 * τ ^ 2 / 72 := by
          linarith
    refine (div_le_div_of_nonneg_left (by positivity) (by positivity) s1).trans (le_of_eq ?_)
    field_simp

theorem theo1_offset (x : ℕ → ℝ) (b : ℝ) (N m : ℕ) (he : Even m) (τ : ℝ) :
    Spec.theo1 (fun i => x i + b * i) N m τ = Spec.theo1 x N m τ := by
  obtain ⟨h, rfl⟩ := he
  unfold Spec.theo1
  congr 2
  apply Finset.sum_congr rfl
  intro i _
  apply Finset.sum_congr rfl
  intro d hd
  rw [Finset.mem_range] at hd
  congr 2
  have e : ((i + (h + h) / 2 - d : ℕ) : ℝ) = i + h - d := by
    rw [Nat.cast_sub (by omega), show (h + h) / 2 = h by omega]; push_cast; ring
  have e' : ((i + (h + h) / 2 + d : ℕ) : ℝ) = i + h + d := by
    rw [show (h + h) / 2 = h by omega]; push_cast; ring
  simp only [e, e']
  push_cast
  ring

theorem theo1_perturb {x' x : ℕ → ℝ} {N m : ℕ} {δ τ b : ℝ} (hτ : 0 < τ)
    (h : ∀ i < N, |x' i - (x i + b * i)| ≤ δ) (he : Even m) (hm : 0 < m) (hn : m < N) (hN : N ≤ 2 ^ 26 + 1) :
    |Spec.theo1 x' N m τ - Spec.theo1 x N m τ| ≤ 198 / 10 * δ / τ := by
  rw [← theo1_offset x b N m he]
  obtain ⟨k, rfl⟩ := he
  have e2 : (k + k) / 2 = k := by omega
  have hδ : 0 ≤ δ := (abs_nonneg _).trans (h 0 (by omega))
  have hn' : (0 : ℝ) < (N : ℝ) - (k + k : ℕ) := by
    rw [sub_pos]; exact_mod_cast hn
  have hq := wrms_perturb (range (N - (k + k)) ×ˢ range k) (fun p => 1 / ((k : ℝ) - p.2))
    (fun p => (x' p.1 - x' (p.1 + k - p.2)) + (x' (p.1 + (k + k)) - x' (p.1 + k + p.2)))
    (fun p => ((x p.1 + b * (p.1 : ℕ)) - (x (p.1 + k - p.2) + b * ((p.1 + k - p.2 : ℕ) : ℝ))) +
      ((x (p.1 + (k + k)) + b * ((p.1 + (k + k) : ℕ) : ℝ)) - (x (p.1 + k + p.2) + b * ((p.1 + k + p.2 : ℕ) : ℝ))))
    (3 / 4 * ((N : ℝ) - (k + k : ℕ)) * τ ^ 2) (4 * δ) (by positivity) (by positivity) (fun p hp => by
      have := Finset.mem_range.1 (Finset.mem_product.1 hp).2
      have : ((p.2 : ℕ) : ℝ) < k := by exact_mod_cast this
      have : 0 < (k : ℝ) - p.2 := by linarith
      positivity) (fun p hp => by
      have h1 := Finset.mem_range.1 (Finset.mem_product.1 hp).1
      have h2 := Finset.mem_range.1 (Finset.mem_product.1 hp).2
      have q1 := abs_le.1 (h p.1 (by omega))
      have q2 := abs_le.1 (h (p.1 + k - p.2) (by omega))
      have q3 := abs_le.1 (h (p.1 + (k + k)) (by omega))
      have q4 := abs_le.1 (h (p.1 + k + p.2) (by omega))
      rw [abs_le]
      constructor <;> linarith [q1.1, q1.2, q2.1, q2.2, q3.1, q3.2, q4.1, q4.2])
  rw [Finset.sum_product, Finset.sum_product, Finset.sum_product] at hq
  simp only [one_div_mul_eq_div] at hq
  unfold Spec.theo1
  rw [e2]
  refine hq.trans ?_
  have hH := theo1_weights k (by omega) (by omega)
  have e6 : √((∑ _i ∈ range (N - (k + k)), ∑ d ∈ range k, 1 / ((k : ℝ) - d)) /
      (3 / 4 * ((N : ℝ) - (k + k : ℕ)) * τ ^ 2)) ≤ 495 / 100 / τ := by
    rw [Finset.sum_const, card_range, nsmul_eq_mul, Nat.cast_sub hn.le]
    generalize (N : ℝ) - ((k + k : ℕ) : ℝ) = M at hn' ⊢
    rw [show M * (∑ d ∈ range k, 1 / ((k : ℝ) - d)) / (3 / 4 * M * τ ^ 2) =
        4 / 3 * (∑ d ∈ range k, 1 / ((k : ℝ) - d)) / τ ^ 2 by
          generalize (∑ d ∈ range k, 1 / ((k : ℝ) - d)) = S
          rw [div_eq_div_iff (by positivity) (by positivity)]
          ring,
      Real.sqrt_div' _ (by positivity), Real.sqrt_sq hτ.le]
    apply div_le_div_of_nonneg_right _ hτ.le
    rw [Real.sqrt_le_left (by norm_num)]
    linarith
  calc _ ≤ 4 * δ * (495 / 100 / τ) := mul_le_mul_of_nonneg_left e6 (by positivity)
    _ = 198 / 10 * δ / τ := by ring

theorem tie_perturb {x' x : ℕ → ℝ} {N : ℕ} {δ b : ℝ} (h : ∀ i < N, |x' i - (x i + b * i)| ≤ δ) {i j m : ℕ}
    (hij : i ≤ j) (hj : j < N) (hm : j ≤ i + m) :
    |(x' j - x' i) - (x j - x i)| ≤ 2 * δ + |b| * m := by
  have p := h i (by omega)
  have q := h j hj
  have e : (x' j - x' i) - (x j - x i) = (x' j - (x j + b * j)) - (x' i - (x i + b * i)) + b * ((j : ℝ) - i) := by
    ring
  have hd : |b * ((j : ℝ) - i)| ≤ |b| * m := by
    rw [abs_mul]
    apply mul_le_mul_of_nonneg_left _ (abs_nonneg b)
    have h1 : (i : ℝ) ≤ j := by exact_mod_cast hij
    have h2 : (j : ℝ) ≤ i + m := by exact_mod_cast hm
    rw [abs_of_nonneg (by linarith)]
    linarith
  rw [e]
  have := abs_add_le ((x' j - (x j + b * j)) - (x' i - (x i + b * i))) (b * ((j : ℝ) - i))
  have := abs_sub (x' j - (x j + b * j)) (x' i - (x i + b * i))
  linarith

theorem tierms_perturb {x' x : ℕ → ℝ} {N m : ℕ} {δ b : ℝ}
    (h : ∀ i < N, |x' i - (x i + b * i)| ≤ δ) (hn : m < N) :
    |Spec.tierms x' N m - Spec.tierms x N m| ≤ 2 * δ + |b| * m := by
  have e : ((N : ℝ) - m) = 1 * ((N - m : ℕ) : ℝ) := by rw [Nat.cast_sub hn.le]; ring
  unfold Spec.tierms rms
  rw [e]
  have := rms_perturb (N - m) (by omega) (fun i => x' (i + m) - x' i) (fun i => x (i + m) - x i) 1
    (2 * δ + |b| * m) one_pos (fun i hi => tie_perturb h (by omega) (by omega) (by omega))
  rwa [Real.sqrt_one, div_one] at this

theorem mtie_perturb {x' x : ℕ → ℝ} {N m : ℕ} {δ b : ℝ}
    (h : ∀ i < N, |x' i - (x i + b * i)| ≤ δ) (hn : 0 < N) :
    |Spec.mtie x' N m - Spec.mtie x N m| ≤ 2 * δ + |b| * m := by
  obtain ⟨⟨i, j, h1, h2, h3, h4⟩, g⟩ := mtie_greatest (x := x') (m := m) hn
  obtain ⟨⟨i', j', h1', h2', h3', h4'⟩, g'⟩ := mtie_greatest (x := x) (m := m) hn
  have a := g' ⟨i, j, h1, h2, h3, rfl⟩
  have a' := g ⟨i', j', h1', h2', h3', rfl⟩
  have t := tie_perturb h h1 h3 h2
  have t' := tie_perturb h h1' h3' h2'
  have u := (abs_abs_sub_abs_le (x' j - x' i) (x j - x i)).trans t
  have u' := (abs_abs_sub_abs_le (x' j' - x' i') (x j' - x i')).trans t'
  rw [abs_le] at u u' ⊢
  constructor <;> linarith [u.1, u.2, u'.1, u'.2]

theorem gcodev_offset (x y : ℕ → ℝ) (b c : ℝ) (N m : ℕ) (τ : ℝ) :
    Spec.gcodev (fun i => x i + b * i) (fun i => y i + c * i) N m τ = Spec.gcodev x y N m τ := by
  unfold Spec.gcodev
  simp only [d2_lin]

theorem gcodev_perturb {x' x y' y : ℕ → ℝ} {N m : ℕ} {δ₁ δ₂ B₁ B₂ τ b c : ℝ} (hτ : 0 < τ)
    (h₁ : ∀ i < N, |x' i - (x i + b * i)| ≤ δ₁) (h₂ : ∀ i < N, |y' i - (y i + c * i)| ≤ δ₂)
    (hB₁ : ∀ i < N, |x' i| ≤ B₁) (hB₂ : ∀ i < N, |y' i| ≤ B₂) (hn : 2 * m < N) :
    |Spec.gcodev x' y' N m τ - Spec.gcodev x y N m τ| ≤ √(8 * (δ₁ * B₂ + δ₂ * B₁ + δ₁ * δ₂)) / τ := by
  rw [← gcodev_offset x y b c]
  have e : ((N : ℝ) - 2 * m) = ((N - 2 * m : ℕ) : ℝ) := by rw [Nat.cast_sub hn.le]; push_cast; ring
  have hn' : (0 : ℝ) < ((N - 2 * m : ℕ) : ℝ) := by exact_mod_cast (by omega : 0 < N - 2 * m)
  have hδ₁ : 0 ≤ δ₁ := (abs_nonneg _).trans (h₁ 0 (by omega))
  have hδ₂ : 0 ≤ δ₂ := (abs_nonneg _).trans (h₂ 0 (by omega))
  unfold Spec.gcodev
  rw [e, ← sub_div, abs_div, abs_of_pos hτ]
  apply div_le_div_of_nonneg_right _ hτ.le
  set n := N - 2 * m with hnd
  have ad : ∀ S : ℝ, |S| / (2 * (n : ℝ)) = |S / (2 * (n : ℝ))| := by
    intro S; rw [abs_div, abs_of_pos (by positivity : (0 : ℝ) < 2 * n)]
  rw [ad, ad]
  refine (sqrt_abs_sub_le _ _).trans (Real.sqrt_le_sqrt ?_)
  rw [← sub_div, abs_div, abs_of_pos (by positivity : (0 : ℝ) < 2 * n), div_le_iff₀ (by positivity),
    ← Finset.sum_sub_distrib]
  refine (Finset.abs_sum_le_sum_abs _ _).trans ?_
  set X : ℕ → ℝ := fun i => x i + b * i with hX
  set Y : ℕ → ℝ := fun i => y i + c * i with hY
  calc ∑ i ∈ range n, |d2 x' m i * d2 y' m i - d2 X m i * d2 Y m i|
      ≤ ∑ i ∈ range n, 16 * (δ₁ * B₂ + δ₂ * B₁ + δ₁ * δ₂) := by
        apply Finset.sum_le_sum
        intro i hi
        rw [Finset.mem_range] at hi
        have p : |d2 x' m i - d2 X m i| ≤ 4 * δ₁ :=
          d2_perturb (h₁ _ (by omega)) (h₁ _ (by omega)) (h₁ _ (by omega))
        have q : |d2 y' m i - d2 Y m i| ≤ 4 * δ₂ :=
          d2_perturb (h₂ _ (by omega)) (h₂ _ (by omega)) (h₂ _ (by omega))
        have sz : ∀ (z : ℕ → ℝ) (C : ℝ), (∀ i < N, |z i| ≤ C) → |d2 z m i| ≤ 4 * C := by
          intro z C hz
          have a := abs_le.1 (hz (i + 2 * m) (by omega))
          have b := abs_le.1 (hz (i + m) (by omega))
          have c := abs_le.1 (hz i (by omega))
          unfold d2
          rw [abs_le]
          constructor <;> linarith [a.1, a.2, b.1, b.2, c.1, c.2]
        have hx := sz x' B₁ hB₁
        have hy := sz y' B₂ hB₂
        have hB₁0 : 0 ≤ B₁ := (abs_nonneg _).trans (hB₁ 0 (by omega))
        have hB₂0 : 0 ≤ B₂ := (abs_nonneg _).trans (hB₂ 0 (by omega))
        generalize d2 x' m i = u at *
        generalize d2 y' m i = v at *
        generalize d2 X m i = u' at *
        generalize d2 Y m i = v' at *
        have e : u * v - u' * v' = (u - u') * v + u * (v - v') - (u - u') * (v - v') := by ring
        rw [e]
        have t1 := abs_sub ((u - u') * v + u * (v - v')) ((u - u') * (v - v'))
        have t2 := abs_add_le ((u - u') * v) (u * (v - v'))
        rw [abs_mul] at t1 t2
        rw [abs_mul u] at t2
        have m1 := mul_le_mul p hy (abs_nonneg _) (by positivity)
        have m2 := mul_le_mul hx q (abs_nonneg _) (by positivity)
        have m3 := mul_le_mul p q (abs_nonneg _) (by positivity)
        nlinarith
    _ = 8 * (δ₁ * B₂ + δ₂ * B₁ + δ₁ * δ₂) * (2 * n) := by
        rw [Finset.sum_const, card_range, nsmul_eq_mul]; ring

/-! ## Phase data with errors -/

theorem totdev_near_aux (hfl : FloatRound fl) (hsum : ∀ l, FloatSum fl l (sum l)) (log10grid x' x : List ℝ)
    (B δ b : ℝ) (hB : ∀ v ∈ x', |v| ≤ B) (hl : x'.length = x.length)
    (hδ : ∀ i < x.length, |seq x' i - (seq x i + b * i)| ≤ δ) (rate : ℝ) (hr : 0 < rate) (taus : TausArg)
    (hN : x.length ≤ 2 ^ 47) (ht : SafeTaus rate taus)
    (bound : ℝ → ℝ → ℤ → ℝ) (hbound : ∀ tau dev n, 0 < tau →
      Spec.totdevBound B tau dev n + 61 / 10 * δ / tau ≤ bound tau dev n) :
    (∃ e, totdev_fl fl sum log10grid x' rate taus = .error e ∧ totdev x rate "phase" taus = .error e) ∨
    ∃ o o', totdev_fl fl sum log10grid x' rate taus = .ok o ∧ totdev x rate "phase" taus = .ok o' ∧
      FloatClose bound o o' := by
  have h := totdev_float hfl hsum log10grid x' B hB rate hr taus (hl ▸ hN) ht
  rcases Nat.lt_or_ge x.length 2 with h2 | h2
  · have e : totdev x' rate "phase" taus = totdev x rate "phase" taus := by
      rw [totdev_short_eq x h2, totdev_short_eq x' (hl ▸ h2), hl]
      have : x' = [] ↔ x = [] := by rw [← List.length_eq_zero_iff, ← List.length_eq_zero_iff, hl]
      simp only [this]
    rw [e] at h
    have he : ∀ o, totdev x rate "phase" taus ≠ .ok o := by
      intro o
      rw [totdev_short_eq x h2]
      cases factors x.length rate taus false x.length <;> simp [ok_bind, error_bind]
    rcases h with h | ⟨o, o', _, h2, _⟩
    · exact Or.inl h
    · exact absurd h2 (he o')
  · have e' := totdev_phase_eq x' (hl ▸ h2) rate taus
    rw [hl] at e'
    refine near_of_close h e' (totdev_phase_eq x h2 rate taus) (fun m hm0 hmN _ hn r hr' => ?_)
    have hτ : (0 : ℝ) < m / rate := by
      have : (0 : ℝ) < m := by exact_mod_cast hm0
      positivity
    refine le_trans ?_ (hbound _ _ _ hτ)
    have hp := totdev_perturb (x' := seq x') (x := seq x) (N := x.length) (m := m) (b := b) hτ hδ hmN (by omega)
    unfold Spec.totdevBound at hr' ⊢
    refine row_near hr' hp (by omega) (by omega) (by norm_num) (by norm_num) ?_
    have hδ0 : 0 ≤ δ := (abs_nonneg _).trans (hδ 0 (by omega))
    have : 0 ≤ δ / (m / rate) := by positivity
    rw [div_right_comm, mul_div_assoc, mul_div_assoc _ δ]
    linarith

/-- C99: `totdev` in double precision of phase data `x'` with errors -/
theorem totdev_near (hfl : FloatRound fl) (hsum : ∀ l, FloatSum fl l (sum l)) (log10grid x' x : List ℝ)
    (B δ b : ℝ) (hB : ∀ v ∈ x', |v| ≤ B) (hl : x'.length = x.length)
    (hδ : ∀ i < x.length, |seq x' i - (seq x i + b * i)| ≤ δ) (rate : ℝ) (hr : 0 < rate) (taus : TausArg)
    (hN : x.length ≤ 2 ^ 47) (ht : SafeTaus rate taus) :
    (∃ e, totdev_fl fl sum log10grid x' rate taus = .error e ∧ totdev x rate "phase" taus = .error e) ∨
    ∃ o o', totdev_fl fl sum log10grid x' rate taus = .ok o ∧ totdev x rate "phase" taus = .ok o' ∧
      FloatClose (fun tau dev n => Spec.totdevBound B tau dev n + 61 / 10 * δ / tau) o o' :=
  totdev_near_aux hfl hsum log10grid x' x B δ b hB hl hδ rate hr taus hN ht _ (fun _ _ _ _ => le_rfl)

theorem pdev_near_aux (hfl : FloatRound fl) (hsum : ∀ l, FloatSum fl l (sum l)) (log10grid x' x : List ℝ)
    (B δ b : ℝ) (hB : ∀ v ∈ x', |v| ≤ B) (hl : x'.length = x.length)
    (hδ : ∀ i < x.length, |seq x' i - (seq x i + b * i)| ≤ δ) (rate : ℝ) (hr : 0 < rate) (taus : TausArg)
    (hN : x.length ≤ 2 ^ 47) (ht : SafeTaus rate taus)
    (bound : ℝ → ℝ → ℤ → ℝ) (hbound : ∀ tau dev n, 0 < tau →
      Spec.pdevBound rate B tau dev n + 91 / 10 * δ / tau ≤ bound tau dev n) :
    (∃ e, pdev_fl fl sum log10grid x' rate taus = .error e ∧ pdev x rate "phase" taus = .error e) ∨
    ∃ o o', pdev_fl fl sum log10grid x' rate taus = .ok o ∧ pdev x rate "phase" taus = .ok o' ∧
      FloatClose bound o o' := by
  have h := pdev_float hfl hsum log10grid x' B hB rate hr taus (hl ▸ hN) ht
  have e' := pdev_phase_eq x' rate hr.le taus
  rw [hl] at e'
  refine near_of_close h e' (pdev_phase_eq x rate hr.le taus) (fun m hm0 hmN _ hn r hr' => ?_)
  have hτ : (0 : ℝ) < m / rate := by
    have : (0 : ℝ) < m := by exact_mod_cast hm0
    positivity
  refine le_trans ?_ (hbound _ _ _ hτ)
  have hp := pdev_perturb (x' := seq x') (x := seq x) (N := x.length) (m := m) (b := b) hτ hδ hm0 (by omega)
  unfold Spec.pdevBound at hr' ⊢
  refine row_near hr' hp (by omega) (by omega) (by norm_num) (by norm_num) ?_
  have hδ0 : 0 ≤ δ := (abs_nonneg _).trans (hδ 0 (by omega))
  have : 0 ≤ δ / (m / rate) := by positivity
  rw [mul_div_assoc, mul_div_assoc _ δ]
  linarith

/-- C99: `pdev` in double precision of phase data `x'` with errors -/
theorem pdev_near (hfl : FloatRound fl) (hsum : ∀ l, FloatSum fl l (sum l)) (log10grid x' x : List ℝ)
    (B δ b : ℝ) (hB : ∀ v ∈ x', |v| ≤ B) (hl : x'.length = x.length)
    (hδ : ∀ i < x.length, |seq x' i - (seq x i + b * i)| ≤ δ) (rate : ℝ) (hr : 0 < rate) (taus : TausArg)
    (hN : x.length ≤ 2 ^ 47) (ht : SafeTaus rate taus) :
    (∃ e, pdev_fl fl sum log10grid x' rate taus = .error e ∧ pdev x rate "phase" taus = .error e) ∨
    ∃ o o', pdev_fl fl sum log10grid x' rate taus = .ok o ∧ pdev x rate "phase" taus = .ok o' ∧
      FloatClose (fun tau dev n => Spec.pdevBound rate B tau dev n + 91 / 10 * δ / tau) o o' :=
  pdev_near_aux hfl hsum log10grid x' x B δ b hB hl hδ rate hr taus hN ht _ (fun _ _ _ _ => le_rfl)

theorem theo1_near_aux (hfl : FloatRound fl) (hint : IntExact fl) (log10grid x' x : List ℝ)
    (B δ b : ℝ) (hB : ∀ v ∈ x', |v| ≤ B) (hl : x'.length = x.length)
    (hδ : ∀ i < x.length, |seq x' i - (seq x i + b * i)| ≤ δ) (rate : ℝ) (hr : 0 < rate) (taus : TausArg)
    (hN : x.length ≤ 2 ^ 26) (ht : SafeTaus rate taus)
    (bound : ℝ → ℝ → ℤ → ℝ) (hbound : ∀ tau dev n, 0 < tau →
      Spec.theo1Bound x.length B tau dev n + 211 / 10 * δ / tau ≤ bound tau dev n) :
    (∃ e, theo1_fl fl log10grid x' rate taus = .error e ∧ theo1 x rate "phase" taus = .error e) ∨
    ∃ o o', theo1_fl fl log10grid x' rate taus = .ok o ∧ theo1 x rate "phase" taus = .ok o' ∧
      FloatCloseE bound (fun tau d _ => d / √((x.length : ℝ) - tau * rate)) o o' := by
  have h := theo1_float hfl hint log10grid x' B hB rate hr taus (hl ▸ hN) ht
  have e' := theo1_phase_eq x' rate hr.ne' taus
  rw [hl] at e' h
  refine near_of_float h e' (theo1_phase_eq x rate hr.ne' taus) (fun m hm0 hmN he hn r hr' => ?_)
  have hτ : (0 : ℝ) < m / rate := by
    have : (0 : ℝ) < m := by exact_mod_cast hm0
    positivity
  refine le_trans ?_ (hbound _ _ _ hτ)
  have hp := theo1_perturb (x' := seq x') (x := seq x) (N := x.length) (m := m) (b := b) hτ hδ (he rfl) hm0 hmN
    (by omega)
  unfold Spec.theo1Bound at hr' ⊢
  have hc : ((x.length : ℤ) : ℝ) = (x.length : ℝ) := Int.cast_natCast _
  rw [← hc] at hr' ⊢
  refine row_near hr' hp (by omega) (by omega) (by norm_num) (by norm_num) ?_
  have hδ0 : 0 ≤ δ := (abs_nonneg _).trans (hδ 0 (by omega))
  have : 0 ≤ δ / (m / rate) := by positivity
  rw [mul_div_assoc, mul_div_assoc _ δ]
  linarith

/-- C99: `theo1` in double precision of phase data `x'` with errors -/
theorem theo1_near (hfl : FloatRound fl) (hint : IntExact fl) (log10grid x' x : List ℝ)
    (B δ b : ℝ) (hB : ∀ v ∈ x', |v| ≤ B) (hl : x'.length = x.length)
    (hδ : ∀ i < x.length, |seq x' i - (seq x i + b * i)| ≤ δ) (rate : ℝ) (hr : 0 < rate) (taus : TausArg)
    (hN : x.length ≤ 2 ^ 26) (ht : SafeTaus rate taus) :
    (∃ e, theo1_fl fl log10grid x' rate taus = .error e ∧ theo1 x rate "phase" taus = .error e) ∨
    ∃ o o', theo1_fl fl log10grid x' rate taus = .ok o ∧ theo1 x rate "phase" taus = .ok o' ∧
      FloatCloseE (fun tau dev n => Spec.theo1Bound x.length B tau dev n + 211 / 10 * δ / tau)
        (fun tau d _ => d / √((x.length : ℝ) - tau * rate)) o o' :=
  theo1_near_aux hfl hint log10grid x' x B δ b hB hl hδ rate hr taus hN ht _ (fun _ _ _ _ => le_rfl)

theorem tierms_near_aux (hfl : FloatRound fl) (hsum : ∀ l, FloatSum fl l (sum l)) (log10grid x' x : List ℝ)
    (δ b : ℝ) (hl : x'.length = x.length)
    (hδ : ∀ i < x.length, |seq x' i - (seq x i + b * i)| ≤ δ) (rate : ℝ) (hr : 0 < rate) (taus : TausArg)
    (hN : x.length ≤ 2 ^ 47) (ht : SafeTaus rate taus)
    (bound : ℝ → ℝ → ℤ → ℝ) (hbound : ∀ tau dev n, 0 < tau →
      Spec.tiermsBound tau dev n + 17 / 16 * (2 * δ + |b| * (tau * rate)) ≤ bound tau dev n) :
    (∃ e, tierms_fl fl sum log10grid x' rate taus = .error e ∧ tierms x rate "phase" taus = .error e) ∨
    ∃ o o', tierms_fl fl sum log10grid x' rate taus = .ok o ∧ tierms x rate "phase" taus = .ok o' ∧
      FloatCloseE bound (fun _ _ _ => 0) o o' := by
  have h := tierms_float hfl hsum log10grid x' rate taus (hl ▸ hN) ht
  have e' := tierms_phase_eq x' rate taus
  rw [hl] at e'
  refine near_of_float h e' (tierms_phase_eq x rate taus) (fun m hm0 hmN _ hn r hr' => ?_)
  have hτ : (0 : ℝ) < m / rate := by
    have : (0 : ℝ) < m := by exact_mod_cast hm0
    positivity
  refine le_trans ?_ (hbound _ _ _ hτ)
  have hp := tierms_perturb (x' := seq x') (x := seq x) (N := x.length) (m := m) (b := b) hδ hmN
  unfold Spec.tiermsBound at hr' ⊢
  rw [← add_zero (_ * _)] at hr'
  have := row_near hr' hp (by omega) (by omega) (by norm_num) (by norm_num) le_rfl
  rw [div_mul_cancel₀ _ hr.ne']
  linarith

/-- C99: `tierms` in double precision of phase data `x'` with errors and a frequency offset `b` -/
theorem tierms_near (hfl : FloatRound fl) (hsum : ∀ l, FloatSum fl l (sum l)) (log10grid x' x : List ℝ)
    (δ b : ℝ) (hl : x'.length = x.length)
    (hδ : ∀ i < x.length, |seq x' i - (seq x i + b * i)| ≤ δ) (rate : ℝ) (hr : 0 < rate) (taus : TausArg)
    (hN : x.length ≤ 2 ^ 47) (ht : SafeTaus rate taus) :
    (∃ e, tierms_fl fl sum log10grid x' rate taus = .error e ∧ tierms x rate "phase" taus = .error e) ∨
    ∃ o o', tierms_fl fl sum log10grid x' rate taus = .ok o ∧ tierms x rate "phase" taus = .ok o' ∧
      FloatCloseE (fun tau dev n => Spec.tiermsBound tau dev n + 17 / 16 * (2 * δ + |b| * (tau * rate)))
        (fun _ _ _ => 0) o o' :=
  tierms_near_aux hfl hsum log10grid x' x δ b hl hδ rate hr taus hN ht _ (fun _ _ _ _ => le_rfl)

theorem mtie_near_aux (hfl : FloatRound fl) (log10grid x' x : List ℝ)
    (δ b : ℝ) (hl : x'.length = x.length)
    (hδ : ∀ i < x.length, |seq x' i - (seq x i + b * i)| ≤ δ) (rate : ℝ) (hr : 0 < rate) (taus : TausArg)
    (hN : x.length ≤ 2 ^ 47) (ht : SafeTaus rate taus)
    (bound : ℝ → ℝ → ℤ → ℝ) (hbound : ∀ tau dev n, 0 < tau →
      Spec.mtieBound tau dev n + 17 / 16 * (2 * δ + |b| * (tau * rate)) ≤ bound tau dev n) :
    (∃ e, mtie_fl fl log10grid x' rate taus = .error e ∧ mtie x rate "phase" taus = .error e) ∨
    ∃ o o', mtie_fl fl log10grid x' rate taus = .ok o ∧ mtie x rate "phase" taus = .ok o' ∧
      FloatClose bound o o' := by
  have h := mtie_float hfl log10grid x' rate taus (hl ▸ hN) ht
  have e' := mtie_phase_eq x' rate taus
  rw [hl] at e'
  refine near_of_close h e' (mtie_phase_eq x rate taus) (fun m hm0 hmN _ hn r hr' => ?_)
  have hτ : (0 : ℝ) < m / rate := by
    have : (0 : ℝ) < m := by exact_mod_cast hm0
    positivity
  refine le_trans ?_ (hbound _ _ _ hτ)
  have hp := mtie_perturb (x' := seq x') (x := seq x) (N := x.length) (m := m) (b := b) hδ (by omega)
  unfold Spec.mtieBound at hr' ⊢
  rw [div_mul_cancel₀ _ hr.ne']
  set q := 2 * δ + |b| * m with hq
  have h3 := (abs_le.1 hp).2
  have hu := unitRoundoff_pos
  have hu' : unitRoundoff ≤ 1 / 16 := by unfold unitRoundoff; norm_num
  have h4 := mul_le_mul_of_nonneg_left (sub_le_iff_le_add.1 h3) hu.le
  have h5 := mul_le_mul_of_nonneg_right hu' ((abs_nonneg _).trans hp)
  have h6 := abs_sub_le r (Spec.mtie (seq x') x.length m) (Spec.mtie (seq x) x.length m)
  linarith

/-- C99: `mtie` in double precision of phase data `x'` with errors and a frequency offset `b` -/
theorem mtie_near (hfl : FloatRound fl) (log10grid x' x : List ℝ)
    (δ b : ℝ) (hl : x'.length = x.length)
    (hδ : ∀ i < x.length, |seq x' i - (seq x i + b * i)| ≤ δ) (rate : ℝ) (hr : 0 < rate) (taus : TausArg)
    (hN : x.length ≤ 2 ^ 47) (ht : SafeTaus rate taus) :
    (∃ e, mtie_fl fl log10grid x' rate taus = .error e ∧ mtie x rate "phase" taus = .error e) ∨
    ∃ o o', mtie_fl fl log10grid x' rate taus = .ok o ∧ mtie x rate "phase" taus = .ok o' ∧
      FloatClose (fun tau dev n => Spec.mtieBound tau dev n + 17 / 16 * (2 * δ + |b| * (tau * rate))) o o' :=
  mtie_near_aux hfl log10grid x' x δ b hl hδ rate hr taus hN ht _ (fun _ _ _ _ => le_rfl)

theorem gcodev_near_aux (hfl : FloatRound fl) (hsum : ∀ l, FloatSum fl l (sum l))
    (log10grid x' x y' y : List ℝ) (hlen : x.length = y.length)
    (B₁ B₂ δ₁ δ₂ b c : ℝ) (hB₁ : ∀ v ∈ x', |v| ≤ B₁) (hB₂ : ∀ v ∈ y', |v| ≤ B₂)
    (hl₁ : x'.length = x.length) (hl₂ : y'.length = y.length)
    (hδ₁ : ∀ i < x.length, |seq x' i - (seq x i + b * i)| ≤ δ₁)
    (hδ₂ : ∀ i < y.length, |seq y' i - (seq y i + c * i)| ≤ δ₂) (rate : ℝ) (hr : 0 < rate) (taus : TausArg)
    (hN : x.length ≤ 2 ^ 47) (ht : SafeTaus rate taus)
    (bound : ℝ → ℝ → ℤ → ℝ) (hbound : ∀ (tau dev : ℝ) (n : ℤ), 0 < tau → 0 < n → n ≤ x.length - 2 →
      Spec.gcodevBound B₁ B₂ tau dev n + 17 / 16 * (√(8 * (δ₁ * B₂ + δ₂ * B₁ + δ₁ * δ₂)) / tau) ≤ bound tau dev n) :
    (∃ e, gcodev_fl fl sum log10grid x' y' rate taus = .error e ∧ gcodev x y rate "phase" taus = .error e) ∨
    ∃ o o', gcodev_fl fl sum log10grid x' y' rate taus = .ok o ∧ gcodev x y rate "phase" taus = .ok o' ∧
      FloatClose bound o o' := by
  have hlen' : x'.length = y'.length := by rw [hl₁, hl₂, hlen]
  have h := gcodev_float hfl hsum log10grid x' y' hlen' B₁ B₂ hB₁ hB₂ rate hr taus (hl₁ ▸ hN) ht
  have e' := gcodev_phase_eq x' y' hlen' rate taus
  rw [hl₁] at e'
  refine near_of_close h e' (gcodev_phase_eq x y hlen rate taus) (fun m hm0 hmN _ hn r hr' => ?_)
  have hτ : (0 : ℝ) < m / rate := by
    have : (0 : ℝ) < m := by exact_mod_cast hm0
    positivity
  refine le_trans ?_ (hbound _ _ _ hτ (by omega) (by omega))
  have hp := gcodev_perturb (x' := seq x') (x := seq x) (y' := seq y') (y := seq y) (N := x.length) (m := m)
    (b := b) (c := c) hτ hδ₁ (hlen ▸ hδ₂) (fun i hi => seq_abs_le hB₁ i (by omega))
    (fun i hi => seq_abs_le hB₂ i (by omega)) (by omega)
  unfold Spec.gcodevBound at hr' ⊢
  have e12 : (12 : ℝ) * unitRoundoff = 2 * (((1 : ℤ) : ℝ) + 5) * unitRoundoff := by norm_num
  rw [e12] at hr' ⊢
  exact row_near hr' hp (by norm_num) (by norm_num) (by norm_num) (by norm_num) le_rfl

/-- C99: `gcodev` in double precision of phase data `x'`, `y'` with errors -/
theorem gcodev_near (hfl : FloatRound fl) (hsum : ∀ l, FloatSum fl l (sum l))
    (log10grid x' x y' y : List ℝ) (hlen : x.length = y.length)
    (B₁ B₂ δ₁ δ₂ b c : ℝ) (hB₁ : ∀ v ∈ x', |v| ≤ B₁) (hB₂ : ∀ v ∈ y', |v| ≤ B₂)
    (hl₁ : x'.length = x.length) (hl₂ : y'.length = y.length)
    (hδ₁ : ∀ i < x.length, |seq x' i - (seq x i + b * i)| ≤ δ₁)
    (hδ₂ : ∀ i < y.length, |seq y' i - (seq y i + c * i)| ≤ δ₂) (rate : ℝ) (hr : 0 < rate) (taus : TausArg)
    (hN : x.length ≤ 2 ^ 47) (ht : SafeTaus rate taus) :
    (∃ e, gcodev_fl fl sum log10grid x' y' rate taus = .error e ∧ gcodev x y rate "phase" taus = .error e) ∨
    ∃ o o', gcodev_fl fl sum log10grid x' y' rate taus = .ok o ∧ gcodev x y rate "phase" taus = .ok o' ∧
      FloatClose (fun tau dev n => Spec.gcodevBound B₁ B₂ tau dev n +
        17 / 16 * (√(8 * (δ₁ * B₂ + δ₂ * B₁ + δ₁ * δ₂)) / tau)) o o' :=
  gcodev_near_aux hfl hsum log10grid x' x y' y hlen B₁ B₂ δ₁ δ₂ b c hB₁ hB₂ hl₁ hl₂ hδ₁ hδ₂ rate hr taus hN ht _
    (fun _ _ _ _ _ _ => le_rfl)

/-! ## Frequency data -/

/-- C99: `totdev` of frequency data in double precision -/
theorem totdev_freq_float (hfl : FloatRound fl) (hsum : ∀ l, FloatSum fl l (sum l)) (log10grid y : List ℝ)
    (Y Z : ℝ) (hY : ∀ v ∈ y, |v| ≤ Y) (hZ : ∀ v ∈ y, |v - Spec.mean y| ≤ Z) (rate : ℝ) (hr : 0 < rate)
    (taus : TausArg) (hN : y.length ≤ 2 ^ 46) (ht : SafeTaus rate taus) :
    (∃ e, totdev_freq_fl fl sum log10grid y rate taus = .error e ∧ totdev y rate "freq" taus = .error e) ∨
    ∃ o o', totdev_freq_fl fl sum log10grid y rate taus = .ok o ∧ totdev y rate "freq" taus = .ok o' ∧
      FloatClose (freqBound 12 77 y.length rate (Z + 2 * y.length * unitRoundoff * Y)) o o' := by
  by_cases hy : y = []
  · left
    subst hy
    refine ⟨.indexError, ?_, ?_⟩
    · simp only [totdev_freq_fl, frequency2phase_fl, if_neg hr.ne', if_true, error_bind]
    · simp only [totdev, input_to_phase, frequency2phase, if_neg hr.ne', if_true, if_neg freq_ne_phase,
        error_bind]
  have hN0 : 0 < y.length := List.length_pos_iff.2 hy
  obtain ⟨x', x, b, h1, h2, h3', h3, hb, h4, h5⟩ :=
    frequency2phase_float hfl hsum y hy Y Z hY hZ rate hr (by omega)
  have hY0 : 0 ≤ Y := (abs_nonneg _).trans (hY _ (seq_mem y 0 hN0))
  have hF : 0 ≤ Z + 2 * y.length * unitRoundoff * Y := by
    have := (abs_nonneg _).trans (hZ _ (seq_mem y 0 hN0))
    have := unitRoundoff_pos
    positivity
  have e1 : totdev_freq_fl fl sum log10grid y rate taus = totdev_fl fl sum log10grid x' rate taus := by
    simp only [totdev_freq_fl, h1, ok_bind]
  have e2 : totdev y rate "freq" taus = totdev x rate "phase" taus := by
    simp only [totdev, input_to_phase, if_neg freq_ne_phase, if_true, h2, ok_bind]
  rw [e1, e2]
  exact totdev_near_aux hfl hsum log10grid x' x _ _ b h5 (h3'.trans h3.symm) h4 rate hr taus
    (by rw [h3]; omega) ht _ (fun τ dev n hτ => by
      unfold Spec.totdevBound freqBound
      have := freq_bound (A := 38) (C := 61 / 10) (c := 77) hN0 hF hr hτ (by norm_num) (by norm_num)
      linarith)

/-- C99: `pdev` of frequency data in double precision -/
theorem pdev_freq_float (hfl : FloatRound fl) (hsum : ∀ l, FloatSum fl l (sum l)) (log10grid y : List ℝ)
    (Y Z : ℝ) (hY : ∀ v ∈ y, |v| ≤ Y) (hZ : ∀ v ∈ y, |v - Spec.mean y| ≤ Z) (rate : ℝ) (hr : 0 < rate)
    (taus : TausArg) (hN : y.length ≤ 2 ^ 46) (ht : SafeTaus rate taus) :
    (∃ e, pdev_freq_fl fl sum log10grid y rate taus = .error e ∧ pdev y rate "freq" taus = .error e) ∨
    ∃ o o', pdev_freq_fl fl sum log10grid y rate taus = .ok o ∧ pdev y rate "freq" taus = .ok o' ∧
      FloatClose (pdevFreqBound y.length rate (Z + 2 * y.length * unitRoundoff * Y)) o o' := by
  by_cases hy : y = []
  · left
    subst hy
    refine ⟨.indexError, ?_, ?_⟩
    · simp only [pdev_freq_fl, frequency2phase_fl, if_neg hr.ne', if_true, error_bind]
    · simp only [pdev, input_to_phase, frequency2phase, if_neg hr.ne', if_true, if_neg freq_ne_phase,
        error_bind]
  have hN0 : 0 < y.length := List.length_pos_iff.2 hy
  obtain ⟨x', x, b, h1, h2, h3', h3, hb, h4, h5⟩ :=
    frequency2phase_float hfl hsum y hy Y Z hY hZ rate hr (by omega)
  have hY0 : 0 ≤ Y := (abs_nonneg _).trans (hY _ (seq_mem y 0 hN0))
  have hF : 0 ≤ Z + 2 * y.length * unitRoundoff * Y := by
    have := (abs_nonneg _).trans (hZ _ (seq_mem y 0 hN0))
    have := unitRoundoff_pos
    positivity
  have e1 : pdev_freq_fl fl sum log10grid y rate taus = pdev_fl fl sum log10grid x' rate taus := by
    simp only [pdev_freq_fl, h1, ok_bind]
  have e2 : pdev y rate "freq" taus = pdev x rate "phase" taus := by
    simp only [pdev, input_to_phase, if_neg freq_ne_phase, if_true, h2, ok_bind]
  rw [e1, e2]
  refine pdev_near_aux hfl hsum log10grid x' x _ _ b h5 (h3'.trans h3.symm) h4 rate hr taus
    (by rw [h3]; omega) ht _ (fun τ dev n hτ => ?_)
  unfold Spec.pdevBound pdevFreqBound freqBound
  have hu := unitRoundoff_pos
  set F := Z + 2 * y.length * unitRoundoff * Y with hFd
  have g0 : 0 ≤ y.length * unitRoundoff * (F / rate) / τ := by positivity
  have g1 : 0 ≤ (τ * rate + 6) * (y.length * unitRoundoff * (F / rate) / τ) := by positivity
  have g2 : 0 ≤ y.length ^ 2 * unitRoundoff * (F / rate) / τ := by positivity
  have k1 : 55 * (τ * rate + 6) * unitRoundoff * (17 / 16 * y.length * (F / rate)) / τ =
      55 * (17 / 16) * ((τ * rate + 6) * (y.length * unitRoundoff * (F / rate) / τ)) := by ring
  have k2 : 91 / 10 * (6 * y.length ^ 2 * unitRoundoff * (F / rate)) / τ =
      546 / 10 * (y.length ^ 2 * unitRoundoff * (F / rate) / τ) := by ring
  have k3 : 55 * y.length ^ 2 * unitRoundoff * (F / rate) / τ =
      55 * (y.length ^ 2 * unitRoundoff * (F / rate) / τ) := by ring
  have k4 : 59 * (τ * rate + 6) * y.length * unitRoundoff * (F / rate) / τ =
      59 * ((τ * rate + 6) * (y.length * unitRoundoff * (F / rate) / τ)) := by ring
  rw [k1, k2, k3, k4]
  linarith

/-- C99: `theo1` of frequency data in double precision, for fewer than `2^26` values -/
theorem theo1_freq_float (hfl : FloatRound fl) (hint : IntExact fl) (hsum : ∀ l, FloatSum fl l (sum l)) (log10grid y : List ℝ)
    (Y Z : ℝ) (hY : ∀ v ∈ y, |v| ≤ Y) (hZ : ∀ v ∈ y, |v - Spec.mean y| ≤ Z) (rate : ℝ) (hr : 0 < rate)
    (taus : TausArg) (hN : y.length < 2 ^ 26) (ht : SafeTaus rate taus) :
    (∃ e, theo1_freq_fl fl sum log10grid y rate taus = .error e ∧ theo1 y rate "freq" taus = .error e) ∨
    ∃ o o', theo1_freq_fl fl sum log10grid y rate taus = .ok o ∧ theo1 y rate "freq" taus = .ok o' ∧
      FloatCloseE (theo1FreqBound y.length rate (Z + 2 * y.length * unitRoundoff * Y))
        (fun tau d _ => d / √((y.length : ℝ) + 1 - tau * rate)) o o' := by
  by_cases hy : y = []
  · left
    subst hy
    refine ⟨.indexError, ?_, ?_⟩
    · simp only [theo1_freq_fl, frequency2phase_fl, if_neg hr.ne', if_true, error_bind]
    · simp only [theo1, input_to_phase, frequency2phase, if_neg hr.ne', if_true, if_neg freq_ne_phase,
        error_bind]
  have hN0 : 0 < y.length := List.length_pos_iff.2 hy
  obtain ⟨x', x, b, h1, h2, h3', h3, hb, h4, h5⟩ :=
    frequency2phase_float hfl hsum y hy Y Z hY hZ rate hr (by omega)
  have hY0 : 0 ≤ Y := (abs_nonneg _).trans (hY _ (seq_mem y 0 hN0))
  have hF : 0 ≤ Z + 2 * y.length * unitRoundoff * Y := by
    have := (abs_nonneg _).trans (hZ _ (seq_mem y 0 hN0))
    have := unitRoundoff_pos
    positivity
  have e1 : theo1_freq_fl fl sum log10grid y rate taus = theo1_fl fl log10grid x' rate taus := by
    simp only [theo1_freq_fl, h1, ok_bind]
  have e2 : theo1 y rate "freq" taus = theo1 x rate "phase" taus := by
    simp only [theo1, input_to_phase, if_neg freq_ne_phase, if_true, h2, ok_bind]
  rw [e1, e2]
  have ha := theo1_near_aux hfl hint log10grid x' x _ _ b h5 (h3'.trans h3.symm) h4 rate hr taus
    (by rw [h3]; omega) ht (theo1FreqBound y.length rate (Z + 2 * y.length * unitRoundoff * Y))
    (fun τ dev n hτ => by
      unfold Spec.theo1Bound theo1FreqBound
      have := freq_bound (A := 64) (C := 211 / 10) (c := 195) hN0 hF hr hτ (by norm_num) (by norm_num)
      rw [h3]
      push_cast
      linarith)
  rw [h3] at ha
  push_cast at ha
  exact ha

/-- C99: `tierms` of frequency data in double precision -/
theorem tierms_freq_float (hfl : FloatRound fl) (hsum : ∀ l, FloatSum fl l (sum l)) (log10grid y : List ℝ)
    (Y Z : ℝ) (hY : ∀ v ∈ y, |v| ≤ Y) (hZ : ∀ v ∈ y, |v - Spec.mean y| ≤ Z) (rate : ℝ) (hr : 0 < rate)
    (taus : TausArg) (hN : y.length ≤ 2 ^ 46) (ht : SafeTaus rate taus) :
    (∃ e, tierms_freq_fl fl sum log10grid y rate taus = .error e ∧ tierms y rate "freq" taus = .error e) ∨
    ∃ o o', tierms_freq_fl fl sum log10grid y rate taus = .ok o ∧ tierms y rate "freq" taus = .ok o' ∧
      FloatCloseE (tiermsFreqBound y.length rate (Z + 2 * y.length * unitRoundoff * Y) Y) (fun _ _ _ => 0) o o' := by
  by_cases hy : y = []
  · left
    subst hy
    refine ⟨.indexError, ?_, ?_⟩
    · simp only [tierms_freq_fl, frequency2phase_fl, if_neg hr.ne', if_true, error_bind]
    · simp only [tierms, input_to_phase, frequency2phase, if_neg hr.ne', if_true, if_neg freq_ne_phase,
        error_bind]
  have hN0 : 0 < y.length := List.length_pos_iff.2 hy
  obtain ⟨x', x, b, h1, h2, h3', h3, hb, h4, h5⟩ :=
    frequency2phase_float hfl hsum y hy Y Z hY hZ rate hr (by omega)
  have hY0 : 0 ≤ Y := (abs_nonneg _).trans (hY _ (seq_mem y 0 hN0))
  have hF : 0 ≤ Z + 2 * y.length * unitRoundoff * Y := by
    have := (abs_nonneg _).trans (hZ _ (seq_mem y 0 hN0))
    have := unitRoundoff_pos
    positivity
  have e1 : tierms_freq_fl fl sum log10grid y rate taus = tierms_fl fl sum log10grid x' rate taus := by
    simp only [tierms_freq_fl, h1, ok_bind]
  have e2 : tierms y rate "freq" taus = tierms x rate "phase" taus := by
    simp only [tierms, input_to_phase, if_neg freq_ne_phase, if_true, h2, ok_bind]
  rw [e1, e2]
  refine tierms_near_aux hfl hsum log10grid x' x _ b (h3'.trans h3.symm) h4 rate hr taus
    (by rw [h3]; omega) ht _ (fun τ dev n hτ => ?_)
  unfold Spec.tiermsBound tiermsFreqBound
  have hu := unitRoundoff_pos
  set F := Z + 2 * y.length * unitRoundoff * Y with hFd
  have g2 : 0 ≤ y.length ^ 2 * unitRoundoff * (F / rate) := by positivity
  have hb' : |b| * (τ * rate) ≤ 2 * (y.length * unitRoundoff * Y * τ) := by
    calc |b| * (τ * rate) ≤ 2 * y.length * unitRoundoff * Y / rate * (τ * rate) :=
          mul_le_mul_of_nonneg_right hb (by positivity)
      _ = 2 * (y.length * unitRoundoff * Y * τ) := by field_simp
  linarith

/-- C99: `mtie` of frequency data in double precision -/
theorem mtie_freq_float (hfl : FloatRound fl) (hsum : ∀ l, FloatSum fl l (sum l)) (log10grid y : List ℝ)
    (Y Z : ℝ) (hY : ∀ v ∈ y, |v| ≤ Y) (hZ : ∀ v ∈ y, |v - Spec.mean y| ≤ Z) (rate : ℝ) (hr : 0 < rate)
    (taus : TausArg) (hN : y.length ≤ 2 ^ 46) (ht : SafeTaus rate taus) :
    (∃ e, mtie_freq_fl fl sum log10grid y rate taus = .error e ∧ mtie y rate "freq" taus = .error e) ∨
    ∃ o o', mtie_freq_fl fl sum log10grid y rate taus = .ok o ∧ mtie y rate "freq" taus = .ok o' ∧
      FloatClose (mtieFreqBound y.length rate (Z + 2 * y.length * unitRoundoff * Y) Y) o o' := by
  by_cases hy : y = []
  · left
    subst hy
    refine ⟨.indexError, ?_, ?_⟩
    · simp only [mtie_freq_fl, frequency2phase_fl, if_neg hr.ne', if_true, error_bind]
    · simp only [mtie, mtie_mem, input_to_phase, frequency2phase, if_neg hr.ne', if_true, if_neg freq_ne_phase,
        error_bind]
  have hN0 : 0 < y.length := List.length_pos_iff.2 hy
  obtain ⟨x', x, b, h1, h2, h3', h3, hb, h4, h5⟩ :=
    frequency2phase_float hfl hsum y hy Y Z hY hZ rate hr (by omega)
  have hY0 : 0 ≤ Y := (abs_nonneg _).trans (hY _ (seq_mem y 0 hN0))
  have hF : 0 ≤ Z + 2 * y.length * unitRoundoff * Y := by
    have := (abs_nonneg _).trans (hZ _ (seq_mem y 0 hN0))
    have := unitRoundoff_pos
    positivity
  have e1 : mtie_freq_fl fl sum log10grid y rate taus = mtie_fl fl log10grid x' rate taus := by
    simp only [mtie_freq_fl, h1, ok_bind]
  have e2 : mtie y rate "freq" taus = mtie x rate "phase" taus := by
    simp only [mtie, mtie_mem, input_to_phase, if_neg freq_ne_phase, if_true, h2, ok_bind]
  rw [e1, e2]
  refine mtie_near_aux hfl log10grid x' x _ b (h3'.trans h3.symm) h4 rate hr taus
    (by rw [h3]; omega) ht _ (fun τ dev n hτ => ?_)
  unfold Spec.mtieBound mtieFreqBound
  have hu := unitRoundoff_pos
  set F := Z + 2 * y.length * unitRoundoff * Y with hFd
  have g2 : 0 ≤ y.length ^ 2 * unitRoundoff * (F / rate) := by positivity
  have hb' : |b| * (τ * rate) ≤ 2 * (y.length * unitRoundoff * Y * τ) := by
    calc |b| * (τ * rate) ≤ 2 * y.length * unitRoundoff * Y / rate * (τ * rate) :=
          mul_le_mul_of_nonneg_right hb (by positivity)
      _ = 2 * (y.length * unitRoundoff * Y * τ) := by field_simp
  linarith

/-- the two parts of the error of `gcodev` -/
theorem gcodev_freq_bound {N : ℕ} {F₁ F₂ r τ : ℝ} {n : ℤ} (hN : 0 < N) (hN' : N ≤ 2 ^ 46) (h₁ : 0 ≤ F₁) (h₂ : 0 ≤ F₂)
    (hr : 0 < r) (hτ : 0 < τ) (hn0 : 0 < n) (hn : n ≤ N) :
    5 * √(((n : ℝ) + 6) * unitRoundoff * (17 / 16 * N * (F₁ / r)) * (17 / 16 * N * (F₂ / r))) / τ +
      17 / 16 * (√(8 * (6 * N ^ 2 * unitRoundoff * (F₁ / r) * (17 / 16 * N * (F₂ / r)) +
        6 * N ^ 2 * unitRoundoff * (F₂ / r) * (17 / 16 * N * (F₁ / r)) +
        6 * N ^ 2 * unitRoundoff * (F₁ / r) * (6 * N ^ 2 * unitRoundoff * (F₂ / r)))) / τ) ≤
      26 * √(N ^ 3 * unitRoundoff * F₁ * F₂) / r / τ := by
  have hu := unitRoundoff_pos
  have hN1 : (1 : ℝ) ≤ N := by exact_mod_cast hN
  have hNu : N * unitRoundoff ≤ 1 / 128 := by
    have : (N : ℝ) ≤ 2 ^ 46 := by exact_mod_cast hN'
    calc N * unitRoundoff ≤ 2 ^ 46 * unitRoundoff := mul_le_mul_of_nonneg_right this hu.le
      _ = 1 / 128 := by unfold unitRoundoff; norm_num
  have hn' : (n : ℝ) ≤ N := by exact_mod_cast hn
  have hn1 : (0 : ℝ) < n := by exact_mod_cast hn0
  set S := √(N ^ 3 * unitRoundoff * F₁ * F₂) with hS
  have hS0 : 0 ≤ S := Real.sqrt_nonneg _
  have hSq : S ^ 2 = N ^ 3 * unitRoundoff * F₁ * F₂ := Real.sq_sqrt (by positivity)
  have hG : 0 ≤ F₁ * F₂ / r ^ 2 := by positivity
  have hq : (S / r) ^ 2 = N ^ 3 * unitRoundoff * (F₁ * F₂ / r ^ 2) := by
    rw [div_pow, hSq]; ring
  have s1 : √(((n : ℝ) + 6) * unitRoundoff * (17 / 16 * N * (F₁ / r)) * (17 / 16 * N * (F₂ / r))) ≤ 29 / 10 * (S / r) := by
    rw [Real.sqrt_le_left (by positivity), mul_pow, hq]
    have e : ((n : ℝ) + 6) * unitRoundoff * (17 / 16 * N * (F₁ / r)) * (17 / 16 * N * (F₂ / r)) =
        ((n : ℝ) + 6) * ((17 / 16) ^ 2 * N ^ 2 * unitRoundoff * (F₁ * F₂ / r ^ 2)) := by
      field_simp
    rw [e]
    have : ((n : ℝ) + 6) ≤ 7 * N := by linarith
    calc ((n : ℝ) + 6) * ((17 / 16) ^ 2 * N ^ 2 * unitRoundoff * (F₁ * F₂ / r ^ 2))
        ≤ 7 * N * ((17 / 16) ^ 2 * N ^ 2 * unitRoundoff * (F₁ * F₂ / r ^ 2)) :=
          mul_le_mul_of_nonneg_right this (by positivity)
      _ = 7 * (17 / 16) ^ 2 * (N ^ 3 * unitRoundoff * (F₁ * F₂ / r ^ 2)) := by ring
      _ ≤ (29 / 10) ^ 2 * (N ^ 3 * unitRoundoff * (F₁ * F₂ / r ^ 2)) :=
          mul_le_mul_of_nonneg_right (by norm_num) (by positivity)
  have s2 : √(8 * (6 * N ^ 2 * unitRoundoff * (F₁ / r) * (17 / 16 * N * (F₂ / r)) +
        6 * N ^ 2 * unitRoundoff * (F₂ / r) * (17 / 16 * N * (F₁ / r)) +
        6 * N ^ 2 * unitRoundoff * (F₁ / r) * (6 * N ^ 2 * unitRoundoff * (F₂ / r)))) ≤ 103 / 10 * (S / r) := by
    rw [Real.sqrt_le_left (by positivity), mul_pow, hq]
    have e : 8 * (6 * N ^ 2 * unitRoundoff * (F₁ / r) * (17 / 16 * N * (F₂ / r)) +
        6 * N ^ 2 * unitRoundoff * (F₂ / r) * (17 / 16 * N * (F₁ / r)) +
        6 * N ^ 2 * unitRoundoff * (F₁ / r) * (6 * N ^ 2 * unitRoundoff * (F₂ / r))) =
        (102 + 288 * (N * unitRoundoff)) * (N ^ 3 * unitRoundoff * (F₁ * F₂ / r ^ 2)) := by
      field_simp
      ring
    rw [e]
    apply mul_le_mul_of_nonneg_right _ (by positivity)
    linarith
  have hT : 0 ≤ S / r := by positivity
  calc _ ≤ 5 * (29 / 10 * (S / r)) / τ + 17 / 16 * (103 / 10 * (S / r) / τ) := by
        gcongr
    _ = (5 * (29 / 10) + 17 / 16 * (103 / 10)) * (S / r / τ) := by ring
    _ ≤ 26 * (S / r / τ) := mul_le_mul_of_nonneg_right (by norm_num) (by positivity)
    _ = 26 * S / r / τ := by ring

/-- C99: `gcodev` of two lists of frequency data of one length in double precision -/
theorem gcodev_freq_float (hfl : FloatRound fl) (hsum : ∀ l, FloatSum fl l (sum l)) (log10grid y z : List ℝ)
    (hlen : y.length = z.length)
    (Y₁ Y₂ Z₁ Z₂ : ℝ) (hY₁ : ∀ v ∈ y, |v| ≤ Y₁) (hZ₁ : ∀ v ∈ y, |v - Spec.mean y| ≤ Z₁)
    (hY₂ : ∀ v ∈ z, |v| ≤ Y₂) (hZ₂ : ∀ v ∈ z, |v - Spec.mean z| ≤ Z₂) (rate : ℝ) (hr : 0 < rate)
    (taus : TausArg) (hN : y.length ≤ 2 ^ 46) (ht : SafeTaus rate taus) :
    (∃ e, gcodev_freq_fl fl sum log10grid y z rate taus = .error e ∧ gcodev y z rate "freq" taus = .error e) ∨
    ∃ o o', gcodev_freq_fl fl sum log10grid y z rate taus = .ok o ∧ gcodev y z rate "freq" taus = .ok o' ∧
      FloatClose (gcodevFreqBound y.length rate (Z₁ + 2 * y.length * unitRoundoff * Y₁)
        (Z₂ + 2 * y.length * unitRoundoff * Y₂)) o o' := by
  by_cases hy : y = []
  · left
    subst hy
    refine ⟨.indexError, ?_, ?_⟩
    · simp only [gcodev_freq_fl, frequency2phase_fl, if_neg hr.ne', if_true, error_bind]
    · simp only [gcodev, input_to_phase, frequency2phase, if_neg hr.ne', if_true, if_neg freq_ne_phase,
        error_bind]
  have hN0 : 0 < y.length := List.length_pos_iff.2 hy
  have hz : z ≠ [] := by rw [← List.length_pos_iff]; omega
  obtain ⟨x', x, b, h1, h2, h3', h3, hb, h4, h5⟩ :=
    frequency2phase_float hfl hsum y hy Y₁ Z₁ hY₁ hZ₁ rate hr (by omega)
  obtain ⟨w', w, c, g1, g2, g3', g3, gb, g4, g5⟩ :=
    frequency2phase_float hfl hsum z hz Y₂ Z₂ hY₂ hZ₂ rate hr (by omega)
  rw [← hlen] at g3' g3 g4 g5
  have hu := unitRoundoff_pos
  have hF₁ : 0 ≤ Z₁ + 2 * y.length * unitRoundoff * Y₁ := by
    have := (abs_nonneg _).trans (hY₁ _ (seq_mem y 0 hN0))
    have := (abs_nonneg _).trans (hZ₁ _ (seq_mem y 0 hN0))
    positivity
  have hF₂ : 0 ≤ Z₂ + 2 * y.length * unitRoundoff * Y₂ := by
    have := (abs_nonneg _).trans (hY₂ _ (seq_mem z 0 (hlen ▸ hN0)))
    have := (abs_nonneg _).trans (hZ₂ _ (seq_mem z 0 (hlen ▸ hN0)))
    positivity
  have e1 : gcodev_freq_fl fl sum log10grid y z rate taus = gcodev_fl fl sum log10grid x' w' rate taus := by
    simp only [gcodev_freq_fl, h1, g1, ok_bind]
  have e2 : gcodev y z rate "freq" taus = gcodev x w rate "phase" taus := by
    simp only [gcodev, input_to_phase, if_neg freq_ne_phase, if_true, h2, g2, ok_bind]
  rw [e1, e2]
  refine gcodev_near_aux hfl hsum log10grid x' x w' w (h3.trans g3.symm) _ _ _ _ b c h5 g5 (h3'.trans h3.symm)
    (g3'.trans g3.symm) h4 g4 rate hr taus (by rw [h3]; omega) ht _ (fun τ dev n hτ hn0 hn => ?_)
  unfold Spec.gcodevBound gcodevFreqBound
  have := gcodev_freq_bound (n := n) hN0 hN hF₁ hF₂ hr hτ hn0 (by omega)
  linarith

/-- C99: the error of the mean frequency is needed in the bound of `mtie`: for the frequencies 1 and
`1 + 2^-52`, both doubles, the mean is rounded to 1 and the maximum time interval error comes out twice too
large -/
theorem mtie_freq_float_mean (hfl : ∀ x, IsBinary64 x (fl x)) (hsum : ∀ l, FloatSum fl l (sum l)) :
    ∃ o o', mtie_freq_fl fl sum [] [1, 1 + 1 / 2 ^ 52] 1 (.list [((1 : ℕ) : ℝ) / 1]) = .ok o ∧
      mtie [1, 1 + 1 / 2 ^ 52] 1 "freq" (.list [((1 : ℕ) : ℝ) / 1]) = .ok o' ∧ o'.ns = [2] ∧
      o'.devs = [1 / 2 ^ 53] ∧ |o.devs.getD 0 0 - 2 * (1 / 2 ^ 53)| ≤ unitRoundoff * (1 / 2 ^ 52) := by
  have hr : FloatRound fl := fun x => isBinary64_rel (hfl x)
  have z : fl 0 = 0 := by
    have := hr 0
    simpa using this
  have o1 : fl 1 = 1 := by
    have := binary64_eq hfl 1 (-52) (2 ^ 52) (by norm_num) (by norm_num) (by norm_num)
    rw [this]; norm_num
  have c1 : fl (1 + (1 + 1 / 2 ^ 52)) = 2 := by
    have : IsBinary64 (1 + (1 + 1 / 2 ^ 52)) 2 := by
      refine Or.inr ⟨-51, 2 ^ 52, by norm_num, by norm_num, ?_, by norm_num⟩
      exact ⟨by norm_num, fun _ => ⟨2 ^ 51, by norm_num⟩⟩
    exact isBinary64_unique (hfl _) this
  have c2 : fl (1 / 2 ^ 52) = 1 / 2 ^ 52 := by
    have := binary64_eq hfl (1 / 2 ^ 52) (-104) (2 ^ 52) (by norm_num) (by norm_num) (by norm_num)
    rw [this]; norm_num
  have hph : frequency2phase_fl fl sum [1, 1 + 1 / 2 ^ 52] 1 = .ok [0, 0, 1 / 2 ^ 52] := by
    unfold frequency2phase_fl
    rw [if_neg one_ne_zero, if_neg (by simp)]
    simp only [floatSum_two (hsum [1, 1 + 1 / 2 ^ 52]), c1, List.length_cons, List.length_nil, List.map_cons,
      List.map_nil]
    have m1 : fl (2 / ((0 + 1 + 1 : ℕ) : ℝ)) = 1 := by
      rw [show (2 : ℝ) / ((0 + 1 + 1 : ℕ) : ℝ) = 1 by norm_num, o1]
    rw [m1]
    simp only [sub_self, add_sub_cancel_left, z, c2, div_one, o1, npCumsum_fl, cumsum_fl, List.map_cons,
      List.map_nil, zero_add, mul_one]
  have hx : frequency2phase [1, 1 + 1 / 2 ^ 52] 1 = .ok [0, -(1 / 2 ^ 53), 0] := by
    rw [frequency2phase_eq _ (by simp) 1 one_ne_zero]
    norm_num [tab, List.range_succ, Finset.sum_range_succ, Spec.mean, seq]
  have e1 : mtie_freq_fl fl sum [] [1, 1 + 1 / 2 ^ 52] 1 (.list [((1 : ℕ) : ℝ) / 1]) =
      mtie_fl fl [] [0, 0, 1 / 2 ^ 52] 1 (.list [((1 : ℕ) : ℝ) / 1]) := by
    simp only [mtie_freq_fl, hph, ok_bind]
  have e2 : mtie [1, 1 + 1 / 2 ^ 52] 1 "freq" (.list [((1 : ℕ) : ℝ) / 1]) =
      mtie [0, -(1 / 2 ^ 53), 0] 1 "phase" (.list [((1 : ℕ) : ℝ) / 1]) := by
    simp only [mtie, mtie_mem, input_to_phase, if_neg freq_ne_phase, if_true, hx, ok_bind]
  have hs : SafeTaus 1 (.list [((1 : ℕ) : ℝ) / 1]) := by
    intro t ht
    rw [List.mem_singleton] at ht
    exact ⟨1, by norm_num, by rw [ht]; norm_num⟩
  have h := mtie_float hr [] [0, 0, 1 / 2 ^ 52] 1 (.list [((1 : ℕ) : ℝ) / 1]) (by norm_num) hs
  rw [mtie_phase_eq, table_single _ _ (by norm_num) _ _ _ _ _ 1 (by norm_num) (by simp)
    (by norm_num) (by simp) (by norm_num)] at h
  have three : ∀ a b c : ℝ, [a, b, c].length = 3 := fun _ _ _ => rfl
  have mt : ∀ a b c d : ℝ, (|b - a| ≤ d) → (|c - b| ≤ d) → (d = |b - a| ∨ d = |c - b|) →
      Spec.mtie (seq [a, b, c]) 3 1 = d := by
    intro a b c d h1 h2 h3
    apply mtie_of_greatest
    constructor
    · rcases h3 with h3 | h3
      · exact ⟨0, 1, by omega, by omega, by omega, h3⟩
      · exact ⟨1, 2, by omega, by omega, by omega, h3⟩
    · rintro v ⟨i, j, hij, hji, hj, rfl⟩
      have hd : 0 ≤ d := (abs_nonneg _).trans h1
      rcases Nat.eq_or_lt_of_le hij with e | hlt
      · subst e; simpa using hd
      · obtain rfl : j = i + 1 := by omega
        have : i = 0 ∨ i = 1 := by omega
        rcases this with rfl | rfl
        · exact h1
        · exact h2
  rw [e1, e2, mtie_phase_eq, table_single _ _ (by norm_num) _ _ _ _ _ 1 (by norm_num) (by simp)
    (by norm_num) (by simp) (by norm_num)]
  rcases h with ⟨e, _, h⟩ | ⟨o, o', h1, h2, h3⟩
  · cases h
  refine ⟨o, _, h1, rfl, by simp, ?_, ?_⟩
  · simp only [three]
    rw [mt 0 (-(1 / 2 ^ 53)) 0 (1 / 2 ^ 53) (by norm_num) (by norm_num) (by norm_num)]
  · cases h2
    have h4 := h3.devs 0 (by simp)
    simp only [List.getD_cons_zero, three] at h4
    rw [mt 0 0 (1 / 2 ^ 52) (1 / 2 ^ 52) (by norm_num) (by norm_num) (by norm_num)] at h4
    unfold Spec.mtieBound at h4
    rw [show (2 : ℝ) * (1 / 2 ^ 53) = 1 / 2 ^ 52 by norm_num]
    exact h4

/-- the hypotheses are met: in double precision each of these deviations of a list of small whole numbers,
taken as frequencies, gives a table with one row, within the bound -/
example : ∃ (fl : ℝ → ℝ) (sum : List ℝ → ℝ), (∀ x, IsBinary64 x (fl x)) ∧
    (∃ o o', totdev_freq_fl fl sum [] [1, 2, 0, 1, 1] 2 (.list [(2 : ℕ) / 2]) = .ok o ∧
      totdev [1, 2, 0, 1, 1] 2 "freq" (.list [(2 : ℕ) / 2]) = .ok o' ∧ o'.ns = [4] ∧
      FloatClose (freqBound 12 77 5 2 (1 + 2 * (5 : ℕ) * unitRoundoff * 2)) o o') ∧
    (∃ o o', pdev_freq_fl fl sum [] [1, 2, 0, 1, 1] 2 (.list [(2 : ℕ) / 2]) = .ok o ∧
      pdev [1, 2, 0, 1, 1] 2 "freq" (.list [(2 : ℕ) / 2]) = .ok o' ∧ o'.ns = [2] ∧
      FloatClose (pdevFreqBound 5 2 (1 + 2 * (5 : ℕ) * unitRoundoff * 2)) o o') ∧
    (∃ o o', theo1_freq_fl fl sum [] [1, 2, 0, 1, 1] 2 (.list [(2 : ℕ) / 2]) = .ok o ∧
      theo1 [1, 2, 0, 1, 1] 2 "freq" (.list [(2 : ℕ) / 2]) = .ok o' ∧ o'.ns = [4] ∧
      FloatCloseE (theo1FreqBound 5 2 (1 + 2 * (5 : ℕ) * unitRoundoff * 2))
        (fun tau d _ => d / √((5 : ℕ) + 1 - tau * 2)) o o') ∧
    (∃ o o', tierms_freq_fl fl sum [] [1, 2, 0, 1, 1] 2 (.list [(2 : ℕ) / 2]) = .ok o ∧
      tierms [1, 2, 0, 1, 1] 2 "freq" (.list [(2 : ℕ) / 2]) = .ok o' ∧ o'.ns = [4] ∧
      FloatCloseE (tiermsFreqBound 5 2 (1 + 2 * (5 : ℕ) * unitRoundoff * 2) 2) (fun _ _ _ => 0) o o') ∧
    (∃ o o', mtie_freq_fl fl sum [] [1, 2, 0, 1, 1] 2 (.list [(2 : ℕ) / 2]) = .ok o ∧
      mtie [1, 2, 0, 1, 1] 2 "freq" (.list [(2 : ℕ) / 2]) = .ok o' ∧ o'.ns = [4] ∧
      FloatClose (mtieFreqBound 5 2 (1 + 2 * (5 : ℕ) * unitRoundoff * 2) 2) o o') ∧
    (∃ o o', gcodev_freq_fl fl sum [] [1, 2, 0, 1, 1] [1, 2, 0, 1, 1] 2 (.list [(2 : ℕ) / 2]) = .ok o ∧
      gcodev [1, 2, 0, 1, 1] [1, 2, 0, 1, 1] 2 "freq" (.list [(2 : ℕ) / 2]) = .ok o' ∧ o'.ns = [2] ∧
      FloatClose (gcodevFreqBound 5 2 (1 + 2 * (5 : ℕ) * unitRoundoff * 2) (1 + 2 * (5 : ℕ) * unitRoundoff * 2))
        o o') := by
  obtain ⟨fl, h64, hfl⟩ := exists_binary64
  obtain ⟨sum, hsum⟩ := exists_floatSum fl
  have hi := binary64_intExact h64
  have ht : SafeTaus 2 (.list [(2 : ℕ) / 2]) := by
    intro t ht
    rw [List.mem_singleton] at ht
    exact ⟨2, by norm_num, by rw [ht]; norm_num⟩
  have hx : frequency2phase [1, 2, 0, 1, 1] 2 = .ok [0, 0, 1 / 2, 0, 0, 0] := by
    rw [frequency2phase_eq _ (by simp) 2 two_ne_zero]
    norm_num [tab, List.range_succ, Finset.sum_range_succ, Spec.mean, seq]
  have hY : ∀ v ∈ [(1 : ℝ), 2, 0, 1, 1], |v| ≤ 2 := by norm_num
  have hZ : ∀ v ∈ [(1 : ℝ), 2, 0, 1, 1], |v - Spec.mean [1, 2, 0, 1, 1]| ≤ 1 := by
    norm_num [Spec.mean]
  have hl : [(1 : ℝ), 2, 0, 1, 1].length = 5 := rfl
  refine ⟨fl, sum, h64, ?_, ?_, ?_, ?_, ?_, ?_⟩
  · have h := totdev_freq_float hfl hsum [] _ 2 1 hY hZ 2 two_pos (.list [(2 : ℕ) / 2]) (by norm_num) ht
    have e : totdev [1, 2, 0, 1, 1] 2 "freq" (.list [(2 : ℕ) / 2]) =
        totdev [0, 0, 1 / 2, 0, 0, 0] 2 "phase" (.list [(2 : ℕ) / 2]) := by
      simp only [totdev, input_to_phase, if_neg freq_ne_phase, if_true, hx, ok_bind]
    rw [e, totdev_phase_eq _ (by simp), table_single _ _ (by norm_num) _ _ _ _ _ 2 (by norm_num) (by simp)
      (by norm_num) (by simp) (by simp), hl] at h
    rw [e, totdev_phase_eq _ (by simp), table_single _ _ (by norm_num) _ _ _ _ _ 2 (by norm_num) (by simp)
      (by norm_num) (by simp) (by simp)]
    rcases h with ⟨e, _, h⟩ | ⟨o, o', h1, h2, h3⟩
    · cases h
    · exact ⟨o, o', h1, h2, by cases h2; simp, h3⟩
  · have h := pdev_freq_float hfl hsum [] _ 2 1 hY hZ 2 two_pos (.list [(2 : ℕ) / 2]) (by norm_num) ht
    have e : pdev [1, 2, 0, 1, 1] 2 "freq" (.list [(2 : ℕ) / 2]) =
        pdev [0, 0, 1 / 2, 0, 0, 0] 2 "phase" (.list [(2 : ℕ) / 2]) := by
      simp only [pdev, input_to_phase, if_neg freq_ne_phase, if_true, hx, ok_bind]
    rw [e, pdev_phase_eq _ _ two_pos.le, table_single _ _ (by norm_num) _ _ _ _ _ 2 (by norm_num) (by simp)
      (by norm_num) (by simp) (by simp), hl] at h
    rw [e, pdev_phase_eq _ _ two_pos.le, table_single _ _ (by norm_num) _ _ _ _ _ 2 (by norm_num) (by simp)
      (by norm_num) (by simp) (by simp)]
    rcases h with ⟨e, _, h⟩ | ⟨o, o', h1, h2, h3⟩
    · cases h
    · exact ⟨o, o', h1, h2, by cases h2; simp, h3⟩
  · have h := theo1_freq_float hfl hi hsum [] _ 2 1 hY hZ 2 two_pos (.list [(2 : ℕ) / 2]) (by norm_num) ht
    have e : theo1 [1, 2, 0, 1, 1] 2 "freq" (.list [(2 : ℕ) / 2]) =
        theo1 [0, 0, 1 / 2, 0, 0, 0] 2 "phase" (.list [(2 : ℕ) / 2]) := by
      simp only [theo1, input_to_phase, if_neg freq_ne_phase, if_true, hx, ok_bind]
    rw [e, theo1_phase_eq _ _ two_ne_zero, table_single _ _ (by norm_num) _ _ _ _ _ 2 (by norm_num) (by simp)
      (by norm_num) (by simp) (by simp), hl] at h
    rw [e, theo1_phase_eq _ _ two_ne_zero, table_single _ _ (by norm_num) _ _ _ _ _ 2 (by norm_num) (by simp)
      (by norm_num) (by simp) (by simp)]
    rcases h with ⟨e, _, h⟩ | ⟨o, o', h1, h2, h3⟩
    · cases h
    · exact ⟨o, o', h1, h2, by cases h2; simp, h3⟩
  · have h := tierms_freq_float hfl hsum [] _ 2 1 hY hZ 2 two_pos (.list [(2 : ℕ) / 2]) (by norm_num) ht
    have e : tierms [1, 2, 0, 1, 1] 2 "freq" (.list [(2 : ℕ) / 2]) =
        tierms [0, 0, 1 / 2, 0, 0, 0] 2 "phase" (.list [(2 : ℕ) / 2]) := by
      simp only [tierms, input_to_phase, if_neg freq_ne_phase, if_true, hx, ok_bind]
    rw [e, tierms_phase_eq, table_single _ _ (by norm_num) _ _ _ _ _ 2 (by norm_num) (by simp)
      (by norm_num) (by simp) (by simp), hl] at h
    rw [e, tierms_phase_eq, table_single _ _ (by norm_num) _ _ _ _ _ 2 (by norm_num) (by simp)
      (by norm_num) (by simp) (by simp)]
    rcases h with ⟨e, _, h⟩ | ⟨o, o', h1, h2, h3⟩
    · cases h
    · exact ⟨o, o', h1, h2, by cases h2; simp, h3⟩
  · have h := mtie_freq_float hfl hsum [] _ 2 1 hY hZ 2 two_pos (.list [(2 : ℕ) / 2]) (by norm_num) ht
    have e : mtie [1, 2, 0, 1, 1] 2 "freq" (.list [(2 : ℕ) / 2]) =
        mtie [0, 0, 1 / 2, 0, 0, 0] 2 "phase" (.list [(2 : ℕ) / 2]) := by
      simp only [mtie, mtie_mem, input_to_phase, if_neg freq_ne_phase, if_true, hx, ok_bind]
    rw [e, mtie_phase_eq, table_single _ _ (by norm_num) _ _ _ _ _ 2 (by norm_num) (by simp)
      (by norm_num) (by simp) (by simp), hl] at h
    rw [e, mtie_phase_eq, table_single _ _ (by norm_num) _ _ _ _ _ 2 (by norm_num) (by simp)
      (by norm_num) (by simp) (by simp)]
    rcases h with ⟨e, _, h⟩ | ⟨o, o', h1, h2, h3⟩
    · cases h
    · exact ⟨o, o', h1, h2, by cases h2; simp, h3⟩
  · have h := gcodev_freq_float hfl hsum [] _ _ rfl 2 2 1 1 hY hZ hY hZ 2 two_pos (.list [(2 : ℕ) / 2])
      (by norm_num) ht
    have e : gcodev [1, 2, 0, 1, 1] [1, 2, 0, 1, 1] 2 "freq" (.list [(2 : ℕ) / 2]) =
        gcodev [0, 0, 1 / 2, 0, 0, 0] [0, 0, 1 / 2, 0, 0, 0] 2 "phase" (.list [(2 : ℕ) / 2]) := by
      simp only [gcodev, input_to_phase, if_neg freq_ne_phase, if_true, hx, ok_bind]
    rw [e, gcodev_phase_eq _ _ (by simp), table_single _ _ (by norm_num) _ _ _ _ _ 2 (by norm_num) (by simp)
      (by norm_num) (by simp) (by simp), hl] at h
    rw [e, gcodev_phase_eq _ _ (by simp), table_single _ _ (by norm_num) _ _ _ _ _ 2 (by norm_num) (by simp)
      (by norm_num) (by simp) (by simp)]
    rcases h with ⟨e, _, h⟩ | ⟨o, o', h1, h2, h3⟩
    · cases h
    · exact ⟨o, o', h1, h2, by cases h2; simp, h3⟩

end AT
