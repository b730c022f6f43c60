import Verif.Lemmas.TotForm

/-!
# Sums of squares of the coefficients of the forms in `TotForm`
-/

namespace AT

open Finset Spec

/-- the sequence that is 1 at the multiples of `6m` and 0 elsewhere -/
noncomputable def ee (m : ℕ) (x : ℤ) : ℝ := if x % (6 * m : ℕ) = 0 then 1 else 0

theorem ee_add (m : ℕ) (x : ℤ) : ee m (x + (6 * m : ℕ)) = ee m x := by
  unfold ee; rw [Int.add_emod_right]

theorem ee_sub (m : ℕ) (x : ℤ) : ee m (x - (6 * m : ℕ)) = ee m x := by
  unfold ee; rw [Int.sub_emod_right]

theorem ee_near {m : ℕ} {x : ℤ} (h1 : -(6 * m : ℕ) < x) (h2 : x < (6 * m : ℕ)) : ee m x = if x = 0 then 1 else 0 := by
  unfold ee
  congr 1
  apply propext
  constructor
  · intro h
    obtain ⟨c, hc⟩ := Int.dvd_of_emod_eq_zero h
    rcases lt_trichotomy c 0 with h3 | h3 | h3
    · nlinarith
    · rw [hc, h3]; simp
    · nlinarith
  · rintro rfl; simp

/-- the response of `m` second differences to one point on the circle of `6m` points -/
noncomputable def kern (m : ℕ) (x : ℤ) : ℝ :=
  ∑ k ∈ range m, (ee m (k + 2 * m - x) - 2 * ee m (k + m - x) + ee m (k - x))

theorem ee_neg_add (m : ℕ) (y x : ℤ) : ee m (y - (x + (6 * m : ℕ))) = ee m (y - x) := by
  rw [← sub_sub, ee_sub]

theorem kern_add (m : ℕ) (x : ℤ) : kern m (x + (6 * m : ℕ)) = kern m x := by
  unfold kern
  simp only [ee_neg_add]

/-- a point of the subsequence -/
noncomputable def unit (i : ℕ) (k : ℕ) : ℝ := if k = i then 1 else 0

theorem mirror_unit {m i t : ℕ} (hi : i < 3 * m) (ht : t < 9 * m) :
    mirror (unit i) (3 * m) t = ee m (t - (3 * m - 1 - i)) + ee m (t - (3 * m + i)) := by
  have hb : ee m ((t : ℤ) - (3 * m + i)) = if (t : ℤ) - (3 * m + i) = 0 then 1 else 0 :=
    ee_near (by push_cast; omega) (by push_cast; omega)
  rw [hb]
  unfold mirror unit
  by_cases h1 : t < 6 * m
  · have ha : ee m ((t : ℤ) - (3 * m - 1 - i)) = if (t : ℤ) - (3 * m - 1 - i) = 0 then 1 else 0 :=
      ee_near (by push_cast; omega) (by push_cast; omega)
    rw [ha]
    by_cases h2 : t < 3 * m
    · rw [if_pos h2, if_neg (by omega : ¬((t : ℤ) - (3 * m + i) = 0)), add_zero]
      congr 1
      apply propext; omega
    · rw [if_neg h2, if_pos (by omega), if_neg (by omega : ¬((t : ℤ) - (3 * m - 1 - i) = 0)), zero_add]
      congr 1
      apply propext; omega
  · have ha : ee m ((t : ℤ) - (3 * m - 1 - i)) =
        if (t : ℤ) - (3 * m - 1 - i) - (6 * m : ℕ) = 0 then 1 else 0 := by
      rw [← ee_sub]
      exact ee_near (by push_cast; omega) (by push_cast; omega)
    rw [ha, if_neg (by omega), if_neg (by omega), if_neg (by omega : ¬((t : ℤ) - (3 * m + i) = 0)), add_zero]
    congr 1
    apply propext
    push_cast; omega

theorem tf_unit {m i j : ℕ} (hi : i < 3 * m) (hj : j < 6 * m) :
    tf m (unit i) j = kern m (3 * m - 1 - i - j) + kern m (3 * m + i - j) := by
  unfold tf d2 kern
  rw [← sum_add_distrib]
  refine sum_congr rfl fun k hk => ?_
  have := mem_range.1 hk
  rw [mirror_unit hi (by omega), mirror_unit hi (by omega), mirror_unit hi (by omega)]
  push_cast
  rw [show (j : ℤ) + k + 2 * m - (3 * m - 1 - i) = k + 2 * m - (3 * m - 1 - i - j) by ring,
    show (j : ℤ) + k + 2 * m - (3 * m + i) = k + 2 * m - (3 * m + i - j) by ring,
    show (j : ℤ) + k + m - (3 * m - 1 - i) = k + m - (3 * m - 1 - i - j) by ring,
    show (j : ℤ) + k + m - (3 * m + i) = k + m - (3 * m + i - j) by ring,
    show (j : ℤ) + k - (3 * m - 1 - i) = k - (3 * m - 1 - i - j) by ring,
    show (j : ℤ) + k - (3 * m + i) = k - (3 * m + i - j) by ring]
  ring

/-- the values of `kern` over one period -/
noncomputable def kk (m y : ℕ) : ℝ := if y < m then 1 else if y < 2 * m then -2 else if y < 3 * m then 1 else 0

theorem kern_near {m x : ℕ} (hx : x < 6 * m) : kern m x = kk m x := by
  unfold kern
  rw [sum_add_distrib, sum_sub_distrib, ← mul_sum]
  have hsum : ∀ a : ℕ, a ≤ 5 * m → ∑ k ∈ range m, ee m ((k : ℤ) + a - x) = if a ≤ x ∧ x < a + m then 1 else 0 := by
    intro a ha
    have : ∀ k ∈ range m, ee m ((k : ℤ) + a - x) = if k = x - a ∧ a ≤ x then 1 else 0 := fun k hk => by
      have := mem_range.1 hk
      rw [ee_near (by push_cast; omega) (by push_cast; omega)]
      congr 1
      apply propext; omega
    rw [sum_congr rfl this]
    by_cases h : a ≤ x
    · simp only [h, and_true, true_and]
      rw [sum_ite_eq']
      congr 1
      apply propext; rw [mem_range]; omega
    · simp [h]
  have h2 := hsum (2 * m) (by omega)
  have h1 := hsum m (by omega)
  have h0 := hsum 0 (by omega)
  push_cast at h2 h0
  simp only [add_zero] at h0
  rw [h2, h1, h0]
  unfold kk
  by_cases c1 : x < m
  · rw [if_neg (by omega), if_neg (by omega), if_pos (by omega), if_pos c1]; ring
  · by_cases c2 : x < 2 * m
    · rw [if_neg (by omega), if_pos (by omega), if_neg (by omega), if_neg c1, if_pos c2]; ring
    · by_cases c3 : x < 3 * m
      · rw [if_pos (by omega), if_neg (by omega), if_neg (by omega), if_neg c1, if_neg c2, if_pos c3]; ring
      · rw [if_neg (by omega), if_neg (by omega), if_neg (by omega), if_neg c1, if_neg c2, if_neg c3]; ring

/-- the values of the antidifference over one period -/
noncomputable def pp (m y : ℕ) : ℝ := if y < m then y else if y < 2 * m then 3 * m - 2 * y else if y < 3 * m then y - 3 * m else 0

/-- the antidifference of `kern` -/
noncomputable def prim (m : ℕ) (x : ℤ) : ℝ := per (6 * m) (pp m) x

theorem prim_add (m : ℕ) (x : ℤ) : prim m (x + (6 * m : ℕ)) = prim m x := per_add _ _ _

theorem prim_diff {m : ℕ} (hm : 0 < m) (x : ℤ) : prim m (x + 1) - prim m x = kern m x := by
  rw [per_eq (n := 6 * m) (by omega) (G := fun x => prim m (x + 1) - prim m x) (F := kk m) ?_ ?_ x,
    per_eq (n := 6 * m) (by omega) (G := kern m) (F := kk m) (kern_add m) (fun x hx => kern_near hx) x]
  · intro x
    rw [add_right_comm, prim_add, prim_add]
  · intro x hx
    have h1 : prim m (x : ℤ) = pp m x := per_nat _ hx
    by_cases hl : x + 1 < 6 * m
    · have h2 : prim m ((x : ℤ) + 1) = pp m (x + 1) := by
        have := per_nat (pp m) hl
        push_cast at this
        exact this
      rw [h1, h2]
      unfold pp kk
      rcases lt_trichotomy (x + 1) m with c | c | c
      · rw [if_pos c, if_pos (by omega), if_pos (by omega)]; push_cast; ring
      · rw [if_neg (by omega), if_pos (by omega), if_pos (by omega), if_pos (by omega), ← c]; push_cast; ring
      · have c1 : ¬ x < m := by omega
        rw [if_neg (by omega), if_neg c1, if_neg c1]
        rcases lt_trichotomy (x + 1) (2 * m) with d | d | d
        · rw [if_pos d, if_pos (by omega), if_pos (by omega)]; push_cast; ring
        · have d' : (x : ℝ) + 1 = 2 * m := by exact_mod_cast d
          rw [if_neg (by omega), if_pos (by omega), if_pos (by omega), if_pos (by omega)]; push_cast; linarith
        · have d1 : ¬ x < 2 * m := by omega
          rw [if_neg (by omega), if_neg d1, if_neg d1]
          rcases lt_trichotomy (x + 1) (3 * m) with e | e | e
          · rw [if_pos e, if_pos (by omega), if_pos (by omega)]; push_cast; ring
          · have e' : (x : ℝ) + 1 = 3 * m := by exact_mod_cast e
            rw [if_neg (by omega), if_pos (by omega), if_pos (by omega)]; linarith
          · rw [if_neg (by omega), if_neg (by omega), if_neg (by omega)]; ring
    · have h2 : prim m ((x : ℤ) + 1) = pp m 0 := by
        rw [show (x : ℤ) + 1 = ((0 : ℕ) : ℤ) + (6 * m : ℕ) by push_cast; omega, prim_add]
        exact per_nat _ (by omega)
      rw [h1, h2]
      unfold pp kk
      rw [if_pos hm, if_neg (by omega), if_neg (by omega), if_neg (by omega), if_neg (by omega), if_neg (by omega),
        if_neg (by omega)]
      simp

/-- a step of the subsequence -/
noncomputable def step (s k : ℕ) : ℝ := if s ≤ k then 1 else 0

theorem tf_step {m : ℕ} (hm : 0 < m) {j : ℕ} (hj : j < 6 * m) {s : ℕ} (hs : s ≤ 3 * m) :
    tf m (step s) j = prim m (3 * m - s - j) - prim m (3 * m + s - j) := by
  obtain ⟨d, hd⟩ := Nat.exists_eq_add_of_le hs
  induction d generalizing s with
  | zero =>
    have h1 : tf m (step s) j = tf m (fun _ => 0) j := tf_congr hj fun k hk => by unfold step; rw [if_neg (by omega)]
    rw [h1, tf_const]
    have : prim m (3 * m + s - j) = prim m (3 * m - s - j) := by
      rw [← prim_add m (3 * m - s - j)]; congr 1; push_cast; omega
    rw [this, sub_self]
  | succ d ih =>
    have ih := ih (s := s + 1) (by omega) (by omega)
    have h1 : step s = fun k => unit s k + step (s + 1) k := by
      funext k
      unfold step unit
      rcases lt_trichotomy k s with c | c | c
      · rw [if_neg (by omega), if_neg (by omega), if_neg (by omega)]; ring
      · rw [if_pos (by omega), if_pos (by omega), if_neg (by omega)]; ring
      · rw [if_pos (by omega), if_neg (by omega), if_pos (by omega)]; ring
    rw [h1, tf_add, ih, tf_unit (by omega) hj]
    have e1 := prim_diff hm (3 * m - 1 - s - j)
    have e2 := prim_diff hm (3 * m + s - j)
    rw [show (3 * m - 1 - s - j + 1 : ℤ) = 3 * m - s - j by ring] at e1
    rw [show (3 * m + s - j + 1 : ℤ) = 3 * m + (s + 1 : ℕ) - j by push_cast; ring] at e2
    rw [show (3 * m - (s + 1 : ℕ) - j : ℤ) = 3 * m - 1 - s - j by push_cast; ring]
    linarith

/-! ## Sums over the circle -/

theorem sum_sq_per {n : ℕ} {G : ℤ → ℝ} (hG : ∀ x, G (x + n) = G x) (s : ℤ) :
    ∑ j ∈ range n, G (s - j) ^ 2 = ∑ j ∈ range n, G j ^ 2 :=
  sum_neg_index (G := fun x => G x ^ 2) (fun x => by simp only [hG]) s

theorem unit_sum_sq {m : ℕ} (h0 : ∑ j ∈ range (6 * m), kern m j = 0) : ∑ i ∈ range (3 * m), ∑ j ∈ range (6 * m), tf m (unit i) j ^ 2 =
    6 * m * ∑ j ∈ range (6 * m), kern m j ^ 2 - evens (6 * m) (kern m) 0 ^ 2 := by
  set h : ℕ → ℝ := fun i => ∑ j ∈ range (6 * m), (kern m (3 * m - 1 - i - j) + kern m (3 * m + i - j)) ^ 2 with hh
  have e1 : ∑ i ∈ range (3 * m), ∑ j ∈ range (6 * m), tf m (unit i) j ^ 2 = ∑ i ∈ range (3 * m), h i :=
    sum_congr rfl fun i hi => sum_congr rfl fun j hj => by rw [tf_unit (mem_range.1 hi) (mem_range.1 hj)]
  have e2 : ∑ i ∈ range (2 * (3 * m)), h i = 2 * ∑ i ∈ range (3 * m), h i := by
    rw [two_mul (3 * m), sum_range_add, two_mul (∑ i ∈ range (3 * m), h i)]
    congr 1
    rw [← sum_range_reflect]
    refine sum_congr rfl fun i hi => ?_
    have hi := mem_range.1 hi
    rw [hh]
    refine sum_congr rfl fun j _ => ?_
    rw [← kern_add m (3 * m - 1 - ((3 * m + (3 * m - 1 - i) : ℕ) : ℤ) - j)]
    rw [← kern_add m (3 * m - 1 - i - j)]
    rw [add_comm]
    congr 3 <;> (push_cast; omega)
  have c := cross_sum (k := 3 * m) (G := kern m) (by rw [show 2 * (3 * m) = 6 * m by ring]; exact kern_add m)
    (by rw [show 2 * (3 * m) = 6 * m by ring]; exact h0) (3 * m) (3 * m - 1)
  rw [if_neg (by omega)] at c
  rw [show 2 * (3 * m) = 6 * m by ring] at c e2
  have e3 : ∑ i ∈ range (6 * m), h i = 2 * (6 * m * ∑ j ∈ range (6 * m), kern m j ^ 2) +
      2 * ∑ s ∈ range (6 * m), ∑ j ∈ range (6 * m), kern m (3 * m + s - j) * kern m (3 * m - 1 - s - j) := by
    have : ∀ i ∈ range (6 * m), h i = 2 * ∑ j ∈ range (6 * m), kern m j ^ 2 +
        2 * ∑ j ∈ range (6 * m), kern m (3 * m + i - j) * kern m (3 * m - 1 - i - j) := fun i _ => by
      rw [hh]
      simp only [add_sq, sum_add_distrib]
      rw [sum_sq_per (kern_add m), sum_sq_per (kern_add m), mul_sum]
      have : ∀ j ∈ range (6 * m), 2 * kern m (3 * m - 1 - i - j) * kern m (3 * m + i - j) =
        2 * (kern m (3 * m + i - j) * kern m (3 * m - 1 - i - j)) := fun j _ => by ring
      rw [sum_congr rfl this, mul_sum]
      simp only [← mul_sum]
      ring
    rw [sum_congr rfl this, sum_add_distrib, sum_const, card_range, nsmul_eq_mul, ← mul_sum]
    push_cast; ring
  rw [c] at e3
  rw [e1]
  linarith

theorem step_sum_sq {m : ℕ} (hm : 0 < m) (h0 : ∑ j ∈ range (6 * m), prim m j = 0) : ∑ s ∈ range (3 * m), ∑ j ∈ range (6 * m), tf m (step s) j ^ 2 =
    6 * m * ∑ j ∈ range (6 * m), prim m j ^ 2 - evens (6 * m) (prim m) 0 ^ 2 := by
  set h : ℕ → ℝ := fun s => ∑ j ∈ range (6 * m), (prim m (3 * m - s - j) - prim m (3 * m + s - j)) ^ 2 with hh
  have e1 : ∑ i ∈ range (3 * m), ∑ j ∈ range (6 * m), tf m (step i) j ^ 2 = ∑ i ∈ range (3 * m), h i :=
    sum_congr rfl fun i hi => sum_congr rfl fun j hj => by rw [tf_step hm (mem_range.1 hj) (mem_range.1 hi).le]
  have z0 : h 0 = 0 := by rw [hh]; simp
  have z1 : h (3 * m) = 0 := by
    rw [hh]
    refine sum_eq_zero fun j _ => ?_
    rw [← prim_add m (3 * m - (3 * m : ℕ) - j)]
    rw [show (3 * m - (3 * m : ℕ) - j + (6 * m : ℕ) : ℤ) = 3 * m + (3 * m : ℕ) - j by push_cast; ring]
    simp
  have e2 : ∑ i ∈ range (2 * (3 * m)), h i = 2 * ∑ i ∈ range (3 * m), h i := by
    rw [two_mul (3 * m), sum_range_add, two_mul (∑ i ∈ range (3 * m), h i)]
    congr 1
    have e3 := sum_range_succ h (3 * m)
    have e4 := sum_range_succ' h (3 * m)
    rw [z1, add_zero] at e3
    rw [z0, add_zero] at e4
    rw [← e3, e4, ← sum_range_reflect]
    refine sum_congr rfl fun i hi => ?_
    have hi := mem_range.1 hi
    rw [hh]
    refine sum_congr rfl fun j _ => ?_
    rw [← prim_add m (3 * m - ((3 * m + (3 * m - 1 - i) : ℕ) : ℤ) - j), ← prim_add m (3 * m - ((i + 1 : ℕ) : ℤ) - j)]
    rw [show (3 * m - ((3 * m + (3 * m - 1 - i) : ℕ) : ℤ) - j + (6 * m : ℕ)) = 3 * m + ((i + 1 : ℕ) : ℤ) - j by
        push_cast; omega,
      show (3 * m + ((3 * m + (3 * m - 1 - i) : ℕ) : ℤ) - j) = 3 * m - ((i + 1 : ℕ) : ℤ) - j + (6 * m : ℕ) by
        push_cast; omega]
    ring
  have c := cross_sum (k := 3 * m) (G := prim m) (by rw [show 2 * (3 * m) = 6 * m by ring]; exact prim_add m)
    (by rw [show 2 * (3 * m) = 6 * m by ring]; exact h0) (3 * m) (3 * m)
  rw [if_pos (by omega)] at c
  rw [show 2 * (3 * m) = 6 * m by ring] at c e2
  have e3 : ∑ i ∈ range (6 * m), h i = 2 * (6 * m * ∑ j ∈ range (6 * m), prim m j ^ 2) -
      2 * ∑ s ∈ range (6 * m), ∑ j ∈ range (6 * m), prim m (3 * m + s - j) * prim m (3 * m - s - j) := by
    have : ∀ i ∈ range (6 * m), h i = 2 * ∑ j ∈ range (6 * m), prim m j ^ 2 -
        2 * ∑ j ∈ range (6 * m), prim m (3 * m + i - j) * prim m (3 * m - i - j) := fun i _ => by
      have a1 := sum_sq_per (prim_add m) (3 * m - i)
      have a2 := sum_sq_per (prim_add m) (3 * m + i)
      have : ∀ j ∈ range (6 * m), (prim m (3 * m - i - j) - prim m (3 * m + i - j)) ^ 2 =
        prim m (3 * m - i - j) ^ 2 + prim m (3 * m + i - j) ^ 2 -
        2 * (prim m (3 * m + i - j) * prim m (3 * m - i - j)) := fun j _ => by ring
      rw [hh]
      simp only
      rw [sum_congr rfl this, sum_sub_distrib, sum_add_distrib, a1, a2, ← mul_sum]
      ring
    rw [sum_congr rfl this, sum_sub_distrib, sum_const, card_range, nsmul_eq_mul, ← mul_sum]
    push_cast; ring
  rw [c] at e3
  rw [e1]
  linarith

/-! ## The values of the sums -/

theorem kern_nat {m j : ℕ} (hj : j < 6 * m) : kern m j = kk m j := kern_near hj

theorem prim_nat {m j : ℕ} (hj : j < 6 * m) : prim m j = pp m j := per_nat _ hj

theorem sum_kern (m : ℕ) (F : ℝ → ℝ) (h0 : F 0 = 0) : ∑ j ∈ range (6 * m), F (kern m j) = m * (2 * F 1 + F (-2)) := by
  rw [halves, blocks3]
  have : ∀ i ∈ range m, F (kern m (i : ℕ)) + F (kern m ((3 * m + i : ℕ) : ℤ)) + (F (kern m ((m + i : ℕ) : ℤ)) +
      F (kern m ((3 * m + (m + i) : ℕ) : ℤ))) + (F (kern m ((2 * m + i : ℕ) : ℤ)) + F (kern m ((3 * m + (2 * m + i) : ℕ) : ℤ)))
      = 2 * F 1 + F (-2) := fun i hi => by
    have hi := mem_range.1 hi
    rw [kern_nat (by omega), kern_nat (by omega), kern_nat (by omega), kern_nat (by omega), kern_nat (by omega),
      kern_nat (by omega)]
    have k0 : kk m i = 1 := if_pos (by omega)
    have k1 : kk m (m + i) = -2 := by unfold kk; rw [if_neg (by omega), if_pos (by omega)]
    have k2 : kk m (2 * m + i) = 1 := by unfold kk; rw [if_neg (by omega), if_neg (by omega), if_pos (by omega)]
    have k3 : ∀ y, 3 * m ≤ y → kk m y = 0 := fun y hy => by
      unfold kk; rw [if_neg (by omega), if_neg (by omega), if_neg (by omega)]
    rw [k0, k1, k2, k3 _ (by omega), k3 _ (by omega), k3 _ (by omega), h0]
    ring
  rw [sum_congr rfl this, sum_const, card_range, nsmul_eq_mul]

theorem sum_prim (m : ℕ) (F : ℝ → ℝ) (h0 : F 0 = 0) : ∑ j ∈ range (6 * m), F (prim m j) =
    ∑ i ∈ range m, (F i + F (m - 2 * i) + F (i - m)) := by
  rw [halves, blocks3]
  refine sum_congr rfl fun i hi => ?_
  have hi := mem_range.1 hi
  rw [prim_nat (by omega), prim_nat (by omega), prim_nat (by omega), prim_nat (by omega), prim_nat (by omega),
    prim_nat (by omega)]
  have k0 : pp m i = i := if_pos (by omega)
  have k1 : pp m (m + i) = m - 2 * i := by unfold pp; rw [if_neg (by omega), if_pos (by omega)]; push_cast; ring
  have k2 : pp m (2 * m + i) = i - m := by
    unfold pp; rw [if_neg (by omega), if_neg (by omega), if_pos (by omega)]; push_cast; ring
  have k3 : ∀ y, 3 * m ≤ y → pp m y = 0 := fun y hy => by
    unfold pp; rw [if_neg (by omega), if_neg (by omega), if_neg (by omega)]
  rw [k0, k1, k2, k3 _ (by omega), k3 _ (by omega), k3 _ (by omega), h0]
  ring

theorem sum_poly1 (a b : ℝ) (n : ℕ) : ∑ i ∈ range n, (a + b * i) = a * n + b * (n * (n - 1) / 2) := by
  induction n with
  | zero => simp
  | succ n ih => rw [sum_range_succ, ih]; push_cast; ring

/-- sums of polynomials -/
theorem sum_poly (a b c d e f : ℝ) (n : ℕ) :
    ∑ i ∈ range n, (a + b * i + c * i ^ 2 + d * i ^ 3 + e * i ^ 4 + f * (i : ℝ) ^ 5) =
      a * n + b * (n * (n - 1) / 2) + c * (n * (n - 1) * (2 * n - 1) / 6) + d * (n ^ 2 * (n - 1) ^ 2 / 4) +
        e * (n * (n - 1) * (2 * n - 1) * (3 * n ^ 2 - 3 * n - 1) / 30) +
        f * (n ^ 2 * (n - 1) ^ 2 * (2 * n ^ 2 - 2 * n - 1) / 12) := by
  induction n with
  | zero => simp
  | succ n ih => rw [sum_range_succ, ih]; push_cast; ring

theorem kern_sum (m : ℕ) : ∑ j ∈ range (6 * m), kern m j = 0 := by
  have := sum_kern m (fun x => x) rfl
  rw [this]; ring

theorem kern_sum_sq (m : ℕ) : ∑ j ∈ range (6 * m), kern m j ^ 2 = 6 * m := by
  have := sum_kern m (fun x => x ^ 2) (by norm_num)
  rw [this]; ring

theorem prim_sum (m : ℕ) : ∑ j ∈ range (6 * m), prim m j = 0 := by
  have := sum_prim m (fun x => x) rfl
  rw [this]
  exact sum_eq_zero fun i _ => by ring

theorem prim_sum_sq (m : ℕ) : ∑ j ∈ range (6 * m), prim m j ^ 2 = m * (m ^ 2 + 1) := by
  have := sum_prim m (fun x => x ^ 2) (by norm_num)
  rw [this, sum_congr rfl (fun (i : ℕ) _ => show (i : ℝ) ^ 2 + (m - 2 * i) ^ 2 + (i - m) ^ 2 =
    2 * m ^ 2 + (-6 * m) * i + 6 * i ^ 2 + 0 * i ^ 3 + 0 * i ^ 4 + 0 * i ^ 5 by ring), sum_poly]
  ring

theorem evens_kern (m : ℕ) : evens (6 * m) (kern m) 0 = 2 * ∑ s ∈ range (3 * m), kk m (2 * s) := by
  have h := evens_zero (k := 3 * m) (G := kern m) (by rw [show 2 * (3 * m) = 6 * m by ring]; exact kern_add m)
  rw [show 2 * (3 * m) = 6 * m by ring] at h
  rw [h]
  congr 1
  refine sum_congr rfl fun s hs => ?_
  have := mem_range.1 hs
  have := kern_near (m := m) (x := 2 * s) (by omega)
  rw [← this]; congr 1

theorem evens_prim (m : ℕ) : evens (6 * m) (prim m) 0 = 2 * ∑ s ∈ range (3 * m), pp m (2 * s) := by
  have h := evens_zero (k := 3 * m) (G := prim m) (by rw [show 2 * (3 * m) = 6 * m by ring]; exact prim_add m)
  rw [show 2 * (3 * m) = 6 * m by ring] at h
  rw [h]
  congr 1
  refine sum_congr rfl fun s hs => ?_
  have := mem_range.1 hs
  have := prim_nat (m := m) (j := 2 * s) (by omega)
  rw [← this]; congr 1

/-- splitting a range in four -/
theorem split4 (a b c d : ℕ) (H : ℕ → ℝ) : ∑ s ∈ range (a + b + c + d), H s =
    ∑ i ∈ range a, H i + ∑ i ∈ range b, H (a + i) + ∑ i ∈ range c, H (a + b + i) + ∑ i ∈ range d, H (a + b + c + i) := by
  rw [sum_range_add, sum_range_add, sum_range_add]

theorem evens_kern_even (p : ℕ) : evens (6 * (2 * p)) (kern (2 * p)) 0 = 0 := by
  rw [evens_kern, show 3 * (2 * p) = p + p + p + 3 * p by ring, split4]
  have e0 : ∀ i ∈ range p, kk (2 * p) (2 * i) = 1 := fun i hi => by
    have := mem_range.1 hi; unfold kk; rw [if_pos (by omega)]
  have e1 : ∀ i ∈ range p, kk (2 * p) (2 * (p + i)) = -2 := fun i hi => by
    have := mem_range.1 hi; unfold kk; rw [if_neg (by omega), if_pos (by omega)]
  have e2 : ∀ i ∈ range p, kk (2 * p) (2 * (p + p + i)) = 1 := fun i hi => by
    have := mem_range.1 hi; unfold kk; rw [if_neg (by omega), if_neg (by omega), if_pos (by omega)]
  have e3 : ∀ i ∈ range (3 * p), kk (2 * p) (2 * (p + p + p + i)) = 0 := fun i hi => by
    unfold kk; rw [if_neg (by omega), if_neg (by omega), if_neg (by omega)]
  rw [sum_congr rfl e0, sum_congr rfl e1, sum_congr rfl e2, sum_congr rfl e3]
  simp only [sum_const, card_range, nsmul_eq_mul]
  ring

theorem evens_kern_odd (p : ℕ) : evens (6 * (2 * p + 1)) (kern (2 * p + 1)) 0 = 4 := by
  rw [evens_kern, show 3 * (2 * p + 1) = (p + 1) + p + (p + 1) + (3 * p + 1) by ring, split4]
  have e0 : ∀ i ∈ range (p + 1), kk (2 * p + 1) (2 * i) = 1 := fun i hi => by
    have := mem_range.1 hi; unfold kk; rw [if_pos (by omega)]
  have e1 : ∀ i ∈ range p, kk (2 * p + 1) (2 * (p + 1 + i)) = -2 := fun i hi => by
    have := mem_range.1 hi; unfold kk; rw [if_neg (by omega), if_pos (by omega)]
  have e2 : ∀ i ∈ range (p + 1), kk (2 * p + 1) (2 * (p + 1 + p + i)) = 1 := fun i hi => by
    have := mem_range.1 hi; unfold kk; rw [if_neg (by omega), if_neg (by omega), if_pos (by omega)]
  have e3 : ∀ i ∈ range (3 * p + 1), kk (2 * p + 1) (2 * (p + 1 + p + (p + 1) + i)) = 0 := fun i hi => by
    unfold kk; rw [if_neg (by omega), if_neg (by omega), if_neg (by omega)]
  rw [sum_congr rfl e0, sum_congr rfl e1, sum_congr rfl e2, sum_congr rfl e3]
  simp only [sum_const, card_range, nsmul_eq_mul]
  push_cast; ring

theorem evens_prim_even (p : ℕ) : evens (6 * (2 * p)) (prim (2 * p)) 0 = 0 := by
  rw [evens_prim, show 3 * (2 * p) = p + p + p + 3 * p by ring, split4]
  have e0 : ∀ i ∈ range p, pp (2 * p) (2 * i) = 0 + 2 * i := fun i hi => by
    have := mem_range.1 hi; unfold pp; rw [if_pos (by omega)]; push_cast; ring
  have e1 : ∀ i ∈ range p, pp (2 * p) (2 * (p + i)) = 2 * p + -4 * i := fun i hi => by
    have := mem_range.1 hi; unfold pp; rw [if_neg (by omega), if_pos (by omega)]; push_cast; ring
  have e2 : ∀ i ∈ range p, pp (2 * p) (2 * (p + p + i)) = -2 * p + 2 * i := fun i hi => by
    have := mem_range.1 hi; unfold pp; rw [if_neg (by omega), if_neg (by omega), if_pos (by omega)]; push_cast; ring
  have e3 : ∀ i ∈ range (3 * p), pp (2 * p) (2 * (p + p + p + i)) = 0 + 0 * i := fun i hi => by
    unfold pp; rw [if_neg (by omega), if_neg (by omega), if_neg (by omega)]; ring
  rw [sum_congr rfl e0, sum_congr rfl e1, sum_congr rfl e2, sum_congr rfl e3]
  simp only [sum_poly1]
  ring

theorem evens_prim_odd (p : ℕ) : evens (6 * (2 * p + 1)) (prim (2 * p + 1)) 0 ^ 2 = 4 := by
  rw [evens_prim, show 3 * (2 * p + 1) = (p + 1) + p + (p + 1) + (3 * p + 1) by ring, split4]
  have e0 : ∀ i ∈ range (p + 1), pp (2 * p + 1) (2 * i) = 0 + 2 * i := fun i hi => by
    have := mem_range.1 hi; unfold pp; rw [if_pos (by omega)]; push_cast; ring
  have e1 : ∀ i ∈ range p, pp (2 * p + 1) (2 * (p + 1 + i)) = (2 * p - 1) + -4 * i := fun i hi => by
    have := mem_range.1 hi; unfold pp; rw [if_neg (by omega), if_pos (by omega)]; push_cast; ring
  have e2 : ∀ i ∈ range (p + 1), pp (2 * p + 1) (2 * (p + 1 + p + i)) = (-2 * p - 1) + 2 * i := fun i hi => by
    have := mem_range.1 hi; unfold pp; rw [if_neg (by omega), if_neg (by omega), if_pos (by omega)]; push_cast; ring
  have e3 : ∀ i ∈ range (3 * p + 1), pp (2 * p + 1) (2 * (p + 1 + p + (p + 1) + i)) = 0 + 0 * i := fun i hi => by
    unfold pp; rw [if_neg (by omega), if_neg (by omega), if_neg (by omega)]; ring
  rw [sum_congr rfl e0, sum_congr rfl e1, sum_congr rfl e2, sum_congr rfl e3]
  simp only [sum_poly1]
  push_cast
  ring

theorem unit_total (m : ℕ) : ∑ i ∈ range (3 * m), ∑ j ∈ range (6 * m), tf m (unit i) j ^ 2 =
    36 * m ^ 2 - if m % 2 = 0 then 0 else 16 := by
  rw [unit_sum_sq (kern_sum m), kern_sum_sq]
  obtain ⟨p, rfl | rfl⟩ := m.even_or_odd'
  · rw [evens_kern_even, if_pos (by omega)]; push_cast; ring
  · rw [evens_kern_odd, if_neg (by omega)]; push_cast; ring

theorem step_total {m : ℕ} (hm : 0 < m) : ∑ s ∈ range (3 * m), ∑ j ∈ range (6 * m), tf m (step s) j ^ 2 =
    6 * m ^ 2 * (m ^ 2 + 1) - if m % 2 = 0 then 0 else 4 := by
  rw [step_sum_sq hm (prim_sum m), prim_sum_sq]
  obtain ⟨p, rfl | rfl⟩ := m.even_or_odd'
  · rw [evens_prim_even, if_pos (by omega)]; push_cast; ring
  · rw [evens_prim_odd, if_neg (by omega)]; push_cast; ring

theorem tr_total (m : ℕ) : ∑ j ∈ range (6 * m), tr m j ^ 2 = 2 * (m * (11 * m ^ 4 - 1) / 5) := by
  rw [tr_sq, sum_congr rfl (fun (i : ℕ) _ => show (i : ℝ) ^ 4 + (m ^ 2 + 2 * m * i - 2 * i ^ 2) ^ 2 + (m - i) ^ 4 =
    (2 * m ^ 4) + 0 * i + (6 * m ^ 2) * i ^ 2 + (-12 * m) * i ^ 3 + 6 * i ^ 4 + 0 * i ^ 5 by ring), sum_poly]
  ring

end AT
