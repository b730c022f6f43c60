import Verif.Py
import Mathlib.Tactic.Ring
import Mathlib.Tactic.Linarith
import Mathlib.Algebra.BigOperators.Intervals

/-! # Normal form for lists: `tab n g` -/

namespace AT

open Finset

variable {α β γ : Type}

@[simp] theorem tab_length (n : ℕ) (g : ℕ → α) : (tab n g).length = n := by simp [tab]

@[simp] theorem tab_zero (g : ℕ → α) : tab 0 g = [] := rfl

theorem tab_succ (n : ℕ) (g : ℕ → α) : tab (n+1) g = tab n g ++ [g n] := by
  simp [tab, List.range_succ]

theorem tab_succ' (n : ℕ) (g : ℕ → α) : tab (n+1) g = g 0 :: tab n (fun i => g (i+1)) := by
  simp [tab, List.range_succ_eq_map, Function.comp_def]

theorem tab_getElem? (n : ℕ) (g : ℕ → α) (i : ℕ) :
    (tab n g)[i]? = if i < n then some (g i) else none := by
  simp only [tab, List.getElem?_map]
  split <;> rename_i h
  · simp [h]
  · simp [h]

theorem tab_getElem (n : ℕ) (g : ℕ → α) (i : ℕ) (h : i < (tab n g).length) :
    (tab n g)[i] = g i := by
  simp [tab]

theorem tab_getD (n : ℕ) (g : ℕ → α) (i : ℕ) (d : α) :
    (tab n g).getD i d = if i < n then g i else d := by
  rw [List.getD_eq_getElem?_getD, tab_getElem?]
  split <;> simp

theorem tab_congr {n : ℕ} {g h : ℕ → α} (H : ∀ i < n, g i = h i) : tab n g = tab n h := by
  apply List.map_congr_left
  intro i hi
  exact H i (List.mem_range.1 hi)

theorem tab_ext {l : List α} {n : ℕ} {g : ℕ → α} (hl : l.length = n)
    (H : ∀ i < n, l[i]? = some (g i)) : l = tab n g := by
  apply List.ext_getElem?
  intro i
  rw [tab_getElem?]
  by_cases h : i < n
  · simp [h, H]
  · simp [h]; omega

theorem eq_tab (x : List α) (d : α) : x = tab x.length (fun i => x.getD i d) := by
  apply tab_ext rfl
  intro i hi
  simp [hi]

theorem map_tab (f : α → β) (n : ℕ) (g : ℕ → α) :
    (tab n g).map f = tab n (fun i => f (g i)) := by
  simp [tab, Function.comp_def]

theorem vop_tab (f : α → β → γ) (n : ℕ) (g : ℕ → α) (h : ℕ → β) :
    vop f (tab n g) (tab n h) = .ok (tab n (fun i => f (g i) (h i))) := by
  unfold vop
  rw [if_pos (by simp)]
  congr 1
  apply tab_ext
  · simp
  · intro i hi
    rw [List.getElem?_zipWith, tab_getElem?, tab_getElem?, if_pos hi, if_pos hi]

theorem vscale_tab (c : ℝ) (n : ℕ) (g : ℕ → ℝ) : vscale c (tab n g) = tab n (fun i => c * g i) := by
  rw [vscale, map_tab]

theorem take_tab (k n : ℕ) (g : ℕ → α) : (tab n g).take k = tab (min k n) g := by
  apply tab_ext
  · simp
  · intro i hi
    simp [List.getElem?_take, tab_getElem?]
    omega

theorem drop_tab (k n : ℕ) (g : ℕ → α) : (tab n g).drop k = tab (n - k) (fun i => g (k + i)) := by
  apply tab_ext
  · simp
  · intro i hi
    simp [List.getElem?_drop, tab_getElem?]
    omega

theorem reverse_tab (n : ℕ) (g : ℕ → α) : (tab n g).reverse = tab n (fun i => g (n - 1 - i)) := by
  apply tab_ext
  · simp
  · intro i hi
    rw [List.getElem?_reverse (by simpa using hi)]
    simp [tab_getElem?]
    omega

theorem append_tab (a b : ℕ) (g h : ℕ → α) :
    tab a g ++ tab b h = tab (a + b) (fun i => if i < a then g i else h (i - a)) := by
  apply tab_ext
  · simp
  · intro i hi
    rw [List.getElem?_append]
    simp only [tab_length, tab_getElem?]
    split
    · rfl
    · rw [if_pos (by omega)]

theorem sum_tab (n : ℕ) (g : ℕ → ℝ) : (tab n g).sum = ∑ i ∈ range n, g i := by
  induction n with
  | zero => simp
  | succ n ih => rw [tab_succ, List.sum_append, ih, Finset.sum_range_succ]; simp

theorem npSum_tab (n : ℕ) (g : ℕ → ℝ) : npSum (tab n g) = ∑ i ∈ range n, g i := sum_tab n g

theorem npMean_tab (n : ℕ) (g : ℕ → ℝ) : npMean (tab n g) = (∑ i ∈ range n, g i) / n := by
  rw [npMean, sum_tab, tab_length]

theorem sum_map_eq (x : List α) (d : α) (f : α → ℝ) :
    (x.map f).sum = ∑ i ∈ range x.length, f (x.getD i d) := by
  conv_lhs => rw [eq_tab x d, map_tab]
  rw [sum_tab]

theorem sum_eq (x : List ℝ) : x.sum = ∑ i ∈ range x.length, x.getD i 0 := by
  conv_lhs => rw [eq_tab x 0]
  rw [sum_tab]

/-! ### Python slices on tabulated lists (non-negative bounds) -/

theorem normIdx_nat (len k : ℕ) : normIdx len (k : ℤ) = min k len := by
  unfold normIdx
  rw [if_neg (by omega)]
  simp

theorem sliceFrom_nat (xs : List α) (k : ℕ) : sliceFrom xs (k : ℤ) = xs.drop k := by
  unfold sliceFrom
  rw [normIdx_nat]
  rcases le_total k xs.length with h | h
  · simp [h]
  · simp [h]

theorem sliceTo_nat (xs : List α) (k : ℕ) : sliceTo xs (k : ℤ) = xs.take k := by
  unfold sliceTo
  rw [normIdx_nat]
  rcases le_total k xs.length with h | h
  · simp [h]
  · simp [h]

theorem slice_nat (xs : List α) (a b : ℕ) : slice xs (a : ℤ) (b : ℤ) = (xs.take b).drop a := by
  unfold slice
  rw [normIdx_nat, normIdx_nat]
  apply List.ext_getElem?
  intro i
  simp only [List.getElem?_drop, List.getElem?_take]
  by_cases h : a + i < xs.length
  · have : min a xs.length = a := by omega
    rw [this]
    by_cases h2 : a + i < b
    · rw [if_pos (by omega), if_pos h2]
    · rw [if_neg (by omega), if_neg h2]
  · rw [List.getElem?_eq_none (by omega : xs.length ≤ a + i)]
    split <;> split <;> first | rfl | (rw [List.getElem?_eq_none (by omega)])

theorem slice_tab (n : ℕ) (g : ℕ → α) (a b : ℕ) (hb : b ≤ n) :
    slice (tab n g) (a : ℤ) (b : ℤ) = tab (b - a) (fun i => g (a + i)) := by
  rw [slice_nat, take_tab, drop_tab, min_eq_left hb]

theorem normIdx_neg (len k : ℕ) (hk : 0 < k) : normIdx len (-(k : ℤ)) = len - k := by
  unfold normIdx
  rw [if_pos (by omega)]
  omega

theorem sliceTo_neg (xs : List α) (k : ℕ) (hk : 0 < k) :
    sliceTo xs (-(k : ℤ)) = xs.take (xs.length - k) := by
  unfold sliceTo
  rw [normIdx_neg _ _ hk]

theorem everyNth_tab (s : ℕ) (hs : 0 < s) (n : ℕ) (g : ℕ → α) :
    everyNth s (tab n g) = tab ((n + s - 1) / s) (fun i => g (i * s)) := by
  induction n using Nat.strong_induction_on generalizing g with
  | _ n ih =>
    rcases n with _ | n
    · rw [tab_zero]
      unfold everyNth
      have : (0 + s - 1) / s = 0 := Nat.div_eq_of_lt (by omega)
      rw [this, tab_zero]
    · rw [tab_succ']
      unfold everyNth
      rw [drop_tab, ih _ (by omega)]
      have e : (n + 1 + s - 1) / s = (n - (s - 1) + s - 1) / s + 1 := by
        rcases le_total s (n + 1) with h | h
        · have h1 : n + 1 + s - 1 = (n - (s - 1) + s - 1) + s := by omega
          rw [h1, Nat.add_div_right _ hs]
        · have h1 : n - (s - 1) = 0 := by omega
          have h2 : (0 + s - 1) / s = 0 := Nat.div_eq_of_lt (by omega)
          have h3 : n + 1 + s - 1 = n + s := by omega
          rw [h1, h2, h3, Nat.add_div_right _ hs, Nat.div_eq_of_lt (by omega)]
      rw [e, tab_succ']
      congr 1
      · simp
      · apply tab_congr
        intro i _
        congr 1
        have : (i + 1) * s = i * s + s := by ring
        omega

theorem sliceStep_tab (n : ℕ) (g : ℕ → α) (a s : ℕ) (hs : 0 < s) :
    sliceStep (tab n g) (a : ℤ) s = .ok (tab ((n - a + s - 1) / s) (fun i => g (a + i * s))) := by
  unfold sliceStep
  rw [if_neg (by omega), sliceFrom_nat, drop_tab, everyNth_tab s hs]

theorem pyGet_tab (n : ℕ) (g : ℕ → α) (i : ℤ) (h0 : 0 ≤ i) (hn : i < n) :
    pyGet (tab n g) i = .ok (g i.toNat) := by
  unfold pyGet
  simp only [if_neg (not_lt.2 h0), tab_getElem?]
  rw [if_pos (by omega)]

theorem pyGet_tab_nat (n : ℕ) (g : ℕ → α) (i : ℕ) (hn : i < n) :
    pyGet (tab n g) (i : ℤ) = .ok (g i) := by
  rw [pyGet_tab n g i (by omega) (by omega)]
  simp

/-! ### cumulative sums, loops -/

theorem scanl_add_tail (l : List ℝ) (a : ℝ) :
    (l.scanl (· + ·) a).tail = (npCumsum l).map (fun y => a + y) := by
  induction l generalizing a with
  | nil => simp [npCumsum]
  | cons x xs ih =>
    have h1 : ∀ b : ℝ, (xs.scanl (· + ·) b) = b :: (xs.scanl (· + ·) b).tail := by
      intro b; cases xs <;> simp [List.scanl]
    simp only [npCumsum, List.scanl_cons, List.tail_cons]
    rw [h1 (a + x), h1 (0 + x), ih, ih]
    simp [Function.comp_def, add_assoc]

theorem npCumsum_tab (n : ℕ) (g : ℕ → ℝ) :
    npCumsum (tab n g) = tab n (fun i => ∑ j ∈ range (i + 1), g j) := by
  induction n generalizing g with
  | zero => simp [npCumsum]
  | succ n ih =>
    rw [tab_succ', tab_succ']
    have h1 : ∀ b : ℝ, ∀ xs : List ℝ, (xs.scanl (· + ·) b) = b :: (xs.scanl (· + ·) b).tail := by
      intro b xs; cases xs <;> simp [List.scanl]
    simp only [npCumsum, List.scanl_cons, List.tail_cons]
    rw [h1 (0 + g 0), scanl_add_tail, ih, map_tab]
    congr 1
    · simp
    · apply tab_congr
      intro i _
      rw [Finset.sum_range_succ' _ (i+1)]
      ring

theorem npDiff_tab (n : ℕ) (g : ℕ → ℝ) :
    npDiff (tab n g) = tab (n - 1) (fun i => g (i + 1) - g i) := by
  apply tab_ext
  · simp [npDiff]
  · intro i hi
    simp only [npDiff, List.getElem?_zipWith, List.getElem?_tail, tab_getElem?]
    rw [if_pos (by omega), if_pos (by omega)]

/-- loop rule: give the state after `i` iterations explicitly -/
theorem forRange_ok {σ : Type} (n : ℕ) (st : ℕ → σ) (f : σ → ℕ → Py σ)
    (H : ∀ i < n, f (st i) i = .ok (st (i + 1))) : forRange n (st 0) f = .ok (st n) := by
  unfold forRange
  induction n with
  | zero => rfl
  | succ n ih =>
    rw [List.range_succ, List.foldlM_append, ih (fun i hi => H i (by omega))]
    show (List.foldlM f (st n) [n]) = _
    simp only [List.foldlM_cons, List.foldlM_nil]
    rw [H n (by omega)]
    rfl

theorem forRange_eq {σ : Type} {n : ℕ} {init : σ} (st : ℕ → σ) {f : σ → ℕ → Py σ}
    (h0 : st 0 = init) (H : ∀ i < n, f (st i) i = .ok (st (i + 1))) :
    forRange n init f = .ok (st n) := by
  subst h0; exact forRange_ok n st f H

@[simp] theorem ok_bind {α β : Type} (a : α) (f : α → Py β) : (Except.ok a >>= f) = f a := rfl
@[simp] theorem error_bind {α β : Type} (e : PyErr) (f : α → Py β) :
    ((Except.error e : Py α) >>= f) = .error e := rfl
@[simp] theorem pure_eq_ok {α : Type} (a : α) : (pure a : Py α) = .ok a := rfl

theorem pyAssert_true {b : Prop} [Decidable b] (h : b) : pyAssert b = .ok () := if_pos h
theorem pyAssert_false {b : Prop} [Decidable b] (h : ¬ b) : pyAssert b = .error .assertionError :=
  if_neg h

end AT
