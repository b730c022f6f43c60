import Verif.Lemmas.Tab
import Verif.Model.Convert
import Verif.Spec.Dev

/-! # Lemmas on NaN trimming and integration -/

namespace AT

open Spec Finset

theorem trimFirst_none (n : ℕ) : trimFirst (List.replicate n none) = .error .indexError := by
  induction n with
  | zero => rfl
  | succ n ih => rw [List.replicate_succ]; unfold trimFirst; rw [ih]; rfl

theorem trimFirst_some (a : ℕ) (v : ℝ) (t : List NV) :
    trimFirst (List.replicate a none ++ some v :: t) = .ok a := by
  induction a with
  | zero => rfl
  | succ n ih => rw [List.replicate_succ, List.cons_append]; unfold trimFirst; rw [ih]; rfl

theorem trimLast_some (s : List NV) (v : ℝ) (b : ℕ) :
    trimLast (s ++ some v :: List.replicate b none) (s.length + 1 + b) = .ok (s.length + 1) := by
  have key : ∀ k ≤ b, trimLast (s ++ some v :: List.replicate b none) (s.length + 1 + k)
      = .ok (s.length + 1) := by
    intro k
    induction k with
    | zero =>
      intro _
      unfold trimLast
      simp
    | succ k ih =>
      intro hk
      rw [show s.length + 1 + (k + 1) = (s.length + 1 + k) + 1 by ring]
      unfold trimLast
      have : (s ++ some v :: List.replicate b none)[s.length + 1 + k]? = some none := by
        rw [List.getElem?_append_right (by omega)]
        rw [show s.length + 1 + k - s.length = k + 1 by omega, List.getElem?_cons_succ,
          List.getElem?_replicate]
        simp; omega
      rw [this]
      exact ih (by omega)
  exact key b le_rfl

/-- a list with at least one number splits into NaN margins and a core that starts and ends
with a number -/
theorem trim_split (x : List NV) (h : ∃ v : ℝ, some v ∈ x) :
    ∃ a t b, x = List.replicate a none ++ t ++ List.replicate b none ∧
      (∃ v : ℝ, t.head? = some (some v)) ∧ (∃ v : ℝ, t.getLast? = some (some v)) := by
  have front : ∀ x : List NV, (∃ v : ℝ, some v ∈ x) →
      ∃ a v t, x = List.replicate a none ++ some v :: t := by
    intro x
    induction x with
    | nil => rintro ⟨v, h⟩; simp at h
    | cons y ys ih =>
      rintro ⟨v, h⟩
      cases y with
      | some w => exact ⟨0, w, ys, rfl⟩
      | none =>
        have : ∃ v : ℝ, some v ∈ ys := ⟨v, by simpa using h⟩
        obtain ⟨a, w, t, rfl⟩ := ih this
        exact ⟨a + 1, w, t, by rw [List.replicate_succ, List.cons_append]⟩
  obtain ⟨a, v, t, rfl⟩ := front x h
  obtain ⟨b, w, s, hs⟩ := front ((some v :: t).reverse) ⟨v, by simp⟩
  have hs' : some v :: t = s.reverse ++ [some w] ++ List.replicate b none := by
    have := congrArg List.reverse hs
    rw [List.reverse_reverse, List.reverse_append, List.reverse_cons, List.reverse_replicate] at this
    exact this
  refine ⟨a, s.reverse ++ [some w], b, ?_, ?_, ?_⟩
  · rw [List.append_assoc, ← hs']
  · cases hr : s.reverse with
    | nil => exact ⟨w, rfl⟩
    | cons y ys =>
      rw [hr] at hs'
      injection hs' with h1 h2
      exact ⟨v, by rw [← h1]; rfl⟩
  · exact ⟨w, by simp⟩

theorem trim_data_split (a b : ℕ) (t : List NV) (v w : ℝ) (hv : t.head? = some (some v))
    (hw : t.getLast? = some (some w)) :
    trim_data (List.replicate a none ++ t ++ List.replicate b none) = .ok t := by
  have h1 : trimFirst (List.replicate a none ++ t ++ List.replicate b none) = .ok a := by
    cases t with
    | nil => simp at hv
    | cons y ys =>
      simp at hv; subst hv
      rw [List.append_assoc, List.cons_append]
      exact trimFirst_some a v _
  obtain ⟨s, rfl⟩ : ∃ s, t = s ++ [some w] := List.getLast?_eq_some_iff.1 hw
  have h2 : trimLast (List.replicate a none ++ (s ++ [some w]) ++ List.replicate b none)
      (List.replicate a none ++ (s ++ [some w]) ++ List.replicate b none).length
      = .ok (a + s.length + 1) := by
    have := trimLast_some (List.replicate a none ++ s) w b
    simp only [List.length_append, List.length_replicate, List.length_cons, List.length_nil] at this ⊢
    rw [show List.replicate a none ++ (s ++ [some w]) ++ List.replicate b none
      = List.replicate a none ++ s ++ some w :: List.replicate b none by simp]
    rw [show a + (s.length + (0 + 1)) + b = a + s.length + 1 + b by ring]
    exact this
  unfold trim_data
  rw [h1, ok_bind, h2, ok_bind, slice_nat]
  congr 1
  rw [show a + s.length + 1 = (List.replicate a (none : NV) ++ (s ++ [some w])).length by
    simp; ring, List.take_left' rfl, List.drop_left' (by simp)]

/-- `frequency2phase` in closed form -/
theorem frequency2phase_tab (n : ℕ) (hn : 0 < n) (y : ℕ → ℝ) (rate : ℝ) (hr : rate ≠ 0) :
    frequency2phase (tab n y) rate = .ok (tab (n + 1) (fun i =>
      (∑ j ∈ range i, (y j - (∑ k ∈ range n, y k) / n)) / rate)) := by
  unfold frequency2phase
  rw [if_neg hr, if_neg (by intro h; have := congrArg List.length h; simp at this; omega)]
  simp only [npMean_tab, map_tab, npCumsum_tab, tab_succ', one_mul, div_eq_mul_inv,
    Finset.range_zero, Finset.sum_empty, zero_mul]

end AT
