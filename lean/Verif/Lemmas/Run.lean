import Verif.Spec.Dev
import Verif.Model.Dev
import Verif.Lemmas.Tau

/-! # The common driver loop -/

namespace AT

open Spec

theorem mapM_ok {α β : Type} (l : List α) (f : α → Py β) (g : α → β)
    (H : ∀ a ∈ l, f a = .ok (g a)) : l.mapM f = .ok (l.map g) := by
  induction l with
  | nil => rfl
  | cons a l ih =>
    rw [List.mapM_cons, H a (List.mem_cons_self ..), ih (fun b hb => H b (List.mem_cons_of_mem _ hb))]
    rfl

theorem zipIdx_filter_map {α β : Type} (l : List α) (p : α → Bool) (f : α → β) :
    (l.zipIdx.filter (fun q => p q.1)).map (fun q => f q.1) = (l.filter p).map f := by
  have h : l = l.zipIdx.map Prod.fst := by simp
  conv_rhs => rw [h]
  rw [List.filter_map, List.map_map]
  rfl

/-- rows whose entries are only required to agree with the specification when kept -/
theorem runTaus_eq (ms : List ℕ) (body : ℕ → ℕ → Py (ℝ × ℝ × ℤ)) (tau dev err : ℕ → ℝ) (n : ℕ → ℤ)
    (H : ∀ i m, ms[i]? = some m → ∃ row, body i m = .ok row ∧ (1 < row.2.2 ↔ 1 < n m) ∧
      (1 < n m → row = (dev m, err m, n m))) :
    runTaus (ms.map tau) ms body = sweep ms tau dev err n := by
  have H' : ∀ p : ℕ × ℕ, ∃ row, p ∈ ms.zipIdx → (body p.2 p.1 = .ok row ∧
      (1 < row.2.2 ↔ 1 < n p.1) ∧ (1 < n p.1 → row = (dev p.1, err p.1, n p.1))) := by
    intro p
    by_cases hp : p ∈ ms.zipIdx
    · obtain ⟨row, h⟩ := H p.2 p.1 (List.mem_zipIdx_iff_getElem?.1 hp)
      exact ⟨row, fun _ => h⟩
    · exact ⟨(0, 0, 0), fun h => absurd h hp⟩
  choose R hR using H'
  unfold runTaus
  rw [mapM_ok ms.zipIdx _ R (fun p hp => (hR p hp).1)]
  simp only [ok_bind, List.map_map]
  unfold remove_small_ns
  have e1 : ms.map tau = ms.zipIdx.map (fun q => tau q.1) := by
    conv_lhs => rw [show ms = ms.zipIdx.map Prod.fst by simp]
    rw [List.map_map]; rfl
  simp only [e1, List.map_map, maskSel_map_map, ok_bind]
  have e2 : ms.zipIdx.filter ((fun n : ℤ => decide (1 < n)) ∘ (fun r : ℝ × ℝ × ℤ => r.2.2) ∘ R)
      = ms.zipIdx.filter (fun q => decide (1 < n q.1)) := by
    apply List.filter_congr
    intro p hp
    simp only [Function.comp]
    rw [decide_eq_decide]
    exact (hR p hp).2.1
  have e3 : ∀ {β : Type} (f : ℝ × ℝ × ℤ → β),
      (ms.zipIdx.filter (fun q => decide (1 < n q.1))).map (f ∘ R)
        = (ms.filter (fun m => decide (1 < n m))).map (fun m => f (dev m, err m, n m)) := by
    intro β f
    rw [← zipIdx_filter_map ms (fun m => decide (1 < n m)) (fun m => f (dev m, err m, n m))]
    apply List.map_congr_left
    intro p hp
    simp only [List.mem_filter, decide_eq_true_eq] at hp
    simp only [Function.comp]
    rw [(hR p hp.1).2.2 hp.2]
  rw [e2, e3, e3, e3, zipIdx_filter_map ms (fun m => decide (1 < n m)) tau]
  unfold sweep
  simp only [List.length_map, List.length_eq_zero_iff]

/-- the version used when the body does not depend on the position -/
theorem runTaus_eq' (ms : List ℕ) (body : ℕ → Py (ℝ × ℝ × ℤ)) (tau dev err : ℕ → ℝ) (n : ℕ → ℤ)
    (H : ∀ m ∈ ms, ∃ row, body m = .ok row ∧ (1 < row.2.2 ↔ 1 < n m) ∧
      (1 < n m → row = (dev m, err m, n m))) :
    runTaus (ms.map tau) ms (fun _ m => body m) = sweep ms tau dev err n :=
  runTaus_eq ms _ tau dev err n (fun _ m h => H m (List.mem_of_getElem? h))

theorem factors_cases {N : ℕ} {rate : ℝ} {taus : TausArg} {even : Bool} {mx : ℝ} :
    (∃ e, factors N rate taus even mx = .error e) ∨
    (∃ ms, factors N rate taus even mx = .ok ms) := by
  cases h : factors N rate taus even mx with
  | error e => exact Or.inl ⟨e, rfl⟩
  | ok ms => exact Or.inr ⟨ms, rfl⟩

theorem factors_ok_rate {N : ℕ} {rate : ℝ} {taus : TausArg} {even : Bool} {mx : ℝ} {ms : List ℕ}
    (h : factors N rate taus even mx = .ok ms) : rate ≠ 0 := by
  intro h0
  unfold factors at h
  rw [if_pos h0] at h
  cases h

theorem effMax_default (N : ℕ) : effMax N (-1) = N := by simp [effMax]

theorem effMax_third (N : ℕ) : effMax N ((N : ℝ) / 3) = (N : ℝ) / 3 := by
  unfold effMax
  rw [if_neg]
  have : (0 : ℝ) ≤ (N : ℝ) / 3 := by positivity
  linarith

/-- A driver that computes the factors and runs a body equals the specified sweep. -/
theorem driver_eq (phase : List ℝ) (rate : ℝ) (taus : TausArg) (even : Bool) (mx : ℝ)
    (body : ℕ → Py (ℝ × ℝ × ℤ)) (dev err : ℕ → ℝ) (n : ℕ → ℤ)
    (H : rate ≠ 0 → ∀ m, 0 < m → m < phase.length → (m : ℝ) ≤ effMax phase.length mx →
      (even = true → Even m) →
      ∃ row, body m = .ok row ∧ (1 < row.2.2 ↔ 1 < n m) ∧ (1 < n m → row = (dev m, err m, n m))) :
    (do let r ← tau_generator phase rate taus even mx
        runTaus r.2.2 r.2.1 (fun _ m => body m)) =
    table phase.length rate taus even (effMax phase.length mx) dev err n := by
  unfold table
  rw [tau_generator_eq]
  cases h : factors phase.length rate taus even (effMax phase.length mx) with
  | error e => rfl
  | ok ms =>
    simp only [ok_bind]
    apply runTaus_eq'
    intro m hm
    obtain ⟨a, b, c, d, _⟩ := factors_mem h hm
    exact H (factors_ok_rate h) m a b c d

theorem isRound_nat (m k : ℕ) (h : IsRound (m : ℝ) k) : k = m := by
  have h0 : IsRound (((m : ℤ) : ℝ)) (m : ℤ) := by simp [IsRound]
  have := isRound_unique (x := ((m : ℤ) : ℝ)) (by exact_mod_cast h) h0
  exact_mod_cast this

/-- the factors for a request of a single averaging time -/
theorem factors_single (N : ℕ) (rate : ℝ) (hr : rate ≠ 0) (even : Bool) (maxM : ℝ) (m : ℕ)
    (h0 : 0 < m) (hN : m < N) (hM : (m : ℝ) ≤ maxM) (he : even = true → Even m) :
    factors N rate (.list [m / rate]) even maxM = .ok [m] := by
  unfold factors
  rw [if_neg hr]
  simp only [tausError]
  congr 1
  have : List.Pairwise (· < ·) ((List.range N).filter (admissible N rate (.list [m / rate]) even maxM)) :=
    List.Pairwise.filter _ List.pairwise_lt_range
  have e : ∀ k, k ∈ (List.range N).filter (admissible N rate (.list [m / rate]) even maxM) ↔ k = m := by
    intro k
    rw [List.mem_filter, List.mem_range]
    rw [admissible_iff]
    simp only [Requested, List.mem_singleton, exists_eq_left, div_mul_cancel₀ _ hr]
    constructor
    · rintro ⟨_, _, _, _, _, h⟩
      exact isRound_nat m k h
    · rintro rfl
      exact ⟨hN, h0, hN, hM, he, by simp [IsRound]⟩
  generalize (List.range N).filter (admissible N rate (.list [m / rate]) even maxM) = l at *
  match l, e, this with
  | [], e, _ => exact absurd ((e m).2 rfl) (by simp)
  | [a], e, _ => rw [(e a).1 (by simp)]
  | a :: b :: l, e, h =>
    have ha := (e a).1 (by simp)
    have hb := (e b).1 (by simp)
    have := (List.pairwise_cons.1 h).1 b (by simp)
    omega

/-- the output table for a request of a single averaging time -/
theorem table_single (N : ℕ) (rate : ℝ) (hr : rate ≠ 0) (even : Bool) (maxM : ℝ)
    (dev err : ℕ → ℝ) (n : ℕ → ℤ) (m : ℕ)
    (h0 : 0 < m) (hN : m < N) (hM : (m : ℝ) ≤ maxM) (he : even = true → Even m) (hn : 1 < n m) :
    table N rate (.list [m / rate]) even maxM dev err n
      = .ok ⟨[m / rate], [dev m], .arr [err m], [n m]⟩ := by
  unfold table
  rw [factors_single N rate hr even maxM m h0 hN hM he]
  simp [ok_bind, sweep, hn]

end AT
