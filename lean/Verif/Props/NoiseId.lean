import Verif.Props.Acf
import Verif.Props.Greenhall
import Verif.Lemmas.Tau

/-!
# C47, C58: noise identification
-/

namespace AT

open Finset Spec

/-- `r1 / (1 + r1)` for the lag-1 autocorrelation `r1` of a series; no number for constant
series -/
noncomputable def Spec.rho (x : List ℝ) : Option ℝ :=
  open Classical in
  if NonConst x then
    let r := acfNum (fun i => x.getD i 0) x.length / acfDen (fun i => x.getD i 0) x.length
    some (r / (1 + r))
  else none

theorem rho_lt_half (x : List ℝ) (ρ : ℝ) (h : rho x = some ρ) : ρ < 1 / 2 := by
  unfold rho at h
  split at h
  · next hc =>
    obtain ⟨r, -, rfl, -, -, -, h2⟩ := lag1_acf_range x hc
    simp only [Option.some.injEq] at h
    rw [← h]; exact h2
  · exact absurd h (by simp)

theorem lag1_rho (x : List ℝ) (hx : x ≠ []) :
    ∃ r1, lag1_acf x = .ok r1 ∧ nvDiv r1 (r1.map (fun v => 1 + v)) = rho x := by
  by_cases hc : NonConst x
  · obtain ⟨r, h1, h2, -, -, h3, -⟩ := lag1_acf_range x hc
    refine ⟨some r, h1, ?_⟩
    simp only [rho, hc, if_true, nvDiv, Option.map_some, h3, if_false, ← h2]
  · exact ⟨none, lag1_acf_const x hx hc, by simp [rho, hc, nvDiv]⟩

/-- the stopping rule: at least `dmin` differentiations, and either `rho < 1/4` or at least
`dmax` differentiations -/
def Spec.stops (dmin dmax : ℤ) (x : List ℝ) (d : ℕ) : Prop :=
  dmin ≤ d ∧ ((∃ ρ, rho (npDiff^[d] x) = some ρ ∧ ρ < 1 / 4) ∨ dmax ≤ d)

theorem npDiff_length (x : List ℝ) : (npDiff x).length = x.length - 1 := by
  rw [eq_tab x 0]; simp [npDiff]

theorem npDiff_iter_length (x : List ℝ) (k : ℕ) : (npDiff^[k] x).length = x.length - k := by
  induction k generalizing x with
  | zero => rfl
  | succ k ih => rw [Function.iterate_succ_apply, ih, npDiff_length]; omega

/-- what is returned for `rho` after `d` differentiations -/
noncomputable def Spec.noiseIdResult (add2 : ℤ) (d : ℕ) (ρ : Option ℝ) : Py (ℤ × ℝ × ℤ × ℝ) :=
  match ρ with
  | some ρ => .ok (-npRound (2 * ρ) - 2 * d + add2, -2 * (ρ + d) + add2, d, ρ)
  | none => .error .valueError

theorem noise_id_loop_aux (dmin dmax add2 : ℤ) (x0 : List ℝ) (fuel d : ℕ)
    (hf : max dmin dmax + 1 ≤ d + fuel) (hf0 : 0 < fuel) (hl : d < x0.length)
    (hlen : max dmin dmax < x0.length) :
    ∃ k : ℕ, d ≤ k ∧ (k : ℤ) ≤ max (max dmin dmax) d ∧ (∀ j, d ≤ j → j < k → ¬ stops dmin dmax x0 j) ∧
      stops dmin dmax x0 k ∧
      noise_id_loop dmin dmax add2 fuel (npDiff^[d] x0) d =
        noiseIdResult add2 k (rho (npDiff^[k] x0)) := by
  induction fuel generalizing d with
  | zero => omega
  | succ fuel ih =>
    have hne : npDiff^[d] x0 ≠ [] := by
      rw [← List.length_pos_iff, npDiff_iter_length]; omega
    obtain ⟨r1, h1, h2⟩ := lag1_rho _ hne
    by_cases hs : stops dmin dmax x0 d
    · refine ⟨d, le_rfl, le_max_right _ _, fun j h h' => by omega, hs, ?_⟩
      rw [noise_id_loop, h1]
      simp only [ok_bind, h2]
      unfold stops at hs
      cases hr : rho (npDiff^[d] x0) with
      | none =>
        rw [hr] at hs
        have : dmin ≤ d ∧ dmax ≤ d := ⟨hs.1, by simpa using hs.2⟩
        simp only [this, and_self, if_true, noiseIdResult]
      | some ρ =>
        rw [hr] at hs
        have : dmin ≤ (d : ℤ) ∧ (ρ < 0.25 ∨ dmax ≤ d) := by
          refine ⟨hs.1, ?_⟩
          rcases hs.2 with ⟨_, h3, h4⟩ | h3
          · left
            rw [Option.some.injEq] at h3
            rw [h3]; norm_num; linarith
          · exact Or.inr h3
        simp only [this, and_self, if_true, noiseIdResult]
        push_cast
        rfl
    · have hd : ¬ max dmin dmax ≤ (d : ℤ) := fun h => hs
        ⟨(le_max_left _ _).trans h, Or.inr ((le_max_right _ _).trans h)⟩
      have step : noise_id_loop dmin dmax add2 (fuel + 1) (npDiff^[d] x0) d =
          noise_id_loop dmin dmax add2 fuel (npDiff^[d + 1] x0) ((d + 1 : ℕ) : ℤ) := by
        rw [noise_id_loop, h1]
        simp only [ok_bind, h2]
        rw [Function.iterate_succ_apply']
        push_cast
        unfold stops at hs
        cases hr : rho (npDiff^[d] x0) with
        | none =>
          rw [hr] at hs
          have : ¬ (dmin ≤ (d : ℤ) ∧ dmax ≤ (d : ℤ)) := fun h => hs ⟨h.1, Or.inr h.2⟩
          simp only [this, if_false]
        | some ρ =>
          rw [hr] at hs
          have : ¬ (dmin ≤ (d : ℤ) ∧ (ρ < 0.25 ∨ dmax ≤ (d : ℤ))) := by
            rintro ⟨h3, h4⟩
            refine hs ⟨h3, h4.imp (fun h5 => ⟨ρ, rfl, ?_⟩) id⟩
            norm_num at h5; linarith
          simp only [this, if_false]
      obtain ⟨k, hk1, hk2, hk3, hk4, hk5⟩ := ih (d + 1) (by push_cast; push_cast at hf; omega)
        (by omega) (by omega)
      refine ⟨k, by omega, by omega, fun j hj hj' => ?_, hk4, by rw [step, hk5]⟩
      rcases hj.eq_or_lt with rfl | hj
      · exact hs
      · exact hk3 j hj hj'

/-- C47: after preparation to a series `x` of at least 30 points (and more points than
differentiations), the loop stops at the first number `d` of differentiations allowed by the
stopping rule; that number is at most `max dmin dmax`, and the result is that of `d`. -/
theorem autocorr_noise_id_eq (fit : List ℝ → ℕ → ℕ → ℝ) (data x : List ℝ) (af : ℕ)
    (data_type : String) (dmin dmax : ℤ) (hx : noise_id_prepare fit data af data_type = .ok x)
    (h30 : 30 ≤ x.length) (hlen : max dmin dmax < x.length) :
    ∃ d : ℕ, (d : ℤ) ≤ max (max dmin dmax) 0 ∧ stops dmin dmax x d ∧ (∀ j < d, ¬ stops dmin dmax x j) ∧
      autocorr_noise_id fit data af data_type dmin dmax =
        noiseIdResult (if data_type = "phase" then 2 else 0) d (rho (npDiff^[d] x)) := by
  obtain ⟨k, -, h2, h3, h4, h5⟩ := noise_id_loop_aux dmin dmax (if data_type = "phase" then 2 else 0) x
    ((max dmin dmax).toNat + 1) 0 (by push_cast; omega) (by omega) (by omega) hlen
  refine ⟨k, by exact_mod_cast h2, h4, fun j hj => h3 j (by omega) hj, ?_⟩
  unfold autocorr_noise_id
  rw [hx]
  simp only [ok_bind]
  rw [if_neg (by omega)]
  exact h5

/-- the loop bound of the model is generous: more passes would not change anything -/
theorem noise_id_loop_fuel (dmin dmax add2 : ℤ) (x : List ℝ) (f g d : ℕ)
    (hf : max dmin dmax + 1 ≤ d + f) (hf0 : 0 < f) (hg : max dmin dmax + 1 ≤ d + g) (hg0 : 0 < g) :
    noise_id_loop dmin dmax add2 f x d = noise_id_loop dmin dmax add2 g x d := by
  induction f generalizing g x d with
  | zero => omega
  | succ f ih =>
    obtain ⟨g, rfl⟩ : ∃ g', g = g' + 1 := ⟨g - 1, by omega⟩
    rw [noise_id_loop, noise_id_loop]
    cases hr : lag1_acf x with
    | error e => rfl
    | ok r1 =>
      simp only [ok_bind]
      have key : ¬ (dmin ≤ (d : ℤ) ∧ dmax ≤ (d : ℤ)) → noise_id_loop dmin dmax add2 f (npDiff x) (d + 1) =
          noise_id_loop dmin dmax add2 g (npDiff x) (d + 1) := fun h => by
        have h' : ¬ max dmin dmax ≤ (d : ℤ) := by rw [max_le_iff]; exact h
        have := ih (npDiff x) g (d + 1) (by push_cast at hf ⊢; omega) (by push_cast at hf; omega)
          (by push_cast at hg ⊢; omega) (by push_cast at hg; omega)
        push_cast at this
        exact this
      cases nvDiv r1 (r1.map (fun v => 1 + v)) with
      | none =>
        simp only
        by_cases h : dmin ≤ (d : ℤ) ∧ dmax ≤ (d : ℤ)
        · rw [if_pos h, if_pos h]
        · rw [if_neg h, if_neg h, key h]
      | some ρ =>
        simp only
        by_cases h : dmin ≤ (d : ℤ) ∧ (ρ < 0.25 ∨ dmax ≤ (d : ℤ))
        · rw [if_pos h, if_pos h]
        · rw [if_neg h, if_neg h, key (fun hh => h ⟨hh.1, Or.inr hh.2⟩)]

example (x : List ℝ) : noise_id_loop 0 2 0 3 x 0 = noise_id_loop 0 2 0 100 x 0 :=
  noise_id_loop_fuel 0 2 0 x 3 100 0 (by norm_num) (by norm_num) (by norm_num) (by norm_num)

/-- C47: what is returned. `alpha_int` is `alpha` rounded to the nearest integer; it is at
least -1 - 2 d (+ 2 for phase data), and at least -2 d (+ 2) when fewer than `dmax`
differentiations were made. -/
theorem autocorr_noise_id_range_partial (fit : List ℝ → ℕ → ℕ → ℝ) (data x : List ℝ) (af : ℕ)
    (data_type : String) (dmin dmax : ℤ) (hx : noise_id_prepare fit data af data_type = .ok x)
    (h30 : 30 ≤ x.length) (hlen : max dmin dmax < x.length)
    (alpha_int : ℤ) (alpha : ℝ) (d : ℤ) (ρ : ℝ)
    (h : autocorr_noise_id fit data af data_type dmin dmax = .ok (alpha_int, alpha, d, ρ)) :
    0 ≤ d ∧ dmin ≤ d ∧ d ≤ max (max dmin dmax) 0 ∧ ρ < 1 / 2 ∧ |alpha - alpha_int| ≤ 1 / 2 ∧
      -1 - 2 * d + (if data_type = "phase" then 2 else 0) ≤ alpha_int ∧
      (d < dmax → -2 * d + (if data_type = "phase" then 2 else 0) ≤ alpha_int) := by
  obtain ⟨k, h1, h2, -, h4⟩ := autocorr_noise_id_eq fit data x af data_type dmin dmax hx h30 hlen
  rw [h4] at h
  cases hr : rho (npDiff^[k] x) with
  | none => rw [hr] at h; simp [noiseIdResult] at h
  | some ρ' =>
    rw [hr] at h
    simp only [noiseIdResult, Except.ok.injEq, Prod.mk.injEq] at h
    obtain ⟨rfl, rfl, rfl, rfl⟩ := h
    have hhalf := rho_lt_half _ _ hr
    have hround := npRound_isRound (2 * ρ')
    have hd : |2 * ρ' - npRound (2 * ρ')| ≤ 1 / 2 := hround.1
    have hle : npRound (2 * ρ') ≤ 1 := by
      have := abs_le.1 hd
      have : ((npRound (2 * ρ') : ℤ) : ℝ) < 2 := by linarith
      have : npRound (2 * ρ') < 2 := by exact_mod_cast this
      omega
    refine ⟨by positivity, h2.1, h1, hhalf, ?_, by omega, fun hlt => ?_⟩
    · push_cast
      have e : -2 * (ρ' + k) + ((if data_type = "phase" then 2 else 0 : ℤ) : ℝ) -
          (-(npRound (2 * ρ') : ℝ) - 2 * k + ((if data_type = "phase" then 2 else 0 : ℤ) : ℝ)) =
          -(2 * ρ' - npRound (2 * ρ')) := by ring
      split_ifs at e ⊢ <;> push_cast at e ⊢ <;> rw [e, abs_neg] <;> exact hd
    · have hq : ρ' < 1 / 4 := by
        rcases h2.2 with ⟨q, h5, h6⟩ | h5
        · rw [hr] at h5
          rw [Option.some.inj h5]; exact h6
        · omega
      have hle0 : npRound (2 * ρ') ≤ 0 := by
        have := abs_le.1 hd
        have : ((npRound (2 * ρ') : ℤ) : ℝ) < 1 := by linarith
        have : npRound (2 * ρ') < 1 := by exact_mod_cast this
        omega
      omega

/-- C47: fewer than 30 points after decimation raise NotImplementedError -/
theorem autocorr_noise_id_short (fit : List ℝ → ℕ → ℕ → ℝ) (data x : List ℝ) (af : ℕ)
    (data_type : String) (dmin dmax : ℤ) (hx : noise_id_prepare fit data af data_type = .ok x)
    (h30 : x.length < 30) :
    autocorr_noise_id fit data af data_type dmin dmax = .error .notImplementedError := by
  unfold autocorr_noise_id
  rw [hx]
  simp only [ok_bind]
  rw [if_pos h30]

end AT
