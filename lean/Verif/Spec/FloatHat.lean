import Verif.Spec.Float

/-! # Specification of the rounding errors of the three-cornered hat and of gradev -/

namespace AT.Spec

/-- the error of half the sum of three squared deviations `A²`, `B²`, `C²` with signs, when the
deviations have errors up to `α`, `β`, `γ` -/
noncomputable def hatErr (α A β B γ C : ℝ) : ℝ :=
  (α * (2 * |A| + α) + β * (2 * |B| + β) + γ * (2 * |C| + γ)) / 2 +
    3 * unitRoundoff * ((|A| + α) ^ 2 + (|B| + β) ^ 2 + (|C| + γ) ^ 2)

/-- a computed hat `o` agrees with the exact hat `o'`, when row `i` has the variance error `E i` -/
structure HatClose (E : ℕ → ℝ) (o o' : DevOut ℝ) : Prop where
  ns : o.ns = o'.ns
  taus : List.Forall₂ (fun t t' => |t - t'| ≤ unitRoundoff * |t'|) o.taus o'.taus
  devs_len : o.devs.length = o'.taus.length ∧ o'.devs.length = o'.taus.length ∧
    o'.ns.length = o'.taus.length
  /-- the worst case: the root of the variance error -/
  devs : ∀ i < o'.taus.length, |o.devs.getD i 0 - o'.devs.getD i 0| ≤
    17 / 16 * √(E i) + unitRoundoff * o'.devs.getD i 0
  /-- without cancellation: the variance error over the deviation -/
  devs_rel : ∀ i < o'.taus.length, o'.devs.getD i 0 * |o.devs.getD i 0 - o'.devs.getD i 0| ≤
    17 / 16 * E i + unitRoundoff * o'.devs.getD i 0 ^ 2
  errs : ∃ e, o.errs = .arr e ∧ e.length = o'.taus.length ∧ ∀ i < o'.taus.length,
    |e.getD i 0 - o.devs.getD i 0 / √(o.ns.getD i 0 : ℝ)| ≤
      4 * unitRoundoff * |o.devs.getD i 0 / √(o.ns.getD i 0 : ℝ)|

/-- a computed table of `gradev` agrees with the exact one, up to the error bars -/
structure CurveClose (bound : ℝ → ℝ → ℤ → ℝ) {β : Type} (o o' : DevOut β) : Prop where
  ns : o.ns = o'.ns
  taus : List.Forall₂ (fun t t' => |t - t'| ≤ unitRoundoff * |t'|) o.taus o'.taus
  devs_len : o.devs.length = o'.taus.length ∧ o'.devs.length = o'.taus.length ∧
    o'.ns.length = o'.taus.length
  devs : ∀ i < o'.taus.length,
    |o.devs.getD i 0 - o'.devs.getD i 0| ≤ bound (o'.taus.getD i 0) (o'.devs.getD i 0) (o'.ns.getD i 0)

end AT.Spec
