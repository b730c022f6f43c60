import Verif.Model.Float
import Verif.Spec.Float

/-!
# Specification: results scaled by a factor
-/

namespace AT.Spec

/-- the summation commutes with multiplication by powers of two and with the sign, as every
summation does whose order depends on the length only -/
def SumScale (sum : List ℝ → ℝ) : Prop :=
  ∀ (k : ℤ) (l : List ℝ), sum (l.map ((2 : ℝ) ^ k * ·)) = (2 : ℝ) ^ k * sum l ∧
    sum (l.map (-·)) = -sum l

/-- the table with all deviations and error bars multiplied by `a` -/
noncomputable def scaleOut (a : ℝ) (o : DevOut ℝ) : DevOut ℝ :=
  ⟨o.taus, o.devs.map (a * ·), match o.errs with
    | .arr l => .arr (l.map (a * ·))
    | .lst ls => .lst (ls.map (List.map (a * ·))), o.ns⟩

end AT.Spec
