import Verif.Spec.FloatScale

/-!
# Specification: results in another unit of time
-/

namespace AT.Spec

/-- all given averaging times multiplied by `b` -/
noncomputable def scaleTaus (b : ℝ) : TausArg → TausArg
  | .none => .none
  | .str s => .str s
  | .list l => .list (l.map (b * ·))
  | .array l => .array (l.map (b * ·))

/-- the table with all averaging times multiplied by `b`, deviations and error bars by `a` -/
noncomputable def timeOut (b a : ℝ) (o : DevOut ℝ) : DevOut ℝ :=
  { scaleOut a o with taus := o.taus.map (b * ·) }

end AT.Spec
