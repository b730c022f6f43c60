import Verif.Model.FloatHat

/-!
# Specification: tables with missing error bars in other units
-/

namespace AT.Spec

/-- the table with all averaging times multiplied by `b`, deviations and error bars by `a`; a missing error bar
stays missing -/
noncomputable def unitsOut (b a : ℝ) (o : DevOut NV) : DevOut NV :=
  ⟨o.taus.map (b * ·), o.devs.map (a * ·), match o.errs with
    | .arr l => .arr (l.map (Option.map (a * ·)))
    | .lst ls => .lst (ls.map (List.map (Option.map (a * ·)))), o.ns⟩

end AT.Spec
