import Verif.Model.Gradev
import Mathlib.Order.WithBot
import Mathlib.Analysis.SpecialFunctions.Trigonometric.Basic

/-!
# Model of the conversions between deviation and power spectral density
(allantools.py 1767–1977)

`scipy.integrate.quad` is a parameter: `quad g l u` is the first component of
`quad(g, l, u)`, `⊤` is `np.inf`, and `none` stands for a result that is not a finite number.
What the theorems assume about it is `Spec.QuadExact`.
-/

namespace AT

open Real

/-- the integration routine -/
abbrev Quad := (ℝ → ℝ) → WithTop ℝ → WithTop ℝ → NV

/-- `a ** b` on numpy floats: for a zero base with a negative exponent the result is not
finite.  A negative base gives NaN unless the exponent is an integer; here it always
gives `none` (this case does not arise for positive integrals). -/
noncomputable def nvPow (a b : NV) : NV :=
  match a, b with
  | some a, some b => if 0 < a then some (a ^ b) else if a = 0 ∧ 0 ≤ b then some (0 ^ b) else none
  | _, _ => none

/-- allantools.py 1961–1962: `integrand(z, a)` -/
noncomputable def psdIntegrand (a z : ℝ) : ℝ := sin z ^ 4 / z ^ (2 - a)

/-- allantools.py 1970–1974: the body of the loop over the segments -/
noncomputable def psdSegment (quad : Quad) (h alpha : List ℝ) (edges : List (WithTop ℝ)) (tau : ℝ)
    (sigma_y2 : NV) (i : ℕ) : Py NV := do
  let hi ← pyGet h (i : ℤ)
  let ai ← pyGet alpha (i : ℤ)
  let factor := hi / (π * tau) ^ (ai + 1)
  let lo ← pyGet edges (i : ℤ)
  let up ← pyGet edges ((i : ℤ) + 1)
  let I := quad (psdIntegrand ai) (lo.map (fun e => π * tau * e)) (up.map (fun e => π * tau * e))
  .ok (nv2 (· + ·) sigma_y2 (nv2 (· * ·) (some factor) I))

/-- allantools.py 1920–1977.  For `tau > 0` (a power of a non-positive `np.pi * tau` would
need the IEEE rules for `**`). -/
noncomputable def psd_piecewise_to_adev (quad : Quad) (h alpha f_nodes taus : List ℝ) :
    Py (List NV) :=
  let edges : List (WithTop ℝ) := ((0 : ℝ) : WithTop ℝ) :: (f_nodes.map (fun f : ℝ => (f : WithTop ℝ)) ++ [⊤])
  taus.mapM (fun tau => do
    let sigma_y2 ← forRange h.length (some 0) (psdSegment quad h alpha edges tau)
    .ok (nvSqrt (nv2 (· * ·) (some 2) sigma_y2)))

/-- allantools.py 1855: the local slope between the points `i-1` and `i` -/
noncomputable def psdSlope (adev taus : List ℝ) (i : ℕ) : ℝ :=
  2 * (log (adev.getD i 0) - log (adev.getD (i - 1) 0)) / (log (taus.getD i 0) - log (taus.getD (i - 1) 0))

/-- allantools.py 1849–1859: merging of equal slopes; the state is
`(mus, filtered_adev, filtered_tau)` -/
noncomputable def psdFilter (adev taus : List ℝ) (mu_tol : ℝ) : List ℝ × List ℝ × List ℝ :=
  (List.range (adev.length - 1)).foldl (fun s k =>
    let i := k + 1
    let mu := psdSlope adev taus i
    if s.1 = [] ∨ |mu - s.1.getLastD 0| > mu_tol then
      (s.1 ++ [mu], s.2.1 ++ [adev.getD i 0], s.2.2 ++ [taus.getD i 0])
    else s) ([], [adev.getD 0 0], [taus.getD 0 0])

/-- allantools.py 1846–1847: the weight `q(z)` -/
noncomputable def psdWeight (vt : String) (z : ℝ) : ℝ :=
  if vt = "adev" then 1 else 4 / 3 * sin z ^ 2

/-- allantools.py 1767–1918.  The inputs are 1-d arrays. -/
noncomputable def adev2psd_piecewise_approx (quad : Quad) (adev taus : List ℝ) (vartype : String)
    (mu_tol : ℝ) : Py (List NV × List NV × List NV × List ℝ) :=
  if adev.length ≠ taus.length then .error .valueError
  else if adev.length < 2 then .error .valueError
  else if (∃ a ∈ adev, a ≤ 0) ∨ (∃ t ∈ taus, t ≤ 0) then .error .valueError
  else if ¬ (∀ d ∈ npDiff taus, 0 < d) then .error .valueError
  else
    let vt := vartype.toLower
    if ¬ (vt = "adev" ∨ vt = "hdev") then .error .valueError
    else
      let s := psdFilter adev taus mu_tol
      let mus := s.1
      let fadev := s.2.1
      let ftau := s.2.2
      if ∃ mu ∈ mus, (vt = "adev" ∧ ¬ (-2 ≤ mu ∧ mu ≤ 2)) ∨ (vt = "hdev" ∧ ¬ (-2 ≤ mu ∧ mu ≤ 4)) then
        .error .valueError
      else
        let k := mus.length
        let mu := fun i : ℕ => mus.getD i 0
        let B := fun i : ℕ => fadev.getD (i + 1) 0 ^ 2 * ftau.getD (i + 1) 0 ^ (-mu i)
        let I := fun i : ℕ => quad (fun z => psdWeight vt z * sin z ^ 4 / z ^ (3 + mu i)) ((0 : ℝ) : WithTop ℝ) ⊤
        let hi : List NV :=
          (tab k (fun i => nvDiv (some (B i)) (nv2 (· * ·) (nv2 (· * ·) (some 2) (I i)) (some (π ^ mu i))))).reverse
        let alphas : List ℝ := tab k (fun i => -mu (k - 1 - i) - 1)
        let f_nodes : List NV :=
          if fadev.length = 2 then (ftau.map (fun t => some (1 / t))).reverse
          else (tab (k - 1) (fun i => nv2 (· * ·) (some (1 / (10 * π * ftau.getD i 0)))
            (nvPow (nvDiv (I i) (I (i + 1))) (nvDiv (some 1) (some (mu (i + 1) - mu i)))))).reverse
        let Sy_nodes : List NV :=
          if fadev.length = 2 then
            f_nodes.map (fun f => nv2 (· * ·) (hi.getD 0 none) (nvPow f (some (alphas.getD 0 0))))
          else tab f_nodes.length (fun i =>
            nv2 (· * ·) (hi.getD i none) (nvPow (f_nodes.getD i none) (some (alphas.getD i 0))))
        .ok (f_nodes, Sy_nodes, hi, alphas)

end AT
