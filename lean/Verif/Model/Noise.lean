import Verif.Model.Kasdin
import Verif.Model.Mtie
import Mathlib.Data.Nat.Bitwise

/-!
# noise.py

Random numbers are parameters: `z` stands for what `np.random` returns. `scipy_psd` is in
`Model/Welch`.
-/

namespace AT

open Real

/-- noise.py 39–50 `numpy_psd`; division by zero for empty data (`float(len(x))`) or
`f_sample = 0` raises -/
noncomputable def numpy_psd (x : List ℝ) (f_sample : ℝ) : Py (List ℝ × List ℝ) :=
  if (x.length : ℝ) * f_sample = 0 then .error .zeroDivisionError
  else
    let psd_of_x := (npRfft x).map (fun X => 2 / ((x.length : ℝ) * f_sample) * ‖X‖ ^ 2)
    .ok (npLinspace 0 (f_sample / 2) psd_of_x.length, psd_of_x)

/-- noise.py 63–86 `white`; `math.sqrt` raises ValueError for a negative number. `z` are the
numbers that `np.random.randn` returns -/
noncomputable def white (z : ℕ → ℝ) (num_points : ℕ) (b0 fs : ℝ) : Py (List ℝ) :=
  if b0 * fs / 2 < 0 then .error .valueError
  else .ok (tab num_points (fun i => √(b0 * fs / 2) * z i))

/-- noise.py 89–112 `brown` -/
noncomputable def brown (z : ℕ → ℝ) (num_points : ℕ) (b_minus2 fs : ℝ) : Py (List ℝ) := do
  let c ← pyDiv 1 fs
  let w ← white z num_points (b_minus2 * (4 * π * π)) fs
  .ok (vscale c (npCumsum w))

/-- noise.py 115–136 `violet` -/
noncomputable def violet (z : ℕ → ℝ) (num_points : ℕ) (b2 fs : ℝ) : Py (List ℝ) := do
  let w ← white z (num_points + 1) (b2 / (2 * π) ^ 2) fs
  .ok (vscale fs (npDiff w))

/-! ## iterpink -/

/-- local variables of `iterpink`; `calls` counts the calls of `np.random.randn(depth)` so far -/
structure PinkState where
  values : List ℝ
  smooth : List ℝ
  source : List ℝ
  sumvals : ℝ
  i : ℕ
  calls : ℕ

/-- noise.py 184–188: the start of `iterpink`. `z k` is the array returned by the `k`-th call of
`np.random.randn(depth)` -/
noncomputable def pinkInit (z : ℕ → ℕ → ℝ) (depth : ℕ) : PinkState :=
  let values := tab depth (z 0)
  ⟨values, tab depth (z 1), tab depth (z 2), npSum values, 0, 3⟩

/-- noise.py 202–204: `c = 0; while not (i >> c) & 1: c += 1`, with a bound on the number of
turns; `none` when the loop is still running after `fuel` turns -/
def trailingLoop (fuel i c : ℕ) : Option ℕ :=
  match fuel with
  | 0 => none
  | fuel + 1 => if (i >>> c) &&& 1 = 0 then trailingLoop fuel i (c + 1) else some c

/-- noise.py 189–208: one turn of the `while True` loop, from `yield` to the next `yield`. The
inner loop never ends when `i = 0`; `none` stands for that. -/
noncomputable def pinkNext (z : ℕ → ℕ → ℝ) (depth : ℕ) (s : PinkState) : Option (Py (ℝ × PinkState)) :=
  match pyGet s.smooth (s.i : ℤ) with
  | .error e => some (.error e)
  | .ok sm =>
    let out := s.sumvals + sm
    let i := s.i + 1
    if i = depth then
      some (.ok (out, { s with
        i := 0, smooth := tab depth (z s.calls), source := tab depth (z (s.calls + 1)),
        calls := s.calls + 2 }))
    else
      match trailingLoop (i + 1) i 0 with
      | none => none
      | some c => some (do
          let a ← pyGet s.source (i : ℤ)
          let v ← pyGet s.values (c : ℤ)
          let values ← pySet s.values c a
          .ok (out, { s with i := i, sumvals := s.sumvals + (a - v), values := values }))

/-- noise.py 161–165: the loop of `pink`, appending `num_points` samples -/
noncomputable def pinkLoop (z : ℕ → ℕ → ℝ) (depth : ℕ) : ℕ → PinkState → List ℝ → Option (Py (List ℝ))
  | 0, _, acc => some (.ok acc)
  | n + 1, s, acc =>
    match pinkNext z depth s with
    | none => none
    | some (.error e) => some (.error e)
    | some (.ok (v, s')) => pinkLoop z depth n s' (acc ++ [v])

/-- noise.py 139–165 `pink` -/
noncomputable def pink (z : ℕ → ℕ → ℝ) (num_points depth : ℕ) : Option (Py (List ℝ)) :=
  pinkLoop z depth num_points (pinkInit z depth) []

/-! ## timmer_koenig_from_psd -/

/-- noise.py 303–307: the segment search for a frequency between the first and the last node;
the initial value of `Sy[i]` is zero -/
noncomputable def tkInner (f_nodes h_ext alpha_ext : List ℝ) (f : ℝ) : ℝ :=
  match (List.range' 1 (f_nodes.length - 1)).find?
      (fun j => decide (f_nodes.getD (j - 1) 0 ≤ f) && decide (f < f_nodes.getD j 0)) with
  | some j => h_ext.getD j 0 * f ^ alpha_ext.getD j 0
  | none => 0

/-- noise.py 293–307: the sampled PSD at frequency `f` -/
noncomputable def tkSy (f_nodes h_ext alpha_ext : List ℝ) (f : ℝ) : ℝ :=
  if 0 < f_nodes.length ∧ f < f_nodes.getD 0 0 then h_ext.getD 0 0 * f ^ alpha_ext.getD 0 0
  else if 0 < f_nodes.length ∧ f_nodes.getLastD 0 < f then
    h_ext.getLastD 0 * f ^ alpha_ext.getLastD 0
  else if f_nodes.length = 0 then h_ext.getD 0 0 * f ^ alpha_ext.getD 0 0
  else tkInner f_nodes h_ext alpha_ext f

/-- `np.fft.ifft` -/
noncomputable def npIfft (X : List ℂ) : List ℂ :=
  tab X.length (fun t => (∑ k ∈ Finset.range X.length, X.getD k 0 * expRoot X.length ((t * k : ℕ) : ℤ)) / X.length)

/-- `X[lo:] = v` of numpy: `v` must have the length of the slice, or length 1 -/
def npSetFrom {α : Type} (X : List α) (lo : ℕ) (v : List α) : Py (List α) :=
  if v.length = X.length - lo then .ok (X.take lo ++ v)
  else match v with
    | [a] => .ok (X.take lo ++ List.replicate (X.length - lo) a)
    | _ => .error .valueError

/-- noise.py 211–328 `timmer_koenig_from_psd`. `z` are the numbers returned by
`np.random.normal(0, 1)`, call by call. A negative PSD value gives NaN in one coefficient of the
spectrum, hence in all samples: `none`. Not modelled: the `seed` (it selects `z`). -/
noncomputable def timmer_koenig_from_psd (z : ℕ → ℝ) (f_nodes h alpha : List ℝ) (duration timestep : ℝ)
    (output : String) : Py (List NV) :=
  if duration ≤ 0 ∨ timestep ≤ 0 then .error .valueError
  else if h.length ≠ alpha.length then .error .valueError
  else if ¬ (f_nodes.length = 0 ∨ (f_nodes.length : ℤ) = (h.length : ℤ) - 1) then .error .valueError
  else if h.length = 0 then .error .indexError
  else
    let h_ext := h ++ [h.getLastD 0]
    let alpha_ext := alpha ++ [alpha.getLastD 0]
    let n := ⌊duration / timestep⌋₊
    if n < 4 then .error .valueError
    else
      let f1 := 1 / (((n : ℝ) - 1) * timestep)
      let fn := 1 / (2 * timestep)
      let frequencies := npLinspace f1 fn (n / 2 + 1)
      let Sx := frequencies.map (fun f => tkSy f_nodes h_ext alpha_ext f / (2 * π * f) ^ 2)
      let Sx := Sx.set 0 0
      let X : List ℂ := tab n (fun j =>
        if 1 ≤ j ∧ j < n / 2 + 1 then
          ((√(Sx.getD j 0) / 2 : ℝ) : ℂ) * ((z (2 * (j - 1)) : ℂ) + Complex.I * (z (2 * (j - 1) + 1) : ℂ))
        else 0)
      match npSetFrom X (n / 2 + 1) ((slice X 1 ((n / 2 : ℕ) : ℤ)).reverse.map (starRingEnd ℂ)) with
      | .error e => .error e
      | .ok X =>
        let x := (npIfft X).map (fun v => (v * ((√(((n : ℝ) - 1) / timestep) : ℝ) : ℂ)).re)
        let nan := Sx.any (fun v => decide (v < 0))
        if output = "phase" then .ok (if nan then tab n (fun _ => none) else x.map some)
        else if output = "freq" then
          .ok (some 0 :: (if nan then tab (n - 1) (fun _ => none)
            else (npDiff x).map (fun v => some (v / timestep))))
        else .error .valueError

end AT
