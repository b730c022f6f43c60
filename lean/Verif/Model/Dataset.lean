import Verif.Model.Api
import Verif.Model.Gradev

/-!
# Model of dataset.py

`call` stands for evaluating one of the functions of `allantools.py` on the inputs of the data
set; `callStd` is the evaluation given by the models of these functions.  The contents of files
are lists of lines, and the numbers in a line are kept as numbers: the formatting with a given
number of digits is not modelled.
-/

namespace AT

/-- the result of a deviation function as stored by `compute` -/
abbrev Res := DevOut NV

/-- dataset.py 76–79: the dictionary `inp` -/
structure Inp where
  /-- input data, `None` when not given -/
  data : Option (List ℝ)
  /-- sampling rate -/
  rate : ℝ
  /-- data type -/
  data_type : String
  /-- requested averaging times -/
  taus : TausArg

/-- dataset.py 82–87: the dictionary `out`.  Before the first successful `compute` all entries are
`None`; afterwards there are the four arrays and the name, and no key `stat_unc`. -/
inductive OutDict
  | empty
  | filled (res : Res) (stat_id : String)

/-- the object -/
structure Dataset where
  /-- inputs -/
  inp : Inp
  /-- outputs -/
  out : OutDict

/-- dataset.py 52–91 -/
def Dataset.init (i : Inp) : Dataset := ⟨i, .empty⟩

/-- dataset.py 93–113 -/
def Dataset.set_input (s : Dataset) (i : Inp) : Dataset := { s with inp := i }

/-- the names defined in the module allantools.py (113–2403): functions, imports, module
attributes and the variables of 123–127 -/
def moduleNames : List String :=
  ["os", "json", "warnings", "np", "interpolate", "simpson", "quad", "IntegrationWarning", "ci",
   "pkginfo_path", "pkginfo", "fp", "__version__",
   "tdev", "mdev", "adev", "calc_adev_phase", "pdev", "calc_pdev_phase", "calc_gcodev_phase",
   "gcodev", "oadev", "ohdev", "hdev", "calc_hdev_phase", "totdev", "ttotdev", "mtotdev",
   "calc_mtotdev_phase", "htotdev", "calc_htotdev_freq", "theo1", "tierms", "mtie_rolling_window",
   "mtie", "mtie_phase_fast", "gradev", "calc_gradev_phase", "psd2allan",
   "adev2psd_piecewise_approx", "psd_piecewise_to_adev", "input_to_phase", "tau_generator",
   "tau_reduction", "remove_small_ns", "trim_data", "three_cornered_hat_phase", "frequency2phase",
   "phase2radians", "phase2frequency", "frequency2fractional",
   "__name__", "__doc__", "__package__", "__loader__", "__spec__", "__file__", "__cached__",
   "__builtins__"]

/-- `s[-3:]` of the name -/
def lastThree (s : String) : List Char := s.toList.drop (s.toList.length - 3)

/-- dataset.py 115–148: returned value (or exception) and the object afterwards -/
def Dataset.compute (call : String → Inp → Py Res) (s : Dataset) (function : String) :
    Py Res × Dataset :=
  if ¬ function ∈ moduleNames then (.error .attributeError, s)
  else if lastThree function ≠ ['d', 'e', 'v'] ∧ ¬ function ∈ ["theo1", "mtie", "tierms"] then
    (.error .runtimeError, s)
  else
    match call function s.inp with
    | .error e => (.error e, s)
    | .ok r => (.ok r, { s with out := .filled r function })

/-- one use of the object -/
inductive Op
  | set_input (i : Inp)
  | compute (function : String)

/-- the object after one use -/
def Dataset.step (call : String → Inp → Py Res) (s : Dataset) : Op → Dataset
  | .set_input i => s.set_input i
  | .compute f => (s.compute call f).2

/-- the object after a sequence of uses -/
def Dataset.uses (call : String → Inp → Py Res) (s : Dataset) (ops : List Op) : Dataset :=
  ops.foldl (Dataset.step call) s

/-- the deviation function with this name -/
def devOfName (s : String) : Option DevName :=
  match s with
  | "adev" => some .adev
  | "oadev" => some .oadev
  | "mdev" => some .mdev
  | "tdev" => some .tdev
  | "hdev" => some .hdev
  | "ohdev" => some .ohdev
  | "pdev" => some .pdev
  | "totdev" => some .totdev
  | "mtotdev" => some .mtotdev
  | "ttotdev" => some .ttotdev
  | "htotdev" => some .htotdev
  | "theo1" => some .theo1
  | "tierms" => some .tierms
  | "mtie" => some .mtie
  | _ => none

/-- results of the functions without gaps as results with possible gaps -/
def toRes (o : DevOut ℝ) : Res :=
  ⟨o.taus, o.devs, match o.errs with
    | .arr l => .arr (l.map some)
    | .lst ls => .lst (ls.map (fun l => l.map some)), o.ns⟩

/-- the evaluation `func(data, rate=…, data_type=…, taus=…)` for given data: the functions with
this signature; gradev with its default arguments; `gcodev` (one data set is missing) and
`psd_piecewise_to_adev` (unexpected keyword `rate`) raise TypeError.  Data `None` is not a
sequence; which exception it leads to depends on the function and is not modelled precisely. -/
noncomputable def callStd (ppf : ℝ → ℝ → NV) (function : String) (i : Inp) : Py Res :=
  match i.data with
  | none => .error .typeError
  | some data =>
    match devOfName function with
    | some fn => (fn.run data i.rate i.data_type i.taus).map toRes
    | none =>
      if function = "gradev" then
        gradev ppf (data.map some) i.rate i.data_type i.taus (9 / 10) "wp"
      else .error .typeError

/-! ## write_results -/

/-- the lines of a result file -/
inductive Line
  /-- a line that was there before -/
  | old (s : String)
  /-- `# Generated by Allantools …` -/
  | generated
  /-- `# Input data type: …` -/
  | dataType (s : String)
  /-- `# Input data rate: …` -/
  | rate (r : ℝ)
  /-- `# key: value` -/
  | param (key val : String)
  /-- the column names -/
  | fields (stat_id : String)
  /-- averaging factor, tau, n, lower, value, upper -/
  | row (af : ℤ) (tau : ℝ) (n : ℤ) (minsigma sigma maxsigma : NV)

/-- a file system -/
abbrev Files := String → Option (List Line)

/-- dataset.py 197–208: one line; formatting an array (the error bars of gradev are a pair of
arrays) as a number raises TypeError.  `int(…)` truncates towards zero. -/
noncomputable def write_row (r : Res) (i : ℕ) : Py Line := do
  let t ← pyGet r.taus i
  let t0 ← pyGet r.taus 0
  let n ← pyGet r.ns i
  let d ← pyGet r.devs i
  match r.errs with
  | .lst _ => .error .typeError
  | .arr l => do
    let e ← pyGet l i
    .ok (.row (pyInt (t / t0)) t n (e.map (fun e => d - e / 2)) (some d) (e.map (fun e => d + e / 2)))
where
  /-- `int(x)` -/
  pyInt (x : ℝ) : ℤ := if 0 ≤ x then ⌊x⌋ else ⌈x⌉

/-- dataset.py 197–208: the loop; `fp.write` happens after the formatting of the line, so that the
lines before the failing one are in the file -/
noncomputable def write_rows (r : Res) : List ℕ → List Line → List Line × Py Unit
  | [], acc => (acc, .ok ())
  | i :: is, acc =>
    match write_row r i with
    | .error e => (acc, .error e)
    | .ok l => write_rows r is (acc ++ [l])

/-- dataset.py 169–175: the first lines -/
def headerLines (s : Dataset) (header_params : List (String × String)) : List Line :=
  [.generated, .dataType s.inp.data_type, .rate s.inp.rate] ++
    header_params.map (fun p => .param p.1 p.2)

/-- dataset.py 150–208 `write_results`.  `open(…, 'w')` truncates the file; before the first
successful `compute` the concatenation `"min_" + None` raises TypeError.  Failures of the
operating system are not modelled. -/
noncomputable def Dataset.write_results (s : Dataset) (fs : Files) (filename : String)
    (header_params : List (String × String)) : Files × Py Unit :=
  match s.out with
  | .empty => (Function.update fs filename (some (headerLines s header_params)), .error .typeError)
  | .filled r id =>
    let w := write_rows r (List.range r.taus.length) (headerLines s header_params ++ [.fields id])
    (Function.update fs filename (some w.1), w.2)

end AT
