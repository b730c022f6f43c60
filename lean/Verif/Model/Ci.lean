import Verif.Model.Dev
import Verif.Model.Convert
import Mathlib.Data.Nat.Choose.Central

/-!
# Model of ci.py: confidence intervals, noise identification, equivalent degrees of freedom

Results of numpy floating point operations are `NV`: `none` stands for a result that is not
a finite number (NaN or infinite).  Python float division by zero raises, numpy division by
zero does not; `pyDiv` and `nvDiv` are the two cases.
-/

namespace AT

open Real

/-- Python float division -/
noncomputable def pyDiv (a b : ℝ) : Py ℝ :=
  if b = 0 then .error .zeroDivisionError else .ok (a / b)

/-- numpy float division; not a finite number when the denominator is 0 -/
noncomputable def nvDiv (a b : NV) : NV :=
  match a, b with
  | some a, some b => if b = 0 then none else some (a / b)
  | _, _ => none

/-- `np.sqrt` -/
noncomputable def nvSqrt (a : NV) : NV :=
  match a with
  | some a => if a < 0 then none else some (√a)
  | none => none

/-- ci.py 39–70 `confidence_interval`.  `ppf q df` stands for `scipy.stats.chi2.ppf`. -/
noncomputable def confidence_interval (ppf : ℝ → ℝ → NV) (dev edf ci : ℝ) : NV × NV :=
  let ci_l := min |ci| |ci - 1| / 2
  let ci_h := 1 - ci_l
  let chi2_l := ppf ci_l edf
  let chi2_h := ppf ci_h edf
  let variance := dev * dev
  let var_l := nvDiv (some (edf * variance)) chi2_h
  let var_h := nvDiv (some (edf * variance)) chi2_l
  (nvSqrt var_l, nvSqrt var_h)

/-! ## equivalent degrees of freedom -/

/-- ci.py 770–835 `edf_simple`; `alpha` is an integer or `None`.  `np.log` and `np.sqrt` of
numbers outside their domain give a non-finite number. -/
noncomputable def edf_simple (N m : ℝ) (alpha : Option ℤ) : Py NV :=
  if alpha = some 2 then do
    let e ← pyDiv ((N + 1) * (N - 2 * m)) (2 * (N - m))
    .ok (some e)
  else if alpha = some 0 then do
    let p ← pyDiv (3 * (N - 1)) (2 * m)
    let q ← pyDiv (2 * (N - 2)) N
    let r ← pyDiv (4 * m ^ 2) (4 * m ^ 2 + 5)
    .ok (some ((p - q) * r))
  else if alpha = some 1 then do
    let a ← pyDiv (N - 1) (2 * m)
    let b := (2 * m + 1) * (N - 1) / 4
    if a ≤ 0 ∨ b ≤ 0 then .ok none
    else if log a * log b < 0 then .ok none
    else .ok (some (exp (√(log a * log b))))
  else if alpha = some (-1) then
    if 2 ≤ m then do
      let e ← pyDiv (5 * N ^ 2) (4 * m * (N + 3 * m))
      .ok (some e)
    else if m = 1 then do
      let e ← pyDiv (2 * (N - 2)) (2.3 * N - 4.9)
      .ok (some e)
    else .error .unboundLocalError
  else if alpha = some (-2) then do
    let a ← pyDiv (N - 2) (m * (N - 3) ^ 2)
    let b := (N - 1) ^ 2
    let c := 3 * m * (N - 1)
    let d := 4 * m ^ 2
    .ok (some (a * (b - c + d)))
  else .ok (some (N - 1))

/-- ci.py 745: NIST SP1065 table 7 -/
noncomputable def table7 : List (ℝ × ℝ) := [(1.50, 0.0), (1.17, 0.22), (0.93, 0.36)]

/-- ci.py 734–749 `edf_totdev` -/
noncomputable def edf_totdev (N m : ℝ) (alpha : ℤ) : Py NV :=
  if alpha = 0 ∨ alpha = -1 ∨ alpha = -2 then do
    let bc ← pyGet table7 |alpha|
    let q ← pyDiv N m
    .ok (some (bc.1 * q - bc.2))
  else edf_simple N m (some alpha)

/-- ci.py 758–762: NIST SP1065 table 8 -/
noncomputable def table8 : List (ℝ × ℝ) :=
  [(1.90, 2.1), (1.20, 1.40), (1.10, 1.2), (0.85, 0.50), (0.75, 0.31)]

/-- ci.py 752–767 `edf_mtotdev` -/
noncomputable def edf_mtotdev (N m : ℝ) (alpha : ℤ) : Py ℝ := do
  pyAssert (alpha ∈ ([2, 1, 0, -1, -2] : List ℤ))
  let bc ← pyGet table8 |alpha - 2|
  let q ← pyDiv N m
  .ok (bc.1 * q - bc.2)

/-- the filter argument `F` of the Greenhall functions: a number or `float('inf')` -/
inductive FArg
  | fin (F : ℝ)
  | inf

/-- ci.py 648–676 `greenhall_sw` -/
noncomputable def greenhall_sw (t : ℝ) (alpha : ℤ) : Py ℝ :=
  if alpha = 2 then .ok (-|t|)
  else if alpha = 1 then .ok (if t = 0 then 0 else t ^ 2 * log |t|)
  else if alpha = 0 then .ok |t ^ 3|
  else if alpha = -1 then .ok (if t = 0 then 0 else t ^ 4 * log |t|)
  else if alpha = -2 then .ok |t ^ 5|
  else if alpha = -3 then .ok (if t = 0 then 0 else t ^ 6 * log |t|)
  else if alpha = -4 then .ok |t ^ 7|
  else .error .assertionError

/-- ci.py 636–645 `greenhall_sx` -/
noncomputable def greenhall_sx (t : ℝ) (F : FArg) (alpha : ℤ) : Py ℝ :=
  match F with
  | .inf => greenhall_sw t (alpha + 2)
  | .fin F => do
    let a ← greenhall_sw t alpha
    let s ← pyDiv 1 F
    let b ← greenhall_sw (t - s) alpha
    let c ← greenhall_sw (t + s) alpha
    .ok (F ^ 2 * (2 * a - b - c))

/-- ci.py 609–633 `greenhall_sz` -/
noncomputable def greenhall_sz (t : ℝ) (F : FArg) (alpha : ℤ) (d : ℕ) : Py ℝ :=
  if d = 1 then do
    let a ← greenhall_sx t F alpha
    let b ← greenhall_sx (t - 1) F alpha
    let c ← greenhall_sx (t + 1) F alpha
    .ok (2 * a - b - c)
  else if d = 2 then do
    let a ← greenhall_sx t F alpha
    let b ← greenhall_sx (t - 1) F alpha
    let c ← greenhall_sx (t + 1) F alpha
    let dd ← greenhall_sx (t - 2) F alpha
    let e ← greenhall_sx (t + 2) F alpha
    .ok (6 * a - 4 * b - 4 * c + dd + e)
  else if d = 3 then do
    let a ← greenhall_sx t F alpha
    let b ← greenhall_sx (t - 1) F alpha
    let c ← greenhall_sx (t + 1) F alpha
    let dd ← greenhall_sx (t - 2) F alpha
    let e ← greenhall_sx (t + 2) F alpha
    let f ← greenhall_sx (t - 3) F alpha
    let g ← greenhall_sx (t + 3) F alpha
    .ok (20 * a - 15 * b - 15 * c + 6 * dd + 6 * e - f - g)
  else .error .assertionError

/-- ci.py 597–606 `greenhall_BasicSum`.  `J` is integral, so `int(J) - 1` loop passes. -/
noncomputable def greenhall_BasicSum (J M S : ℝ) (F : FArg) (alpha : ℤ) (d : ℕ) : Py ℝ := do
  let z ← greenhall_sz 0 F alpha d
  let first := z ^ 2
  let q ← pyDiv J M
  let p ← pyDiv J S
  let z ← greenhall_sz p F alpha d
  let second := (1 - q) * z ^ 2
  let third ← forRange (⌊J⌋ - 1).toNat (0 : ℝ) (fun third i => do
    let q ← pyDiv (i + 1) M
    let p ← pyDiv (i + 1) S
    let z ← greenhall_sz p F alpha d
    .ok (third + 2 * (1 - q) * z ^ 2))
  .ok (first + second + third)

/-- ci.py 679–684 `greenhall_table3` -/
noncomputable def greenhall_table3 (alpha : ℤ) (d : ℕ) : Py (ℝ × ℝ) := do
  pyAssert (alpha = 1)
  pyGet [(6.0, 4.0), (15.23, 12.0), (47.8, 40.0)] ((d : ℤ) - 1)

/-- ci.py 692–706 -/
noncomputable def table2 : List (List (ℝ × ℝ)) :=
  [[(3.0/2.0, 1.0/2.0), (35.0/18.0, 1.0), (231.0/100.0, 3.0/2.0)],
   [(78.6, 25.2), (790.0, 410.0), (9950.0, 6520.0)],
   [(2.0/3.0, 1.0/6.0), (2.0/3.0, 1.0/3.0), (7.0/9.0, 1.0/2.0)],
   [(-1, -1), (0.852, 0.375), (0.997, 0.617)],
   [(-1, -1), (1.079, 0.368), (1.033, 0.607)],
   [(-1, -1), (-1, -1), (1.053, 0.553)],
   [(-1, -1), (-1, -1), (1.302, 0.535)]]

/-- ci.py 687–708 `greenhall_table2` -/
noncomputable def greenhall_table2 (alpha : ℤ) (d : ℕ) : Py (ℝ × ℝ) := do
  let row_idx := -alpha + 2
  pyAssert (row_idx ∈ ([0, 1, 2, 3, 4, 5] : List ℤ))
  let row ← pyGet table2 row_idx
  pyGet row ((d : ℤ) - 1)

/-- ci.py 715–729 -/
noncomputable def table1 : List (List (ℝ × ℝ)) :=
  [[(2.0/3.0, 1.0/3.0), (7.0/9.0, 1.0/2.0), (22.0/25.0, 2.0/3.0)],
   [(0.840, 0.345), (0.997, 0.616), (1.141, 0.843)],
   [(1.079, 0.368), (1.033, 0.607), (1.184, 0.848)],
   [(-1, -1), (1.048, 0.534), (1.180, 0.816)],
   [(-1, -1), (1.302, 0.535), (1.175, 0.777)],
   [(-1, -1), (-1, -1), (1.194, 0.703)],
   [(-1, -1), (-1, -1), (1.489, 0.702)]]

/-- ci.py 711–731 `greenhall_table1` -/
noncomputable def greenhall_table1 (alpha : ℤ) (d : ℕ) : Py (ℝ × ℝ) := do
  let row ← pyGet table1 (-alpha + 2)
  pyGet row ((d : ℤ) - 1)

/-- `1.0 / inv_edf`, where `inv_edf = num / den` (numpy scalars) -/
noncomputable def invEdf (num den : ℝ) : NV := nvDiv (some 1) (nvDiv (some num) (some den))

/-- ci.py 498–499: `M`, the number of summands; `F` and `S` are the filter and stride
factors -/
noncomputable def greenhall_M (d m N F S : ℕ) : Py ℝ := do
  let l ← pyDiv m F
  let L := l + m * d
  let q ← pyDiv (S * (N - L)) m
  .ok (1 + (⌊q⌋ : ℝ))

/-- ci.py 447–594 `edf_greenhall` (without the `verbose` printing) -/
noncomputable def edf_greenhall (alpha : ℤ) (d m N : ℕ) (overlapping modified : Bool) : Py NV := do
  let F := if modified then 1 else m
  let S := if overlapping then m else 1
  pyAssert (1 < alpha + 2 * d)
  let M ← greenhall_M d m N F S
  let J := min M ((d + 1) * S)
  let J_max : ℝ := 100
  let r := M / S
  if modified then
    if J ≤ J_max then do
      let z ← greenhall_sz 0 (.fin 1) alpha d
      let b ← greenhall_BasicSum J M S (.fin 1) alpha d
      .ok (invEdf b (z ^ 2 * M))
    else if d + 1 < r then do
      let a ← greenhall_table1 alpha d
      .ok (invEdf (a.1 - a.2 / r) r)
    else do
      let m_prime := J_max / r
      let z ← greenhall_sz 0 (.fin F) alpha d
      let b ← greenhall_BasicSum J_max J_max m_prime (.fin 1) alpha d
      .ok (invEdf b (z ^ 2 * J_max))
  else if alpha ≤ 0 then
    if J ≤ J_max then do
      let m_prime := if (m : ℝ) * (d + 1) ≤ J_max then FArg.fin m else FArg.inf
      let z ← greenhall_sz 0 m_prime alpha d
      let b ← greenhall_BasicSum J M S m_prime alpha d
      .ok (invEdf b (z ^ 2 * M))
    else if d + 1 < r then do
      let a ← greenhall_table2 alpha d
      .ok (invEdf (a.1 - a.2 / r) r)
    else do
      let m_prime := J_max / r
      let z ← greenhall_sz 0 .inf alpha d
      let b ← greenhall_BasicSum J_max J_max m_prime .inf alpha d
      .ok (invEdf b (z ^ 2 * J_max))
  else if alpha = 1 then
    if J ≤ J_max then do
      let z ← greenhall_sz 0 (.fin m) 1 d
      let b ← greenhall_BasicSum J M S (.fin m) 1 d
      .ok (invEdf b (z ^ 2 * M))
    else if d + 1 < r then do
      let a ← greenhall_table2 alpha d
      let b ← greenhall_table3 alpha d
      .ok (invEdf (a.1 - a.2 / r) ((b.1 + b.2 * log m) ^ 2 * r))
    else do
      let m_prime := J_max / r
      let b ← greenhall_table3 alpha d
      let s ← greenhall_BasicSum J_max J_max m_prime (.fin m_prime) 1 d
      .ok (invEdf s ((b.1 + b.2 * log m) ^ 2 * J_max))
  else if alpha = 2 then
    let K := ⌈r⌉
    if K ≤ d then .error .notImplementedError
    else
      let a0 : ℝ := (Nat.choose (4 * d) (2 * d) : ℝ) / (Nat.choose (2 * d) d : ℝ) ^ 2
      let a1 : ℝ := d / 2
      .ok (invEdf (a0 - a1 / r) M)
  else .error .notImplementedError

/-- ci.py 437–444 `edf_greenhall_simple` -/
noncomputable def edf_greenhall_simple (alpha : ℤ) (d m S F N : ℕ) : Py NV := do
  let M ← greenhall_M d m N F S
  let J := min M ((d + 1) * S)
  let z ← greenhall_sz 0 (.fin F) alpha d
  let b ← greenhall_BasicSum J M S (.fin F) alpha d
  .ok (invEdf b (z ^ 2 * M))

/-! ## noise identification -/

/-- ci.py 140–151 `rn`; the first element of an output array that is never empty -/
noncomputable def rn (x : List ℝ) (af rate : ℝ) : Py NV := do
  let o ← adev x rate "phase" (.list [af * rate])
  let oadev_x ← pyGet o.devs 0
  let o ← mdev x rate "phase" (.list [af * rate])
  let mdev_x ← pyGet o.devs 0
  .ok ((nvDiv (some mdev_x) (some oadev_x)).map (fun v => v ^ 2))

/-- ci.py 154–179 `rn_theory`, for `af > 0` -/
noncomputable def rn_theory (af : ℝ) (b : ℤ) : ℝ :=
  if b = 0 then af⁻¹
  else if b = -1 then
    let avar := (1.038 + 3 * log (2 * π * 0.5 * af)) / (4.0 * π ^ 2)
    let mvar := 3 * log (256.0 / 27.0) / (8.0 * π ^ 2)
    mvar / avar
  else 1

/-- ci.py 182–187 `rn_boundary` -/
noncomputable def rn_boundary (af : ℝ) (b_hi : ℤ) : ℝ :=
  √(rn_theory af b_hi * rn_theory af (b_hi - 1))

/-- means of consecutive groups of `af` values (`reshape` to rows of `af` and `np.average`
of each row); `len % af` last values are cut off -/
noncomputable def groupMeans (y : List ℝ) (af : ℕ) : List ℝ :=
  tab (y.length / af) (fun i => npMean (slice y ((i * af : ℕ) : ℤ) ((i * af + af : ℕ) : ℤ)))

/-- `np.var(y, ddof=1)` -/
noncomputable def npVar1 (y : List ℝ) : NV :=
  if y.length ≤ 1 then none
  else some ((y.map (fun v => (v - npMean y) ^ 2)).sum / ((y.length : ℝ) - 1))

/-- ci.py 193–213 `b1` -/
noncomputable def b1 (x : List ℝ) (af : ℕ) (rate : ℝ) : Py NV := do
  let o ← adev x rate "phase" (.list [(af : ℝ) * rate])
  let oadev_x ← pyGet o.devs 0
  let avar := oadev_x ^ 2
  let y := npDiff x
  if af = 0 then .error .zeroDivisionError
  else .ok (nvDiv (npVar1 (groupMeans y af)) (some avar))

/-- ci.py 216–254 `b1_theory` -/
noncomputable def b1_theory (N : ℕ) (mu : ℤ) : Py NV :=
  if mu = 2 then .ok (some ((N : ℝ) * (N + 1) / 6))
  else if mu = 1 then .ok (some ((N : ℝ) / 2))
  else if mu = 0 then
    .ok (if N ≤ 1 then none else some ((N : ℝ) * log N / (2 * (N - 1) * log 2)))
  else if mu = -1 then .ok (some 1)
  else if mu = -2 then do
    let v ← pyDiv ((N : ℝ) ^ 2 - 1) (1.5 * N * (N - 1))
    .ok (some v)
  else if N = 0 ∧ mu < 0 then .error .zeroDivisionError
  else do
    let v ← pyDiv ((N : ℝ) * (1 - (N : ℝ) ^ mu)) (2 * (N - 1) * (1 - 2 ^ mu))
    .ok (some v)

/-- ci.py 271–291 `b_to_mu` -/
def b_to_mu (b : ℤ) : Py ℤ :=
  let a := b + 2
  if a = 2 then .ok (-2)
  else if a = 1 then .ok (-2)
  else if a = 0 then .ok (-1)
  else if a = -1 then .ok 0
  else if a = -2 then .ok 1
  else if a = -3 then .ok 2
  else if a = -4 then .ok 3
  else .error .assertionError

/-- ci.py 257–268 `b1_boundary` (comparisons with NaN are False) -/
noncomputable def b1_boundary (b_hi : ℤ) (N : ℕ) : Py NV := do
  let b_lo := b_hi - 1
  let mu ← b_to_mu b_lo
  let b1_lo ← b1_theory N mu
  let mu ← b_to_mu b_hi
  let b1_hi ← b1_theory N mu
  .ok (match b1_lo, b1_hi with
    | some lo, some hi => if -4 ≤ lo then nvSqrt (some (lo * hi)) else some (0.5 * (lo + hi))
    | _, _ => none)

/-- ci.py 297–326 `lag1_acf`.  For an empty series both sums are the Python integer 0. -/
noncomputable def lag1_acf (x : List ℝ) : Py NV :=
  if x = [] then .error .zeroDivisionError
  else do
    let mu := npMean x
    let a ← forRange (x.length - 1) (0 : ℝ) (fun a n => do
      let u ← pyGet x n
      let v ← pyGet x (n + 1 : ℕ)
      .ok (a + (u - mu) * (v - mu)))
    let b := x.foldl (fun b xn => b + (xn - mu) ^ 2) 0
    .ok (nvDiv (some a) (some b))

/-- ci.py 411–431 `detrend`.  `fit x deg i` stands for the value at point `i` of the
polynomial of degree `deg` fitted to `x` (`np.polyval(np.polyfit(t, x, deg), t)`);
`np.polyfit` raises TypeError for an empty vector. -/
noncomputable def detrend (fit : List ℝ → ℕ → ℕ → ℝ) (x : List ℝ) (deg : ℕ) : Py (List ℝ) :=
  if x = [] then .error .typeError
  else .ok (x.mapIdx (fun i v => v - fit x deg i))

/-- ci.py 388–407: one pass of the `while True` loop for the `d` times differentiated series
`x`; `fuel` bounds the number of passes (`max dmin dmax + 1` passes are always enough, see
`noise_id_loop_fuel`), running out of fuel is reported as `assertionError`.
`add2` is 2 for phase data.  A NaN `r1` makes the comparison False and `int()` raise
ValueError.  Returned: `(alpha_int, alpha, d, rho)`. -/
noncomputable def noise_id_loop (dmin dmax add2 : ℤ) : ℕ → List ℝ → ℤ → Py (ℤ × ℝ × ℤ × ℝ)
  | 0, _, _ => .error .assertionError
  | fuel + 1, x, d => do
    let r1 ← lag1_acf x
    match nvDiv r1 (r1.map (fun v => 1 + v)) with
    | none =>
      if dmin ≤ d ∧ dmax ≤ d then .error .valueError
      else noise_id_loop dmin dmax add2 fuel (npDiff x) (d + 1)
    | some rho =>
      if dmin ≤ d ∧ (rho < 0.25 ∨ dmax ≤ d) then
        let p := -2 * (rho + d)
        .ok (-npRound (2 * rho) - 2 * d + add2, p + add2, d, rho)
      else noise_id_loop dmin dmax add2 fuel (npDiff x) (d + 1)

/-- ci.py 367–387: preparation of the series -/
noncomputable def noise_id_prepare (fit : List ℝ → ℕ → ℕ → ℝ) (x : List ℝ) (af : ℕ)
    (data_type : String) : Py (List ℝ) :=
  if data_type = "phase" then do
    let x ← if 1 < af then sliceStep x 0 af else .ok x
    detrend fit x 2
  else if data_type = "freq" then
    if af = 0 then .error .zeroDivisionError
    else detrend fit (groupMeans x af) 1
  else .ok x

/-- ci.py 329–408 `autocorr_noise_id` -/
noncomputable def autocorr_noise_id (fit : List ℝ → ℕ → ℕ → ℝ) (x : List ℝ) (af : ℕ)
    (data_type : String) (dmin dmax : ℤ) : Py (ℤ × ℝ × ℤ × ℝ) := do
  let x ← noise_id_prepare fit x af data_type
  if x.length < 30 then .error .notImplementedError
  else
    noise_id_loop dmin dmax (if data_type = "phase" then 2 else 0) ((max dmin dmax).toNat + 1) x 0

/-- ci.py 113–129: the `edf` that belongs to a deviation name -/
noncomputable def edf_for (alpha_int : ℤ) (af N : ℕ) (dev_type : String) : Py NV :=
  if dev_type = "adev" then edf_greenhall alpha_int 2 af N false false
  else if dev_type = "oadev" then edf_greenhall alpha_int 2 af N true false
  else if dev_type = "mdev" ∨ dev_type = "tdev" then edf_greenhall alpha_int 2 af N true true
  else if dev_type = "hdev" then edf_greenhall alpha_int 3 af N false false
  else if dev_type = "ohdev" then edf_greenhall alpha_int 3 af N true false
  else .error .notImplementedError

/-- ci.py 73–133 `confidence_interval_noiseID` -/
noncomputable def confidence_interval_noiseID (ppf : ℝ → ℝ → NV) (fit : List ℝ → ℕ → ℕ → ℝ)
    (x : List ℝ) (dev : ℝ) (af : ℕ) (dev_type data_type : String) (ci : ℝ) : Py (NV × NV) := do
  let dmax := if dev_type = "hdev" ∨ dev_type = "ohdev" then 3 else 2
  let r ← autocorr_noise_id fit x af data_type 0 dmax
  let edf ← edf_for r.1 af x.length dev_type
  .ok (match edf with
    | some e => confidence_interval ppf dev e ci
    | none => (none, none))

end AT
