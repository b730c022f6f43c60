
open AT
def parseF (s : String) : Option Float :=
  let s := s.trimAscii.toString
  if s.isEmpty then none else
  match Lean.Json.parse s with
  | .ok (.num n) => some n.toFloat
  | _ => none
def readData (f : String) : IO (List Float) := do
  let t ← IO.FS.readFile f
  return (t.splitOn "\n").filterMap fun l => parseF l
/-- prints with all digits: value scaled by 1e300-safe mantissa -/
def sh (x : Float) : String :=
  if x == 0 then "0" else if x.isNaN then "nan" else if x.isInf then "inf" else
  let e := (Float.log10 x.abs).floor
  let m := x / Float.pow 10 e
  s!"{(m * 1e15).round.toInt64}e{(e.toInt64) - 15}"
def showOut (nm : String) (r : Py (DevOut Float)) : IO Unit := do
  match r with
  | .error e => IO.println s!"{nm} ERROR {repr e}"
  | .ok o =>
    for ((t, d), n) in (o.taus.zip o.devs).zip o.ns do
      IO.println s!"{nm} {sh t} {sh d} {n}"
def fns : List (String × (List Float → Float → String → TausArg → Py (DevOut Float))) :=
  [("adev", adev), ("oadev", oadev), ("mdev", mdev), ("tdev", tdev), ("hdev", hdev), ("ohdev", ohdev),
   ("totdev", totdev), ("pdev", pdev), ("mtotdev", mtotdev), ("ttotdev", ttotdev), ("htotdev", htotdev),
   ("theo1", theo1), ("tierms", tierms), ("mtie", mtie)]
/-! chi-square quantiles -/
partial def lgam (x : Float) : Float :=
  if x < 15 then lgam (x + 1) - Float.log x else
  (x - 0.5) * Float.log x - x + 0.5 * Float.log (2 * Real.pi) + 1/(12*x) - 1/(360*x*x*x) + 1/(1260*x*x*x*x*x)
/-- regularized lower incomplete gamma -/
partial def gammaP (a x : Float) : Float :=
  if x ≤ 0 then 0 else
  let rec ser (n : Nat) (t s : Float) : Float :=
    if n > 100000 then s else
    let t' := t * x / (a + n.toFloat + 1)
    if t' < s * 1e-16 then s + t' else ser (n+1) t' (s + t')
  let r := Float.exp (a * Float.log x - x - lgam a)
  if x < a + 1 then r * ser 0 (1/a) (1/a) else
  -- Lentz continued fraction
  let rec cf (i : Nat) (b c d h : Float) : Float :=
    if i > 100000 then h else
    let an := - i.toFloat * (i.toFloat - a)
    let b := b + 2
    let d := 1 / (an * d + b)
    let c := b + an / c
    let del := d * c
    let h := h * del
    if (del - 1).abs < 1e-15 then h else cf (i+1) b c d h
  let b := x + 1 - a
  1 - r * cf 1 b 1e300 (1/b) (1/b)
def ppf (q df : Float) : Option Float := Id.run do
  if df ≤ 0 || !(df == df) then return none
  let mut lo := 0.0
  let mut hi := df * 10 + 100
  for _ in [0:200] do
    let mid := (lo + hi) / 2
    if gammaP (df / 2) (mid / 2) < q then lo := mid else hi := mid
  return some ((lo + hi) / 2)
/-! least squares polynomial, by orthogonal polynomials on the points -/
def fitArr (xs : List Float) (deg : Nat) : Array Float := Id.run do
  let a := xs.toArray
  let n := a.size
  let t := fun (i : Nat) => (2 * i.toFloat - (n.toFloat - 1)) / (if n ≤ 1 then 1 else n.toFloat - 1)
  let mut ps : Array (Array Float) := #[]
  let mut out := Array.replicate n 0.0
  for k in [0:deg+1] do
    let mut p := Array.ofFn (n := n) (fun i => fpow (t i) k)
    for q in ps do
      let mut num := 0.0
      let mut den := 0.0
      for i in [0:n] do
        num := num + p[i]! * q[i]!
        den := den + q[i]! * q[i]!
      if den > 1e-12 then p := Array.ofFn (n := n) (fun i => p[i.1]! - num / den * q[i.1]!)
    let mut num := 0.0
    let mut den := 0.0
    for i in [0:n] do
      num := num + a[i]! * p[i]!
      den := den + p[i]! * p[i]!
    if den > 1e-12 then
      ps := ps.push p
      out := Array.ofFn (n := n) (fun i => out[i.1]! + num / den * p[i.1]!)
  return out
def nv (x : Option Float) : String := match x with | some v => sh v | none => "nan"
def main (args : List String) : IO Unit := do
  match args with
  | "dev" :: file :: rate :: ty :: fn :: taus =>
    let d ← readData file
    let ta : TausArg := match taus with
      | ["octave"] => .str "octave" | ["decade"] => .str "decade" | ["all"] => .str "all"
      | _ => .list (taus.filterMap parseF)
    let r := (parseF rate).getD 1
    for (n, f) in fns do
      if n == fn then showOut n (f d r ty ta)
  | "frac" :: file :: f0 :: [] =>
    let d ← readData file
    for v in frequency2fractional d ((parseF f0).getD 1) do IO.println (sh v)
  | "phase" :: file :: rate :: [] =>
    let d ← readData file
    match frequency2phase d ((parseF rate).getD 1) with
    | .ok l => for v in l do IO.println (sh v)
    | .error e => IO.println s!"ERROR {repr e}"
  | "noiseid" :: file :: ty :: dmax :: afs =>
    let d ← readData file
    for s in afs do
      let af := (s.toNat?).getD 1
      match noise_id_prepare (fun _ _ _ => 0) d af ty with
      | .error e => IO.println s!"{af} ERROR {repr e}"
      | .ok x =>
        let fa := fitArr x (if ty == "phase" then 2 else 1)
        match autocorr_noise_id (fun _ _ i => fa[i]!) d af ty 0 ((dmax.toInt?).getD 2) with
        | .ok (ai, a, dd, rho) => IO.println s!"{af} {ai} {sh a} {dd} {sh rho}"
        | .error e => IO.println s!"{af} ERROR {repr e}"
  | "cinid" :: file :: ty :: dt :: pairs =>
    let d ← readData file
    for s in pairs do
      match s.splitOn "," with
      | [a, b] =>
        let af := (a.toNat?).getD 1
        let dev := (parseF b).getD 0
        match noise_id_prepare (fun _ _ _ => 0) d af ty with
        | .error e => IO.println s!"{af} ERROR {repr e}"
        | .ok x =>
          let fa := fitArr x (if ty == "phase" then 2 else 1)
          match confidence_interval_noiseID ppf (fun _ _ i => fa[i]!) d dev af dt ty 0.683 with
          | .ok (l, h) => IO.println s!"{af} {nv l} {nv h}"
          | .error e => IO.println s!"{af} ERROR {repr e}"
      | _ => pure ()
  | "gh" :: rows => -- alpha,d,m,N,ov,mod,dev
    for s in rows do
      match s.splitOn "," with
      | [a, d, m, N, ov, md, dev] =>
        match edf_greenhall (a.toInt?.getD 0) (d.toNat?.getD 0) (m.toNat?.getD 0) (N.toNat?.getD 0) (ov == "1") (md == "1") with
        | .ok (some e) =>
          let (l, h) := confidence_interval ppf (parseF dev |>.getD 0) e 0.683
          IO.println s!"{m} {sh e} {nv l} {nv h}"
        | .ok none => IO.println s!"{m} nan"
        | .error e => IO.println s!"{m} ERROR {repr e}"
      | _ => pure ()
  | "tot" :: rows => -- N,m,alpha,dev
    for s in rows do
      match s.splitOn "," with
      | [N, m, a, dev] =>
        match edf_totdev (parseF N |>.getD 0) (parseF m |>.getD 0) (a.toInt?.getD 0) with
        | .ok (some e) =>
          let (l, h) := confidence_interval ppf (parseF dev |>.getD 0) e 0.683
          IO.println s!"{m} {sh e} {nv l} {nv h}"
        | .ok none => IO.println s!"{m} nan"
        | .error e => IO.println s!"{m} ERROR {repr e}"
      | _ => pure ()
  | "rt" :: file :: ty :: fn :: afs =>
    let d ← readData file
    let k : RtName := if fn == "oadev" then .oadev else if fn == "ohdev" then .ohdev else .tdev
    let auto := afs == ["auto"]
    let c := rt_cfg 1 auto 4
    let st := rt_init (if auto then [1] else afs.filterMap String.toNat?) auto
    match (if ty == "phase" then k.feed c st d else k.feed_frequency c st d) with
    | .error e => IO.println s!"ERROR {repr e}"
    | .ok st =>
      for (a, v) in st.afs.zip st.dev do IO.println s!"{a} {sh v}"
      if fn == "tdev" then
        match tdev_mdev c st with
        | .ok l => for (a, v) in st.afs.zip l do IO.println s!"mdev {a} {sh v}"
        | .error e => IO.println s!"ERROR {repr e}"
  | "mask" :: fn :: taus =>
    let f : Float → Float := match fn with
      | "prc_tdev" => prc_tdev | "prc_mtie" => prc_mtie | "eprtc_tdev" => eprtc_tdev | "eprtc_mtie" => eprtc_mtie
      | "prtcA_tdev" => prtcA_tdev | "prtcB_tdev" => prtcB_tdev | "prtcA_mtie" => prtcA_mtie | _ => prtcB_mtie
    for s in taus do IO.println (sh (f (parseF s |>.getD 0)))
  | "taured" :: n :: npd :: [] =>
    let ms := (List.range (n.toNat?.getD 0)).map (· + 1)
    match tau_reduction ms 1 (npd.toNat?.getD 0) with
    | .ok (ms, _) => IO.println s!"{ms}"
    | .error e => IO.println s!"ERROR {repr e}"
  | "gcodev" :: f1 :: f2 :: ty :: taus =>
    let d1 ← readData f1
    let d2 ← readData f2
    showOut "gcodev" (gcodev d1 d2 1 ty (.list (taus.filterMap parseF)))
  | "gradev" :: file :: taus =>
    let t ← IO.FS.readFile file
    let d := ((t.splitOn "\n").filter (fun l => l.trimAscii.toString != "")).map parseF
    match gradev ppf d 1 "phase" (.list (taus.filterMap parseF)) 0.9 "wp" with
    | .error e => IO.println s!"ERROR {repr e}"
    | .ok o => for ((t, d), n) in (o.taus.zip o.devs).zip o.ns do IO.println s!"gradev {sh t} {sh d} {n}"
  | "hat" :: a :: b :: c :: taus =>
    let x ← readData a
    let y ← readData b
    let z ← readData c
    showOut "hat" (three_cornered_hat_phase x y z 1 (.list (taus.filterMap parseF)) .oadev)
  | _ => pure ()
