import Verif.Spec.FloatScale
import Verif.Props.MtieFastFloat
import Verif.Props.FloatHat

/-!
# C121: scaling the data by a power of two in double precision

Property: if all samples are multiplied by `2^k` or `-2^k`, the deviations and error bars of `adev`,
`oadev`, `hdev`, `ohdev`, `mdev` and `tdev`, as computed in double precision, are multiplied by
exactly `2^k`; taus, counts and exceptions do not change.
-/

namespace AT

open Spec Real

variable {fl : ℝ → ℝ} {sum : List ℝ → ℝ}

/-- two outcomes are the same exception, or related values -/
def PyRel {α β : Type} (R : α → β → Prop) (x : Py α) (y : Py β) : Prop :=
  (∃ e, x = .error e ∧ y = .error e) ∨ ∃ a b, x = .ok a ∧ y = .ok b ∧ R a b

theorem PyRel.ok {α β : Type} {R : α → β → Prop} {a : α} {b : β} (h : R a b) : PyRel R (.ok a) (.ok b) :=
  Or.inr ⟨a, b, rfl, rfl, h⟩

theorem PyRel.error {α β : Type} {R : α → β → Prop} (e : PyErr) : PyRel R (.error e : Py α) (.error e : Py β) :=
  Or.inl ⟨e, rfl, rfl⟩

theorem PyRel.bind {α β γ δ : Type} {R : α → β → Prop} {Q : γ → δ → Prop} {x : Py α} {y : Py β} {F : α → Py γ}
    {G : β → Py δ} (h : PyRel R x y) (K : ∀ a b, R a b → PyRel Q (F a) (G b)) : PyRel Q (x >>= F) (y >>= G) := by
  rcases h with ⟨e, rfl, rfl⟩ | ⟨a, b, rfl, rfl, h⟩
  · exact PyRel.error e
  · exact K a b h

theorem PyRel.map_eq {α β : Type} {f : α → β} {x : Py α} {y : Py β} (h : PyRel (fun a b => b = f a) x y) :
    y = x.map f := by
  rcases h with ⟨e, rfl, rfl⟩ | ⟨a, b, rfl, rfl, rfl⟩ <;> rfl

theorem everyNth_map' {α β : Type} (f : α → β) (s : ℕ) (l : List α) :
    everyNth s (l.map f) = (everyNth s l).map f := by
  induction hn : l.length using Nat.strong_induction_on generalizing l with
  | _ n ih =>
    match l with
    | [] => simp [everyNth]
    | x :: xs =>
      rw [List.map_cons, everyNth, everyNth, List.map_cons, ← List.map_drop]
      congr 1
      refine ih (xs.drop (s - 1)).length ?_ _ rfl
      subst hn
      simp only [List.length_drop, List.length_cons]; omega

theorem sliceStep_rel {α β : Type} (f : α → β) (l : List α) (k : ℤ) (s : ℕ) :
    PyRel (fun a b => b = a.map f) (sliceStep l k s) (sliceStep (l.map f) k s) := by
  unfold sliceStep
  split_ifs
  · exact PyRel.error _
  · refine PyRel.ok ?_
    unfold sliceFrom
    rw [List.length_map, ← List.map_drop, everyNth_map']

theorem sliceTo_map' {α β : Type} (f : α → β) (l : List α) (k : ℤ) : sliceTo (l.map f) k = (sliceTo l k).map f := by
  unfold sliceTo
  rw [List.length_map, List.map_take]

theorem sliceFrom_map' {α β : Type} (f : α → β) (l : List α) (k : ℤ) :
    sliceFrom (l.map f) k = (sliceFrom l k).map f := by
  unfold sliceFrom
  rw [List.length_map, List.map_drop]

theorem slice_map' {α β : Type} (f : α → β) (l : List α) (j k : ℤ) :
    slice (l.map f) j k = (slice l j k).map f := by
  unfold slice
  rw [List.length_map, List.map_drop, List.map_take]

theorem vop_rel {α β γ : Type} {f : α → β → γ} {g : α → α} {h : β → β} {k : γ → γ}
    (H : ∀ u v, f (g u) (h v) = k (f u v)) (a : List α) (b : List β) :
    PyRel (fun l l' => l' = l.map k) (vop f a b) (vop f (a.map g) (b.map h)) := by
  have z : List.zipWith f (a.map g) (b.map h) = (List.zipWith f a b).map k := by
    rw [List.zipWith_map, List.map_zipWith]
    simp only [H]
  unfold vop
  rw [List.length_map, List.length_map]
  by_cases hl : a.length = b.length
  · rw [if_pos hl, if_pos hl]
    exact PyRel.ok z
  · rw [if_neg hl, if_neg hl]
    match a, b, hl with
    | [x], b, _ =>
      refine PyRel.ok ?_
      simp only [List.map_map, List.map_inj_left, Function.comp]
      intro v _
      exact H x v
    | [], [y], _ => exact PyRel.ok rfl
    | [], [], hl => exact absurd rfl hl
    | [], y :: y' :: b, _ => exact PyRel.error _
    | x :: x' :: a, [y], _ =>
      refine PyRel.ok ?_
      simp [H]
    | x :: x' :: a, [], _ => exact PyRel.error _
    | x :: x' :: a, y :: y' :: b, _ => exact PyRel.error _

/-! ## Rounding and scaling -/

/-- multiplication by `c` commutes with the rounding and the summation -/
structure Scale (fl : ℝ → ℝ) (sum : List ℝ → ℝ) (c : ℝ) : Prop where
  one : ∀ x, fl (c * x) = c * fl x
  abs : ∀ x, fl (|c| * x) = |c| * fl x
  sum1 : ∀ l : List ℝ, sum (l.map (c * ·)) = c * sum l
  sum2 : ∀ l : List ℝ, sum (l.map (c * c * ·)) = c * c * sum l

theorem isBinary64_scale {x a : ℝ} (h : IsBinary64 x a) (j : ℤ) : IsBinary64 ((2 : ℝ) ^ j * x) ((2 : ℝ) ^ j * a) := by
  rcases h with ⟨rfl, rfl⟩ | ⟨e, k, x1, x2, x3, rfl⟩
  · exact Or.inl ⟨by simp, by simp⟩
  · have hp : (0 : ℝ) < (2 : ℝ) ^ j := by positivity
    have he : (0 : ℝ) < (2 : ℝ) ^ e := by positivity
    have e1 : ∀ y : ℝ, (2 : ℝ) ^ j * y / (2 : ℝ) ^ (j + e) = y / (2 : ℝ) ^ e := by
      intro y
      rw [zpow_add₀ two_ne_zero]
      field_simp
    refine Or.inr ⟨j + e, k, ?_, ?_, ?_, ?_⟩
    · rw [abs_mul, abs_of_pos hp, e1]; exact x1
    · rw [abs_mul, abs_of_pos hp, e1]; exact x2
    · rw [e1]; exact x3
    · rw [zpow_add₀ two_ne_zero]; ring

theorem binary64_scale (hfl : ∀ x, IsBinary64 x (fl x)) (j : ℤ) (x : ℝ) :
    fl ((2 : ℝ) ^ j * x) = (2 : ℝ) ^ j * fl x :=
  isBinary64_unique (hfl _) (isBinary64_scale (hfl x) j)

theorem binary64_neg (hfl : ∀ x, IsBinary64 x (fl x)) (x : ℝ) : fl (-x) = -fl x :=
  isBinary64_unique (hfl _) (isBinary64_neg (hfl x))

theorem scale_of (hfl : ∀ x, IsBinary64 x (fl x)) (hsum : SumScale sum) {k : ℤ} {c : ℝ}
    (hc : c = (2 : ℝ) ^ k ∨ c = -(2 : ℝ) ^ k) : Scale fl sum c := by
  have hp : (0 : ℝ) < (2 : ℝ) ^ k := by positivity
  have e2 : (2 : ℝ) ^ k * (2 : ℝ) ^ k = (2 : ℝ) ^ (k + k) := (zpow_add₀ two_ne_zero k k).symm
  rcases hc with rfl | rfl
  · refine ⟨binary64_scale hfl k, ?_, fun l => (hsum k l).1, fun l => ?_⟩
    · rw [abs_of_pos hp]; exact binary64_scale hfl k
    · rw [e2]; exact (hsum _ l).1
  · refine ⟨fun x => ?_, ?_, fun l => ?_, fun l => ?_⟩
    · rw [neg_mul, binary64_neg hfl, binary64_scale hfl, neg_mul]
    · rw [abs_neg, abs_of_pos hp]; exact binary64_scale hfl k
    · have : l.map (-(2 : ℝ) ^ k * ·) = (l.map ((2 : ℝ) ^ k * ·)).map (-·) := by
        rw [List.map_map]
        apply List.map_congr_left
        intro v _
        simp
      rw [this, (hsum k _).2, (hsum k l).1, neg_mul]
    · rw [neg_mul_neg, e2]; exact (hsum _ l).1

theorem abs_scale {k : ℤ} {c : ℝ} (hc : c = (2 : ℝ) ^ k ∨ c = -(2 : ℝ) ^ k) : |c| = (2 : ℝ) ^ k := by
  have hp : (0 : ℝ) < (2 : ℝ) ^ k := by positivity
  rcases hc with rfl | rfl
  · exact abs_of_pos hp
  · rw [abs_neg, abs_of_pos hp]

namespace Scale

variable {c : ℝ}

theorem fl2 (S : Scale fl sum c) (x : ℝ) : fl (c * c * x) = c * c * fl x := by
  rw [mul_assoc, S.one, S.one, mul_assoc]

theorem root (_S : Scale fl sum c) (x : ℝ) : √(c * c * x) = |c| * √x := by
  rw [Real.sqrt_mul (mul_self_nonneg c), Real.sqrt_mul_self_eq_abs]

theorem div2 (_S : Scale fl sum c) (x y : ℝ) : c * c * x / y = c * c * (x / y) := mul_div_assoc ..

theorem divA (_S : Scale fl sum c) (x y : ℝ) : |c| * x / y = |c| * (x / y) := mul_div_assoc ..

theorem mulA (_S : Scale fl sum c) (x y : ℝ) : |c| * x * y = |c| * (x * y) := mul_assoc ..

theorem vsub (S : Scale fl sum c) (a b : List ℝ) :
    PyRel (fun l l' => l' = l.map (c * ·)) (vsub_fl fl a b) (vsub_fl fl (a.map (c * ·)) (b.map (c * ·))) :=
  vop_rel (fun u v => by rw [← mul_sub, S.one]) a b

theorem vadd (S : Scale fl sum c) (a b : List ℝ) :
    PyRel (fun l l' => l' = l.map (c * ·)) (vadd_fl fl a b) (vadd_fl fl (a.map (c * ·)) (b.map (c * ·))) :=
  vop_rel (fun u v => by rw [← mul_add, S.one]) a b

theorem vmul (S : Scale fl sum c) (a b : List ℝ) :
    PyRel (fun l l' => l' = l.map (c * c * ·)) (vmul_fl fl a b) (vmul_fl fl (a.map (c * ·)) (b.map (c * ·))) :=
  vop_rel (fun u v => by rw [mul_mul_mul_comm]; exact S.fl2 _) a b

theorem vscale (S : Scale fl sum c) (q : ℝ) (a : List ℝ) :
    vscale_fl fl q (a.map (c * ·)) = (vscale_fl fl q a).map (c * ·) := by
  unfold vscale_fl
  rw [List.map_map, List.map_map]
  apply List.map_congr_left
  intro v _
  simp only [Function.comp]
  rw [mul_left_comm, S.one]

end Scale

/-- rows scaled by `a` -/
def scaleRow (a : ℝ) (row : ℝ × ℝ × ℤ) : ℝ × ℝ × ℤ := (a * row.1, a * row.2.1, row.2.2)

theorem Scale.calc_adev {c : ℝ} (S : Scale fl sum c) (x : List ℝ) (rate : ℝ) (m s : ℕ) :
    PyRel (fun a b => b = scaleRow |c| a) (calc_adev_phase_fl fl sum x rate m s)
      (calc_adev_phase_fl fl sum (x.map (c * ·)) rate m s) := by
  unfold calc_adev_phase_fl
  refine (sliceStep_rel _ _ _ _).bind ?_
  rintro d2 _ rfl
  refine (sliceStep_rel _ _ _ _).bind ?_
  rintro d1 _ rfl
  refine (sliceStep_rel _ _ _ _).bind ?_
  rintro d0 _ rfl
  simp only [List.length_map, sliceTo_map', S.vscale]
  generalize (if min (min d0.length d1.length) d2.length = 0 then 1
    else min (min d0.length d1.length) d2.length) = n
  refine (S.vsub _ _).bind ?_
  rintro a _ rfl
  refine (S.vadd _ _).bind ?_
  rintro v _ rfl
  refine (S.vmul _ _).bind ?_
  rintro sq _ rfl
  refine PyRel.ok ?_
  simp only [S.sum2, S.div2, S.fl2, S.root, S.abs, S.divA, S.mulA, scaleRow]

theorem Scale.calc_hdev {c : ℝ} (S : Scale fl sum c) (x : List ℝ) (rate : ℝ) (m s : ℕ) :
    PyRel (fun a b => b = scaleRow |c| a) (calc_hdev_phase_fl fl sum x rate m s)
      (calc_hdev_phase_fl fl sum (x.map (c * ·)) rate m s) := by
  unfold calc_hdev_phase_fl
  by_cases hr : rate = 0
  · rw [if_pos hr, if_pos hr]; exact PyRel.error _
  rw [if_neg hr, if_neg hr]
  refine (sliceStep_rel _ _ _ _).bind ?_
  rintro d3 _ rfl
  refine (sliceStep_rel _ _ _ _).bind ?_
  rintro d2 _ rfl
  refine (sliceStep_rel _ _ _ _).bind ?_
  rintro d1 _ rfl
  refine (sliceStep_rel _ _ _ _).bind ?_
  rintro d0 _ rfl
  simp only [List.length_map, sliceTo_map', S.vscale]
  refine (S.vsub _ _).bind ?_
  rintro a _ rfl
  refine (S.vadd _ _).bind ?_
  rintro b _ rfl
  refine (S.vsub _ _).bind ?_
  rintro v _ rfl
  refine (S.vmul _ _).bind ?_
  rintro sq _ rfl
  refine PyRel.ok ?_
  simp only [S.sum2, S.div2, S.fl2, S.root, S.abs, S.divA, scaleRow]

theorem Scale.cumsum {c : ℝ} (S : Scale fl sum c) (l : List ℝ) : ∀ v : ℝ,
    cumsum_fl fl (c * v) (l.map (c * ·)) = (cumsum_fl fl v l).map (c * ·) := by
  induction l with
  | nil => intro v; rfl
  | cons x l ih =>
    intro v
    simp only [List.map_cons, cumsum_fl, ← mul_add, S.one, ih]

theorem Scale.npCumsum {c : ℝ} (S : Scale fl sum c) (l : List ℝ) :
    npCumsum_fl fl (l.map (c * ·)) = (npCumsum_fl fl l).map (c * ·) := by
  cases l with
  | nil => rfl
  | cons x l => simp only [List.map_cons, npCumsum_fl, S.cumsum]

theorem PyRel.same {α : Type} (x : Py α) : PyRel (fun a b => b = a) x x := by
  cases x with
  | error e => exact PyRel.error e
  | ok a => exact PyRel.ok rfl

theorem Scale.mdev_body {c : ℝ} (S : Scale fl sum c) (x taus : List ℝ) (i m : ℕ) :
    PyRel (fun a b => b = scaleRow |c| a) (mdev_body_fl fl sum x taus i m)
      (mdev_body_fl fl sum (x.map (c * ·)) taus i m) := by
  unfold mdev_body_fl
  refine (PyRel.same _).bind ?_
  rintro tau _ rfl
  simp only [slice_map', sliceFrom_map', List.length_map, sliceTo_map', S.vscale]
  refine (S.vsub _ _).bind ?_
  rintro a _ rfl
  refine (S.vadd _ _).bind ?_
  rintro a _ rfl
  refine (S.vsub _ _).bind ?_
  rintro b _ rfl
  refine (S.vadd _ _).bind ?_
  rintro b _ rfl
  refine (S.vsub _ _).bind ?_
  rintro b _ rfl
  have e : ((npCumsum_fl fl (b.map (c * ·))).map fun t => fl (sum (a.map (c * ·)) + t)) =
      ((npCumsum_fl fl b).map fun t => fl (sum a + t)).map (c * ·) := by
    rw [S.npCumsum, List.map_map, List.map_map]
    apply List.map_congr_left
    intro v _
    simp only [Function.comp]
    rw [S.sum1, ← mul_add, S.one]
  rw [e]
  refine (S.vmul _ _).bind ?_
  rintro sq _ rfl
  refine PyRel.ok ?_
  have e1 : c * sum a * (c * sum a) = c * c * (sum a * sum a) := mul_mul_mul_comm ..
  simp only [S.sum1, e1, S.sum2, S.fl2, ← mul_add, S.div2, S.root, S.abs, S.divA, scaleRow]

/-! ## The loop over the averaging factors -/

theorem tau_generator_rel {α : Type} (f : α → α) (g : List ℝ) (x : List α) (rate : ℝ) (taus : TausArg) (even : Bool)
    (mx : ℝ) : PyRel (fun a b => b = (a.1.map f, a.2)) (tau_generator_fl fl g x rate taus even mx)
      (tau_generator_fl fl g (x.map f) rate taus even mx) := by
  unfold tau_generator_fl
  by_cases hr : rate = 0
  · rw [if_pos hr, if_pos hr]; exact PyRel.error _
  rw [if_neg hr, if_neg hr]
  simp only [List.length_map]
  refine (PyRel.same _).bind ?_
  rintro t _ rfl
  refine (PyRel.same _).bind ?_
  rintro m _ rfl
  by_cases he : even = true
  · rw [if_pos he, if_pos he]
    refine (PyRel.same _).bind ?_
    rintro m' _ rfl
    refine (PyRel.same _).bind ?_
    rintro t' _ rfl
    exact PyRel.ok rfl
  · rw [if_neg he, if_neg he]
    exact PyRel.ok rfl

theorem maskSel_rel {α β : Type} (f : α → β) (l : List α) (mask : List Bool) :
    PyRel (fun a b => b = a.map f) (maskSel l mask) (maskSel (l.map f) mask) := by
  unfold maskSel
  rw [List.length_map]
  split_ifs
  · refine PyRel.ok ?_
    rw [List.zip_map_left, List.filterMap_map, List.map_filterMap]
    congr 1
    funext ⟨u, b⟩
    cases b <;> rfl
  · exact PyRel.error _

theorem mapM_rel {α β γ : Type} {R : β → γ → Prop} (l : List α) (F : α → Py β) (G : α → Py γ)
    (H : ∀ a, PyRel R (F a) (G a)) : PyRel (List.Forall₂ R) (l.mapM F) (l.mapM G) := by
  induction l with
  | nil => exact PyRel.ok List.Forall₂.nil
  | cons a l ih =>
    rw [List.mapM_cons, List.mapM_cons]
    refine (H a).bind ?_
    intro b b' hb
    refine ih.bind ?_
    intro t t' ht
    exact PyRel.ok (List.Forall₂.cons hb ht)

theorem runTaus_rel (a : ℝ) (taus : List ℝ) (ms : List ℕ) (F G : ℕ → ℕ → Py (ℝ × ℝ × ℤ))
    (H : ∀ i m, PyRel (fun r r' => r' = scaleRow a r) (F i m) (G i m)) :
    PyRel (fun r r' => r' = scaleOut a r) (runTaus taus ms F) (runTaus taus ms G) := by
  unfold runTaus
  refine (mapM_rel _ _ _ (fun p : ℕ × ℕ => H p.2 p.1)).bind ?_
  intro rows rows' hr
  have hr' : rows' = rows.map (scaleRow a) := by
    induction hr with
    | nil => rfl
    | cons h _ ih => rw [List.map_cons, h, ih]
  subst hr'
  have e1 : (rows.map (scaleRow a)).map (fun r => r.1) = (rows.map fun r => r.1).map (a * ·) := by
    rw [List.map_map, List.map_map]; rfl
  have e2 : (rows.map (scaleRow a)).map (fun r => r.2.1) = (rows.map fun r => r.2.1).map (a * ·) := by
    rw [List.map_map, List.map_map]; rfl
  have e3 : (rows.map (scaleRow a)).map (fun r => r.2.2) = rows.map fun r => r.2.2 := by
    rw [List.map_map]; rfl
  rw [e1, e2, e3]
  unfold remove_small_ns
  refine (PyRel.same _).bind ?_
  rintro t _ rfl
  refine (maskSel_rel _ _ _).bind ?_
  rintro d _ rfl
  refine (PyRel.same _).bind ?_
  rintro n _ rfl
  refine (maskSel_rel (a * ·) (rows.map fun r => r.2.1) _).bind ?_
  rintro l _ rfl
  simp only [ok_bind, List.length_map]
  split_ifs
  · exact PyRel.error _
  · exact PyRel.ok rfl

theorem Scale.tdev_tail {c : ℝ} (S : Scale fl sum c) (r : DevOut ℝ) :
    PyRel (fun r r' => r' = scaleOut |c| r) (scaleToTdev_fl fl r) (scaleToTdev_fl fl (scaleOut |c| r)) := by
  unfold scaleToTdev_fl
  have h1 : PyRel (fun l l' => l' = l.map (|c| * ·)) (vmul_fl fl r.taus r.devs)
      (vmul_fl fl (scaleOut |c| r).taus (scaleOut |c| r).devs) := by
    have := vop_rel (f := fun u v => fl (u * v)) (g := id) (h := (|c| * ·)) (k := (|c| * ·))
      (fun u v => by simp only [id]; rw [mul_left_comm, S.abs]) r.taus r.devs
    rw [List.map_id] at this
    exact this
  refine h1.bind ?_
  rintro td _ rfl
  have e : ((td.map (|c| * ·)).map fun v => fl (v / fl √3)) = (td.map fun v => fl (v / fl √3)).map (|c| * ·) := by
    rw [List.map_map, List.map_map]
    apply List.map_congr_left
    intro v _
    simp only [Function.comp]
    rw [S.divA, S.abs]
  simp only [e]
  have h2 := vop_rel (f := fun (v : ℝ) (n : ℤ) => fl (v / fl √(n : ℝ))) (g := (|c| * ·)) (h := id) (k := (|c| * ·))
    (fun u v => by simp only [id]; rw [S.divA, S.abs]) (td.map fun v => fl (v / fl √3)) r.ns
  rw [List.map_id] at h2
  refine h2.bind ?_
  rintro l _ rfl
  exact PyRel.ok rfl

theorem Scale.freq {c : ℝ} (S : Scale fl sum c) (y : List ℝ) (rate : ℝ) :
    PyRel (fun l l' => l' = l.map (c * ·)) (frequency2phase_fl fl sum y rate)
      (frequency2phase_fl fl sum (y.map (c * ·)) rate) := by
  unfold frequency2phase_fl
  by_cases hr : rate = 0
  · rw [if_pos hr, if_pos hr]; exact PyRel.error _
  rw [if_neg hr, if_neg hr]
  by_cases hy : y = []
  · rw [if_pos hy, if_pos (by rw [hy]; rfl)]; exact PyRel.error _
  rw [if_neg hy, if_neg (by simpa using hy)]
  refine PyRel.ok ?_
  have e1 : ((y.map (c * ·)).map fun v => fl (v - fl (sum (y.map (c * ·)) / (y.map (c * ·)).length))) =
      (y.map fun v => fl (v - fl (sum y / y.length))).map (c * ·) := by
    rw [List.length_map, S.sum1, mul_div_assoc, S.one, List.map_map, List.map_map]
    apply List.map_congr_left
    intro v _
    simp only [Function.comp]
    rw [← mul_sub, S.one]
  simp only [e1, S.npCumsum, List.map_cons, mul_zero]
  congr 1
  rw [List.map_map, List.map_map]
  apply List.map_congr_left
  intro v _
  simp only [Function.comp]
  rw [mul_assoc, S.one]

section

variable (hfl : ∀ x, IsBinary64 x (fl x)) (hsum : SumScale sum) (k : ℤ) {c : ℝ}
  (hc : c = (2 : ℝ) ^ k ∨ c = -(2 : ℝ) ^ k) (log10grid x : List ℝ) (rate : ℝ) (taus : TausArg)

include hfl hsum hc

/-- `adev` and `oadev` -/
theorem adev_scale_float :
    adev_fl fl sum log10grid (x.map (c * ·)) rate taus =
      (adev_fl fl sum log10grid x rate taus).map (scaleOut ((2 : ℝ) ^ k)) ∧
    oadev_fl fl sum log10grid (x.map (c * ·)) rate taus =
      (oadev_fl fl sum log10grid x rate taus).map (scaleOut ((2 : ℝ) ^ k)) := by
  have S := scale_of hfl hsum hc
  rw [← abs_scale hc]
  constructor <;>
  · refine PyRel.map_eq ((tau_generator_rel _ _ _ _ _ _ _).bind ?_)
    rintro ⟨y, ms, ts⟩ _ rfl
    exact runTaus_rel _ _ _ _ _ (fun _ _ => S.calc_adev _ _ _ _)

/-- `hdev` and `ohdev` -/
theorem hdev_scale_float :
    hdev_fl fl sum log10grid (x.map (c * ·)) rate taus =
      (hdev_fl fl sum log10grid x rate taus).map (scaleOut ((2 : ℝ) ^ k)) ∧
    ohdev_fl fl sum log10grid (x.map (c * ·)) rate taus =
      (ohdev_fl fl sum log10grid x rate taus).map (scaleOut ((2 : ℝ) ^ k)) := by
  have S := scale_of hfl hsum hc
  rw [← abs_scale hc]
  constructor <;>
  · refine PyRel.map_eq ((tau_generator_rel _ _ _ _ _ _ _).bind ?_)
    rintro ⟨y, ms, ts⟩ _ rfl
    exact runTaus_rel _ _ _ _ _ (fun _ _ => S.calc_hdev _ _ _ _)

/-- `mdev` and `tdev` -/
theorem mdev_scale_float :
    mdev_fl fl sum log10grid (x.map (c * ·)) rate taus =
      (mdev_fl fl sum log10grid x rate taus).map (scaleOut ((2 : ℝ) ^ k)) ∧
    tdev_fl fl sum log10grid (x.map (c * ·)) rate taus =
      (tdev_fl fl sum log10grid x rate taus).map (scaleOut ((2 : ℝ) ^ k)) := by
  have S := scale_of hfl hsum hc
  rw [← abs_scale hc]
  have M : PyRel (fun r r' => r' = scaleOut |c| r) (mdev_fl fl sum log10grid x rate taus)
      (mdev_fl fl sum log10grid (x.map (c * ·)) rate taus) := by
    refine (tau_generator_rel _ _ _ _ _ _ _).bind ?_
    rintro ⟨y, ms, ts⟩ _ rfl
    exact runTaus_rel _ _ _ _ _ (fun _ _ => S.mdev_body _ _ _ _)
  refine ⟨M.map_eq, PyRel.map_eq (M.bind ?_)⟩
  rintro r _ rfl
  exact S.tdev_tail r

/-- all six for frequency data -/
theorem freq_scale_float :
    adev_freq_fl fl sum log10grid (x.map (c * ·)) rate taus =
      (adev_freq_fl fl sum log10grid x rate taus).map (scaleOut ((2 : ℝ) ^ k)) ∧
    oadev_freq_fl fl sum log10grid (x.map (c * ·)) rate taus =
      (oadev_freq_fl fl sum log10grid x rate taus).map (scaleOut ((2 : ℝ) ^ k)) ∧
    hdev_freq_fl fl sum log10grid (x.map (c * ·)) rate taus =
      (hdev_freq_fl fl sum log10grid x rate taus).map (scaleOut ((2 : ℝ) ^ k)) ∧
    ohdev_freq_fl fl sum log10grid (x.map (c * ·)) rate taus =
      (ohdev_freq_fl fl sum log10grid x rate taus).map (scaleOut ((2 : ℝ) ^ k)) ∧
    mdev_freq_fl fl sum log10grid (x.map (c * ·)) rate taus =
      (mdev_freq_fl fl sum log10grid x rate taus).map (scaleOut ((2 : ℝ) ^ k)) ∧
    tdev_freq_fl fl sum log10grid (x.map (c * ·)) rate taus =
      (tdev_freq_fl fl sum log10grid x rate taus).map (scaleOut ((2 : ℝ) ^ k)) := by
  have F := (scale_of hfl hsum hc).freq x rate
  have key : ∀ D : List ℝ → Py (DevOut ℝ),
      (∀ y : List ℝ, D (y.map (c * ·)) = (D y).map (scaleOut ((2 : ℝ) ^ k))) →
      (frequency2phase_fl fl sum (x.map (c * ·)) rate >>= D) =
        (frequency2phase_fl fl sum x rate >>= D).map (scaleOut ((2 : ℝ) ^ k)) := by
    intro D hD
    rcases F with ⟨e, h1, h2⟩ | ⟨a, _, h1, h2, rfl⟩
    · rw [h1, h2]; rfl
    · rw [h1, h2]; exact hD a
  exact ⟨key _ fun y => (adev_scale_float hfl hsum k hc log10grid y rate taus).1,
    key _ fun y => (adev_scale_float hfl hsum k hc log10grid y rate taus).2,
    key _ fun y => (hdev_scale_float hfl hsum k hc log10grid y rate taus).1,
    key _ fun y => (hdev_scale_float hfl hsum k hc log10grid y rate taus).2,
    key _ fun y => (mdev_scale_float hfl hsum k hc log10grid y rate taus).1,
    key _ fun y => (mdev_scale_float hfl hsum k hc log10grid y rate taus).2⟩

end

/-- summation from left to right is a summation in the sense of `FloatSum` and commutes with the scaling -/
theorem exists_sumScale (hfl : ∀ x, IsBinary64 x (fl x)) :
    ∃ sum : List ℝ → ℝ, (∀ l, FloatSum fl l (sum l)) ∧ SumScale sum := by
  have step : ∀ c : ℝ, (∀ x, fl (c * x) = c * fl x) → ∀ (l : List ℝ) (a : ℝ),
      (l.map (c * ·)).foldl (fun s v => fl (s + v)) (c * a) = c * l.foldl (fun s v => fl (s + v)) a := by
    intro c hc l
    induction l with
    | nil => intro a; rfl
    | cons v l ih =>
      intro a
      rw [List.map_cons, List.foldl_cons, List.foldl_cons, ← mul_add, hc, ih]
  have fs : ∀ (l l₀ : List ℝ) (a : ℝ), l₀ ≠ [] → FloatSum fl l₀ a →
      FloatSum fl (l₀ ++ l) (l.foldl (fun s v => fl (s + v)) a) := by
    intro l
    induction l with
    | nil => intro l₀ a _ h; rwa [List.append_nil]
    | cons v l ih =>
      intro l₀ a h0 h
      have h1 : FloatSum fl (l₀ ++ [v]) (fl (a + v)) :=
        FloatSum.add h0 (List.cons_ne_nil _ _) (List.Perm.refl _) h (FloatSum.single v)
      have := ih (l₀ ++ [v]) _ (by simp) h1
      rwa [List.append_assoc, List.singleton_append] at this
  refine ⟨fun l => match l with
    | [] => 0
    | v :: l => l.foldl (fun s v => fl (s + v)) v, fun l => ?_, fun k l => ?_⟩
  · cases l with
    | nil => exact FloatSum.nil
    | cons v l => exact fs l [v] v (List.cons_ne_nil _ _) (FloatSum.single v)
  · cases l with
    | nil => simp
    | cons v l =>
      have n := step (-1) (fun x => by rw [neg_one_mul, binary64_neg hfl, neg_one_mul]) l v
      simp only [neg_one_mul] at n
      exact ⟨step _ (binary64_scale hfl k) l v, n⟩

/-- Four samples with Allan deviation 1: multiplied by -8 they have Allan deviation exactly 8 in double precision. -/
example : ∃ (fl : ℝ → ℝ) (sum : List ℝ → ℝ), (∀ x, IsBinary64 x (fl x)) ∧ SumScale sum ∧
    ∃ err, oadev_fl fl sum [] ([0, 0, 2, 4].map (-8 * ·)) 1 (.list [((1 : ℕ) : ℝ) / 1]) =
      .ok ⟨[1], [8], .arr [err], [2]⟩ := by
  choose fl hfl using exists_isBinary64
  obtain ⟨sum, h1, h2⟩ := exists_sumScale hfl
  refine ⟨fl, sum, hfl, h2, ?_⟩
  obtain ⟨err, he⟩ := oadev_fl_pow hfl h1 0
  have e : ([0, 0, 2 ^ ((0 : ℤ) + 1), 2 ^ ((0 : ℤ) + 2)] : List ℝ) = [0, 0, 2, 4] := by norm_num
  rw [e] at he
  have h := (adev_scale_float hfl h2 3 (c := -8) (Or.inr (by norm_num)) [] [0, 0, 2, 4] 1
    (.list [((1 : ℕ) : ℝ) / 1])).2
  rw [h, he]
  refine ⟨2 ^ (3 : ℤ) * err, ?_⟩
  simp only [Except.map, scaleOut, List.map_cons, List.map_nil]
  norm_num

end AT
