import Verif.Props.FloatScale
import Verif.Model.FloatMoreFreq
import Verif.Model.FloatTot
import Verif.Props.FloatMore

/-!
# C122: scaling the data by a power of two in double precision, the other functions

Property: C121 for `totdev`, `pdev`, `theo1`, `tierms`, `mtie`, `gcodev`, `mtotdev`, `ttotdev` and `htotdev`.
-/

namespace AT

open Spec Real

variable {fl : ℝ → ℝ} {sum : List ℝ → ℝ} {c : ℝ}

theorem pyGet_rel {α β : Type} (f : α → β) (l : List α) (i : ℤ) :
    PyRel (fun a b => b = f a) (pyGet l i) (pyGet (l.map f) i) := by
  unfold pyGet
  simp only [List.length_map, List.getElem?_map]
  generalize (if i < 0 then i + (l.length : ℤ) else i) = j
  by_cases hj : j < 0
  · rw [if_pos hj, if_pos hj]; exact PyRel.error _
  · rw [if_neg hj, if_neg hj]
    cases l[j.toNat]? with
    | none => exact PyRel.error _
    | some v => exact PyRel.ok rfl

theorem setSlice_rel (f : ℝ → ℝ) (x y : List ℝ) (i j : ℤ) :
    PyRel (fun a b => b = a.map f) (setSlice x i j y) (setSlice (x.map f) i j (y.map f)) := by
  unfold setSlice
  simp only [List.length_map]
  generalize normIdx x.length i = lo
  generalize max lo (normIdx x.length j) = hi
  by_cases h : y.length = hi - lo
  · rw [if_pos h, if_pos h]
    exact PyRel.ok (by simp)
  · rw [if_neg h, if_neg h]
    match y with
    | [] => exact PyRel.error _
    | [v] => exact PyRel.ok (by simp)
    | _ :: _ :: _ => exact PyRel.error _

theorem forRange_rel {σ τ : Type} {R : σ → τ → Prop} (n : ℕ) {s : σ} {t : τ} (h : R s t) {F : σ → ℕ → Py σ}
    {G : τ → ℕ → Py τ} (H : ∀ s t i, R s t → PyRel R (F s i) (G t i)) :
    PyRel R (forRange n s F) (forRange n t G) := by
  unfold forRange
  generalize List.range n = l
  induction l generalizing s t with
  | nil => exact PyRel.ok h
  | cons i l ih =>
    rw [List.foldlM_cons, List.foldlM_cons]
    exact (H s t i h).bind fun s' t' h' => ih h'

theorem vop_flip {α β γ : Type} (f : α → β → γ) (a : List α) (b : List β) :
    vop f a b = vop (fun u v => f v u) b a := by
  unfold vop
  by_cases h : a.length = b.length
  · rw [if_pos h, if_pos h.symm, List.zipWith_comm]
  · rw [if_neg h, if_neg (fun h' => h h'.symm)]
    match a, b, h with
    | [], [], h => exact absurd rfl h
    | [x], [y], h => exact absurd rfl h
    | [x], [], _ => rfl
    | [x], _ :: _ :: _, _ => rfl
    | [], [y], _ => rfl
    | [], _ :: _ :: _, _ => rfl
    | _ :: _ :: _, [], _ => rfl
    | _ :: _ :: _, [y], _ => rfl
    | _ :: _ :: _, _ :: _ :: _, _ => rfl

namespace Scale

theorem divC (_S : Scale fl sum c) (x y : ℝ) : c * x / y = c * (x / y) := mul_div_assoc ..

theorem mulC (_S : Scale fl sum c) (x y : ℝ) : c * x * y = c * (x * y) := mul_assoc ..

theorem sq (_S : Scale fl sum c) (x y : ℝ) : c * x * (c * y) = c * c * (x * y) := mul_mul_mul_comm ..

theorem mul2 (_S : Scale fl sum c) (x y : ℝ) : x * (c * c * y) = c * c * (x * y) := mul_left_comm ..

theorem mul2' (_S : Scale fl sum c) (x y : ℝ) : c * c * x * y = c * c * (x * y) := mul_assoc ..

theorem mul1 (_S : Scale fl sum c) (x y : ℝ) : x * (c * y) = c * (x * y) := mul_left_comm ..

/-! ## totdev -/

theorem ones (S : Scale fl sum c) (v : ℝ) (n : ℤ) :
    PyRel (fun l l' => l' = l.map (c * ·)) (scaledOnes_fl fl v n) (scaledOnes_fl fl (c * v) n) := by
  unfold scaledOnes_fl
  split_ifs
  · exact PyRel.error _
  · refine PyRel.ok ?_
    rw [List.map_replicate, mul_assoc, S.one]

theorem extend (S : Scale fl sum c) (x : List ℝ) :
    PyRel (fun a b => b = (a.1.map (c * ·), a.2)) (totdev_extend_fl fl x) (totdev_extend_fl fl (x.map (c * ·))) := by
  unfold totdev_extend_fl
  simp only [List.length_map, slice_map', ← List.map_reverse]
  refine (pyGet_rel _ _ _).bind ?_
  rintro a _ rfl
  simp only [S.mul1, S.one]
  refine (S.ones _ _).bind ?_
  rintro x1 _ rfl
  refine (S.vsub _ _).bind ?_
  rintro x1 _ rfl
  simp only [← List.map_reverse]
  refine (pyGet_rel _ _ _).bind ?_
  rintro b _ rfl
  simp only [S.mul1, S.one]
  refine (S.ones _ _).bind ?_
  rintro x2 _ rfl
  refine (S.vsub _ _).bind ?_
  rintro x2 _ rfl
  simp only [List.length_map]
  refine (PyRel.same _).bind ?_
  rintro _ _ rfl
  refine PyRel.bind (R := fun l l' => l' = l.map (c * ·)) (y := scaledOnes 0 (3 * (x.length : ℤ) - 4)) ?_ ?_
  · unfold scaledOnes
    split_ifs
    · exact PyRel.error _
    · exact PyRel.ok (by simp)
  rintro z _ rfl
  refine (setSlice_rel _ _ _ _ _).bind ?_
  rintro z _ rfl
  refine (setSlice_rel _ _ _ _ _).bind ?_
  rintro z _ rfl
  simp only [List.length_map]
  refine (setSlice_rel _ _ _ _ _).bind ?_
  rintro z _ rfl
  exact PyRel.ok rfl

theorem totdev_body (S : Scale fl sum c) (x : List ℝ) (mid N : ℕ) (rate : ℝ) (m : ℕ) :
    PyRel (fun a b => b = scaleRow |c| a) (totdev_body_fl fl sum x mid N rate m)
      (totdev_body_fl fl sum (x.map (c * ·)) mid N rate m) := by
  unfold totdev_body_fl
  simp only [sliceFrom_map', List.length_map, sliceTo_map', S.vscale]
  refine (S.vsub _ _).bind ?_
  rintro a _ rfl
  refine (S.vadd _ _).bind ?_
  rintro v _ rfl
  simp only [sliceTo_map']
  refine (S.vmul _ _).bind ?_
  rintro sq _ rfl
  refine PyRel.ok ?_
  simp only [S.sum2, S.div2, S.fl2, S.root, S.abs, S.divA, scaleRow]

/-! ## pdev -/

theorem pySum (S : Scale fl sum c) (l : List ℝ) : pySum_fl fl (l.map (c * ·)) = c * pySum_fl fl l := by
  have : ∀ (l : List ℝ) (a : ℝ),
      (l.map (c * ·)).foldl (fun s v => fl (s + v)) (c * a) = c * l.foldl (fun s v => fl (s + v)) a := by
    intro l
    induction l with
    | nil => intro a; rfl
    | cons v l ih =>
      intro a
      rw [List.map_cons, List.foldl_cons, List.foldl_cons, ← mul_add, S.one, ih]
  have h := this l 0
  rwa [mul_zero] at h

theorem calc_pdev (S : Scale fl sum c) (x : List ℝ) (rate : ℝ) (m : ℕ) :
    PyRel (fun a b => b = scaleRow |c| a) (calc_pdev_phase_fl fl sum x rate m)
      (calc_pdev_phase_fl fl sum (x.map (c * ·)) rate m) := by
  unfold calc_pdev_phase_fl
  by_cases hm : m = 1
  · simp only [if_pos hm]
    refine (sliceStep_rel _ _ _ _).bind ?_
    rintro d2 _ rfl
    refine (sliceStep_rel _ _ _ _).bind ?_
    rintro d1 _ rfl
    refine (sliceStep_rel _ _ _ _).bind ?_
    rintro d0 _ rfl
    simp only [List.length_map, sliceTo_map', S.vscale]
    generalize (if min (min d0.length d1.length) d2.length = 0 then 1
      else min (min d0.length d1.length) d2.length) = n
    refine (S.vsub _ _).bind ?_
    rintro a _ rfl
    refine (S.vadd _ _).bind ?_
    rintro v _ rfl
    refine (S.vmul _ _).bind ?_
    rintro sq _ rfl
    refine PyRel.ok ?_
    simp only [S.sum2, S.div2, S.fl2, S.root, S.abs, S.divA, S.mulA, scaleRow]
  · simp only [if_neg hm, List.length_map]
    by_cases hM : (x.length : ℤ) - 2 * m < 1
    · simp only [if_pos hM]
      exact PyRel.ok (by simp [scaleRow])
    · simp only [if_neg hM]
      refine (forRange_rel (R := fun s t : ℝ => t = c * c * s) _ (by simp) ?_).bind ?_
      · rintro s _ i rfl
        simp only [slice_map']
        refine (S.vsub _ _).bind ?_
        rintro dx _ rfl
        have h := vop_rel (f := fun u v => fl (u * v)) (g := id) (h := (c * ·)) (k := (c * ·))
          (fun u v => by simp only [id]; rw [mul_left_comm, S.one])
          ((npLinspace_fl fl ((m : ℝ) - 1) m).map fun k => fl (fl (fl ((m : ℝ) - 1) / 2) - k)) dx
        rw [List.map_id] at h
        refine h.bind ?_
        rintro p _ rfl
        refine PyRel.ok ?_
        simp only [S.pySum, S.sq, S.fl2, ← mul_add]
      · rintro s _ rfl
        refine PyRel.ok ?_
        simp only [S.mul2, S.fl2, S.div2, S.root, S.abs, S.divA, scaleRow]

/-! ## theo1 -/

theorem theo1_body (S : Scale fl sum c) (x : List ℝ) (tau0 : ℝ) (m : ℕ) :
    PyRel (fun a b => b = scaleRow |c| a) (theo1_body_fl fl x tau0 m) (theo1_body_fl fl (x.map (c * ·)) tau0 m) := by
  unfold theo1_body_fl
  simp only [List.length_map]
  refine (PyRel.same _).bind ?_
  rintro _ _ rfl
  refine (forRange_rel (R := fun s t : ℝ × ℕ => t = (c * c * s.1, s.2)) _ (by simp) ?_).bind ?_
  · rintro ⟨s, n⟩ _ i rfl
    refine (forRange_rel (R := fun s t : ℝ × ℕ => t = (c * c * s.1, s.2)) _ (by simp) ?_).bind ?_
    · rintro ⟨s', n'⟩ _ d rfl
      refine (pyGet_rel _ _ _).bind ?_
      rintro a _ rfl
      refine (pyGet_rel _ _ _).bind ?_
      rintro b _ rfl
      refine (pyGet_rel _ _ _).bind ?_
      rintro e _ rfl
      refine (pyGet_rel _ _ _).bind ?_
      rintro g _ rfl
      refine PyRel.ok ?_
      simp only [← mul_sub, S.one]
      simp only [← mul_add, S.one]
      simp only [← mul_sub, S.one, S.sq, S.fl2, S.mul2]
      rw [← mul_add, S.fl2]
    · rintro ⟨s', n'⟩ _ rfl
      refine PyRel.ok ?_
      simp only [← mul_add, S.fl2]
  · rintro ⟨s, n⟩ _ rfl
    refine (PyRel.same _).bind ?_
    rintro _ _ rfl
    refine PyRel.ok ?_
    simp only [S.div2, S.fl2, S.root, S.abs, S.divA, scaleRow]

/-! ## tierms and mtie -/

theorem tierms_body (S : Scale fl sum c) (z : fl 0 = 0) (x : List ℝ) (m : ℕ) :
    PyRel (fun a b => b = scaleRow |c| a) (tierms_body_fl fl sum x m) (tierms_body_fl fl sum (x.map (c * ·)) m) := by
  unfold tierms_body_fl
  simp only [List.length_map, sliceTo_map', sliceFrom_map']
  refine PyRel.bind (R := fun l l' => l' = l.map (Prod.map (c * ·) (c * ·))) ?_ ?_
  · unfold column_stack
    rw [List.length_map, List.length_map]
    split_ifs
    · exact PyRel.ok (by rw [List.zip_map])
    · exact PyRel.error _
  rintro ps _ rfl
  have h : PyRel (fun l l' => l' = l.map (|c| * ·))
      (vsub_fl fl (ps.map fun p => max p.1 p.2) (ps.map fun p => min p.1 p.2))
      (vsub_fl fl ((ps.map (Prod.map (c * ·) (c * ·))).map fun p => max p.1 p.2)
        ((ps.map (Prod.map (c * ·) (c * ·))).map fun p => min p.1 p.2)) := by
    unfold vsub_fl vop
    simp only [List.length_map, if_true]
    refine PyRel.ok ?_
    simp only [List.zipWith_map, List.zipWith_self, List.map_map]
    apply List.map_congr_left
    rintro ⟨u, v⟩ _
    simp only [Function.comp, Prod.map]
    rw [← S.abs, max_sub_min_eq_abs, max_sub_min_eq_abs, ← mul_sub, abs_mul]
  refine h.bind ?_
  rintro d _ rfl
  have h2 := vop_rel (f := fun u v => fl (u * v)) (g := (|c| * ·)) (h := (|c| * ·)) (k := (c * c * ·))
    (fun u v => by rw [mul_mul_mul_comm, abs_mul_abs_self]; exact S.fl2 _) d d
  refine PyRel.bind h2 ?_
  rintro sq _ rfl
  refine PyRel.ok ?_
  simp only [S.sum2, List.length_map, S.div2, S.fl2, S.root, S.abs, zero_div, z, mul_zero, scaleRow]

theorem fold_scale (a : ℝ) (g h : ℝ → ℝ → ℝ) (H : ∀ u v, g (a * u) (a * v) = a * h u v) (l : List ℝ) :
    ∀ x, (l.map (a * ·)).foldl g (a * x) = a * l.foldl h x := by
  induction l with
  | nil => intro x; rfl
  | cons v l ih =>
    intro x
    rw [List.map_cons, List.foldl_cons, List.foldl_cons, H, ih]

theorem npMax_pos {a : ℝ} (ha : 0 ≤ a) (l : List ℝ) :
    PyRel (fun u v => v = a * u) (npMax l) (npMax (l.map (a * ·))) := by
  cases l with
  | nil => exact PyRel.error _
  | cons x l => exact PyRel.ok (fold_scale a max max (fun u v => (mul_max_of_nonneg u v ha).symm) l x)

theorem npMin_pos {a : ℝ} (ha : 0 ≤ a) (l : List ℝ) :
    PyRel (fun u v => v = a * u) (npMin l) (npMin (l.map (a * ·))) := by
  cases l with
  | nil => exact PyRel.error _
  | cons x l => exact PyRel.ok (fold_scale a min min (fun u v => (mul_min_of_nonneg u v ha).symm) l x)

theorem npMax_neg {a : ℝ} (ha : a ≤ 0) (l : List ℝ) :
    PyRel (fun u v => v = a * u) (npMin l) (npMax (l.map (a * ·))) := by
  cases l with
  | nil => exact PyRel.error _
  | cons x l => exact PyRel.ok (fold_scale a max min (fun _ _ => (antitone_mul_left ha).map_min.symm) l x)

theorem npMin_neg {a : ℝ} (ha : a ≤ 0) (l : List ℝ) :
    PyRel (fun u v => v = a * u) (npMax l) (npMin (l.map (a * ·))) := by
  cases l with
  | nil => exact PyRel.error _
  | cons x l => exact PyRel.ok (fold_scale a min max (fun _ _ => (antitone_mul_left ha).map_max.symm) l x)

theorem rows_rel {α β : Type} (φ : α → α) (f : β → β) (F G : α → Py β)
    (H : ∀ a, PyRel (fun u v => v = f u) (F a) (G (φ a))) (l : List α) :
    PyRel (fun u v => v = u.map f) (l.mapM F) ((l.map φ).mapM G) := by
  induction l with
  | nil => exact PyRel.ok rfl
  | cons a l ih =>
    rw [List.map_cons, List.mapM_cons, List.mapM_cons]
    refine (H a).bind ?_
    rintro b _ rfl
    refine ih.bind ?_
    rintro t _ rfl
    exact PyRel.ok rfl

theorem max_min_rows (l : List (List ℝ)) :
    (l.mapM npMax = .error .valueError ∧ l.mapM npMin = .error .valueError) ∨
    ∃ a b, l.mapM npMax = .ok a ∧ l.mapM npMin = .ok b := by
  induction l with
  | nil => exact Or.inr ⟨[], [], rfl, rfl⟩
  | cons r l ih =>
    rw [List.mapM_cons, List.mapM_cons]
    cases r with
    | nil => exact Or.inl ⟨rfl, rfl⟩
    | cons x r =>
      rcases ih with ⟨h1, h2⟩ | ⟨a, b, h1, h2⟩
      · rw [h1, h2]; exact Or.inl ⟨rfl, rfl⟩
      · rw [h1, h2]; exact Or.inr ⟨_, _, rfl, rfl⟩

theorem tie_rel (S : Scale fl sum c) (l : List (List ℝ)) :
    PyRel (fun u v => v = u.map (|c| * ·))
      (do let a ← l.mapM npMax; let b ← l.mapM npMin; vsub_fl fl a b)
      (do let a ← (l.map (List.map (c * ·))).mapM npMax
          let b ← (l.map (List.map (c * ·))).mapM npMin
          vsub_fl fl a b) := by
  rcases le_total 0 c with h | h
  · refine (rows_rel _ _ _ _ (npMax_pos h) l).bind ?_
    rintro a _ rfl
    refine (rows_rel _ _ _ _ (npMin_pos h) l).bind ?_
    rintro b _ rfl
    rw [abs_of_nonneg h]
    exact S.vsub a b
  · have h1 := rows_rel _ _ _ _ (npMax_neg h) l
    have h2 := rows_rel _ _ _ _ (npMin_neg h) l
    rcases max_min_rows l with ⟨e1, e2⟩ | ⟨a, b, e1, e2⟩
    · rw [e2] at h1
      rcases h1 with ⟨e, h1, h1'⟩ | ⟨_, _, h1, _⟩
      · cases h1
        rw [h1', e1]
        exact PyRel.error _
      · cases h1
    · rw [e2] at h1
      rw [e1] at h2
      rcases h1 with ⟨_, h1, _⟩ | ⟨_, _, h1, h1', rfl⟩
      · cases h1
      rcases h2 with ⟨_, h2, _⟩ | ⟨_, _, h2, h2', rfl⟩
      · cases h2
      cases h1
      cases h2
      rw [h1', h2', e1, e2]
      simp only [ok_bind]
      unfold vsub_fl
      rw [vop_flip _ a b]
      refine vop_rel' (fun u v => ?_) b a
      rw [← S.abs, abs_of_nonpos h]
      congr 1
      ring
where
  vop_rel' {f f' : ℝ → ℝ → ℝ} {g k : ℝ → ℝ} (H : ∀ u v, f' (g u) (g v) = k (f u v)) (a b : List ℝ) :
      PyRel (fun l l' => l' = l.map k) (vop f a b) (vop f' (a.map g) (b.map g)) := by
    have e : vop f' (a.map g) (b.map g) = vop (fun u v => k (f u v)) a b := by
      unfold vop
      rw [List.length_map, List.length_map, List.zipWith_map]
      simp only [H]
      match a, b with
      | [], [] => rfl
      | [], [y] => rfl
      | [], y :: y' :: b => rfl
      | [x], [] => rfl
      | [x], [y] => simp
      | [x], y :: y' :: b => simp [H]
      | x :: x' :: a, [] => rfl
      | x :: x' :: a, [y] => simp [H]
      | x :: x' :: a, y :: y' :: b => rfl
    have h := vop_map_out k f a b
    rw [e, h]
    cases vop f a b with
    | error e => exact PyRel.error e
    | ok l => exact PyRel.ok rfl
  vop_map_out (k : ℝ → ℝ) (f : ℝ → ℝ → ℝ) (a b : List ℝ) :
      vop (fun u v => k (f u v)) a b = (vop f a b).map (List.map k) := by
    unfold vop
    by_cases hl : a.length = b.length
    · rw [if_pos hl, if_pos hl, ← List.map_zipWith]; rfl
    · rw [if_neg hl, if_neg hl]
      match a, b, hl with
      | [], [], hl => exact absurd rfl hl
      | [x], [y], hl => exact absurd rfl hl
      | [x], [], _ => rfl
      | [x], y :: y' :: b, _ => simp [Except.map]
      | [], [y], _ => rfl
      | [], _ :: _ :: _, _ => rfl
      | _ :: _ :: _, [], _ => rfl
      | x :: x' :: a, [y], _ => simp [Except.map]
      | _ :: _ :: _, _ :: _ :: _, _ => rfl

theorem mtie_body (S : Scale fl sum c) (x : List ℝ) (m : ℕ) :
    PyRel (fun a b => b = scaleRow |c| a) (mtie_body_fl fl x m) (mtie_body_fl fl (x.map (c * ·)) m) := by
  have assoc : ∀ x : List ℝ, mtie_body_fl fl x m =
      (mtie_rolling_window x ((m : ℤ) + 1) >>= fun rw =>
        (do let a ← rw.mapM npMax; let b ← rw.mapM npMin; vsub_fl fl a b) >>= fun tie =>
        npMax tie >>= fun dev => .ok (dev, fl (dev / fl √((x.length : ℤ) - m : ℤ)), (x.length : ℤ) - m)) := by
    intro x
    unfold mtie_body_fl
    simp only [bind_assoc]
  rw [assoc, assoc]
  refine PyRel.bind (R := fun l l' => l' = l.map (List.map (c * ·))) ?_ ?_
  · unfold mtie_rolling_window
    rw [List.length_map]
    split_ifs
    · exact PyRel.error _
    · exact PyRel.error _
    · refine PyRel.ok ?_
      unfold tab
      rw [List.map_map]
      simp only [Function.comp_def, slice_map']
  rintro rows _ rfl
  refine (S.tie_rel rows).bind ?_
  rintro tie _ rfl
  refine (npMax_pos (abs_nonneg c) tie).bind ?_
  rintro d _ rfl
  refine PyRel.ok ?_
  simp only [List.length_map, S.divA, S.abs, scaleRow]

/-! ## gcodev -/

theorem calc_gcodev (S : Scale fl sum c) (h0 : c ≠ 0) (x y : List ℝ) (rate : ℝ) (m s : ℕ) :
    PyRel (fun a b => b = scaleRow |c| a) (calc_gcodev_phase_fl fl sum x y rate m s)
      (calc_gcodev_phase_fl fl sum (x.map (c * ·)) (y.map (c * ·)) rate m s) := by
  have hp : 0 < c * c := mul_self_pos.2 h0
  unfold calc_gcodev_phase_fl
  refine (sliceStep_rel _ _ _ _).bind ?_
  rintro d2 _ rfl
  refine (sliceStep_rel _ _ _ _).bind ?_
  rintro d1 _ rfl
  refine (sliceStep_rel _ _ _ _).bind ?_
  rintro d0 _ rfl
  refine (sliceStep_rel _ _ _ _).bind ?_
  rintro e2 _ rfl
  refine (sliceStep_rel _ _ _ _).bind ?_
  rintro e1 _ rfl
  refine (sliceStep_rel _ _ _ _).bind ?_
  rintro e0 _ rfl
  simp only [List.length_map, sliceTo_map', S.vscale]
  refine (S.vsub _ _).bind ?_
  rintro a _ rfl
  refine (S.vadd _ _).bind ?_
  rintro v _ rfl
  refine (S.vsub _ _).bind ?_
  rintro a _ rfl
  refine (S.vadd _ _).bind ?_
  rintro w _ rfl
  refine (S.vmul _ _).bind ?_
  rintro p _ rfl
  refine PyRel.ok ?_
  have e : ∀ t : ℝ, (0 ≤ c * c * t) = (0 ≤ t) := fun t => propext (mul_nonneg_iff_of_pos_left hp)
  simp only [S.sum2, e, abs_mul, abs_mul_abs_self, S.div2, S.fl2, S.root, S.abs, S.divA, S.mulA, scaleRow]
  split_ifs <;> simp only [S.divA, S.abs]

/-! ## mtotdev and htotdev -/

theorem slope (S : Scale fl sum c) (scale : ℝ → ℝ) (x : List ℝ) (m : ℕ) :
    tot_slope_fl fl sum scale (x.map (c * ·)) m = c * tot_slope_fl fl sum scale x m := by
  unfold tot_slope_fl
  simp only [sliceTo_map', sliceFrom_map', List.length_map, S.sum1, S.divC, S.one, ← mul_sub]
  split_ifs <;> rfl

theorem inner (S : Scale fl sum c) (x : List ℝ) (m : ℕ) :
    PyRel (fun a b => b = c * c * a) (tot_inner_fl fl sum x m) (tot_inner_fl fl sum (x.map (c * ·)) m) := by
  unfold tot_inner_fl
  refine (forRange_rel (R := fun s t : ℝ × ℝ × ℝ × ℝ => t = (c * s.1, c * s.2.1, c * s.2.2.1, c * c * s.2.2.2)) _
    (by simp) ?_).bind ?_
  · rintro ⟨s1, s2, s3, s4⟩ _ j rfl
    have fin : ∀ u v w : ℝ, fl (fl (fl (c * u - fl (2 * (c * v))) + c * w) / m) =
        c * fl (fl (fl (u - fl (2 * v)) + w) / m) := by
      intro u v w
      rw [S.mul1, S.one, ← mul_sub, S.one, ← mul_add, S.one, S.divC, S.one]
    have upd : ∀ u v w : ℝ, fl (fl (c * u - c * v) + c * w) = c * fl (fl (u - v) + w) := by
      intro u v w
      rw [← mul_sub, S.one, ← mul_add, S.one]
    have last : ∀ u v w : ℝ, PyRel (fun s t : ℝ × ℝ × ℝ × ℝ => t = (c * s.1, c * s.2.1, c * s.2.2.1, c * c * s.2.2.2))
        (.ok (u, v, w, fl (s4 + fl (fl (fl (fl (u - fl (2 * v)) + w) / m) * fl (fl (fl (u - fl (2 * v)) + w) / m)))))
        (.ok (c * u, c * v, c * w, fl (c * c * s4 + fl (fl (fl (fl (c * u - fl (2 * (c * v))) + c * w) / m) *
          fl (fl (fl (c * u - fl (2 * (c * v))) + c * w) / m))))) := by
      intro u v w
      refine PyRel.ok ?_
      rw [fin, S.sq, S.fl2, ← mul_add, S.fl2]
    by_cases hj : j = 0
    · simp only [if_pos hj, ok_bind, slice_map', S.sum1]
      exact last _ _ _
    · simp only [if_neg hj, ok_bind]
      refine (pyGet_rel _ _ _).bind ?_
      rintro a1 _ rfl
      refine (pyGet_rel _ _ _).bind ?_
      rintro b1 _ rfl
      refine (pyGet_rel _ _ _).bind ?_
      rintro a2 _ rfl
      refine (pyGet_rel _ _ _).bind ?_
      rintro b2 _ rfl
      refine (pyGet_rel _ _ _).bind ?_
      rintro a3 _ rfl
      refine (pyGet_rel _ _ _).bind ?_
      rintro b3 _ rfl
      simp only [upd]
      exact last _ _ _
  · rintro r _ rfl
    exact PyRel.ok rfl

theorem calc_mtotdev (S : Scale fl sum c) (x : List ℝ) (rate : ℝ) (m : ℕ) :
    PyRel (fun a b => b = scaleRow |c| a) (calc_mtotdev_phase_fl fl sum x rate m)
      (calc_mtotdev_phase_fl fl sum (x.map (c * ·)) rate m) := by
  unfold calc_mtotdev_phase_fl
  simp only [List.length_map]
  refine (forRange_rel (R := fun s t : ℝ × ℕ => t = (c * c * s.1, s.2)) _ (by simp) ?_).bind ?_
  · rintro ⟨s, n⟩ _ i rfl
    simp only [slice_map', List.length_map, S.slope]
    refine (PyRel.same _).bind ?_
    rintro _ _ rfl
    generalize slice x (i : ℕ) (i + 3 * m : ℕ) = xs
    generalize tot_slope_fl fl sum (fun d => fl (d * fl (1 / rate))) xs m = sl
    have e : ((xs.map (c * ·)).zipIdx.map fun p => fl (p.1 - fl (fl (c * sl * p.2) * fl (1 / rate)))) =
        (xs.zipIdx.map fun p => fl (p.1 - fl (fl (sl * p.2) * fl (1 / rate)))).map (c * ·) := by
      rw [List.zipIdx_map, List.map_map, List.map_map]
      apply List.map_congr_left
      rintro ⟨v, k⟩ _
      simp only [Function.comp, Prod.map, id]
      rw [S.mulC, S.one, S.mulC, S.one, ← mul_sub, S.one]
    rw [e]
    generalize (xs.zipIdx.map fun p => fl (p.1 - fl (fl (sl * p.2) * fl (1 / rate)))) = x0
    simp only [← List.map_reverse, ← List.map_append, List.length_map]
    refine (PyRel.same _).bind ?_
    rintro _ _ rfl
    refine (S.inner _ _).bind ?_
    rintro q _ rfl
    refine PyRel.ok ?_
    simp only [S.mul2, S.fl2, ← mul_add]
  · rintro ⟨s, n⟩ _ rfl
    refine (PyRel.same _).bind ?_
    rintro _ _ rfl
    refine PyRel.ok ?_
    simp only [S.mul2', S.fl2, S.div2, S.root, S.abs, S.divA, scaleRow]

theorem calc_htotdev (S : Scale fl sum c) (x : List ℝ) (m : ℕ) :
    PyRel (fun a b => b = scaleRow |c| a) (calc_htotdev_freq_fl fl sum x m)
      (calc_htotdev_freq_fl fl sum (x.map (c * ·)) m) := by
  unfold calc_htotdev_freq_fl
  simp only [List.length_map]
  refine (forRange_rel (R := fun s t : ℝ × ℕ => t = (c * c * s.1, s.2)) _ (by simp) ?_).bind ?_
  · rintro ⟨s, n⟩ _ i rfl
    simp only [slice_map', List.length_map, S.slope]
    refine (PyRel.same _).bind ?_
    rintro _ _ rfl
    generalize slice x (i : ℕ) (i + 3 * m : ℕ) = xs
    generalize tot_slope_fl fl sum (fun d => d) xs m = sl
    have e : ((xs.map (c * ·)).zipIdx.map fun p => fl (p.1 - fl (c * sl * fl ((p.2 : ℝ) - ⌊(3 * m / 2 : ℝ)⌋)))) =
        (xs.zipIdx.map fun p => fl (p.1 - fl (sl * fl ((p.2 : ℝ) - ⌊(3 * m / 2 : ℝ)⌋)))).map (c * ·) := by
      rw [List.zipIdx_map, List.map_map, List.map_map]
      apply List.map_congr_left
      rintro ⟨v, k⟩ _
      simp only [Function.comp, Prod.map, id]
      rw [S.mulC, S.one, ← mul_sub, S.one]
    rw [e]
    generalize (xs.zipIdx.map fun p => fl (p.1 - fl (sl * fl ((p.2 : ℝ) - ⌊(3 * m / 2 : ℝ)⌋)))) = x0
    simp only [← List.map_reverse, ← List.map_append, List.length_map]
    refine (PyRel.same _).bind ?_
    rintro _ _ rfl
    refine (S.inner _ _).bind ?_
    rintro q _ rfl
    refine PyRel.ok ?_
    simp only [S.mul2, S.fl2, ← mul_add]
  · rintro ⟨s, n⟩ _ rfl
    refine (PyRel.same _).bind ?_
    rintro _ _ rfl
    refine PyRel.ok ?_
    simp only [S.mul2', S.fl2, S.div2, S.root, S.abs, S.divA, scaleRow]

theorem toFreq (S : Scale fl sum c) (x : List ℝ) (rate : ℝ) :
    phase2frequency_fl fl (x.map (c * ·)) rate = (phase2frequency_fl fl x rate).map (c * ·) := by
  have g : ∀ i, (x.map (c * ·)).getD i 0 = c * x.getD i 0 := by
    intro i
    have := List.getD_map (l := x) (n := i) (d := (0 : ℝ)) (c * ·)
    simpa using this
  unfold phase2frequency_fl
  rw [← S.vscale, List.length_map]
  congr 1
  unfold tab
  rw [List.map_map]
  apply List.map_congr_left
  intro i _
  simp only [Function.comp, g]
  rw [← mul_sub, S.one]

end Scale

section

variable (hfl : ∀ x, IsBinary64 x (fl x)) (hsum : SumScale sum) (k : ℤ)
  (hc : c = (2 : ℝ) ^ k ∨ c = -(2 : ℝ) ^ k) (log10grid x : List ℝ) (rate : ℝ) (taus : TausArg)

include hfl hsum hc

/-- `totdev` -/
theorem totdev_scale_float :
    totdev_fl fl sum log10grid (x.map (c * ·)) rate taus =
      (totdev_fl fl sum log10grid x rate taus).map (scaleOut ((2 : ℝ) ^ k)) := by
  have S := scale_of hfl hsum hc
  rw [← abs_scale hc]
  refine PyRel.map_eq ((tau_generator_rel _ _ _ _ _ _ _).bind ?_)
  rintro ⟨y, ms, ts⟩ _ rfl
  refine (S.extend y).bind ?_
  rintro ⟨z, mid⟩ _ rfl
  refine runTaus_rel _ _ _ _ _ (fun _ m => ?_)
  simp only [List.length_map]
  exact S.totdev_body _ _ _ _ _

/-- `pdev` -/
theorem pdev_scale_float :
    pdev_fl fl sum log10grid (x.map (c * ·)) rate taus =
      (pdev_fl fl sum log10grid x rate taus).map (scaleOut ((2 : ℝ) ^ k)) := by
  have S := scale_of hfl hsum hc
  rw [← abs_scale hc]
  refine PyRel.map_eq ((tau_generator_rel _ _ _ _ _ _ _).bind ?_)
  rintro ⟨y, ms, ts⟩ _ rfl
  exact runTaus_rel _ _ _ _ _ (fun _ _ => S.calc_pdev _ _ _)

omit hsum in
/-- `theo1` -/
theorem theo1_scale_float :
    theo1_fl fl log10grid (x.map (c * ·)) rate taus =
      (theo1_fl fl log10grid x rate taus).map (scaleOut ((2 : ℝ) ^ k)) := by
  obtain ⟨_, _, hsum⟩ := exists_sumScale hfl
  have S := scale_of hfl hsum hc
  rw [← abs_scale hc]
  unfold theo1_fl
  by_cases hr : rate = 0
  · rw [if_pos hr, if_pos hr]; rfl
  rw [if_neg hr, if_neg hr]
  refine PyRel.map_eq ((tau_generator_rel _ _ _ _ _ _ _).bind ?_)
  rintro ⟨y, ms, ts⟩ _ rfl
  exact runTaus_rel _ _ _ _ _ (fun _ _ => S.theo1_body _ _ _)

/-- `tierms` -/
theorem tierms_scale_float :
    tierms_fl fl sum log10grid (x.map (c * ·)) rate taus =
      (tierms_fl fl sum log10grid x rate taus).map (scaleOut ((2 : ℝ) ^ k)) := by
  have S := scale_of hfl hsum hc
  have z : fl 0 = 0 := by simpa using isBinary64_rel (hfl 0)
  rw [← abs_scale hc]
  refine PyRel.map_eq ((tau_generator_rel _ _ _ _ _ _ _).bind ?_)
  rintro ⟨y, ms, ts⟩ _ rfl
  exact runTaus_rel _ _ _ _ _ (fun _ _ => S.tierms_body z _ _)

omit hsum in
/-- `mtie` -/
theorem mtie_scale_float :
    mtie_fl fl log10grid (x.map (c * ·)) rate taus =
      (mtie_fl fl log10grid x rate taus).map (scaleOut ((2 : ℝ) ^ k)) := by
  obtain ⟨_, _, hsum⟩ := exists_sumScale hfl
  have S := scale_of hfl hsum hc
  rw [← abs_scale hc]
  refine PyRel.map_eq ((tau_generator_rel _ _ _ _ _ _ _).bind ?_)
  rintro ⟨y, ms, ts⟩ _ rfl
  exact runTaus_rel _ _ _ _ _ (fun _ _ => S.mtie_body _ _)

/-- `gcodev`, both data sets multiplied by the same number -/
theorem gcodev_scale_float (y : List ℝ) :
    gcodev_fl fl sum log10grid (x.map (c * ·)) (y.map (c * ·)) rate taus =
      (gcodev_fl fl sum log10grid x y rate taus).map (scaleOut ((2 : ℝ) ^ k)) := by
  have S := scale_of hfl hsum hc
  have h0 : c ≠ 0 := by
    intro h
    have := abs_scale hc
    rw [h, abs_zero] at this
    exact absurd this.symm (by positivity)
  rw [← abs_scale hc]
  refine PyRel.map_eq ((tau_generator_rel _ _ _ _ _ _ _).bind ?_)
  rintro ⟨x', ms', ts'⟩ _ rfl
  refine (tau_generator_rel _ _ _ _ _ _ _).bind ?_
  rintro ⟨y', ms, ts⟩ _ rfl
  exact runTaus_rel _ _ _ _ _ (fun _ _ => S.calc_gcodev h0 _ _ _ _ _)

/-- `mtotdev` and `ttotdev` -/
theorem mtotdev_scale_float :
    mtotdev_fl fl sum log10grid (x.map (c * ·)) rate taus =
      (mtotdev_fl fl sum log10grid x rate taus).map (scaleOut ((2 : ℝ) ^ k)) ∧
    ttotdev_fl fl sum log10grid (x.map (c * ·)) rate taus =
      (ttotdev_fl fl sum log10grid x rate taus).map (scaleOut ((2 : ℝ) ^ k)) := by
  have S := scale_of hfl hsum hc
  rw [← abs_scale hc]
  have M : PyRel (fun r r' => r' = scaleOut |c| r) (mtotdev_fl fl sum log10grid x rate taus)
      (mtotdev_fl fl sum log10grid (x.map (c * ·)) rate taus) := by
    unfold mtotdev_fl
    rw [List.length_map]
    refine (tau_generator_rel _ _ _ _ _ _ _).bind ?_
    rintro ⟨y, ms, ts⟩ _ rfl
    exact runTaus_rel _ _ _ _ _ (fun _ _ => S.calc_mtotdev _ _ _)
  refine ⟨M.map_eq, PyRel.map_eq (M.bind ?_)⟩
  rintro r _ rfl
  exact S.tdev_tail r

/-- `htotdev`, for phase and for frequency data -/
theorem htotdev_scale_float :
    htotdev_fl fl sum log10grid (x.map (c * ·)) rate taus =
      (htotdev_fl fl sum log10grid x rate taus).map (scaleOut ((2 : ℝ) ^ k)) ∧
    htotdev_freq_fl fl sum log10grid (x.map (c * ·)) rate taus =
      (htotdev_freq_fl fl sum log10grid x rate taus).map (scaleOut ((2 : ℝ) ^ k)) := by
  have S := scale_of hfl hsum hc
  rw [← abs_scale hc]
  have body : ∀ (p f : List ℝ) (i m : ℕ), PyRel (fun r r' => r' = scaleRow |c| r)
      (if m = 1 then calc_hdev_phase_fl fl sum p rate m 1 else calc_htotdev_freq_fl fl sum f m)
      (if m = 1 then calc_hdev_phase_fl fl sum (p.map (c * ·)) rate m 1
        else calc_htotdev_freq_fl fl sum (f.map (c * ·)) m) := by
    intro p f i m
    split_ifs
    · exact S.calc_hdev _ _ _ _
    · exact S.calc_htotdev _ _
  constructor
  · refine PyRel.map_eq ?_
    unfold htotdev_fl
    simp only [S.toFreq, List.length_map]
    refine (tau_generator_rel _ _ _ _ _ _ _).bind ?_
    rintro ⟨y, ms, ts⟩ _ rfl
    exact runTaus_rel _ _ _ _ _ (body x y)
  · refine PyRel.map_eq ((S.freq x rate).bind ?_)
    rintro p _ rfl
    rw [List.length_map]
    refine (tau_generator_rel _ _ _ _ _ _ _).bind ?_
    rintro ⟨y, ms, ts⟩ _ rfl
    exact runTaus_rel _ _ _ _ _ (body p y)

/-- the other functions for frequency data -/
theorem freq_scale_float_more (y : List ℝ) :
    totdev_freq_fl fl sum log10grid (x.map (c * ·)) rate taus =
      (totdev_freq_fl fl sum log10grid x rate taus).map (scaleOut ((2 : ℝ) ^ k)) ∧
    pdev_freq_fl fl sum log10grid (x.map (c * ·)) rate taus =
      (pdev_freq_fl fl sum log10grid x rate taus).map (scaleOut ((2 : ℝ) ^ k)) ∧
    theo1_freq_fl fl sum log10grid (x.map (c * ·)) rate taus =
      (theo1_freq_fl fl sum log10grid x rate taus).map (scaleOut ((2 : ℝ) ^ k)) ∧
    tierms_freq_fl fl sum log10grid (x.map (c * ·)) rate taus =
      (tierms_freq_fl fl sum log10grid x rate taus).map (scaleOut ((2 : ℝ) ^ k)) ∧
    mtie_freq_fl fl sum log10grid (x.map (c * ·)) rate taus =
      (mtie_freq_fl fl sum log10grid x rate taus).map (scaleOut ((2 : ℝ) ^ k)) ∧
    mtotdev_freq_fl fl sum log10grid (x.map (c * ·)) rate taus =
      (mtotdev_freq_fl fl sum log10grid x rate taus).map (scaleOut ((2 : ℝ) ^ k)) ∧
    ttotdev_freq_fl fl sum log10grid (x.map (c * ·)) rate taus =
      (ttotdev_freq_fl fl sum log10grid x rate taus).map (scaleOut ((2 : ℝ) ^ k)) ∧
    gcodev_freq_fl fl sum log10grid (x.map (c * ·)) (y.map (c * ·)) rate taus =
      (gcodev_freq_fl fl sum log10grid x y rate taus).map (scaleOut ((2 : ℝ) ^ k)) := by
  have S := scale_of hfl hsum hc
  have F := S.freq x rate
  have key : ∀ D : List ℝ → Py (DevOut ℝ),
      (∀ y : List ℝ, D (y.map (c * ·)) = (D y).map (scaleOut ((2 : ℝ) ^ k))) →
      (frequency2phase_fl fl sum (x.map (c * ·)) rate >>= D) =
        (frequency2phase_fl fl sum x rate >>= D).map (scaleOut ((2 : ℝ) ^ k)) := by
    intro D hD
    rcases F with ⟨e, h1, h2⟩ | ⟨a, _, h1, h2, rfl⟩
    · rw [h1, h2]; rfl
    · rw [h1, h2]; exact hD a
  have M := key (fun p => mtotdev_fl fl sum log10grid p rate taus) fun y => (mtotdev_scale_float hfl hsum k hc log10grid y rate taus).1
  refine ⟨key _ fun y => totdev_scale_float hfl hsum k hc log10grid y rate taus,
    key _ fun y => pdev_scale_float hfl hsum k hc log10grid y rate taus,
    key _ fun y => theo1_scale_float hfl k hc log10grid y rate taus,
    key _ fun y => tierms_scale_float hfl hsum k hc log10grid y rate taus,
    key _ fun y => mtie_scale_float hfl k hc log10grid y rate taus, M, ?_, ?_⟩
  · have M' : mtotdev_freq_fl fl sum log10grid (x.map (c * ·)) rate taus =
      (mtotdev_freq_fl fl sum log10grid x rate taus).map (scaleOut ((2 : ℝ) ^ k)) := M
    unfold ttotdev_freq_fl
    rw [M']
    cases mtotdev_freq_fl fl sum log10grid x rate taus with
    | error e => rfl
    | ok r =>
      rw [← abs_scale hc]
      exact PyRel.map_eq (S.tdev_tail r)
  · have G := S.freq y rate
    unfold gcodev_freq_fl
    rcases F with ⟨e, h1, h2⟩ | ⟨a, _, h1, h2, rfl⟩
    · rw [h1, h2]; rfl
    · rw [h1, h2]
      rcases G with ⟨e, g1, g2⟩ | ⟨b, _, g1, g2, rfl⟩
      · rw [g1, g2]; rfl
      · rw [g1, g2]
        exact gcodev_scale_float hfl hsum k hc log10grid a rate taus b

end

/-- Six points at 2 Hz: `totdev` and `mtie` return one row, and for the data multiplied by -8 the row multiplied by 8. -/
example : ∃ (fl : ℝ → ℝ) (sum : List ℝ → ℝ) (o o' : DevOut ℝ), (∀ x, IsBinary64 x (fl x)) ∧ SumScale sum ∧
    totdev_fl fl sum [] [0, 1, 0, 1, 3, -9] 2 (.list [(2 : ℕ) / 2]) = .ok o ∧ o.ns = [4] ∧
    totdev_fl fl sum [] ([0, 1, 0, 1, 3, -9].map (-8 * ·)) 2 (.list [(2 : ℕ) / 2]) = .ok (scaleOut (2 ^ (3 : ℤ)) o) ∧
    mtie_fl fl [] [0, 1, 0, 1, 3, -9] 2 (.list [(2 : ℕ) / 2]) = .ok o' ∧ o'.ns = [4] ∧
    mtie_fl fl [] ([0, 1, 0, 1, 3, -9].map (-8 * ·)) 2 (.list [(2 : ℕ) / 2]) = .ok (scaleOut (2 ^ (3 : ℤ)) o') := by
  obtain ⟨fl, h64, hfl⟩ := exists_binary64
  obtain ⟨sum, hsum, h2⟩ := exists_sumScale h64
  have ht : SafeTaus 2 (.list [(2 : ℕ) / 2]) := by
    intro t ht
    rw [List.mem_singleton] at ht
    exact ⟨2, by norm_num, by rw [ht]; norm_num⟩
  have hc : (-8 : ℝ) = (2 : ℝ) ^ (3 : ℤ) ∨ (-8 : ℝ) = -(2 : ℝ) ^ (3 : ℤ) := Or.inr (by norm_num)
  have T : ∃ o, totdev_fl fl sum [] [0, 1, 0, 1, 3, -9] 2 (.list [(2 : ℕ) / 2]) = .ok o ∧ o.ns = [4] := by
    have h := totdev_float hfl hsum [] [0, 1, 0, 1, 3, -9] 9 (by norm_num) 2 two_pos (.list [(2 : ℕ) / 2]) (by norm_num) ht
    rw [totdev_phase_eq _ (by simp), table_single _ _ (by norm_num) _ _ _ _ _ 2 (by norm_num) (by simp)
      (by norm_num) (by simp) (by simp)] at h
    rcases h with ⟨e, _, h⟩ | ⟨o, o', h1, h2, h3⟩
    · cases h
    · exact ⟨o, h1, by rw [h3.ns]; cases h2; simp⟩
  have M : ∃ o, mtie_fl fl [] [0, 1, 0, 1, 3, -9] 2 (.list [(2 : ℕ) / 2]) = .ok o ∧ o.ns = [4] := by
    have h := mtie_float hfl [] [0, 1, 0, 1, 3, -9] 2 (.list [(2 : ℕ) / 2]) (by norm_num) ht
    rw [mtie_phase_eq, table_single _ _ (by norm_num) _ _ _ _ _ 2 (by norm_num) (by simp)
      (by norm_num) (by simp) (by simp)] at h
    rcases h with ⟨e, _, h⟩ | ⟨o, o', h1, h2, h3⟩
    · cases h
    · exact ⟨o, h1, by rw [h3.ns]; cases h2; simp⟩
  obtain ⟨o, t1, t2⟩ := T
  obtain ⟨o', m1, m2⟩ := M
  refine ⟨fl, sum, o, o', h64, h2, t1, t2, ?_, m1, m2, ?_⟩
  · rw [totdev_scale_float h64 h2 3 hc, t1]; rfl
  · rw [mtie_scale_float h64 3 hc, m1]; rfl

end AT
