import Verif.Model.Hat
import Verif.Props.Gcodev

/-!
# C33: three-cornered hat
-/

namespace AT

open Spec Finset Real

/-- Allan covariance of two phase series -/
noncomputable def Spec.acov (x y : ℕ → ℝ) (N m : ℕ) (τ : ℝ) : ℝ :=
  (∑ i ∈ range (N - 2 * m), d2 x m i * d2 y m i) / (2 * τ ^ 2 * (N - 2 * m))

/-- the variance of clock A from the three measured variances -/
noncomputable def Spec.hatVar (vab vbc vca : ℝ) : ℝ := max 0 ((vab + vca - vbc) / 2)

theorem vop_map {α β γ δ : Type} (f : β → γ → δ) (l : List α) (g : α → β) (h : α → γ) :
    vop f (l.map g) (l.map h) = .ok (l.map (fun a => f (g a) (h a))) := by
  unfold vop
  rw [if_pos (by simp), List.zipWith_map, List.zipWith_self]

/-- what the hat computes from three outcomes on data of the same length -/
theorem run_same (fn : DevName) (x y : List ℝ) (hl : x.length = y.length) (rate : ℝ) (taus : TausArg) :
    (∃ e, fn.run x rate "phase" taus = .error e ∧ fn.run y rate "phase" taus = .error e) ∨
    (∃ ox oy, fn.run x rate "phase" taus = .ok ox ∧ fn.run y rate "phase" taus = .ok oy) := by
  cases hx : fn.run x rate "phase" taus with
  | ok ox =>
    right
    refine ⟨ox, ?_⟩
    obtain ⟨kept, k0, k1, k2, _⟩ := run_ok fn x rate taus ox hx
    cases hy : fn.run y rate "phase" taus with
    | ok oy => exact ⟨oy, rfl, rfl⟩
    | error e =>
      exfalso
      have hA := (run_cases fn x rate taus).1
      have hB := run_cases fn y rate taus
      have hxe : (x = []) ↔ (y = []) := by
        rw [← List.length_eq_zero_iff, ← List.length_eq_zero_iff, hl]
      rw [hx] at hA
      rw [hl] at hA k2
      by_cases h1 : fn = .theo1 ∧ rate = 0
      · rw [if_pos h1] at hA; cases hA
      by_cases h2 : rate = 0
      · rw [if_neg h1, if_pos h2] at hA; cases hA
      rw [if_neg h1, if_neg h2] at hA
      cases h3 : tausError (lenOf fn y.length) taus with
      | some e => rw [h3] at hA; cases hA
      | none =>
        rw [h3] at hA
        by_cases h4 : fn = .totdev ∧ y.length < 2
        · simp only [if_pos h4] at hA; cases hA
        obtain ⟨kept', k1', k2', k3'⟩ := hB.2 h2 h3 h4
        rw [hy] at k3'
        split_ifs at k3' with k4'
        apply k0
        rw [List.eq_nil_iff_forall_not_mem]
        intro m hm
        have : m ∈ kept' := (k2' m).2 ((k2 m).1 hm)
        rw [k4'] at this; cases this
  | error e =>
    left
    refine ⟨e, rfl, ?_⟩
    have hA := run_cases fn x rate taus
    have hB := run_cases fn y rate taus
    have hxe : (x = []) ↔ (y = []) := by
      rw [← List.length_eq_zero_iff, ← List.length_eq_zero_iff, hl]
    rw [hl] at hA
    rw [← hx]
    by_cases h1 : fn = .theo1 ∧ rate = 0
    · rw [hA.1, hB.1, if_pos h1, if_pos h1]
    by_cases h2 : rate = 0
    · rw [hA.1, hB.1, if_neg h1, if_pos h2, if_neg h1, if_pos h2]
    cases h3 : tausError (lenOf fn y.length) taus with
    | some e => rw [hA.1, hB.1, if_neg h1, if_neg h2, if_neg h1, if_neg h2, h3]
    | none =>
      by_cases h4 : fn = .totdev ∧ y.length < 2
      · rw [hA.1, hB.1, if_neg h1, if_neg h2, if_neg h1, if_neg h2, h3]
        simp only [if_pos h4, hxe]
      obtain ⟨k, _, k2, k3⟩ := hA.2 h2 h3 h4
      obtain ⟨k', _, k2', k3'⟩ := hB.2 h2 h3 h4
      rw [hx] at k3
      split_ifs at k3 with k4
      rw [hx, k3, k3', if_pos]
      rw [List.eq_nil_iff_forall_not_mem]
      intro m hm
      have : m ∈ k := (k2 m).2 ((k2' m).1 hm)
      rw [k4] at this; cases this

theorem sorted_unique {l l' : List ℕ} (h : l.Pairwise (· < ·)) (h' : l'.Pairwise (· < ·))
    (hm : ∀ m, m ∈ l ↔ m ∈ l') : l = l' :=
  List.Perm.eq_of_pairwise (le := (· < ·)) (fun _ _ _ _ hab hba => absurd hab (by omega)) h h'
    ((List.perm_ext_iff_of_nodup (h.imp (fun h => ne_of_lt h)) (h'.imp (fun h => ne_of_lt h))).2 hm)

/-- C33: for any deviation function and three series of equal length, the hat fails exactly as
the function fails on them; otherwise it reports the same factors, and at each of them the
square root of `max 0 ((ab² + ca² - bc²)/2)` and that value over the root of the count. -/
theorem hat_eq (fn : DevName) (ab bc ca : List ℝ) (h1 : ab.length = bc.length)
    (h2 : ab.length = ca.length) (rate : ℝ) (taus : TausArg) :
    (∃ e, fn.run ab rate "phase" taus = .error e ∧
      three_cornered_hat_phase ab bc ca rate taus fn = .error e) ∨
    (∃ kept : List ℕ, kept ≠ [] ∧ kept.Pairwise (· < ·) ∧
      (∀ m, m ∈ kept ↔ Reported fn ab.length rate taus m) ∧
      three_cornered_hat_phase ab bc ca rate taus fn =
        let dev := fun m => √(hatVar (value fn (seq ab) ab.length rate m ^ 2)
          (value fn (seq bc) ab.length rate m ^ 2) (value fn (seq ca) ab.length rate m ^ 2))
        .ok ⟨kept.map (fun (m : ℕ) => (m : ℝ) / rate), kept.map dev,
          .arr (kept.map (fun m => dev m / √(count fn ab.length m : ℝ))),
          kept.map (count fn ab.length)⟩) := by
  unfold three_cornered_hat_phase
  rcases run_same fn ab bc h1 rate taus with ⟨e, ha, hb⟩ | ⟨oa, ob, ha, hb⟩
  · left
    exact ⟨e, ha, by rw [ha]; rfl⟩
  rcases run_same fn ab ca h2 rate taus with ⟨e, ha', hc⟩ | ⟨oa', oc, ha', hc⟩
  · rw [ha] at ha'; cases ha'
  right
  obtain ⟨k, k0, k1, k2, k3, k4, k5, k6⟩ := run_ok fn ab rate taus oa ha
  obtain ⟨k', _, k1', k2', _, k4', _, _⟩ := run_ok fn bc rate taus ob hb
  obtain ⟨k'', _, k1'', k2'', _, k4'', _, _⟩ := run_ok fn ca rate taus oc hc
  rw [← h1] at k2' k4'
  rw [← h2] at k2'' k4''
  have e1 : k' = k := sorted_unique k1' k1 (fun m => (k2' m).trans (k2 m).symm)
  have e2 : k'' = k := sorted_unique k1'' k1 (fun m => (k2'' m).trans (k2 m).symm)
  subst e1
  subst e2
  refine ⟨k'', k0, k1, k2, ?_⟩
  rw [ha, hb, hc]
  simp only [ok_bind, k3, k4, k4', k4'', k6, vmul, vadd, vsub, vop_map, List.length_map, and_self]
  rw [pyAssert_true trivial]
  simp only [ok_bind, vscale, List.map_map, List.zipWith_map, List.zipWith_self]
  have hs : ∀ m, sign fn rate m * sign fn rate m = 1 := by
    intro m
    have hr : rateSign rate * rateSign rate = 1 := by
      unfold rateSign; split_ifs <;> norm_num
    cases fn <;> simp only [sign, hr, mul_one] <;> split_ifs <;> simp [hr]
  have hsq : ∀ m v, sign fn rate m * v * (sign fn rate m * v) = v ^ 2 := by
    intro m v
    calc _ = (sign fn rate m * sign fn rate m) * v ^ 2 := by ring
      _ = _ := by rw [hs, one_mul]
  have key : ∀ u v w : ℝ, (if 0.5 * (u + w - v) < 0 then 0 else 0.5 * (u + w - v)) = hatVar u v w := by
    intro u v w
    unfold hatVar
    have : (0.5 : ℝ) * (u + w - v) = (u + w - v) / 2 := by ring
    rw [this]
    split_ifs with h
    · rw [max_eq_left h.le]
    · rw [max_eq_right (not_lt.1 h)]
  rw [Except.ok.injEq, DevOut.mk.injEq]
  refine ⟨rfl, ?_, ?_, rfl⟩
  · apply List.map_congr_left
    intro m _
    simp only [Function.comp, hsq, key]
  · congr 1
    apply List.map_congr_left
    intro m _
    simp only [Function.comp, hsq, key]

theorem oadev_sq (x : ℕ → ℝ) (N m : ℕ) (hN : 2 * m ≤ N) (τ : ℝ) :
    Spec.oadev x N m τ ^ 2 = Spec.acov x x N m τ := by
  unfold Spec.oadev rms Spec.acov
  have hn : (0 : ℝ) ≤ (N : ℝ) - 2 * m := by
    have : (2 : ℝ) * m ≤ N := by exact_mod_cast hN
    linarith
  rw [Real.sq_sqrt]
  · congr 1
    exact Finset.sum_congr rfl (fun i _ => by ring)
  · exact div_nonneg (Finset.sum_nonneg (fun i _ => sq_nonneg _)) (by positivity)

theorem acov_sub (a b c d : ℕ → ℝ) (N m : ℕ) (τ : ℝ) :
    Spec.acov (fun i => a i - b i) (fun i => c i - d i) N m τ =
      Spec.acov a c N m τ - Spec.acov a d N m τ - Spec.acov b c N m τ + Spec.acov b d N m τ := by
  unfold Spec.acov
  rw [← sub_div, ← sub_div, ← add_div, ← Finset.sum_sub_distrib, ← Finset.sum_sub_distrib,
    ← Finset.sum_add_distrib]
  congr 1
  refine Finset.sum_congr rfl (fun i _ => ?_)
  unfold d2
  ring

theorem acov_comm (a b : ℕ → ℝ) (N m : ℕ) (τ : ℝ) : Spec.acov a b N m τ = Spec.acov b a N m τ := by
  unfold Spec.acov
  congr 1
  exact Finset.sum_congr rfl (fun i _ => mul_comm _ _)

theorem seq_zipWith_sub (a b : List ℝ) (h : a.length = b.length) :
    seq (List.zipWith (· - ·) a b) = fun i => seq a i - seq b i := by
  funext i
  unfold seq
  rw [List.getD_eq_getElem?_getD, List.getD_eq_getElem?_getD, List.getD_eq_getElem?_getD,
    List.getElem?_zipWith]
  by_cases hi : i < a.length
  · have hi' : i < b.length := by omega
    simp [hi, hi']
  · have hi' : ¬ i < b.length := by omega
    simp [hi, hi']

/-- C33: with the differences of three clocks and the overlapping Allan deviation, the hat
returns at each tau the root of `max 0 (var a - cov ab - cov ca + cov bc)`. -/
theorem hat_oadev (a b c : List ℝ) (hab : a.length = b.length) (hac : a.length = c.length)
    (rate : ℝ) (taus : TausArg) :
    (∃ e, oadev a rate "phase" taus = .error e ∧
      three_cornered_hat_phase (List.zipWith (· - ·) a b) (List.zipWith (· - ·) b c)
        (List.zipWith (· - ·) c a) rate taus .oadev = .error e) ∨
    (∃ kept : List ℕ, kept ≠ [] ∧ kept.Pairwise (· < ·) ∧
      (∀ m, m ∈ kept ↔ Reported .oadev a.length rate taus m) ∧
      three_cornered_hat_phase (List.zipWith (· - ·) a b) (List.zipWith (· - ·) b c)
        (List.zipWith (· - ·) c a) rate taus .oadev =
      let cov := fun (x y : List ℝ) (m : ℕ) => Spec.acov (seq x) (seq y) a.length m (m / rate)
      let dev := fun m => √(max 0 (cov a a m - cov a b m - cov c a m + cov b c m))
      .ok ⟨kept.map (fun (m : ℕ) => (m : ℝ) / rate), kept.map dev,
        .arr (kept.map (fun m => dev m / √(((a.length : ℤ) - 2 * m : ℤ) : ℝ))),
        kept.map (fun (m : ℕ) => (a.length : ℤ) - 2 * m)⟩) := by
  have l1 : (List.zipWith (· - ·) a b).length = a.length := by simp [hab]
  have l2 : (List.zipWith (· - ·) b c).length = a.length := by simp [hab, ← hac]
  have l3 : (List.zipWith (· - ·) c a).length = a.length := by simp [hac]
  rcases hat_eq .oadev (List.zipWith (· - ·) a b) (List.zipWith (· - ·) b c)
    (List.zipWith (· - ·) c a) (by rw [l1, l2]) (by rw [l1, l3]) rate taus with ⟨e, h1, h2⟩ | ⟨k, k0, k1, k2, k3⟩
  · left
    rcases run_same .oadev (List.zipWith (· - ·) a b) a l1 rate taus with ⟨e', g1, g2⟩ | ⟨_, _, g1, _⟩
    · rw [h1] at g1; injection g1 with g1; subst g1
      exact ⟨e, g2, h2⟩
    · rw [h1] at g1; cases g1
  · right
    rw [l1] at k2
    refine ⟨k, k0, k1, k2, ?_⟩
    rw [k3, l1]
    have key : ∀ m ∈ k, hatVar (value .oadev (seq (List.zipWith (· - ·) a b)) a.length rate m ^ 2)
        (value .oadev (seq (List.zipWith (· - ·) b c)) a.length rate m ^ 2)
        (value .oadev (seq (List.zipWith (· - ·) c a)) a.length rate m ^ 2) =
        max 0 (Spec.acov (seq a) (seq a) a.length m (m / rate) -
          Spec.acov (seq a) (seq b) a.length m (m / rate) -
          Spec.acov (seq c) (seq a) a.length m (m / rate) +
          Spec.acov (seq b) (seq c) a.length m (m / rate)) := by
      intro m hm
      have hN : 2 * m ≤ a.length := by
        have := ((k2 m).1 hm).2.2.2.2.2
        simp only [count] at this
        omega
      unfold hatVar
      simp only [value]
      rw [seq_zipWith_sub a b hab, seq_zipWith_sub b c (by omega), seq_zipWith_sub c a (by omega),
        oadev_sq _ _ _ hN, oadev_sq _ _ _ hN, oadev_sq _ _ _ hN, acov_sub, acov_sub, acov_sub,
        acov_comm (seq b) (seq a), acov_comm (seq c) (seq b), acov_comm (seq a) (seq c)]
      congr 1
      ring
    simp only
    congr 2
    · apply List.map_congr_left
      intro m hm
      rw [key m hm]
    · congr 1
      apply List.map_congr_left
      intro m hm
      rw [key m hm]
      rfl

/-- C33: for pairwise Allan-uncorrelated clocks the hat returns the deviation of clock A. -/
theorem hat_uncorrelated (a b c : List ℝ) (hab : a.length = b.length) (hac : a.length = c.length)
    (rate : ℝ) (hr : 0 < rate) (taus : TausArg)
    (h : ∀ m, Reported .oadev a.length rate taus m →
      Spec.acov (seq a) (seq b) a.length m (m / rate) = 0 ∧
      Spec.acov (seq b) (seq c) a.length m (m / rate) = 0 ∧
      Spec.acov (seq c) (seq a) a.length m (m / rate) = 0) :
    three_cornered_hat_phase (List.zipWith (· - ·) a b) (List.zipWith (· - ·) b c)
        (List.zipWith (· - ·) c a) rate taus .oadev = oadev a rate "phase" taus := by
  rcases hat_oadev a b c hab hac rate taus with ⟨e, h1, h2⟩ | ⟨k, k0, k1, k2, k3⟩
  · rw [h1, h2]
  · rw [k3]
    rcases run_same .oadev a a rfl rate taus with ⟨e, g1, _⟩ | ⟨o, _, g1, _⟩
    · exfalso
      rcases run_same .oadev (List.zipWith (· - ·) a b) a (by simp [hab]) rate taus with
        ⟨e', g2, g3⟩ | ⟨_, _, _, g3⟩
      · unfold three_cornered_hat_phase at k3
        rw [g2] at k3; cases k3
      · rw [g1] at g3; cases g3
    · obtain ⟨k', _, k1', k2', k3', k4', k5', k6'⟩ := run_ok .oadev a rate taus o g1
      have e1 : k' = k := sorted_unique k1' k1 (fun m => (k2' m).trans (k2 m).symm)
      subst e1
      have hd : ∀ m ∈ k', √(max 0 (Spec.acov (seq a) (seq a) a.length m (m / rate) -
          Spec.acov (seq a) (seq b) a.length m (m / rate) -
          Spec.acov (seq c) (seq a) a.length m (m / rate) +
          Spec.acov (seq b) (seq c) a.length m (m / rate))) =
          sign .oadev rate m * value .oadev (seq a) a.length rate m := by
        intro m hm
        obtain ⟨u1, u2, u3⟩ := h m ((k2 m).1 hm)
        have hN : 2 * m ≤ a.length := by
          have := ((k2 m).1 hm).2.2.2.2.2
          simp only [count] at this
          omega
        rw [u1, u2, u3, sub_zero, sub_zero, add_zero, ← oadev_sq _ _ _ hN, max_eq_right (sq_nonneg _),
          sign_pos_rate _ _ hr, one_mul, Real.sqrt_sq]
        · rfl
        · exact value_nonneg .oadev (seq a) a.length rate hr m
      have g1' : oadev a rate "phase" taus = .ok o := g1
      rw [g1']
      cases o
      simp only at k3' k4' k5' k6'
      subst k3' k4' k5' k6'
      simp only
      rw [Except.ok.injEq, DevOut.mk.injEq]
      refine ⟨rfl, List.map_congr_left hd, ?_, rfl⟩
      · congr 1
        apply List.map_congr_left
        intro m hm
        rw [hd m hm]
        rfl

/-- C33: the hat never returns a negative deviation. -/
theorem hat_nonneg (fn : DevName) (ab bc ca : List ℝ) (h1 : ab.length = bc.length)
    (h2 : ab.length = ca.length) (rate : ℝ) (taus : TausArg) (o : DevOut ℝ)
    (h : three_cornered_hat_phase ab bc ca rate taus fn = .ok o) : ∀ d ∈ o.devs, 0 ≤ d := by
  rcases hat_eq fn ab bc ca h1 h2 rate taus with ⟨e, _, g⟩ | ⟨k, _, _, _, g⟩
  · rw [g] at h; cases h
  · rw [g] at h
    simp only at h
    injection h with h
    subst h
    intro d hd
    obtain ⟨m, _, rfl⟩ := List.mem_map.1 hd
    exact Real.sqrt_nonneg _

/-- clocks whose second differences at factor 1 are orthogonal: the hypothesis of
`hat_uncorrelated` can be met by clocks that are all noisy -/
example : Spec.acov (seq [0, 1, 2, 4, 7]) (seq [0, 0, 1, 2, 3]) 5 1 1 = 0 ∧
    Spec.acov (seq [0, 0, 1, 2, 3]) (seq [0, 0, 1, 2, 3]) 5 1 1 ≠ 0 ∧
    Spec.acov (seq [0, 1, 2, 4, 7]) (seq [0, 1, 2, 4, 7]) 5 1 1 ≠ 0 := by
  norm_num [Spec.acov, Finset.sum_range_succ, d2, seq]

end AT
