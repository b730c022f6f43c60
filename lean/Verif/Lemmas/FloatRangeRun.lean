import Verif.Lemmas.FloatRangeDev

/-!
# Whole runs in the normal range
-/

namespace AT

open Spec

variable {fl r : ℝ → ℝ} {sum sum' : List ℝ → ℝ}

/-! ## `tau_generator` -/

theorem Mag.pow_nat {c N : ℕ} (h : c ≤ N) (hN : N ≤ 2 ^ 47) : Mag 0 47 (c : ℝ) := Mag.natCast (h.trans hN)

theorem RangePair.expand (P : RangePair fl r sum sum') (log10grid : List ℝ) {N : ℕ} {rate : ℝ} {taus : TausArg}
    (hN : N ≤ 2 ^ 47) (hr : Mag (-40) 40 rate) (ht : SafeTaus rate taus) (hR : RangeTaus rate taus) :
    Same (fun l => ∀ t ∈ l, NormalRange (t * rate)) (expand_taus_fl fl log10grid N rate taus)
      (expand_taus_fl r log10grid N rate taus) := by
  obtain ⟨e0, h0⟩ := P.m (Mag.one.div hr) (by norm_num) (by norm_num)
  have oct : Same (fun l => ∀ t ∈ l, NormalRange (t * rate)) (expand_taus_fl.octave fl N rate)
      (expand_taus_fl.octave r N rate) := by
    unfold expand_taus_fl.octave
    split_ifs with hN0
    · exact Same.error _
    have hf : ⌊Real.logb 2 N⌋ = (Nat.log 2 N : ℤ) := by
      exact_mod_cast floor_logb 2 (by norm_num) N (by omega)
    have e1 : (⌊Real.logb 2 N⌋ + 1).toNat = Nat.log 2 N + 1 := by rw [hf]; omega
    have e2 : ((⌊Real.logb 2 N⌋ : ℤ) : ℝ) = ((Nat.log 2 N : ℕ) : ℝ) := by rw [hf]; simp
    simp only [e0, e1, e2]
    have key : ∀ x ∈ npLogspace 0 ((Nat.log 2 N : ℕ) : ℝ) (Nat.log 2 N + 1) 2,
        fl (r (1 / rate) * fl x) = r (r (1 / rate) * r x) ∧ NormalRange (r (r (1 / rate) * r x) * rate) := by
      intro x hx
      obtain ⟨k, hk, rfl⟩ := (logspace_octave _ _).1 hx
      have hle : 2 ^ k ≤ N := (Nat.pow_le_pow_right (by norm_num) hk).trans
        (Nat.pow_log_le_self 2 (by omega))
      have h1 := Mag.pow_nat hle hN
      push_cast at h1
      obtain ⟨a1, b1⟩ := P.m h1 (by norm_num) (by norm_num)
      obtain ⟨a2, b2⟩ := P.m (h0.mul b1) (by norm_num) (by norm_num)
      rw [a1, a2]
      exact ⟨rfl, (b2.mul hr).range (by norm_num) (by norm_num)⟩
    refine Same.ok (List.map_congr_left fun x hx => (key x hx).1) fun t ht => ?_
    obtain ⟨x, hx, rfl⟩ := List.mem_map.1 ht
    exact (key x hx).2
  match taus, ht, hR with
  | .none, _, _ => exact oct
  | .list [], _, _ => exact oct
  | .list (t :: ts), _, h => exact Same.ok rfl h
  | .array l, _, h => exact Same.ok rfl h
  | .str s, hs, _ =>
    have hs : s ≠ "log10" := hs
    unfold expand_taus_fl
    by_cases h1 : s = "all"
    · simp only [h1, if_true, e0]
      have key : ∀ x ∈ npLinspace 1 (N : ℝ) N,
          fl (r (1 / rate) * x) = r (r (1 / rate) * x) ∧ NormalRange (r (r (1 / rate) * x) * rate) := by
        intro x hx
        obtain ⟨i, hi, rfl⟩ := (mem_linspace_one N _).1 hx
        have h1 := Mag.pow_nat (show i + 1 ≤ N by omega) hN
        push_cast at h1
        obtain ⟨a2, b2⟩ := P.m (h0.mul h1) (by norm_num) (by norm_num)
        rw [a2]
        exact ⟨rfl, (b2.mul hr).range (by norm_num) (by norm_num)⟩
      refine Same.ok (List.map_congr_left fun x hx => (key x hx).1) fun t ht => ?_
      obtain ⟨x, hx, rfl⟩ := List.mem_map.1 ht
      exact (key x hx).2
    by_cases h2 : s = "octave"
    · simp only [h2, if_true]
      exact oct
    by_cases h4 : s = "decade"
    · simp only [h4, if_true, e0]
      by_cases hN0 : N = 0
      · simp only [hN0, if_true]
        exact Same.error _
      simp only [if_neg hN0]
      have hf : ⌊Real.logb 10 N⌋ = (Nat.log 10 N : ℤ) := by
        exact_mod_cast floor_logb 10 (by norm_num) N (by omega)
      have e1 : (⌊Real.logb 10 N⌋ + 1).toNat = Nat.log 10 N + 1 := by rw [hf]; omega
      simp only [e1]
      have key : ∀ (c k : ℕ), c ≤ 4 → k < Nat.log 10 N + 1 →
          fl (fl (c * r (1 / rate)) * fl (10 ^ k)) = r (r (c * r (1 / rate)) * r (10 ^ k)) ∧
            NormalRange (r (r (c * r (1 / rate)) * r (10 ^ k)) * rate) := by
        intro c k hc hk
        have hle : 10 ^ k ≤ N := (Nat.pow_le_pow_right (by norm_num) (by omega)).trans
          (Nat.pow_log_le_self 10 (by omega))
        have h1 := Mag.pow_nat hle hN
        push_cast at h1
        have h2 : Mag 0 2 (c : ℝ) := Mag.natCast (b := 2) (by omega)
        obtain ⟨a1, b1⟩ := P.m h1 (by norm_num) (by norm_num)
        obtain ⟨a2, b2⟩ := P.m (h2.mul h0) (by norm_num) (by norm_num)
        obtain ⟨a3, b3⟩ := P.m (b2.mul b1) (by norm_num) (by norm_num)
        rw [a1, a2, a3]
        exact ⟨rfl, (b3.mul hr).range (by norm_num) (by norm_num)⟩
      have k1 := fun k => key 1 k (by norm_num)
      have k2 := fun k => key 2 k (by norm_num)
      have k4 := fun k => key 4 k (by norm_num)
      push_cast at k1 k2 k4
      refine Same.ok (List.flatMap_congr fun k hk => ?_) fun t ht => ?_
      · rw [List.mem_range] at hk
        rw [(k1 k hk).1, (k2 k hk).1, (k4 k hk).1]
      · obtain ⟨k, hk, ht⟩ := List.mem_flatMap.1 ht
        rw [List.mem_range] at hk
        simp only [List.mem_cons, List.not_mem_nil, or_false] at ht
        rcases ht with rfl | rfl | rfl
        · exact (k1 k hk).2
        · exact (k2 k hk).2
        · exact (k4 k hk).2
    · simp only [if_neg h1, if_neg h2, if_neg hs, if_neg h4]
      exact Same.error _

theorem RangePair.tau (P : RangePair fl r sum sum') {α : Type} (log10grid : List ℝ) (data : List α) {rate : ℝ}
    {taus : TausArg} (even : Bool) (mx : ℝ) (hN : data.length ≤ 2 ^ 47) (hr : Mag (-40) 40 rate)
    (ht : SafeTaus rate taus) (hR : RangeTaus rate taus) :
    Same (fun o => o.1 = data ∧ (∀ m ∈ o.2.1, m < data.length) ∧ ∀ t ∈ o.2.2, Mag (-40) 87 t)
      (tau_generator_fl fl log10grid data rate taus even mx)
      (tau_generator_fl r log10grid data rate taus even mx) := by
  unfold tau_generator_fl
  by_cases h0 : rate = 0
  · rw [if_pos h0, if_pos h0]; exact Same.error _
  rw [if_neg h0, if_neg h0]
  refine (P.expand log10grid hN hr ht hR).bind fun l hl => ?_
  have e1 : l.map (fun t => npRound (fl (t * rate))) = l.map (fun t => npRound (r (t * rate))) :=
    List.map_congr_left fun t ht => by rw [P.agree _ (hl t ht)]
  simp only [maskSel_map, maskSel_map_map, ok_bind, e1]
  rw [tau_core, tau_core]
  set u := npUnique _ with hu
  have humem : ∀ k ∈ u, k < (data.length : ℤ) ∧ 0 < k := by
    intro k hk
    rw [hu, mem_npUnique] at hk
    simp only [List.mem_filter, Bool.and_eq_true, decide_eq_true_eq] at hk
    exact ⟨hk.1.2.1.1, hk.1.2.1.2⟩
  clear_value u
  have key : ∀ k ∈ u, fl ((k : ℝ) / rate) = r ((k : ℝ) / rate) ∧ Mag (-40) 87 (r ((k : ℝ) / rate)) := by
    intro k hk
    obtain ⟨h1, h2⟩ := humem k hk
    obtain ⟨n, rfl⟩ := Int.eq_ofNat_of_zero_le h2.le
    have h3 : Mag 0 47 ((n : ℕ) : ℝ) := Mag.pow_nat (show n ≤ data.length by omega) hN
    rw [Int.cast_natCast]
    exact P.m (h3.div hr) (by norm_num) (by norm_num)
  have e2 : (u.filter (fun k => if even then decide (k % 2 = 0) else true)).map (fun k : ℤ => fl ((k : ℝ) / rate)) =
      (u.filter (fun k => if even then decide (k % 2 = 0) else true)).map (fun k : ℤ => r ((k : ℝ) / rate)) :=
    List.map_congr_left fun k hk => (key k (List.mem_filter.1 hk).1).1
  refine Same.ok (by rw [e2]) ⟨rfl, fun m hm => ?_, fun t ht => ?_⟩
  · obtain ⟨k, hk, rfl⟩ := List.mem_map.1 hm
    have := humem k (List.mem_filter.1 hk).1
    omega
  · obtain ⟨k, hk, rfl⟩ := List.mem_map.1 ht
    exact (key k (List.mem_filter.1 hk).1).2

/-! ## The loop over the averaging times -/

theorem mapM_same {α β : Type} {R : β → Prop} (l : List α) {f f' : α → Py β} (H : ∀ a ∈ l, Same R (f a) (f' a)) :
    Same (fun bs => ∀ b ∈ bs, R b) (l.mapM f) (l.mapM f') := by
  induction l with
  | nil => exact Same.ok rfl (by simp)
  | cons a l ih =>
    rw [List.mapM_cons, List.mapM_cons]
    refine (H a (by simp)).bind fun b hb => ?_
    refine (ih fun a ha => H a (by simp [ha])).bind fun bs hbs => ?_
    refine Same.ok rfl fun c hc => ?_
    rcases List.mem_cons.1 hc with rfl | hc
    · exact hb
    · exact hbs c hc

theorem maskSel_subset {α : Type} {xs ys : List α} {m : List Bool} (h : maskSel xs m = .ok ys) :
    ∀ y ∈ ys, y ∈ xs := by
  unfold maskSel at h
  split_ifs at h
  cases h
  intro y hy
  rw [List.mem_filterMap] at hy
  obtain ⟨⟨a, c⟩, h1, h2⟩ := hy
  cases c <;> simp at h2
  subst h2
  exact (List.of_mem_zip h1).1

theorem runTaus_same {A : ℝ → Prop} {D : ℝ → Prop} {n : ℤ → Prop} {ts : List ℝ} {ms : List ℕ}
    {body body' : ℕ → ℕ → Py (ℝ × ℝ × ℤ)} (hts : ∀ t ∈ ts, A t)
    (H : ∀ i, ∀ m ∈ ms, Same (fun row => D row.1 ∧ n row.2.2) (body i m) (body' i m)) :
    Same (fun o => (∀ t ∈ o.taus, A t) ∧ (∀ d ∈ o.devs, D d) ∧ ∀ k ∈ o.ns, n k) (runTaus ts ms body)
      (runTaus ts ms body') := by
  unfold runTaus
  have hm : Same (fun rows => ∀ row ∈ rows, D row.1 ∧ n row.2.2) (ms.zipIdx.mapM (fun p => body p.2 p.1))
      (ms.zipIdx.mapM (fun p => body' p.2 p.1)) :=
    mapM_same _ fun p hp => H p.2 p.1 (List.mem_of_getElem? (List.mem_zipIdx_iff_getElem?.1 hp))
  refine hm.bind fun rows hrows => ⟨rfl, fun o ho => ?_⟩
  unfold remove_small_ns at ho
  cases h1 : maskSel ts (List.map (fun n => decide (1 < n)) (List.map (fun r : ℝ × ℝ × ℤ => r.2.2) rows)) with
  | error e => simp only [h1, error_bind] at ho; cases ho
  | ok o1 =>
  cases h2 : maskSel (rows.map (fun r => r.1)) (List.map (fun n => decide (1 < n)) (List.map (fun r : ℝ × ℝ × ℤ => r.2.2) rows)) with
  | error e => simp only [h1, h2, error_bind, ok_bind] at ho; cases ho
  | ok o2 =>
  cases h3 : maskSel (rows.map (fun r => r.2.2)) (List.map (fun n => decide (1 < n)) (List.map (fun r : ℝ × ℝ × ℤ => r.2.2) rows)) with
  | error e => simp only [h1, h2, h3, error_bind, ok_bind] at ho; cases ho
  | ok o3 =>
  cases h4 : maskSel (rows.map (fun r => r.2.1)) (List.map (fun n => decide (1 < n)) (List.map (fun r : ℝ × ℝ × ℤ => r.2.2) rows)) with
  | error e => simp only [h1, h2, h3, h4, error_bind, ok_bind] at ho; cases ho
  | ok o4 =>
  simp only [h1, h2, h3, h4, ok_bind] at ho
  split_ifs at ho
  injection ho with ho
  subst ho
  refine ⟨fun t ht => hts t (maskSel_subset h1 t ht), fun d hd => ?_, fun k hk => ?_⟩
  · obtain ⟨row, hrow, rfl⟩ := List.mem_map.1 (maskSel_subset h2 d hd)
    exact (hrows row hrow).1
  · obtain ⟨row, hrow, rfl⟩ := List.mem_map.1 (maskSel_subset h3 k hk)
    exact (hrows row hrow).2

/-! ## The deviations -/

/-- the rounded function with and without limits of the exponents -/
theorem RangePair.run (P : RangePair fl r sum sum') (log10grid x : List ℝ) {rate : ℝ} {taus : TausArg}
    (even : Bool) (mx : ℝ) {D : ℝ → Prop} {n : ℤ → Prop} (hN : x.length ≤ 2 ^ 47) (hr : Mag (-40) 40 rate)
    (ht : SafeTaus rate taus) (hR : RangeTaus rate taus)
    {body body' : List ℝ → List ℝ → ℕ → ℕ → Py (ℝ × ℝ × ℤ)}
    (H : ∀ ts : List ℝ, (∀ t ∈ ts, Mag (-40) 87 t) → ∀ i m, m ≤ 2 ^ 47 →
      Same (fun row => D row.1 ∧ n row.2.2) (body x ts i m) (body' x ts i m)) :
    Same (fun o => (∀ t ∈ o.taus, Mag (-40) 87 t) ∧ (∀ d ∈ o.devs, D d) ∧ ∀ k ∈ o.ns, n k)
      (tau_generator_fl fl log10grid x rate taus even mx >>= fun o => runTaus o.2.2 o.2.1 (body o.1 o.2.2))
      (tau_generator_fl r log10grid x rate taus even mx >>= fun o => runTaus o.2.2 o.2.1 (body' o.1 o.2.2)) := by
  refine (P.tau log10grid x even mx hN hr ht hR).bind fun o ho => ?_
  obtain ⟨d, ms, ts⟩ := o
  obtain ⟨rfl, h2, h3⟩ := ho
  exact runTaus_same h3 fun i m hm => H ts h3 i m ((h2 m hm).le.trans hN)

theorem RangePair.adev (P : RangePair fl r sum sum') (log10grid : List ℝ) {x : List ℝ} {rate : ℝ} {taus : TausArg}
    (hx : Arr (-343) 240 x) (hr : Mag (-40) 40 rate) (ht : SafeTaus rate taus) (hR : RangeTaus rate taus) :
    adev_fl fl sum log10grid x rate taus = adev_fl r sum' log10grid x rate taus :=
  (P.run log10grid x false (-1) (D := fun _ => True) (n := fun _ => True) hx.1 hr ht hR
    (body := fun x _ _ m => calc_adev_phase_fl fl sum x rate m m)
    (body' := fun x _ _ m => calc_adev_phase_fl r sum' x rate m m)
    fun _ _ _ m hm => (P.calc_adev hx hr m m hm).mono fun _ _ => ⟨trivial, trivial⟩).1

theorem RangePair.oadev (P : RangePair fl r sum sum') (log10grid : List ℝ) {x : List ℝ} {rate : ℝ} {taus : TausArg}
    (hx : Arr (-343) 240 x) (hr : Mag (-40) 40 rate) (ht : SafeTaus rate taus) (hR : RangeTaus rate taus) :
    oadev_fl fl sum log10grid x rate taus = oadev_fl r sum' log10grid x rate taus :=
  (P.run log10grid x false (-1) (D := fun _ => True) (n := fun _ => True) hx.1 hr ht hR
    (body := fun x _ _ m => calc_adev_phase_fl fl sum x rate m 1)
    (body' := fun x _ _ m => calc_adev_phase_fl r sum' x rate m 1)
    fun _ _ _ m hm => (P.calc_adev hx hr m 1 hm).mono fun _ _ => ⟨trivial, trivial⟩).1

theorem RangePair.hdev (P : RangePair fl r sum sum') (log10grid : List ℝ) {x : List ℝ} {rate : ℝ} {taus : TausArg}
    (hx : Arr (-343) 240 x) (hr : Mag (-40) 40 rate) (ht : SafeTaus rate taus) (hR : RangeTaus rate taus) :
    hdev_fl fl sum log10grid x rate taus = hdev_fl r sum' log10grid x rate taus :=
  (P.run log10grid x false (-1) (D := fun _ => True) (n := fun _ => True) hx.1 hr ht hR
    (body := fun x _ _ m => calc_hdev_phase_fl fl sum x rate m m)
    (body' := fun x _ _ m => calc_hdev_phase_fl r sum' x rate m m)
    fun _ _ _ m hm => (P.calc_hdev hx hr m m hm).mono fun _ _ => ⟨trivial, trivial⟩).1

theorem RangePair.ohdev (P : RangePair fl r sum sum') (log10grid : List ℝ) {x : List ℝ} {rate : ℝ} {taus : TausArg}
    (hx : Arr (-343) 240 x) (hr : Mag (-40) 40 rate) (ht : SafeTaus rate taus) (hR : RangeTaus rate taus) :
    ohdev_fl fl sum log10grid x rate taus = ohdev_fl r sum' log10grid x rate taus :=
  (P.run log10grid x false (-1) (D := fun _ => True) (n := fun _ => True) hx.1 hr ht hR
    (body := fun x _ _ m => calc_hdev_phase_fl fl sum x rate m 1)
    (body' := fun x _ _ m => calc_hdev_phase_fl r sum' x rate m 1)
    fun _ _ _ m hm => (P.calc_hdev hx hr m 1 hm).mono fun _ _ => ⟨trivial, trivial⟩).1

theorem RangePair.mdev (P : RangePair fl r sum sum') (log10grid : List ℝ) {x : List ℝ} {rate : ℝ} {taus : TausArg}
    (hx : Arr (-343) 240 x) (hr : Mag (-40) 40 rate) (ht : SafeTaus rate taus) (hR : RangeTaus rate taus) :
    Same (fun o => (∀ t ∈ o.taus, Mag (-40) 87 t) ∧ (∀ d ∈ o.devs, Mag (-510) 400 d) ∧
      ∀ k : ℤ, k ∈ o.ns → Mag 0 48 (k : ℝ)) (mdev_fl fl sum log10grid x rate taus) (mdev_fl r sum' log10grid x rate taus) :=
  P.run log10grid x false (-1) (D := Mag (-510) 400) (n := fun k => Mag 0 48 (k : ℝ)) hx.1 hr ht hR
    (body := fun x ts i m => mdev_body_fl fl sum x ts i m)
    (body' := fun x ts i m => mdev_body_fl r sum' x ts i m)
    fun _ hts i m hm => P.mdev_body hx hts i m hm

theorem RangePair.tdev (P : RangePair fl r sum sum') (log10grid : List ℝ) {x : List ℝ} {rate : ℝ} {taus : TausArg}
    (hx : Arr (-343) 240 x) (hr : Mag (-40) 40 rate) (ht : SafeTaus rate taus) (hR : RangeTaus rate taus) :
    tdev_fl fl sum log10grid x rate taus = tdev_fl r sum' log10grid x rate taus := by
  unfold tdev_fl
  have three : Mag 0 2 3 := Or.inr (by norm_num)
  obtain ⟨e3, h3⟩ := P.m (Mag.sqrt (a := 0) (b := 1) (three.mono (by norm_num) (by norm_num)))
    (by norm_num) (by norm_num)
  refine ((P.mdev log10grid hx hr ht hR).bind (Q := fun _ => True) fun o ho => ?_).1
  obtain ⟨h1, h2, hn⟩ := ho
  unfold scaleToTdev_fl vmul_fl
  refine (vop_same (C := Mag (-551) 487) (le_max_left _ _) (le_max_right _ _) h1 h2
    (fun u v hu hv => P.m ((hu.mul hv).mono (by norm_num) (by norm_num)) (by norm_num) (by norm_num))).bind fun td htd => ?_
  rw [e3]
  have key : ∀ v ∈ td, fl (v / r √3) = r (v / r √3) ∧ Mag (-552) 487 (r (v / r √3)) := fun v hv =>
    P.m (((htd.2 v hv).div h3).mono (by norm_num) (by norm_num)) (by norm_num) (by norm_num)
  have em : td.map (fun v => fl (v / r √3)) = td.map (fun v => r (v / r √3)) :=
    List.map_congr_left fun v hv => (key v hv).1
  have hm : ∀ w ∈ td.map (fun v => r (v / r √3)), Mag (-552) 487 w := by
    intro w hw
    obtain ⟨v, hv, rfl⟩ := List.mem_map.1 hw
    exact (key v hv).2
  rw [em]
  refine (vop_same (C := fun _ => True) (le_max_left _ _) (le_max_right _ _) hm hn (fun u k hu hk => ?_)).bind
    fun _ _ => Same.ok rfl trivial
  obtain ⟨a1, b1⟩ := P.m (Mag.sqrt (a := 0) (b := 24) (hk.mono (by norm_num) (by norm_num)))
    (by norm_num) (by norm_num)
  obtain ⟨a2, b2⟩ := P.m (hu.div b1) (by norm_num) (by norm_num)
  rw [a1, a2]
  exact ⟨rfl, trivial⟩

/-! ## Frequency data -/

theorem RangePair.freq (P : RangePair fl r sum sum') {y : List ℝ} {rate : ℝ} (hy : ∀ v ∈ y, Grid (-152) 100 v)
    (hN : y.length ≤ 2 ^ 46) (hr : Mag (-40) 40 rate) :
    Same (Arr (-343) 240) (frequency2phase_fl fl sum y rate) (frequency2phase_fl r sum' y rate) := by
  unfold frequency2phase_fl
  split_ifs
  · exact Same.error _
  · exact Same.error _
  have ha : Arr (-152) 100 y := ⟨hN.trans (by norm_num), hy⟩
  obtain ⟨e1, h1⟩ := P.m (Mag.one.div hr) (by norm_num) (by norm_num)
  have h1' := (Mag.one.div hr).round_grid (P.binary _)
  obtain ⟨e2, h2⟩ := P.s ha (by norm_num) (by norm_num)
  have n1 : Mag 0 46 (y.length : ℝ) := Mag.natCast hN
  obtain ⟨e3, _⟩ := P.m (h2.mag.div n1) (by norm_num) (by norm_num)
  have h3 := (h2.mag.div n1).round_grid (P.binary _)
  rw [e1, e2, e3]
  dsimp only
  set mean := r (sum' y / y.length)
  obtain ⟨e4, h4⟩ := map_agree (g' := -251) (b' := 148) (f := fun v => fl (v - mean)) (f' := fun v => r (v - mean)) ha
    (fun u hu => P.g (((hu.mono (g' := -251) (b' := 147) (by norm_num) (by norm_num)).sub
      (h3.mono (by norm_num) (by norm_num))).mono (by norm_num) (by norm_num)) (by norm_num) (by norm_num))
  rw [e4]
  obtain ⟨e5, h5⟩ := P.cumsum h4 (by norm_num) (by norm_num)
  rw [e5]
  obtain ⟨e6, h6⟩ := map_agree (g' := -343) (b' := 240) (f := fun v => fl (v * r (1 / rate)))
    (f' := fun v => r (v * r (1 / rate))) h5
    (fun u hu => P.g ((hu.mul h1').mono (by norm_num) (by norm_num)) (by norm_num) (by norm_num))
  rw [e6]
  refine Same.ok rfl ⟨?_, fun v hv => ?_⟩
  · have hlen : ∀ l : List ℝ, (npCumsum_fl r l).length = l.length := by
      intro l
      cases l with
      | nil => rfl
      | cons a l => simp [npCumsum_fl, cumsum_fl_length]
    rw [List.length_cons, List.length_map, hlen, List.length_map]
    omega
  · rcases List.mem_cons.1 hv with rfl | hv
    · exact Grid.zero _ _
    · exact h6.2 v hv

end AT
