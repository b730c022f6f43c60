import Verif.Model.FloatHat
import Verif.Spec.FloatHat
import Verif.Props.FloatErr
import Verif.Props.Hat

/-!
# C110: rounding errors of the three-cornered hat

Property: in double precision `three_cornered_hat_phase` returns the same taus (up to one rounding)
and counts as in exact arithmetic, or the same exception, and the error of its deviations is bounded
by the errors of the three deviations.  The subtraction of variances may lose all digits:
then the error is the square root of the rounding error of the variances.
-/

namespace AT

open Spec Finset Real

variable {fl : ℝ → ℝ} {sum : List ℝ → ℝ}

theorem sq_err {p A α : ℝ} (h : |p - A| ≤ α) : |p * p - A * A| ≤ α * (2 * |A| + α) ∧
    p * p ≤ (|A| + α) ^ 2 := by
  have h0 : 0 ≤ α := (abs_nonneg _).trans h
  have h1 : |p| ≤ |A| + α := by
    have := abs_add_le (p - A) A
    rw [sub_add_cancel] at this
    linarith
  constructor
  · have e : p * p - A * A = (p - A) * (p + A) := by ring
    rw [e, abs_mul]
    have := abs_add_le p A
    exact mul_le_mul h (by linarith) (abs_nonneg _) h0
  · have := mul_le_mul h1 h1 (abs_nonneg _) (by positivity)
    rw [← abs_mul_abs_self]
    nlinarith

/-- the variance of the hat -/
theorem hat_var_float (hfl : FloatRound fl) {p q r A B C α β γ : ℝ} (hp : |p - A| ≤ α)
    (hq : |q - B| ≤ β) (hr : |r - C| ≤ γ) :
    |fl (0.5 * fl (fl (fl (p * p) + fl (r * r)) - fl (q * q))) - 0.5 * (A * A + C * C - B * B)| ≤
      hatErr α A β B γ C := by
  have hu := unitRoundoff_pos
  have g : ∀ a : ℝ, NearA 1 (fl (a * a)) (a * a) (a * a) := fun a =>
    (NearA.exact (abs_of_nonneg (mul_self_nonneg a)).le).fl hfl
  have h1 := ((g p).add (g r)).fl hfl
  have h2 := (h1.sub ((g q).mono (by norm_num : 1 ≤ 2))).fl hfl
  have h3 := ((h2.const_mul 0.5).fl hfl).2
  obtain ⟨a1, a2⟩ := sq_err hp
  obtain ⟨b1, b2⟩ := sq_err hq
  obtain ⟨c1, c2⟩ := sq_err hr
  have e : |0.5 * (p * p + r * r - q * q) - 0.5 * (A * A + C * C - B * B)| ≤
      (α * (2 * |A| + α) + β * (2 * |B| + β) + γ * (2 * |C| + γ)) / 2 := by
    rw [abs_le] at *
    constructor <;> linarith [a1.1, a1.2, b1.1, b1.2, c1.1, c1.2]
  have k : (1 + unitRoundoff) ^ (1 + 1 + 1 + 1) - 1 ≤ 6 * unitRoundoff := by
    unfold unitRoundoff; norm_num
  have h4 : ((1 + unitRoundoff) ^ (1 + 1 + 1 + 1) - 1) * (|(0.5 : ℝ)| * (p * p + r * r + q * q)) ≤
      3 * unitRoundoff * ((|A| + α) ^ 2 + (|B| + β) ^ 2 + (|C| + γ) ^ 2) := by
    have hs : 0 ≤ p * p + r * r + q * q := by nlinarith [mul_self_nonneg p, mul_self_nonneg q, mul_self_nonneg r]
    rw [show |(0.5 : ℝ)| = 1 / 2 by norm_num [abs_of_pos]]
    calc _ ≤ 6 * unitRoundoff * (1 / 2 * (p * p + r * r + q * q)) :=
          mul_le_mul_of_nonneg_right k (by linarith)
      _ = 3 * unitRoundoff * (p * p + r * r + q * q) := by ring
      _ ≤ _ := mul_le_mul_of_nonneg_left (by linarith) (by linarith)
  have h5 := abs_sub_le (fl (0.5 * fl (fl (fl (p * p) + fl (r * r)) - fl (q * q))))
    (0.5 * (p * p + r * r - q * q)) (0.5 * (A * A + C * C - B * B))
  unfold hatErr
  linarith

/-- clipping and taking the root of a variance with the error `E` -/
theorem hat_root_float (hfl : FloatRound fl) {v v' E : ℝ} (h : |v - v'| ≤ E) :
    let d := fl √(if v < 0 then 0 else v)
    let d' := √(if v' < 0 then 0 else v')
    |d - d'| ≤ 17 / 16 * √E + unitRoundoff * d' ∧ d' * |d - d'| ≤ 17 / 16 * E + unitRoundoff * d' ^ 2 := by
  intro d d'
  have hu := unitRoundoff_pos
  have hu1 : unitRoundoff ≤ 1 / 16 := by unfold unitRoundoff; norm_num
  have cl : ∀ w : ℝ, (if w < 0 then (0 : ℝ) else w) = max w 0 := by
    intro w
    split_ifs with hw
    · rw [max_eq_right hw.le]
    · rw [max_eq_left (not_lt.1 hw)]
  have hd : d = fl √(max v 0) := by simp only [d, cl]
  have hd' : d' = √(max v' 0) := by simp only [d', cl]
  clear_value d d'
  have hE : 0 ≤ E := (abs_nonneg _).trans h
  set r := √(max v 0) with hr
  have hr0 : 0 ≤ r := Real.sqrt_nonneg _
  have hd0 : 0 ≤ d' := hd' ▸ Real.sqrt_nonneg _
  have rs : r * r = max v 0 := Real.mul_self_sqrt (le_max_right _ _)
  have ds : d' * d' = max v' 0 := by rw [hd']; exact Real.mul_self_sqrt (le_max_right _ _)
  have hm : |r * r - d' * d'| ≤ E := by
    rw [rs, ds]; exact (abs_max_sub_max_le_abs v v' 0).trans h
  have hprod : |r * r - d' * d'| = |r - d'| * (r + d') := by
    rw [← abs_of_nonneg (add_nonneg hr0 hd0), ← abs_mul]
    congr 1
    ring
  have h1 : |r - d'| ≤ r + d' := by
    rw [abs_le]; constructor <;> linarith
  have h2 : |r - d'| ≤ √E := by
    apply Real.le_sqrt_of_sq_le
    rw [sq]
    exact (mul_le_mul_of_nonneg_left h1 (abs_nonneg _)).trans (hprod ▸ hm)
  have h3 : d' * |r - d'| ≤ E := by
    rw [mul_comm]
    exact (mul_le_mul_of_nonneg_left (by linarith) (abs_nonneg _)).trans (hprod ▸ hm)
  have h4 := hfl r
  rw [abs_of_nonneg hr0] at h4
  have h5 := abs_sub_le (fl r) r d'
  have h6 : r ≤ d' + |r - d'| := by linarith [le_abs_self (r - d')]
  have h7 : |d - d'| ≤ 17 / 16 * |r - d'| + unitRoundoff * d' := by
    rw [hd]
    have := mul_le_mul_of_nonneg_left h6 hu.le
    nlinarith [abs_nonneg (r - d')]
  refine ⟨by linarith, ?_⟩
  have := mul_le_mul_of_nonneg_left h7 hd0
  nlinarith

theorem err_float' (hfl : FloatRound fl) (d : ℝ) (n : ℤ) :
    |fl (d / fl √(n : ℝ)) - d / √(n : ℝ)| ≤ 4 * unitRoundoff * |d / √(n : ℝ)| := by
  rcases lt_or_ge 0 (n : ℝ) with h | h
  · exact err_float hfl d n h
  · have z : fl 0 = 0 := by
      have := hfl 0
      simpa using this
    rw [Real.sqrt_eq_zero'.2 h, z]
    simp [z]

/-- C110: if the rounded deviation function agrees with the exact one on each of the three series up
to given errors, then the rounded hat fails exactly as the exact one, or it agrees with it up to
the variance errors that the three errors cause. -/
theorem hat_float (hfl : FloatRound fl) (fn : DevName) (f : List ℝ → ℝ → TausArg → Py (DevOut ℝ))
    (ab bc ca : List ℝ) (rate : ℝ) (taus : TausArg) (bab bbc bca : ℝ → ℝ → ℤ → ℝ)
    (H : ∀ p ∈ [(ab, bab), (bc, bbc), (ca, bca)],
      (∃ e, f p.1 rate taus = .error e ∧ fn.run p.1 rate "phase" taus = .error e) ∨
      ∃ o o', f p.1 rate taus = .ok o ∧ fn.run p.1 rate "phase" taus = .ok o' ∧ FloatClose p.2 o o') :
    (∃ e, three_cornered_hat_phase_fl fl ab bc ca rate taus f = .error e ∧
      three_cornered_hat_phase ab bc ca rate taus fn = .error e) ∨
    ∃ oab obc oca o o', fn.run ab rate "phase" taus = .ok oab ∧ fn.run bc rate "phase" taus = .ok obc ∧
      fn.run ca rate "phase" taus = .ok oca ∧
      three_cornered_hat_phase_fl fl ab bc ca rate taus f = .ok o ∧
      three_cornered_hat_phase ab bc ca rate taus fn = .ok o' ∧
      HatClose (fun i => hatErr
        (bab (oab.taus.getD i 0) (oab.devs.getD i 0) (oab.ns.getD i 0)) (oab.devs.getD i 0)
        (bbc (obc.taus.getD i 0) (obc.devs.getD i 0) (obc.ns.getD i 0)) (obc.devs.getD i 0)
        (bca (oca.taus.getD i 0) (oca.devs.getD i 0) (oca.ns.getD i 0)) (oca.devs.getD i 0)) o o' := by
  unfold three_cornered_hat_phase_fl three_cornered_hat_phase
  rcases H (ab, bab) (by simp) with ⟨e, h1, h2⟩ | ⟨a, a', ha, ha', Ca⟩
  · left; exact ⟨e, by rw [h1]; rfl, by rw [h2]; rfl⟩
  rcases H (bc, bbc) (by simp) with ⟨e, h1, h2⟩ | ⟨b, b', hb, hb', Cb⟩
  · left; exact ⟨e, by rw [ha, h1]; rfl, by rw [ha', h2]; rfl⟩
  rcases H (ca, bca) (by simp) with ⟨e, h1, h2⟩ | ⟨c, c', hc, hc', Cc⟩
  · left; exact ⟨e, by rw [ha, hb, h1]; rfl, by rw [ha', hb', h2]; rfl⟩
  simp only at ha ha' hb hb' hc hc'
  rw [ha, hb, hc, ha', hb', hc']
  simp only [ok_bind]
  have T : ∀ {l : List ℝ} {n : ℕ}, l.length = n → l = tab n (fun i => l.getD i 0) := by
    intro l n h; subst h; exact eq_tab l 0
  have Tn : a'.ns = tab a'.taus.length (fun i => a'.ns.getD i 0) := by
    have := eq_tab a'.ns 0
    rwa [Ca.devs_len.2.2] at this
  have Ta := T Ca.devs_len.1
  have Ta' := T Ca.devs_len.2.1
  have Tb := T Cb.devs_len.1
  have Tb' := T Cb.devs_len.2.1
  have Tc := T Cc.devs_len.1
  have Tc' := T Cc.devs_len.2.1
  set N := a'.taus.length with hN
  set p := fun i => a.devs.getD i 0 with hp
  set A := fun i => a'.devs.getD i 0 with hA
  set q := fun i => b.devs.getD i 0 with hq
  set B := fun i => b'.devs.getD i 0 with hB
  set r := fun i => c.devs.getD i 0 with hr
  set C := fun i => c'.devs.getD i 0 with hC
  set n := fun i => a'.ns.getD i 0 with hn
  have Da : ∀ i < N, |p i - A i| ≤ bab (a'.taus.getD i 0) (A i) (n i) := Ca.devs
  have Db : ∀ i < b'.taus.length, |q i - B i| ≤ bbc (b'.taus.getD i 0) (B i) (b'.ns.getD i 0) := Cb.devs
  have Dc : ∀ i < c'.taus.length, |r i - C i| ≤ bca (c'.taus.getD i 0) (C i) (c'.ns.getD i 0) := Cc.devs
  clear_value p A q B r C n
  rw [Ca.ns, Ta, Ta', Tb, Tb', Tc, Tc', Tn]
  simp only [vmul_fl, vmul, vop_tab, ok_bind, tab_length]
  by_cases hl : N = b'.taus.length ∧ b'.taus.length = c'.taus.length
  · right
    rw [← hl.1] at Db
    rw [← hl.2, ← hl.1] at Dc
    rw [← hl.2, ← hl.1]
    rw [pyAssert_true ⟨rfl, rfl⟩]
    simp only [ok_bind, vadd_fl, vsub_fl, vadd, vsub, vop_tab, vscale_fl, vscale, map_tab]
    have zw : ∀ (f : ℝ → ℤ → ℝ) (g : ℕ → ℝ), List.zipWith f (tab N g) (tab N n) =
        tab N (fun i => f (g i) (n i)) := by
      intro f g
      apply tab_ext
      · simp
      · intro i hi
        rw [List.getElem?_zipWith, tab_getElem?, tab_getElem?, if_pos hi, if_pos hi]
    rw [zw, zw]
    refine ⟨a', b', c', _, _, rfl, rfl, rfl, rfl, rfl, ?_⟩
    have gA : ∀ i, a'.devs.getD i 0 = A i := fun i => by rw [hA]
    have gB : ∀ i, b'.devs.getD i 0 = B i := fun i => by rw [hB]
    have gC : ∀ i, c'.devs.getD i 0 = C i := fun i => by rw [hC]
    have gn : ∀ i, a'.ns.getD i 0 = n i := fun i => by rw [hn]
    simp only [gA, gB, gC, gn]
    have row : ∀ i < N, _ := fun i hi =>
      hat_root_float hfl (hat_var_float hfl (Da i hi) (Db i hi) (Dc i hi))
    refine ⟨rfl, Ca.taus, by simp [hN], ?_, ?_, ⟨_, rfl, by simp [hN], ?_⟩⟩
    · intro i (hi : i < N)
      simp only [tab_getD, if_pos hi]
      exact (row i hi).1
    · intro i (hi : i < N)
      simp only [tab_getD, if_pos hi]
      exact (row i hi).2
    · intro i (hi : i < N)
      simp only [tab_getD, if_pos hi]
      exact err_float' hfl _ _
  · left
    have f : ∀ (P : Prop) [Decidable P], ¬ P → pyAssert P = .error .assertionError := by
      intro P _ h
      simp [pyAssert, h]
    rw [f _ hl]
    exact ⟨_, rfl, rfl⟩

/-- C110 for `oadev`, the usual choice: phase values up to `B` -/
theorem hat_oadev_float (hfl : FloatRound fl) (hsum : ∀ l, FloatSum fl l (sum l)) (log10grid : List ℝ)
    (ab bc ca : List ℝ) (B : ℝ) (hab : ∀ v ∈ ab, |v| ≤ B) (hbc : ∀ v ∈ bc, |v| ≤ B)
    (hca : ∀ v ∈ ca, |v| ≤ B) (rate : ℝ) (hr : 0 < rate) (taus : TausArg) (ht : SafeTaus rate taus)
    (h1 : ab.length ≤ 2 ^ 47) (h2 : bc.length ≤ 2 ^ 47) (h3 : ca.length ≤ 2 ^ 47) :
    (∃ e, three_cornered_hat_phase_fl fl ab bc ca rate taus (oadev_fl fl sum log10grid) = .error e ∧
      three_cornered_hat_phase ab bc ca rate taus .oadev = .error e) ∨
    ∃ oab obc oca o o', oadev ab rate "phase" taus = .ok oab ∧ oadev bc rate "phase" taus = .ok obc ∧
      oadev ca rate "phase" taus = .ok oca ∧
      three_cornered_hat_phase_fl fl ab bc ca rate taus (oadev_fl fl sum log10grid) = .ok o ∧
      three_cornered_hat_phase ab bc ca rate taus .oadev = .ok o' ∧
      HatClose (fun i => hatErr
        (adevBound B (oab.taus.getD i 0) (oab.devs.getD i 0) (oab.ns.getD i 0)) (oab.devs.getD i 0)
        (adevBound B (obc.taus.getD i 0) (obc.devs.getD i 0) (obc.ns.getD i 0)) (obc.devs.getD i 0)
        (adevBound B (oca.taus.getD i 0) (oca.devs.getD i 0) (oca.ns.getD i 0)) (oca.devs.getD i 0)) o o' := by
  refine hat_float hfl .oadev (oadev_fl fl sum log10grid) ab bc ca rate taus (adevBound B) (adevBound B)
    (adevBound B) ?_
  intro p hp
  simp only [List.mem_cons, List.not_mem_nil, or_false] at hp
  rcases hp with rfl | rfl | rfl
  · exact oadev_float hfl hsum log10grid ab B hab rate hr taus h1 ht
  · exact oadev_float hfl hsum log10grid bc B hbc rate hr taus h2 ht
  · exact oadev_float hfl hsum log10grid ca B hca rate hr taus h3 ht

/-- the rounded sum of two numbers -/
theorem floatSum_pair {a b s : ℝ} (h : FloatSum fl [a, b] s) : s = fl (a + b) := by
  have one : ∀ {l : List ℝ} {p t : ℝ}, l = [p] → FloatSum fl l t → t = p := by
    intro l p t hl h
    cases h with
    | nil => cases hl
    | single x => simpa using hl
    | add h1 h2 hp _ _ =>
      exfalso
      have := hp.length_eq
      rw [hl, List.length_append, List.length_singleton] at this
      have := List.length_pos_of_ne_nil h1
      have := List.length_pos_of_ne_nil h2
      omega
  generalize hl : [a, b] = l at h
  cases h with
  | nil => cases hl
  | single x => cases hl
  | @add _ l₁ l₂ u v h1 h2 hp f1 f2 =>
    have e := hp.length_eq
    rw [← hl, List.length_append] at e
    simp only [List.length_cons, List.length_nil] at e
    have p1 := List.length_pos_of_ne_nil h1
    have p2 := List.length_pos_of_ne_nil h2
    obtain ⟨p, hp'⟩ := List.length_eq_one_iff.1 (show l₁.length = 1 by omega)
    obtain ⟨q, hq'⟩ := List.length_eq_one_iff.1 (show l₂.length = 1 by omega)
    rw [one hp' f1, one hq' f2]
    have := hp.sum_eq
    rw [← hl, hp', hq'] at this
    simp only [List.sum_cons, List.sum_nil, add_zero, List.sum_append] at this
    rw [this]

theorem binary64_pow (hfl : ∀ x, IsBinary64 x (fl x)) (e : ℤ) : fl (2 ^ e) = 2 ^ e := by
  have h2 : (2 : ℝ) ^ e = 2 ^ (e - 52) * 2 ^ (52 : ℕ) := by
    rw [← zpow_natCast, ← zpow_add₀ two_ne_zero]; congr 1; norm_num
  have h0 : (0 : ℝ) < 2 ^ (e - 52) := by positivity
  have h3 : (2 : ℝ) ^ e / 2 ^ (e - 52) = 2 ^ (52 : ℕ) := by
    rw [h2]; field_simp
  have := binary64_eq hfl (2 ^ e) (e - 52) (2 ^ 52) (by rw [abs_of_pos (by positivity), h3])
    (by rw [abs_of_pos (by positivity), h3]; norm_num) (by rw [h3]; norm_num)
  rw [this, h2]
  push_cast
  ring

/-- the phase `0, 0, 2c, 4c` with `c` a power of two: everything is exact -/
theorem oadev_fl_pow (hfl : ∀ x, IsBinary64 x (fl x)) (hsum : ∀ l, FloatSum fl l (sum l)) (e : ℤ) :
    ∃ err, oadev_fl fl sum [] [0, 0, 2 ^ (e + 1), 2 ^ (e + 2)] 1 (.list [((1 : ℕ) : ℝ) / 1]) =
      .ok ⟨[1], [2 ^ e], .arr [err], [2]⟩ := by
  have hr : FloatRound fl := fun x => isBinary64_rel (hfl x)
  have z : fl 0 = 0 := by
    have := hr 0
    simpa using this
  have o1 : fl 1 = 1 := by simpa using binary64_pow hfl 0
  have hs : SafeTaus 1 (.list [((1 : ℕ) : ℝ) / 1]) := by
    intro t ht
    rw [List.mem_singleton] at ht
    exact ⟨1, by norm_num, by rw [ht]; norm_num⟩
  unfold oadev_fl
  rw [tau_generator_float_safe hr [] _ 1 _ false (-1) (by norm_num) hs, effMax_default]
  rw [factors_single _ 1 one_ne_zero false _ 1 one_pos (by simp) (by simp) (by simp)]
  simp only [ok_bind, List.map_cons, List.map_nil]
  have t2 : (2 : ℝ) * 2 ^ (e + 1) = 2 ^ (e + 2) := by
    rw [show e + 2 = (e + 1) + 1 by ring, zpow_add_one₀ two_ne_zero (e + 1)]; ring
  have c1 : fl (2 * 2 ^ (e + 1)) = 2 ^ (e + 2) := by rw [t2]; exact binary64_pow hfl _
  have c3 : fl (2 ^ (e + 1) * 2 ^ (e + 1)) = 2 ^ (2 * e + 2) := by
    rw [← zpow_add₀ two_ne_zero, show e + 1 + (e + 1) = 2 * e + 2 by ring]; exact binary64_pow hfl _
  have c4 : fl (2 * 2) = 2 ^ (2 : ℤ) := by
    rw [show (2 : ℝ) * 2 = 2 ^ (2 : ℤ) by norm_num]; exact binary64_pow hfl _
  have c5 : fl (2 ^ (2 * e + 2) / 2 ^ (2 : ℤ)) = 2 ^ (2 * e) := by
    rw [← zpow_sub₀ two_ne_zero, show 2 * e + 2 - 2 = 2 * e by ring]; exact binary64_pow hfl _
  have c6 : √((2 : ℝ) ^ (2 * e)) = 2 ^ e := by
    rw [show 2 * e = e + e by ring, zpow_add₀ two_ne_zero]
    exact Real.sqrt_mul_self (by positivity)
  have c7 : sum [2 ^ (2 * e + 2), 0] = 2 ^ (2 * e + 2) := by
    rw [floatSum_pair (hsum _), add_zero]; exact binary64_pow hfl _
  have row : ∃ err, calc_adev_phase_fl fl sum [0, 0, 2 ^ (e + 1), 2 ^ (e + 2)] 1 1 1 =
      .ok (2 ^ e, err, 2) := by
    simp only [calc_adev_phase_fl]
    have sl : ∀ a b c d : ℝ, sliceStep [a, b, c, d] ((2 * 1 : ℕ) : ℤ) 1 = .ok [c, d] ∧
        sliceStep [a, b, c, d] ((1 * 1 : ℕ) : ℤ) 1 = .ok [b, c, d] ∧
        sliceStep [a, b, c, d] ((0 : ℕ) : ℤ) 1 = .ok [a, b, c, d] := by
      intro a b c d
      refine ⟨?_, ?_, ?_⟩ <;>
      · simp only [sliceStep, if_neg one_ne_zero, sliceFrom_nat]; simp [everyNth]
    rw [(sl _ _ _ _).1, (sl _ _ _ _).2.1, (sl _ _ _ _).2.2]
    have l : ∀ a b c d : ℝ, min (min [a, b, c, d].length [b, c, d].length) [c, d].length = 2 :=
      fun _ _ _ _ => rfl
    have t : ∀ (a b c d : ℝ), sliceTo [a, b, c, d] (2 : ℤ) = [a, b] := fun _ _ _ _ => rfl
    have t' : ∀ (a b c : ℝ), sliceTo [a, b, c] (2 : ℤ) = [a, b] := fun _ _ _ => rfl
    have t'' : ∀ (a b : ℝ), sliceTo [a, b] (2 : ℤ) = [a, b] := fun _ _ => rfl
    have vo : ∀ (f : ℝ → ℝ → ℝ) (a b c d : ℝ), vop f [a, b] [c, d] = .ok [f a c, f b d] :=
      fun _ _ _ _ _ => rfl
    simp only [ok_bind, l, if_neg (by norm_num : ¬ (2 = 0)), t, t', t'', vscale_fl, vsub_fl, vadd_fl,
      vmul_fl, List.map_cons, List.map_nil, vo, mul_zero, z, sub_zero, c1, binary64_pow hfl, sub_self,
      add_zero, c3, c7, Nat.cast_ofNat, c4, c5, c6, Nat.cast_one, div_one, mul_one]
    exact ⟨_, rfl⟩
  obtain ⟨err, row⟩ := row
  refine ⟨err, ?_⟩
  have h := runTaus_eq' [1] (fun m => calc_adev_phase_fl fl sum [0, 0, 2 ^ (e + 1), 2 ^ (e + 2)] 1 m 1)
    (fun _ => 1) (fun _ => 2 ^ e) (fun _ => err) (fun _ => 2) (by
      intro m hm
      rw [List.mem_singleton] at hm
      subst hm
      exact ⟨_, row, by simp, fun _ => rfl⟩)
  simp only [List.map_cons, List.map_nil] at h
  rw [show ((1 : ℕ) : ℝ) / 1 = 1 by norm_num, o1, h]
  simp [sweep]

theorem oadev_pow (e : ℤ) :
    ∃ err, oadev [0, 0, 2 ^ (e + 1), 2 ^ (e + 2)] 1 "phase" (.list [((1 : ℕ) : ℝ) / 1]) =
      .ok ⟨[1], [2 ^ e], .arr [err], [2]⟩ := by
  rw [oadev_phase_eq _ _ (by norm_num), table_single _ _ (by norm_num) _ _ _ _ _ 1 (by norm_num) (by simp)
    (by norm_num) (by simp) (by norm_num)]
  have h : Spec.oadev (seq [0, 0, 2 ^ (e + 1), 2 ^ (e + 2)]) 4 1 (((1 : ℕ) : ℝ) / 1) = 2 ^ e := by
    have e2 : (2 : ℝ) ^ (e + 2) = 4 * 2 ^ e := by
      rw [zpow_add₀ two_ne_zero]; norm_num; ring
    have e1 : (2 : ℝ) ^ (e + 1) = 2 * 2 ^ e := by
      rw [zpow_add₀ two_ne_zero]; norm_num; ring
    rw [e1, e2]
    have hp : (0 : ℝ) < 2 ^ e := by positivity
    generalize (2 : ℝ) ^ e = c at hp
    simp only [Spec.oadev, rms, d2, seq, Finset.sum_range_succ]
    rw [← Real.sqrt_sq hp.le]
    congr 1
    rw [Real.sqrt_sq hp.le]
    norm_num [Finset.sum_range_succ]
    ring
  have l : [(0 : ℝ), 0, 2 ^ (e + 1), 2 ^ (e + 2)].length = 4 := rfl
  rw [l, h]
  exact ⟨2 ^ e / √2, by norm_num⟩

/-- C110: the cancellation is real.  With the deviations 1, 1 and `2^-30` of the three pairs, the
exact deviation of clock A is `2^-30.5`, and in double precision the hat returns zero. -/
theorem hat_float_lost (hfl : ∀ x, IsBinary64 x (fl x)) (hsum : ∀ l, FloatSum fl l (sum l)) :
    ∃ o o', three_cornered_hat_phase_fl fl [0, 0, 2, 4] [0, 0, 2, 4] [0, 0, 1 / 2 ^ 29, 1 / 2 ^ 28] 1
        (.list [((1 : ℕ) : ℝ) / 1]) (oadev_fl fl sum []) = .ok o ∧
      three_cornered_hat_phase [0, 0, 2, 4] [0, 0, 2, 4] [0, 0, 1 / 2 ^ 29, 1 / 2 ^ 28] 1
        (.list [((1 : ℕ) : ℝ) / 1]) .oadev = .ok o' ∧
      o.devs = [0] ∧ o'.devs = [√(1 / 2 ^ 61)] := by
  obtain ⟨f1, h1⟩ := oadev_fl_pow hfl hsum 0
  obtain ⟨f2, h2⟩ := oadev_fl_pow hfl hsum (-30)
  obtain ⟨e1, g1⟩ := oadev_pow 0
  obtain ⟨e2, g2⟩ := oadev_pow (-30)
  norm_num at h1 h2 g1 g2
  have hr : FloatRound fl := fun x => isBinary64_rel (hfl x)
  have z : fl 0 = 0 := by
    have := hr 0
    simpa using this
  have o1 : fl 1 = 1 := by simpa using binary64_pow hfl 0
  have s1 : fl (1 / 1073741824 * (1 / 1073741824)) = 1 / 2 ^ 60 := by
    have := binary64_pow hfl (-60)
    norm_num at this ⊢
    exact this
  have s2 : fl (1 + 1 / 2 ^ 60) = 1 := by
    have := binary64_eq hfl (1 + 1 / 2 ^ 60) (-52) (2 ^ 52) (by norm_num [abs_of_pos])
      (by norm_num [abs_of_pos]) (by norm_num [abs_of_pos])
    rw [this]; norm_num
  have n1 : ((1 : ℕ) : ℝ) / 1 = 1 := by norm_num
  have n2 : (1 : ℝ) / 2 ^ 29 = 1 / 536870912 := by norm_num
  have n3 : (1 : ℝ) / 2 ^ 28 = 1 / 268435456 := by norm_num
  unfold three_cornered_hat_phase_fl three_cornered_hat_phase
  simp only [DevName.run, n1, n2, n3]
  rw [h1, h2, g1, g2]
  simp only [ok_bind]
  have vo : ∀ (f : ℝ → ℝ → ℝ) (a b : ℝ), vop f [a] [b] = .ok [f a b] := fun _ _ _ => rfl
  simp only [vmul_fl, vadd_fl, vsub_fl, vmul, vadd, vsub, vo, ok_bind, List.length_singleton]
  rw [pyAssert_true (by simp)]
  simp only [ok_bind, vscale_fl, vscale, List.map_cons, List.map_nil, mul_one, o1, s1, s2, sub_self, z,
    mul_zero, lt_irrefl, if_false, Real.sqrt_zero]
  refine ⟨_, _, rfl, rfl, rfl, ?_⟩
  norm_num

/-- Three clocks with four phase values each meet the hypotheses, and the result is a table. -/
example : ∃ (fl : ℝ → ℝ) (sum : List ℝ → ℝ) (o : DevOut ℝ), FloatRound fl ∧
    (∀ l, FloatSum fl l (sum l)) ∧
    SafeTaus 1 (.list [((1 : ℕ) : ℝ) / 1]) ∧ (∀ v ∈ [(0 : ℝ), 0, 2, 4], |v| ≤ 4) ∧
    three_cornered_hat_phase_fl fl [0, 0, 2, 4] [0, 0, 2, 4] [0, 0, 1 / 2 ^ 29, 1 / 2 ^ 28] 1
      (.list [((1 : ℕ) : ℝ) / 1]) (oadev_fl fl sum []) = .ok o := by
  choose fl hfl using exists_isBinary64
  obtain ⟨sum, hsum⟩ := exists_floatSum fl
  obtain ⟨o, o', h, _⟩ := hat_float_lost hfl hsum
  refine ⟨fl, sum, o, fun x => isBinary64_rel (hfl x), hsum, ?_, ?_, h⟩
  · intro t ht
    rw [List.mem_singleton] at ht
    exact ⟨1, by norm_num, by rw [ht]; norm_num⟩
  · intro v hv
    simp only [List.mem_cons, List.not_mem_nil, or_false] at hv
    rcases hv with rfl | rfl | rfl | rfl <;> norm_num

end AT
