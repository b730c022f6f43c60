import Verif.Lemmas.Greenhall

/-!
# C43, C44: Greenhall's equivalent degrees of freedom
-/

namespace AT

open Spec Finset Real

/-! ## C44 -/

/-- C44: the kernels `sw` and `sx` are even; this holds for all arguments, including those
for which they raise -/
theorem greenhall_sw_even (t : ℝ) (alpha : ℤ) : greenhall_sw (-t) alpha = greenhall_sw t alpha := by
  have h2 : (-t) ^ 2 = t ^ 2 := by ring
  have h4 : (-t) ^ 4 = t ^ 4 := by ring
  have h6 : (-t) ^ 6 = t ^ 6 := by ring
  simp only [greenhall_sw, abs_neg, abs_pow, neg_eq_zero, h2, h4, h6]

theorem greenhall_sx_even (t : ℝ) (F : FArg) (alpha : ℤ) (h : ghOk F alpha) :
    greenhall_sx (-t) F alpha = greenhall_sx t F alpha := by
  rw [greenhall_sx_eq _ _ _ h, greenhall_sx_eq _ _ _ h, ghSx_even]

theorem greenhall_sz_even (t : ℝ) (F : FArg) (alpha : ℤ) (d : ℕ) (h : ghOk F alpha)
    (hd : 1 ≤ d) (hd3 : d ≤ 3) : greenhall_sz (-t) F alpha d = greenhall_sz t F alpha d := by
  rw [greenhall_sz_eq _ _ _ _ h hd hd3, greenhall_sz_eq _ _ _ _ h hd hd3, ghSz_even]

example : greenhall_sz (-3) (.fin 2) (-1) 2 = greenhall_sz 3 (.fin 2) (-1) 2 :=
  greenhall_sz_even 3 _ _ _ ⟨by norm_num, by norm_num, by norm_num⟩ (by norm_num) (by norm_num)

/-- C44: `sz` is the central difference of order `2 d` of `sx` with binomial weights -/
theorem greenhall_sz_central (t : ℝ) (F : FArg) (alpha : ℤ) (d : ℕ) (h : ghOk F alpha)
    (hd : 1 ≤ d) (hd3 : d ≤ 3) :
    ∃ sx : ℝ → ℝ, (∀ u, greenhall_sx u F alpha = .ok (sx u)) ∧
      greenhall_sz t F alpha d = .ok (∑ k ∈ range (2 * d + 1),
        (-1 : ℝ) ^ (d + k) * (2 * d).choose k * sx (t + k - d)) :=
  ⟨ghSx F alpha, fun u => greenhall_sx_eq u F alpha h, greenhall_sz_eq t F alpha d h hd hd3⟩

/-- C44: `sx` is `F²` times the second difference of `sw` with step `1/F` -/
theorem greenhall_sx_central (t F : ℝ) (alpha : ℤ) (h0 : -4 ≤ alpha) (h1 : alpha ≤ 2) (hF : F ≠ 0) :
    ∃ sw : ℝ → ℝ, (∀ u, greenhall_sw u alpha = .ok (sw u)) ∧
      greenhall_sx t (.fin F) alpha = .ok (F ^ 2 * (2 * sw t - sw (t - 1 / F) - sw (t + 1 / F))) :=
  ⟨ghSw alpha, fun u => greenhall_sw_eq u alpha h0 h1, greenhall_sx_eq t (.fin F) alpha ⟨h0, h1, hF⟩⟩

/-- the hypotheses are met, with a non-zero value -/
example : ghOk (.fin 1) 2 ∧ greenhall_sz 0 (.fin 1) 2 1 = .ok 4 := by
  have h : ghOk (.fin 1) 2 := ⟨by norm_num, by norm_num, one_ne_zero⟩
  refine ⟨h, ?_⟩
  rw [greenhall_sz_eq _ _ _ _ h le_rfl (by norm_num)]
  congr 1
  simp only [ghSz, sum_range_succ, sum_range_zero, ghSx, ghSw]
  norm_num

/-! ## C43 -/

theorem ghM_pos (d m N : ℕ) (ov md : Bool) : 0 < ghM d m N ov md := by
  unfold ghM; exact Nat.add_pos_left one_pos _

theorem ghS_pos (m : ℕ) (ov : Bool) (hm : 0 < m) : 0 < ghS m ov := by
  unfold ghS; split <;> omega

theorem ghR_pos (d m N : ℕ) (ov md : Bool) (hm : 0 < m) : 0 < ghR d m N ov md :=
  div_pos (by exact_mod_cast ghM_pos d m N ov md) (by exact_mod_cast ghS_pos m ov hm)

theorem greenhall_M_eq (d m N : ℕ) (ov md : Bool) (hm : 0 < m) (hN : ghL d m md ≤ N) :
    greenhall_M d m N (if md then 1 else m) (if ov then m else 1) = .ok (ghM d m N ov md : ℝ) := by
  have hm' : (m : ℝ) ≠ 0 := by positivity
  have hF : (((if md then 1 else m : ℕ)) : ℝ) ≠ 0 := by split <;> simp [hm']
  have hl : (m : ℝ) / ((if md then 1 else m : ℕ) : ℝ) + m * d = (ghL d m md : ℕ) := by
    unfold ghL
    cases md <;> simp [hm']
  unfold greenhall_M
  simp only [pyDiv_ne hF, ok_bind, pyDiv_ne hm', hl]
  rw [← Nat.cast_sub hN, ← Nat.cast_mul, Int.floor_div_natCast, Int.floor_natCast]
  congr 1
  unfold ghM ghS
  push_cast
  norm_cast

/-- the combinations that the code rejects although they are documented as allowed:
unmodified variances of order 3 with `alpha = -4` and much data, and unmodified variances
with `alpha = 2` and little data -/
noncomputable def ghCrash (alpha : ℤ) (d m N : ℕ) (ov md : Bool) : Option PyErr :=
  if md = false ∧ alpha = -4 ∧ 100 < ghJ d m N ov md ∧ (d : ℝ) + 1 < ghR d m N ov md then
    some .assertionError
  else if md = false ∧ alpha = 2 ∧ ghR d m N ov md ≤ d then some .notImplementedError
  else none

theorem table1_eq (alpha : ℤ) (d : ℕ) (h0 : -4 ≤ alpha) (h1 : alpha ≤ 2) (hd : 1 ≤ d) (hd3 : d ≤ 3)
    (h : 1 < alpha + 2 * d) : greenhall_table1 alpha d = .ok (ghTable1 alpha d) := by
  obtain rfl | rfl | rfl | rfl | rfl | rfl | rfl : alpha = -4 ∨ alpha = -3 ∨ alpha = -2 ∨
    alpha = -1 ∨ alpha = 0 ∨ alpha = 1 ∨ alpha = 2 := by omega
  all_goals
    obtain rfl | rfl | rfl : d = 1 ∨ d = 2 ∨ d = 3 := by omega
  all_goals first
    | (exfalso; revert h; norm_num; done)
    | (simp [greenhall_table1, pyGet, table1, ghTable1, ok_bind]; try norm_num)

theorem table2_eq (alpha : ℤ) (d : ℕ) (h0 : -3 ≤ alpha) (h1 : alpha ≤ 1) (hd : 1 ≤ d) (hd3 : d ≤ 3)
    (h : 1 < alpha + 2 * d) : greenhall_table2 alpha d = .ok (ghTable2 alpha d) := by
  obtain rfl | rfl | rfl | rfl | rfl : alpha = -3 ∨ alpha = -2 ∨
    alpha = -1 ∨ alpha = 0 ∨ alpha = 1 := by omega
  all_goals
    obtain rfl | rfl | rfl : d = 1 ∨ d = 2 ∨ d = 3 := by omega
  all_goals first
    | (exfalso; revert h; norm_num; done)
    | (rw [greenhall_table2, pyAssert_true (by decide)]
       simp [pyGet, table2, ghTable2, ok_bind]; try norm_num)

theorem table3_eq (d : ℕ) (hd : 1 ≤ d) (hd3 : d ≤ 3) : greenhall_table3 1 d = .ok (ghTable3 d) := by
  rw [greenhall_table3, pyAssert_true rfl]
  obtain rfl | rfl | rfl : d = 1 ∨ d = 2 ∨ d = 3 := by omega
  all_goals simp [pyGet, ghTable3, ok_bind]; try norm_num

/-- C43: for every allowed combination of noise type, order, averaging factor and number of
points, `edf_greenhall` evaluates Greenhall's formula for that case or - in the two cases of
`ghCrash` - raises. -/
theorem edf_greenhall_eq_partial (alpha : ℤ) (d m N : ℕ) (ov md : Bool) (h0 : -4 ≤ alpha)
    (h1 : alpha ≤ 2) (hd : 1 ≤ d) (hd3 : d ≤ 3) (h : 1 < alpha + 2 * d) (hm : 0 < m)
    (hN : ghL d m md ≤ N) :
    edf_greenhall alpha d m N ov md =
      match ghCrash alpha d m N ov md with
      | some e => .error e
      | none => .ok (invEdf (ghInv alpha d m N ov md).1 (ghInv alpha d m N ov md).2) := by
  have hM0 := ghM_pos d m N ov md
  have hS0 := ghS_pos m ov hm
  have hr0 := ghR_pos d m N ov md hm
  have hMR : (ghM d m N ov md : ℝ) ≠ 0 := by positivity
  have hSR : (ghS m ov : ℝ) ≠ 0 := by positivity
  have hmR : (m : ℝ) ≠ 0 := by positivity
  have hS : (if ov then m else 1 : ℕ) = ghS m ov := rfl
  have hJ : min ((ghM d m N ov md : ℕ) : ℝ) (((d : ℝ) + 1) * (ghS m ov : ℕ)) = (ghJ d m N ov md : ℕ) := by
    unfold ghJ; push_cast; rfl
  have hr : ((ghM d m N ov md : ℕ) : ℝ) / (ghS m ov : ℕ) = ghR d m N ov md := rfl
  have hJ100 : ∀ J : ℕ, ((J : ℝ) ≤ 100 ↔ J ≤ 100) := fun J => by
    rw [show (100 : ℝ) = ((100 : ℕ) : ℝ) by norm_num, Nat.cast_le]
  have hmd : ((m : ℝ) * (d + 1) ≤ 100 ↔ m * (d + 1) ≤ 100) := by
    rw [← hJ100]; push_cast; rfl
  have hrp : (100 : ℝ) / ghR d m N ov md ≠ 0 := by positivity
  have h100 : greenhall_BasicSum 100 100 = greenhall_BasicSum ((100 : ℕ) : ℝ) 100 := by norm_num
  have o1 : ghOk (.fin 1) alpha := ⟨h0, h1, one_ne_zero⟩
  have om : ghOk (.fin m) alpha := ⟨h0, h1, hmR⟩
  unfold edf_greenhall
  simp only
  rw [pyAssert_true h]
  simp only [ok_bind]
  rw [greenhall_M_eq d m N ov md hm hN]
  simp only [ok_bind]
  rw [hS, hJ, hr]
  simp only [hJ100, hmd]
  cases md with
  | true =>
    simp only [if_true, ghInv, ghCrash, Bool.true_eq_false, false_and, if_false]
    split_ifs with c1 c2
    · rw [greenhall_sz_eq _ _ _ _ o1 hd hd3, greenhall_BasicSum_eq _ _ _ _ _ _ o1 hd hd3 hMR hSR]
      rfl
    · rw [table1_eq alpha d h0 h1 hd hd3 h]
      rfl
    · rw [Nat.cast_one, greenhall_sz_eq _ _ _ _ o1 hd hd3, h100,
        greenhall_BasicSum_eq _ _ _ _ _ _ o1 hd hd3 (by norm_num) hrp]
      rfl
  | false =>
    simp only [Bool.false_eq_true, if_false, ghInv, ghCrash, true_and]
    by_cases ha0 : alpha ≤ 0
    · have oi : ghOk .inf alpha := ⟨by omega, ha0⟩
      have ha2 : ¬ alpha = 2 := by omega
      simp only [ha0, if_true, ha2, false_and, if_false]
      by_cases c1 : ghJ d m N ov false ≤ 100
      · have : ¬ (alpha = -4 ∧ 100 < ghJ d m N ov false ∧ (d : ℝ) + 1 < ghR d m N ov false) := by
          rintro ⟨-, hh, -⟩; omega
        rw [if_pos c1, if_neg this, if_pos c1]
        by_cases c2 : m * (d + 1) ≤ 100
        · rw [if_pos c2, if_pos c2, greenhall_sz_eq _ _ _ _ om hd hd3,
            greenhall_BasicSum_eq _ _ _ _ _ _ om hd hd3 hMR hSR]
          rfl
        · rw [if_neg c2, if_neg c2, greenhall_sz_eq _ _ _ _ oi hd hd3,
            greenhall_BasicSum_eq _ _ _ _ _ _ oi hd hd3 hMR hSR]
          rfl
      · rw [if_neg c1, if_neg c1]
        by_cases c2 : (d : ℝ) + 1 < ghR d m N ov false
        · rw [if_pos c2, if_pos c2]
          by_cases c4 : alpha = -4
          · rw [if_pos ⟨c4, by omega, c2⟩, greenhall_table2, pyAssert_false (by rw [c4]; decide)]
            rfl
          · rw [if_neg (by tauto), table2_eq alpha d (by omega) (by omega) hd hd3 h]
            rfl
        · rw [if_neg c2, if_neg c2, if_neg (by tauto), greenhall_sz_eq _ _ _ _ oi hd hd3, h100,
            greenhall_BasicSum_eq _ _ _ _ _ _ oi hd hd3 (by norm_num) hrp]
          rfl
    · have ha4 : ¬ alpha = -4 := by omega
      simp only [ha0, if_false, ha4, false_and]
      by_cases ha1 : alpha = 1
      · subst ha1
        have op : ghOk (.fin (100 / ghR d m N ov false)) 1 := ⟨by norm_num, by norm_num, hrp⟩
        have ha2 : ¬ (1 : ℤ) = 2 := by norm_num
        simp only [if_true, ha2, false_and, if_false]
        by_cases c1 : ghJ d m N ov false ≤ 100
        · rw [if_pos c1, if_pos c1, greenhall_sz_eq _ _ _ _ om hd hd3,
            greenhall_BasicSum_eq _ _ _ _ _ _ om hd hd3 hMR hSR]
          rfl
        · rw [if_neg c1, if_neg c1]
          by_cases c2 : (d : ℝ) + 1 < ghR d m N ov false
          · rw [if_pos c2, if_pos c2, table2_eq 1 d (by omega) (by omega) hd hd3 h, table3_eq d hd hd3]
            rfl
          · rw [if_neg c2, if_neg c2, table3_eq d hd hd3, h100,
              greenhall_BasicSum_eq _ _ _ _ _ _ op hd hd3 (by norm_num) hrp]
            rfl
      · have ha2 : alpha = 2 := by omega
        subst ha2
        have hK : (⌈ghR d m N ov false⌉ ≤ (d : ℤ) ↔ ghR d m N ov false ≤ d) := by
          rw [Int.ceil_le]; push_cast; rfl
        simp only [if_true, true_and, hK, show ¬ (2 : ℤ) = 1 by norm_num, if_false]
        by_cases c : ghR d m N ov false ≤ d
        · rw [if_pos c, if_pos c]
        · rw [if_neg c, if_neg c]

example := edf_greenhall_eq_partial 0 2 5 100 true false (by norm_num) (by norm_num) (by norm_num) (by norm_num)
  (by norm_num) (by norm_num) (by unfold ghL; norm_num)

/-- the number of summands for filter and stride factors that need not be those of a variance in
the library -/
theorem greenhall_M_of_dvd (d m N S F : ℕ) (hm : 0 < m) (hF : 0 < F) (hFm : F ∣ m)
    (hN : m / F + m * d ≤ N) :
    greenhall_M d m N F S = .ok ((1 + S * (N - (m / F + m * d)) / m : ℕ) : ℝ) := by
  have hm' : (m : ℝ) ≠ 0 := by positivity
  have hF' : (F : ℝ) ≠ 0 := by positivity
  have hl : (m : ℝ) / (F : ℝ) + m * d = ((m / F + m * d : ℕ) : ℝ) := by
    push_cast [Nat.cast_div hFm hF']; rfl
  unfold greenhall_M
  simp only [pyDiv_ne hF', ok_bind, pyDiv_ne hm', hl]
  rw [← Nat.cast_sub hN, ← Nat.cast_mul, Int.floor_div_natCast, Int.floor_natCast]
  congr 1
  push_cast
  norm_cast

/-- C43: `edf_greenhall_simple` evaluates eqn (13), for every filter factor that divides the
averaging factor and every stride factor: the number of summands is `1 + ⌊S (N - L) / m⌋` with
`L = m/F + m d`, and the basic sum stops at the smaller of that number and `(d+1) S`. -/
theorem edf_greenhall_simple_eq (alpha : ℤ) (d m S F N : ℕ) (h0 : -4 ≤ alpha) (h1 : alpha ≤ 2)
    (hd : 1 ≤ d) (hd3 : d ≤ 3) (hm : 0 < m) (hS : 0 < S) (hF : 0 < F) (hFm : F ∣ m)
    (hN : m / F + m * d ≤ N) (M : ℕ) (hM : M = 1 + S * (N - (m / F + m * d)) / m) :
    edf_greenhall_simple alpha d m S F N =
      .ok (invEdf (ghSum (min M ((d + 1) * S)) M S (.fin F) alpha d)
        (ghSz (.fin F) alpha d 0 ^ 2 * M)) := by
  have o : ghOk (.fin F) alpha := ⟨h0, h1, by positivity⟩
  have hM0 : 0 < M := by rw [hM]; exact Nat.add_pos_left one_pos _
  unfold edf_greenhall_simple
  rw [greenhall_M_of_dvd d m N S F hm hF hFm hN, ← hM]
  simp only [ok_bind]
  rw [greenhall_sz_eq _ _ _ _ o hd hd3,
    show min (M : ℝ) (((d : ℝ) + 1) * (S : ℝ)) = ((min M ((d + 1) * S) : ℕ) : ℝ) by push_cast; rfl,
    greenhall_BasicSum_eq _ _ _ _ _ _ o hd hd3 (by positivity) (by positivity)]
  rfl

/-- C43: with at most 100 terms `edf_greenhall` is `edf_greenhall_simple` with the factors of the
estimator: stride `m` (overlapping) or 1, filter factor 1 (modified) or `m`.  For unmodified
variances this is so for flicker phase noise, and for the lower exponents if `m (d+1) ≤ 100`. -/
theorem edf_greenhall_simple_agrees (alpha : ℤ) (d m N : ℕ) (ov md : Bool) (h0 : -4 ≤ alpha)
    (h1 : alpha ≤ 2) (hd : 1 ≤ d) (hd3 : d ≤ 3) (h : 1 < alpha + 2 * d) (hm : 0 < m)
    (hN : (if md then m else 1) + m * d ≤ N)
    (hJ : min (1 + (if ov then m else 1) * (N - ((if md then m else 1) + m * d)) / m)
      ((d + 1) * (if ov then m else 1)) ≤ 100)
    (hc : md = true ∨ alpha = 1 ∨ (alpha ≤ 0 ∧ m * (d + 1) ≤ 100)) :
    edf_greenhall alpha d m N ov md =
      edf_greenhall_simple alpha d m (if ov then m else 1) (if md then 1 else m) N := by
  have hL : m / (if md then 1 else m) + m * d = ghL d m md := by
    unfold ghL; cases md <;> simp [Nat.div_self hm]
  rw [edf_greenhall_eq_partial alpha d m N ov md h0 h1 hd hd3 h hm hN,
    edf_greenhall_simple_eq alpha d m (if ov then m else 1) (if md then 1 else m) N h0 h1 hd hd3 hm
      (ghS_pos m ov hm) (by split <;> omega) (by split <;> simp) (by rw [hL]; exact hN)
      (ghM d m N ov md) (by rw [hL]; rfl)]
  have hJ' : ghJ d m N ov md ≤ 100 := hJ
  have hcr : ghCrash alpha d m N ov md = none := by
    unfold ghCrash
    rcases hc with rfl | rfl | ⟨ha, -⟩
    · simp
    · simp
    · rw [if_neg (by rintro ⟨-, -, hh, -⟩; omega), if_neg (by rintro ⟨-, hh, -⟩; omega)]
  rw [hcr]
  simp only [ghInv]
  cases md with
  | true => rw [if_pos rfl, if_pos hJ']; simp [ghJ, ghS]
  | false =>
    simp only [Bool.false_eq_true, if_false]
    rcases hc with hc | rfl | ⟨ha, hc⟩
    · simp at hc
    · rw [if_neg (by norm_num), if_pos rfl, if_pos hJ']; rfl
    · rw [if_pos ha, if_pos hJ', if_pos hc]; rfl

/-- overlapping Allan variance of white FM, 100 points, `m = 5`: `M = 90`, `J = 15` -/
example : edf_greenhall 0 2 5 100 true false = edf_greenhall_simple 0 2 5 5 5 100 :=
  edf_greenhall_simple_agrees 0 2 5 100 true false (by norm_num) (by norm_num) (by norm_num)
    (by norm_num) (by norm_num) (by norm_num) (by norm_num) (by norm_num) (by norm_num)

/-- filter factor 2, stride 3, between the factors of the estimators: `L = 15`, `M = 43` -/
example := edf_greenhall_simple_eq (-1) 2 6 3 2 100 (by norm_num) (by norm_num) (by norm_num)
  (by norm_num) (by norm_num) (by norm_num) (by norm_num) (by norm_num) (by norm_num) 43 (by norm_num)

/-- C43: the documented restriction; combinations with `alpha + 2 d ≤ 1` are rejected, for
all other arguments -/
theorem edf_greenhall_reject (alpha : ℤ) (d m N : ℕ) (ov md : Bool) (h : alpha + 2 * d ≤ 1) :
    edf_greenhall alpha d m N ov md = .error .assertionError := by
  unfold edf_greenhall
  simp only
  rw [pyAssert_false (by omega)]
  rfl

example : edf_greenhall (-3) 2 5 100 true false = .error .assertionError :=
  edf_greenhall_reject _ _ _ _ _ _ (by norm_num)

/-- C43: the table entries used for allowed combinations are genuine: positive, with
`a1 < a0`, so none of them is the placeholder `(-1, -1)` -/
theorem ghTable1_pos (alpha : ℤ) (d : ℕ) (h0 : -4 ≤ alpha) (h1 : alpha ≤ 2) (hd : 1 ≤ d)
    (hd3 : d ≤ 3) (h : 1 < alpha + 2 * d) :
    ∃ a, greenhall_table1 alpha d = .ok a ∧ 0 < a.2 ∧ a.2 < a.1 := by
  refine ⟨_, table1_eq alpha d h0 h1 hd hd3 h, ?_⟩
  obtain rfl | rfl | rfl | rfl | rfl | rfl | rfl : alpha = -4 ∨ alpha = -3 ∨ alpha = -2 ∨
    alpha = -1 ∨ alpha = 0 ∨ alpha = 1 ∨ alpha = 2 := by omega
  all_goals
    obtain rfl | rfl | rfl : d = 1 ∨ d = 2 ∨ d = 3 := by omega
  all_goals first
    | (exfalso; revert h; norm_num; done)
    | (simp only [ghTable1]; norm_num)

example := ghTable1_pos (-2) 3 (by norm_num) (by norm_num) (by norm_num) (by norm_num) (by norm_num)

theorem ghTable2_pos (alpha : ℤ) (d : ℕ) (h0 : -3 ≤ alpha) (h1 : alpha ≤ 1) (hd : 1 ≤ d)
    (hd3 : d ≤ 3) (h : 1 < alpha + 2 * d) :
    ∃ a, greenhall_table2 alpha d = .ok a ∧ 0 < a.2 ∧ a.2 < a.1 := by
  refine ⟨_, table2_eq alpha d h0 h1 hd hd3 h, ?_⟩
  obtain rfl | rfl | rfl | rfl | rfl : alpha = -3 ∨ alpha = -2 ∨
    alpha = -1 ∨ alpha = 0 ∨ alpha = 1 := by omega
  all_goals
    obtain rfl | rfl | rfl : d = 1 ∨ d = 2 ∨ d = 3 := by omega
  all_goals first
    | (exfalso; revert h; norm_num; done)
    | (simp only [ghTable2]; norm_num)

example := ghTable2_pos (-2) 3 (by norm_num) (by norm_num) (by norm_num) (by norm_num) (by norm_num)

/-- C43 fails for random run noise and the overlapping Hadamard deviation: AssertionError for
1000 points and averaging factor 50, though `alpha + 2 d = 2 > 1` -/
theorem edf_greenhall_assert :
    edf_greenhall (-4) 3 50 1000 true false = .error .assertionError := by
  have hM : ghM 3 50 1000 true false = 850 := by decide
  have hJ : ghJ 3 50 1000 true false = 200 := by decide
  have hr : ghR 3 50 1000 true false = 17 := by
    rw [ghR, hM, show ghS 50 true = 50 by decide]; norm_num
  rw [edf_greenhall_eq_partial _ _ _ _ _ _ (by norm_num) (by norm_num) (by norm_num) (by norm_num)
    (by norm_num) (by norm_num) (by decide)]
  rw [show ghCrash (-4) 3 50 1000 true false = some .assertionError by
    rw [ghCrash, if_pos ⟨rfl, rfl, by rw [hJ]; norm_num, by rw [hr]; norm_num⟩]]

/-- C43 fails for white phase noise when few summands exist: NotImplementedError for the Allan
deviation of 22 points at averaging factor 10 -/
theorem edf_greenhall_notImplemented :
    edf_greenhall 2 2 10 22 false false = .error .notImplementedError := by
  have hM : ghM 2 10 22 false false = 1 := by decide
  have hr : ghR 2 10 22 false false = 1 := by
    rw [ghR, hM, show ghS 10 false = 1 by decide]; norm_num
  rw [edf_greenhall_eq_partial _ _ _ _ _ _ (by norm_num) (by norm_num) (by norm_num) (by norm_num)
    (by norm_num) (by norm_num) (by decide)]
  rw [show ghCrash 2 2 10 22 false false = some .notImplementedError by
    rw [ghCrash, if_neg (fun hh => absurd hh.2.1 (by norm_num)),
      if_pos ⟨rfl, rfl, by rw [hr]; norm_num⟩]]

/-- outside the documented noise types the code can silently use a wrong row: `alpha = 3` reads
the entry of `alpha = -4`, because Python counts negative indices from the end -/
theorem greenhall_table1_wraps : greenhall_table1 3 3 = greenhall_table1 (-4) 3 := by
  simp [greenhall_table1, pyGet, table1, ok_bind]

/-- the hypotheses of `edf_greenhall_eq_partial` and of `edf_greenhall_table_pos` are met:
overlapping Allan deviation, white frequency noise, 1000 points, averaging factor 50 -/
example : ghCrash 0 2 50 1000 true false = none ∧ ghL 2 50 false ≤ 1000 ∧
    100 < ghJ 2 50 1000 true false ∧ ((2 : ℕ) : ℝ) + 1 < ghR 2 50 1000 true false := by
  have hM : ghM 2 50 1000 true false = 900 := by decide
  refine ⟨?_, by decide, by decide, ?_⟩
  · rw [ghCrash, if_neg (fun hh => absurd hh.2.1 (by norm_num)),
      if_neg (fun hh => absurd hh.2.1 (by norm_num))]
  · rw [ghR, hM, show ghS 50 true = 50 by decide]; norm_num

/-! ### the degrees of freedom are a positive number -/

theorem ghR_gt (d m N : ℕ) (ov md : Bool) (hm : 0 < m) : 0 < ghR d m N ov md := ghR_pos d m N ov md hm

/-- the basic sum is at least its first term -/
theorem ghSum_ge (J : ℕ) (M S : ℝ) (F : FArg) (alpha : ℤ) (d : ℕ) (hM : 0 < M) (hJ : J ≤ M) :
    ghSz F alpha d 0 ^ 2 ≤ ghSum J M S F alpha d := by
  unfold ghSum
  have h1 : 0 ≤ (1 - J / M) * ghSz F alpha d (J / S) ^ 2 :=
    mul_nonneg (sub_nonneg.2 ((div_le_one hM).2 hJ)) (sq_nonneg _)
  have h2 : 0 ≤ ∑ j ∈ Ico 1 J, 2 * (1 - j / M) * ghSz F alpha d (j / S) ^ 2 := by
    refine sum_nonneg fun j hj => ?_
    have : (j : ℝ) ≤ M := le_trans (by exact_mod_cast (mem_Ico.1 hj).2.le) hJ
    exact mul_nonneg (mul_nonneg zero_le_two (sub_nonneg.2 ((div_le_one hM).2 this))) (sq_nonneg _)
  linarith

theorem invEdf_pos {a b : ℝ} (ha : 0 < a) (hb : 0 < b) : invEdf a b = some (b / a) ∧ 0 < b / a := by
  refine ⟨?_, div_pos hb ha⟩
  have : a / b ≠ 0 := by positivity
  simp only [invEdf, nvDiv, hb.ne', if_false, this, one_div_div]

/-- C43: where the table formulas are used (many summands, any noise type) the result is a
positive number -/
theorem edf_greenhall_table_pos (alpha : ℤ) (d m N : ℕ) (ov md : Bool) (h0 : -4 ≤ alpha)
    (h1 : alpha ≤ 2) (hd : 1 ≤ d) (hd3 : d ≤ 3) (h : 1 < alpha + 2 * d) (hm : 0 < m)
    (hN : ghL d m md ≤ N) (hc : ghCrash alpha d m N ov md = none)
    (hJ : 100 < ghJ d m N ov md ∨ (alpha = 2 ∧ md = false)) (hr : (d : ℝ) + 1 < ghR d m N ov md) :
    ∃ edf : ℝ, edf_greenhall alpha d m N ov md = .ok (some edf) ∧ 0 < edf := by
  rw [edf_greenhall_eq_partial alpha d m N ov md h0 h1 hd hd3 h hm hN, hc]
  have hr0 := ghR_pos d m N ov md hm
  have hr1 : 1 < ghR d m N ov md := by
    have : (0 : ℝ) ≤ d := by positivity
    linarith
  have hM : (0 : ℝ) < ghM d m N ov md := by exact_mod_cast ghM_pos d m N ov md
  suffices hs : 0 < (ghInv alpha d m N ov md).1 ∧ 0 < (ghInv alpha d m N ov md).2 from
    ⟨_, by rw [(invEdf_pos hs.1 hs.2).1], (invEdf_pos hs.1 hs.2).2⟩
  have key : ∀ a b : ℝ, 0 < b → b < a → 0 < a - b / ghR d m N ov md := fun a b hb hab => by
    rw [sub_pos, div_lt_iff₀ hr0]
    nlinarith
  unfold ghInv
  simp only
  cases md with
  | true =>
    have hJ' : ¬ ghJ d m N ov true ≤ 100 := by
      rcases hJ with hJ | hJ
      · omega
      · simp at hJ
    rw [if_pos rfl, if_neg hJ', if_pos hr]
    obtain ⟨a, ha, hp⟩ := ghTable1_pos alpha d h0 h1 hd hd3 h
    rw [table1_eq alpha d h0 h1 hd hd3 h] at ha
    obtain rfl := Except.ok.inj ha
    exact ⟨key _ _ hp.1 hp.2, hr0⟩
  | false =>
    rw [if_neg (by simp)]
    by_cases ha2 : alpha = 2
    · subst ha2
      rw [if_neg (by norm_num), if_neg (by norm_num)]
      refine ⟨?_, hM⟩
      rw [sub_pos, div_lt_iff₀ hr0]
      obtain rfl | rfl | rfl : d = 1 ∨ d = 2 ∨ d = 3 := by omega
      · rw [show Nat.choose (4 * 1) (2 * 1) = 6 by decide, show Nat.choose (2 * 1) 1 = 2 by decide]
        push_cast at hr ⊢
        norm_num at hr ⊢
        linarith
      · rw [show Nat.choose (4 * 2) (2 * 2) = 70 by decide, show Nat.choose (2 * 2) 2 = 6 by decide]
        push_cast at hr ⊢
        norm_num at hr ⊢
        linarith
      · rw [show Nat.choose (4 * 3) (2 * 3) = 924 by decide, show Nat.choose (2 * 3) 3 = 20 by decide]
        push_cast at hr ⊢
        norm_num at hr ⊢
        linarith
    have hJ' : ¬ ghJ d m N ov false ≤ 100 := by
      rcases hJ with hJ | hJ
      · omega
      · exact absurd hJ.1 ha2
    have h4 : alpha ≠ -4 := by
      rintro rfl
      unfold ghCrash at hc
      rw [if_pos ⟨rfl, rfl, by omega, hr⟩] at hc
      exact absurd hc (by simp)
    obtain ⟨a, ha, hp⟩ := ghTable2_pos alpha d (by omega) (by omega) hd hd3 h
    rw [table2_eq alpha d (by omega) (by omega) hd hd3 h] at ha
    obtain rfl := Except.ok.inj ha
    by_cases ha0 : alpha ≤ 0
    · rw [if_pos ha0, if_neg hJ', if_pos hr]
      exact ⟨key _ _ hp.1 hp.2, hr0⟩
    · have ha1 : alpha = 1 := by omega
      subst ha1
      rw [if_neg ha0, if_pos rfl, if_neg hJ', if_pos hr]
      refine ⟨key _ _ hp.1 hp.2, mul_pos (pow_pos ?_ 2) hr0⟩
      have hlog : 0 ≤ log (m : ℝ) := log_natCast_nonneg m
      have : 0 < (ghTable3 d).1 ∧ 0 < (ghTable3 d).2 := by
        obtain rfl | rfl | rfl : d = 1 ∨ d = 2 ∨ d = 3 := by omega
        all_goals simp only [ghTable3]; norm_num
      have := mul_nonneg this.2.le hlog
      linarith [‹0 < (ghTable3 d).1 ∧ 0 < (ghTable3 d).2›.1]

example (hc : ghCrash 0 2 50 1000 true false = none) (hL : ghL 2 50 false ≤ 1000)
    (hJ : 100 < ghJ 2 50 1000 true false) (hr : ((2 : ℕ) : ℝ) + 1 < ghR 2 50 1000 true false) :
    ∃ edf : ℝ, edf_greenhall 0 2 50 1000 true false = .ok (some edf) ∧ 0 < edf :=
  edf_greenhall_table_pos 0 2 50 1000 true false (by norm_num) (by norm_num) (by norm_num) (by norm_num) (by norm_num)
    (by norm_num) hL hc (.inl hJ) hr

end AT
