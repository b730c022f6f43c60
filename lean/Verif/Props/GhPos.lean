import Verif.Lemmas.GhPos
import Verif.Props.Greenhall

/-!
# The degrees of freedom of `edf_greenhall` are a positive number (C64)
-/

namespace AT

open Real Spec

/-- the basic sum is positive when `sz(0)` does not vanish -/
theorem ghSum_pos (J : ℕ) (M S : ℝ) (F : FArg) (alpha : ℤ) (d : ℕ) (hM : 0 < M) (hJ : J ≤ M)
    (hz : ghSz F alpha d 0 ≠ 0) : 0 < ghSum J M S F alpha d :=
  lt_of_lt_of_le (by positivity) (ghSum_ge J M S F alpha d hM hJ)

/-- C64: `sz(0)` is not zero: the variance of the filtered differences is positive for every
noise type that converges (`alpha + 2 d > 1`) and every filter factor -/
theorem greenhall_sz_zero_ne (F : FArg) (alpha : ℤ) (d : ℕ) (hd : 1 ≤ d) (hd3 : d ≤ 3)
    (ho : ghOk F alpha) (hF : ∀ x, F = .fin x → 0 < x) (h : 1 < alpha + 2 * d) :
    ∃ v : ℝ, greenhall_sz 0 F alpha d = .ok v ∧ v ≠ 0 := by
  refine ⟨_, greenhall_sz_eq 0 F alpha d ho hd hd3, ?_⟩
  cases F with
  | inf =>
    intro h0
    have := ghSz_inf_pos alpha d hd hd3 ho.1 ho.2 h
    rw [h0, mul_zero] at this
    exact lt_irrefl _ this
  | fin F =>
    intro h0
    have := ghSz_fin_pos F (hF F rfl) alpha d hd hd3 ho.1 ho.2.1 h
    rw [h0, mul_zero] at this
    exact lt_irrefl _ this

example : ghOk (.fin 7) (-3) ∧ (1 : ℤ) < -3 + 2 * (3 : ℕ) := by
  refine ⟨⟨by norm_num, by norm_num, by norm_num⟩, by norm_num⟩

/-- C64: whenever `edf_greenhall` accepts its arguments, it returns a positive number -/
theorem edf_greenhall_pos (alpha : ℤ) (d m N : ℕ) (ov md : Bool) (h0 : -4 ≤ alpha)
    (h1 : alpha ≤ 2) (hd : 1 ≤ d) (hd3 : d ≤ 3) (h : 1 < alpha + 2 * d) (hm : 0 < m)
    (hN : ghL d m md ≤ N) (hc : ghCrash alpha d m N ov md = none) :
    ∃ edf : ℝ, edf_greenhall alpha d m N ov md = .ok (some edf) ∧ 0 < edf := by
  rw [edf_greenhall_eq_partial alpha d m N ov md h0 h1 hd hd3 h hm hN, hc]
  have hr0 := ghR_pos d m N ov md hm
  have hM : (0 : ℝ) < ghM d m N ov md := by exact_mod_cast ghM_pos d m N ov md
  have hJM : (ghJ d m N ov md : ℝ) ≤ ghM d m N ov md := by exact_mod_cast min_le_left _ _
  have hmR : (0 : ℝ) < m := by exact_mod_cast hm
  have zf : ∀ F : ℝ, 0 < F → ghSz (.fin F) alpha d 0 ≠ 0 := by
    intro F hF hz
    have := ghSz_fin_pos F hF alpha d hd hd3 h0 h1 h
    rw [hz, mul_zero] at this
    exact lt_irrefl _ this
  have zi : alpha ≤ 0 → ghSz .inf alpha d 0 ≠ 0 := by
    intro ha hz
    have := ghSz_inf_pos alpha d hd hd3 (by omega) ha h
    rw [hz, mul_zero] at this
    exact lt_irrefl _ this
  by_cases ht : (100 < ghJ d m N ov md ∨ (alpha = 2 ∧ md = false)) ∧ (d : ℝ) + 1 < ghR d m N ov md
  · have := edf_greenhall_table_pos alpha d m N ov md h0 h1 hd hd3 h hm hN hc ht.1 ht.2
    rw [edf_greenhall_eq_partial alpha d m N ov md h0 h1 hd hd3 h hm hN, hc] at this
    exact this
  suffices hs : 0 < (ghInv alpha d m N ov md).1 ∧ 0 < (ghInv alpha d m N ov md).2 from
    ⟨_, by rw [(invEdf_pos hs.1 hs.2).1], (invEdf_pos hs.1 hs.2).2⟩
  unfold ghInv
  simp only
  have h100 : ((100 : ℕ) : ℝ) ≤ 100 := by norm_num
  cases md with
  | true =>
    rw [if_pos rfl]
    have z1 := zf 1 one_pos
    by_cases c1 : ghJ d m N ov true ≤ 100
    · rw [if_pos c1]
      exact ⟨ghSum_pos _ _ _ _ _ _ hM hJM z1, by positivity⟩
    · rw [if_neg c1, if_neg (fun hh => ht ⟨.inl (by omega), hh⟩)]
      exact ⟨ghSum_pos _ _ _ _ _ _ (by norm_num) h100 z1, by positivity⟩
  | false =>
    rw [if_neg (by simp)]
    by_cases ha0 : alpha ≤ 0
    · rw [if_pos ha0]
      have zi := zi ha0
      have zm := zf m hmR
      by_cases c1 : ghJ d m N ov false ≤ 100
      · rw [if_pos c1]
        split_ifs
        · exact ⟨ghSum_pos _ _ _ _ _ _ hM hJM zm, by positivity⟩
        · exact ⟨ghSum_pos _ _ _ _ _ _ hM hJM zi, by positivity⟩
      · rw [if_neg c1, if_neg (fun hh => ht ⟨.inl (by omega), hh⟩)]
        exact ⟨ghSum_pos _ _ _ _ _ _ (by norm_num) h100 zi, by positivity⟩
    rw [if_neg ha0]
    by_cases ha1 : alpha = 1
    · subst ha1
      rw [if_pos rfl]
      by_cases c1 : ghJ d m N ov false ≤ 100
      · have zm := zf m hmR
        rw [if_pos c1]
        exact ⟨ghSum_pos _ _ _ _ _ _ hM hJM zm, by positivity⟩
      · have zr := zf (100 / ghR d m N ov false) (by positivity)
        rw [if_neg c1, if_neg (fun hh => ht ⟨.inl (by omega), hh⟩)]
        refine ⟨ghSum_pos _ _ _ _ _ _ (by norm_num) h100 zr, mul_pos (pow_pos ?_ 2) (by norm_num)⟩
        have hlog : 0 ≤ log (m : ℝ) := log_natCast_nonneg m
        have ht3 : 0 < (ghTable3 d).1 ∧ 0 < (ghTable3 d).2 := by
          obtain rfl | rfl | rfl : d = 1 ∨ d = 2 ∨ d = 3 := by omega
          all_goals simp only [ghTable3]; norm_num
        have := mul_nonneg ht3.2.le hlog
        linarith [ht3.1]
    · have ha2 : alpha = 2 := by omega
      subst ha2
      rw [if_neg ha1]
      have hrd : (d : ℝ) < ghR d m N ov false := by
        by_contra hh
        unfold ghCrash at hc
        rw [if_neg (fun h => absurd h.2.1 (by norm_num)), if_pos ⟨rfl, rfl, not_lt.1 hh⟩] at hc
        exact absurd hc (by simp)
      refine ⟨?_, hM⟩
      rw [sub_pos, div_lt_iff₀ hr0]
      obtain rfl | rfl | rfl : d = 1 ∨ d = 2 ∨ d = 3 := by omega
      · rw [show Nat.choose (4 * 1) (2 * 1) = 6 by decide, show Nat.choose (2 * 1) 1 = 2 by decide]
        push_cast at hrd ⊢
        norm_num at hrd ⊢
        linarith
      · rw [show Nat.choose (4 * 2) (2 * 2) = 70 by decide, show Nat.choose (2 * 2) 2 = 6 by decide]
        push_cast at hrd ⊢
        norm_num at hrd ⊢
        linarith
      · rw [show Nat.choose (4 * 3) (2 * 3) = 924 by decide, show Nat.choose (2 * 3) 3 = 20 by decide]
        push_cast at hrd ⊢
        norm_num at hrd ⊢
        linarith

/-- modified Allan deviation, flicker frequency noise, 100 points, averaging factor 7 -/
example : ∃ edf : ℝ, edf_greenhall (-1) 2 7 100 true true = .ok (some edf) ∧ 0 < edf :=
  edf_greenhall_pos (-1) 2 7 100 true true (by norm_num) (by norm_num) (by norm_num) (by norm_num)
    (by norm_num) (by norm_num) (by decide) (by
      rw [ghCrash, if_neg (fun hh => absurd hh.1 (by simp)), if_neg (fun hh => absurd hh.1 (by simp))])

end AT
