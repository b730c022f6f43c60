import Verif.Lemmas.EdfLin
import Verif.Props.UnbiasedFm
import Verif.Props.GhPos

/-!
# Covariances of the filters of the variances
-/

namespace AT

open Spec Finset

/-! ## Filters with taps at multiples of `m` -/

/-- `q` taps at distance `m` -/
def taps (c : ℕ → ℝ) (q m k : ℕ) : ℝ := ∑ b ∈ range q, if k = b * m then c b else 0

theorem taps_sum (c : ℕ → ℝ) (q m K : ℕ) (hK : ∀ b < q, b * m < K) (f : ℕ → ℝ) :
    ∑ k ∈ range K, taps c q m k * f k = ∑ b ∈ range q, c b * f (b * m) := by
  unfold taps
  simp only [sum_mul]
  rw [sum_comm]
  refine sum_congr rfl fun b hb => ?_
  simp only [ite_mul, zero_mul]
  rw [sum_ite_eq' (range K) (b * m) (fun k => c b * f k), if_pos (mem_range.2 (hK b (mem_range.1 hb)))]

theorem taps_zero (c : ℕ → ℝ) (q m K : ℕ) (hK : ∀ b < q, b * m < K) (k : ℕ) (hk : K ≤ k) : taps c q m k = 0 :=
  sum_eq_zero fun b hb => if_neg (by have := hK b (mem_range.1 hb); omega)

theorem taps_cov (c : ℕ → ℝ) (q m K : ℕ) (hK : ∀ b < q, b * m < K) (l : ℕ) :
    filterCov (taps c q m) K 1 l
      = ∑ b ∈ range q, c b * ∑ b' ∈ range q, if b * m + l = b' * m then c b' else 0 := by
  unfold filterCov
  rw [taps_sum c q m K hK (fun k => taps c q m (k + l * 1))]
  simp only [mul_one]
  rfl

/-! ## Filters of blocks of `m` -/

/-- 1 on the block number `b`, 0 elsewhere -/
def blockInd (m b k : ℕ) : ℝ := if b * m ≤ k ∧ k < b * m + m then 1 else 0

/-- `q` blocks of length `m` -/
def blocks (c : ℕ → ℝ) (q m k : ℕ) : ℝ := ∑ b ∈ range q, c b * blockInd m b k

theorem blocks_zero (c : ℕ → ℝ) (q m k : ℕ) (hk : q * m ≤ k) : blocks c q m k = 0 :=
  sum_eq_zero fun b hb => by
    have : (b + 1) * m ≤ q * m := Nat.mul_le_mul_right m (mem_range.1 hb)
    rw [add_mul, one_mul] at this
    rw [blockInd, if_neg (by omega), mul_zero]

theorem blockInd_sum (m b K : ℕ) (hK : b * m + m ≤ K) (f : ℕ → ℝ) :
    ∑ k ∈ range K, blockInd m b k * f k = ∑ k ∈ range m, f (b * m + k) := by
  obtain ⟨r, rfl⟩ : ∃ r, K = b * m + (m + r) := ⟨K - (b * m + m), by omega⟩
  rw [sum_range_add, sum_range_add (n := m)]
  rw [sum_eq_zero (s := range (b * m)), sum_eq_zero (s := range r), zero_add, add_zero]
  · refine sum_congr rfl fun k hk => ?_
    rw [mem_range] at hk
    rw [blockInd, if_pos (by omega), one_mul]
  · intro k _
    rw [blockInd, if_neg (by omega), zero_mul]
  · intro k hk
    rw [mem_range] at hk
    rw [blockInd, if_neg (by omega), zero_mul]

theorem blocks_sum (c : ℕ → ℝ) (q m : ℕ) (f : ℕ → ℝ) :
    ∑ k ∈ range (q * m), blocks c q m k * f k = ∑ b ∈ range q, ∑ k ∈ range m, c b * f (b * m + k) := by
  unfold blocks
  simp only [sum_mul]
  rw [sum_comm]
  refine sum_congr rfl fun b hb => ?_
  have : (b + 1) * m ≤ q * m := Nat.mul_le_mul_right m (mem_range.1 hb)
  rw [add_mul, one_mul] at this
  rw [← mul_sum, ← blockInd_sum m b (q * m) this f, mul_sum]
  exact sum_congr rfl fun k _ => by ring

/-- the triangle function -/
noncomputable def tri (t : ℝ) : ℝ := max 0 (1 - |t|)

/-- the overlap of a block and a shifted block -/
theorem block_overlap (m b b' p : ℕ) (hm : 0 < m) :
    ∑ k ∈ range m, blockInd m b' (b * m + k + p) = m * tri (p / m + b - b') := by
  have hm' : (0 : ℝ) < m := by exact_mod_cast hm
  set u := b * m with hu
  set v := b' * m with hv
  have e1 : ∑ k ∈ range m, blockInd m b' (u + k + p) = ((Ico (v - (u + p)) (min m (v + m - (u + p)))).card : ℝ) := by
    rw [card_eq_sum_ones, Nat.cast_sum]
    have : ∀ k, blockInd m b' (u + k + p) = if v ≤ u + k + p ∧ u + k + p < v + m then (1 : ℝ) else 0 := fun k => rfl
    simp only [this]
    rw [← sum_filter]
    simp only [Nat.cast_one]
    refine sum_congr ?_ fun _ _ => rfl
    ext k
    simp only [mem_filter, mem_range, mem_Ico]
    omega
  rw [e1, Nat.card_Ico]
  have e2 : ((min m (v + m - (u + p)) - (v - (u + p)) : ℕ) : ℤ)
      = max 0 ((m : ℤ) - max ((u : ℤ) + p - v) ((v : ℤ) - (u + p))) := by omega
  have e3 : ((min m (v + m - (u + p)) - (v - (u + p)) : ℕ) : ℝ)
      = max 0 ((m : ℝ) - max ((u : ℝ) + p - v) ((v : ℝ) - (u + p))) := by exact_mod_cast e2
  rw [e3, tri, mul_max_of_nonneg _ _ hm'.le, mul_zero, mul_sub, mul_one]
  congr 2
  rw [← abs_of_pos hm', ← abs_mul, abs_of_pos hm']
  have e4 : (m : ℝ) * (p / m + b - b') = u + p - v := by
    rw [hu, hv]
    push_cast
    field_simp
    ring
  rw [e4, abs_eq_max_neg, neg_sub]

theorem blocks_cov (c : ℕ → ℝ) (q m S l : ℕ) (hm : 0 < m) :
    filterCov (blocks c q m) (q * m) S l
      = m * ∑ b ∈ range q, ∑ b' ∈ range q, c b * c b' * tri ((l * S : ℕ) / m + b - b') := by
  unfold filterCov
  rw [blocks_sum c q m (fun k => blocks c q m (k + l * S)), mul_sum]
  refine sum_congr rfl fun b _ => ?_
  unfold blocks
  rw [← mul_sum, sum_comm, mul_sum, mul_sum]
  refine sum_congr rfl fun b' _ => ?_
  rw [← mul_sum, block_overlap m b b' (l * S) hm]
  ring

/-! ## The kernels of `edf_greenhall` -/

theorem tri_eq (t : ℝ) : 2 * tri t = |t - 1| + |t + 1| - 2 * |t| := by
  unfold tri
  rcases abs_cases t with ⟨h, h'⟩ | ⟨h, h'⟩ <;> rcases abs_cases (t - 1) with ⟨h1, h1'⟩ | ⟨h1, h1'⟩ <;>
    rcases abs_cases (t + 1) with ⟨h2, h2'⟩ | ⟨h2, h2'⟩ <;> rw [h, h1, h2] <;>
    rcases max_cases 0 (1 - |t|) with ⟨h3, h3'⟩ | ⟨h3, h3'⟩ <;> rw [h] at h3 h3' <;> rw [h3] <;> linarith

theorem tri_zero {t : ℝ} (h : 1 ≤ |t|) : tri t = 0 := max_eq_left (by linarith)

theorem ghSz_pm (t : ℝ) : ghSz (.fin 1) 2 2 t
    = 2 * (tri (t - 2) - 4 * tri (t - 1) + 6 * tri t - 4 * tri (t + 1) + tri (t + 2)) := by
  have hx : ∀ u, ghSx (.fin 1) 2 u = 2 * tri u := by
    intro u
    rw [tri_eq]
    simp only [ghSx, ghSw, if_true]
    ring_nf
  unfold ghSz
  simp only [sum_range_succ, sum_range_zero, hx]
  have c2 : Nat.choose (2 * 2) 2 = 6 := by decide
  norm_num [c2, Nat.choose]
  ring_nf

theorem ghSz_fm2 (t : ℝ) : ghSz .inf 0 2 t = 2 * (2 * tri t - tri (t - 1) - tri (t + 1)) := by
  have hx : ∀ u, ghSx .inf 0 u = -|u| := fun u => by simp [ghSx, ghSw]
  have h0 := tri_eq t
  have h1 := tri_eq (t - 1)
  have h2 := tri_eq (t + 1)
  unfold ghSz
  simp only [sum_range_succ, sum_range_zero, hx]
  norm_num [Nat.choose]
  ring_nf at h0 h1 h2 ⊢
  linarith

theorem ghSz_fm3 (t : ℝ) : ghSz .inf 0 3 t
    = 2 * (tri (t - 2) - 4 * tri (t - 1) + 6 * tri t - 4 * tri (t + 1) + tri (t + 2)) := by
  have hx : ∀ u, ghSx .inf 0 u = -|u| := fun u => by simp [ghSx, ghSw]
  have h0 := tri_eq t
  have h1 := tri_eq (t - 1)
  have h2 := tri_eq (t + 1)
  have h3 := tri_eq (t - 2)
  have h4 := tri_eq (t + 2)
  unfold ghSz
  simp only [sum_range_succ, sum_range_zero, hx]
  norm_num [Nat.choose]
  ring_nf at h0 h1 h2 h3 h4 ⊢
  linarith

/-- the sum over the lags as `edf_greenhall` computes it -/
theorem ghSum_lags (M S d : ℕ) (hM : 0 < M) (hS : 0 < S) (F : FArg) (alpha : ℤ) (g : ℕ → ℝ) (κ : ℝ) (hκ : κ ≠ 0)
    (hg : ∀ l, g l = κ * ghSz F alpha d (l / S)) (hz : ∀ t : ℝ, d + 1 ≤ t → ghSz F alpha d t = 0)
    (h0 : ghSz F alpha d 0 ≠ 0) :
    M ^ 2 * g 0 ^ 2 / (M * g 0 ^ 2 + 2 * ∑ l ∈ Ico 1 M, ((M : ℝ) - l) * g l ^ 2)
      = ghSz F alpha d 0 ^ 2 * M / ghSum (min M ((d + 1) * S)) M S F alpha d := by
  have hM' : (0 : ℝ) < M := by exact_mod_cast hM
  have hS' : (0 : ℝ) < S := by exact_mod_cast hS
  have hzl : ∀ l : ℕ, (d + 1) * S ≤ l → ghSz F alpha d (l / S) = 0 := fun l hl => hz _ (by
    rw [le_div_iff₀ hS']
    exact_mod_cast hl)
  have e1 : ∑ l ∈ Ico 1 M, ((M : ℝ) - l) * g l ^ 2
      = κ ^ 2 * M * ∑ l ∈ Ico 1 (min M ((d + 1) * S)), (1 - l / M) * ghSz F alpha d (l / S) ^ 2 := by
    rw [mul_sum]
    symm
    refine sum_subset_zero_on_sdiff (Ico_subset_Ico_right (min_le_left _ _)) (fun l hl => ?_) (fun l hl => ?_)
    · simp only [mem_sdiff, mem_Ico, lt_min_iff] at hl
      rw [hg l, hzl l (by omega)]
      ring
    · rw [hg l]
      field_simp
  have e2 : ghSum (min M ((d + 1) * S)) M S F alpha d = ghSz F alpha d 0 ^ 2
      + 2 * ∑ l ∈ Ico 1 (min M ((d + 1) * S)), (1 - l / M) * ghSz F alpha d (l / S) ^ 2 := by
    have e3 : (1 - ((min M ((d + 1) * S) : ℕ) : ℝ) / M) * ghSz F alpha d ((min M ((d + 1) * S) : ℕ) / S) ^ 2 = 0 := by
      rcases le_total M ((d + 1) * S) with h | h
      · rw [min_eq_left h, div_self hM'.ne', sub_self, zero_mul]
      · rw [min_eq_right h, hzl _ le_rfl]
        simp
    unfold ghSum
    rw [e3, add_zero, mul_sum]
    congr 1
    exact sum_congr rfl fun l _ => by ring
  have g0 : g 0 = κ * ghSz F alpha d 0 := by
    rw [hg 0]
    simp
  rw [e1, e2, g0]
  have pos : 0 < ghSz F alpha d 0 ^ 2
      + 2 * ∑ l ∈ Ico 1 (min M ((d + 1) * S)), (1 - l / M) * ghSz F alpha d (l / S) ^ 2 := by
    have h2 : 0 ≤ ∑ l ∈ Ico 1 (min M ((d + 1) * S)), (1 - (l : ℝ) / M) * ghSz F alpha d (l / S) ^ 2 :=
      sum_nonneg fun l hl => by
        have : (l : ℝ) ≤ M := by exact_mod_cast (lt_min_iff.1 (mem_Ico.1 hl).2).1.le
        have : (l : ℝ) / M ≤ 1 := by rwa [div_le_one hM']
        exact mul_nonneg (by linarith) (sq_nonneg _)
    have : 0 < ghSz F alpha d 0 ^ 2 := by positivity
    linarith
  have e4 : M * (κ * ghSz F alpha d 0) ^ 2
      + 2 * (κ ^ 2 * M * ∑ l ∈ Ico 1 (min M ((d + 1) * S)), (1 - (l : ℝ) / M) * ghSz F alpha d (l / S) ^ 2)
      = κ ^ 2 * M * (ghSz F alpha d 0 ^ 2
      + 2 * ∑ l ∈ Ico 1 (min M ((d + 1) * S)), (1 - (l : ℝ) / M) * ghSz F alpha d (l / S) ^ 2) := by ring
  rw [e4, div_eq_div_iff (by positivity) pos.ne']
  ring

end AT
