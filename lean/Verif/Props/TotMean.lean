import Verif.Props.Settle

/-!
# C76: the total deviation of white noise
-/

namespace AT

open Spec Finset MeasureTheory ProbabilityTheory Filter
open scoped NNReal ENNReal

/-! ## Sums over the inner points -/

/-- a sum over the inner points of `N` points, the first and the last `m - 1` of which differ -/
theorem inner_sum {N m : ℕ} (hm : 0 < m) (h2 : 2 * m < N) (g f : ℕ → ℝ) (base : ℝ)
    (hl : ∀ p, 0 < p → p < m → g p = base + f p) (hi : ∀ p, m ≤ p → p + m < N → g p = base)
    (hr : ∀ p, p + m ≥ N → p + 1 < N → g p = base + f (N - 1 - p)) :
    ∑ k ∈ range (N - 2), g (k + 1) = (N - 2 : ℕ) * base + 2 * ∑ q ∈ range (m - 1), f (q + 1) := by
  obtain ⟨r, hr'⟩ : ∃ r, N - 2 = (m - 1) + (r + (m - 1)) := ⟨N - 2 * m, by omega⟩
  rw [hr', sum_range_add, sum_range_add (n := r)]
  have e1 : ∑ k ∈ range (m - 1), g (k + 1) = (m - 1 : ℕ) * base + ∑ q ∈ range (m - 1), f (q + 1) := by
    rw [sum_congr rfl fun k hk => hl (k + 1) (by omega) (by rw [mem_range] at hk; omega), sum_add_distrib]
    simp
  have e2 : ∑ k ∈ range r, g (m - 1 + k + 1) = r * base := by
    rw [sum_congr rfl fun k hk => hi (m - 1 + k + 1) (by omega) (by rw [mem_range] at hk; omega)]
    simp
  have e3 : ∑ k ∈ range (m - 1), g (m - 1 + (r + k) + 1) = (m - 1 : ℕ) * base + ∑ q ∈ range (m - 1), f (q + 1) := by
    rw [← sum_range_reflect (fun q => f (q + 1)) (m - 1)]
    rw [sum_congr rfl fun k hk => hr (m - 1 + (r + k) + 1) (by omega) (by rw [mem_range] at hk; omega), sum_add_distrib]
    congr 1
    · simp
    · refine sum_congr rfl fun k hk => ?_
      rw [mem_range] at hk
      congr 1
      omega
  rw [e1, e2, e3]
  push_cast
  ring

variable {Ω : Type} [MeasurableSpace Ω] {P : Measure Ω}

theorem meanSq_rms_var {n : ℕ} {f : ℕ → Ω → ℝ} {norm : ℝ} {v : ℕ → ℝ} (hn : 0 < norm) (hf : ∀ i < n, MeanSq P (f i) (v i)) :
    MeanSq P (fun ω => rms n (fun i => f i ω) norm) ((∑ i ∈ range n, v i) / norm) := by
  have he : ∀ ω, rms n (fun i => f i ω) norm ^ 2 = (∑ i ∈ range n, f i ω ^ 2) / norm := by
    intro ω
    unfold rms
    rw [Real.sq_sqrt (div_nonneg (sum_nonneg (fun i _ => sq_nonneg _)) hn.le)]
  unfold MeanSq
  simp only [he]
  constructor
  · exact (integrable_finsetSum _ (fun i hi => (hf i (mem_range.1 hi)).1)).div_const _
  · rw [integral_div, integral_finsetSum _ (fun i hi => (hf i (mem_range.1 hi)).1),
      sum_congr rfl (fun i hi => (hf i (mem_range.1 hi)).2)]

/-- the term of the total deviation at the inner point `p` -/
noncomputable def totalTerm (x : ℕ → ℝ) (N m p : ℕ) : ℝ :=
  reflect x N ((p : ℤ) - m) - 2 * reflect x N p + reflect x N ((p : ℤ) + m)

theorem totdev_terms (x : ℕ → ℝ) (N m : ℕ) (τ : ℝ) :
    Spec.totdev x N m τ = rms (N - 2) (fun k => totalTerm x N m (k + 1)) (2 * τ ^ 2 * (N - 2)) := by
  unfold Spec.totdev totalTerm
  push_cast
  rfl

theorem totalTerm_left (x : ℕ → ℝ) {N m p : ℕ} (h2 : 2 * m < N) (hpm : p < m) :
    totalTerm x N m p = 2 * x 0 - x (m - p) - 2 * x p + x (p + m) := by
  unfold totalTerm reflect
  rw [if_pos (by omega), if_neg (by omega), if_pos (by omega), if_neg (by omega), if_pos (by omega)]
  rw [show (-((p : ℤ) - m)).toNat = m - p by omega, show ((p : ℤ)).toNat = p by omega, show ((p : ℤ) + m).toNat = p + m by omega]

theorem totalTerm_mid (x : ℕ → ℝ) {N m p : ℕ} (hpm : m ≤ p) (hN : p + m < N) :
    totalTerm x N m p = x (p - m) - 2 * x p + x (p + m) := by
  unfold totalTerm reflect
  rw [if_neg (by omega), if_pos (by omega), if_neg (by omega), if_pos (by omega), if_neg (by omega), if_pos (by omega)]
  rw [show ((p : ℤ) - m).toNat = p - m by omega, show ((p : ℤ)).toNat = p by omega, show ((p : ℤ) + m).toNat = p + m by omega]

theorem totalTerm_right (x : ℕ → ℝ) {N m p : ℕ} (h2 : 2 * m < N) (hp : p + 1 < N) (hN : N ≤ p + m) :
    totalTerm x N m p = x (p - m) - 2 * x p + 2 * x (N - 1) - x (2 * (N - 1) - p - m) := by
  unfold totalTerm reflect
  rw [if_neg (by omega), if_pos (by omega), if_neg (by omega), if_pos (by omega), if_neg (by omega), if_neg (by omega)]
  rw [show ((p : ℤ) - m).toNat = p - m by omega, show ((p : ℤ)).toNat = p by omega,
    show (2 * ((N : ℤ) - 1) - ((p : ℤ) + m)).toNat = 2 * (N - 1) - p - m by omega]
  ring

/-! ## White phase noise -/

/-- one at `q` -/
noncomputable def at' (q j : ℕ) : ℝ := if j = q then 1 else 0

theorem sum_at (n q : ℕ) (hq : q < n) (w : ℕ → ℝ) : ∑ j ∈ range n, at' q j * w j = w q := by
  unfold at'
  simp only [ite_mul, one_mul, zero_mul]
  rw [sum_ite_eq' (range n) q w, if_pos (mem_range.2 hq)]

/-- four weighted samples -/
noncomputable def four (a b c d : ℝ) (q1 q2 q3 q4 : ℕ) (j : ℕ) : ℝ := a * at' q1 j + b * at' q2 j + c * at' q3 j + d * at' q4 j

theorem four_sum (a b c d : ℝ) (q1 q2 q3 q4 n : ℕ) (h1 : q1 < n) (h2 : q2 < n) (h3 : q3 < n) (h4 : q4 < n) (w : ℕ → ℝ) :
    ∑ j ∈ range n, four a b c d q1 q2 q3 q4 j * w j = a * w q1 + b * w q2 + c * w q3 + d * w q4 := by
  rw [← sum_at n q1 h1 w, ← sum_at n q2 h2 w, ← sum_at n q3 h3 w, ← sum_at n q4 h4 w]
  simp only [mul_sum, ← sum_add_distrib]
  exact sum_congr rfl fun j _ => by unfold four; ring

theorem four_sq (a b c d : ℝ) (q1 q2 q3 q4 n : ℕ) (h1 : q1 < n) (h2 : q2 < n) (h3 : q3 < n) (h4 : q4 < n) :
    ∑ j ∈ range n, four a b c d q1 q2 q3 q4 j ^ 2 = a * four a b c d q1 q2 q3 q4 q1 + b * four a b c d q1 q2 q3 q4 q2
      + c * four a b c d q1 q2 q3 q4 q3 + d * four a b c d q1 q2 q3 q4 q4 := by
  simp only [pow_two]
  exact four_sum a b c d q1 q2 q3 q4 n h1 h2 h3 h4 _

/-- the weights of the samples in the term at `p` -/
noncomputable def totPm (N m p : ℕ) : ℕ → ℝ :=
  if p < m then four 2 (-1) (-2) 1 0 (m - p) p (p + m)
  else if p + m < N then four 1 (-2) 1 0 (p - m) p (p + m) 0
  else four 1 (-2) 2 (-1) (p - m) p (N - 1) (2 * (N - 1) - p - m)

theorem totPm_sum (w : ℕ → ℝ) {N m p : ℕ} (hm : 0 < m) (h2 : 2 * m < N) (hp0 : 0 < p) (hp : p + 1 < N) :
    ∑ j ∈ range N, totPm N m p j * w j = totalTerm w N m p := by
  unfold totPm
  split_ifs with h h'
  · rw [four_sum _ _ _ _ _ _ _ _ _ (by omega) (by omega) (by omega) (by omega), totalTerm_left w h2 h]
    ring
  · rw [four_sum _ _ _ _ _ _ _ _ _ (by omega) (by omega) (by omega) (by omega), totalTerm_mid w (by omega) h']
    ring
  · rw [four_sum _ _ _ _ _ _ _ _ _ (by omega) (by omega) (by omega) (by omega), totalTerm_right w h2 hp (by omega)]
    ring

theorem totPm_sq {N m p : ℕ} (hm : 0 < m) (h2 : 2 * m < N) (hp0 : 0 < p) (hp : p + 1 < N) :
    ∑ j ∈ range N, totPm N m p j ^ 2 = 6 + (if p < m then 4 + (if 2 * p = m then 4 else 0)
      else if p + m < N then 0 else 4 + (if 2 * (N - 1 - p) = m then 4 else 0)) := by
  unfold totPm
  split_ifs with h ha h' hb
  · rw [four_sq _ _ _ _ _ _ _ _ _ (by omega) (by omega) (by omega) (by omega)]
    unfold four at'
    rw [show m - p = p by omega]
    repeat (first | rw [if_pos (by omega)] | rw [if_neg (by omega)])
    norm_num
  · rw [four_sq _ _ _ _ _ _ _ _ _ (by omega) (by omega) (by omega) (by omega)]
    unfold four at'
    repeat (first | rw [if_pos (by omega)] | rw [if_neg (by omega)])
    norm_num
  · rw [four_sq _ _ _ _ _ _ _ _ _ (by omega) (by omega) (by omega) (by omega)]
    unfold four at'
    simp only [zero_mul, add_zero, if_true]
    repeat (first | rw [if_pos (by omega)] | rw [if_neg (by omega)])
    norm_num
  · rw [four_sq _ _ _ _ _ _ _ _ _ (by omega) (by omega) (by omega) (by omega)]
    unfold four at'
    rw [show 2 * (N - 1) - p - m = p by omega]
    repeat (first | rw [if_pos (by omega)] | rw [if_neg (by omega)])
    norm_num
  · rw [four_sq _ _ _ _ _ _ _ _ _ (by omega) (by omega) (by omega) (by omega)]
    unfold four at'
    repeat (first | rw [if_pos (by omega)] | rw [if_neg (by omega)])
    norm_num

theorem totPm_far {N m p j : ℕ} (hp : p + 1 < N) (h : p + m < j ∨ j + m < p) : totPm N m p j = 0 := by
  unfold totPm
  split_ifs with h1 h2
  all_goals
    unfold four at'
    try simp only [zero_mul, add_zero]
    repeat rw [if_neg (by omega)]
    simp

/-- excess of the terms at the ends -/
noncomputable def excessPm (m q : ℕ) : ℝ := 4 + if 2 * q = m then 4 else 0

theorem excessPm_sum {m : ℕ} (hm : 0 < m) :
    ∑ q ∈ range (m - 1), excessPm m (q + 1) = 4 * ((m : ℝ) - 1) + if Even m then 4 else 0 := by
  unfold excessPm
  rw [sum_add_distrib, sum_const, card_range, nsmul_eq_mul, Nat.cast_sub hm]
  congr 1
  · push_cast; ring
  · split_ifs with he
    · obtain ⟨r, hr⟩ := he
      rw [sum_congr rfl fun q _ => if_congr (show 2 * (q + 1) = m ↔ q = r - 1 by omega) rfl rfl, sum_ite_eq',
        if_pos (mem_range.2 (by omega))]
    · refine sum_eq_zero fun q _ => if_neg fun h => he ⟨q + 1, by omega⟩

theorem totPm_total {N m : ℕ} (hm : 0 < m) (h2 : 2 * m < N) :
    ∑ k ∈ range (N - 2), ∑ j ∈ range N, totPm N m (k + 1) j ^ 2
      = (N - 2 : ℕ) * 6 + 2 * (4 * ((m : ℝ) - 1) + if Even m then 4 else 0) := by
  rw [← excessPm_sum hm]
  rw [sum_congr rfl fun k hk => totPm_sq (N := N) (p := k + 1) hm h2 (by omega) (by rw [mem_range] at hk; omega)]
  refine inner_sum hm h2 (fun p => 6 + (if p < m then 4 + (if 2 * p = m then 4 else 0)
      else if p + m < N then 0 else 4 + (if 2 * (N - 1 - p) = m then 4 else 0) : ℝ)) (excessPm m) 6 (fun p _ h => ?_)
    (fun p h h' => ?_) (fun p h h' => ?_)
  · simp only [if_pos h, excessPm]
  · simp only [if_neg (show ¬ p < m by omega), if_pos h', add_zero]
  · simp only [if_neg (show ¬ p < m by omega), if_neg (show ¬ p + m < N by omega), excessPm]

/-! ## White frequency noise -/

/-- one on `[q, q + l)` -/
noncomputable def seg (q l s : ℕ) : ℝ := if q ≤ s ∧ s < q + l then 1 else 0

theorem sum_seg (n q l : ℕ) (h : q + l ≤ n) (w : ℕ → ℝ) : ∑ s ∈ range n, seg q l s * w s = ∑ s ∈ range l, w (q + s) := by
  obtain ⟨r, rfl⟩ : ∃ r, n = q + (l + r) := ⟨n - q - l, by omega⟩
  rw [sum_range_add, sum_range_add (n := l), sum_eq_zero (s := range q), sum_eq_zero (s := range r), zero_add, add_zero]
  · refine sum_congr rfl fun s hs => ?_
    rw [mem_range] at hs
    rw [seg, if_pos (by omega), one_mul]
  · intro s _
    rw [seg, if_neg (by omega), zero_mul]
  · intro s hs
    rw [mem_range] at hs
    rw [seg, if_neg (by omega), zero_mul]

theorem sum_seg_const (n q l : ℕ) (h : q + l ≤ n) : ∑ s ∈ range n, seg q l s = l := by
  have := sum_seg n q l h (fun _ => 1)
  simpa using this

theorem seg_mul (q l q' l' s : ℕ) : seg q l s * seg q' l' s = seg (max q q') (min (q + l) (q' + l') - max q q') s := by
  unfold seg
  split_ifs <;> first | (exfalso; omega) | norm_num

theorem seg_overlap (n q l q' l' : ℕ) (h : q + l ≤ n) :
    ∑ s ∈ range n, seg q l s * seg q' l' s = (min (q + l) (q' + l') - max q q' : ℕ) := by
  simp only [seg_mul]
  rcases Nat.lt_or_ge (max q q') (min (q + l) (q' + l')) with h1 | h1
  · rw [sum_seg_const _ _ _ (by omega)]
  · rw [Nat.sub_eq_zero_of_le h1]
    simp only [Nat.cast_zero]
    exact sum_eq_zero fun s _ => by unfold seg; rw [if_neg (by omega)]

/-- the weights of the phase increments in the term at `p` -/
noncomputable def totFm (N m p s : ℕ) : ℝ :=
  if p < m then seg p m s - seg 0 p s - seg 0 (m - p) s
  else if p + m < N then seg p m s - seg (p - m) m s
  else seg p (N - 1 - p) s + seg (2 * (N - 1) - p - m) (m - (N - 1 - p)) s - seg (p - m) m s

theorem step_diff {x u : ℕ → ℝ} (hx : ∀ i k, x (i + k) = x i + ∑ s ∈ range k, u (i + s)) {i j : ℕ} (h : i ≤ j) :
    x j - x i = ∑ s ∈ range (j - i), u (i + s) := by
  have := hx i (j - i)
  rw [Nat.add_sub_cancel' h] at this
  rw [this]
  ring

theorem totFm_sum {x u : ℕ → ℝ} (hx : ∀ i k, x (i + k) = x i + ∑ s ∈ range k, u (i + s)) {N m p : ℕ} (h2 : 2 * m < N)
    (hp : p + 1 < N) : ∑ s ∈ range (N - 1), totFm N m p s * u s = totalTerm x N m p := by
  unfold totFm
  split_ifs with h h'
  · simp only [sub_mul, sum_sub_distrib]
    rw [sum_seg _ _ _ (by omega), sum_seg _ _ _ (by omega), sum_seg _ _ _ (by omega), totalTerm_left x h2 h]
    have e1 := step_diff hx (show p ≤ p + m by omega)
    have e2 := step_diff hx (show 0 ≤ p by omega)
    have e3 := step_diff hx (show 0 ≤ m - p by omega)
    rw [Nat.add_sub_cancel_left] at e1
    rw [Nat.sub_zero] at e2 e3
    rw [← e1, ← e2, ← e3]
    ring
  · simp only [sub_mul, sum_sub_distrib]
    rw [sum_seg _ _ _ (by omega), sum_seg _ _ _ (by omega), totalTerm_mid x (by omega) h']
    have e1 := step_diff hx (show p ≤ p + m by omega)
    have e2 := step_diff hx (show p - m ≤ p by omega)
    rw [Nat.add_sub_cancel_left] at e1
    rw [show p - (p - m) = m by omega] at e2
    rw [← e1, ← e2]
    ring
  · simp only [sub_mul, add_mul, sum_sub_distrib, sum_add_distrib]
    rw [sum_seg _ _ _ (by omega), sum_seg _ _ _ (by omega), sum_seg _ _ _ (by omega), totalTerm_right x h2 hp (by omega)]
    have e1 := step_diff hx (show p ≤ N - 1 by omega)
    have e2 := step_diff hx (show 2 * (N - 1) - p - m ≤ N - 1 by omega)
    have e3 := step_diff hx (show p - m ≤ p by omega)
    rw [show N - 1 - (2 * (N - 1) - p - m) = m - (N - 1 - p) by omega] at e2
    rw [show p - (p - m) = m by omega] at e3
    rw [← e1, ← e2, ← e3]
    ring

/-- excess of the terms at the ends -/
noncomputable def excessFm (m q : ℕ) : ℝ := 2 * (min q (m - q) : ℕ) - 2 * (m - 2 * q : ℕ)

theorem totFm_sq {N m p : ℕ} (h2 : 2 * m < N) (hp : p + 1 < N) :
    ∑ s ∈ range (N - 1), totFm N m p s ^ 2 = 2 * m + (if p < m then excessFm m p
      else if p + m < N then 0 else excessFm m (N - 1 - p)) := by
  have hs : ∀ q l s, seg q l s ^ 2 = seg q l s := fun q l s => by unfold seg; split_ifs <;> norm_num
  have key : ∀ (n a la b lb c lc : ℕ) (e : ℝ), e ^ 2 = 1 → a + la ≤ n → b + lb ≤ n → c + lc ≤ n →
      ∑ s ∈ range n, (seg a la s + e * seg b lb s - seg c lc s) ^ 2
        = (la : ℝ) + lb + lc + 2 * e * (min (a + la) (b + lb) - max a b : ℕ) - 2 * (min (a + la) (c + lc) - max a c : ℕ)
          - 2 * e * (min (b + lb) (c + lc) - max b c : ℕ) := by
    intro n a la b lb c lc e he ha hb hc
    rw [← sum_seg_const n a la ha, ← sum_seg_const n b lb hb, ← sum_seg_const n c lc hc, ← seg_overlap n a la b lb ha,
      ← seg_overlap n a la c lc ha, ← seg_overlap n b lb c lc hb]
    simp only [mul_sum, ← sum_add_distrib, ← sum_sub_distrib]
    refine sum_congr rfl fun s _ => ?_
    have h1 := hs a la s
    have h2 := hs b lb s
    have h3 := hs c lc s
    linear_combination h1 + h2 + h3 + seg b lb s ^ 2 * he
  unfold totFm
  split_ifs with h h'
  · have := key (N - 1) p m 0 p 0 (m - p) (-1) (by norm_num) (by omega) (by omega) (by omega)
    simp only [neg_one_mul, ← sub_eq_add_neg] at this
    rw [this]
    rw [show min (p + m) (0 + p) - max p 0 = 0 by omega, show min (p + m) (0 + (m - p)) - max p 0 = m - 2 * p by omega,
      show min (0 + p) (0 + (m - p)) - max 0 0 = min p (m - p) by omega, Nat.cast_sub h.le]
    unfold excessFm
    push_cast
    ring
  · have := key (N - 1) p m 0 0 (p - m) m 1 (by norm_num) (by omega) (by omega) (by omega)
    have e0 : ∀ s, seg 0 0 s = 0 := fun s => by unfold seg; rw [if_neg (by omega)]
    simp only [e0, mul_zero, add_zero] at this
    rw [this]
    rw [show min (p + m) (0) - max p 0 = 0 by omega, show min (p + m) (p - m + m) - max p (p - m) = 0 by omega,
      show min 0 (p - m + m) - max 0 (p - m) = 0 by omega]
    push_cast
    ring
  · have := key (N - 1) p (N - 1 - p) (2 * (N - 1) - p - m) (m - (N - 1 - p)) (p - m) m 1 (by norm_num) (by omega) (by omega)
      (by omega)
    simp only [one_mul] at this
    rw [this]
    rw [show min (p + (N - 1 - p)) (2 * (N - 1) - p - m + (m - (N - 1 - p))) - max p (2 * (N - 1) - p - m)
        = min (N - 1 - p) (m - (N - 1 - p)) by omega,
      show min (p + (N - 1 - p)) (p - m + m) - max p (p - m) = 0 by omega,
      show min (2 * (N - 1) - p - m + (m - (N - 1 - p))) (p - m + m) - max (2 * (N - 1) - p - m) (p - m)
        = m - 2 * (N - 1 - p) by omega, Nat.cast_sub (show N - 1 - p ≤ m by omega)]
    unfold excessFm
    push_cast
    ring

theorem totFm_far {N m p s : ℕ} (h2 : 2 * m < N) (hp : p + 1 < N) (h : p + m ≤ s ∨ s + m < p) : totFm N m p s = 0 := by
  unfold totFm seg
  split_ifs <;> first | (exfalso; omega) | norm_num

theorem totFm_zero {N m p : ℕ} (h2 : 2 * m < N) (hp : p + 1 < N) : ∑ s ∈ range (N - 1), totFm N m p s = 0 := by
  have := totFm_sum (x := fun i => (i : ℝ)) (u := fun _ => 1) (fun i k => by simp) h2 hp (N := N) (m := m) (p := p)
  simp only [mul_one] at this
  rw [this]
  rcases Nat.lt_or_ge p m with h | h
  · rw [totalTerm_left _ h2 h, Nat.cast_sub h.le]
    push_cast
    ring
  rcases Nat.lt_or_ge (p + m) N with h' | h'
  · rw [totalTerm_mid _ h h', Nat.cast_sub h]
    push_cast
    ring
  · rw [totalTerm_right _ h2 hp h', Nat.cast_sub h, Nat.cast_sub (by omega), Nat.cast_sub (by omega), Nat.cast_sub (by omega),
      Nat.cast_mul, Nat.cast_sub (by omega)]
    push_cast
    ring

theorem excessFm_sum (m : ℕ) :
    ∑ q ∈ range m, excessFm (m + 1) (q + 1) = if Even (m + 1) then (m : ℝ) + 1 else m := by
  induction m using Nat.twoStepInduction with
  | zero => simp
  | one => 
    rw [if_pos (by decide)]
    norm_num [excessFm]
  | more m ih _ =>
    have e : ∀ q, excessFm (m + 2 + 1) (q + 1) = excessFm (m + 1) q + 2 ∨ m + 1 < q := by
      intro q
      rcases Nat.lt_or_ge (m + 1) q with h | h
      · exact Or.inr h
      · left
        unfold excessFm
        rw [show min (q + 1) (m + 2 + 1 - (q + 1)) = min q (m + 1 - q) + 1 by omega,
          show m + 2 + 1 - 2 * (q + 1) = m + 1 - 2 * q by omega]
        push_cast
        ring
    have e' : ∀ q ∈ range (m + 2), excessFm (m + 2 + 1) (q + 1) = excessFm (m + 1) q + 2 := fun q hq => by
      rw [mem_range] at hq
      rcases e q with h | h
      · exact h
      · omega
    rw [sum_congr rfl e', sum_add_distrib, sum_range_succ, sum_range_succ', ih]
    have e0 : excessFm (m + 1) 0 = -(2 * ((m : ℝ) + 1)) := by
      unfold excessFm
      simp
    have e1 : excessFm (m + 1) (m + 1) = 0 := by
      unfold excessFm
      rw [show min (m + 1) (m + 1 - (m + 1)) = 0 by omega, show m + 1 - 2 * (m + 1) = 0 by omega]
      simp
    have hev : Even (m + 2 + 1) ↔ Even (m + 1) := by
      rw [show m + 2 + 1 = (m + 1) + 2 by ring, Nat.even_add]
      simp
    rw [e0, e1, sum_const, card_range, nsmul_eq_mul]
    simp only [hev]
    push_cast
    split_ifs <;> ring

theorem totFm_total {N m : ℕ} (hm : 0 < m) (h2 : 2 * m < N) :
    ∑ k ∈ range (N - 2), ∑ s ∈ range (N - 1), totFm N m (k + 1) s ^ 2
      = (N - 2 : ℕ) * (2 * m) + 2 * (if Even m then (m : ℝ) else m - 1) := by
  have e := excessFm_sum (m - 1)
  rw [show m - 1 + 1 = m by omega, Nat.cast_sub hm] at e
  have e' : (if Even m then (m : ℝ) else m - 1) = ∑ q ∈ range (m - 1), excessFm m (q + 1) := by
    rw [e]
    split_ifs <;> push_cast <;> ring
  rw [e']
  rw [sum_congr rfl fun k hk => totFm_sq (N := N) (p := k + 1) h2 (by rw [mem_range] at hk; omega)]
  refine inner_sum hm h2 (fun p => 2 * (m : ℝ) + (if p < m then excessFm m p
      else if p + m < N then 0 else excessFm m (N - 1 - p) : ℝ)) (excessFm m) (2 * m) (fun p _ h => ?_)
    (fun p h h' => ?_) (fun p h h' => ?_)
  · simp only [if_pos h]
  · simp only [if_neg (show ¬ p < m by omega), if_pos h', add_zero]
  · simp only [if_neg (show ¬ p < m by omega), if_neg (show ¬ p + m < N by omega)]

/-! ## Expected values -/

variable [IsProbabilityMeasure P]

theorem totdev_value_white {W : ℕ → Ω → ℝ} {N : ℕ} {c s2 : ℝ} (h : White P W N c s2) {rate : ℝ} (hr : 0 < rate) (m : ℕ)
    (hm : 0 < m) (h2 : 2 * m < N) :
    MeanSq P (fun ω => value .totdev (fun i => W i ω) N rate m)
      (3 * s2 / (m / rate) ^ 2 * (1 + 4 * (m - 1 + if Even m then 1 else 0) / (3 * (N - 2)))) := by
  have hm' : (0 : ℝ) < m := by exact_mod_cast hm
  have hN : (0 : ℝ) < (N : ℝ) - 2 := by
    have : (2 : ℝ) < N := by exact_mod_cast (show 2 < N by omega)
    linarith
  have ht : ∀ k < N - 2, MeanSq P (fun ω => totalTerm (fun i => W i ω) N m (k + 1)) (s2 * ∑ j ∈ range N, totPm N m (k + 1) j ^ 2) := by
    intro k hk
    have h1 := h.meanSq_sum (range N) (fun j => j) (totPm N m (k + 1)) (fun _ _ _ _ e => e) (fun j hj => mem_range.1 hj)
    have h0 : ∑ j ∈ range N, totPm N m (k + 1) j = 0 := by
      have := totPm_sum (fun _ => 1) (N := N) (p := k + 1) hm h2 (by omega) (by omega)
      simp only [mul_one] at this
      rw [this]
      unfold totalTerm reflect
      split_ifs <;> norm_num
    rw [h0] at h1
    simp only [totPm_sum _ hm h2 (show 0 < k + 1 by omega) (show k + 1 + 1 < N by omega)] at h1
    simpa using h1
  have h3 := meanSq_rms_var (norm := 2 * ((m : ℝ) / rate) ^ 2 * (N - 2)) (by positivity) ht
  rw [← mul_sum, totPm_total hm h2, Nat.cast_sub (by omega)] at h3
  simp only [value, totdev_terms]
  convert h3 using 1
  push_cast
  split_ifs
  · field_simp
    ring
  · field_simp
    ring

theorem totdev_value_fm {Y : ℕ → Ω → ℝ} {N : ℕ} {c s2 : ℝ} (h : White P Y N c s2) {rate : ℝ} (hr : 0 < rate) (m : ℕ)
    (hm : 0 < m) (h2 : 2 * m < N + 1) :
    MeanSq P (fun ω => value .totdev (phaseOf (fun i => Y i ω) N rate) (N + 1) rate m)
      (s2 / m * (1 + (if Even m then (m : ℝ) else m - 1) / (m * (N - 1)))) := by
  have hm' : (0 : ℝ) < m := by exact_mod_cast hm
  have hN : (0 : ℝ) < (N : ℝ) - 1 := by
    have : (1 : ℝ) < N := by exact_mod_cast (show 1 < N by omega)
    linarith
  have ht : ∀ k < N + 1 - 2, MeanSq P (fun ω => totalTerm (phaseOf (fun i => Y i ω) N rate) (N + 1) m (k + 1))
      (s2 / rate ^ 2 * ∑ j ∈ range (N + 1 - 1), totFm (N + 1) m (k + 1) j ^ 2) := by
    intro k hk
    have h1 := h.meanSq_sum (range (N + 1 - 1)) (fun j => j) (fun s => totFm (N + 1) m (k + 1) s / rate) (fun _ _ _ _ e => e)
      (fun j hj => by have := mem_range.1 hj; omega)
    have h0 := totFm_zero (N := N + 1) (m := m) (p := k + 1) h2 (by omega)
    rw [← sum_div, h0] at h1
    have e : ∀ ω, ∑ s ∈ range (N + 1 - 1), totFm (N + 1) m (k + 1) s / rate * Y s ω
        = totalTerm (phaseOf (fun i => Y i ω) N rate) (N + 1) m (k + 1) := by
      intro ω
      rw [← totFm_sum (phaseOf_add (fun i => Y i ω) N rate) h2 (show k + 1 + 1 < N + 1 by omega)]
      have e1 : ∀ s ∈ range (N + 1 - 1), totFm (N + 1) m (k + 1) s * incr (fun i => Y i ω) N rate s
          = totFm (N + 1) m (k + 1) s / rate * Y s ω - totFm (N + 1) m (k + 1) s * ((∑ k ∈ range N, Y k ω) / N / rate) := by
        intro s _
        unfold incr
        ring
      rw [sum_congr rfl e1, sum_sub_distrib, ← sum_mul, h0, zero_mul, sub_zero]
    simp only [e] at h1
    convert h1 using 1
    rw [zero_div, zero_pow (by norm_num), mul_zero, add_zero, mul_sum, mul_sum]
    exact sum_congr rfl fun s _ => by rw [div_pow]; ring
  have h3 := meanSq_rms_var (norm := 2 * ((m : ℝ) / rate) ^ 2 * (N - 1)) (by positivity) ht
  rw [← mul_sum, totFm_total hm h2, Nat.cast_sub (by omega)] at h3
  simp only [value, totdev_terms]
  rw [show (((N + 1 : ℕ) : ℝ) - 2) = N - 1 by push_cast; ring]
  convert h3 using 1
  push_cast
  split_ifs
  · field_simp
    ring
  · field_simp
    ring

/-- **C76, expected values.** For `2 m < N` the expected square of the total deviation of white phase noise is
that of the Allan deviation times `1 + 4 (m - 1 + [m even]) / (3 (N - 2))`: the reflection at the ends biases it
upwards, by up to two thirds at `m = (N-1)/2`. -/
theorem totdev_white_phase {W : ℕ → Ω → ℝ} {N : ℕ} {c s2 : ℝ} (h : White P W N c s2) {rate : ℝ} (hr : 0 < rate) :
    Reports .totdev (fun ω => tab N (fun i => W i ω)) rate "phase" (fun m D => 2 * m < N →
      MeanSq P D (3 * s2 / (m / rate) ^ 2 * (1 + 4 * (m - 1 + if Even m then 1 else 0) / (3 * (N - 2))))) :=
  reports_phase _ W N rate hr _ fun m hu h2 => totdev_value_white h hr m hu.1 h2

/-- **C76, expected values.** For `2 m ≤ N` the expected square of the total deviation of `N` values of white
frequency noise is that of the Allan deviation times `1 + 1/(N-1)` for even and `1 + (m-1)/(m (N-1))` for odd
`m`: hardly any bias. -/
theorem totdev_white_freq {Y : ℕ → Ω → ℝ} {N : ℕ} {c s2 : ℝ} (h : White P Y N c s2) {rate : ℝ} (hr : 0 < rate) :
    Reports .totdev (fun ω => tab N (fun i => Y i ω)) rate "freq" (fun m D => 2 * m ≤ N →
      MeanSq P D (s2 / m * (1 + (if Even m then (m : ℝ) else m - 1) / (m * (N - 1))))) :=
  reports_freq _ Y N rate hr _ fun m hu h2 => totdev_value_fm h hr m hu.1 (by omega)

/-! ## The estimates settle -/

/-- relative variance of a mean of squares with few correlated pairs -/
theorem totdev_relVar {W : ℕ → Ω → ℝ} {s2 : ℝ≥0} (h : NormalNoise P W s2) {n M L : ℕ} (hM : 0 < M) (a : ℕ → ℕ → ℝ) {base e ρ : ℝ}
    (hb : 0 < base) (he : 0 ≤ e) (hfar : ∀ i < M, ∀ j < M, i + L < j → ∀ k, a i k * a j k = 0) (hρ : 0 ≤ ρ)
    (hmax : ∀ i < M, ∑ k ∈ range n, a i k ^ 2 ≤ ρ * base) (hsum : ∑ i ∈ range M, ∑ k ∈ range n, a i k ^ 2 = M * base + e)
    (D : Ω → ℝ) (c : ℝ) (hD : ∀ ω, D ω ^ 2 = c * ∑ i ∈ range M, (∑ k ∈ range n, a i k * W k ω) ^ 2) :
    RelVar P D (2 * (1 + 2 * L) * ρ / M) := by
  have hM' : (0 : ℝ) < M := by exact_mod_cast hM
  refine relVar_windows h n M 1 L hM (fun i _ k => if i < M then a i k else 0) (base + e / M) ρ hρ (fun i j _ _ k hij => ?_)
    (fun i hi => ?_) ?_ D c (fun ω => ?_)
  · by_cases hi : i < M
    · by_cases hj : j < M
      · simp only [if_pos hi, if_pos hj]
        exact hfar i hi j hj hij k
      · simp only [if_neg hj, mul_zero]
    · simp only [if_neg hi, zero_mul]
  · simp only [if_pos hi, sum_range_one]
    refine (hmax i hi).trans (mul_le_mul_of_nonneg_left ?_ hρ)
    have := div_nonneg he hM'.le
    linarith
  · simp only [sum_range_one]
    rw [sum_congr rfl fun i hi => by rw [sum_congr rfl fun k _ => by rw [if_pos (mem_range.1 hi)]], hsum]
    field_simp
  · rw [hD]
    congr 1
    refine sum_congr rfl fun i hi => ?_
    rw [sum_range_one]
    unfold Lin
    simp only [if_pos (mem_range.1 hi)]

theorem totdev_sq (x : ℕ → ℝ) {N m : ℕ} (hm : 0 < m) (h2 : 2 * m < N) (rate : ℝ) :
    value .totdev x N rate m ^ 2 = 1 / (2 * ((m : ℝ) / rate) ^ 2 * (N - 2)) * ∑ k ∈ range (N - 2), totalTerm x N m (k + 1) ^ 2 := by
  have hN : (0 : ℝ) < (N : ℝ) - 2 := by
    have : (2 : ℝ) < N := by exact_mod_cast (show 2 < N by omega)
    linarith
  simp only [value, totdev_terms]
  rw [rms_sq _ _ _ (by positivity)]

theorem totdev_phase_relVar {W : ℕ → Ω → ℝ} {s2 : ℝ≥0} (h : NormalNoise P W s2) (rate : ℝ) {N m : ℕ}
    (hm : 0 < m) (h2 : 2 * m < N) :
    RelVar P (fun ω => value .totdev (fun i => W i ω) N rate m) (2 * (1 + 2 * (2 * m : ℕ)) * (7 / 3) / (N - 2 : ℕ)) := by
  have hm' : (1 : ℝ) ≤ m := by exact_mod_cast hm
  refine totdev_relVar h (n := N) (M := N - 2) (L := 2 * m) (by omega) (fun i => totPm N m (i + 1)) (base := 6)
    (e := 2 * (4 * ((m : ℝ) - 1) + if Even m then 4 else 0)) (by norm_num) ?_ (fun i hi j hj hij k => ?_) (by norm_num)
    (fun i hi => ?_) (totPm_total hm h2) _ (1 / (2 * ((m : ℝ) / rate) ^ 2 * (N - 2))) (fun ω => ?_)
  · split_ifs <;> linarith
  · rcases Nat.lt_or_ge (i + 1 + m) k with h1 | h1
    · rw [totPm_far (by omega) (Or.inl h1), zero_mul]
    · rw [totPm_far (p := j + 1) (by omega) (Or.inr (by omega)), mul_zero]
  · rw [totPm_sq hm h2 (by omega) (by omega)]
    split_ifs <;> norm_num
  · rw [totdev_sq _ hm h2]
    congr 1
    refine sum_congr rfl fun k hk => ?_
    rw [mem_range] at hk
    rw [totPm_sum _ hm h2 (by omega) (by omega)]

theorem totdev_freq_relVar {Y : ℕ → Ω → ℝ} {s2 : ℝ≥0} (h : NormalNoise P Y s2) (c : ℝ) (rate : ℝ) {N m : ℕ}
    (hm : 0 < m) (h2 : 2 * m < N + 1) :
    RelVar P (fun ω => value .totdev (phaseOf (fun i => c + Y i ω) N rate) (N + 1) rate m)
      (2 * (1 + 2 * (2 * m : ℕ)) * (3 / 2) / (N + 1 - 2 : ℕ)) := by
  have hm' : (1 : ℝ) ≤ m := by exact_mod_cast hm
  refine totdev_relVar h (n := N + 1 - 1) (M := N + 1 - 2) (L := 2 * m) (by omega) (fun i => totFm (N + 1) m (i + 1)) (base := 2 * m)
    (e := 2 * if Even m then (m : ℝ) else m - 1) (by linarith) ?_ (fun i hi j hj hij k => ?_) (by norm_num)
    (fun i hi => ?_) (totFm_total hm h2) _ (1 / (2 * ((m : ℝ) / rate) ^ 2 * ((N + 1 : ℕ) - 2)) / rate ^ 2) (fun ω => ?_)
  · split_ifs <;> linarith
  · rcases Nat.lt_or_ge (i + 1 + m) k with h1 | h1
    · rw [totFm_far h2 (by omega) (Or.inl h1.le), zero_mul]
    · rw [totFm_far (p := j + 1) h2 (by omega) (Or.inr (by omega)), mul_zero]
  · rw [totFm_sq h2 (by omega)]
    have hex : ∀ q, excessFm m q ≤ m := by
      intro q
      unfold excessFm
      have h1 : 2 * min q (m - q) ≤ m + 2 * (m - 2 * q) := by omega
      have h3 : 2 * ((min q (m - q) : ℕ) : ℝ) ≤ m + 2 * ((m - 2 * q : ℕ) : ℝ) := by exact_mod_cast h1
      linarith
    have := hex (i + 1)
    have := hex (N + 1 - 1 - (i + 1))
    split_ifs <;> linarith
  · have e0 : ∀ A S : ℝ, A / rate ^ 2 * S = A * (S / rate ^ 2) := fun A S => by ring
    rw [totdev_sq _ hm h2, e0, sum_div]
    congr 1
    refine sum_congr rfl fun k hk => ?_
    rw [mem_range] at hk
    have h0 := totFm_zero (N := N + 1) (m := m) (p := k + 1) h2 (by omega)
    rw [← totFm_sum (phaseOf_add (fun i => c + Y i ω) N rate) h2 (show k + 1 + 1 < N + 1 by omega), ← div_pow]
    congr 1
    rw [sum_div]
    have e1 : ∀ s ∈ range (N + 1 - 1), totFm (N + 1) m (k + 1) s * incr (fun i => c + Y i ω) N rate s
        = totFm (N + 1) m (k + 1) s * Y s ω / rate
          + totFm (N + 1) m (k + 1) s * ((c - (∑ k ∈ range N, (c + Y k ω)) / N) / rate) := by
      intro s _
      unfold incr
      ring
    rw [sum_congr rfl e1, sum_add_distrib, ← sum_mul, h0, zero_mul, add_zero]

theorem tendsto_inv_sub (k : ℕ) (r : ℝ) : Tendsto (fun N : ℕ => r / ((N : ℝ) - k)) atTop (nhds 0) := by
  refine Tendsto.div_atTop tendsto_const_nhds ?_
  exact tendsto_atTop_add_const_right _ _ tendsto_natCast_atTop_atTop

/-- **C76, white phase noise.** The total deviation settles at the Allan deviation, whatever the phase and frequency
offset. -/
theorem totdev_phase_settles {rate : ℝ} (hr : 0 < rate) {W : ℕ → Ω → ℝ} {s2 : ℝ≥0} (h : NormalNoise P W s2) (a b : ℝ) :
    Settles P .totdev (fun N ω => tab N (offsetPhase a b (fun i => W i ω))) rate "phase" (fun m => 3 * s2 / (m / rate) ^ 2) := by
  refine settles_of hr (X := fun _ ω => offsetPhase a b (fun i => W i ω)) (n := fun N => N) tendsto_id (fun _ _ _ _ => rfl)
    (v := fun N m => 3 * s2 / (m / rate) ^ 2 * (1 + 4 * (m - 1 + if Even m then 1 else 0) / (3 * (N - 2))))
    (r := fun N m => 2 * (1 + 2 * (2 * m : ℕ)) * (7 / 3) / (N - 2 : ℕ)) (fun m _ _ => ?_) (fun m _ => ?_) (fun m hm => ?_)
  · have h1 := tendsto_inv_sub 2 (4 * ((m : ℝ) - 1 + if Even m then 1 else 0) / 3)
    have h2 := (h1.const_add 1).const_mul (3 * (s2 : ℝ) / (m / rate) ^ 2)
    simp only [add_zero, mul_one, div_div] at h2
    exact_mod_cast h2
  · refine Tendsto.div_atTop tendsto_const_nhds (tendsto_natCast_atTop_atTop.comp ?_)
    exact tendsto_sub_atTop_nat 2
  · filter_upwards [eventually_gt_atTop (2 * m)] with N h2 hu
    have e : ∀ ω, value .totdev (offsetPhase a b (fun i => W i ω)) N rate m = value .totdev (fun i => W i ω) N rate m := fun ω => by
      rw [← value_affine .totdev (by decide) (by decide) (fun i => W i ω) a b rate hu]
      congr 1
      funext i
      simp only [offsetPhase]
      ring
    simp only [e]
    exact ⟨totdev_value_white (h.white N) hr m hm h2, totdev_phase_relVar h rate hm h2⟩

/-- **C76, white frequency noise.** The total deviation settles at the Allan deviation. -/
theorem totdev_freq_settles {rate : ℝ} (hr : 0 < rate) {Y : ℕ → Ω → ℝ} {s2 : ℝ≥0} (h : NormalNoise P Y s2) (c : ℝ) :
    Settles P .totdev (fun N ω => tab N (fun i => c + Y i ω)) rate "freq" (fun m => s2 / m) := by
  refine settles_of hr (X := fun N ω => phaseOf (fun i => c + Y i ω) N rate) (n := fun N => N + 1) (tendsto_add_atTop_nat 1)
    (fun N ω m hu => ?_) (v := fun N m => s2 / m * (1 + (if Even m then (m : ℝ) else m - 1) / (m * (N - 1))))
    (r := fun N m => 2 * (1 + 2 * (2 * m : ℕ)) * (3 / 2) / (N + 1 - 2 : ℕ)) (fun m hm _ => ?_) (fun m _ => ?_) (fun m hm => ?_)
  · have hN : 0 < N := by
      obtain ⟨h1, h2, -⟩ := hu
      simp only [lenOf, reduceCtorEq, if_false] at h2
      omega
    rw [run_freq, frequency2phase_phaseOf _ N hN rate hr.ne', ok_bind]
  · have h1 := tendsto_inv_sub 1 ((if Even m then (m : ℝ) else m - 1) / m)
    have h2 := (h1.const_add 1).const_mul ((s2 : ℝ) / m)
    simp only [add_zero, mul_one, div_div] at h2
    exact_mod_cast h2
  · refine Tendsto.div_atTop tendsto_const_nhds (tendsto_natCast_atTop_atTop.comp ?_)
    exact (tendsto_sub_atTop_nat 2).comp (tendsto_add_atTop_nat 1)
  · filter_upwards [eventually_gt_atTop (2 * m)] with N h2 hu
    refine ⟨?_, totdev_freq_relVar h c rate hm (by omega)⟩
    have h3 := totdev_value_fm (h.white N) hr m hm (show 2 * m < N + 1 by omega)
    have e : ∀ ω, phaseOf (fun i => c + Y i ω) N rate = phaseOf (fun i => Y i ω) N rate := fun ω => by
      funext i
      have hN : (N : ℝ) ≠ 0 := by
        have : 0 < N := by omega
        exact_mod_cast this.ne'
      unfold phaseOf
      congr 1
      refine sum_congr rfl fun j _ => ?_
      rw [sum_add_distrib, sum_const, card_range, nsmul_eq_mul]
      field_simp
      ring
    simp only [e]
    exact h3

/-- 9 standard normal phase values at 1 Hz: the squared total deviation at 4 s is expected to be `3/16` of the
variance times `37/21` -/
example : ∃ d : (ℕ → ℝ) → ℝ,
    (∀ ω, ∃ errs ns, AT.totdev (tab 9 (fun i => ω i)) 1 "phase" (.list [(4 : ℕ) / 1])
      = .ok ⟨[(4 : ℕ) / 1], [d ω], errs, ns⟩) ∧ MeanSq gaussNoise d (3 / 16 * (37 / 21)) := by
  have hu : Usable .totdev 9 4 := ⟨by norm_num, by simp [lenOf], by simp [maxOf]; norm_num, by simp, by simp [count]⟩
  refine ⟨fun ω => value .totdev (fun i => ω i) 9 1 4, fun ω => run_at hu one_pos (fun i => ω i), ?_⟩
  have h := totdev_value_white (white_gauss 9) one_pos 4 (by norm_num) (by norm_num)
  convert h using 1
  rw [if_pos (by decide)]
  norm_num

/-- the total deviation at 0.5 s of standard normal frequency values at 10 Hz settles at `√(1/5)` -/
example : ∃ N₀, ∀ N ≥ N₀, ∃ D : (ℕ → ℝ) → ℝ,
    (∀ ω, ∃ errs ns, AT.totdev (tab N (fun i => 0 + ω i)) 10 "freq" (.list [(5 : ℕ) / 10])
      = .ok ⟨[(5 : ℕ) / 10], [D ω], errs, ns⟩) ∧
    gaussNoise {ω | 0.01 ≤ |D ω - √(((1 : ℝ≥0) : ℝ) / (5 : ℕ))|} ≤ ENNReal.ofReal 0.001 :=
  totdev_freq_settles (rate := 10) (by norm_num) normal_gauss 0 5 (by norm_num) (by simp) 0.01 0.001 (by norm_num) (by norm_num)

end AT
