import Verif.Lemmas.Float
import Verif.Lemmas.Adev
import Verif.Model.Float

/-!
# Forward error analysis

`NearA k a b G`: `a` differs from `b` by at most `k` roundings of quantities of size `G`.
-/

namespace AT

open Spec Finset Real

/-- absolute version of `Near`: `|b| ≤ G` and `|a - b| ≤ ((1+u)^k - 1) G` -/
def NearA (k : ℕ) (a b G : ℝ) : Prop :=
  |b| ≤ G ∧ |a - b| ≤ ((1 + unitRoundoff) ^ k - 1) * G

theorem NearA.nonneg {k : ℕ} {a b G : ℝ} (h : NearA k a b G) : 0 ≤ G := (abs_nonneg _).trans h.1

theorem NearA.exact {b G : ℝ} (h : |b| ≤ G) : NearA 0 b b G := ⟨h, by simp⟩

theorem NearA.mono {k l : ℕ} {a b G : ℝ} (h : NearA k a b G) (hl : k ≤ l) : NearA l a b G := by
  refine ⟨h.1, h.2.trans ?_⟩
  apply mul_le_mul_of_nonneg_right _ h.nonneg
  have := pow_le_pow_right₀ (show (1 : ℝ) ≤ 1 + unitRoundoff by linarith [unitRoundoff_pos]) hl
  linarith

theorem NearA.mono_size {k : ℕ} {a b G H : ℝ} (h : NearA k a b G) (hG : G ≤ H) : NearA k a b H :=
  ⟨h.1.trans hG, h.2.trans (mul_le_mul_of_nonneg_left hG (near_eps_nonneg k))⟩

theorem NearA.abs_le {k : ℕ} {a b G : ℝ} (h : NearA k a b G) : |a| ≤ (1 + unitRoundoff) ^ k * G := by
  have h1 : |a| ≤ |a - b| + |b| := by
    have := abs_add_le (a - b) b
    simpa using this
  have := h.1
  have := h.2
  linarith

theorem NearA.fl {fl : ℝ → ℝ} (hfl : FloatRound fl) {k : ℕ} {a b G : ℝ} (h : NearA k a b G) :
    NearA (k + 1) (fl a) b G := by
  refine ⟨h.1, ?_⟩
  have h1 := hfl a
  have h2 := h.abs_le
  have h3 : |fl a - b| ≤ |fl a - a| + |a - b| := abs_sub_le _ _ _
  have h4 := mul_le_mul_of_nonneg_left h2 unitRoundoff_pos.le
  have h5 := h.2
  rw [pow_succ]
  nlinarith

theorem NearA.add {k : ℕ} {a b c d G H : ℝ} (h : NearA k a b G) (h' : NearA k c d H) :
    NearA k (a + c) (b + d) (G + H) := by
  refine ⟨(abs_add_le _ _).trans (add_le_add h.1 h'.1), ?_⟩
  have : a + c - (b + d) = (a - b) + (c - d) := by ring
  rw [this, mul_add]
  exact (abs_add_le _ _).trans (add_le_add h.2 h'.2)

theorem NearA.sub {k : ℕ} {a b c d G H : ℝ} (h : NearA k a b G) (h' : NearA k c d H) :
    NearA k (a - c) (b - d) (G + H) := by
  refine ⟨(abs_sub _ _).trans (add_le_add h.1 h'.1), ?_⟩
  have : a - c - (b - d) = (a - b) - (c - d) := by ring
  rw [this, mul_add]
  exact (abs_sub _ _).trans (add_le_add h.2 h'.2)

theorem NearA.const_mul {k : ℕ} {a b G : ℝ} (c : ℝ) (h : NearA k a b G) :
    NearA k (c * a) (c * b) (|c| * G) := by
  refine ⟨by rw [abs_mul]; exact mul_le_mul_of_nonneg_left h.1 (abs_nonneg _), ?_⟩
  rw [← mul_sub, abs_mul]
  have := mul_le_mul_of_nonneg_left h.2 (abs_nonneg c)
  linarith

theorem NearA.trans {k l : ℕ} {a b c G H : ℝ} (h : NearA k a b G) (h' : NearA l b c H)
    (hG : G ≤ (1 + unitRoundoff) ^ l * H) : NearA (k + l) a c H := by
  refine ⟨h'.1, ?_⟩
  have h1 : |a - c| ≤ |a - b| + |b - c| := abs_sub_le _ _ _
  have h2 := h.2
  have h3 := h'.2
  have h4 := mul_le_mul_of_nonneg_left hG (near_eps_nonneg k)
  rw [pow_add]
  nlinarith

theorem NearA.sum {k : ℕ} {ι : Type*} (s : Finset ι) (f g G : ι → ℝ)
    (h : ∀ i ∈ s, NearA k (f i) (g i) (G i)) :
    NearA k (∑ i ∈ s, f i) (∑ i ∈ s, g i) (∑ i ∈ s, G i) := by
  refine ⟨(Finset.abs_sum_le_sum_abs _ _).trans (Finset.sum_le_sum fun i hi => (h i hi).1), ?_⟩
  rw [← Finset.sum_sub_distrib, Finset.mul_sum]
  exact (Finset.abs_sum_le_sum_abs _ _).trans (Finset.sum_le_sum fun i hi => (h i hi).2)

theorem nearA_of_near {k : ℕ} {a b : ℝ} (h : Near k a b) : NearA k a b |b| := ⟨le_rfl, h⟩

/-- the rounded sum of a list -/
theorem FloatSum.nearA {fl : ℝ → ℝ} (hfl : FloatRound fl) {l : List ℝ} {s : ℝ}
    (h : FloatSum fl l s) : NearA (l.length - 1) s l.sum (l.map (fun v => |v|)).sum := by
  induction h with
  | nil => exact NearA.exact (by simp)
  | single x => simpa using NearA.exact (b := x) le_rfl
  | @add l l₁ l₂ a b h1 h2 hp _ _ ih1 ih2 =>
    have hl : l.length = l₁.length + l₂.length := by rw [hp.length_eq, List.length_append]
    have hs : l.sum = l₁.sum + l₂.sum := by rw [hp.sum_eq, List.sum_append]
    have hm : (l.map (fun v => |v|)).sum = (l₁.map (fun v => |v|)).sum + (l₂.map (fun v => |v|)).sum := by
      rw [(hp.map _).sum_eq, List.map_append, List.sum_append]
    have p1 := List.length_pos_iff.2 h1
    have p2 := List.length_pos_iff.2 h2
    rw [hl, hs, hm]
    refine (((ih1.mono ?_).add (ih2.mono ?_)).fl hfl).mono
      (k := l₁.length + l₂.length - 2 + 1) (by omega) <;> omega

/-- the rounded sum of perturbed terms -/
theorem FloatSum.nearA_tab {fl : ℝ → ℝ} (hfl : FloatRound fl) {n k : ℕ} {f g G : ℕ → ℝ} {s : ℝ}
    (h : FloatSum fl (tab n f) s) (hf : ∀ i < n, NearA k (f i) (g i) (G i)) :
    NearA (n - 1 + k) s (∑ i ∈ range n, g i) (∑ i ∈ range n, G i) := by
  have h1 := FloatSum.nearA hfl h
  rw [tab_length, sum_tab, map_tab, sum_tab] at h1
  refine h1.trans (NearA.sum (range n) f g G (fun i hi => hf i (Finset.mem_range.1 hi))) ?_
  rw [Finset.mul_sum]
  exact Finset.sum_le_sum fun i hi => (hf i (Finset.mem_range.1 hi)).abs_le

/-- division by a slightly wrong number -/
theorem Near.div {n k : ℕ} {a b c d : ℝ} (h : Near n a b) (h' : Near k c d) (hd : d ≠ 0)
    (hk : (1 + unitRoundoff) ^ k ≤ 3 / 2) : Near (n + 2 * k) (a / c) (b / d) := by
  set q := (1 + unitRoundoff) ^ k with hq
  have hq1 : 1 ≤ q := one_le_pow₀ (by linarith [unitRoundoff_pos])
  have hdp : 0 < |d| := abs_pos.2 hd
  have h2 : |c - d| ≤ (q - 1) * |d| := h'
  have hc : (2 - q) * |d| ≤ |c| := by
    have := abs_sub_abs_le_abs_sub d c
    rw [abs_sub_comm] at this
    linarith
  have hcp : 0 < |c| := by nlinarith
  have hc0 : c ≠ 0 := abs_pos.1 hcp
  have hinv : Near (2 * k) (1 / c) (1 / d) := by
    unfold Near
    have e : 1 / c - 1 / d = (d - c) / (c * d) := by field_simp
    rw [e, abs_div, abs_mul, abs_div, abs_one, div_le_iff₀ (by positivity)]
    have e2 : ((1 + unitRoundoff) ^ (2 * k) - 1) * (1 / |d|) * (|c| * |d|) =
        (q ^ 2 - 1) * |c| := by
      rw [hq, ← pow_mul, mul_comm k 2]; field_simp
    rw [e2, abs_sub_comm]
    refine h2.trans ?_
    have : (q ^ 2 - 1) * ((2 - q) * |d|) ≤ (q ^ 2 - 1) * |c| :=
      mul_le_mul_of_nonneg_left hc (by nlinarith)
    refine le_trans ?_ this
    have : (q - 1) ≤ (q ^ 2 - 1) * (2 - q) := by
      have : (q ^ 2 - 1) * (2 - q) - (q - 1) = (q - 1) * (1 + q - q ^ 2) := by ring
      have h3 : 0 ≤ 1 + q - q ^ 2 := by nlinarith
      nlinarith [mul_nonneg (sub_nonneg.2 hq1) h3]
    nlinarith
  have := h.mul hinv
  rwa [mul_one_div, mul_one_div] at this

/-- few roundings are harmless -/
theorem few_roundings {k : ℕ} (hk : k ≤ 2 ^ 49) : (1 + unitRoundoff) ^ k ≤ 1 + 2 * k * unitRoundoff := by
  have hu := unitRoundoff_pos
  have hk' : (k : ℝ) * unitRoundoff ≤ 1 / 16 := by
    have : (k : ℝ) ≤ 2 ^ 49 := by exact_mod_cast hk
    calc (k : ℝ) * unitRoundoff ≤ 2 ^ 49 * unitRoundoff := mul_le_mul_of_nonneg_right this hu.le
      _ = 1 / 16 := by unfold unitRoundoff; norm_num
  induction k with
  | zero => simp
  | succ k ih =>
    push_cast at hk'
    have hk0 : (0 : ℝ) ≤ k := by positivity
    have ih' := ih (by omega) (by nlinarith)
    rw [pow_succ]
    push_cast
    have : (1 + unitRoundoff) ^ k * (1 + unitRoundoff) ≤ (1 + 2 * k * unitRoundoff) * (1 + unitRoundoff) :=
      mul_le_mul_of_nonneg_right ih' (by linarith)
    nlinarith

/-- roots of sums of squares: triangle inequality -/
theorem sqrt_sum_sq_sub (n : ℕ) (f g : ℕ → ℝ) :
    |√(∑ i ∈ range n, f i ^ 2) - √(∑ i ∈ range n, g i ^ 2)| ≤ √(∑ i ∈ range n, (f i - g i) ^ 2) := by
  have tri : ∀ a b : ℕ → ℝ, √(∑ i ∈ range n, a i ^ 2) ≤
      √(∑ i ∈ range n, b i ^ 2) + √(∑ i ∈ range n, (a i - b i) ^ 2) := by
    intro a b
    rw [Real.sqrt_le_left (by positivity)]
    have h1 := Real.sq_sqrt (Finset.sum_nonneg (fun i (_ : i ∈ range n) => sq_nonneg (b i)))
    have h2 := Real.sq_sqrt (Finset.sum_nonneg (fun i (_ : i ∈ range n) => sq_nonneg (a i - b i)))
    have cs := Finset.sum_mul_sq_le_sq_mul_sq (range n) b (fun i => a i - b i)
    have h3 : ∑ i ∈ range n, b i * (a i - b i) ≤
        √(∑ i ∈ range n, b i ^ 2) * √(∑ i ∈ range n, (a i - b i) ^ 2) := by
      rw [← Real.sqrt_mul (Finset.sum_nonneg fun i _ => sq_nonneg _)]
      exact Real.le_sqrt_of_sq_le cs
    have h4 : ∑ i ∈ range n, a i ^ 2 = ∑ i ∈ range n, b i ^ 2 + 2 * ∑ i ∈ range n, b i * (a i - b i)
        + ∑ i ∈ range n, (a i - b i) ^ 2 := by
      rw [Finset.mul_sum, ← Finset.sum_add_distrib, ← Finset.sum_add_distrib]
      apply Finset.sum_congr rfl
      intro i _; ring
    nlinarith
  have h1 := tri f g
  have h2 := tri g f
  have e : ∑ i ∈ range n, (g i - f i) ^ 2 = ∑ i ∈ range n, (f i - g i) ^ 2 :=
    Finset.sum_congr rfl fun i _ => by ring
  rw [e] at h2
  rw [abs_le]
  constructor <;> linarith

/-- `√(Σ v²/(c n))` for values `v` with errors up to `η` -/
theorem rms_perturb (n : ℕ) (hn : 0 < n) (v d : ℕ → ℝ) (c η : ℝ) (hc : 0 < c)
    (h : ∀ i < n, |v i - d i| ≤ η) :
    |√((∑ i ∈ range n, v i ^ 2) / (c * n)) - √((∑ i ∈ range n, d i ^ 2) / (c * n))| ≤ η / √c := by
  have hn' : (0 : ℝ) < n := by exact_mod_cast hn
  have hη : 0 ≤ η := (abs_nonneg _).trans (h 0 hn)
  rw [Real.sqrt_div' _ (by positivity), Real.sqrt_div' _ (by positivity), ← sub_div, abs_div,
    abs_of_pos (show (0 : ℝ) < √(c * n) by positivity), div_le_iff₀ (by positivity)]
  refine (sqrt_sum_sq_sub n v d).trans ?_
  have h1 : ∑ i ∈ range n, (v i - d i) ^ 2 ≤ n * η ^ 2 := by
    calc ∑ i ∈ range n, (v i - d i) ^ 2 ≤ ∑ _i ∈ range n, η ^ 2 := by
          apply Finset.sum_le_sum
          intro i hi
          rw [← sq_abs]
          exact pow_le_pow_left₀ (abs_nonneg _) (h i (Finset.mem_range.1 hi)) 2
      _ = n * η ^ 2 := by simp
  refine (Real.sqrt_le_sqrt h1).trans (le_of_eq ?_)
  rw [Real.sqrt_mul hn'.le, Real.sqrt_sq hη, Real.sqrt_mul hc.le]
  field_simp

/-- a rounded root mean square of perturbed values -/
theorem dev_bound (K n : ℕ) (hn : 0 < n) (v d : ℕ → ℝ) (c E t r : ℝ) (hc : 0 < c) (ht : 0 < t)
    (hr : Near K r (√((∑ i ∈ range n, v i ^ 2) / (c * n)) * t))
    (h : ∀ i < n, |v i - d i| ≤ E) :
    |r - √((∑ i ∈ range n, d i ^ 2) / (c * n)) * t| ≤
      ((1 + unitRoundoff) ^ K - 1) * (√((∑ i ∈ range n, d i ^ 2) / (c * n)) * t) +
        (1 + unitRoundoff) ^ K * (E / √c * t) := by
  have h1 := rms_perturb n hn v d c E hc h
  set a := √((∑ i ∈ range n, v i ^ 2) / (c * n))
  set b := √((∑ i ∈ range n, d i ^ 2) / (c * n))
  have ha : 0 ≤ a := Real.sqrt_nonneg _
  unfold Near at hr
  rw [abs_of_nonneg (show 0 ≤ a * t by positivity)] at hr
  have h2 : |a * t - b * t| ≤ E / √c * t := by
    rw [← sub_mul, abs_mul, abs_of_pos ht]
    exact mul_le_mul_of_nonneg_right h1 ht.le
  have h3 : |r - b * t| ≤ |r - a * t| + |a * t - b * t| := abs_sub_le _ _ _
  have h4 : a * t ≤ b * t + E / √c * t := by linarith [(abs_le.1 h2).2]
  have h5 := mul_le_mul_of_nonneg_left h4 (near_eps_nonneg K)
  nlinarith

/-- the rounded sum of rounded squares -/
theorem sumsq_near {fl : ℝ → ℝ} (hfl : FloatRound fl) {n : ℕ} (hn : 0 < n) {v : ℕ → ℝ} {s : ℝ}
    (h : FloatSum fl (tab n (fun i => fl (v i * v i))) s) :
    Near n s (∑ i ∈ range n, v i ^ 2) := by
  have h1 := FloatSum.nearA_tab hfl (k := 1) (g := fun i => v i ^ 2) (G := fun i => v i ^ 2) h (by
    intro i _
    have := nearA_of_near (Near.of_fl hfl (v i * v i))
    rw [← pow_two, abs_of_nonneg (sq_nonneg (v i))] at this
    rw [← pow_two]
    exact this)
  have h2 := h1.2
  unfold Near
  rw [abs_of_nonneg (Finset.sum_nonneg fun i _ => sq_nonneg (v i))]
  have e : n - 1 + 1 = n := by omega
  rwa [e] at h2

/-- the rounded second difference -/
theorem d2_near {fl : ℝ → ℝ} (hfl : FloatRound fl) {a b c B : ℝ} (ha : |a| ≤ B) (hb : |b| ≤ B)
    (hc : |c| ≤ B) :
    NearA 3 (fl (fl (a - fl (2 * b)) + c)) (a - 2 * b + c) (4 * B) := by
  have h1 := ((NearA.exact hb).const_mul 2).fl hfl
  have h2 := (((NearA.exact ha).mono (by norm_num)).sub h1).fl hfl
  have h3 := (h2.add ((NearA.exact hc).mono (by norm_num))).fl hfl
  have e : B + |(2 : ℝ)| * B + B = 4 * B := by rw [abs_of_pos (by norm_num)]; ring
  rw [e] at h3
  exact h3

/-- the rounded third difference -/
theorem d3_near {fl : ℝ → ℝ} (hfl : FloatRound fl) {a b c d B : ℝ} (ha : |a| ≤ B) (hb : |b| ≤ B)
    (hc : |c| ≤ B) (hd : |d| ≤ B) :
    NearA 4 (fl (fl (fl (a - fl (3 * b)) + fl (3 * c)) - d)) (a - 3 * b + 3 * c - d) (8 * B) := by
  have h1 := ((NearA.exact hb).const_mul 3).fl hfl
  have h1' := ((NearA.exact hc).const_mul 3).fl hfl
  have h2 := (((NearA.exact ha).mono (by norm_num)).sub h1).fl hfl
  have h3 := (h2.add (h1'.mono (by norm_num))).fl hfl
  have h4 := (h3.sub ((NearA.exact hd).mono (by norm_num))).fl hfl
  have e : B + |(3 : ℝ)| * B + |(3 : ℝ)| * B + B = 8 * B := by rw [abs_of_pos (by norm_num)]; ring
  rw [e] at h4
  exact h4

/-- the bound of `dev_bound` in simple terms -/
theorem simple_bound {K : ℕ} (hK : K ≤ 2 ^ 48) {D E : ℝ} (hD : 0 ≤ D) (hE : 0 ≤ E) :
    ((1 + unitRoundoff) ^ K - 1) * D + (1 + unitRoundoff) ^ K * E ≤
      2 * K * unitRoundoff * D + 17 / 16 * E := by
  have h := few_roundings (k := K) (hK.trans (by norm_num))
  have h1 : 2 * (K : ℝ) * unitRoundoff ≤ 1 / 16 := by
    have : (K : ℝ) ≤ 2 ^ 48 := by exact_mod_cast hK
    calc 2 * (K : ℝ) * unitRoundoff ≤ 2 * 2 ^ 48 * unitRoundoff :=
          mul_le_mul_of_nonneg_right (by linarith) unitRoundoff_pos.le
      _ = 1 / 16 := by unfold unitRoundoff; norm_num
  have h2 : ((1 + unitRoundoff) ^ K - 1) * D ≤ 2 * K * unitRoundoff * D :=
    mul_le_mul_of_nonneg_right (by linarith) hD
  have h3 : (1 + unitRoundoff) ^ K * E ≤ 17 / 16 * E :=
    mul_le_mul_of_nonneg_right (by linarith) hE
  linarith

theorem sqrt_two_gt : (14 / 10 : ℝ) < √2 := by
  rw [Real.lt_sqrt (by norm_num)]; norm_num

theorem sqrt_six_gt : (244 / 100 : ℝ) < √6 := by
  rw [Real.lt_sqrt (by norm_num)]; norm_num

theorem eta_two {B t : ℝ} (hB : 0 ≤ B) (ht : 0 ≤ t) :
    ((1 + unitRoundoff) ^ 3 - 1) * (4 * B) / √2 * t ≤ 9 * unitRoundoff * B * t := by
  apply mul_le_mul_of_nonneg_right _ ht
  have h2 := sqrt_two_gt
  rw [div_le_iff₀ (by linarith)]
  have hu := unitRoundoff_pos
  have h3 : (1 + unitRoundoff) ^ 3 - 1 ≤ 301 / 100 * unitRoundoff := by
    unfold unitRoundoff; norm_num
  have h4 : ((1 + unitRoundoff) ^ 3 - 1) * (4 * B) ≤ 301 / 100 * unitRoundoff * (4 * B) :=
    mul_le_mul_of_nonneg_right h3 (by linarith)
  have h5 : 0 ≤ unitRoundoff * B := by positivity
  nlinarith

theorem eta_six {B t : ℝ} (hB : 0 ≤ B) (ht : 0 ≤ t) :
    ((1 + unitRoundoff) ^ 4 - 1) * (8 * B) / √6 * t ≤ 14 * unitRoundoff * B * t := by
  apply mul_le_mul_of_nonneg_right _ ht
  have h2 := sqrt_six_gt
  rw [div_le_iff₀ (by linarith)]
  have hu := unitRoundoff_pos
  have h3 : (1 + unitRoundoff) ^ 4 - 1 ≤ 401 / 100 * unitRoundoff := by
    unfold unitRoundoff; norm_num
  have h4 : ((1 + unitRoundoff) ^ 4 - 1) * (8 * B) ≤ 401 / 100 * unitRoundoff * (8 * B) :=
    mul_le_mul_of_nonneg_right h3 (by linarith)
  have h5 : 0 ≤ unitRoundoff * B := by positivity
  nlinarith

/-- the running sum with rounded additions -/
def runSum (fl : ℝ → ℝ) (b : ℕ → ℝ) : ℕ → ℝ
  | 0 => b 0
  | i + 1 => fl (runSum fl b i + b (i + 1))

theorem cumsum_fl_tab (fl : ℝ → ℝ) (n k : ℕ) (b : ℕ → ℝ) :
    cumsum_fl fl (runSum fl b k) (tab n (fun i => b (i + (k + 1)))) =
      tab n (fun i => runSum fl b (i + (k + 1))) := by
  induction n generalizing k with
  | zero => rfl
  | succ n ih =>
    rw [tab_succ', tab_succ']
    simp only [cumsum_fl, Nat.zero_add]
    have h := ih (k + 1)
    have e : ∀ i, i + 1 + (k + 1) = i + (k + 1 + 1) := fun i => by omega
    simp only [e]
    rw [← h]
    rfl

theorem npCumsum_fl_tab (fl : ℝ → ℝ) (n : ℕ) (b : ℕ → ℝ) :
    npCumsum_fl fl (tab n b) = tab n (runSum fl b) := by
  cases n with
  | zero => rfl
  | succ n =>
    rw [tab_succ', tab_succ']
    simp only [npCumsum_fl]
    have := cumsum_fl_tab fl n 0 b
    simp only [Nat.zero_add] at this
    rw [← this]
    rfl

theorem runSum_near {fl : ℝ → ℝ} (hfl : FloatRound fl) {n k : ℕ} {b g : ℕ → ℝ} {G : ℝ}
    (h : ∀ i < n, NearA k (b i) (g i) G) (i : ℕ) (hi : i < n) :
    NearA (i + k) (runSum fl b i) (∑ j ∈ range (i + 1), g j) ((i + 1) * G) := by
  induction i with
  | zero => simpa [runSum] using h 0 hi
  | succ i ih =>
    have h1 := ih (by omega)
    have h2 := ((h1.add ((h (i + 1) hi).mono (by omega : k ≤ i + k))).fl hfl)
    rw [Finset.sum_range_succ]
    have e : ((i : ℝ) + 1) * G + G = (((i + 1 : ℕ) : ℝ) + 1) * G := by push_cast; ring
    rw [e] at h2
    have e2 : i + 1 + k = i + k + 1 := by omega
    rw [e2]
    exact h2

/-- sums of two nonnegative numbers keep the relative error -/
theorem Near.add {n : ℕ} {a b c d : ℝ} (h : Near n a b) (h' : Near n c d) (hb : 0 ≤ b)
    (hd : 0 ≤ d) : Near n (a + c) (b + d) := by
  unfold Near at *
  rw [abs_of_nonneg (add_nonneg hb hd)]
  rw [abs_of_nonneg hb] at h
  rw [abs_of_nonneg hd] at h'
  have : a + c - (b + d) = (a - b) + (c - d) := by ring
  rw [this, mul_add]
  exact (abs_add_le _ _).trans (add_le_add h h')

theorem sumsq_near' {fl : ℝ → ℝ} (hfl : FloatRound fl) {n : ℕ} {v : ℕ → ℝ} {s : ℝ}
    (h : FloatSum fl (tab n (fun i => fl (v i * v i))) s) :
    Near n s (∑ i ∈ range n, v i ^ 2) := by
  rcases Nat.eq_zero_or_pos n with h0 | h0
  · subst h0
    have h1 := FloatSum.nearA hfl h
    have h2 := h1.2
    simp only [tab_zero, List.map_nil, List.sum_nil, mul_zero] at h2
    have : s = 0 := by
      have := abs_nonpos_iff.1 h2
      linarith
    simp [Near, this]
  · exact sumsq_near hfl h0 h

theorem eta_mdev {N : ℕ} (hN : N ≤ 2 ^ 47) {B t : ℝ} (hB : 0 ≤ B) (ht : 0 ≤ t) :
    ((1 + unitRoundoff) ^ (N + 1) - 1) * (8 * N * B) / √2 * t ≤
      12 * N * (N + 1) * unitRoundoff * B * t := by
  apply mul_le_mul_of_nonneg_right _ ht
  have h2 : (141 / 100 : ℝ) < √2 := by
    rw [Real.lt_sqrt (by norm_num)]; norm_num
  rw [div_le_iff₀ (by linarith)]
  have hu := unitRoundoff_pos
  have h3 := few_roundings (k := N + 1) (by omega)
  push_cast at h3
  have h4 : ((1 + unitRoundoff) ^ (N + 1) - 1) * (8 * N * B) ≤
      (2 * ((N : ℝ) + 1) * unitRoundoff) * (8 * N * B) :=
    mul_le_mul_of_nonneg_right (by linarith) (by positivity)
  have h5 : 0 ≤ N * (N + 1) * unitRoundoff * B := by positivity
  nlinarith

end AT
