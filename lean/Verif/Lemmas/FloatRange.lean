import Verif.Spec.FloatRange
import Verif.Lemmas.FloatErr
import Verif.Lemmas.Run

/-!
# Magnitudes of rounded numbers
-/

namespace AT

open Spec

/-- a multiple of `2^g` -/
def OnGrid (g : ℤ) (x : ℝ) : Prop := ∃ k : ℤ, x = k * (2 : ℝ) ^ g

/-- a multiple of `2^g`, at most `2^b` in magnitude -/
def Grid (g b : ℤ) (x : ℝ) : Prop := OnGrid g x ∧ |x| ≤ (2 : ℝ) ^ b

/-- zero, or from `2^a` to `2^b` in magnitude -/
def Mag (a b : ℤ) (x : ℝ) : Prop := x = 0 ∨ (2 : ℝ) ^ a ≤ |x| ∧ |x| ≤ (2 : ℝ) ^ b

theorem two_zpow_pos (a : ℤ) : (0 : ℝ) < (2 : ℝ) ^ a := by positivity

theorem two_zpow_mono {a b : ℤ} (h : a ≤ b) : (2 : ℝ) ^ a ≤ (2 : ℝ) ^ b :=
  zpow_le_zpow_right₀ (by norm_num) h

theorem two_zpow_add (a b : ℤ) : (2 : ℝ) ^ (a + b) = (2 : ℝ) ^ a * (2 : ℝ) ^ b :=
  zpow_add₀ (by norm_num) a b

theorem two_zpow_sub (a b : ℤ) : (2 : ℝ) ^ (a - b) = (2 : ℝ) ^ a / (2 : ℝ) ^ b :=
  zpow_sub₀ (by norm_num) a b

/-- a nonnegative power of two is an integer -/
theorem two_zpow_int {a : ℤ} (h : 0 ≤ a) : ((2 ^ a.toNat : ℤ) : ℝ) = (2 : ℝ) ^ a := by
  push_cast
  rw [← zpow_natCast, Int.toNat_of_nonneg h]

theorem isRound_int {k j : ℤ} (h : IsRound (j : ℝ) k) : k = j := by
  have h1 := h.1
  have h2 : |((j - k : ℤ) : ℝ)| < 1 := by push_cast; linarith
  rw [← Int.cast_abs] at h2
  have h3 : |j - k| < 1 := by exact_mod_cast h2
  have := Int.abs_lt_one_iff.1 h3
  omega

/-- rounding does not pass an integer -/
theorem isRound_abs_le {y : ℝ} {k K : ℤ} (h : IsRound y k) (hy : |y| ≤ K) : |(k : ℝ)| ≤ K := by
  have h1 := h.1
  have h2 : |(k : ℝ)| ≤ |y| + 1 / 2 := by
    have := abs_sub_abs_le_abs_sub (k : ℝ) y
    rw [abs_sub_comm] at this
    linarith
  have h3 : |(k : ℝ)| < K + 1 := by linarith
  rw [← Int.cast_abs] at h3 ⊢
  have h4 : |k| < K + 1 := by exact_mod_cast h3
  exact_mod_cast Int.lt_add_one_iff.1 h4

theorem isRound_le_abs {y : ℝ} {k K : ℤ} (h : IsRound y k) (hy : (K : ℝ) ≤ |y|) : (K : ℝ) ≤ |(k : ℝ)| := by
  have h1 := h.1
  have h2 : |y| ≤ |(k : ℝ)| + 1 / 2 := by
    have := abs_sub_abs_le_abs_sub y (k : ℝ)
    linarith
  have h3 : (K : ℝ) < |(k : ℝ)| + 1 := by linarith
  rw [← Int.cast_abs] at h3 ⊢
  have h4 : K < |k| + 1 := by exact_mod_cast h3
  exact_mod_cast Int.lt_add_one_iff.1 h4

/-- rounding keeps multiples of a power of two -/
theorem isBinary64_grid {x y : ℝ} {g : ℤ} (h : IsBinary64 x y) (hx : OnGrid g x) : OnGrid g y := by
  rcases h with ⟨_, rfl⟩ | ⟨e, k, -, -, h3, rfl⟩
  · exact ⟨0, by simp⟩
  obtain ⟨j, rfl⟩ := hx
  rcases le_total g e with hge | hge
  · refine ⟨k * 2 ^ (e - g).toNat, ?_⟩
    have := two_zpow_int (show 0 ≤ e - g by omega)
    push_cast at this ⊢
    rw [this, mul_assoc, ← two_zpow_add, sub_add_cancel]
  · refine ⟨j, ?_⟩
    have h4 : (j : ℝ) * (2 : ℝ) ^ g / (2 : ℝ) ^ e = ((j * 2 ^ (g - e).toNat : ℤ) : ℝ) := by
      have := two_zpow_int (show 0 ≤ g - e by omega)
      push_cast at this ⊢
      rw [this, mul_div_assoc, two_zpow_sub]
    rw [h4] at h3
    rw [isRound_int h3, ← h4]
    field_simp

/-- rounding does not pass a number of at most 53 bits -/
theorem isBinary64_abs_le {x y : ℝ} {n : ℕ} {b : ℤ} (h : IsBinary64 x y) (hn : n < 2 ^ 53)
    (hx : |x| ≤ n * (2 : ℝ) ^ b) : |y| ≤ n * (2 : ℝ) ^ b := by
  rcases h with ⟨_, rfl⟩ | ⟨e, k, h1, -, h3, rfl⟩
  · rw [abs_zero]; positivity
  have hp := two_zpow_pos e
  rw [le_div_iff₀ hp] at h1
  have heb : e ≤ b := by
    have h4 : (2 : ℝ) ^ (52 : ℤ) * (2 : ℝ) ^ e < (2 : ℝ) ^ (53 : ℤ) * (2 : ℝ) ^ b := by
      refine lt_of_le_of_lt ((by exact_mod_cast h1 : (2 : ℝ) ^ (52 : ℤ) * (2 : ℝ) ^ e ≤ |x|).trans hx) ?_
      apply mul_lt_mul_of_pos_right _ (two_zpow_pos b)
      exact_mod_cast hn
    rw [← two_zpow_add, ← two_zpow_add, zpow_lt_zpow_iff_right₀ (by norm_num)] at h4
    omega
  have h5 : |x / (2 : ℝ) ^ e| ≤ ((n * 2 ^ (b - e).toNat : ℤ) : ℝ) := by
    have := two_zpow_int (show 0 ≤ b - e by omega)
    push_cast at this ⊢
    rw [this, two_zpow_sub, abs_div, abs_of_pos hp, ← mul_div_assoc]
    exact div_le_div_of_nonneg_right hx hp.le
  have h6 := isRound_abs_le h3 h5
  rw [abs_mul, abs_of_pos hp]
  refine (mul_le_mul_of_nonneg_right h6 hp.le).trans (le_of_eq ?_)
  have := two_zpow_int (show 0 ≤ b - e by omega)
  push_cast at this ⊢
  rw [this, mul_assoc, ← two_zpow_add, sub_add_cancel]

theorem isBinary64_abs_ge {x y : ℝ} {a : ℤ} (h : IsBinary64 x y) (hx : (2 : ℝ) ^ a ≤ |x|) :
    (2 : ℝ) ^ a ≤ |y| := by
  rcases h with ⟨rfl, _⟩ | ⟨e, k, h1, -, h3, rfl⟩
  · rw [abs_zero] at hx; exact absurd hx (not_le.2 (two_zpow_pos a))
  have hp := two_zpow_pos e
  rw [abs_mul, abs_of_pos hp]
  rcases le_total e a with hea | hea
  · have h5 : ((2 ^ (a - e).toNat : ℤ) : ℝ) ≤ |x / (2 : ℝ) ^ e| := by
      rw [two_zpow_int (by omega), two_zpow_sub, abs_div, abs_of_pos hp]
      exact div_le_div_of_nonneg_right hx hp.le
    have h6 := isRound_le_abs h3 h5
    rw [two_zpow_int (by omega)] at h6
    refine le_trans (le_of_eq ?_) (mul_le_mul_of_nonneg_right h6 hp.le)
    rw [← two_zpow_add, sub_add_cancel]
  · have h5 : ((2 ^ 52 : ℤ) : ℝ) ≤ |x / (2 : ℝ) ^ e| := by
      rw [abs_div, abs_of_pos hp]; exact_mod_cast h1
    have h6 := isRound_le_abs h3 h5
    have h7 : (1 : ℝ) ≤ |(k : ℝ)| := le_trans (by norm_num) h6
    calc (2 : ℝ) ^ a ≤ (2 : ℝ) ^ e := two_zpow_mono hea
      _ ≤ |(k : ℝ)| * (2 : ℝ) ^ e := by nlinarith

theorem isBinary64_abs_le' {x y : ℝ} {b : ℤ} (h : IsBinary64 x y) (hx : |x| ≤ (2 : ℝ) ^ b) :
    |y| ≤ (2 : ℝ) ^ b := by
  have := isBinary64_abs_le (n := 1) (b := b) h (by norm_num) (by simpa using hx)
  simpa using this

theorem Grid.round {g b : ℤ} {x y : ℝ} (h : Grid g b x) (hy : IsBinary64 x y) : Grid g b y :=
  ⟨isBinary64_grid hy h.1, isBinary64_abs_le' hy h.2⟩

theorem Mag.round {a b : ℤ} {x y : ℝ} (h : Mag a b x) (hy : IsBinary64 x y) : Mag a b y := by
  rcases h with rfl | ⟨h1, h2⟩
  · rcases hy with ⟨_, rfl⟩ | ⟨e, k, h1, _⟩
    · exact Or.inl rfl
    · rw [abs_zero, zero_div] at h1; norm_num at h1
  · exact Or.inr ⟨isBinary64_abs_ge hy h1, isBinary64_abs_le' hy h2⟩

/-- a double of at least `2^a` is a multiple of `2^(a-52)` -/
theorem Mag.round_grid {a b : ℤ} {x y : ℝ} (h : Mag a b x) (hy : IsBinary64 x y) : Grid (a - 52) b y := by
  refine ⟨?_, ?_⟩
  · rcases h with rfl | ⟨h1, _⟩
    · rcases hy with ⟨_, rfl⟩ | ⟨e, k, h1, _⟩
      · exact ⟨0, by simp⟩
      · rw [abs_zero, zero_div] at h1; norm_num at h1
    · rcases hy with ⟨_, rfl⟩ | ⟨e, k, -, h2, h3, rfl⟩
      · exact ⟨0, by simp⟩
      rw [div_lt_iff₀ (two_zpow_pos e)] at h2
      have h4 : (2 : ℝ) ^ a < (2 : ℝ) ^ (53 : ℤ) * (2 : ℝ) ^ e := by exact_mod_cast h1.trans_lt h2
      rw [← two_zpow_add, zpow_lt_zpow_iff_right₀ (by norm_num)] at h4
      refine ⟨k * 2 ^ (e - (a - 52)).toNat, ?_⟩
      have := two_zpow_int (show 0 ≤ e - (a - 52) by omega)
      push_cast at this ⊢
      rw [this, mul_assoc, ← two_zpow_add, sub_add_cancel]
  · rcases h with rfl | ⟨_, h2⟩
    · exact isBinary64_abs_le' hy (by rw [abs_zero]; exact (two_zpow_pos b).le)
    · exact isBinary64_abs_le' hy h2

theorem OnGrid.mono {g g' : ℤ} {x : ℝ} (h : OnGrid g x) (hg : g' ≤ g) : OnGrid g' x := by
  obtain ⟨k, rfl⟩ := h
  refine ⟨k * 2 ^ (g - g').toNat, ?_⟩
  have := two_zpow_int (show 0 ≤ g - g' by omega)
  push_cast at this ⊢
  rw [this, mul_assoc, ← two_zpow_add, sub_add_cancel]

theorem OnGrid.add {g : ℤ} {x y : ℝ} (h : OnGrid g x) (h' : OnGrid g y) : OnGrid g (x + y) := by
  obtain ⟨k, rfl⟩ := h
  obtain ⟨j, rfl⟩ := h'
  exact ⟨k + j, by push_cast; ring⟩

theorem OnGrid.neg {g : ℤ} {x : ℝ} (h : OnGrid g x) : OnGrid g (-x) := by
  obtain ⟨k, rfl⟩ := h
  exact ⟨-k, by push_cast; ring⟩

theorem OnGrid.mul {g g' : ℤ} {x y : ℝ} (h : OnGrid g x) (h' : OnGrid g' y) : OnGrid (g + g') (x * y) := by
  obtain ⟨k, rfl⟩ := h
  obtain ⟨j, rfl⟩ := h'
  exact ⟨k * j, by push_cast; rw [two_zpow_add]; ring⟩

theorem Grid.mono {g b g' b' : ℤ} {x : ℝ} (h : Grid g b x) (hg : g' ≤ g) (hb : b ≤ b') : Grid g' b' x :=
  ⟨h.1.mono hg, h.2.trans (two_zpow_mono hb)⟩

theorem Grid.add {g b : ℤ} {x y : ℝ} (h : Grid g b x) (h' : Grid g b y) : Grid g (b + 1) (x + y) := by
  refine ⟨h.1.add h'.1, (abs_add_le _ _).trans ?_⟩
  rw [two_zpow_add, zpow_one]
  linarith [h.2, h'.2]

theorem Grid.neg {g b : ℤ} {x : ℝ} (h : Grid g b x) : Grid g b (-x) :=
  ⟨h.1.neg, by rw [abs_neg]; exact h.2⟩

theorem Grid.sub {g b : ℤ} {x y : ℝ} (h : Grid g b x) (h' : Grid g b y) : Grid g (b + 1) (x - y) := by
  rw [sub_eq_add_neg]; exact h.add h'.neg

theorem Grid.mul {g b g' b' : ℤ} {x y : ℝ} (h : Grid g b x) (h' : Grid g' b' y) :
    Grid (g + g') (b + b') (x * y) := by
  refine ⟨h.1.mul h'.1, ?_⟩
  rw [abs_mul, two_zpow_add]
  exact mul_le_mul h.2 h'.2 (abs_nonneg _) (two_zpow_pos _).le

theorem Grid.mag {g b : ℤ} {x : ℝ} (h : Grid g b x) : Mag g b x := by
  obtain ⟨⟨k, rfl⟩, h2⟩ := h
  by_cases hk : k = 0
  · left; simp [hk]
  · right
    refine ⟨?_, h2⟩
    rw [abs_mul, abs_of_pos (two_zpow_pos g)]
    have : (1 : ℝ) ≤ |(k : ℝ)| := by
      rw [← Int.cast_abs]
      exact_mod_cast Int.one_le_abs hk
    nlinarith [two_zpow_pos g]

theorem Grid.natCast {n : ℕ} {b : ℕ} (h : n ≤ 2 ^ b) : Grid 0 b (n : ℝ) := by
  refine ⟨⟨n, by simp⟩, ?_⟩
  rw [abs_of_nonneg (by positivity), zpow_natCast]
  exact_mod_cast h

theorem Grid.zero (g b : ℤ) : Grid g b 0 := ⟨⟨0, by simp⟩, by rw [abs_zero]; exact (two_zpow_pos b).le⟩

theorem Mag.mono {a b a' b' : ℤ} {x : ℝ} (h : Mag a b x) (ha : a' ≤ a) (hb : b ≤ b') : Mag a' b' x :=
  h.imp id fun h => ⟨(two_zpow_mono ha).trans h.1, h.2.trans (two_zpow_mono hb)⟩

theorem Mag.natCast {n : ℕ} {b : ℕ} (h : n ≤ 2 ^ b) : Mag 0 b (n : ℝ) := (Grid.natCast h).mag

theorem Mag.mul {a b a' b' : ℤ} {x y : ℝ} (h : Mag a b x) (h' : Mag a' b' y) :
    Mag (a + a') (b + b') (x * y) := by
  rcases h with rfl | ⟨h1, h2⟩
  · left; simp
  rcases h' with rfl | ⟨h1', h2'⟩
  · left; simp
  right
  rw [abs_mul, two_zpow_add, two_zpow_add]
  exact ⟨mul_le_mul h1 h1' (two_zpow_pos _).le (abs_nonneg _),
    mul_le_mul h2 h2' (abs_nonneg _) (two_zpow_pos _).le⟩

theorem Mag.inv {a b : ℤ} {x : ℝ} (h : Mag a b x) : Mag (-b) (-a) x⁻¹ := by
  rcases h with rfl | ⟨h1, h2⟩
  · left; simp
  right
  have hx : 0 < |x| := (two_zpow_pos a).trans_le h1
  rw [abs_inv, zpow_neg, zpow_neg]
  exact ⟨inv_anti₀ hx h2, inv_anti₀ (two_zpow_pos a) h1⟩

theorem Mag.div {a b a' b' : ℤ} {x y : ℝ} (h : Mag a b x) (h' : Mag a' b' y) :
    Mag (a - b') (b - a') (x / y) := by
  rw [div_eq_mul_inv, sub_eq_add_neg, sub_eq_add_neg]
  exact h.mul h'.inv

theorem Mag.sqrt {a b : ℤ} {x : ℝ} (h : Mag (2 * a) (2 * b) x) : Mag a b √x := by
  rcases h with rfl | ⟨h1, h2⟩
  · left; simp
  rcases le_total x 0 with hx | hx
  · left; exact Real.sqrt_eq_zero_of_nonpos hx
  right
  rw [abs_of_nonneg hx] at h1 h2
  have key : ∀ c : ℤ, (2 : ℝ) ^ (2 * c) = ((2 : ℝ) ^ c) ^ 2 := by
    intro c; rw [two_mul, two_zpow_add, pow_two]
  rw [key] at h1 h2
  rw [abs_of_nonneg (Real.sqrt_nonneg x)]
  exact ⟨Real.le_sqrt_of_sq_le h1, Real.sqrt_le_iff.2 ⟨(two_zpow_pos b).le, h2⟩⟩

theorem Mag.range {a b : ℤ} {x : ℝ} (h : Mag a b x) (ha : -1022 ≤ a) (hb : b ≤ 1023) : NormalRange x :=
  h.mono ha hb

theorem Mag.one : Mag 0 0 1 := Or.inr (by norm_num)

theorem Moderate.grid {v : ℝ} (h : Moderate v) : Grid (-152) 100 v := by
  rcases h with rfl | ⟨h1, h2⟩
  · exact Grid.zero _ _
  · exact (Mag.round_grid (Or.inr h2) h1 : Grid (-100 - 52) 100 v)

theorem ModerateRate.mag {rate : ℝ} (h : ModerateRate rate) : Mag (-40) 40 rate := by
  have h0 : 0 < rate := (two_zpow_pos _).trans_le h.1
  right
  rw [abs_of_pos h0]
  exact h

theorem ModerateRate.pos {rate : ℝ} (h : ModerateRate rate) : 0 < rate := (two_zpow_pos _).trans_le h.1

/-! ## A rounding without limits that agrees in the normal range -/

/-- `r` rounds all numbers, and agrees with `fl` on the normal range; `sum'` and `sum` agree on lists
whose sums stay in the normal range -/
structure RangePair (fl r : ℝ → ℝ) (sum sum' : List ℝ → ℝ) : Prop where
  agree : ∀ x, NormalRange x → fl x = r x
  binary : ∀ x, IsBinary64 x (r x)
  hsum : ∀ l, FloatSum r l (sum' l)
  sum_agree : ∀ (g b : ℤ) (l : List ℝ), l.length ≤ 2 ^ 47 → (∀ v ∈ l, Grid g b v) → -1022 ≤ g → b ≤ 970 →
    sum l = sum' l ∧ Grid g (b + 47) (sum' l)

theorem floatSum_agree {fl r : ℝ → ℝ} (h : ∀ x, NormalRange x → fl x = r x)
    (hr : ∀ x, IsBinary64 x (r x)) {g b : ℤ} (hg : -1022 ≤ g) (hb : b ≤ 970) {l : List ℝ} {s : ℝ}
    (hs : FloatSum fl l s) (hl : l.length ≤ 2 ^ 47) (hv : ∀ v ∈ l, Grid g b v) :
    FloatSum r l s ∧ OnGrid g s ∧ |s| ≤ l.length * (2 : ℝ) ^ b := by
  induction hs with
  | nil => exact ⟨.nil, ⟨0, by simp⟩, by simp⟩
  | single x =>
    have := hv x (by simp)
    exact ⟨.single x, this.1, by simpa using this.2⟩
  | @add l l₁ l₂ a c h1 h2 hp _ _ ih1 ih2 =>
    have hlen : l.length = l₁.length + l₂.length := by rw [hp.length_eq, List.length_append]
    obtain ⟨a1, a2, a3⟩ := ih1 (by omega) (fun v hv' => hv v (hp.mem_iff.2 (List.mem_append_left _ hv')))
    obtain ⟨b1, b2, b3⟩ := ih2 (by omega) (fun v hv' => hv v (hp.mem_iff.2 (List.mem_append_right _ hv')))
    have e1 : |a + c| ≤ (l.length : ℝ) * (2 : ℝ) ^ b := by
      refine (abs_add_le _ _).trans ?_
      rw [hlen]; push_cast
      linarith
    have e2 := a2.add b2
    have e3 : Mag g (b + 47) (a + c) := by
      apply Grid.mag
      refine ⟨e2, e1.trans ?_⟩
      rw [add_comm, two_zpow_add]
      apply mul_le_mul_of_nonneg_right _ (two_zpow_pos b).le
      exact_mod_cast hl
    rw [h _ (e3.range hg (by omega))]
    refine ⟨.add h1 h2 hp a1 b1, isBinary64_grid (hr _) e2, ?_⟩
    exact isBinary64_abs_le (hr _) (lt_of_le_of_lt hl (by norm_num)) e1

theorem exists_rangePair {fl : ℝ → ℝ} {sum : List ℝ → ℝ} (hfl : Binary64Range fl)
    (hsum : ∀ l, FloatSum fl l (sum l)) : ∃ r sum', RangePair fl r sum sum' := by
  classical
  set r : ℝ → ℝ := fun x => if NormalRange x then fl x else (exists_isBinary64 x).choose with hr
  have agree : ∀ x, NormalRange x → fl x = r x := fun x hx => by simp [hr, hx]
  have binary : ∀ x, IsBinary64 x (r x) := by
    intro x
    by_cases hx : NormalRange x
    · simp only [hr, if_pos hx]; exact hfl x hx
    · simp only [hr, if_neg hx]; exact (exists_isBinary64 x).choose_spec
  have ex : ∀ l : List ℝ, ∃ s, FloatSum r l s := by
    intro l
    induction l with
    | nil => exact ⟨0, .nil⟩
    | cons v l ih =>
      obtain ⟨s, hs⟩ := ih
      by_cases h0 : l = []
      · subst h0; exact ⟨v, .single v⟩
      · exact ⟨_, .add (l₁ := [v]) (by simp) h0 (by simp) (.single v) hs⟩
  refine ⟨r, fun l => if FloatSum r l (sum l) then sum l else (ex l).choose, agree, binary, ?_, ?_⟩
  · intro l
    by_cases h : FloatSum r l (sum l)
    · simp only [if_pos h]; exact h
    · simp only [if_neg h]; exact (ex l).choose_spec
  · intro g b l hl hv hg hb
    obtain ⟨h1, h2, h3⟩ := floatSum_agree agree binary hg hb (hsum l) hl hv
    simp only [if_pos h1]
    refine ⟨trivial, h2, h3.trans ?_⟩
    rw [add_comm, two_zpow_add]
    apply mul_le_mul_of_nonneg_right _ (two_zpow_pos b).le
    exact_mod_cast hl

end AT
