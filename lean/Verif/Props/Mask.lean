import Verif.Model.Mask
import Mathlib.Tactic.Linarith
import Mathlib.Tactic.NormNum
import Mathlib.Tactic.FieldSimp
import Mathlib.Order.Monotone.Basic

/-!
# C49: the ITU masks

A mask prescribes a limit in nanoseconds. Each mask is compared with the breakpoint table of the
standard it quotes, in the form "limit on this interval", then shown monotone or not.
-/

namespace AT

/-- nanoseconds -/
noncomputable def Spec.ns (v : ℝ) : ℝ := v / 1000000000

open Spec

/-- C49: G.811 TDEV: 3 ns up to 100 s, then 0.03 τ ns up to 1000 s, then 30 ns -/
theorem prc_tdev_eq (tau : ℝ) :
    (tau < 100 → prc_tdev tau = ns 3) ∧ (100 ≤ tau → tau < 1000 → prc_tdev tau = ns (3 * tau / 100)) ∧
      (1000 ≤ tau → prc_tdev tau = ns 30) := by
  unfold prc_tdev ns
  refine ⟨fun h => ?_, fun h h' => ?_, fun h => ?_⟩ <;> split_ifs <;>
    first | (exfalso; norm_num at *; linarith) | (norm_num; done) | (norm_num; linarith)

example : prc_tdev 500 = ns 15 := by
  rw [(prc_tdev_eq 500).2.1 (by norm_num) (by norm_num)]
  norm_num

theorem prc_tdev_mono : Monotone prc_tdev := by
  intro a b h
  unfold prc_tdev
  split_ifs <;> norm_num at * <;> linarith

theorem prc_tdev_bounds (tau : ℝ) : ns 3 ≤ prc_tdev tau ∧ prc_tdev tau ≤ ns 30 := by
  unfold prc_tdev ns
  split_ifs <;> norm_num at * <;> constructor <;> linarith

/-- C49: G.811 MTIE: 0.275 τ + 25 ns up to 1000 s, then 0.01 τ + 290 ns -/
theorem prc_mtie_eq (tau : ℝ) :
    (tau < 1000 → prc_mtie tau = ns (0.275 * tau + 25)) ∧
      (1000 ≤ tau → prc_mtie tau = ns (0.01 * tau + 290)) := by
  unfold prc_mtie ns
  refine ⟨fun h => ?_, fun h => ?_⟩ <;> split_ifs <;> first | linarith | (norm_num; linarith)

theorem prc_mtie_mono : Monotone prc_mtie := by
  intro a b h
  unfold prc_mtie
  split_ifs <;> norm_num at * <;> linarith

theorem prc_mtie_pos (tau : ℝ) (h : 0 < tau) : ns 25 < prc_mtie tau := by
  unfold prc_mtie ns
  split_ifs <;> norm_num at * <;> linarith

/-- C49: G.8272.1 TDEV: 1 ns up to 30000 s, then 3.33333e-5 τ ns up to 300000 s, then 10 ns -/
theorem eprtc_tdev_eq (tau : ℝ) :
    (tau < 30000 → eprtc_tdev tau = ns 1) ∧
      (30000 ≤ tau → tau < 300000 → eprtc_tdev tau = ns (0.0000333333 * tau)) ∧
      (300000 ≤ tau → eprtc_tdev tau = ns 10) := by
  unfold eprtc_tdev ns
  refine ⟨fun h => ?_, fun h h' => ?_, fun h => ?_⟩ <;> split_ifs <;>
    first | (exfalso; norm_num at *; linarith) | (norm_num; done) | (norm_num; linarith)

theorem eprtc_tdev_bounds (tau : ℝ) : ns 0.999999 ≤ eprtc_tdev tau ∧ eprtc_tdev tau ≤ ns 10 := by
  unfold eprtc_tdev ns
  split_ifs <;> norm_num at * <;> constructor <;> linarith

/-- C49 fails for the G.8272.1 TDEV mask: it drops by one part in a million at 30000 s -/
theorem eprtc_tdev_not_mono : eprtc_tdev 30000 < eprtc_tdev 29999 := by
  unfold eprtc_tdev
  norm_num

/-- what holds instead: non-decreasing up to that drop of 1e-6 ns -/
theorem eprtc_tdev_mono_partial (a b : ℝ) (h : a ≤ b) : eprtc_tdev a ≤ eprtc_tdev b + ns 0.000001 := by
  unfold eprtc_tdev ns
  split_ifs <;> norm_num at * <;> linarith

/-- C49: G.8272.1 MTIE -/
theorem eprtc_mtie_eq (tau : ℝ) :
    (tau ≤ 1 → eprtc_mtie tau = ns 4) ∧
      (1 < tau → tau ≤ 100 → eprtc_mtie tau = ns (0.11114 * tau + 3.89)) ∧
      (100 < tau → tau ≤ 400000 → eprtc_mtie tau = ns (0.0000375 * tau + 15)) ∧
      (400000 < tau → eprtc_mtie tau = ns 30) := by
  unfold eprtc_mtie ns
  refine ⟨fun h => ?_, fun h h' => ?_, fun h h' => ?_, fun h => ?_⟩ <;> split_ifs <;>
    first | (exfalso; norm_num at *; linarith) | (norm_num; done) | (norm_num; linarith)

theorem eprtc_mtie_bounds (tau : ℝ) : ns 4 ≤ eprtc_mtie tau ∧ eprtc_mtie tau ≤ ns 30 := by
  unfold eprtc_mtie ns
  split_ifs <;> norm_num at * <;> constructor <;> linarith

/-- C49 fails for the G.8272.1 MTIE mask: it drops just after 100 s -/
theorem eprtc_mtie_not_mono : eprtc_mtie 101 < eprtc_mtie 100 := by
  unfold eprtc_mtie
  norm_num

/-- what holds instead: non-decreasing up to that drop of 0.00025 ns -/
theorem eprtc_mtie_mono_partial (a b : ℝ) (h : a ≤ b) :
    eprtc_mtie a ≤ eprtc_mtie b + ns 0.00025 := by
  unfold eprtc_mtie ns
  split_ifs <;> norm_num at * <;> linarith

/-- C49: G.8272 class A TDEV -/
theorem prtcA_tdev_eq (tau : ℝ) :
    (tau < 100 → prtcA_tdev tau = ns 3) ∧
      (100 ≤ tau → tau < 1000 → prtcA_tdev tau = ns (0.03 * tau)) ∧
      (1000 ≤ tau → prtcA_tdev tau = ns 30) := by
  unfold prtcA_tdev ns
  refine ⟨fun h => ?_, fun h h' => ?_, fun h => ?_⟩ <;> split_ifs <;>
    first | (exfalso; norm_num at *; linarith) | (norm_num; done) | (norm_num; linarith)

theorem prtcA_tdev_mono : Monotone prtcA_tdev := by
  intro a b h
  unfold prtcA_tdev
  split_ifs <;> norm_num at * <;> linarith

theorem prtcA_tdev_bounds (tau : ℝ) : ns 3 ≤ prtcA_tdev tau ∧ prtcA_tdev tau ≤ ns 30 := by
  unfold prtcA_tdev ns
  split_ifs <;> norm_num at * <;> constructor <;> linarith

/-- C49: G.8272 class B TDEV -/
theorem prtcB_tdev_eq (tau : ℝ) :
    (tau < 100 → prtcB_tdev tau = ns 1) ∧
      (100 ≤ tau → tau < 500 → prtcB_tdev tau = ns (0.01 * tau)) ∧
      (500 ≤ tau → prtcB_tdev tau = ns 5) := by
  unfold prtcB_tdev ns
  refine ⟨fun h => ?_, fun h h' => ?_, fun h => ?_⟩ <;> split_ifs <;>
    first | (exfalso; norm_num at *; linarith) | (norm_num; done) | (norm_num; linarith)

theorem prtcB_tdev_mono : Monotone prtcB_tdev := by
  intro a b h
  unfold prtcB_tdev
  split_ifs <;> norm_num at * <;> linarith

theorem prtcB_tdev_bounds (tau : ℝ) : ns 1 ≤ prtcB_tdev tau ∧ prtcB_tdev tau ≤ ns 5 := by
  unfold prtcB_tdev ns
  split_ifs <;> norm_num at * <;> constructor <;> linarith

/-- C49: G.8272 class A MTIE: 0.275 τ + 25 ns up to 273 s, then 100 ns -/
theorem prtcA_mtie_eq (tau : ℝ) :
    (tau < 273 → prtcA_mtie tau = ns (0.275 * tau + 25)) ∧ (273 ≤ tau → prtcA_mtie tau = ns 100) := by
  unfold prtcA_mtie ns
  refine ⟨fun h => ?_, fun h => ?_⟩ <;> split_ifs <;>
    first | (exfalso; norm_num at *; linarith) | (norm_num; done) | (norm_num; linarith)

theorem prtcA_mtie_bounds (tau : ℝ) (h : 0 < tau) :
    ns 25 < prtcA_mtie tau ∧ prtcA_mtie tau < ns 100.075 := by
  unfold prtcA_mtie ns
  split_ifs <;> norm_num at * <;> constructor <;> linarith

/-- C49 fails for the class A MTIE mask: it drops at 273 s, and exceeds its end value before -/
theorem prtcA_mtie_not_mono : prtcA_mtie 273 < prtcA_mtie 272.9 ∧ ns 100 < prtcA_mtie 272.9 := by
  unfold prtcA_mtie ns
  norm_num

/-- what holds instead: non-decreasing up to that drop of 0.075 ns -/
theorem prtcA_mtie_mono_partial (a b : ℝ) (h : a ≤ b) : prtcA_mtie a ≤ prtcA_mtie b + ns 0.075 := by
  unfold prtcA_mtie ns
  split_ifs <;> norm_num at * <;> linarith

/-- C49: G.8272 class B MTIE: 0.275 τ + 25 ns up to 54.5 s, then 40 ns -/
theorem prtcB_mtie_eq (tau : ℝ) :
    (tau < 54.5 → prtcB_mtie tau = ns (0.275 * tau + 25)) ∧ (54.5 ≤ tau → prtcB_mtie tau = ns 40) := by
  unfold prtcB_mtie ns
  refine ⟨fun h => ?_, fun h => ?_⟩ <;> split_ifs <;>
    first | (exfalso; norm_num at *; linarith) | (norm_num; done) | (norm_num; linarith)

example : prtcB_mtie 40 = ns 36 := by
  rw [(prtcB_mtie_eq 40).1 (by norm_num)]
  norm_num

theorem prtcB_mtie_mono : Monotone prtcB_mtie := by
  intro a b h
  unfold prtcB_mtie
  split_ifs <;> norm_num at * <;> linarith

theorem prtcB_mtie_bounds (tau : ℝ) (h : 0 < tau) :
    ns 25 < prtcB_mtie tau ∧ prtcB_mtie tau ≤ ns 40 := by
  unfold prtcB_mtie ns
  split_ifs <;> norm_num at * <;> constructor <;> linarith

end AT
