import Verif.Props.Adev
import Verif.Props.Mdev
import Verif.Props.Simple
import Verif.Props.Totdev
import Verif.Props.Theo1
import Verif.Props.Mtot
import Verif.Props.Mtie

/-!
# All deviation functions at once (C04, C05, C29, C60)
-/

namespace AT

open Spec Real

theorem totdev_short_eq (x : List ℝ) (hN : x.length < 2) (rate : ℝ) (taus : TausArg) :
    totdev x rate "phase" taus = (do
      let _ ← factors x.length rate taus false x.length
      .error (if x = [] then .indexError else .valueError)) := by
  simp only [totdev, input_to_phase, if_true, ok_bind, tau_generator_eq, effMax_default]
  cases factors x.length rate taus false x.length with
  | error e => rfl
  | ok ms =>
    simp only [ok_bind]
    match x, hN with
    | [], _ => rfl
    | [a], _ =>
      have : totdev_extend [a] = .error .valueError := by
        simp [totdev_extend, pyGet, scaledOnes]
      rw [this]
      rfl

/-- Every deviation function on phase data, for every rate and `taus` argument, returns
exactly the specified result. -/
theorem run_phase (fn : DevName) (x : List ℝ) (rate : ℝ) (taus : TausArg) :
    fn.run x rate "phase" taus = Spec.result fn x rate taus := by
  unfold Spec.result Stat.table Spec.stat
  cases fn <;>
    simp only [DevName.run, reduceCtorEq, false_and, true_and, if_false, decide_false, decide_true,
      lenOf, maxOf, sign, value, errOf, errCount, count, one_mul, if_true]
  case adev => rw [adev_phase_any]; push_cast; rfl
  case oadev => rw [oadev_phase_any]; push_cast; rfl
  case mdev => rw [mdev_phase_eq]; push_cast; rfl
  case tdev => rw [tdev_phase_eq]; push_cast; rfl
  case hdev => rw [hdev_phase_any]; push_cast; rfl
  case ohdev => rw [ohdev_phase_any]; push_cast; rfl
  case pdev => rw [pdev_phase_any]; push_cast; rfl
  case totdev =>
    split_ifs with h h'
    · rw [totdev_short_eq x h]; simp [h']
    · rw [totdev_short_eq x h]; simp [h']
    · rw [totdev_phase_eq x (by omega)]; push_cast; rfl
  case mtotdev => rw [mtotdev_phase_eq]; push_cast; rfl
  case ttotdev => rw [ttotdev_phase_eq]; push_cast; rfl
  case htotdev => rw [htotdev_phase_any]; rfl
  case theo1 =>
    split_ifs with h
    · simp [theo1, input_to_phase, h, ok_bind]
    · rw [theo1_phase_eq x rate h]; push_cast; rfl
  case tierms => rw [tierms_phase_eq]; rfl
  case mtie => rw [mtie_phase_eq]; push_cast; rfl

end AT
