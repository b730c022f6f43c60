import Mathlib.Data.Real.Basic

/-!
# The bias of the modified total, time total and Hadamard total deviation
-/

namespace AT.Spec

/-- the bias at the averaging factor `m` for data that are white -/
noncomputable def bias0 (m : ℕ) : ℝ := if m % 2 = 0 then (4837 * (m : ℝ) ^ 4 + 60 * m ^ 2 - 32) / (4860 * m ^ 4) else
  (14511 * (m : ℝ) ^ 6 - 352 * m ^ 5 - 9685 * m ^ 4 + 1309 * m ^ 2 + 32 * m - 55) / (180 * m ^ 2 * (9 * m ^ 2 - 1) ^ 2)

/-- the bias at the averaging factor `m` for data with white increments -/
noncomputable def bias1 (m : ℕ) : ℝ := if m % 2 = 0 then
  (14979 * (m : ℝ) ^ 6 + 19348 * m ^ 4 - 384 * m ^ 2 - 128) / (19440 * m ^ 4 * (m ^ 2 + 1)) else
  (44937 * (m : ℝ) ^ 8 + 45722 * m ^ 6 - 53092 * m ^ 4 + 8918 * m ^ 2 - 405) / (720 * m ^ 2 * (9 * m ^ 2 - 1) ^ 2 * (m ^ 2 + 1))

/-- the bias at the averaging factor `m` for data with white second differences -/
noncomputable def bias2 (m : ℕ) : ℝ := if m % 2 = 0 then
  (8127993 * (m : ℝ) ^ 8 + 4194120 * m ^ 6 + 2706704 * m ^ 4 - 126720 * m ^ 2 - 28672) /
    (1088640 * m ^ 4 * (11 * m ^ 4 + 5 * m ^ 2 + 4)) else
  (24383979 * (m : ℝ) ^ 10 + 6859865 * m ^ 8 + 5162542 * m ^ 6 - 12931790 * m ^ 4 + 2451479 * m ^ 2 - 121275) /
    (40320 * m ^ 2 * (9 * m ^ 2 - 1) ^ 2 * (11 * m ^ 4 + 5 * m ^ 2 + 4))

end AT.Spec
