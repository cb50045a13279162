import Verif.Continuation.Spec
import Mathlib.Analysis.SpecialFunctions.Log.Base

/-! The real `log10` and `10**x` satisfy the assumptions `Lawful`. -/

namespace Beluga.Cont

/-- The mathematical functions that `np.log10` and `np.logspace` approximate. -/
noncomputable def realLog : LogOps ℝ := ⟨fun x => Real.logb 10 x, fun x => (10 : ℝ) ^ x⟩

theorem realLog_lawful : Lawful realLog where
  pow_log := fun x hx => Real.rpow_logb (by norm_num) (by norm_num) hx
  log_pow := fun x => Real.logb_rpow (by norm_num) (by norm_num)
  pow_pos := fun x => Real.rpow_pos_of_pos (by norm_num) x
  mono := fun x y h => Real.rpow_lt_rpow_of_exponent_lt (by norm_num) h

end Beluga.Cont
