import Mathlib.Analysis.SpecialFunctions.Pow.Real
import Verif.FinDiff.Model

/-!
# Complex-step derivatives

`gen_csd` (numerical_derivatives/complex_step.py), reached from `gen_num_diff` with method `'csd'`
(numerical_derivatives/__init__.py:17-18).

Simplifications: exact arithmetic, so `1e-50` is a number that can be added.  `Fun.re` and `Fun.im` are the user's function as
compiled for real and for complex arguments.  `logging.beluga` (lines 13, 18, 47, 70, 98) does not exist, so every branch that reports
something raises `AttributeError` there; what follows these calls is never reached.  numba rejects the functions of several
arguments that `gen_csd` writes (lines 76-91): the first calls the compiled function with a tuple, the second calls `tuple` with two
arguments.
-/

namespace Beluga.Csd

open FinDiff

/-- A user function of `argLen` numbers, as compiled for real and for complex arguments (complex_step.py:10-114). -/
structure Fun where
  argLen : Nat
  re : List ℝ → ℝ
  im : List ℂ → ℂ
  jit : Jit := ⟨true, true⟩

/-- `1e-50` (complex_step.py:51,74,94). -/
noncomputable def tiny : ℝ := 10 ^ (-50 : ℤ)

/-- The first derivative (complex_step.py:53-54). -/
noncomputable def csd1 (f : ℂ → ℂ) (step x : ℝ) : ℝ := (f (x + step * Complex.I)).im / step

/-- `im_step_size` (complex_step.py:58,81,101). -/
noncomputable def imStep (step : ℝ) : ℝ := √(3 + 2 * √2) * step

/-- The second derivative (complex_step.py:60-62). -/
noncomputable def csd2 (g : ℝ → ℝ) (f : ℂ → ℂ) (step x : ℝ) : ℝ :=
  2 * (g (x + step) - (f (x + step - imStep step * Complex.I)).re) / imStep step ^ 2

/-- Indices of the nonzero entries, `np.nonzero(deriv_order)[0]` (complex_step.py:10-114). -/
def nonzero (order : List Nat) : List Nat := (List.range order.length).filter fun i => order.getD i 0 ≠ 0

/-- `gen_csd(func, deriv_order, step_size)` (complex_step.py:10-114), applied to `args`. -/
noncomputable def genCsd (f : Fun) (order : List Nat) (step : ℝ) (args : List ℝ) : Py ℝ :=
  match order.max? with
  | none => .error .valueError
  | some n =>
    if n > 2 then .error .attributeError
    else match nonzero order with
    | _ :: _ :: _ => .error .attributeError
    | [] => .error .indexError
    | [i] =>
      if i > f.argLen then .error .syntaxError
      else if ¬ f.jit.user then .error .attributeError
      else if f.argLen = 1 then
        if ¬ f.jit.derived then .error .attributeError
        else match args with
        | [x] =>
          if n = 1 then .ok (csd1 (fun z => f.im [z]) tiny x)
          else .ok (csd2 (fun t => f.re [t]) (fun z => f.im [z]) step x)
        | _ => .error .typeError
      else if i ≥ f.argLen then .error .valueError
      else .error .attributeError

/-- `gen_num_diff(func, order, 'csd', step_size)` (__init__.py:5-23). -/
noncomputable def numDiffCsd (f : Fun) (order : List Nat) (step : ℝ) (args : List ℝ) : Py ℝ :=
  match order.max? with
  | none => .error .valueError
  | some 0 => .ok (f.re args)
  | some _ => genCsd f order (step * 10 ^ order.sum) args

end Beluga.Csd
