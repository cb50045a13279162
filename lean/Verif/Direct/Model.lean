import Verif.Numeric.Model

/-!
# The direct method

`solve(method='direct')` (beluga.py:142-144) applies `make_direct_method` (mapping_functions.py:797-853) to the preprocessed problem
and compiles the result like the boundary value problems of the indirect methods (`CompileProblem`, mapping_functions.py:761-776,
with `use_control_arg=False`).
-/

namespace Beluga.Direct

open Beluga.Sym

/-- The keyword arguments of `make_direct_method` (mapping_functions.py:797-798); `reduction` is not used there. -/
structure DirectOpts where
  analyticalJacobian : Bool := true
  momentumShift : Bool := false
  normalizeTime : Bool := false

/-- `make_direct_method(ocp)(ocp)` of the preprocessed problem (beluga.py:132-144). -/
def direct (S : Sympy) (o : DirectOpts) (p : Prob) : Py Prob := do
  let p ← preprocess p
  let steps ← directSteps o.analyticalJacobian o.momentumShift o.normalizeTime p
  runSteps S steps p

end Beluga.Direct
