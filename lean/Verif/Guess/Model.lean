import Verif.Py
import Verif.Mappers.Model

/-!
# Initial guesses (guess_generators.py)

Model of `GuessGenerator` and `match_constants_to_states`.  Trajectories are the ones of `Verif.Mappers.Model`.
-/

namespace Beluga.Guess

open Beluga.Map

variable {K : Type} [Field K] [LinearOrder K]

/-- A value that may be given as a Python `float`, a Python `int` or as a sequence (guess_generators.py:109-110). -/
inductive Num (K : Type) where
  | float (x : K)
  | int (x : K)
  | seq (l : List K)
  deriving DecidableEq

/-- `mode` is compared with the keys of `setup_funcs` and `generate_funcs` (guess_generators.py:30-35). -/
inductive Mode where
  | auto
  | static
  | ones
  | other (s : String)
  deriving DecidableEq

/-- Keyword arguments of `setup_auto`/`setup_ones` (guess_generators.py:74-75, 154-155) with their defaults.
`start` is a sequence of numbers or missing; `quad_guess`, `param_guess` are sequences. -/
structure Opts (K : Type) [Field K] where
  start : Option (List K) := none
  direction : String := "forward"
  timeIntegrate : K := 1
  quadGuess : List K := []
  costateGuess : Num K := .float (1 / 10)
  controlGuess : Num K := .float (1 / 10)
  useControlGuess : Bool := false
  paramGuess : Option (List K) := none

/-- The attributes of a `GuessGenerator` (guess_generators.py:37-48). -/
structure Gen (K : Type) where
  daeNumStates : Nat
  mode : Mode
  solinit : Option (Sol K)
  direction : String
  timeIntegrate : K
  start : Option (List K)
  quadGuess : List K
  costateGuess : Option (Num K)
  paramGuess : Option (List K)
  controlGuess : Option (Num K)
  useControlGuess : Bool

/-- The attribute values at the end of `__init__` (guess_generators.py:37-48).  `quad_guess` is `None` there, which
only matters if `generate` is called without any `setup`; it is modelled by the empty list. -/
def fresh : Gen K where
  daeNumStates := 0
  mode := .auto
  solinit := none
  direction := "forward"
  timeIntegrate := 1 / 10
  start := none
  quadGuess := []
  costateGuess := none
  paramGuess := none
  controlGuess := none
  useControlGuess := false

/-- `setup_auto` and `setup_ones` (guess_generators.py:74-93, 154-173; the two bodies are the same): the attributes
after the call and the exception raised, if any.  The direction is checked before anything is stored, the duration
after `direction` and `time_integrate` have been stored. -/
def Gen.setupTimed (g : Gen K) (o : Opts K) : Gen K × Option PyErr :=
  if o.direction = "forward" ∨ o.direction = "reverse" then
    let g1 := { g with direction := o.direction, timeIntegrate := |o.timeIntegrate| }
    if o.timeIntegrate = 0 then (g1, some .valueError)
    else ({ g1 with start := o.start, quadGuess := o.quadGuess, costateGuess := some o.costateGuess,
                    paramGuess := o.paramGuess, controlGuess := some o.controlGuess,
                    useControlGuess := o.useControlGuess }, none)
  else (g, some .valueError)

/-- `setup(mode, **kwargs)` (guess_generators.py:50-58); for 'static' the only keyword is `solinit`
(guess_generators.py:67-68), for the other modes the ones in `Opts`. -/
def Gen.setup (g : Gen K) (mode : Mode) (o : Opts K) (solinit : Option (Sol K)) : Gen K × Option PyErr :=
  let g := { g with mode := mode }
  match mode with
  | .auto => g.setupTimed o
  | .ones => g.setupTimed o
  | .static => ({ g with solinit := solinit }, none)
  | .other _ => (g, some .valueError)

/-- `GuessGenerator(**kwargs)` (guess_generators.py:29-48): `setup` runs first (on an object without the other
attributes, which `setup` does not read), then every attribute is assigned its default. -/
def construct (mode : Mode) (o : Opts K) (solinit : Option (Sol K)) : Py (Gen K) :=
  match (fresh : Gen K).setup mode o solinit with
  | (_, some e) => .error e
  | (_, none) => .ok fresh

/-- A method call as a value: the object, or the exception (guess_generators.py:50-65). -/
def outcome : Gen K × Option PyErr → Py (Gen K)
  | (_, some e) => .error e
  | (g, none) => .ok g

/-- `guess_generator(*args, **kwargs)` (guess_generators.py:14-24): a default object, then `setup`. -/
def guessGenerator (mode : Mode) (o : Opts K) (solinit : Option (Sol K)) : Py (Gen K) :=
  match construct (K := K) .auto {} none with
  | .error e => .error e
  | .ok g => outcome (g.setup mode o solinit)

/-- `tspan` (guess_generators.py:98-103, 177-182). -/
def Gen.tf (g : Gen K) : K := if g.direction = "forward" then g.timeIntegrate
  else if g.direction = "reverse" then -g.timeIntegrate else g.timeIntegrate

/-- The costate row `d0` (guess_generators.py:108-112, 187-191). -/
def Gen.costateRow (g : Gen K) (start : List K) : List K :=
  match g.costateGuess with
  | some (.float x) => (List.replicate start.length 1).map (x * ·)
  | some (.int x) => (List.replicate start.length 1).map (x * ·)
  | some (.seq l) => l
  | none => []

/-- The control array built from `u0` (guess_generators.py:114-117, 137, 193-196, 215): a float is multiplied with
`np.ones(self.dae_num_states)`; a sequence is a row; an `int` is not caught by the test (`float` is tested twice),
so the array is one-dimensional.  One-dimensional non-empty arrays have no place in the trajectory model; `none`
stands for them. -/
def Gen.controls (g : Gen K) (T : Nat) : Option (Arr K) :=
  match g.controlGuess with
  | some (.float x) => some (.rows g.daeNumStates
      (List.replicate T ((List.replicate g.daeNumStates 1).map (x * ·))))
  | some (.seq l) => some (.rows l.length (List.replicate T l))
  | _ => none

/-- `np.array([r, …, r])` with `T` copies of a row (guess_generators.py:175-227). -/
def copies (T : Nat) (r : List K) : Arr K := .rows r.length (List.replicate T r)

/-- The trajectory handed to `guess_map` by `auto` (`T = 2`) and `ones` (`T = 4`) (guess_generators.py:105-139,
184-217).  Without `start` `len(self.start)` raises `TypeError` (with a scalar costate guess; a sequence would make
the mapping fail later, which is not distinguished).  `param_guess` is the optional argument that `generate` never
passes, so the parameters are `np.ones(len(solinit.dynamical_parameters))`.  A one-dimensional control array
(`controls = none`) is reported as the `TypeError` value although the program goes on until the first mapper that
indexes the second axis; nothing below relies on which error it is. -/
def Gen.seed (g : Gen K) (T : Nat) (t : List K) (s : Sol K) : Py (Sol K) :=
  match g.start, g.controls T with
  | some start, some u => .ok { s with
      t := t
      y := copies T start
      dual := copies T (g.costateRow start)
      q := copies T g.quadGuess
      u := u
      dyn := List.replicate s.dyn.length 1
      nondyn := List.replicate s.nondyn.length 1 }
  | _, _ => .error .typeError

/-- The initial value problem solver: `prop(deriv_func, quad_func, tspan, y0, q0, params, const)`
(guess_generators.py:95-173). -/
abbrev Propagate (K : Type) := List K → List K → List K → List K → List K → Py (Sol K)

/-- `auto` (guess_generators.py:95-152). -/
def Gen.auto (g : Gen K) (prop : Propagate K) (gmap : Sol K → Py (Sol K)) (s : Sol K) : Py (Sol K) := do
  let s ← g.seed 2 [0, g.tf] s
  let sol ← gmap s
  let y0 ← Py.get sol.y.rowList 0
  let q0 ← Py.get sol.q.rowList 0
  let iv ← prop sol.t y0 q0 sol.dyn sol.const
  .ok { iv with dyn := sol.dyn, nondyn := sol.nondyn, const := sol.const }

/-- `ones` (guess_generators.py:175-226). -/
def Gen.ones (g : Gen K) (gmap : Sol K → Py (Sol K)) (s : Sol K) : Py (Sol K) := do
  let s ← g.seed 4 (linspace 0 g.tf 4) s
  gmap s

/-- `static` (guess_generators.py:70-72): `ocp_map(self.solinit)`; `ocp_map(None)` fails. -/
def Gen.static (g : Gen K) (gmap : Sol K → Py (Sol K)) : Py (Sol K) :=
  match g.solinit with
  | some s => gmap s
  | none => .error .attributeError

/-- `generate` (guess_generators.py:60-65) with the arguments of `beluga.solve`. -/
def Gen.generate (g : Gen K) (prop : Propagate K) (gmap : Sol K → Py (Sol K)) (s : Sol K) : Py (Sol K) :=
  match g.mode with
  | .auto => g.auto prop gmap s
  | .static => g.static gmap
  | .ones => g.ones gmap s
  | .other _ => .error .valueError

/-- The trajectory object handed to `map_sol` after the call: every mapper changes its argument in place, up to the
first `NormalizeTimeMapper`, which works on a copy (trajectory_mappers.py:154-155). -/
def inPlace (O : TrigOps K) : List (Mapper K) → Sol K → Py (Sol K)
  | [], s => .ok s
  | .normalizeTime _ :: _, s => .ok s
  | m :: ms, s => do
    let s' ← m.map O s
    inPlace O ms s'

/-- `generate` as a method on a mutable object: the guess and the generator afterwards.  Only 'static' hands a
stored object to the mapping; 'auto' and 'ones' fill the new `Trajectory` made by `solve` (beluga.py:161-163). -/
def Gen.generateSt (g : Gen K) (O : TrigOps K) (prop : Propagate K) (chain : List (Mapper K)) (s : Sol K) :
    Py (Sol K × Gen K) := do
  let r ← g.generate prop (mapSol O chain) s
  match g.mode, g.solinit with
  | .static, some s0 => do
    let s1 ← inPlace O chain s0
    .ok (r, { g with solinit := some s1 })
  | _, _ => .ok (r, g)

/-- Python's `dict(zip(keys, vals))`: later values win, the position of a key is its first one
(guess_generators.py:229-249). -/
def dictOf {β : Type} (keys : List String) (vals : List β) : List (String × β) :=
  (List.zip keys vals).foldl (fun d kv =>
    if d.any (·.1 == kv.1) then d.map (fun e => if e.1 == kv.1 then (e.1, kv.2) else e) else d ++ [kv]) []

/-- One of the two loops of `match_constants_to_states` (guess_generators.py:239-247). -/
def matchLoop (suffix : String) (constNames : List String) : List (String × K) → List K → Py (List K)
  | [], c => .ok c
  | (name, v) :: rest, c =>
    if name ++ suffix ∈ constNames then do
      let j ← Py.index constNames (name ++ suffix)
      let c' ← Py.set c j v
      matchLoop suffix constNames rest c'
    else matchLoop suffix constNames rest c

/-- `match_constants_to_states(prob, sol)` (guess_generators.py:229-249); `stateNames` are the names of the states
followed by the one of the independent variable. -/
def matchConstants (stateNames constNames : List String) (s : Sol K) : Py (Sol K) := do
  let y0 ← Py.get s.y.rowList 0
  let t0 ← Py.get s.t 0
  let yf ← match s.y.rowList.getLast? with | some r => .ok r | none => .error .indexError
  let tf ← match s.t.getLast? with | some x => .ok x | none => .error .indexError
  let c ← matchLoop "_0" constNames (dictOf stateNames (y0 ++ [t0])) s.const
  let c' ← matchLoop "_f" constNames (dictOf stateNames (yf ++ [tf])) c
  .ok { s with const := c' }

end Beluga.Guess
