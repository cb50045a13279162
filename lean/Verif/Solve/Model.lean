import Verif.Py

/-!
# `beluga.solve` (beluga.py:40-224) and the result file (utils/storage.py)
-/

namespace Beluga.Solve

/-- What a call of `solve` does to the outside besides returning: the process pool, the solver's `close()`, the result
file (beluga.py:111-202). -/
inductive Event where
  | poolOpen (n : Int)
  | poolClose
  | algClose
  | saved (file : String)
  | saveFailed (file : String)
  deriving DecidableEq

/-- `save_sols`: a truth value or a file name (beluga.py:193-200). -/
inductive Save where
  | flag (b : Bool)
  | file (name : String)
  deriving DecidableEq

/-- Maps between the trajectories of the optimal control problem and those of the boundary value problem
(beluga.py:154-155). -/
abbrev SolMap (S : Type) := S → Py S

/-- The arguments of `solve` (beluga.py:40-53) that it looks at itself; `guess`, `algorithm` and `steps` are only handed
on and are part of `World`. -/
structure Args (O B S : Type) where
  bvp : Option B := none
  initialHelper : Bool := false
  method : String := "traditional"
  nCpus : Int := 1
  ocp : Option O := none
  ocpMap : Option (SolMap S) := none
  ocpMapInverse : Option (SolMap S) := none
  saveSols : Save := .flag true

/-- What `solve` calls (beluga.py:111-202). -/
structure World (O B S : Type) where
  /-- `make_preprocessor()(deepcopy(ocp))` (beluga.py:133-134) -/
  preprocess : O → Py O
  /-- `make_indirect_method(ocp, method=method, **optim_options)(ocp)` (beluga.py:140-141) -/
  indirect : O → String → Py B
  /-- `make_direct_method(ocp, **optim_options)(ocp)` (beluga.py:143-144) -/
  direct : O → Py B
  /-- `make_postprocessor()(prob)` (beluga.py:148-149) -/
  postprocess : B → Py B
  /-- `bvp.map_sol`, `bvp.inv_map_sol` (beluga.py:154-155) -/
  mapOf : B → SolMap S
  invOf : B → SolMap S
  /-- `guess_generator.generate` on a new trajectory with the default constants (beluga.py:161-163) -/
  generate : B → SolMap S → SolMap S → Py S
  /-- `match_constants_to_states(ocp, sol)` (beluga.py:167) -/
  matchConst : O → S → Py S
  /-- `solinit.const = sol_ocp.const` (beluga.py:168) -/
  setConst : S → S → S
  /-- `solinit.u = …` along the guess, if the problem has `compute_u` (beluga.py:170-176) -/
  computeU : B → Option (S → Py S)
  /-- `run_continuation_set(bvp_algorithm, steps, solinit, bvp, pool, autoscale)` (beluga.py:181) -/
  run : B → S → Py (List (List S))
  /-- `save(out, ocp, bvp, filename=filename)` (beluga.py:200) -/
  save : List (List S) → O → B → String → Py Unit

variable {O B S : Type}

/-- `method.lower() in ['indirect', 'traditional', 'brysonho']` replaces the name (beluga.py:136-137). -/
def canonical (method : String) : String :=
  if method.toLower ∈ ["indirect", "traditional", "brysonho"] then "traditional" else method

/-- The method dispatch (beluga.py:139-146). -/
def dispatch (w : World O B S) (method : String) (ocp : O) : Py B :=
  let method := canonical method
  if method.toLower ∈ ["traditional", "diffyg"] then w.indirect ocp method
  else if method = "direct" then w.direct ocp
  else .error .notImplementedError

/-- The boundary value problem and the maps to and from it (beluga.py:132-159). -/
def prepare (w : World O B S) (a : Args O B S) (ocp : O) : Py (B × SolMap S × SolMap S) :=
  match a.bvp with
  | none => do
    let p ← w.preprocess ocp
    let b ← dispatch w a.method p
    let b ← w.postprocess b
    .ok (b, w.mapOf b, w.invOf b)
  | some b => match a.ocpMap, a.ocpMapInverse with
    | some f, some g => .ok (b, f, g)
    | _, _ => .error .valueError

/-- The initial helper (beluga.py:165-168). -/
def help (w : World O B S) (on : Bool) (ocp : O) (inv : SolMap S) (s : S) : Py S :=
  if on then do
    let z ← inv s
    let z ← w.matchConst ocp z
    .ok (w.setConst s z)
  else .ok s

/-- Controls along the guess (beluga.py:170-176). -/
def guessControls (w : World O B S) (b : B) (s : S) : Py S :=
  match w.computeU b with
  | some f => f s
  | none => .ok s

/-- Everything between the argument checks and the post-processing (beluga.py:132-181). -/
def main (w : World O B S) (a : Args O B S) (ocp : O) : Py (B × SolMap S × List (List S)) := do
  let (b, f, inv) ← prepare w a ocp
  let s ← w.generate b f inv
  let s ← help w a.initialHelper ocp inv s
  let s ← guessControls w b s
  let set ← w.run b s
  .ok (b, inv, set)

/-- `postprocess_continuations` (beluga.py:205-224). -/
def postprocessContinuations (inv : SolMap S) (set : List (List S)) : Py (List (List S)) := set.mapM fun l => l.mapM inv

/-- The file to write (beluga.py:194-198): an empty name is a name. -/
def Save.name : Save → Option String
  | .flag b => if b then some "data.beluga" else none
  | .file n => some n

/-- `solve` (beluga.py:111-202): the value or exception, and what happened to the outside, in order. -/
def solve (w : World O B S) (a : Args O B S) : Py (List (List S)) × List Event :=
  if a.nCpus < 1 then (.error .valueError, [])
  else
    let ev0 := if a.nCpus > 1 then [.poolOpen a.nCpus] else []
    match a.ocp with
    | none => (.error .notImplementedError, ev0)
    | some ocp =>
      match main w a ocp with
      | .error e => (.error e, ev0)
      | .ok (b, inv, set) =>
        let ev1 := ev0 ++ [.algClose]
        match postprocessContinuations inv set with
        | .error e => (.error e, ev1)
        | .ok out =>
          let ev2 := ev1 ++ if a.nCpus > 1 then [.poolClose] else []
          match a.saveSols.name with
          | none => (.ok out, ev2)
          | some f =>
            match w.save out ocp b f with
            | .error e => (.error e, ev2 ++ [.saveFailed f])
            | .ok _ => (.ok out, ev2 ++ [.saved f])

/-! ### utils/storage.py -/

/-- The three things that can be stored (utils/storage.py:4-25). -/
inductive Item (V O B : Type) where
  | solutions (v : V)
  | ocp (o : O)
  | bvp (b : B)
  deriving DecidableEq

/-- A dictionary with string keys (utils/storage.py:4-25). -/
abbrev Dict (V O B : Type) := List (String × Item V O B)

variable {V : Type}

/-- The dictionary built by `save` (storage.py:6-15). -/
def saveDict (sols : Option V) (ocp : Option O) (bvp : Option B) : Dict V O B :=
  (match sols with | some v => [("solutions", .solutions v)] | none => []) ++
  (match ocp with | some v => [("ocp", .ocp v)] | none => []) ++
  (match bvp with | some v => [("bvp", .bvp v)] | none => [])

/-- The pickler: what is written piece by piece until it is done or raises, and how a file is read (utils/storage.py:4-25). -/
structure Pickler (D : Type) where
  dump : D → List (List UInt8) × Option PyErr
  load : List UInt8 → Py D

/-- Files by name (utils/storage.py:4-25). -/
abbrev Files := String → Option (List UInt8)

/-- What the operating system does during one call: whether the file can be opened, and after how many written pieces
writing fails (if it does) (utils/storage.py:4-25). -/
structure Disk where
  opens : Bool := true
  writes : Option Nat := none

/-- Writing the pieces to an opened file; the file object is closed by `with` in any case, so what has been written
stays (utils/storage.py:4-25). -/
def writeAll (limit : Option Nat) (pieces : List (List UInt8)) (err : Option PyErr) : List UInt8 × Option PyErr :=
  match limit with
  | some k => if k < pieces.length then ((pieces.take k).flatten, some .osError) else (pieces.flatten, err)
  | none => (pieces.flatten, err)

/-- `save` (storage.py:4-18): `open(filename, 'wb')` truncates the file, then the pickler writes into it. -/
def save (P : Pickler (Dict V O B)) (disk : Disk) (fs : Files) (sols : Option V) (ocp : Option O) (bvp : Option B)
    (name : String) : Files × Option PyErr :=
  let d := saveDict sols ocp bvp
  if disk.opens then
    let fs := Function.update fs name (some [])
    let (pieces, err) := P.dump d
    let (bytes, err) := writeAll disk.writes pieces err
    (Function.update fs name (some bytes), err)
  else (fs, some .osError)

/-- `load` (storage.py:21-25). -/
def load (P : Pickler (Dict V O B)) (fs : Files) (name : String) : Py (Dict V O B) :=
  match fs name with
  | some bytes => P.load bytes
  | none => .error .osError

end Beluga.Solve
