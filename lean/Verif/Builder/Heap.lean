import Verif.Builder.Model

/-!
# What `solve` does to the user's problem object (C34)

`solve` (beluga.py:127-150) works on `copy.deepcopy` of the problem, and copies again between the stages.  A deep copy
duplicates the problem and its components, but `LocalCompiler.__deepcopy__` (LocalCompiler.py:16-17) returns the compiler
itself, so all copies share one name table.

Objects live on a heap.  A component has its own data `D` (expressions, units, ...).  Everything the functors of
`mapping_functions.py` do to the problem they are given is one of the actions below.
-/

namespace Beluga.Build

/-- Objects: components, problems (the components and the compiler they refer to) and compilers (the used names). -/
structure Heap (D : Type) where
  comp : Nat → Option D
  prob : Nat → Option (List Nat × Nat)
  table : Nat → List Name
  /-- Addresses from here on are unused. -/
  next : Nat

variable {D : Type}

/-- What a user can see of a problem: the data of its components, in order. -/
def Heap.view (h : Heap D) (p : Nat) : Option (List (Option D)) := (h.prob p).map fun x => x.1.map h.comp

/-- The names that are in use for a problem. -/
def Heap.used (h : Heap D) (p : Nat) : List Name :=
  match h.prob p with
  | some x => h.table x.2
  | none => []

/-- A new component object. -/
def Heap.alloc (h : Heap D) (d : Option D) : Heap D × Nat :=
  ({ h with comp := fun a => if a = h.next then d else h.comp a, next := h.next + 1 }, h.next)

/-- Copies of several components. -/
def Heap.allocs (h : Heap D) : List (Option D) → Heap D × List Nat
  | [] => (h, [])
  | d :: ds =>
    let (h1, a) := h.alloc d
    let (h2, as) := h1.allocs ds
    (h2, a :: as)

/-- `copy.deepcopy(problem)`: new components, a new problem object, the same compiler. -/
def Heap.deepcopy (h : Heap D) (p : Nat) : Heap D × Nat :=
  match h.prob p with
  | none => (h, p)
  | some (cs, comp) =>
    let (h1, cs1) := h.allocs (cs.map h.comp)
    ({ h1 with prob := fun a => if a = h1.next then some (cs1, comp) else h1.prob a, next := h1.next + 1 }, h1.next)

/-- What functors do to the problem they are given. -/
inductive Action (D : Type) where
  /-- Change a component in place (`sympify_self`, `subs_self`, `state.eom = ...`, `symmetry.field = ...`). -/
  | write (i : Nat) (d : D)
  /-- Construct a component; a named one enters its name into the compiler's table. -/
  | append (name : Option Name) (d : D)
  /-- Remove or reorder components. -/
  | select (is : List Nat)
  /-- Go on with a deep copy. -/
  | copy

/-- One action on the problem at address `p`; the second component is the problem to go on with. -/
def Heap.act (h : Heap D) (p : Nat) : Action D → Heap D × Nat
  | .write i d =>
    match h.prob p with
    | none => (h, p)
    | some (cs, _) =>
      match cs[i]? with
      | none => (h, p)
      | some a => ({ h with comp := fun b => if b = a then some d else h.comp b }, p)
  | .append name d =>
    match h.prob p with
    | none => (h, p)
    | some (cs, comp) =>
      let (h1, a) := h.alloc (some d)
      ({ h1 with
          prob := fun b => if b = p then some (cs ++ [a], comp) else h1.prob b
          table := fun b => if b = comp then h1.table b ++ name.toList else h1.table b }, p)
  | .select is =>
    match h.prob p with
    | none => (h, p)
    | some (cs, comp) => ({ h with prob := fun b => if b = p then some (is.filterMap fun i => cs[i]?, comp) else h.prob b }, p)
  | .copy => h.deepcopy p

/-- The symbolic part of `solve` (beluga.py:127-150): copy the user's problem, then act on the copy. -/
def Heap.solve (h : Heap D) (p : Nat) (as : List (Action D)) : Heap D × Nat :=
  as.foldl (fun hp a => hp.1.act hp.2 a) (h.deepcopy p)

/-- The names that `Dualize` registers (mapping_functions.py:316-352) for a problem with `m` initial and `n` terminal
constraints and the given states; costates of parameters are constructed without the compiler (343-347). -/
def dualizeNames (m n : Nat) (states : List Name) : List Name :=
  ((List.range m).map fun i => "_nu_0_" ++ toString i) ++ ((List.range n).map fun i => "_nu_f_" ++ toString i) ++
    (states.map fun s => "_lam_" ++ s) ++ ["hamiltonian"]

end Beluga.Build
