import Verif.Py
import Mathlib.Data.List.Basic

/-!
# Model of `GenericFunctor` (`beluga/symbolic/data_classes/mapping_functions.py:26-107`)

Functor objects live on a heap (a list of objects, addresses are positions), because `*`, `**` and `>>` build new
objects that share the operands.  A transformation mutates the problem it gets and returns it, or raises; here it is
a function `P → Py P`.
-/

namespace Beluga.Fun

variable {P : Type _}

/-- A functor object: the class attribute `strrep`, the bound method `transformation`, and `_right`.  The attributes
`data` and `kwargs` are only read by the bound method of the original object and are part of `trans` here
(mapping_functions.py:29-52). -/
structure Obj (P : Type _) where
  name : String
  trans : P → Py P
  right : Option Nat := none

/-- The heap of functor objects (mapping_functions.py:26-47). -/
abbrev Heap (P : Type _) := List (Obj P)

/-- `GenericFunctor()`: no right operand, `transformation` returns its argument (mapping_functions.py:26-56). -/
def idObj : Obj P := ⟨"Id", .ok, none⟩

/-- Allocation of an object: the new address is the end of the heap (mapping_functions.py:29-41). -/
def alloc (h : Heap P) (o : Obj P) : Heap P × Nat := (h ++ [o], h.length)

/-- `self * other` (mapping_functions.py:64-77): a copy of `self` whose `_right` is `other`, or recursively
`self._right * other`.  The recursive product is allocated before the copy here, the code does it the other way round
(addresses are not observable).  `_right` always points to an older object (`r < a`), see `Wf`; a dangling address
(which cannot occur) is reported as an `AttributeError`. -/
def mul (h : Heap P) (a b : Nat) : Py (Heap P × Nat) :=
  match h[a]? with
  | none => .error .attributeError
  | some o =>
    match o.right with
    | none => .ok (alloc h { o with right := some b })
    | some r =>
      if r < a then do
        let (h1, c) ← mul h r b
        .ok (alloc h1 { o with right := some c })
      else .error .attributeError
  termination_by a

/-- `self << other` (mapping_functions.py:58-62). -/
def lshift (h : Heap P) (a b : Nat) : Py (Heap P × Nat) := mul h a b

/-- `self >> other` (mapping_functions.py:92-96). -/
def rshift (h : Heap P) (a b : Nat) : Py (Heap P × Nat) := mul h b a

/-- The loop of `__pow__` (mapping_functions.py:81-84): `obj *= self`, `n` times. -/
def powLoop (a : Nat) : Nat → Heap P → Nat → Py (Heap P × Nat)
  | 0, h, o => .ok (h, o)
  | n + 1, h, o => do
    let (h1, o1) ← mul h o a
    powLoop a n h1 o1

/-- The exponent of `**`: an `int`, or something else (mapping_functions.py:74-87). -/
inductive Expo where
  | int (n : Int)
  | other

/-- `self ** n` (mapping_functions.py:79-93). -/
def pow (h : Heap P) (a : Nat) : Expo → Py (Heap P × Nat)
  | .other => .error .typeError
  | .int n =>
    if n < 0 then .error .valueError
    else if n = 0 then .ok (alloc h idObj)
    else
      let (h1, o) := alloc h idObj
      powLoop a n.toNat h1 o

/-- `self(prob)` (mapping_functions.py:103-107). -/
def call (h : Heap P) (a : Nat) (p : P) : Py P :=
  match h[a]? with
  | none => .error .attributeError
  | some o =>
    match o.right with
    | none => o.trans p
    | some r =>
      if r < a then do
        let q ← call h r p
        o.trans q
      else .error .attributeError
  termination_by a

/-- `repr(self)` (mapping_functions.py:95-101). -/
def repr (h : Heap P) (a : Nat) : Py String :=
  match h[a]? with
  | none => .error .attributeError
  | some o =>
    match o.right with
    | none => .ok o.name
    | some r =>
      if r < a then do
        let s ← repr h r
        .ok (o.name ++ " . " ++ s)
      else .error .attributeError
  termination_by a

end Beluga.Fun
