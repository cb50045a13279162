import Verif.Bvp.Props

/-!
# C47: changing the problem functions never leaves stale derived functions
-/

namespace Beluga.Bvp

variable {F : Type}

/-- The functions set by an operation. -/
def setsDeriv : Op F → Option (Option F)
  | .setDeriv f => some f
  | _ => none

@[inherit_doc setsDeriv] def setsQuad : Op F → Option (Option F)
  | .setQuad f => some f
  | _ => none

@[inherit_doc setsDeriv] def setsBc : Op F → Option (Option F)
  | .setBc f => some f
  | _ => none

@[inherit_doc setsDeriv] def setsJac : Op F → Option (Option F)
  | .setDerivJac f => some f
  | _ => none

/-- The cached functions are made from the current ones. -/
def Fresh (s : Shooter F) : Prop := (∀ b, s.bcMs = some b → b = s.bc) ∧ ∀ x, s.stm = some x → x.1 = s.deriv

theorem step_fresh {s : Shooter F} (h : Fresh s) (o : Op F) : Fresh (s.step o).1 := by
  obtain ⟨h1, h2⟩ := h
  cases o with
  | solve n =>
    cases n with
    | none => exact ⟨h1, h2⟩
    | some n =>
      refine ⟨fun b hb => ?_, fun x hx => ?_⟩
      · simp only [Shooter.step, Option.some.injEq] at hb
        subst hb
        cases hc : s.bcMs with
        | none => rfl
        | some b => exact h1 b hc
      · simp only [Shooter.step, Option.some.injEq] at hx
        subst hx
        cases hc : s.stm with
        | none => rfl
        | some b => exact h2 b hc
  | setBc f => exact ⟨fun b hb => by simp [Shooter.step] at hb, h2⟩
  | setBcJac f => exact ⟨h1, h2⟩
  | setDeriv f => exact ⟨h1, fun b hb => by simp [Shooter.step] at hb⟩
  | setDerivJac f => exact ⟨h1, h2⟩
  | setQuad f => exact ⟨h1, h2⟩
  | setIneq f => exact ⟨h1, h2⟩

theorem lastSet_append {α : Type} (pick : α → Option (Option F)) (init : Option F) (os : List α) (o : α) :
    lastSet pick init (os ++ [o]) = (pick o).getD (lastSet pick init os) := by
  simp only [lastSet, List.filterMap_append, List.filterMap_cons, List.filterMap_nil]
  cases pick o <;> simp

theorem run_append (s : Shooter F) (os : List (Op F)) (o : Op F) :
    (s.run (os ++ [o])).1 = ((s.run os).1.step o).1 ∧
      (s.run (os ++ [o])).2 = (s.run os).2 ++ ((s.run os).1.step o).2.toList := by
  induction os generalizing s with
  | nil => simp [Shooter.run]
  | cons a os ih =>
    obtain ⟨h1, h2⟩ := ih (s.step a).1
    refine ⟨h1, ?_⟩
    simp only [List.cons_append, Shooter.run, h2, List.append_assoc]

theorem run_fields (deriv quad bc : Option F) (os : List (Op F)) :
    let s := ((Shooter.init deriv quad bc).run os).1
    Fresh s ∧ s.deriv = lastSet setsDeriv deriv os ∧ s.quad = lastSet setsQuad quad os ∧
      s.bc = lastSet setsBc bc os ∧ s.derivJac = lastSet setsJac none os := by
  induction os using List.reverseRecOn with
  | nil =>
    refine ⟨⟨fun b hb => ?_, fun x hx => by simp [Shooter.run, Shooter.init] at hx⟩, rfl, rfl, rfl, rfl⟩
    cases bc with
    | none => simp [Shooter.run, Shooter.init] at hb
    | some f => simpa [Shooter.run, Shooter.init] using hb.symm
  | append_singleton os o ih =>
    obtain ⟨h0, h1, h2, h3, h4⟩ := ih
    simp only [(run_append _ os o).1, lastSet_append]
    refine ⟨step_fresh h0 o, ?_, ?_, ?_, ?_⟩
    · rw [← h1]
      cases o with
      | solve n => cases n <;> rfl
      | _ => rfl
    · rw [← h2]
      cases o with
      | solve n => cases n <;> rfl
      | _ => rfl
    · rw [← h3]
      cases o with
      | solve n => cases n <;> rfl
      | _ => rfl
    · rw [← h4]
      cases o with
      | solve n => cases n <;> rfl
      | _ => rfl

/-- **C47** (shooting).  In any sequence of setter calls and solves on a `Shooting` object, each solve works with the functions
set last: the equations and quadratures directly, the multiple-shooting boundary function and the sensitivity function made
from the last boundary conditions and equations, with the last Jacobian. -/
theorem C47_shooting (deriv quad bc : Option F) (os : List (Op F)) (n : Nat) :
    ∃ states, ((Shooter.init deriv quad bc).run (os ++ [.solve (some n)])).2 =
      ((Shooter.init deriv quad bc).run os).2 ++
        [⟨lastSet setsDeriv deriv os, lastSet setsQuad quad os, lastSet setsBc bc os, lastSet setsDeriv deriv os,
          lastSet setsJac none os, states⟩] := by
  obtain ⟨⟨hb, hs⟩, h1, h2, h3, h4⟩ := run_fields deriv quad bc os
  rw [(run_append _ os _).2]
  refine ⟨(((Shooter.init deriv quad bc).run os).1.stm.getD
    (((Shooter.init deriv quad bc).run os).1.deriv, n)).2, ?_⟩
  simp only [Shooter.step, Option.toList, h1, h2, h4, List.append_cancel_left_eq, List.cons.injEq, and_true,
    Used.mk.injEq, true_and]
  refine ⟨?_, ?_⟩
  · cases hc : ((Shooter.init deriv quad bc).run os).1.bcMs with
    | none => exact h3
    | some b => exact (hb b hc).trans h3
  · cases hc : ((Shooter.init deriv quad bc).run os).1.stm with
    | none => rfl
    | some b => exact (hs b hc).trans h1

/-- A sequence: two solves, with new boundary conditions and a new Jacobian in between. -/
example : ((Shooter.init (some "f") none (some "b")).run
    [.solve (some 2), .setBc (some "c"), .setDerivJac (some "j"), .solve (some 2)]).2 =
    [⟨some "f", none, some "b", some "f", none, 2⟩, ⟨some "f", none, some "c", some "f", some "j", 2⟩] := by
  decide +kernel

/-- **C47** is violated in the number of states of the sensitivity function: it stays that of the first guess as long as
the equations are not set again. -/
theorem C47_dimension_violated (deriv quad bc : Option F) {n m : Nat} :
    ((Shooter.init deriv quad bc).run [.solve (some n), .solve (some m)]).2.map (fun u => u.stmStates) = [n, n] := rfl

/-- **C47** is violated by the collocation solver: after a solve without quadratures the quadrature function that was set is
gone, so a later solve with quadratures fails although it works on a new object. -/
theorem C47_violated {K : Type} [Zero K] (bvp : Stacked K → Py (Answer K)) (A : Alg K) {h : Heap K} {ref nY : Nat} {s : Sol K}
    (hs : h[ref]? = some s) (hg : Guess nY 0 s) : (solve bvp A h ref).1 = { A with quad := some returnNil } := by
  unfold solve
  rw [hs]
  have hd := dims_alg (A := A) hg
  rw [if_pos rfl] at hd
  simp only [dims_guess hg, hd]
  split
  · rfl
  · split <;> rfl

/-- With the replaced function the stacked rates have no entries for the quadratures: one per state instead of one per state
and quadrature. -/
theorem C47_violated_rates {K : Type} {A : Alg K} {d : Dims} {const z r : List K} {p : Option (List K)} {f : Shoot.Fn K}
    (hf : A.deriv = some f) (hq : A.quad = some returnNil) (hQ : 0 < d.nQ)
    (hr : f [z.take d.nY, (p.getD []).take d.nP, const] = .ok r) :
    stackFun A d const [z] p = .ok [r] := by
  simp only [stackFun, if_neg (show ¬d.nQ = 0 by omega), callOpt, hf, hq, List.mapM_cons, List.mapM_nil, hr, returnNil]
  simp [vstack, hstack2, bind, Except.bind, pure, Except.pure]

/-- **C47** (collocation), when the guess has quadratures: the functions stay as they were set. -/
theorem C47_collocation_partial {K : Type} [Zero K] (bvp : Stacked K → Py (Answer K)) (A : Alg K) {h : Heap K}
    {ref nY nQ : Nat} {s : Sol K} (hs : h[ref]? = some s) (hg : Guess nY nQ s) (hQ : 0 < nQ) :
    (solve bvp A h ref).1 = A := by
  unfold solve
  rw [hs]
  have hd := dims_alg (A := A) hg
  rw [if_neg (by omega)] at hd
  simp only [dims_guess hg, hd]
  split
  · rfl
  · split <;> rfl

end Beluga.Bvp
