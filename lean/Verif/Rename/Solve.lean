import Verif.Rename.Props

/-! # Names do not matter for solvers and scaling (C92) -/

namespace Beluga.Rename

open Beluga.Sym Beluga.Sym.Expr Beluga.Num Beluga.Map Beluga.E2E

variable {r : Name → Name}

/-- The table of units with other names. -/
def renUnits (r : Name → Name) (un : Units) : Units where
  defs := un.defs.map fun d => (r d.1, ren r d.2)
  ind := ren r un.ind
  states := un.states.map (ren r)
  quads := un.quads.map (ren r)
  controls := un.controls.map (ren r)
  parameters := un.parameters.map (ren r)
  constraintParams := un.constraintParams.map (ren r)
  constants := un.constants.map (ren r)

theorem scaleFactors_ren {K : Type} [Field K] [LinearOrder K] (hr : Function.Injective r) (I : Interp K) (p : Prob) (un : Units)
    (t : List K) (y q : Arr K) (dyn nondyn const : List K) :
    scaleFactors I (renP r p) (renUnits r un) t y q dyn nondyn const = scaleFactors I p un t y q dyn nondyn const := by
  have a1 : [[(renP r p).ind], sts (renP r p), qds (renP r p), (renP r p).parameters, (renP r p).constraintParams, (renP r p).constants] =
      [[p.ind], sts p, qds p, p.parameters, p.constraintParams, p.constants].map (List.map r) := by
    rw [sts_ren, qds_ren]; rfl
  have a2 : (renUnits r un).defs.map Prod.snd = (un.defs.map Prod.snd).map (ren r) := by simp [renUnits, Function.comp_def]
  have a3 : (renUnits r un).defs.map (fun d => [d.1]) = (un.defs.map fun d => [d.1]).map (List.map r) := by
    simp [renUnits, Function.comp_def]
  simp only [scaleFactors, a1, a2, a3]
  simp only [lambdifyL_ren hr]
  simp only [renUnits, lambdify_ren hr, lambdifyL_ren hr]

/-- Scaling, solving and unscaling gives the same numbers, with either solver; the Jacobians that are given to the collocation solver must
be the same (by `C92_compiled` those compiled by beluga are). -/
theorem C92_solver (hr : Function.Injective r) (R : Solver) (U : Name → Nat → ℝ → ℝ) (p : Prob)
    (hC : ∀ C, R = .collocation C → C.derivJac (renP r p) = C.derivJac p ∧ C.bcJac (renP r p) = C.bcJac p) (un : Option Units)
    (s : Sol ℝ) : solvePass R U (renP r p) (un.map (renUnits r)) s = solvePass R U p un s := by
  have h0 : ∀ s, solveSol R U (renP r p) s = solveSol R U p s := by
    intro s
    cases R with
    | shooting R => exact C92_shooting hr R U p s
    | collocation C =>
      obtain ⟨h1, h2, h3, -⟩ := C92_compiled hr (real U) p
      obtain ⟨c1, c2⟩ := hC C rfl
      have hq : (renP r p).quads.length = p.quads.length := by simp [renP]
      have e1 : eomFn U (renP r p) = eomFn U p := by funext l; simp only [eomFn, h1]
      have e2 : quadFn U (renP r p) = quadFn U p := by simp only [quadFn, h2]
      have e3 : bcFn U (renP r p) = bcFn U p := by funext l; simp only [bcFn, h3, hq]
      simp only [solveSol, collocSol, collocAlg, e1, e2, e3, c1, c2]
  cases un with
  | none => exact h0 s
  | some un => simp only [Option.map_some, solvePass, scaleFactors_ren hr, h0]

/-- A unit of length that is the size of the position, whatever the position is called. -/
example (U : Name → Nat → ℝ → ℝ) (t y : ℝ) :
    (scaleFactors (real U) exV ⟨[("m", sym "z")], 1, [sym "m"], [], [1], [], [], [1]⟩ [t] (.rows 1 [[y]]) .empty [] [] [0]).map Factors.y =
      (scaleFactors (real U) exU ⟨[("m", sym "x")], 1, [sym "m"], [], [1], [], [], [1]⟩ [t] (.rows 1 [[y]]) .empty [] [] [0]).map
        Factors.y := by
  have h1 : exV = renP swapNames exU := by decide
  have h2 : (⟨[("m", sym "z")], 1, [sym "m"], [], [1], [], [], [1]⟩ : Units) =
      renUnits swapNames ⟨[("m", sym "x")], 1, [sym "m"], [], [1], [], [], [1]⟩ := rfl
  rw [h1, h2, scaleFactors_ren (Function.LeftInverse.injective swap_swap)]

end Beluga.Rename
