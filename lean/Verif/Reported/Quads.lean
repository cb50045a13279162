import Verif.Reported.Props
import Verif.Extremal.Hold
import Verif.Extremal.Quads

/-! # The reported cost of problems with quadratures (C72) -/

namespace Beluga.Rep

open Beluga.Sym Beluga.Sym.Expr Beluga.Num Beluga.Map Beluga.Opt

/-! ### Specification -/

/-- The arrays of a solution hold the values that `σ` gives to states, quadratures, controls and constants at the sampled times. -/
structure SamplesQuads (q : Prob) (σ : Nat → Env) (t : List ℝ) (y qd u : Arr ℝ) (k : List ℝ) : Prop extends Samples q σ t y u k where
  quads : qd = .rows (qds q).length ((List.range t.length).map fun i => (qds q).map (σ i))

/-- The quadratures of a problem taken as constants, as for `Stated`, which knows no quadratures. -/
def held (p : Prob) : Prob := holdQuads (qds p) p.chain p

/-! ### Lemmas -/

/-- What `compute_cost` returns. -/
theorem computeCost_quads_val {rule : List ℝ → List ℝ → ℝ} {I : Interp ℝ} {q : Prob} (hpar : q.parameters = [])
    {t : List ℝ} {y qd u : Arr ℝ} {pr k : List ℝ} {σ : Nat → Env} (hs : SamplesQuads q σ t y qd u k) {v : ℝ}
    (h : computeCost rule I q t y qd u pr k = .ok v) :
    v = functional rule (fun σ => eval I σ q.costInitial) (fun σ => eval I σ q.costTerminal) (fun σ => eval I σ q.costPath) t σ := by
  have hargs : ∀ i < t.length, ∀ yy qq, yy = (sts q).map (σ i) → qq = (qds q).map (σ i) →
      ∀ av ∈ (bcArgs q).zip [yy, qq, pr, k], av.1.length = av.2.length → av.1.map (σ i) = av.2 := by
    intro i hi yy qq hyy hqq av hav hlen
    rw [bcArgs, hpar] at hav
    simp only [List.zip_cons_cons, List.mem_cons, List.zip_nil_left, List.not_mem_nil, or_false] at hav
    rcases hav with rfl | rfl | rfl | rfl
    · exact hyy.symm
    · exact hqq.symm
    · exact (List.eq_nil_of_length_eq_zero hlen.symm).symm
    · exact hs.constants i hi
  rw [computeCost] at h
  obtain ⟨y0, h1, h⟩ := bind_ok h
  obtain ⟨q0, hq0, h⟩ := bind_ok h
  obtain ⟨c0, h2, h⟩ := bind_ok h
  obtain ⟨yf, h3, h⟩ := bind_ok h
  obtain ⟨qf, hqf, h⟩ := bind_ok h
  obtain ⟨cf, h4, h⟩ := bind_ok h
  obtain ⟨path, h5, h⟩ := bind_ok h
  obtain ⟨s, h6, h⟩ := bind_ok h
  cases h
  rw [hs.states] at h1 h3 h5
  rw [hs.controls] at h5
  have hne : t.length ≠ 0 := by
    intro e
    rw [e] at h1
    cases h1
  obtain ⟨n, hn⟩ := Nat.exists_eq_succ_of_ne_zero hne
  have first : ∀ {N : List Name} {x : List ℝ}, firstRow (.rows N.length ((List.range t.length).map fun i => N.map (σ i))) = .ok x →
      x = N.map (σ 0) := by
    intro N x h
    rw [hn, List.range_succ_eq_map] at h
    cases h
    rfl
  have last : ∀ {N : List Name} {x : List ℝ}, lastRow (.rows N.length ((List.range t.length).map fun i => N.map (σ i))) = .ok x →
      x = N.map (σ (t.length - 1)) := by
    intro N x h
    rw [lastRow, List.getLast?_map, hn, List.range_succ, List.getLast?_append] at h
    simp only [List.getLast?_singleton, Option.some_or, Option.map_some] at h
    cases h
    rw [hn]
    rfl
  have hl : qd.len > 0 := by
    rw [hs.quads, hn]
    simp [Arr.len, Arr.rowList]
  rw [quadRow, if_pos hl, hs.quads] at hq0 hqf
  have hz : ((Arr.rows (sts q).length ((List.range t.length).map fun i => (sts q).map (σ i))).rowList.zip
      (Arr.rows q.controls.length ((List.range t.length).map fun i => q.controls.map (σ i))).rowList) =
      (List.range t.length).map fun i => ((sts q).map (σ i), q.controls.map (σ i)) := by
    simp only [Arr.rowList]
    rw [List.zip_map']
  rw [hz, List.mapM_map] at h5
  have h5 := mapM_val (g := fun i => eval I (σ i) q.costPath) h5 (by
    intro i hi v hv
    have hi := List.mem_range.1 hi
    refine lambdify_val hv ?_
    intro av hav hlen
    rw [dynArgs, hpar] at hav
    simp only [List.zip_cons_cons, List.mem_cons, List.zip_nil_left, List.not_mem_nil, or_false] at hav
    rcases hav with rfl | rfl | rfl | rfl
    · rfl
    · rfl
    · exact (List.eq_nil_of_length_eq_zero hlen.symm).symm
    · exact hs.constants i hi)
  rw [simpson] at h6
  split at h6
  · cases h6
  · cases h6
    rw [functional, lambdify_val h2 (hargs 0 (by omega) _ _ (first h1) (first hq0)),
      lambdify_val h4 (hargs _ (by omega) _ _ (last h3) (last hqf)), h5]

/-! ### Property -/

/-- The reported cost with quadratures, also in the boundary costs: the stated cost of the reported trajectory, plus the penalties
that replace the two-sided constraints.  States, quadratures, controls and constants are read from the solution.

Missing from the full property: the penalties are reported as if they were part of the cost (see `C72_violated`), problems
with parameters (no cost is reported, `C78_violated_parameters`), and one-sided constraints. -/
theorem C72_quads_partial {S : Sympy} {p q : Prob} (hp : Stated (held p)) (hq : primal S p = .ok q) :
    q.quads.map Dyn.name = p.quads.map Dyn.name ∧ ∃ B : ℝ → ℝ → ℝ → ℝ → ℝ, Barriers B ∧
      ∀ U Q, Completes U p Q → ∀ rule, Rule rule → ∀ t y qd u pr k σ v, SamplesQuads q σ t y qd u k →
        computeCost rule (real U) q t y qd u pr k = .ok v →
        v = stated rule U p t (fun i => Q (σ i)) + penalised rule B U p t (fun i => Q (σ i)) := by
  obtain ⟨hn, ch', hq'⟩ := blindQuads_primal S p q (qds p) p.chain hq
  obtain ⟨p3, f, f2, f3, hf⟩ := front hp hq'
  obtain ⟨B, hB, hocp⟩ := hf.ocp
  refine ⟨hn, B, hB, ?_⟩
  intro U Q hQ rule hr t y qd u pr k σ v hs hv
  have ho := hocp U Q ⟨hQ.off, hQ.quantities, hQ.switches, hQ.trig⟩
  have h1 : (fun σ => eval (real U) σ q.costInitial) = fun σ => eval (real U) (Q σ) p.costInitial + penalties B U (Q σ) p.initial :=
    congrArg Ocp.costInitial ho
  have h2 : (fun σ => eval (real U) σ q.costTerminal) = fun σ => eval (real U) (Q σ) p.costTerminal + penalties B U (Q σ) p.terminal :=
    congrArg Ocp.costTerminal ho
  have h3 : (fun σ => eval (real U) σ q.costPath) = fun σ => eval (real U) (Q σ) p.costPath + penalties B U (Q σ) p.path :=
    congrArg Ocp.path ho
  have hpar : q.parameters = [] := hf.empty.2.2.1
  rw [computeCost_quads_val hpar hs hv, h1, h2, h3]
  simp only [functional, stated, penalised]
  have h4 := hr ((List.range t.length).map fun i => eval (real U) (Q (σ i)) p.costPath)
    ((List.range t.length).map fun i => penalties B U (Q (σ i)) p.path) t (by simp) (by simp)
  rw [List.zipWith_map, List.zipWith_self] at h4
  rw [h4]
  ring

/-! ### A case: `∫ u² dt - q(1)` along `x = t / 4` -/

def exq : Prob := match primal quS quP with
  | .ok p => p
  | .error _ => {}

theorem exq_ok : primal quS quP = .ok exq := by
  have : (match primal quS quP with | .ok _ => true | .error _ => false) = true := by decide +kernel
  rw [exq]
  cases h : primal quS quP with
  | ok p => rfl
  | error e => rw [h] at this; cases this

theorem exq_cost : exq.costInitial = 0 ∧ exq.costPath = sym "u" * sym "u" ∧ exq.costTerminal = num (-1) * sym "q" ∧ sts exq = ["x", "t"] ∧
    exq.controls = ["u"] ∧ exq.constants = [] ∧ qds exq = ["q"] ∧ exq.parameters = [] := by decide +kernel

example : Stated (held quP) := qu_stated

-- the value of the quadrature, 1/8, and the integral, 1/16
example (U : Name → Nat → ℝ → ℝ) : ∃ y qd u, SamplesQuads exq (fun i => quBetter i) [0, 1] y qd u [] ∧
    computeCost trapezoids (real U) exq [0, 1] y qd u [] [] = .ok (-1 / 16) ∧
    stated trapezoids U quP [0, 1] (fun i => quBetter i) = -1 / 16 := by
  obtain ⟨c1, c2, c3, c4, c5, c6, c7, c8⟩ := exq_cost
  refine ⟨_, _, _, ⟨⟨rfl, rfl, by intro i _; rw [c6]; rfl⟩, rfl⟩, ?_, ?_⟩
  · simp [computeCost, c1, c2, c3, c4, c5, c6, c7, c8, bcArgs, dynArgs, firstRow, lastRow, quadRow, Arr.len, Arr.rowList, List.range_succ,
      lambdify, bindArgs, Expr.free, eval, quBetter, quCurve, simpson, trapezoids, List.mapM_cons]
    have f1 : exq.costTerminal.free = ["q"] := by decide +kernel
    have f2 : exq.costPath.free = ["u", "u"] := by decide +kernel
    simp [bind, Except.bind, f1, f2]
    simp [List.lookup, show ("q" == "x") = false by decide, show ("q" == "t") = false by decide, show ("u" == "x") = false by decide,
      show ("u" == "t") = false by decide]
    norm_num
  · simp [stated, functional, quP, eval, quBetter, List.range_succ, trapezoids]
    norm_num

end Beluga.Rep
