import Verif.Reported.Model
import Verif.Extremal.Props
import Verif.Numeric.Lemmas

/-! # The reported cost is the cost of the reported trajectory (C72) -/

namespace Beluga.Rep

open Beluga.Sym Beluga.Sym.Expr Beluga.Num Beluga.Map Beluga.Opt

/-! ### Specification -/

/-- A rule for integrating sampled functions: it is additive. -/
def Rule (rule : List ℝ → List ℝ → ℝ) : Prop :=
  ∀ v w t, v.length = t.length → w.length = t.length → rule (List.zipWith (· + ·) v w) t = rule v t + rule w t

/-- A cost functional, given by its initial, terminal and path part, of a sampled trajectory. -/
def functional (rule : List ℝ → List ℝ → ℝ) (a b l : Env → ℝ) (t : List ℝ) (σ : Nat → Env) : ℝ :=
  a (σ 0) + b (σ (t.length - 1)) + rule ((List.range t.length).map fun i => l (σ i)) t

/-- The cost that the user stated. -/
noncomputable def stated (rule : List ℝ → List ℝ → ℝ) (U : Name → Nat → ℝ → ℝ) (p : Prob) : List ℝ → (Nat → Env) → ℝ :=
  functional rule (fun σ => eval (real U) σ p.costInitial) (fun σ => eval (real U) σ p.costTerminal)
    fun σ => eval (real U) σ p.costPath

/-- The penalties for the two-sided constraints. -/
noncomputable def penalised (rule : List ℝ → List ℝ → ℝ) (B : ℝ → ℝ → ℝ → ℝ → ℝ) (U : Name → Nat → ℝ → ℝ) (p : Prob) :
    List ℝ → (Nat → Env) → ℝ :=
  functional rule (fun σ => penalties B U σ p.initial) (fun σ => penalties B U σ p.terminal) fun σ => penalties B U σ p.path

/-- The arrays of a solution hold the values that `σ` gives to states, controls and constants at the sampled times. -/
structure Samples (q : Prob) (σ : Nat → Env) (t : List ℝ) (y u : Arr ℝ) (k : List ℝ) : Prop where
  states : y = .rows (sts q).length ((List.range t.length).map fun i => (sts q).map (σ i))
  controls : u = .rows q.controls.length ((List.range t.length).map fun i => q.controls.map (σ i))
  constants : ∀ i < t.length, q.constants.map (σ i) = k

/-! ### Lemmas -/

theorem lambdify_val {I : Interp ℝ} {ρ : Env} {args : List (List Name)} {vals : List (List ℝ)} {e : Expr} {w : ℝ}
    (h : lambdify I args e vals = .ok w) (hv : ∀ av ∈ args.zip vals, av.1.length = av.2.length → av.1.map ρ = av.2) :
    w = eval I ρ e := by
  have key : ∀ {args : List (List Name)} {vals : List (List ℝ)} {env : List (Name × ℝ)}, bindArgs args vals = .ok env →
      (∀ av ∈ args.zip vals, av.1.length = av.2.length → av.1.map ρ = av.2) → ∀ sx ∈ env, ρ sx.1 = sx.2 := by
    intro args
    induction args with
    | nil =>
      intro vals env h1 _ sx hs
      cases vals with
      | nil => cases h1; cases hs
      | cons v vs => cases h1
    | cons ns args ih =>
      intro vals env h1 h2 sx hs
      cases vals with
      | nil => cases h1
      | cons v vs =>
        rw [bindArgs] at h1
        split at h1
        · cases h1
        · next hlen =>
          obtain ⟨rest, h3, h4⟩ := bind_ok h1
          cases h4
          rcases List.mem_append.1 hs with hs | hs
          · have : ns.map ρ = v := h2 (ns, v) (by simp) (not_not.1 hlen)
            obtain ⟨i, hi, rfl⟩ := List.mem_iff_getElem.1 hs
            simp only [List.getElem_zip]
            have h5 : i < (ns.map ρ).length := by simp at hi ⊢; omega
            have : (ns.map ρ)[i]'h5 = v[i]'(by rw [← this]; exact h5) := by simp only [this]
            simpa using this
          · exact ih h3 (fun av ha => h2 av (by simp [ha])) sx hs
  rw [lambdify] at h
  obtain ⟨env, h1, h⟩ := bind_ok h
  split at h
  · next hall =>
    cases h
    refine eval_congr I fun s hs => ?_
    have := (List.all_eq_true.1 hall) s hs
    cases hl : env.lookup s with
    | none => rw [hl] at this; cases this
    | some x =>
      have hm : (s, x) ∈ env := by
        clear this hall h1 h
        induction env with
        | nil => cases hl
        | cons a env ih =>
          rw [List.lookup_cons] at hl
          split at hl
          · next he =>
            cases hl
            have := eq_of_beq he
            subst this
            simp
          · exact List.mem_cons_of_mem _ (ih hl)
      rw [Option.getD_some]
      exact (key h1 hv _ hm).symm
  · cases h

theorem ok_bind' {α β : Type} (a : α) (f : α → Py β) : ((Except.ok a : Py α) >>= f) = f a := rfl

theorem mapM_val {α β : Type} {f : α → Py β} {g : α → β} : ∀ {l : List α} {m : List β}, l.mapM f = .ok m →
    (∀ x ∈ l, ∀ v, f x = .ok v → v = g x) → m = l.map g
  | [], m, h, _ => by cases h; rfl
  | x :: l, m, h, hg => by
    rw [List.mapM_cons] at h
    obtain ⟨v, h1, h⟩ := bind_ok h
    obtain ⟨vs, h2, h⟩ := bind_ok h
    cases h
    rw [List.map_cons, hg x (by simp) v h1, mapM_val h2 fun y hy => hg y (by simp [hy])]

/-- What `compute_cost` returns. -/
theorem computeCost_val {rule : List ℝ → List ℝ → ℝ} {I : Interp ℝ} {q : Prob} (hquads : q.quads = []) (hpar : q.parameters = [])
    {t : List ℝ} {y qd u : Arr ℝ} {pr k : List ℝ} {σ : Nat → Env} (hs : Samples q σ t y u k) {v : ℝ}
    (h : computeCost rule I q t y qd u pr k = .ok v) :
    v = functional rule (fun σ => eval I σ q.costInitial) (fun σ => eval I σ q.costTerminal) (fun σ => eval I σ q.costPath) t σ := by
  have hq0 : qds q = [] := by simp [qds, hquads]
  have hargs : ∀ i < t.length, ∀ yy qq, yy = (sts q).map (σ i) →
      ∀ av ∈ (bcArgs q).zip [yy, qq, pr, k], av.1.length = av.2.length → av.1.map (σ i) = av.2 := by
    intro i hi yy qq hyy av hav hlen
    rw [bcArgs, hq0, hpar] at hav
    simp only [List.zip_cons_cons, List.mem_cons, List.zip_nil_left, List.not_mem_nil, or_false] at hav
    rcases hav with rfl | rfl | rfl | rfl
    · exact hyy.symm
    · exact (List.eq_nil_of_length_eq_zero hlen.symm).symm
    · exact (List.eq_nil_of_length_eq_zero hlen.symm).symm
    · exact hs.constants i hi
  rw [computeCost] at h
  obtain ⟨y0, h1, h⟩ := bind_ok h
  obtain ⟨q0, -, h⟩ := bind_ok h
  obtain ⟨c0, h2, h⟩ := bind_ok h
  obtain ⟨yf, h3, h⟩ := bind_ok h
  obtain ⟨qf, -, h⟩ := bind_ok h
  obtain ⟨cf, h4, h⟩ := bind_ok h
  obtain ⟨path, h5, h⟩ := bind_ok h
  obtain ⟨s, h6, h⟩ := bind_ok h
  cases h
  rw [hs.states] at h1 h3 h5
  rw [hs.controls] at h5
  have hne : t.length ≠ 0 := by
    intro e
    rw [e] at h1
    cases h1
  obtain ⟨n, hn⟩ := Nat.exists_eq_succ_of_ne_zero hne
  have e0 : y0 = (sts q).map (σ 0) := by
    rw [hn, List.range_succ_eq_map] at h1
    cases h1
    rfl
  have ef : yf = (sts q).map (σ (t.length - 1)) := by
    rw [lastRow, List.getLast?_map, hn, List.range_succ, List.getLast?_append] at h3
    simp only [List.getLast?_singleton, Option.some_or, Option.map_some] at h3
    cases h3
    rw [hn]
    rfl
  have hz : ((Arr.rows (sts q).length ((List.range t.length).map fun i => (sts q).map (σ i))).rowList.zip
      (Arr.rows q.controls.length ((List.range t.length).map fun i => q.controls.map (σ i))).rowList) =
      (List.range t.length).map fun i => ((sts q).map (σ i), q.controls.map (σ i)) := by
    simp only [Arr.rowList]
    rw [List.zip_map']
  rw [hz, List.mapM_map] at h5
  have h5 := mapM_val (g := fun i => eval I (σ i) q.costPath) h5 (by
    intro i hi v hv
    have hi := List.mem_range.1 hi
    refine lambdify_val hv ?_
    intro av hav hlen
    rw [dynArgs, hpar] at hav
    simp only [List.zip_cons_cons, List.mem_cons, List.zip_nil_left, List.not_mem_nil, or_false] at hav
    rcases hav with rfl | rfl | rfl | rfl
    · rfl
    · rfl
    · exact (List.eq_nil_of_length_eq_zero hlen.symm).symm
    · exact hs.constants i hi)
  rw [simpson] at h6
  split at h6
  · cases h6
  · cases h6
    rw [functional, lambdify_val h2 (hargs 0 (by omega) _ _ e0), lambdify_val h4 (hargs _ (by omega) _ _ ef), h5]

/-- The value of the cost, from the optimal control problem that is solved. -/
theorem cost_of_ocp {p p3 q : Prob} {f f2 f3 : Expr → Expr} (hf : FrontOk p p3 q f f2 f3) {B : ℝ → ℝ → ℝ → ℝ → ℝ}
    {U : Name → Nat → ℝ → ℝ} {Q : Env → Env} {sts' : List Dyn}
    (ho : ocpOf U p.ind sts' p.constants q = userOcp U Q B p) {rule : List ℝ → List ℝ → ℝ} (hr : Rule rule) {t : List ℝ}
    {y qd u : Arr ℝ} {pr k : List ℝ} {σ : Nat → Env} {v : ℝ} (hs : Samples q σ t y u k)
    (hv : computeCost rule (real U) q t y qd u pr k = .ok v) :
    v = stated rule U p t (fun i => Q (σ i)) + penalised rule B U p t (fun i => Q (σ i)) := by
  have := computeCost_val hf.empty.2.2.2.1 hf.empty.2.2.1 hs hv
  have h1 : (fun σ => eval (real U) σ q.costInitial) = fun σ => eval (real U) (Q σ) p.costInitial + penalties B U (Q σ) p.initial :=
    congrArg Ocp.costInitial ho
  have h2 : (fun σ => eval (real U) σ q.costTerminal) = fun σ => eval (real U) (Q σ) p.costTerminal + penalties B U (Q σ) p.terminal :=
    congrArg Ocp.costTerminal ho
  have h3 : (fun σ => eval (real U) σ q.costPath) = fun σ => eval (real U) (Q σ) p.costPath + penalties B U (Q σ) p.path :=
    congrArg Ocp.path ho
  rw [this, h1, h2, h3]
  simp only [functional, stated, penalised]
  have h4 := hr ((List.range t.length).map fun i => eval (real U) (Q (σ i)) p.costPath)
    ((List.range t.length).map fun i => penalties B U (Q (σ i)) p.path) t (by simp) (by simp)
  rw [List.zipWith_map, List.zipWith_self] at h4
  rw [h4]
  ring

/-! ### Property -/

/-- The reported cost is the stated cost of the reported trajectory, plus the penalties that replace the two-sided
constraints.  States, controls and constants are read from the solution; quantities, switches and bounded controls have
the values of their definitions (`Q`).

Missing from the full property: the penalties are reported as if they were part of the cost (see `C72_violated`), problems
with parameters or quadratures, and one-sided constraints. -/
theorem C72_cost_partial {S : Sympy} {p q : Prob} (hp : Stated p) (hq : primal S p = .ok q) :
    ∃ B : ℝ → ℝ → ℝ → ℝ → ℝ, Barriers B ∧
      ∀ U Q, Completes U p Q → ∀ rule, Rule rule → ∀ t y qd u pr k σ v, Samples q σ t y u k →
        computeCost rule (real U) q t y qd u pr k = .ok v →
        v = stated rule U p t (fun i => Q (σ i)) + penalised rule B U p t (fun i => Q (σ i)) := by
  obtain ⟨p3, f, f2, f3, hf⟩ := front hp hq
  obtain ⟨B, hB, hocp⟩ := hf.ocp
  refine ⟨B, hB, ?_⟩
  intro U Q hQ rule hr t y qd u pr k σ v hs hv
  exact cost_of_ocp hf (hocp U Q hQ) hr hs hv

/-- Without two-sided constraints the stated cost is reported. -/
theorem C72_unconstrained {S : Sympy} {p q : Prob} (hp : Stated p) (hq : primal S p = .ok q)
    (hno : ∀ c ∈ p.initial ++ p.path ++ p.terminal, c.twoSided = false) {U : Name → Nat → ℝ → ℝ} {Q : Env → Env}
    (hQ : Completes U p Q) {rule : List ℝ → List ℝ → ℝ} (hr : Rule rule) {t : List ℝ} {y qd u : Arr ℝ} {pr k : List ℝ}
    {σ : Nat → Env} {v : ℝ} (hs : Samples q σ t y u k) (hv : computeCost rule (real U) q t y qd u pr k = .ok v) :
    v = stated rule U p t (fun i => Q (σ i)) := by
  obtain ⟨B, -, h⟩ := C72_cost_partial hp hq
  rw [h U Q hQ rule hr t y qd u pr k σ v hs hv]
  have h0 : ∀ cons : List Con, (∀ c ∈ cons, c.twoSided = false) → ∀ ρ, penalties B U ρ cons = 0 := by
    intro cons hc ρ
    rw [penalties, List.filter_eq_nil_iff.2 (fun c hm => by simp [hc c hm])]
    rfl
  simp only [List.mem_append] at hno
  have hz := hr ((List.range t.length).map fun _ => 0) ((List.range t.length).map fun _ => 0) t (by simp) (by simp)
  rw [List.zipWith_map, List.zipWith_self] at hz
  simp only [add_zero] at hz
  simp only [penalised, functional]
  rw [h0 _ (fun c hc => hno c (.inl (.inl hc))), h0 _ (fun c hc => hno c (.inr hc))]
  simp only [h0 _ (fun c hc => hno c (.inl (.inr hc)))]
  linarith

/-- A cost is reported whenever the expressions of the cost use states, controls and constants only, the boundary parts no
controls, and there is at least one time. -/
theorem C72_reported {rule : List ℝ → List ℝ → ℝ} {U : Name → Nat → ℝ → ℝ} {q : Prob} (hquads : q.quads = []) (hpar : q.parameters = [])
    (hbc : ∀ e ∈ [q.costInitial, q.costTerminal], ∀ s ∈ e.free, s ∈ sts q ++ q.constants)
    (hpath : ∀ s ∈ q.costPath.free, s ∈ sts q ++ q.controls ++ q.constants)
    {t : List ℝ} (ht : t ≠ []) {y qd u : Arr ℝ} {k : List ℝ} {σ : Nat → Env} (hs : Samples q σ t y u k)
    (hqd : qd = .empty ∨ qd = .rows 0 (List.replicate t.length [])) :
    ∃ v, computeCost rule (real U) q t y qd u [] k = .ok v := by
  have hq0 : qds q = [] := by simp [qds, hquads]
  obtain ⟨n, hn⟩ := Nat.exists_eq_succ_of_ne_zero (fun e => ht (List.eq_nil_of_length_eq_zero e))
  have hbcv : ∀ i < t.length, (bcArgs q).map (fun ns => ns.map (σ i)) = [(sts q).map (σ i), [], [], k] := by
    intro i hi
    simp [bcArgs, hq0, hpar, hs.constants i hi]
  have hdynv : ∀ i < t.length, (dynArgs q).map (fun ns => ns.map (σ i)) = [(sts q).map (σ i), q.controls.map (σ i), [], k] := by
    intro i hi
    simp [dynArgs, hpar, hs.constants i hi]
  have e0 : firstRow y = .ok ((sts q).map (σ 0)) := by
    rw [hs.states, hn, List.range_succ_eq_map]
    rfl
  have ef : lastRow y = .ok ((sts q).map (σ n)) := by
    rw [hs.states, lastRow, List.getLast?_map, hn, List.range_succ, List.getLast?_append]
    rfl
  have hz : y.rowList.zip u.rowList = (List.range t.length).map fun i => ((sts q).map (σ i), q.controls.map (σ i)) := by
    rw [hs.states, hs.controls]
    simp only [Arr.rowList]
    rw [List.zip_map']
  have hm : (y.rowList.zip u.rowList).mapM (fun yu => lambdify (real U) (dynArgs q) q.costPath [yu.1, yu.2, [], k]) =
      .ok ((List.range t.length).map fun i => eval (real U) (σ i) q.costPath) := by
    rw [hz, List.mapM_map]
    refine Num.mapM_ok fun i hi => ?_
    exact lambdify_ok (real U) (σ i) (hdynv i (List.mem_range.1 hi)) (by simpa [dynArgs, hpar] using hpath)
  have hq1 : quadRow firstRow qd = .ok [] ∧ quadRow lastRow qd = .ok [] := by
    rcases hqd with rfl | rfl
    · exact ⟨rfl, rfl⟩
    · rw [hn]
      refine ⟨rfl, ?_⟩
      rw [quadRow, lastRow, List.getLast?_replicate]
      rfl
  refine ⟨eval (real U) (σ 0) q.costInitial + eval (real U) (σ n) q.costTerminal +
    rule ((List.range t.length).map fun i => eval (real U) (σ i) q.costPath) t, ?_⟩
  rw [computeCost, e0]
  simp only [ok_bind', hq1.1, hq1.2, ef]
  rw [lambdify_ok (real U) (σ 0) (hbcv 0 (by omega)) (by simpa [bcArgs, hq0, hpar] using hbc _ (by simp))]
  simp only [ok_bind']
  rw [lambdify_ok (real U) (σ n) (hbcv n (by omega)) (by simpa [bcArgs, hq0, hpar] using hbc _ (by simp))]
  simp only [ok_bind']
  rw [hm]
  simp only [ok_bind', simpson, List.length_map, List.length_range]
  rw [if_neg (by simp)]
  rfl

/-! ### The penalties are reported as part of the cost

The example of `C64_extremal_partial` with the bounds -1 and 2 for the terminal point: with `x = t` and `u = 1` all
constraints are met. -/

def exR : Prob := { exP with terminal := [{ expr := sym "x" - 1 },
    { expr := sym "x", lower := some (num (-1)), upper := some 2, activator := some (sym "eps"), method := .utm }] }

theorem exR_stated : Stated exR where
  costates := rfl
  coparameters := rfl
  parameters := rfl
  quads := rfl
  law := rfl
  acyclic := ⟨fun _ => 0, by decide⟩
  reg := ⟨rfl, by decide, by decide, by decide, by simp [exR, exP], by decide, by decide⟩
  inside := by decide
  ends := by decide
  bounds := by simp [exR, exP]
  flat := by simp [exR, exP]
  names := by decide
  trig := by decide +kernel
  plain := by decide +kernel
  free := by decide +kernel
  ind := by decide +kernel

def exr : Prob := match primal exS exR with
  | .ok p => p
  | .error _ => {}

theorem exr_ok : primal exS exR = .ok exr := by
  have : (match primal exS exR with | .ok _ => true | .error _ => false) = true := by decide +kernel
  rw [exr]
  cases h : primal exS exR with
  | ok p => rfl
  | error e => rw [h] at this; cases this

theorem exr_cost : exr.costInitial = 0 ∧ exr.costPath = 1 + sym "u" * sym "u" ∧
    exr.costTerminal = 0 + utmTerm (sym "eps") (sym "x") (num (-1)) 2 ∧ sts exr = ["x", "t"] ∧ exr.controls = ["u"] ∧
    exr.constants = ["eps"] ∧ exr.quads = [] ∧ exr.parameters = [] := by decide +kernel

/-- `x = t`, `u = 1`, at times 0 and 1. -/
def exSample (eps : ℝ) (i : Nat) (s : Name) : ℝ := if s = "x" ∨ s = "t" then i else if s = "eps" then eps else 1

/-- A trajectory that meets all constraints is reported with more than its cost, however it is integrated: the penalty for a
constraint that is not even active is added. -/
theorem C72_violated (U : Name → Nat → ℝ → ℝ) (rule : List ℝ → List ℝ → ℝ) (eps : ℝ) (heps : 0 < eps) :
    Stated exR ∧ primal exS exR = .ok exr ∧ Completes U exR Opt.exQ ∧
    ∃ y u, Samples exr (exSample eps) [0, 1] y u [eps] ∧
      (∀ i, ∀ c ∈ exR.terminal, c.twoSided = true → ∀ lo ∈ c.lower, ∀ hi ∈ c.upper, i < 2 →
        eval (real U) (exSample eps i) lo < eval (real U) (exSample eps i) c.expr ∧
        eval (real U) (exSample eps i) c.expr < eval (real U) (exSample eps i) hi) ∧
      (∀ c ∈ exR.initial, eval (real U) (exSample eps 0) c.expr = 0) ∧
      (∀ c ∈ exR.terminal, c.twoSided = false → eval (real U) (exSample eps 1) c.expr = 0) ∧
      ∃ v, computeCost rule (real U) exr [0, 1] y .empty u [] [eps] = .ok v ∧
        v = stated rule U exR [0, 1] (fun i => Opt.exQ (exSample eps i)) + eps * (2 / Real.sqrt 3 - 1) ∧
        stated rule U exR [0, 1] (fun i => Opt.exQ (exSample eps i)) < v := by
  obtain ⟨c1, c2, c3, c4, c5, c6, c7, c8⟩ := exr_cost
  have hs : Samples exr (exSample eps) [0, 1] (.rows (sts exr).length ((List.range 2).map fun i => (sts exr).map (exSample eps i)))
      (.rows exr.controls.length ((List.range 2).map fun i => exr.controls.map (exSample eps i))) [eps] :=
    ⟨rfl, rfl, by intro i _; rw [c6]; rfl⟩
  refine ⟨exR_stated, exr_ok, ?_, _, _, hs, ?_, ?_, ?_, ?_⟩
  · exact {
      off := by
        intro σ s hs
        simp [definedNames, exR, exP, epsControls] at hs
        simp [Opt.exQ, hs]
      quantities := by
        intro σ d hd
        simp [exR, exP] at hd
        subst hd
        simp [Opt.exQ, eval]
      switches := by simp [exR, exP]
      trig := by simp [TrigEnv, exR, exP] }
  · intro i c hc htwo lo hlo hi hhi h2
    simp only [exR, List.mem_cons, List.not_mem_nil, or_false] at hc
    rcases hc with rfl | rfl
    · cases htwo
    · cases hlo
      cases hhi
      have : ((i : Nat) : ℝ) < 2 := by exact_mod_cast h2
      have h0 : (0 : ℝ) ≤ i := Nat.cast_nonneg i
      simp [eval, exSample]
      constructor <;> linarith
  · simp [exR, exP, eval, exSample]
  · simp [exR, eval, exSample, Con.twoSided]
  · obtain ⟨v, hv⟩ := C72_reported (rule := rule) (U := U) c7 c8 (by
      rw [c1, c3, c4, c6]
      decide +kernel) (by
      rw [c2, c4, c5, c6]
      decide +kernel) (by simp) hs (.inl rfl)
    have hval := computeCost_val c7 c8 hs hv
    have e1 : ∀ v, (real U).fn .cos v = Real.cos v := fun _ => rfl
    have e2 : (real U).pi = Real.pi := rfl
    have h6 : Real.cos (Real.pi / 2 * (2 * 1 - 2 - (-1)) / (2 - (-1))) = Real.sqrt 3 / 2 := by
      rw [← Real.cos_pi_div_six]
      congr 1
      ring
    have hval : v = stated rule U exR [0, 1] (fun i => Opt.exQ (exSample eps i)) + eps * (2 / Real.sqrt 3 - 1) := by
      rw [hval, c1, c2, c3]
      have h6' := h6
      simp [functional, stated, exR, exP, eval, exSample, Opt.exQ, utmTerm, e1, e2] at h6' ⊢
      rw [h6']
      field_simp
      ring
    refine ⟨v, hv, hval, ?_⟩
    rw [hval]
    have h3 : Real.sqrt 3 < 2 := by
      rw [Real.sqrt_lt' (by norm_num)]
      norm_num
    have h4 : 0 < Real.sqrt 3 := by positivity
    have : 1 < 2 / Real.sqrt 3 := by
      rw [lt_div_iff₀ h4]
      linarith
    nlinarith

/-! ### The rule of the trapezoids, and a trajectory in three points -/

noncomputable def trapezoids : List ℝ → List ℝ → ℝ
  | v₀ :: v₁ :: v, t₀ :: t₁ :: t => (t₁ - t₀) * (v₀ + v₁) / 2 + trapezoids (v₁ :: v) (t₁ :: t)
  | _, _ => 0

theorem trapezoids_rule : Rule trapezoids := by
  intro v w t hv hw
  induction t generalizing v w with
  | nil =>
    cases v <;> cases w <;> simp [trapezoids] at *
  | cons t₀ t ih =>
    match v, w, t with
    | [a], [b], [] => simp [trapezoids]
    | a :: a' :: v, b :: b' :: w, t₁ :: t =>
      have := ih (a' :: v) (b' :: w) (by simpa using hv) (by simpa using hw)
      simp only [List.zipWith_cons_cons, trapezoids] at this ⊢
      rw [this]
      ring
    | _ :: _ :: _, _, [] => simp at hv
    | _, _ :: _ :: _, [] => simp at hw
    | [], _, _ => simp at hv
    | _, [], _ => simp at hw
    | [_], _, _ :: _ => simp at hv
    | _, [_], _ :: _ => simp at hw

/-- The problem without the two-sided constraint. -/
def exF : Prob := { exP with terminal := [{ expr := sym "x" - 1 }] }

theorem exF_stated : Stated exF where
  costates := rfl
  coparameters := rfl
  parameters := rfl
  quads := rfl
  law := rfl
  acyclic := ⟨fun _ => 0, by decide⟩
  reg := ⟨rfl, by decide, by decide, by decide, by simp [exF, exP], by decide, by decide⟩
  inside := by decide
  ends := by decide
  bounds := by simp [exF, exP]
  flat := by simp [exF, exP]
  names := by decide
  trig := by decide +kernel
  plain := by decide +kernel
  free := by decide +kernel
  ind := by decide +kernel

def exf : Prob := match primal exS exF with
  | .ok p => p
  | .error _ => {}

theorem exf_ok : primal exS exF = .ok exf := by
  have : (match primal exS exF with | .ok _ => true | .error _ => false) = true := by decide +kernel
  rw [exf]
  cases h : primal exS exF with
  | ok p => rfl
  | error e => rw [h] at this; cases this

theorem exf_cost : exf.costInitial = 0 ∧ exf.costPath = 1 + sym "u" * sym "u" ∧
    exf.costTerminal = 0 ∧ sts exf = ["x", "t"] ∧ exf.controls = ["u"] ∧
    exf.constants = ["eps"] ∧ exf.quads = [] ∧ exf.parameters = [] := by decide +kernel

/-- Along `x = t`, `u = 1` the cost is 2 per unit of time. -/
example (U : Name → Nat → ℝ → ℝ) : ∃ y u, Samples exf (exSample 1) [0, 1, 2] y u [1] ∧
    computeCost trapezoids (real U) exf [0, 1, 2] y .empty u [] [1] = .ok 4 ∧
    stated trapezoids U exF [0, 1, 2] (fun i => Opt.exQ (exSample 1 i)) = 4 := by
  obtain ⟨c1, c2, c3, c4, c5, c6, c7, c8⟩ := exf_cost
  have hs : Samples exf (exSample 1) [0, 1, 2] (.rows (sts exf).length ((List.range 3).map fun i => (sts exf).map (exSample 1 i)))
      (.rows exf.controls.length ((List.range 3).map fun i => exf.controls.map (exSample 1 i))) [1] :=
    ⟨rfl, rfl, by intro i _; rw [c6]; rfl⟩
  have h4 : stated trapezoids U exF [0, 1, 2] (fun i => Opt.exQ (exSample 1 i)) = 4 := by
    simp [stated, functional, exF, exP, eval, exSample, Opt.exQ, List.range_succ, trapezoids]
    norm_num
  refine ⟨_, _, hs, ?_, h4⟩
  obtain ⟨v, hv⟩ := C72_reported (rule := trapezoids) (U := U) c7 c8 (by
    rw [c1, c3, c4, c6]
    decide +kernel) (by
    rw [c2, c4, c5, c6]
    decide +kernel) (by simp) hs (.inl rfl)
  have hQ : Completes U exF Opt.exQ := {
    off := by
      intro σ s hs
      simp [definedNames, exF, exP, epsControls] at hs
      simp [Opt.exQ, hs]
    quantities := by
      intro σ d hd
      simp [exF, exP] at hd
      subst hd
      simp [Opt.exQ, eval]
    switches := by simp [exF, exP]
    trig := by simp [TrigEnv, exF, exP] }
  have := C72_unconstrained exF_stated exf_ok (by decide) hQ trapezoids_rule hs hv
  rw [hv, this, h4]

end Beluga.Rep
