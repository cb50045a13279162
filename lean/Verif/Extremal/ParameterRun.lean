import Verif.Extremal.ParameterOk

/-! # Problems with parameters to be optimised: two runs (C64) -/

namespace Beluga.Opt

open Beluga.Sym Beluga.Sym.Expr

/-! ### Polynomials -/

/-- A polynomial. -/
def isPoly : Expr → Bool
  | num _ | pi | sym _ => true
  | add a b | mul a b => isPoly a && isPoly b
  | pow a _ => isPoly a
  | inv _ | fn _ _ => false

theorem smooth_poly {U : Name → Nat → ℝ → ℝ} {σ : Env} : ∀ {e : Expr}, isPoly e = true → Smooth U σ e
  | num _, _ => trivial
  | pi, _ => trivial
  | sym _, _ => trivial
  | add a b, h => by
    simp only [isPoly, Bool.and_eq_true] at h
    exact ⟨smooth_poly h.1, smooth_poly h.2⟩
  | mul a b, h => by
    simp only [isPoly, Bool.and_eq_true] at h
    exact ⟨smooth_poly h.1, smooth_poly h.2⟩
  | pow a n, h => by
    simp only [isPoly] at h
    exact smooth_poly (e := a) h
  | inv _, h => by cases h
  | fn _ _, h => by cases h

theorem defined_poly {U : Name → Nat → ℝ → ℝ} {σ : Env} : ∀ {e : Expr}, isPoly e = true → Defined (real U) σ e
  | num _, _ => trivial
  | pi, _ => trivial
  | sym _, _ => trivial
  | add a b, h => by
    simp only [isPoly, Bool.and_eq_true] at h
    exact ⟨defined_poly h.1, defined_poly h.2⟩
  | mul a b, h => by
    simp only [isPoly, Bool.and_eq_true] at h
    exact ⟨defined_poly h.1, defined_poly h.2⟩
  | pow a n, h => by
    simp only [isPoly] at h
    exact defined_poly (e := a) h
  | inv _, h => by cases h
  | fn _ _, h => by cases h

theorem regular_poly {S : Sympy} {U : Name → Nat → ℝ → ℝ} {q p' : Prob} {a b : ℝ} {ρ : ℝ → Env}
    (h1 : (q.costPath :: q.costInitial :: q.costTerminal :: (q.states.map Dyn.eom ++ (q.initial ++ q.terminal).map Con.expr ++
      q.controls.map (fun u => (hexpr q).diff u) ++ p'.states.map Dyn.eom)).all isPoly = true)
    (h2 : ∀ t ∈ Set.Icc a b, ∀ opt ∈ p'.controlLaw, ∀ e ∈ opt, Defined (real U) (ρ t) e)
    (h3 : ∀ t ∈ Set.Icc a b, ∀ u ∈ p'.controls, DifferentiableAt ℝ (fun τ => ρ τ u) t) (h4 : p'.omega = none) :
    Regular S U q p' a b ρ := by
  rw [List.all_eq_true] at h1
  have hends : ∀ σ, SmoothEnds q U σ := by
    intro σ
    refine ⟨smooth_poly (h1 _ (by simp)), smooth_poly (h1 _ (by simp)), fun c hc => smooth_poly (h1 _ ?_)⟩
    simp only [List.mem_cons, List.mem_append, List.mem_map] at hc ⊢
    exact Or.inr (Or.inr (Or.inr (Or.inl (Or.inl (Or.inr ⟨c, hc, rfl⟩)))))
  refine ⟨?_, (hends _).start, (hends _).stop, ?_, ?_, h2, h3, ?_⟩
  · intro t _
    refine ⟨smooth_poly (h1 _ (by simp)), fun s hs => smooth_poly (h1 _ ?_)⟩
    simp only [List.mem_cons, List.mem_append, List.mem_map]
    exact Or.inr (Or.inr (Or.inr (Or.inl (Or.inl (Or.inl ⟨s, hs, rfl⟩)))))
  · intro t _ u hu
    refine smooth_poly (h1 _ ?_)
    simp only [List.mem_cons, List.mem_append, List.mem_map]
    exact Or.inr (Or.inr (Or.inr (Or.inl (Or.inr ⟨u, hu, rfl⟩))))
  · intro t _ d hd
    refine defined_poly (h1 _ ?_)
    simp only [List.mem_cons, List.mem_append, List.mem_map]
    exact Or.inr (Or.inr (Or.inr (Or.inr ⟨d, hd, rfl⟩)))
  · intro om ho
    rw [h4] at ho
    cases ho

theorem defined_law {U : Name → Nat → ℝ → ℝ} {σ : Env} : Defined (real U) σ (-(sym "_lam_x") / 2) :=
  ⟨⟨trivial, trivial⟩, trivial, by simp [eval]⟩

/-! ### Without `NormalizeTime`

The problem `paP`: minimise `∫ (u² + p²) dt - 4 p` from `x = 0` at `t = 0` to `x = 2` at `t = 2`.  The best value `p = 1` is found. -/

def pbO : Opts := { controlMethod := .algebraic, normalizeTime := false }

def pbP' : Prob := match indirect paS pbO paP with
  | .ok p => p
  | .error _ => {}

theorem pbP'_ok : indirect paS pbO paP = .ok pbP' := by
  have : (match indirect paS pbO paP with | .ok _ => true | .error _ => false) = true := by decide +kernel
  rw [pbP']
  cases h : indirect paS pbO paP with
  | ok p => rfl
  | error e => rw [h] at this; cases this

def paq : Prob := match primal paS paP with
  | .ok p => p
  | .error _ => {}

theorem paq_ok : primal paS paP = .ok paq := by
  have : (match primal paS paP with | .ok _ => true | .error _ => false) = true := by decide +kernel
  rw [paq]
  cases h : primal paS paP with
  | ok p => rfl
  | error e => rw [h] at this; cases this

theorem pbP'_fields : pbP'.states = [⟨"x", sym "u"⟩, ⟨"t", 1⟩, ⟨"_lam_x", -(paH.diff "x")⟩, ⟨"_lam_t", -(paH.diff "t")⟩] ∧
    pbP'.quads = [⟨"_lam_p", -(paH.diff "p")⟩] ∧ pbP'.initial = paP'.initial ∧ pbP'.terminal = paP'.terminal ∧
    pbP'.controls = ["u"] ∧ pbP'.controlLaw = [[-(sym "_lam_x") / 2]] ∧ pbP'.ind = "_t" ∧ pbP'.omega = none := by
  decide +kernel

def pbCurve (τ : ℝ) (s : Name) : ℝ :=
  if s = "_t" ∨ s = "x" ∨ s = "t" then τ else if s = "_lam_p" then -2 * τ
  else if s = "u" ∨ s = "p" then 1 else if s = "_nu_0_0" then 2
  else if s = "_lam_x" ∨ s = "_nu_f_0" then -2 else 0

theorem pbCurve_const (s : Name) (h : s ≠ "_t") (h2 : s ≠ "x") (h3 : s ≠ "t") (h4 : s ≠ "_lam_p") (t : ℝ) :
    HasDerivAt (fun τ => pbCurve τ s) 0 t := by
  have : (fun τ => pbCurve τ s) = fun _ => pbCurve 0 s := by
    funext τ
    simp [pbCurve, h, h2, h3, h4]
  rw [this]
  exact hasDerivAt_const _ _

theorem pbCurve_line (s : Name) (h : s = "x" ∨ s = "t") (t : ℝ) : HasDerivAt (fun τ => pbCurve τ s) 1 t := by
  have e : (fun τ => pbCurve τ s) = fun τ => τ := by
    funext τ
    rcases h with rfl | rfl <;> simp [pbCurve]
  rw [e]
  exact hasDerivAt_id t

theorem pbSolves (U : Name → Nat → ℝ → ℝ) : Solves U pbP' 0 2 pbCurve where
  follows := by
    intro t _ d hd
    rw [pbP'_fields.1] at hd
    simp only [List.mem_cons, List.not_mem_nil, or_false] at hd
    rcases hd with rfl | rfl | rfl | rfl
    · simpa [eval, pbCurve] using pbCurve_line "x" (by simp) t
    · simpa [eval, pbCurve] using pbCurve_line "t" (by simp) t
    · have := pbCurve_const "_lam_x" (by decide) (by decide) (by decide) (by decide) t
      simpa [eval, diff, pbCurve, paH, hamiltonianOf, lamName] using this
    · have := pbCurve_const "_lam_t" (by decide) (by decide) (by decide) (by decide) t
      simpa [eval, diff, pbCurve, paH, hamiltonianOf, lamName] using this
  fixed := by
    intro s h1 h2 h3 h4 t _
    rw [pbP'_fields.1] at h1
    rw [pbP'_fields.2.1] at h2
    rw [pbP'_fields.2.2.2.2.2.2.1] at h4
    simp only [List.map_cons, List.map_nil, List.mem_cons, List.not_mem_nil, or_false, not_or] at h1 h2
    exact pbCurve_const s h4 h1.1 h1.2.1 h2 t
  law := by
    intro _ t _
    rw [pbP'_fields.2.2.2.2.1, pbP'_fields.2.2.2.2.2.1]
    refine ⟨_, List.mem_singleton_self _, ?_⟩
    simp [eval, pbCurve]
  initial := by
    intro c hc
    rw [pbP'_fields.2.2.1] at hc
    have : c.expr ∈ paP'.initial.map Con.expr := List.mem_map.2 ⟨c, hc, rfl⟩
    rw [paP'_fields.2.2.1] at this
    simp only [List.mem_cons, List.not_mem_nil, or_false] at this
    rcases this with h | h | h | h | h <;> rw [h] <;> simp [eval, diff, pbCurve]
  terminal := by
    intro c hc
    rw [pbP'_fields.2.2.2.1] at hc
    have : c.expr ∈ paP'.terminal.map Con.expr := List.mem_map.2 ⟨c, hc, rfl⟩
    rw [paP'_fields.2.2.2.1] at this
    simp only [List.mem_cons, List.not_mem_nil, or_false] at this
    rcases this with h | h | h | h | h | h <;> rw [h] <;> simp [eval, diff, pbCurve, paH, hamiltonianOf, lamName]
    all_goals norm_num

theorem pbQuads (U : Name → Nat → ℝ → ℝ) : Follows U pbP'.quads 1 0 2 pbCurve := by
  intro t _ d hd
  rw [pbP'_fields.2.1] at hd
  simp only [List.mem_singleton] at hd
  subst hd
  have e : (fun τ => pbCurve τ "_lam_p") = fun τ => -2 * τ := by funext τ; simp [pbCurve]
  have : HasDerivAt (fun τ => pbCurve τ "_lam_p") (-2) t := by
    rw [e]
    exact ((hasDerivAt_id t).const_mul (-2)).congr_deriv (by simp)
  refine this.congr_deriv ?_
  simp [eval, diff, pbCurve, paH, hamiltonianOf, lamName]
  norm_num

theorem pbRegular (U : Name → Nat → ℝ → ℝ) : Regular paS U paq pbP' 0 2 pbCurve := by
  refine regular_poly (by decide +kernel) ?_ ?_ pbP'_fields.2.2.2.2.2.2.2
  · intro t _ opt ho e he
    rw [pbP'_fields.2.2.2.2.2.1, List.mem_singleton] at ho
    subst ho
    rw [List.mem_singleton] at he
    subst he
    exact defined_law
  · intro t _ u hu
    rw [pbP'_fields.2.2.2.2.1, List.mem_singleton] at hu
    subst hu
    exact (pbCurve_const "u" (by decide) (by decide) (by decide) (by decide) t).differentiableAt

theorem pa_completes (U : Name → Nat → ℝ → ℝ) : Completes U paP id where
  off := fun _ _ _ => rfl
  quantities := by simp [paP]
  switches := by simp [paP]
  trig := by simp [TrigEnv, paP]

/-- The curve with the parameter `1` is an extremal. -/
example (U : Name → Nat → ℝ → ℝ) : ∃ B, Extremal ((userOcp U id B paP).withParameters ["p"]) 0 2 pbCurve
    (fun s n => pbCurve s ("_lam_" ++ n)) (fun i => pbCurve 0 ("_nu_0_" ++ toString i))
    fun i => pbCurve 0 ("_nu_f_" ++ toString i) := by
  obtain ⟨q, B, hq, -, h⟩ := C64_parameters_partial (luSound_cramer paS rfl) (o := pbO) pa_stated rfl rfl (fun _ => paS_sound) pbP'_ok
  rw [paq_ok] at hq
  cases hq
  have := h U id (pa_completes U) 0 2 pbCurve (by norm_num) (pbSolves U) (pbQuads U) (pbRegular U) 1 rfl one_pos (Or.inl rfl)
  have e : pbCurve 0 paP.ind = 0 := by simp [paP, pbCurve]
  simp only [e, sub_zero, div_one, zero_add, one_mul, ite_self] at this
  exact ⟨B, this⟩

/-! ### With `NormalizeTime`

Minimise `∫ (u² + (p - t)²) dt` from `x = 0` at `t = 0` to `x = 2` at `t = 2`: the parameter occurs on the path only, and the best
value `p = 1` is found. -/

def pcP : Prob := {
  ind := "t"
  states := [⟨"x", sym "u"⟩]
  controls := ["u"]
  parameters := ["p"]
  costPath := sym "u" * sym "u" + (sym "p" + num (-1) * sym "t") * (sym "p" + num (-1) * sym "t")
  initial := [{ expr := sym "x" }, { expr := sym "t" }]
  terminal := [{ expr := sym "x" - num 2 }, { expr := sym "t" - num 2 }] }

def pcH : Expr := hamiltonianOf (sym "u" * sym "u" + (sym "p" + num (-1) * sym "t") * (sym "p" + num (-1) * sym "t")) [⟨"x", sym "u"⟩, ⟨"t", 1⟩]

/-- A solver that knows one equation. -/
def pcS : Sympy where
  solve eqs syms := if eqs = [pcH.diff "u"] ∧ syms = ["u"] then [[("u", -(sym "_lam_x") / 2)]] else []
  lu := cramerLu
  integrate _ _ := 0

theorem pc_stated : Stated { pcP with parameters := [], constants := pcP.constants ++ pcP.parameters } where
  costates := rfl
  coparameters := rfl
  parameters := rfl
  quads := rfl
  law := rfl
  acyclic := ⟨fun _ => 0, by decide⟩
  reg := ⟨rfl, by decide, by decide, by decide, by simp [pcP], by decide, by decide⟩
  inside := by decide
  ends := by decide
  bounds := by simp [pcP]
  flat := by simp [pcP]
  names := by decide
  trig := by decide +kernel
  plain := by decide +kernel
  free := by decide +kernel
  ind := by decide +kernel

theorem pcS_sound : SolveSound pcS := by
  intro U eqs syms sol hs σ hσ e he
  simp only [pcS] at hs
  split at hs
  · next hc =>
    obtain ⟨rfl, rfl⟩ := hc
    simp only [List.mem_singleton] at hs
    subst hs
    obtain ⟨e', h1, -, h3⟩ := hσ "u" (by simp)
    cases h1
    simp only [List.mem_singleton] at he
    subst he
    simp [pcH, hamiltonianOf, diff, eval, lamName] at h3 ⊢
    rw [h3]
    ring
  · cases hs

def pcP' : Prob := match indirect pcS paO pcP with
  | .ok p => p
  | .error _ => {}

theorem pcP'_ok : indirect pcS paO pcP = .ok pcP' := by
  have : (match indirect pcS paO pcP with | .ok _ => true | .error _ => false) = true := by decide +kernel
  rw [pcP']
  cases h : indirect pcS paO pcP with
  | ok p => rfl
  | error e => rw [h] at this; cases this

def pcq : Prob := match primal pcS pcP with
  | .ok p => p
  | .error _ => {}

theorem pcq_ok : primal pcS pcP = .ok pcq := by
  have : (match primal pcS pcP with | .ok _ => true | .error _ => false) = true := by decide +kernel
  rw [pcq]
  cases h : primal pcS pcP with
  | ok p => rfl
  | error e => rw [h] at this; cases this

theorem pcP'_fields : pcP'.states = [⟨"x", sym "u" * sym "_delta_t"⟩, ⟨"t", 1 * sym "_delta_t"⟩,
      ⟨"_lam_x", -(pcH.diff "x") * sym "_delta_t"⟩, ⟨"_lam_t", -(pcH.diff "t") * sym "_delta_t"⟩] ∧
    pcP'.quads = [⟨"_lam_p", -(pcH.diff "p")⟩] ∧
    pcP'.initial.map Con.expr = [sym "x", sym "t",
      sym "_lam_x" + (0 + sym "_nu_0_0" * sym "x" + sym "_nu_0_1" * sym "t").diff "x",
      sym "_lam_t" + (0 + sym "_nu_0_0" * sym "x" + sym "_nu_0_1" * sym "t").diff "t",
      sym "_lam_p" + (0 + sym "_nu_0_0" * sym "x" + sym "_nu_0_1" * sym "t").diff "p"] ∧
    pcP'.terminal.map Con.expr = [sym "x" - num 2, sym "t" - num 2,
      sym "_lam_x" - (0 + sym "_nu_f_0" * (sym "x" + num (-1) * num 2) + sym "_nu_f_1" * (sym "t" + num (-1) * num 2)).diff "x",
      sym "_lam_t" - (0 + sym "_nu_f_0" * (sym "x" + num (-1) * num 2) + sym "_nu_f_1" * (sym "t" + num (-1) * num 2)).diff "t",
      sym "_lam_p" - (0 + sym "_nu_f_0" * (sym "x" + num (-1) * num 2) + sym "_nu_f_1" * (sym "t" + num (-1) * num 2)).diff "p",
      (0 + sym "_nu_f_0" * (sym "x" + num (-1) * num 2) + sym "_nu_f_1" * (sym "t" + num (-1) * num 2)).diff "_t" + pcH] ∧
    pcP'.controls = ["u"] ∧ pcP'.controlLaw = [[-(sym "_lam_x") / 2]] ∧ pcP'.ind = "_tau" ∧ pcP'.omega = none := by
  decide +kernel

def pcCurve (τ : ℝ) (s : Name) : ℝ :=
  if s = "_tau" then τ else if s = "x" ∨ s = "t" then 2 * τ else if s = "_lam_p" then 2 * τ ^ 2 - 2 * τ
  else if s = "_lam_t" then 4 * τ - 4 * τ ^ 2
  else if s = "u" ∨ s = "p" then 1 else if s = "_nu_0_0" ∨ s = "_delta_t" then 2
  else if s = "_lam_x" ∨ s = "_nu_f_0" then -2 else 0

theorem pcCurve_const (s : Name) (h : s ≠ "_tau") (h2 : s ≠ "x") (h3 : s ≠ "t") (h4 : s ≠ "_lam_p") (h5 : s ≠ "_lam_t") (t : ℝ) :
    HasDerivAt (fun τ => pcCurve τ s) 0 t := by
  have : (fun τ => pcCurve τ s) = fun _ => pcCurve 0 s := by
    funext τ
    simp [pcCurve, h, h2, h3, h4, h5]
  rw [this]
  exact hasDerivAt_const _ _

theorem pcCurve_line (s : Name) (h : s = "x" ∨ s = "t") (t : ℝ) : HasDerivAt (fun τ => pcCurve τ s) 2 t := by
  have e : (fun τ => pcCurve τ s) = fun τ => 2 * τ := by
    funext τ
    rcases h with rfl | rfl <;> simp [pcCurve]
  rw [e]
  exact ((hasDerivAt_id t).const_mul 2).congr_deriv (by simp)

theorem pc_sq (t : ℝ) : HasDerivAt (fun τ : ℝ => τ ^ 2) (2 * t) t := by
  simpa using hasDerivAt_pow 2 t

theorem pcSolves (U : Name → Nat → ℝ → ℝ) : Solves U pcP' 0 1 pcCurve where
  follows := by
    intro t _ d hd
    rw [pcP'_fields.1] at hd
    simp only [List.mem_cons, List.not_mem_nil, or_false] at hd
    rcases hd with rfl | rfl | rfl | rfl
    · simpa [eval, pcCurve] using pcCurve_line "x" (by simp) t
    · simpa [eval, pcCurve] using pcCurve_line "t" (by simp) t
    · have := pcCurve_const "_lam_x" (by decide) (by decide) (by decide) (by decide) (by decide) t
      refine this.congr_deriv ?_
      have e0 : eval (real U) (pcCurve t) (pcH.diff "x") = 0 := eval_diff_of_not_mem _ _ (by decide +kernel)
      simp only [eval_mul, eval_neg, e0]
      simp
    · have e : (fun τ => pcCurve τ "_lam_t") = fun τ => 4 * τ - 4 * τ ^ 2 := by funext τ; simp [pcCurve]
      have h1 : HasDerivAt (fun τ => pcCurve τ "_lam_t") (4 * 1 - 4 * (2 * t)) t := by
        rw [e]
        exact ((hasDerivAt_id t).const_mul 4).sub ((pc_sq t).const_mul 4)
      refine h1.congr_deriv ?_
      simp [eval, diff, pcCurve, pcH, hamiltonianOf, lamName]
      ring
  fixed := by
    intro s h1 h2 h3 h4 t _
    rw [pcP'_fields.1] at h1
    rw [pcP'_fields.2.1] at h2
    rw [pcP'_fields.2.2.2.2.2.2.1] at h4
    simp only [List.map_cons, List.map_nil, List.mem_cons, List.not_mem_nil, or_false, not_or] at h1 h2
    exact pcCurve_const s h4 h1.1 h1.2.1 h2 h1.2.2.2 t
  law := by
    intro _ t _
    rw [pcP'_fields.2.2.2.2.1, pcP'_fields.2.2.2.2.2.1]
    refine ⟨_, List.mem_singleton_self _, ?_⟩
    simp [eval, pcCurve]
  initial := by
    intro c hc
    have : c.expr ∈ pcP'.initial.map Con.expr := List.mem_map.2 ⟨c, hc, rfl⟩
    rw [pcP'_fields.2.2.1] at this
    simp only [List.mem_cons, List.not_mem_nil, or_false] at this
    rcases this with h | h | h | h | h <;> rw [h] <;> simp [eval, diff, pcCurve]
  terminal := by
    intro c hc
    have : c.expr ∈ pcP'.terminal.map Con.expr := List.mem_map.2 ⟨c, hc, rfl⟩
    rw [pcP'_fields.2.2.2.1] at this
    simp only [List.mem_cons, List.not_mem_nil, or_false] at this
    rcases this with h | h | h | h | h | h <;> rw [h] <;> simp [eval, diff, pcCurve, pcH, hamiltonianOf, lamName]
    all_goals norm_num

theorem pcQuads (U : Name → Nat → ℝ → ℝ) : Follows U pcP'.quads 1 0 1 pcCurve := by
  intro t _ d hd
  rw [pcP'_fields.2.1] at hd
  simp only [List.mem_singleton] at hd
  subst hd
  have e : (fun τ => pcCurve τ "_lam_p") = fun τ => 2 * τ ^ 2 - 2 * τ := by funext τ; simp [pcCurve]
  have : HasDerivAt (fun τ => pcCurve τ "_lam_p") (2 * (2 * t) - 2 * 1) t := by
    rw [e]
    exact ((pc_sq t).const_mul 2).sub ((hasDerivAt_id t).const_mul 2)
  refine this.congr_deriv ?_
  simp [eval, diff, pcCurve, pcH, hamiltonianOf, lamName]
  ring

theorem pcRegular (U : Name → Nat → ℝ → ℝ) : Regular pcS U pcq pcP' 0 1 pcCurve := by
  refine regular_poly (by decide +kernel) ?_ ?_ pcP'_fields.2.2.2.2.2.2.2
  · intro t _ opt ho e he
    rw [pcP'_fields.2.2.2.2.2.1, List.mem_singleton] at ho
    subst ho
    rw [List.mem_singleton] at he
    subst he
    exact defined_law
  · intro t _ u hu
    rw [pcP'_fields.2.2.2.2.1, List.mem_singleton] at hu
    subst hu
    exact (pcCurve_const "u" (by decide) (by decide) (by decide) (by decide) (by decide) t).differentiableAt

theorem pc_completes (U : Name → Nat → ℝ → ℝ) : Completes U pcP id where
  off := fun _ _ _ => rfl
  quantities := by simp [pcP]
  switches := by simp [pcP]
  trig := by simp [TrigEnv, pcP]

/-- The curve with the parameter `1` is an extremal, with the costate `t² - 2 t` of the parameter. -/
example (U : Name → Nat → ℝ → ℝ) : ∃ B, Extremal ((userOcp U id B pcP).withParameters ["p"]) 0 2 (fun s => pcCurve (s / 2))
    (fun s n => (if n ∈ ["p"] then 2 else 1) * pcCurve (s / 2) ("_lam_" ++ n)) (fun i => pcCurve 0 ("_nu_0_" ++ toString i))
    (fun i => pcCurve 0 ("_nu_f_" ++ toString i)) ∧ ∀ s, 2 * pcCurve (s / 2) "_lam_p" = s ^ 2 - 2 * s := by
  obtain ⟨q, B, hq, -, h⟩ := C64_parameters_partial (luSound_cramer pcS rfl) (o := paO) pc_stated rfl rfl (fun _ => pcS_sound) pcP'_ok
  rw [pcq_ok] at hq
  cases hq
  have := h U id (pc_completes U) 0 1 pcCurve (by norm_num) (pcSolves U) (pcQuads U) (pcRegular U) 2 (by
    have : "_delta_" ++ pcP.ind = "_delta_t" := rfl
    rw [this]; simp [paO, pcCurve]) (by norm_num) (Or.inr (by
    intro n hn f hf σ v
    simp only [pcP, List.mem_singleton] at hn
    subst hn
    simp [userOcp, pcP, penalties, Con.twoSided] at hf
    rcases hf with rfl | rfl | rfl | rfl | rfl | rfl <;> simp [eval]))
  have e : pcCurve 0 pcP.ind = 0 := by simp [pcP, pcCurve]
  simp only [e, sub_zero, zero_add, mul_one] at this
  refine ⟨B, this, fun s => ?_⟩
  simp [pcCurve]
  ring

end Beluga.Opt
