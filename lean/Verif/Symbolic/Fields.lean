import Verif.Symbolic.Props7
import Verif.Symbolic.Cramer

/-! # Constants of motion from symmetries that are no translations (C53) -/

namespace Beluga.Sym

open Expr

/-! ### What is assumed of sympy -/

/-- `LUsolve` with the standard symplectic form, whose entries are 0, 1 and -1, and a field without components in the costates:
zeros, which sympy simplifies to numbers, and the components of the field. -/
def LuStandard (S : Sympy) : Prop := ∀ n (f x : List Expr), f.length = n → S.lu (standardForm n) (f ++ List.replicate n 0) = .ok x →
  ∃ z g, x = z ++ g ∧ z.length = n ∧ (∀ e ∈ z, e.free = [] ∧ ∀ U ρ, eval (real U) ρ e = 0) ∧
    List.Forall₂ (fun c e => (∀ s ∈ e.free, s ∈ c.free) ∧ ∀ U ρ, eval (real U) ρ e = eval (real U) ρ c) f g

/-- `integrate(e, x)` of an expression without `x` is `e*x`. -/
def IntegrateFactor (S : Sympy) : Prop := ∀ e x, x ∉ e.free → ∀ U ρ, eval (real U) ρ (S.integrate e x) = eval (real U) ρ e * ρ x

/-! ### Specification -/

/-- The rate of change of `e` in the direction of the field `f` on the states and `v` on the controls. -/
noncomputable def along (U : Name → Nat → ℝ → ℝ) (p : Prob) (f : List Expr) (v : Name → ℝ) (σ : Name → ℝ) (e : Expr) : ℝ :=
  ((p.states.zip f).map fun sc => eval (real U) σ sc.2 * eval (real U) σ (e.diff sc.1.name)).sum +
    (p.controls.map fun u => v u * eval (real U) σ (e.diff u)).sum

/-- To first order, moving the states along `f` and the controls along `v` changes neither the path cost nor the equations of
motion: a rate changes as the field itself changes along the motion. -/
structure SymmetryAt (U : Name → Nat → ℝ → ℝ) (p : Prob) (f : List Expr) (v : Name → ℝ) (σ : Name → ℝ) : Prop where
  cost : along U p f v σ p.costPath = 0
  rates : ∀ sc ∈ p.states.zip f, along U p f v σ sc.1.eom =
    (p.states.map fun d => eval (real U) σ (sc.2.diff d.name) * eval (real U) σ d.eom).sum

/-- What is needed of a curve and a field: the field is differentiable along the curve and contains no costates, and what it
contains apart from the states is constant. -/
structure FieldAlong (U : Name → Nat → ℝ → ℝ) (p p' : Prob) (f : List Expr) (a b : ℝ) (ρ : ℝ → Name → ℝ) : Prop where
  len : f.length = p.states.length
  lam : ∀ c ∈ f, ∀ s ∈ p.states, lamName s.name ∉ c.free
  still : ∀ c ∈ f, ∀ s ∈ c.free, s ∉ p.states.map Dyn.name → Moves a b ρ 0 s
  smooth : ∀ c ∈ f, ∀ t ∈ Set.Icc a b, Smooth U (ρ t) c
  rates : ∀ l ∈ p'.costates, ∀ t ∈ Set.Icc a b, Defined (real U) (ρ t) l.eom

/-! ### Lemmas -/

private theorem bind_ok' {α β : Type} {x : Py α} {f : α → Py β} {b : β} (h : (x >>= f) = .ok b) : ∃ a, x = .ok a ∧ f a = .ok b := by
  cases x with
  | error e => cases h
  | ok a => exact ⟨a, rfl, h⟩

private theorem hasDerivAt_listSum {α : Type} {F : α → ℝ → ℝ} {D : α → ℝ} {t : ℝ} : ∀ {l : List α}, (∀ x ∈ l, HasDerivAt (F x) (D x) t) →
    HasDerivAt (fun τ => (l.map fun x => F x τ).sum) (l.map D).sum t
  | [], _ => by simpa using hasDerivAt_const t (0 : ℝ)
  | x :: l, h => by
    simp only [List.map_cons, List.sum_cons]
    exact (h x (by simp)).add (hasDerivAt_listSum fun y hy => h y (by simp [hy]))

/-- The value of the quantity that `noether` returns: the costates times the field. -/
theorem noether_value {S : Sympy} (hL : LuStandard S) (hI : IntegrateFactor S) {names : List Name} {f : List Expr}
    (hlen : f.length = names.length) (hlam : ∀ c ∈ f, ∀ n ∈ names, lamName n ∉ c.free) {g : Expr}
    (h : noether S (standardForm names.length) (names ++ names.map lamName) (f ++ names.map fun _ => 0) = .ok g)
    (U : Name → Nat → ℝ → ℝ) (σ : Name → ℝ) :
    eval (real U) σ g = ((names.zip f).map fun nc => eval (real U) σ nc.2 * σ (lamName nc.1)).sum := by
  rw [noether] at h
  obtain ⟨x, hx, hgx⟩ := bind_ok' h
  clear h
  simp only [Except.ok.injEq] at hgx
  subst hgx
  rw [List.map_const', ] at hx
  obtain ⟨z, e, rfl, hz, h0, hf⟩ := hL _ _ _ hlen hx
  rw [eval_foldl_add (real U) σ (fun bx : Name × Expr => S.integrate bx.2 bx.1), List.zip_append hz.symm, List.map_append, List.sum_append]
  have e0 : ((names.zip z).map fun bx => eval (real U) σ (S.integrate bx.2 bx.1)).sum = 0 := by
    refine List.sum_eq_zero fun y hy => ?_
    obtain ⟨bx, hb, rfl⟩ := List.mem_map.1 hy
    obtain ⟨h1, h2⟩ := h0 _ (List.of_mem_zip hb).2
    rw [hI _ _ (by rw [h1]; simp), h2, zero_mul]
  rw [e0, eval_zero, zero_add, zero_add, List.zip_map_left, List.map_map]
  clear hx e0 h0 hz
  induction hf generalizing names with
  | nil => simp
  | @cons c e' f' e'' h1 hf ih =>
    cases names with
    | nil => simp at hlen
    | cons n names =>
      simp only [List.zip_cons_cons, List.map_cons, List.sum_cons, Function.comp_apply, Prod.map, id]
      rw [hI _ _ (fun hm => hlam c (by simp) n (by simp) (h1.1 _ hm)), h1.2]
      congr 1
      exact ih (by simpa using hlen) fun c hc n hn => hlam c (by simp [hc]) n (by simp [hn])

/-- A derivative of the Hamiltonian by something that is no costate. -/
theorem eval_ham_diff {p : Prob} {s : Name} (hs : ∀ d ∈ p.states, s ≠ lamName d.name) (U : Name → Nat → ℝ → ℝ) (σ : Name → ℝ) :
    eval (real U) σ ((hamiltonianOf p.costPath p.states).diff s) = eval (real U) σ (p.costPath.diff s) +
      (p.states.map fun d => σ (lamName d.name) * eval (real U) σ (d.eom.diff s)).sum := by
  rw [hamiltonianOf, diff_foldl_add (real U) σ s (fun d : Dyn => sym (lamName d.name) * d.eom)]
  congr 2
  refine List.map_congr_left fun d hd => ?_
  change eval (real U) σ ((sym (lamName d.name)).diff s) * _ + σ (lamName d.name) * _ = _
  rw [eval_diff_of_not_mem _ _ (by simpa [Expr.free] using hs d hd), zero_mul, zero_add]

/-- A costate follows minus the derivative of the Hamiltonian. -/
theorem costate_rate {S : Sympy} (hS : LuSound S) {p p' : Prob} (hs : p.sympified = true) (hc : p.costates = [])
    (hcp : p.coparameters = []) (hp : p.parameters = []) (h : dualize S .diffyg p = .ok p') {U : Name → Nat → ℝ → ℝ} {a b : ℝ}
    {ρ : ℝ → Name → ℝ} (hfol : Follows U p'.costates 1 a b ρ)
    (hd : ∀ l ∈ p'.costates, ∀ t ∈ Set.Icc a b, Defined (real U) (ρ t) l.eom) {s : Dyn} (hm : s ∈ p.states) {t : ℝ} (ht : t ∈ Set.Icc a b) :
    HasDerivAt (fun τ => ρ τ (lamName s.name)) (-eval (real U) (ρ t) ((hamiltonianOf p.costPath p.states).diff s.name)) t := by
  obtain ⟨hcn, -, hcr⟩ := diffyg_rates hS hs hc hcp h
  obtain ⟨i, hi, rfl⟩ := List.getElem_of_mem hm
  obtain ⟨l, hl, hrate⟩ := hcr i hi
  have hlm : l ∈ p'.costates := List.mem_of_getElem? hl
  have hlname : l.name = lamName (p.states[i]).name := by
    have := congrArg (fun L => L[i]?) hcn
    simp only [List.getElem?_map, hl, List.getElem?_eq_getElem hi] at this
    simpa using this
  have hnm : (p.states.map Dyn.name ++ p.parameters).getD (i + p.parameters.length) "" = (p.states[i]).name := by
    simp [hp, List.getD, List.getElem?_eq_getElem hi]
  have := hfol t ht l hlm
  rw [hlname, one_mul, hrate (real U) (ρ t) (hd l hlm t ht), hnm] at this
  exact this

/-! ### Properties -/

/-- `Dualize` by the symplectic method turns each symmetry `f` of the problem, constant or not, into the product of the costates
and the field, and this is its rate along every solution of the generated equations.

Missing from the full property: problems with dynamic parameters, for which the code raises. -/
theorem C53_field_partial {S : Sympy} (hS : LuSound S) (hL : LuStandard S) (hI : IntegrateFactor S) {p p' : Prob}
    (hs : p.sympified = true) (hc : p.costates = []) (hcp : p.coparameters = []) (hp : p.parameters = [])
    (hn : (p.states.map Dyn.name).Nodup) (h : dualize S .diffyg p = .ok p') {k : Nat} {f : List Expr} (hk : p.symmetries[k]? = some f)
    {U : Name → Nat → ℝ → ℝ} {a b : ℝ} {ρ : ℝ → Name → ℝ} (hf : FieldAlong U p p' f a b ρ)
    (hfol : Follows U (p'.states ++ p'.costates) 1 a b ρ) :
    ∃ g, ("com_" ++ toString k, g) ∈ p'.coms ∧
      (∀ σ, eval (real U) σ g = ((p.states.zip f).map fun sc => eval (real U) σ sc.2 * σ (lamName sc.1.name)).sum) ∧
      ∀ t ∈ Set.Icc a b, HasDerivAt (fun τ => eval (real U) (ρ τ) g)
        ((p.states.zip f).map fun sc => ρ t (lamName sc.1.name) *
            (p.states.map fun d => eval (real U) (ρ t) (sc.2.diff d.name) * eval (real U) (ρ t) d.eom).sum -
          eval (real U) (ρ t) sc.2 * eval (real U) (ρ t) ((hamiltonianOf p.costPath p.states).diff sc.1.name)).sum t := by
  obtain ⟨g, hg, hmem⟩ := dualize_coms hs hc hcp h hk
  simp only [hp, List.length_nil, add_zero] at hg
  have hval : ∀ σ, eval (real U) σ g = ((p.states.zip f).map fun sc => eval (real U) σ sc.2 * σ (lamName sc.1.name)).sum := by
    intro σ
    have := noether_value hL hI (names := p.states.map Dyn.name) (f := f) (by simp [hf.len]) (by
      intro c hc n hn
      obtain ⟨d, hd, rfl⟩ := List.mem_map.1 hn
      exact hf.lam c hc d hd) (by simpa using hg) U σ
    rw [this, List.zip_map_left, List.map_map]
    rfl
  refine ⟨g, hmem, hval, fun t ht => ?_⟩
  have hps : p'.states = p.states := by
    obtain ⟨chi, stars, -, q, hq, rfl⟩ := dualize_diffyg hs hc hcp h
    have := dualize_traditional S p hs hc hcp
    rw [hq] at this
    simp only [Except.ok.injEq] at this
    rw [this]
  have hst : Follows U p.states 1 a b ρ := fun t ht d hd => hfol t ht d (List.mem_append_left _ (by rw [hps]; exact hd))
  have hco : Follows U p'.costates 1 a b ρ := fun t ht d hd => hfol t ht d (List.mem_append_right _ hd)
  simp only [hval]
  refine hasDerivAt_listSum (F := fun (sc : Dyn × Expr) τ => eval (real U) (ρ τ) sc.2 * ρ τ (lamName sc.1.name)) fun sc hsc => ?_
  obtain ⟨h1, h2⟩ := List.of_mem_zip hsc
  have d1 := hst.deriv hn (e := sc.2) (hf.still sc.2 h2) ht (hf.smooth sc.2 h2 t ht)
  have d2 := costate_rate hS hs hc hcp hp h hco hf.rates h1 ht
  refine (d1.mul d2).congr_deriv ?_
  ring

/-- Noether's theorem for optimal control: if moving the states along `f` and the controls along some `v` changes neither cost
nor equations of motion, then the registered quantity, the costates times `f`, is constant along every solution of the
generated equations along which the Hamiltonian is stationary in the controls. -/
theorem C53_symmetry_partial {S : Sympy} (hS : LuSound S) (hL : LuStandard S) (hI : IntegrateFactor S) {p p' : Prob}
    (hs : p.sympified = true) (hc : p.costates = []) (hcp : p.coparameters = []) (hp : p.parameters = [])
    (hn : (p.states.map Dyn.name).Nodup) (hdis : ∀ d ∈ p.states, lamName d.name ∉ p.states.map Dyn.name ++ p.controls)
    (h : dualize S .diffyg p = .ok p') {k : Nat} {f : List Expr} (hk : p.symmetries[k]? = some f)
    {U : Name → Nat → ℝ → ℝ} {a b : ℝ} {ρ : ℝ → Name → ℝ} (hf : FieldAlong U p p' f a b ρ)
    (hfol : Follows U (p'.states ++ p'.costates) 1 a b ρ)
    (hu : ∀ t ∈ Set.Icc a b, ∀ u ∈ p.controls, eval (real U) (ρ t) ((hamiltonianOf p.costPath p.states).diff u) = 0)
    {v : ℝ → Name → ℝ} (hsym : ∀ t ∈ Set.Icc a b, SymmetryAt U p f (v t) (ρ t)) :
    ∃ g, ("com_" ++ toString k, g) ∈ p'.coms ∧
      (∀ σ, eval (real U) σ g = ((p.states.zip f).map fun sc => eval (real U) σ sc.2 * σ (lamName sc.1.name)).sum) ∧
      ∀ t ∈ Set.Icc a b, eval (real U) (ρ t) g = eval (real U) (ρ b) g := by
  obtain ⟨g, hg, hval, hd⟩ := C53_field_partial hS hL hI hs hc hcp hp hn h hk hf hfol
  refine ⟨g, hg, hval, eq_end_of_deriv_zero fun t ht => ?_⟩
  refine (hd t ht).congr_deriv ?_
  set σ := ρ t
  have hne : ∀ s ∈ p.states.map Dyn.name ++ p.controls, ∀ d ∈ p.states, s ≠ lamName d.name := by
    rintro s hm d hd rfl
    exact hdis d hd hm
  -- the derivative of the Hamiltonian along the field
  have hH : along U p f (v t) σ (hamiltonianOf p.costPath p.states) = along U p f (v t) σ p.costPath +
      (p.states.map fun d => σ (lamName d.name) * along U p f (v t) σ d.eom).sum := by
    have swap : ∀ {α : Type} (L : List α) (w : α → ℝ) (nm : α → Name) (D : List Dyn), (∀ x ∈ L, ∀ d ∈ p.states, nm x ≠ lamName d.name) →
        (L.map fun x => w x * eval (real U) σ ((hamiltonianOf p.costPath p.states).diff (nm x))).sum =
        (L.map fun x => w x * eval (real U) σ (p.costPath.diff (nm x))).sum +
          (p.states.map fun d => σ (lamName d.name) * (L.map fun x => w x * eval (real U) σ (d.eom.diff (nm x))).sum).sum := by
      intro α L w nm D hx
      induction L with
      | nil => simp
      | cons x L ih =>
        simp only [List.map_cons, List.sum_cons]
        rw [ih fun y hy => hx y (by simp [hy]), eval_ham_diff (hx x (by simp))]
        simp only [mul_add, List.sum_map_add]
        rw [← List.sum_map_mul_left]
        simp only [mul_left_comm]
        ring
    have e1 := swap (p.states.zip f) (fun sc => eval (real U) σ sc.2) (fun sc => sc.1.name) [] (fun sc hsc d hd =>
      hne _ (List.mem_append_left _ (List.mem_map_of_mem (List.of_mem_zip hsc).1)) d hd)
    have e2 := swap p.controls (v t) id [] (fun u hu d hd => hne _ (List.mem_append_right _ hu) d hd)
    simp only [id] at e2
    rw [along, e1, e2, along]
    simp only [along, mul_add, List.sum_map_add]
    ring
  have hctl : (p.controls.map fun u => v t u * eval (real U) σ ((hamiltonianOf p.costPath p.states).diff u)).sum = 0 := by
    refine List.sum_eq_zero fun y hy => ?_
    obtain ⟨u, hm, rfl⟩ := List.mem_map.1 hy
    rw [hu t ht u hm, mul_zero]
  rw [(hsym t ht).cost, zero_add, along, hctl, add_zero] at hH
  have hsub : ∀ {α : Type} (L : List α) (A B : α → ℝ), (L.map fun x => A x - B x).sum = (L.map A).sum - (L.map B).sum := by
    intro α L A B
    induction L with
    | nil => simp
    | cons x L ih => simp only [List.map_cons, List.sum_cons, ih]; ring
  rw [hsub, hH, sub_eq_zero]
  have hz : p.states = (p.states.zip f).map Prod.fst := by rw [List.map_fst_zip]; simp [hf.len]
  conv_rhs => rw [hz, List.map_map]
  congr 1
  refine List.map_congr_left fun sc hsc => ?_
  simp only [Function.comp_apply]
  rw [(hsym t ht).rates sc hsc]

/-! ### An instance -/

/-- A `LUsolve` that recognises the standard form. -/
def standardLu (M : List (List Expr)) (b : List Expr) : Py (List Expr) :=
  if M = standardForm (b.length / 2) ∧ 2 * (b.length / 2) = b.length then
    .ok ((b.drop (b.length / 2)).map (fun e => -e) ++ b.take (b.length / 2))
  else cramerLu M b

/-- A sympy as assumed. -/
def exSympyF : Sympy := ⟨fun _ _ => [], standardLu, fun e x => e * sym x⟩

private theorem luSound_standard : LuSound exSympyF where
  length M b x hx := by
    change standardLu M b = .ok x at hx
    rw [standardLu] at hx
    by_cases hc : M = standardForm (b.length / 2) ∧ 2 * (b.length / 2) = b.length
    · rw [if_pos hc] at hx
      cases hx
      rw [hc.1]
      simp [standardForm]
      omega
    · rw [if_neg hc] at hx
      exact (luSound_cramer { exSympyF with lu := cramerLu } rfl).length M b x hx
  solves M b x hx K _ I ρ i hi hd := by
    change standardLu M b = .ok x at hx
    rw [standardLu] at hx
    by_cases hc : M = standardForm (b.length / 2) ∧ 2 * (b.length / 2) = b.length
    · rw [if_pos hc] at hx
      cases hx
      obtain ⟨h1, h2⟩ := hc
      generalize hn : b.length / 2 = n at h1 h2
      have hM : M.length = 2 * n := by rw [h1]; simp [standardForm]
      rw [hM] at hi ⊢
      rw [h1]
      by_cases hl : i < n
      · rw [sum_standard_upper I ρ n i hl fun j => eval I ρ ((List.map (fun e => -e) (b.drop n) ++ b.take n).getD j 0)]
        congr 1
        rw [List.getD, List.getD, List.getElem?_append_right (by simp; omega)]
        simp [hl, show i + n - (b.length - n) = i by omega]
      · obtain ⟨k, rfl⟩ : ∃ k, i = k + n := ⟨i - n, by omega⟩
        rw [sum_standard_lower I ρ n k (by omega) fun j => eval I ρ ((List.map (fun e => -e) (b.drop n) ++ b.take n).getD j 0)]
        rw [List.getD, List.getD, List.getElem?_append_left (by simp; omega)]
        have hk : n + k < b.length := by omega
        simp only [List.getElem?_map, List.getElem?_drop, List.getElem?_eq_getElem hk, Option.map_some, Option.getD_some,
          Nat.add_comm k n, eval_neg, neg_neg]
    · rw [if_neg hc] at hx
      exact (luSound_cramer { exSympyF with lu := cramerLu } rfl).solves M b x hx I ρ i hi hd

private theorem luStandard_standard : LuStandard exSympyF := by
  intro n f x hf hx
  change standardLu _ _ = _ at hx
  have hl : (f ++ List.replicate n (0 : Expr)).length / 2 = n := by simp [hf]; omega
  rw [standardLu, hl, if_pos ⟨rfl, by simp [hf]; omega⟩] at hx
  cases hx
  refine ⟨List.replicate n (-(0 : Expr)), f, by simp [← hf], by simp, ?_, ?_⟩
  · intro e he
    obtain ⟨-, rfl⟩ := List.mem_replicate.1 he
    exact ⟨by decide, fun U ρ => by rw [eval_neg, eval_zero, neg_zero]⟩
  · exact List.forall₂_same.2 fun c _ => ⟨fun s hs => hs, fun U ρ => rfl⟩

private theorem integrateFactor_standard : IntegrateFactor exSympyF := fun _ _ _ _ _ => rfl

/-- Shortest paths in the plane, which may be turned around the origin. -/
def exTurn : Prob where
  ind := "t"
  states := [⟨"x", sym "u"⟩, ⟨"y", sym "w"⟩]
  controls := ["u", "w"]
  costPath := sym "u" * sym "u" + sym "w" * sym "w"
  symmetries := [[num (-1) * sym "y", sym "x"]]
  sympified := true

/-- The straight line `y = 3`. -/
def exTurnLine (t : ℝ) (s : Name) : ℝ :=
  if s = "x" then t else if s = "y" then 3 else if s = "u" then 1 else if s = "_lam_x" then -2 else 0

-- the registered quantity is the angular momentum, here 6
example : ∃ p' g, dualize exSympyF .diffyg exTurn = .ok p' ∧ ("com_0", g) ∈ p'.coms ∧
    (∀ σ, eval (real fun _ _ _ => 0) σ g = -σ "y" * σ "_lam_x" + σ "x" * σ "_lam_y") ∧
    ∀ t ∈ Set.Icc (0 : ℝ) 1, eval (real fun _ _ _ => 0) (exTurnLine t) g = 6 := by
  let p' : Prob := match dualize exSympyF .diffyg exTurn with
    | .ok p => p
    | .error _ => {}
  have hok : dualize exSympyF .diffyg exTurn = .ok p' := by
    have : (dualize exSympyF .diffyg exTurn).isOk = true := by decide +kernel
    simp only [p']
    cases h : dualize exSympyF .diffyg exTurn with
    | ok q => rfl
    | error e => rw [h] at this; cases this
  have hst : p'.states = exTurn.states := by decide +kernel
  have hco : p'.costates = [⟨"_lam_x", -((hamiltonianOf exTurn.costPath exTurn.states).diff "x")⟩,
      ⟨"_lam_y", -((hamiltonianOf exTurn.costPath exTurn.states).diff "y")⟩] := by decide +kernel
  have hham : hamiltonianOf exTurn.costPath exTurn.states = sym "u" * sym "u" + sym "w" * sym "w" + sym "_lam_x" * sym "u" +
      sym "_lam_y" * sym "w" := by decide +kernel
  obtain ⟨g, hg, hval, hcon⟩ := C53_symmetry_partial luSound_standard luStandard_standard integrateFactor_standard (p := exTurn) (p' := p')
    rfl rfl rfl rfl (by decide) (by decide) hok (k := 0) (f := [num (-1) * sym "y", sym "x"]) rfl (U := fun _ _ _ => 0) (a := 0) (b := 1)
    (ρ := exTurnLine) ⟨rfl, by decide, by
      intro c hc s hs hn
      exact absurd hs (by revert s; revert c; decide), by
      intro c hc t _
      simp only [List.mem_cons, List.not_mem_nil, or_false] at hc
      rcases hc with rfl | rfl
      · exact ⟨trivial, trivial⟩
      · trivial, by
      intro l hl t _
      rw [hco, hham] at hl
      simp only [List.mem_cons, List.not_mem_nil, or_false] at hl
      rcases hl with rfl | rfl <;> simp [Expr.diff, Defined]⟩ (by
      intro t _ d hd
      rw [hst, hco, hham] at hd
      simp only [exTurn, List.cons_append, List.nil_append, List.mem_cons, List.not_mem_nil, or_false] at hd
      rcases hd with rfl | rfl | rfl | rfl
      · simpa [exTurnLine, eval] using hasDerivAt_id' t
      · simpa [exTurnLine, eval] using hasDerivAt_const t (3 : ℝ)
      · rw [eval_neg, eval_diff_of_not_mem _ _ (by decide)]
        simpa [exTurnLine, eval] using hasDerivAt_const t (-2 : ℝ)
      · rw [eval_neg, eval_diff_of_not_mem _ _ (by decide)]
        simpa [exTurnLine, eval] using hasDerivAt_const t (0 : ℝ)) (by
      intro t _ u hu
      simp only [exTurn, List.mem_cons, List.not_mem_nil, or_false] at hu
      rw [hham]
      rcases hu with rfl | rfl
      · simp [Expr.diff, exTurnLine, eval]
        norm_num
      · simp [Expr.diff, exTurnLine, eval]) (v := fun t s => if s = "w" then 1 else 0) (by
      intro t _
      constructor
      · simp [along, exTurn, Expr.diff, exTurnLine, eval]
      · intro sc hsc
        simp only [exTurn, List.zip_cons_cons, List.zip_nil_right, List.mem_cons, List.not_mem_nil, or_false] at hsc
        rcases hsc with rfl | rfl
        · simp [along, exTurn, Expr.diff, exTurnLine, eval]
        · simp [along, exTurn, Expr.diff, exTurnLine, eval])
  refine ⟨p', g, hok, hg, fun σ => ?_, fun t ht => ?_⟩
  · rw [hval]
    simp [exTurn, eval, lamName]
  · rw [hcon t ht, hval]
    simp [exTurn, exTurnLine, eval, lamName]
    norm_num

end Beluga.Sym
