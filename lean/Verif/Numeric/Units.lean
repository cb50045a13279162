import Verif.Numeric.Props3
import Verif.Numeric.Props1
import Verif.Symbolic.Follow

/-! # Autoscaling does not change a dimensionally consistent problem (C18) -/

set_option linter.unusedSectionVars false

namespace Beluga.Num

open Beluga.Sym Beluga.Sym.Expr Beluga.Map

/-- Two unit expressions are the same unit: they have the same size whatever sizes the basic units have. -/
def SameUnit (U : Name → Nat → ℝ → ℝ) (d d' : Expr) : Prop :=
  ∀ φ : Name → ℝ, (∀ s, 0 < φ s) → eval (real U) φ d = eval (real U) φ d'

/-- `d` is a unit: it has a positive size whatever positive sizes the basic units have. -/
def IsUnit (U : Name → Nat → ℝ → ℝ) (d : Expr) : Prop := ∀ φ : Name → ℝ, (∀ s, 0 < φ s) → 0 < eval (real U) φ d

/-- `Dim U Γ e d`: by the usual rules of dimensional analysis, `e` has the unit `d` if every symbol `s` has the unit
`Γ s`.  Pure numbers are dimensionless, zero has every unit, only equal units are added, and functions other than the
square root take dimensionless arguments to dimensionless results. -/
inductive Dim (U : Name → Nat → ℝ → ℝ) (Γ : Name → Expr) : Expr → Expr → Prop
  | num (q : ℚ) : Dim U Γ (num q) 1
  | pi : Dim U Γ pi 1
  | zero {d : Expr} : IsUnit U d → Dim U Γ 0 d
  | sym (s : Name) : Dim U Γ (sym s) (Γ s)
  | add {a b d : Expr} : Dim U Γ a d → Dim U Γ b d → Dim U Γ (a + b) d
  | mul {a b d d' : Expr} : Dim U Γ a d → Dim U Γ b d' → Dim U Γ (a * b) (d * d')
  | inv {a d : Expr} : Dim U Γ a d → Dim U Γ (inv a) (inv d)
  | pow {a d : Expr} (n : Nat) : Dim U Γ a d → Dim U Γ (pow a n) (pow d n)
  | sqrt {a d : Expr} : Dim U Γ a d → Dim U Γ (fn .sqrt a) (fn .sqrt d)
  | fn {a : Expr} (f : Fn) : Dim U Γ a 1 → Dim U Γ (fn f a) 1
  | conv {a d d' : Expr} : Dim U Γ a d → SameUnit U d d' → Dim U Γ a d'

section
variable {U : Name → Nat → ℝ → ℝ} {Γ : Name → Expr}

/-- Positive sizes of the basic units, and every declared unit is a unit. -/
structure Sizes (U : Name → Nat → ℝ → ℝ) (Γ : Name → Expr) (φ : Name → ℝ) : Prop where
  pos : ∀ s, 0 < φ s
  unit : ∀ s, IsUnit U (Γ s)

/-- The scaled point: every symbol divided by the size of its unit. -/
noncomputable def scaled (U : Name → Nat → ℝ → ℝ) (Γ : Name → Expr) (φ ρ : Name → ℝ) (s : Name) : ℝ :=
  ρ s / eval (real U) φ (Γ s)

theorem eval_one' {K : Type} [Field K] [CharZero K] (I : Interp K) (ρ : Name → K) : eval I ρ (1 : Expr) = 1 := by
  change (((1 : ℚ)) : K) = 1
  simp

theorem eval_zero' {K : Type} [Field K] [CharZero K] (I : Interp K) (ρ : Name → K) : eval I ρ (0 : Expr) = 0 := by
  change (((0 : ℚ)) : K) = 0
  simp

theorem dim_aux {φ : Name → ℝ} (hφ : Sizes U Γ φ) (ρ : Name → ℝ) {e d : Expr} (h : Dim U Γ e d) :
    0 < eval (real U) φ d ∧ eval (real U) (scaled U Γ φ ρ) e = eval (real U) ρ e / eval (real U) φ d := by
  induction h with
  | num q => rw [eval_one', div_one]; exact ⟨one_pos, rfl⟩
  | pi => rw [eval_one', div_one]; exact ⟨one_pos, rfl⟩
  | zero hd => exact ⟨hd φ hφ.pos, by rw [eval_zero', eval_zero', zero_div]⟩
  | sym s => exact ⟨hφ.unit s φ hφ.pos, rfl⟩
  | add _ _ iha ihb =>
    refine ⟨iha.1, ?_⟩
    rw [eval_add, eval_add, iha.2, ihb.2, add_div]
  | mul _ _ iha ihb =>
    refine ⟨mul_pos iha.1 ihb.1, ?_⟩
    rw [eval_mul, eval_mul, eval_mul, iha.2, ihb.2, div_mul_div_comm]
  | inv _ ih =>
    refine ⟨inv_pos.2 ih.1, ?_⟩
    simp only [eval]
    rw [ih.2, inv_div_inv, inv_div]
  | pow n _ ih =>
    refine ⟨pow_pos ih.1 n, ?_⟩
    simp only [eval]
    rw [ih.2, div_pow]
  | sqrt _ ih =>
    refine ⟨Real.sqrt_pos.2 ih.1, ?_⟩
    change Real.sqrt _ = Real.sqrt _ / Real.sqrt _
    rw [ih.2, Real.sqrt_div' _ ih.1.le]
  | fn f _ ih =>
    refine ⟨ih.1, ?_⟩
    rw [eval_one', div_one] at ih ⊢
    simp only [eval]
    rw [ih.2]
  | conv _ hs ih =>
    rw [← hs φ hφ.pos]
    exact ih

/-- **C18.**  An expression of unit `d` evaluated at the scaled point has the value at the original point divided by the
size of `d`. -/
theorem C18_expression {φ : Name → ℝ} (hφ : Sizes U Γ φ) (ρ : Name → ℝ) {e d : Expr} (h : Dim U Γ e d) :
    eval (real U) (scaled U Γ φ ρ) e = eval (real U) ρ e / eval (real U) φ d := (dim_aux hφ ρ h).2

/-- **C18.**  A condition of any unit holds at the scaled point exactly if it holds at the original one. -/
theorem C18_condition {φ : Name → ℝ} (hφ : Sizes U Γ φ) (ρ : Name → ℝ) {cs : List Con}
    (h : ∀ c ∈ cs, ∃ d, Dim U Γ c.expr d) : Holds U (scaled U Γ φ ρ) cs ↔ Holds U ρ cs := by
  have : ∀ c ∈ cs, (eval (real U) (scaled U Γ φ ρ) c.expr = 0 ↔ eval (real U) ρ c.expr = 0) := by
    intro c hc
    obtain ⟨d, hd⟩ := h c hc
    have hd := dim_aux hφ ρ hd
    rw [hd.2, div_eq_zero_iff]
    exact ⟨fun h => h.resolve_right hd.1.ne', Or.inl⟩
  exact ⟨fun h c hc => (this c hc).1 (h c hc), fun h c hc => (this c hc).2 (h c hc)⟩

/-- **C18.**  A curve follows the equations exactly if the scaled curve, in scaled time, follows the same equations. -/
theorem C18_follow_partial {φ : Name → ℝ} (hφ : Sizes U Γ φ) {ind : Name} {dyn : List Dyn}
    (hd : ∀ d ∈ dyn, Dim U Γ d.eom (Γ d.name / Γ ind)) (a b : ℝ) (ρ : ℝ → Name → ℝ) :
    Follows U dyn 1 (a / eval (real U) φ (Γ ind)) (b / eval (real U) φ (Γ ind))
      (fun τ => scaled U Γ φ (ρ (τ * eval (real U) φ (Γ ind)))) ↔ Follows U dyn 1 a b ρ := by
  have hT : 0 < eval (real U) φ (Γ ind) := hφ.unit ind φ hφ.pos
  set T := eval (real U) φ (Γ ind) with hTdef
  have hdim : ∀ d ∈ dyn, ∀ t, eval (real U) (scaled U Γ φ (ρ t)) d.eom =
      eval (real U) (ρ t) d.eom / eval (real U) φ (Γ d.name) * T := by
    intro d hm t
    rw [C18_expression hφ (ρ t) (hd d hm)]
    change _ / (_ * _⁻¹) = _
    rw [← hTdef, ← div_eq_mul_inv, div_div_eq_mul_div, div_mul_eq_mul_div]
  constructor
  · intro h t ht d hm
    have hN : 0 < eval (real U) φ (Γ d.name) := hφ.unit d.name φ hφ.pos
    have h1 := h (t / T) ⟨div_le_div_of_nonneg_right ht.1 hT.le, div_le_div_of_nonneg_right ht.2 hT.le⟩ d hm
    beta_reduce at h1
    rw [div_mul_cancel₀ _ hT.ne', hdim d hm, one_mul] at h1
    have h2 := (h1.comp t ((hasDerivAt_id t).div_const T)).mul_const (eval (real U) φ (Γ d.name))
    refine (h2.congr_deriv ?_).congr_of_eventuallyEq ?_
    · field_simp
    · refine Filter.Eventually.of_forall fun τ => ?_
      simp only [Function.comp, id, scaled]
      rw [div_mul_cancel₀ _ hT.ne', div_mul_cancel₀ _ hN.ne']
  · intro h τ hτ d hm
    have h1 := h (τ * T) ⟨(div_le_iff₀ hT).1 hτ.1, (le_div_iff₀ hT).1 hτ.2⟩ d hm
    rw [hdim d hm, one_mul]
    rw [one_mul] at h1
    have h2 := (h1.comp τ ((hasDerivAt_id τ).mul_const T)).div_const (eval (real U) φ (Γ d.name))
    refine (h2.congr_deriv ?_).congr_of_eventuallyEq (Filter.Eventually.of_forall fun x => rfl)
    ring

/-! ### The compiled functions -/

theorem selectGo_lt {K V : Type} [LinearOrder K] {f g : V → Option K} : ∀ (l : List V) (u : V),
    (∀ v ∈ u :: l, ∀ w ∈ u :: l, ltNan (f v) (f w) = ltNan (g v) (g w)) →
    selectGo f l u (f u) = selectGo g l u (g u)
  | [], _, _ => rfl
  | v :: l, u, h => by
    rw [selectGo, selectGo, h v (by simp) u (by simp)]
    split
    · exact selectGo_lt l v fun a ha b hb => h a (List.mem_cons_of_mem _ ha) b (List.mem_cons_of_mem _ hb)
    · refine selectGo_lt l u fun a ha b hb => h a ?_ b ?_
      · rcases List.mem_cons.1 ha with rfl | ha <;> simp [*]
      · rcases List.mem_cons.1 hb with rfl | hb <;> simp [*]

theorem select_lt {K V : Type} [LinearOrder K] {f g : V → Option K} : ∀ (l : List V),
    (∀ v ∈ l, ∀ w ∈ l, ltNan (f v) (f w) = ltNan (g v) (g w)) → select f l = select g l
  | [], _ => rfl
  | [_], _ => rfl
  | u :: v :: l, h => by rw [select, select, selectGo_lt _ _ h]

theorem select_mem {K V : Type} [LinearOrder K] (f : V → Option K) : ∀ (l : List V) {u : V}, select f l = some u → u ∈ l := by
  have go : ∀ (l : List V) (u : V) (h : Option K), selectGo f l u h ∈ u :: l := by
    intro l
    induction l with
    | nil => intro u h; simp [selectGo]
    | cons v l ih =>
      intro u h
      rw [selectGo]
      split
      · exact List.mem_cons_of_mem _ (ih v _)
      · rcases List.mem_cons.1 (ih u h) with h' | h'
        · rw [h']; simp
        · exact List.mem_cons_of_mem _ (List.mem_cons_of_mem _ h')
  intro l u h
  match l, h with
  | [v], h => cases h; simp
  | v :: w :: l, h => cases h; exact go _ _ _

/-- Sizes of the units of a list of components. -/
noncomputable def sizes (U : Name → Nat → ℝ → ℝ) (Γ : Name → Expr) (φ : Name → ℝ) (ns : List Name) : List ℝ :=
  ns.map fun s => eval (real U) φ (Γ s)

theorem map_scaled (φ ρ : Name → ℝ) (ns : List Name) :
    ns.map (scaled U Γ φ ρ) = List.zipWith (· / ·) (ns.map ρ) (sizes U Γ φ ns) := by
  induction ns with
  | nil => rfl
  | cons s ns ih => rw [List.map_cons, ih]; rfl

/-- Units of the control options and of the Hamiltonian. -/
structure ControlDim (U : Name → Nat → ℝ → ℝ) (Γ : Name → Expr) (p : Prob) (H : Expr) : Prop where
  law : ∀ o ∈ p.controlLaw, List.Forall₂ (fun e s => Dim U Γ e (Γ s)) o p.controls
  ham : ∃ d, Dim U Γ H d

theorem zip_div_mul : ∀ {u f : List ℝ}, u.length = f.length → (∀ x ∈ f, 0 < x) →
    List.zipWith (· * ·) (List.zipWith (· / ·) u f) f = u
  | [], [], _, _ => rfl
  | x :: u, y :: f, h, hp => by
    have hy : y ≠ 0 := (hp y (List.mem_cons_self ..)).ne'
    simp only [List.zipWith_cons_cons]
    rw [div_mul_cancel₀ _ hy, zip_div_mul (by simpa using h) fun z hz => hp z (List.mem_cons_of_mem _ hz)]
  | [], _ :: _, h, _ => by simp at h
  | _ :: _, [], h, _ => by simp at h

theorem zip_mul_div : ∀ {u f : List ℝ}, u.length = f.length → (∀ x ∈ f, 0 < x) →
    List.zipWith (· / ·) (List.zipWith (· * ·) u f) f = u
  | [], [], _, _ => rfl
  | x :: u, y :: f, h, hp => by
    have hy : y ≠ 0 := (hp y (List.mem_cons_self ..)).ne'
    simp only [List.zipWith_cons_cons]
    rw [mul_div_cancel_right₀ _ hy, zip_mul_div (by simpa using h) fun z hz => hp z (List.mem_cons_of_mem _ hz)]
  | [], _ :: _, h, _ => by simp at h
  | _ :: _, [], h, _ => by simp at h

theorem sizes_pos {φ : Name → ℝ} (hφ : Sizes U Γ φ) (ns : List Name) : ∀ x ∈ sizes U Γ φ ns, 0 < x := by
  intro x hx
  obtain ⟨s, -, rfl⟩ := List.mem_map.1 hx
  exact hφ.unit s φ hφ.pos

/-- **C18.**  The compiled control at the scaled point is the scaled compiled control: the same option is chosen. -/
theorem C18_control {φ : Name → ℝ} (hφ : Sizes U Γ φ) {p : Prob} (hp : ControlClosed p) {H : Expr}
    (hH : p.hamiltonian = some H) (hd : ControlDim U Γ p H) {ρ : Name → ℝ} {σ : List ℝ → Name → ℝ} (hσ : Family p ρ σ) :
    ∃ u, computeU (real U) p ((sts p).map ρ) (p.parameters.map ρ) (p.constants.map ρ) = .ok u ∧
      computeU (real U) p ((sts p).map (scaled U Γ φ ρ)) (p.parameters.map (scaled U Γ φ ρ)) (p.constants.map (scaled U Γ φ ρ)) =
        .ok (u.map fun u => List.zipWith (· / ·) u (sizes U Γ φ p.controls)) := by
  refine ⟨_, computeU_ok (real U) hp hH hσ, ?_⟩
  have hlen : (sizes U Γ φ p.controls).length = p.controls.length := by simp [sizes]
  set σ' : List ℝ → Name → ℝ := fun u => scaled U Γ φ (σ (List.zipWith (· * ·) u (sizes U Γ φ p.controls))) with hσ'
  have hfam : Family p (scaled U Γ φ ρ) σ' := by
    refine ⟨fun u hu => ?_, fun u s hs => ?_⟩
    · rw [hσ', map_scaled, hσ.control _ (by simp [hu, hlen]), zip_mul_div (by rw [hu, hlen]) (sizes_pos hφ _)]
    · simp only [hσ', scaled]
      rw [hσ.rest _ s hs]
  rw [computeU_ok (real U) hp hH hfam]
  congr 1
  have hopt : (p.controlLaw.map fun o => o.map (eval (real U) (scaled U Γ φ ρ))) =
      (p.controlLaw.map fun o => o.map (eval (real U) ρ)).map
        fun u => List.zipWith (· / ·) u (sizes U Γ φ p.controls) := by
    rw [List.map_map]
    refine List.map_congr_left fun o ho => ?_
    have := hd.law o ho
    clear ho
    simp only [Function.comp, sizes]
    generalize p.controls = cs at this
    induction this with
    | nil => rfl
    | cons h _ ih => rw [List.map_cons, ih, C18_expression hφ ρ h]; rfl
  rw [hopt, select_map]
  congr 1
  refine select_lt _ fun v hv w hw => ?_
  obtain ⟨dH, hdH⟩ := hd.ham
  have hval : ∀ v ∈ p.controlLaw.map (fun o => o.map (eval (real U) ρ)),
      eval (real U) (σ' (List.zipWith (· / ·) v (sizes U Γ φ p.controls))) H =
        eval (real U) (σ v) H / eval (real U) φ dH := by
    intro v hv
    obtain ⟨o, ho, rfl⟩ := List.mem_map.1 hv
    rw [hσ', C18_expression hφ _ hdH, zip_div_mul (by rw [List.length_map, hlen]; exact hp.size o ho) (sizes_pos hφ _)]
  rw [hval v hv, hval w hw]
  simp only [ltNan]
  congr 1
  rw [div_lt_div_iff_of_pos_right (dim_aux hφ ρ hdH).1]

/-- The hypotheses on the control, for problems with and without a control law. -/
def ControlOk (U : Name → Nat → ℝ → ℝ) (Γ : Name → Expr) (p : Prob) (ρ : Name → ℝ) : Prop :=
  p.controlLaw = [] ∨ ∃ H σ, ControlClosed p ∧ p.hamiltonian = some H ∧ ControlDim U Γ p H ∧ Family p ρ σ

theorem at_scaled {φ : Name → ℝ} (hφ : Sizes U Γ φ) {p : Prob} {ρ : Name → ℝ} (hc : ControlOk U Γ p ρ) {y pr k : List ℝ}
    (h : At (real U) p ρ y pr k) :
    At (real U) p (scaled U Γ φ ρ) ((sts p).map (scaled U Γ φ ρ)) (p.parameters.map (scaled U Γ φ ρ))
      (p.constants.map (scaled U Γ φ ρ)) := by
  refine ⟨map_sts _ _, rfl, rfl, ?_⟩
  rcases hc with h0 | ⟨H, σ, h1, h2, h3, h4⟩
  · left
    refine ⟨?_, h0⟩
    rw [computeU, h0]
  · obtain ⟨u, hu1, hu2⟩ := C18_control hφ h1 h2 h3 h4
    have hu := h.control
    rw [← h.sts, ← h.pars, ← h.consts, hu1] at hu
    rcases hu with ⟨hn, hl⟩ | hs
    · cases hn; exact Or.inl ⟨hu2, hl⟩
    · cases hs
      right
      rw [hu2, map_scaled]
      rfl

theorem div_zip_map {α : Type} (l : List α) (f g : α → ℝ) :
    l.map (fun x => f x / g x) = List.zipWith (· / ·) (l.map f) (l.map g) := by
  induction l with
  | nil => rfl
  | cons x l ih => rw [List.map_cons, ih]; rfl

/-- **C18.**  The compiled derivative function called with scaled states, parameters and constants returns the scaled
derivatives: each rate divided by the size of (unit of the state / unit of the independent variable). -/
theorem C18_derivative {φ : Name → ℝ} (hφ : Sizes U Γ φ) {p : Prob} {ρ : Name → ℝ} (hc : ControlOk U Γ p ρ) {y pr k : List ℝ}
    (h : At (real U) p ρ y pr k) (hs : ∀ d ∈ p.states, Closed p [] d.eom)
    (hd : ∀ d ∈ p.states, Dim U Γ d.eom (Γ d.name / Γ p.ind)) :
    ∃ r, derivFunc (real U) p y pr k = .ok r ∧
      derivFunc (real U) p (List.zipWith (· / ·) y (sizes U Γ φ (sts p))) (List.zipWith (· / ·) pr (sizes U Γ φ p.parameters))
        (List.zipWith (· / ·) k (sizes U Γ φ p.constants)) =
        .ok (List.zipWith (· / ·) r ((sizes U Γ φ (sts p)).map fun f => f / eval (real U) φ (Γ p.ind))) := by
  have h' := at_scaled hφ hc h
  rw [map_scaled, map_scaled, map_scaled, h.sts, h.pars, h.consts] at h'
  refine ⟨p.states.map fun d => eval (real U) ρ d.eom, ?_, ?_⟩
  · rw [derivFunc, atPoint_ok (real U) h (by simpa using hs), List.map_map]
    rfl
  · rw [derivFunc, atPoint_ok (real U) h' (by simpa using hs), List.map_map]
    congr 1
    have : (sizes U Γ φ (sts p)).map (fun f => f / eval (real U) φ (Γ p.ind)) =
        p.states.map fun d => eval (real U) φ (Γ d.name / Γ p.ind) := by
      simp only [sizes, sts, List.map_map]
      refine List.map_congr_left fun d _ => ?_
      simp only [Function.comp, div_eq_mul_inv]
      rfl
    rw [this, ← div_zip_map]
    refine List.map_congr_left fun d hm => ?_
    simp only [Function.comp]
    exact C18_expression hφ ρ (hd d hm)

/-- **C18.**  The compiled boundary function called with scaled arguments vanishes exactly if it vanishes for the original
ones (each residual is divided by the size of its unit). -/
theorem C18_boundary {φ : Name → ℝ} (hφ : Sizes U Γ φ) {p : Prob} {ρ σ : Name → ℝ} (hcρ : ControlOk U Γ p ρ)
    (hcσ : ControlOk U Γ p σ) {y0 q0 yf qf pr pc k : List ℝ} (h0 : At (real U) p ρ y0 pr k)
    (hf : At (real U) p σ yf pr k) (hq0 : (qds p).map ρ = q0) (hqf : (qds p).map σ = qf)
    (hpc0 : p.constraintParams.map ρ = pc) (hpcf : p.constraintParams.map σ = pc)
    (hi : ∀ c ∈ p.initial, Closed p (qds p ++ p.constraintParams) c.expr ∧ ∃ d, Dim U Γ c.expr d)
    (ht : ∀ c ∈ p.terminal, Closed p (qds p ++ p.constraintParams) c.expr ∧ ∃ d, Dim U Γ c.expr d) :
    ∃ r r', bcFunc (real U) p y0 q0 yf qf pr pc k = .ok r ∧
      bcFunc (real U) p (List.zipWith (· / ·) y0 (sizes U Γ φ (sts p))) (List.zipWith (· / ·) q0 (sizes U Γ φ (qds p)))
        (List.zipWith (· / ·) yf (sizes U Γ φ (sts p))) (List.zipWith (· / ·) qf (sizes U Γ φ (qds p)))
        (List.zipWith (· / ·) pr (sizes U Γ φ p.parameters)) (List.zipWith (· / ·) pc (sizes U Γ φ p.constraintParams))
        (List.zipWith (· / ·) k (sizes U Γ φ p.constants)) = .ok r' ∧
      List.Forall₂ (fun x x' => ∃ d, 0 < d ∧ x' = x / d) r r' ∧ ((∀ x ∈ r', x = 0) ↔ ∀ x ∈ r, x = 0) := by
  have h0' := at_scaled hφ hcρ h0
  have hf' := at_scaled hφ hcσ hf
  rw [map_scaled, map_scaled, map_scaled, h0.sts, h0.pars, h0.consts] at h0'
  rw [map_scaled, map_scaled, map_scaled, hf.sts, hf.pars, hf.consts] at hf'
  have hall : List.Forall₂ (fun x x' : ℝ => ∃ d, 0 < d ∧ x' = x / d)
      ((p.initial.map fun c => eval (real U) ρ c.expr) ++ p.terminal.map fun c => eval (real U) σ c.expr)
      ((p.initial.map fun c => eval (real U) (scaled U Γ φ ρ) c.expr) ++
        p.terminal.map fun c => eval (real U) (scaled U Γ φ σ) c.expr) := by
    have : ∀ (τ : Name → ℝ) (cs : List Con), (∀ c ∈ cs, ∃ d, Dim U Γ c.expr d) →
        List.Forall₂ (fun x x' : ℝ => ∃ d, 0 < d ∧ x' = x / d) (cs.map fun c => eval (real U) τ c.expr)
          (cs.map fun c => eval (real U) (scaled U Γ φ τ) c.expr) := by
      intro τ cs h
      induction cs with
      | nil => exact .nil
      | cons c cs ih =>
        obtain ⟨d, hd⟩ := h c (List.mem_cons_self ..)
        have := dim_aux hφ τ hd
        exact .cons ⟨_, this.1, this.2⟩ (ih fun c hc => h c (List.mem_cons_of_mem _ hc))
    exact List.rel_append (this ρ _ fun c hc => (hi c hc).2) (this σ _ fun c hc => (ht c hc).2)
  refine ⟨_, _, C56_boundary (real U) h0 hf (fun _ => hq0) (fun _ => hqf) hpc0 hpcf (fun c hc => (hi c hc).1)
      (fun c hc => (ht c hc).1), C56_boundary (real U) h0' hf' (fun _ => by rw [map_scaled, hq0]) (fun _ => by rw [map_scaled, hqf])
      (by rw [map_scaled, hpc0]) (by rw [map_scaled, hpcf]) (fun c hc => (hi c hc).1) (fun c hc => (ht c hc).1), hall, ?_⟩
  generalize (p.initial.map fun c => eval (real U) ρ c.expr) ++ p.terminal.map (fun c => eval (real U) σ c.expr) = r at hall
  generalize (p.initial.map fun c => eval (real U) (scaled U Γ φ ρ) c.expr) ++
    p.terminal.map (fun c => eval (real U) (scaled U Γ φ σ) c.expr) = r' at hall
  induction hall with
  | nil => simp
  | cons hx _ ih =>
    obtain ⟨d, hd, rfl⟩ := hx
    simp only [List.mem_cons, forall_eq_or_imp, ih, div_eq_zero_iff, hd.ne', or_false]

/-- **C18.**  The factors that are computed for a guess are the sizes of the declared units, for one common choice `φ` of
sizes of the basic units: the size of a basic unit is the value of its defining expression at the largest magnitudes `m`
that occur in the guess. -/
theorem C18_factors {p : Prob} {un : Units} {Γ : Name → Expr} {x : ℝ} {rest : List ℝ} {y q : Arr ℝ}
    {dyn nondyn const : List ℝ} {m φ : Name → ℝ} (ht : m p.ind = maxAbs x rest) (hy : (sts p).map m = maxMag y)
    (hq : (qds p).map m = maxMag q) (hd : p.parameters.map m = dyn.map abs)
    (hn : p.constraintParams.map m = nondyn.map abs) (hk : p.constants.map m = const.map abs)
    (hφ : ∀ d ∈ un.defs, φ d.1 = eval (real U) m d.2)
    (hdef : ∀ d ∈ un.defs, ∀ s ∈ d.2.free,
      s = p.ind ∨ s ∈ sts p ∨ s ∈ qds p ∨ s ∈ p.parameters ∨ s ∈ p.constraintParams ∨ s ∈ p.constants)
    (hΓ : Γ p.ind = un.ind ∧ (sts p).map Γ = un.states ∧ (qds p).map Γ = un.quads ∧ p.controls.map Γ = un.controls ∧
      p.parameters.map Γ = un.parameters ∧ p.constraintParams.map Γ = un.constraintParams ∧ p.constants.map Γ = un.constants)
    (hc : ∀ s ∈ p.ind :: (sts p ++ qds p ++ p.controls ++ p.parameters ++ p.constraintParams ++ p.constants),
      ∀ b ∈ (Γ s).free, b ∈ un.defs.map Prod.fst) :
    scaleFactors (real U) p un (x :: rest) y q dyn nondyn const = .ok ⟨eval (real U) φ (Γ p.ind), sizes U Γ φ (sts p),
      sizes U Γ φ (qds p), sizes U Γ φ p.controls, sizes U Γ φ p.parameters, sizes U Γ φ p.constraintParams,
      sizes U Γ φ p.constants⟩ := by
  have h1 : lambdifyL (real U) [[p.ind], sts p, qds p, p.parameters, p.constraintParams, p.constants] (un.defs.map Prod.snd)
      [[maxAbs x rest], maxMag y, maxMag q, dyn.map abs, nondyn.map abs, const.map abs] =
      .ok ((un.defs.map Prod.snd).map (eval (real U) m)) := by
    refine lambdifyL_ok (real U) m (by simp [ht, hy, hq, hd, hn, hk]) fun e he s hs => ?_
    obtain ⟨d, hm, rfl⟩ := List.mem_map.1 he
    have := hdef d hm s hs
    simpa using this
  have hv : (un.defs.map fun d => [d.1]).map (fun ns => ns.map φ) =
      ((un.defs.map Prod.snd).map (eval (real U) m)).map fun x => [x] := by
    simp only [List.map_map]
    refine List.map_congr_left fun d hm => ?_
    simp [hφ d hm]
  have hfl : (un.defs.map fun d => [d.1]).flatten = un.defs.map Prod.fst := by
    induction un.defs with
    | nil => rfl
    | cons d l ih => rw [List.map_cons, List.flatten_cons, ih]; rfl
  have hL : ∀ ns : List Name, (∀ s ∈ ns, s ∈ p.ind :: (sts p ++ qds p ++ p.controls ++ p.parameters ++ p.constraintParams ++
      p.constants)) → lambdifyL (real U) (un.defs.map fun d => [d.1]) (ns.map Γ)
        (((un.defs.map Prod.snd).map (eval (real U) m)).map fun x => [x]) = .ok (sizes U Γ φ ns) := by
    intro ns hns
    rw [lambdifyL_ok (real U) φ hv (fun e he b hb => by
      obtain ⟨s, hs, rfl⟩ := List.mem_map.1 he
      rw [hfl]
      exact hc s (hns s hs) b hb), List.map_map]
    rfl
  have hi : lambdify (real U) (un.defs.map fun d => [d.1]) un.ind
      (((un.defs.map Prod.snd).map (eval (real U) m)).map fun x => [x]) = .ok (eval (real U) φ (Γ p.ind)) := by
    rw [← hΓ.1]
    refine lambdify_ok (real U) φ hv fun b hb => ?_
    rw [hfl]
    exact hc p.ind (List.mem_cons_self ..) b hb
  obtain ⟨-, g1, g2, g3, g4, g5, g6⟩ := hΓ
  rw [scaleFactors, ok_bind]
  beta_reduce
  rw [h1, ok_bind]
  dsimp only
  rw [hi, ok_bind, ← g1, hL _ (fun s hs => by simp [hs]), ok_bind, ← g2, hL _ (fun s hs => by simp [hs]), ok_bind, ← g3,
    hL _ (fun s hs => by simp [hs]), ok_bind, ← g4, hL _ (fun s hs => by simp [hs]), ok_bind, ← g5,
    hL _ (fun s hs => by simp [hs]), ok_bind, ← g6, hL _ (fun s hs => by simp [hs]), ok_bind]

/-- **C18.**  The reference magnitude of a column is the largest absolute value that occurs in it. -/
theorem C18_magnitude {K : Type} [Field K] [LinearOrder K] (x : K) (l : List K) :
    (∀ z ∈ x :: l, |z| ≤ maxAbs x l) ∧ ∃ z ∈ x :: l, maxAbs x l = |z| := by
  have : ∀ (l : List K) (a : K), (a ≤ l.foldl (fun m y => max m |y|) a ∧ ∀ z ∈ l, |z| ≤ l.foldl (fun m y => max m |y|) a) ∧
      (l.foldl (fun m y => max m |y|) a = a ∨ ∃ z ∈ l, l.foldl (fun m y => max m |y|) a = |z|) := by
    intro l
    induction l with
    | nil => intro a; simp
    | cons b l ih =>
      intro a
      obtain ⟨⟨h1, h2⟩, h3⟩ := ih (max a |b|)
      refine ⟨⟨(le_max_left _ _).trans h1, fun z hz => ?_⟩, ?_⟩
      · rcases List.mem_cons.1 hz with rfl | hz
        · exact (le_max_right _ _).trans h1
        · exact h2 z hz
      · rw [List.foldl_cons]
        rcases h3 with h | ⟨z, hz, h⟩
        · rw [h]
          rcases max_choice a |b| with h' | h'
          · exact Or.inl h'
          · exact Or.inr ⟨b, by simp, h'⟩
        · exact Or.inr ⟨z, by simp [hz], h⟩
  obtain ⟨⟨h1, h2⟩, h3⟩ := this l |x|
  refine ⟨fun z hz => ?_, ?_⟩
  · rcases List.mem_cons.1 hz with rfl | hz
    · exact h1
    · exact h2 z hz
  · rcases h3 with h | ⟨z, hz, h⟩
    · exact ⟨x, by simp, h⟩
    · exact ⟨z, by simp [hz], h⟩

/-- **C18.**  The same for an array of `c` columns: one entry for each of them, the largest absolute value that occurs in it. -/
theorem C18_columns {K : Type} [Field K] [LinearOrder K] {c : Nat} {r : List (List K)} (hr : r ≠ []) :
    (maxMag (.rows c r)).length = c ∧ ∀ j < c, ∃ m, (maxMag (.rows c r))[j]? = some m ∧
      (∀ row ∈ r, |row.getD j 0| ≤ m) ∧ ∃ row ∈ r, m = |row.getD j 0| := by
  cases r with
  | nil => exact absurd rfl hr
  | cons x rest =>
    refine ⟨by simp [maxMag], fun j hj => ⟨maxAbs (x.getD j 0) (rest.map fun row => row.getD j 0), by simp [maxMag, hj], ?_, ?_⟩⟩
    · intro row hrow
      refine (C18_magnitude _ _).1 _ ?_
      rcases List.mem_cons.1 hrow with rfl | h
      · simp
      · exact List.mem_cons_of_mem _ (List.mem_map_of_mem (f := fun row : List K => row.getD j 0) h)
    · obtain ⟨z, hz, e⟩ := (C18_magnitude (x.getD j 0) (rest.map fun row => row.getD j 0)).2
      rcases List.mem_cons.1 hz with rfl | hz
      · exact ⟨x, by simp, e⟩
      · obtain ⟨row, hrow, rfl⟩ := List.mem_map.1 hz
        exact ⟨row, by simp [hrow], e⟩

/-- Not the first row, not the last one, and not the sum. -/
example : maxMag (.rows 2 [[1, -2], [-7, 3], [5, 4]] : Arr ℚ) = [7, 4] := by decide +kernel

/-- A falling body: `x' = v`, `v' = g + d v²` with metres and seconds. -/
def fallΓ : Name → Expr
  | "t" => sym "s"
  | "x" => sym "m"
  | "v" => sym "m" / sym "s"
  | "g" => sym "m" / (sym "s" * sym "s")
  | "d" => inv (sym "m")
  | _ => 1

theorem fallΓ_unit (s : Name) : IsUnit U (fallΓ s) := by
  intro φ hφ
  unfold fallΓ
  split
  · exact hφ _
  · exact hφ _
  · exact mul_pos (hφ _) (inv_pos.2 (hφ _))
  · exact mul_pos (hφ _) (inv_pos.2 (mul_pos (hφ _) (hφ _)))
  · exact inv_pos.2 (hφ _)
  · rw [eval_one']; exact one_pos

/-- The equations of the falling body are dimensionally consistent, so halving the metre and tripling the second changes
nothing. -/
example (a b : ℝ) (ρ : ℝ → Name → ℝ) (φ : Name → ℝ) (hφ : ∀ s, 0 < φ s) :
    Follows U [⟨"x", sym "v"⟩, ⟨"v", sym "g" + sym "d" * pow (sym "v") 2⟩] 1 (a / φ "s") (b / φ "s")
      (fun τ => scaled U fallΓ φ (ρ (τ * φ "s"))) ↔
    Follows U [⟨"x", sym "v"⟩, ⟨"v", sym "g" + sym "d" * pow (sym "v") 2⟩] 1 a b ρ := by
  refine C18_follow_partial (ind := "t") ⟨hφ, fallΓ_unit⟩ (fun d hd => ?_) a b ρ
  simp only [List.mem_cons, List.not_mem_nil, or_false] at hd
  rcases hd with rfl | rfl
  · exact .sym "v"
  · have h1 : SameUnit U (fallΓ "g") (fallΓ "v" / fallΓ "t") := by
      intro φ hφ
      change φ "m" * (φ "s" * φ "s")⁻¹ = φ "m" * (φ "s")⁻¹ * (φ "s")⁻¹
      rw [mul_inv, mul_assoc]
    have h2 : SameUnit U (fallΓ "d" * pow (fallΓ "v") 2) (fallΓ "v" / fallΓ "t") := by
      intro φ hφ
      change (φ "m")⁻¹ * (φ "m" * (φ "s")⁻¹) ^ 2 = φ "m" * (φ "s")⁻¹ * (φ "s")⁻¹
      have := (hφ "m").ne'
      have := (hφ "s").ne'
      field_simp
    exact .add (.conv (.sym "g") h1) (.conv (.mul (.sym "d") (.pow 2 (.sym "v"))) h2)

/-- Without dimensional consistency the value changes: `x + v` at `x = v = 1` with a metre of size 2 and a second of size 1
has the value 1, with a second of size 2 the value 3/2. -/
example : eval (real U) (scaled U fallΓ (fun s => if s = "m" then 2 else 1) fun _ => 1) (sym "x" + sym "v") = 1 ∧
    eval (real U) (scaled U fallΓ (fun _ => 2) fun _ => 1) (sym "x" + sym "v") = 3 / 2 := by
  constructor
  · change (1 : ℝ) / (if "m" = "m" then 2 else 1) + 1 / ((if "m" = "m" then 2 else 1) * (if "s" = "m" then 2 else 1)⁻¹) = 1
    simp only [if_true, show ¬ ("s" = "m") by decide, if_false]
    norm_num
  · change (1 : ℝ) / 2 + 1 / (2 * 2⁻¹) = 3 / 2
    norm_num

end

end Beluga.Num
