import Verif.EndToEnd.Convex
import Verif.EndToEnd.Order
import Verif.Extremal.Unique

/-!
# For a strictly convex problem there is one answer (C96)

Two runs of beluga on the same problem may differ in the method, the treatment of the control, the solver, the guess, the way the
continuation took, and the grid.  If the problem is strictly convex, what they return are samples of the same curve.
-/

namespace Beluga.E2E

open Beluga.Sym Beluga.Sym.Expr Beluga.Num Beluga.Map Beluga.Opt Beluga.Rep

/-! ### Specification -/

/-- The symbols that the user declares without a definition. -/
def declared (p : Prob) : List Name := p.ind :: (p.states.map Dyn.name ++ p.controls ++ p.constants)

/-- No expression of the problem has symbols that are not declared. -/
def Whole (p : Prob) : Prop :=
  ∀ e ∈ allExprs p, ∀ s ∈ e.free, s ∈ declared p ++ p.quantities.map Quantity.name ++ p.switches.map Switch.name

/-- The integrand of the cost is strictly convex in the variables `V`: of two points in `D t` that differ in one of these, the one in
the middle costs less than the mean. -/
def StrictIn (U : Name → Nat → ℝ → ℝ) (Q : Env → Env) (p : Prob) (D : ℝ → Set Env) (a b : ℝ) (V : List Name) : Prop :=
  ∀ t ∈ Set.Ioo a b, ∀ σ ∈ D t, ∀ τ ∈ D t, (∃ s ∈ V, σ s ≠ τ s) →
    eval (real U) (Q ((1 / 2 : ℝ) • σ + (1 / 2 : ℝ) • τ)) p.costPath <
      (1 / 2) * eval (real U) (Q σ) p.costPath + (1 / 2) * eval (real U) (Q τ) p.costPath

/-- The controls determine the states: the initial conditions fix all states, and the rates are Lipschitz continuous in them. -/
structure Steered (U : Name → Nat → ℝ → ℝ) (Q : Env → Env) (p : Prob) (D : ℝ → Set Env) (a b : ℝ) : Prop where
  initial : ∀ σ ∈ D a, ∀ τ ∈ D a, (∀ s ∈ p.ind :: p.constants, σ s = τ s) →
    (∀ c ∈ p.initial, c.twoSided = false → eval (real U) (Q σ) c.expr = 0 ∧ eval (real U) (Q τ) c.expr = 0) →
    ∀ d ∈ p.states, σ d.name = τ d.name
  rates : ∃ L, ∀ t ∈ Set.Icc a b, ∀ σ ∈ D t, ∀ τ ∈ D t, (∀ s ∈ p.ind :: (p.controls ++ p.constants), σ s = τ s) →
    ∀ d ∈ p.states, |eval (real U) (Q σ) d.eom - eval (real U) (Q τ) d.eom| ≤ L * (p.states.map fun e => |σ e.name - τ e.name|).sum

/-- The problem is strictly convex in the controls between the curves `x` and `z`, as far as these are about declared symbols. -/
structure StrictlyConvex (U : Name → Nat → ℝ → ℝ) (Q : Env → Env) (p : Prob) (D : ℝ → Set Env) (a b : ℝ) (x z : ℝ → Env) : Prop where
  convex : ConvexStated U Q p D a b (fun t => only (declared p) (x t)) fun t => only (declared p) (z t)
  back : ConvexStated U Q p D a b (fun t => only (declared p) (z t)) fun t => only (declared p) (x t)
  strict : StrictIn U Q p D a b p.controls
  steered : Steered U Q p D a b

/-- An exact solution of the compiled problem `p'`, sampled on a grid from end to end, and the trajectory `s'` that the user gets for it. -/
structure MappedBack (S : Sympy) (o : Opts) (p p' q : Prob) (U : Name → Nat → ℝ → ℝ) (a b : ℝ) (y : ℝ → List ℝ) (pr k : List ℝ)
    (ρ : ℝ → Env) (s s' : Sol ℝ) : Prop where
  lt : a < b
  solution : ∃ pc, NumSol U p' a b y pr pc k ∧ Reads U p' a b y pr pc k ρ
  regular : Regular S U q p' a b ρ
  positive : ∀ v ∈ pr, 0 < v
  grid : ∀ τ ∈ s.t, τ ∈ Set.Icc a b
  starts : s.t.head? = some a
  stops : s.t.getLast? = some b
  states : s.y = .rows p'.states.length (s.t.map y)
  dyn : s.dyn = pr
  const : s.const = k
  back : ∃ (O : TrigOps ℝ) (rule : List ℝ → List ℝ → ℝ), O.sin = Real.sin ∧ invIndirect S O rule (real U) o p s = .ok s'

/-- States and controls of the trajectory are samples of `X` and `W`. -/
def Sampled (p : Prob) (X W : ℝ → List ℝ) (s : Sol ℝ) : Prop :=
  s.y = .rows p.states.length (s.t.map X) ∧ s.u = .rows p.controls.length (s.t.map W)

/-! ### Lemmas -/

theorem declared_undefined {p : Prob} (hp : Stated p) (he : epsControls p.path = []) {s : Name} (hs : s ∈ declared p) :
    s ∉ definedNames p := by
  have hdist := hp.names
  simp only [List.nodup_append, List.mem_append] at hdist
  simp only [declared, List.mem_cons, List.mem_append] at hs
  have hs : ((s ∈ p.states.map Dyn.name ∨ s ∈ [p.ind]) ∨ s ∈ p.controls) ∨ s ∈ p.constants := by
    rcases hs with rfl | ((h | h) | h)
    · simp
    · exact Or.inl (Or.inl (Or.inl h))
    · exact Or.inl (Or.inr h)
    · exact Or.inr h
  simp only [definedNames, he, List.append_nil, List.mem_append, not_or]
  exact ⟨fun h => hdist.1.2.2 s hs s h rfl, fun h => hdist.2.2 s (Or.inl hs) s h rfl⟩

/-- Quantities and switches depend on declared symbols only. -/
theorem completes_agree {U : Name → Nat → ℝ → ℝ} {Q : Env → Env} {p : Prob} (hp : Stated p) (hQ : Completes U p Q)
    (he : epsControls p.path = []) (hw : Whole p) {σ τ : Env} (h : ∀ s ∈ declared p, σ s = τ s) :
    ∀ s ∈ declared p ++ p.quantities.map Quantity.name ++ p.switches.map Switch.name, Q σ s = Q τ s := by
  have base : ∀ s ∈ declared p, Q σ s = Q τ s := by
    intro s hs
    have := declared_undefined hp he hs
    rw [hQ.off σ s this, hQ.off τ s this, h s hs]
  have quant : ∀ s ∈ p.quantities.map Quantity.name, Q σ s = Q τ s := by
    obtain ⟨r, hr⟩ := hp.acyclic
    have key : ∀ n, ∀ d ∈ p.quantities, r d.name < n → Q σ d.name = Q τ d.name := by
      intro n
      induction n with
      | zero => intro d _ h; omega
      | succ n ih =>
        intro d hd hn
        rw [hQ.quantities σ d hd, hQ.quantities τ d hd]
        refine eval_congr _ fun s hs => ?_
        have hm : d.expr ∈ allExprs p := by
          simp only [allExprs, List.mem_append]
          exact Or.inl (Or.inr (List.mem_map_of_mem hd))
        rcases List.mem_append.1 (hw _ hm s hs) with h1 | h1
        · rcases List.mem_append.1 h1 with h1 | h1
          · exact base s h1
          · obtain ⟨e, hem, rfl⟩ := List.mem_map.1 h1
            refine ih e hem ?_
            have := hr (d.name, d.expr) (List.mem_map.2 ⟨d, hd, rfl⟩) e.name hs (by
              rw [defsQ, List.map_map]
              exact List.mem_map.2 ⟨e, hem, rfl⟩)
            dsimp only at this
            omega
        · exact absurd h1 (hp.flat.1 d hd s hs)
    intro s hs
    obtain ⟨d, hd, rfl⟩ := List.mem_map.1 hs
    exact key _ d hd (Nat.lt_succ_self _)
  intro s hs
  rcases List.mem_append.1 hs with h1 | h1
  · rcases List.mem_append.1 h1 with h1 | h1
    · exact base s h1
    · exact quant s h1
  · obtain ⟨w, hwm, rfl⟩ := List.mem_map.1 h1
    have ev : ∀ e ∈ w.tol :: (w.functions ++ w.conditions.flatten), eval (real U) (Q σ) e = eval (real U) (Q τ) e := by
      intro e hem
      refine eval_congr _ fun s hs => ?_
      have hm : e ∈ allExprs p := by
        simp only [allExprs, List.mem_append]
        exact Or.inr (List.mem_flatMap.2 ⟨w, hwm, hem⟩)
      rcases List.mem_append.1 (hw _ hm s hs) with h1 | h1
      · rcases List.mem_append.1 h1 with h1 | h1
        · exact base s h1
        · exact quant s h1
      · exact absurd h1 (hp.flat.2 w hwm e hem s hs)
    rw [hQ.switches σ w hwm, hQ.switches τ w hwm, switchValue, switchValue]
    refine congrArg List.sum (List.map_congr_left fun fc hfc => ?_)
    obtain ⟨f1, f2⟩ := List.of_mem_zip hfc
    rw [ev fc.1 (List.mem_cons_of_mem _ (List.mem_append_left _ f1)), ev w.tol List.mem_cons_self]
    congr 2
    refine List.map_congr_left fun c hc => ?_
    rw [ev c (List.mem_cons_of_mem _ (List.mem_append_right _ (List.mem_flatten.2 ⟨fc.2, f2, hc⟩)))]

theorem ConvexStated.utm {U : Name → Nat → ℝ → ℝ} {Q : Env → Env} {p : Prob} {D : ℝ → Set Env} {a b : ℝ} {x z : ℝ → Env}
    (h : ConvexStated U Q p D a b x z) : ∀ c ∈ p.initial ++ p.path ++ p.terminal, c.twoSided = true → c.method = .utm := by
  intro c hc h2
  have hab := h.lt
  rcases List.mem_append.1 hc with hc | hc
  · rcases List.mem_append.1 hc with hc | hc
    · exact (h.initial.inequalities c hc h2).method
    · exact ((h.path ((a + b) / 2) ⟨by linarith, by linarith⟩).inequalities c hc h2).method
  · exact (h.terminal.inequalities c hc h2).method

theorem no_trig {p : Prob} (hp : Stated p) (hu : ∀ c ∈ p.initial ++ p.path ++ p.terminal, c.twoSided = true → c.method = .utm) :
    epsControls p.path = [] := by
  rw [epsControls, List.filterMap_eq_nil_iff]
  intro c hc
  simp [hu c (by simp [hc]) (hp.inside c hc)]

theorem whole_closed {U : Name → Nat → ℝ → ℝ} {Q : Env → Env} {p : Prob} (hp : Stated p) (hQ : Completes U p Q) (hw : Whole p)
    (hu : ∀ c ∈ p.initial ++ p.path ++ p.terminal, c.twoSided = true → c.method = .utm) (B : ℝ → ℝ → ℝ → ℝ → ℝ) :
    (userOcp U Q B p).Closed (declared p) := by
  have he := no_trig hp hu
  have ev : ∀ e ∈ allExprs p, DependsOn (declared p) fun σ => eval (real U) (Q σ) e := fun e hem σ τ h =>
    eval_congr _ fun s hs => completes_agree hp hQ he hw h s (hw e hem s hs)
  have con : ∀ c ∈ p.initial ++ p.path ++ p.terminal, ∀ e ∈ parts c ++ c.activator.toList, e ∈ allExprs p := by
    intro c hc e hem
    simp only [allExprs, List.mem_append]
    refine Or.inl (Or.inl (Or.inl (Or.inr (List.mem_flatMap.2 ⟨c, ?_, hem⟩))))
    simpa only [List.mem_append] using hc
  have pen : ∀ l : List Con, (∀ c ∈ l, c ∈ p.initial ++ p.path ++ p.terminal) →
      DependsOn (declared p) fun σ => penalties B U (Q σ) l := by
    intro l hl σ τ h
    dsimp only
    rw [penalties, penalties]
    refine congrArg List.sum (List.map_congr_left fun c hc => ?_)
    obtain ⟨h1, h2⟩ := List.mem_filter.1 hc
    exact penalty_congr (hu c (hl c h1) h2) fun e hem => ev e (con c (hl c h1) e hem) σ τ h
  have add : ∀ f g : Env → ℝ, DependsOn (declared p) f → DependsOn (declared p) g → DependsOn (declared p) fun σ => f σ + g σ :=
    fun f g hf hg σ τ h => by
      dsimp only
      rw [hf σ τ h, hg σ τ h]
  have cost : ∀ e ∈ [p.costInitial, p.costPath, p.costTerminal], e ∈ allExprs p := by
    intro e hem
    simp only [allExprs, List.mem_append]
    exact Or.inl (Or.inl (Or.inr hem))
  have cons : ∀ l : List Con, (∀ c ∈ l, c ∈ p.initial ++ p.path ++ p.terminal) →
      ∀ c ∈ (l.filter fun c => !c.twoSided).map fun c σ => eval (real U) (Q σ) c.expr, DependsOn (declared p) c := by
    intro l hl c hc
    obtain ⟨d, hd, rfl⟩ := List.mem_map.1 hc
    exact ev _ (con d (hl d (List.mem_filter.1 hd).1) _ (by simp [parts]))
  refine ⟨?_, ?_, add _ _ (ev _ (cost _ (by simp))) (pen _ fun c hc => by simp [hc]),
    add _ _ (ev _ (cost _ (by simp))) (pen _ fun c hc => by simp [hc]),
    add _ _ (ev _ (cost _ (by simp))) (pen _ fun c hc => by simp [hc]), cons _ fun c hc => by simp [hc], cons _ fun c hc => by simp [hc]⟩
  · rw [userOcp_states]
    change ∀ s ∈ p.ind :: (p.states.map Dyn.name ++ (p.controls.map fun u => if u ∈ epsControls p.path then trigName u else u) ++ p.constants),
      s ∈ declared p
    rw [he]
    simp [declared]
  · intro r hr
    obtain ⟨d, hd, rfl⟩ := List.mem_map.1 hr
    refine ev _ ?_
    simp only [allExprs, List.mem_append]
    exact Or.inl (Or.inl (Or.inl (Or.inl (List.mem_map_of_mem hd))))

/-- Numbers that vanish at the start and whose rates are bounded by their sum vanish. -/
theorem vanish {α : Type} (l : List α) {a b L : ℝ} {w w' : α → ℝ → ℝ} (hL : 0 ≤ L)
    (hd : ∀ i ∈ l, ∀ t ∈ Set.Icc a b, HasDerivAt (w i) (w' i t) t) (h0 : ∀ i ∈ l, w i a = 0)
    (hb : ∀ i ∈ l, ∀ t ∈ Set.Ioo a b, |w' i t| ≤ L * (l.map fun j => |w j t|).sum) :
    ∀ i ∈ l, ∀ t ∈ Set.Icc a b, w i t = 0 := by
  let E : ℝ → ℝ := fun t => (l.map fun i => w i t * w i t).sum
  let K : ℝ := 2 * L * (l.length * l.length)
  have hE : ∀ t ∈ Set.Icc a b, HasDerivAt E (l.map fun i => w' i t * w i t + w i t * w' i t).sum t := by
    intro t ht
    rw [← hasDerivWithinAt_univ]
    exact hasDeriv_list_sum fun i hi => ((hd i hi t ht).mul (hd i hi t ht)).hasDerivWithinAt
  have nn : ∀ t, 0 ≤ E t := fun t => List.sum_nonneg fun y hy => by
    obtain ⟨i, -, rfl⟩ := List.mem_map.1 hy
    exact mul_self_nonneg _
  have one : ∀ t, ∀ i ∈ l, w i t * w i t ≤ E t := fun t i hi =>
    List.single_le_sum (by
      intro y hy
      obtain ⟨i, -, rfl⟩ := List.mem_map.1 hy
      exact mul_self_nonneg _) _ (List.mem_map_of_mem (f := fun i => w i t * w i t) hi)
  have grow : ∀ t ∈ Set.Ioo a b, (l.map fun i => w' i t * w i t + w i t * w' i t).sum ≤ K * E t := by
    intro t ht
    obtain ⟨s, hs⟩ : ∃ s, s = Real.sqrt (E t) := ⟨_, rfl⟩
    have hs0 : 0 ≤ s := by rw [hs]; exact Real.sqrt_nonneg _
    have hss : s * s = E t := by rw [hs]; exact Real.mul_self_sqrt (nn t)
    have hw : ∀ i ∈ l, |w i t| ≤ s := by
      intro i hi
      rw [hs]
      refine Real.abs_le_sqrt ?_
      rw [sq]
      exact one t i hi
    have sum : ∀ (m : List α) (f : α → ℝ) (c : ℝ), (∀ i ∈ m, f i ≤ c) → (m.map f).sum ≤ m.length * c := by
      intro m f c hm
      induction m with
      | nil => simp
      | cons i m ih =>
        have h1 := ih fun j hj => hm j (by simp [hj])
        have h2 := hm i (by simp)
        simp only [List.map_cons, List.sum_cons, List.length_cons, Nat.cast_add, Nat.cast_one]
        linarith
    have tot := sum l (fun j => |w j t|) s hw
    refine (sum l _ (2 * (L * (l.length * s) * s)) fun i hi => ?_).trans (le_of_eq ?_)
    · have h1 := (hb i hi t ht).trans (mul_le_mul_of_nonneg_left tot hL)
      have h2 : w' i t * w i t ≤ L * (l.length * s) * s := by
        refine (le_abs_self _).trans ?_
        rw [abs_mul]
        exact mul_le_mul h1 (hw i hi) (abs_nonneg _) (by positivity)
      linarith [mul_comm (w i t) (w' i t)]
    · rw [← hss]
      ring
  have anti : AntitoneOn (fun t => E t * Real.exp (-K * t)) (Set.Icc a b) := by
    have hder : ∀ t ∈ Set.Icc a b, HasDerivAt (fun t => E t * Real.exp (-K * t))
        ((l.map fun i => w' i t * w i t + w i t * w' i t).sum * Real.exp (-K * t) + E t * (Real.exp (-K * t) * (-K))) t := by
      intro t ht
      have h1 : HasDerivAt (fun t : ℝ => -K * t) (-K) t := by simpa using (hasDerivAt_id t).const_mul (-K)
      exact (hE t ht).mul h1.exp
    refine antitoneOn_of_deriv_nonpos (convex_Icc a b) (fun t ht => (hder t ht).continuousAt.continuousWithinAt) ?_ ?_
    · rw [interior_Icc]
      exact fun t ht => (hder t ⟨ht.1.le, ht.2.le⟩).differentiableAt.differentiableWithinAt
    · rw [interior_Icc]
      intro t ht
      rw [(hder t ⟨ht.1.le, ht.2.le⟩).deriv]
      have := mul_le_mul_of_nonneg_right (grow t ht) (Real.exp_nonneg (-K * t))
      linarith
  have hEa : E a = 0 := List.sum_eq_zero fun y hy => by
    obtain ⟨i, hi, rfl⟩ := List.mem_map.1 hy
    rw [h0 i hi, mul_zero]
  intro i hi t ht
  have h1 := anti ⟨le_refl a, ht.1.trans ht.2⟩ ht ht.1
  dsimp only at h1
  rw [hEa, zero_mul] at h1
  have h2 : E t ≤ 0 := by
    by_contra hc
    exact absurd (mul_pos (not_le.1 hc) (Real.exp_pos (-K * t))) (not_lt.2 h1)
  have h3 := one t i hi
  have h4 := mul_self_nonneg (w i t)
  exact mul_self_eq_zero.1 (by linarith)

/-! ### Two extremals -/

theorem extremals_agree {U : Name → Nat → ℝ → ℝ} {Q : Env → Env} {B : ℝ → ℝ → ℝ → ℝ → ℝ} {p : Prob} {D : ℝ → Set Env} {a b : ℝ}
    {x z : ℝ → Env} {lam mu : ℝ → Name → ℝ} {ν₀ ν₁ κ₀ κ₁ : Nat → ℝ} (hp : Stated p) (hB : Barriers B) (hQ : Completes U p Q)
    (hw : Whole p) (hx : Extremal (userOcp U Q B p) a b x lam ν₀ ν₁) (hz : Extremal (userOcp U Q B p) a b z mu κ₀ κ₁)
    (hk : ∀ s ∈ p.constants, z a s = x a s) (px : ContinuousOn (fun t => (userOcp U Q B p).path (x t)) (Set.Icc a b))
    (pz : ContinuousOn (fun t => (userOcp U Q B p).path (z t)) (Set.Icc a b)) (h : StrictlyConvex U Q p D a b x z) :
    (∀ t ∈ Set.Ioo a b, ∀ u ∈ p.controls, z t u = x t u) ∧ ∀ t ∈ Set.Icc a b, ∀ d ∈ p.states, z t d.name = x t d.name := by
  have hab := h.convex.lt
  have hO := whole_closed hp hQ hw h.convex.utm B
  have hctl := h.convex.controls hp B
  have hn := nodup_of_stated h.convex hp B
  have mem_u : ∀ u ∈ p.controls, u ∈ declared p := fun u hu => by simp [declared, hu]
  have mem_d : ∀ d ∈ p.states, d.name ∈ declared p := fun d hd => by
    simp only [declared, List.mem_cons, List.mem_append]
    exact Or.inr (Or.inl (Or.inl (List.mem_map_of_mem hd)))
  have other : ∀ t ∈ Set.Icc a b, ∀ s ∈ p.ind :: p.constants, z t s = x t s := by
    intro t ht s hs
    rcases List.mem_cons.1 hs with rfl | hs
    · rw [show z t p.ind = t from hz.time t ht, show x t p.ind = t from hx.time t ht]
    · rw [hz.fixed s hs t ht, hx.fixed s hs t ht, hk s hs]
  have ho : ∀ t ∈ Set.Icc a b, ∀ s ∉ (userOcp U Q B p).states ++ (userOcp U Q B p).controls,
      only (declared p) (z t) s = only (declared p) (x t) s := by
    intro t ht s hs
    rw [userOcp_states, hctl] at hs
    by_cases hm : s ∈ declared p
    · rw [only_of hm, only_of hm]
      refine other t ht s ?_
      simp only [declared, List.mem_cons, List.mem_append] at hm hs ⊢
      tauto
    · simp [only, hm]
  have px' : ContinuousOn (fun t => (userOcp U Q B p).path (only (declared p) (x t))) (Set.Icc a b) := by
    simpa only [hO.path.only] using px
  have pz' : ContinuousOn (fun t => (userOcp U Q B p).path (only (declared p) (z t))) (Set.Icc a b) := by
    simpa only [hO.path.only] using pz
  have ctl : ∀ t ∈ Set.Ioo a b, ∀ u ∈ p.controls, z t u = x t u := by
    intro t ht u hu
    by_contra hne
    have tight := Extremal.tight hab hn (hx.only hO) (hz.only hO) ho (h.convex.along hp hB lam ν₀ ν₁) (h.back.along hp hB mu κ₀ κ₁)
      px' pz' ht
    have ht' : t ∈ Set.Icc a b := ⟨ht.1.le, ht.2.le⟩
    obtain ⟨k1, k2⟩ := h.convex.inside t ht'
    have strict := h.strict t ht _ k1 _ k2 ⟨u, hu, by rw [only_of (mem_u u hu), only_of (mem_u u hu)]; exact fun e => hne e.symm⟩
    generalize only (declared p) (x t) = σ at *
    generalize only (declared p) (z t) = τ at *
    have conv : ∀ c ∈ (p.path.filter Con.twoSided), ConvexOn ℝ (D t) fun σ => penalty B U (Q σ) c := fun c hc =>
      (((h.convex.path t ht).inequalities c (List.mem_filter.1 hc).1 (List.mem_filter.1 hc).2)).convex (h.convex.path t ht).cost.1 hB
    have pen := (convex_list_sum (h.convex.path t ht).cost.1 conv).2 k1 k2 (by norm_num : (0 : ℝ) ≤ 1 / 2)
      (by norm_num : (0 : ℝ) ≤ 1 / 2) (by norm_num)
    simp only [smul_eq_mul] at pen
    have mot : ((userOcp U Q B p).rates.map fun r => lam t r.1 * r.2 ((1 / 2 : ℝ) • σ + (1 / 2 : ℝ) • τ)).sum =
        (1 / 2) * ((userOcp U Q B p).rates.map fun r => lam t r.1 * r.2 σ).sum +
          (1 / 2) * ((userOcp U Q B p).rates.map fun r => lam t r.1 * r.2 τ).sum := by
      have aff : ∀ r ∈ (userOcp U Q B p).rates, r.2 ((1 / 2 : ℝ) • σ + (1 / 2 : ℝ) • τ) = (1 / 2) * r.2 σ + (1 / 2) * r.2 τ := by
        intro r hr
        obtain ⟨d, hd, rfl⟩ := List.mem_map.1 hr
        exact h.convex.motion t ht d hd σ k1 τ k2 _ _ (by norm_num) (by norm_num) (by norm_num)
      revert aff
      generalize (userOcp U Q B p).rates = l
      intro aff
      induction l with
      | nil => simp
      | cons r l ih =>
        simp only [List.map_cons, List.sum_cons]
        rw [ih fun r hr => aff r (by simp [hr]), aff r (by simp)]
        ring
    have ham : ∀ σ, (userOcp U Q B p).ham (lam t) σ = eval (real U) (Q σ) p.costPath +
        ((p.path.filter Con.twoSided).map fun c => penalty B U (Q σ) c).sum + ((userOcp U Q B p).rates.map fun r => lam t r.1 * r.2 σ).sum :=
      fun σ => rfl
    rw [ham, ham, ham, mot] at tight
    linarith
  refine ⟨ctl, ?_⟩
  obtain ⟨L, hL⟩ := h.steered.rates
  have ha : a ∈ Set.Icc a b := ⟨le_refl _, hab.le⟩
  have key := vanish p.states (a := a) (b := b) (L := |L|) (w := fun d t => z t d.name - x t d.name)
    (w' := fun d t => eval (real U) (Q (z t)) d.eom - eval (real U) (Q (x t)) d.eom) (abs_nonneg L) ?_ ?_ ?_
  · intro t ht d hd
    have := key d hd t ht
    linarith
  · intro d hd t ht
    exact (hz.motion _ (List.mem_map_of_mem hd) t ht).sub (hx.motion _ (List.mem_map_of_mem hd) t ht)
  · intro d hd
    obtain ⟨k1, k2⟩ := h.convex.inside a ha
    have := h.steered.initial _ k2 _ k1 ?_ ?_ d hd
    · rw [only_of (mem_d d hd), only_of (mem_d d hd)] at this
      linarith
    · intro s hs
      have hm : s ∈ declared p := by
        simp only [declared, List.mem_cons, List.mem_append] at hs ⊢
        tauto
      rw [only_of hm, only_of hm]
      exact other a ha s hs
    · intro c hc h2
      have hmem : (fun σ => eval (real U) (Q σ) c.expr) ∈ (userOcp U Q B p).initial :=
        List.mem_map.2 ⟨c, List.mem_filter.2 ⟨hc, by simp [h2]⟩, rfl⟩
      exact ⟨(hz.only hO).initial _ hmem, (hx.only hO).initial _ hmem⟩
  · intro d hd t ht
    have ht' : t ∈ Set.Icc a b := ⟨ht.1.le, ht.2.le⟩
    obtain ⟨k1, k2⟩ := h.convex.inside t ht'
    have h1 := hL t ht' _ k2 _ k1 (by
      intro s hs
      have hm : s ∈ declared p := by
        simp only [declared, List.mem_cons, List.mem_append] at hs ⊢
        tauto
      rw [only_of hm, only_of hm]
      rcases List.mem_cons.1 hs with rfl | hs
      · exact other t ht' _ (by simp)
      · rcases List.mem_append.1 hs with hs | hs
        · exact ctl t ht s hs
        · exact other t ht' _ (by simp [hs])) d hd
    have r1 := (hO.rates _ (List.mem_map_of_mem (f := fun d : Dyn => (d.name, fun σ => eval (real U) (Q σ) d.eom)) hd)).only (z t)
    have r2 := (hO.rates _ (List.mem_map_of_mem (f := fun d : Dyn => (d.name, fun σ => eval (real U) (Q σ) d.eom)) hd)).only (x t)
    dsimp only at r1 r2
    rw [r1, r2] at h1
    have e : (p.states.map fun e => |only (declared p) (z t) e.name - only (declared p) (x t) e.name|) =
        p.states.map fun e => |z t e.name - x t e.name| :=
      List.map_congr_left fun e hem => by rw [only_of (mem_d e hem), only_of (mem_d e hem)]
    rw [e] at h1
    refine h1.trans (mul_le_mul_of_nonneg_right (le_abs_self L) (List.sum_nonneg fun y hy => ?_))
    obtain ⟨i, -, rfl⟩ := List.mem_map.1 hy
    exact abs_nonneg _

/-! ### Two runs -/

/-- Variables of the user are continuous along a curve through the arrays. -/
theorem symbol_continuous {S : Sympy} (hL : LuSound S) {o : Opts} {p p' q : Prob} (hp : Stated p) (hm : o.momentumShift = true)
    (hd : o.method ≠ .other) (h : indirect S o p = .ok p') {U : Name → Nat → ℝ → ℝ} {a b : ℝ} {y : ℝ → List ℝ} {pr pc k : List ℝ}
    {ρ : ℝ → Env} (hr : Reads U p' a b y pr pc k ρ) (hreg : Regular S U q p' a b ρ) {δ : ℝ} (hs : Strays U p' δ a b y pr k) {s : Name}
    (hpl : Plain p s) : ContinuousOn (fun t => ρ t s) (Set.Icc a b) := by
  intro t ht
  by_cases h1 : s ∈ sts p'
  · obtain ⟨d, hd, rfl⟩ := List.mem_map.1 h1
    obtain ⟨v, g1, g2⟩ := hs t ht
    have hv := atPoint_val hr ht g1
    obtain ⟨i, hi, rfl⟩ := List.mem_iff_getElem.1 hd
    obtain ⟨w, g3, -⟩ := g2 i (by rw [hv]; simpa using hi)
    have e1 : (fun τ => (y τ).getD i 0) = fun τ => ρ τ p'.states[i].name := by
      funext τ
      rw [← hr.states τ, sts]
      simp [hi]
    rw [e1] at g3
    exact g3.continuousAt.continuousWithinAt
  by_cases h2 : s ∈ p'.controls
  · exact (hreg.controls t ht s h2).continuousAt.continuousWithinAt
  have h3 : s ≠ p'.ind := by
    rcases indirect_ind hL hp hm hd h with e | e
    · rw [e]; exact fun e => hpl.1 (Or.inr (Or.inr (Or.inr (Or.inr e))))
    · rw [e]; exact hpl.2
  have e : (fun τ => ρ τ s) = fun _ => ρ t s := funext fun τ => hr.others s h1 h2 h3 τ t
  rw [e]
  exact continuousWithinAt_const

/-- What one run returns. -/
theorem MappedBack.curve {S : Sympy} (hL : LuSound S) {o : Opts} {p p' q : Prob} (hp : Stated p) (hm : o.momentumShift = true)
    (hd : o.method ≠ .other) (hS : o.controlMethod = .algebraic → SolveSound S) (h : indirect S o p = .ok p') (hq : primal S p = .ok q)
    {B : ℝ → ℝ → ℝ → ℝ → ℝ} (hB : Barriers B) {U : Name → Nat → ℝ → ℝ} {Q : Env → Env} (hQ : Completes U p Q) {a b : ℝ} {y : ℝ → List ℝ}
    {pr k : List ℝ} {ρ : ℝ → Env} {s s' : Sol ℝ} (hr : MappedBack S o p p' q U a b y pr k ρ s s') :
    ∃ t₀ c x lam ν₀ ν₁, 0 < c ∧ Extremal (userOcp U Q B p) t₀ (t₀ + c * (b - a)) x lam ν₀ ν₁ ∧ Returned Q p x lam s' ∧
      Drawn ρ a t₀ c x lam ν₀ ν₁ ∧ s'.t.head? = some t₀ ∧ s'.t.getLast? = some (t₀ + c * (b - a)) ∧
      (∀ t ∈ s'.t, t ∈ Set.Icc t₀ (t₀ + c * (b - a))) ∧ s'.const = k ∧
      ContinuousOn (fun t => (userOcp U Q B p).path (x t)) (Set.Icc t₀ (t₀ + c * (b - a))) ∧
      ∀ u ∈ p.controls, ContinuousOn (fun t => x t u) (Set.Icc t₀ (t₀ + c * (b - a))) := by
  obtain ⟨q', B', hq', hB', key⟩ := C73_returned_partial hL hp hm hd hS h
  rw [hq] at hq'
  cases hq'
  rw [barriers_unique hB' hB] at key
  obtain ⟨pc, hnum, hread⟩ := hr.solution
  obtain ⟨O, rule, hO, hinv⟩ := hr.back
  have hne : s.t ≠ [] := by
    intro e
    have := hr.starts
    rw [e] at this
    cases this
  obtain ⟨t₀, c, x, lam, ν₀, ν₁, g1, g2, g3, g4, g6, -, -, -, g5⟩ := key U Q hQ O rule hO a b y pr pc k ρ hr.lt.le hnum hread hr.regular
    hr.positive s s' hne hr.grid hr.states hr.dyn hr.const hinv
  refine ⟨t₀, c, x, lam, ν₀, ν₁, g1, g2, g4, g5, ?_, ?_, ?_, g6, ?_, ?_⟩
  · rw [g3, List.head?_map, hr.starts]
    simp
  · rw [g3, List.getLast?_map, hr.stops]
    simp
  · intro t ht
    rw [g3] at ht
    obtain ⟨τ, hτ, rfl⟩ := List.mem_map.1 ht
    obtain ⟨k1, k2⟩ := hr.grid τ hτ
    have m1 := mul_nonneg g1.le (sub_nonneg.2 k1)
    have m2 := mul_le_mul_of_nonneg_left (sub_le_sub_right k2 a) g1.le
    constructor <;> linarith
  · exact g5.continuous g1 (path_continuous hL hp hm hd h hq hB hQ hread hr.regular hnum.strays)
  · intro u hu
    exact g5.continuous (g := fun σ => σ u) g1 (symbol_continuous hL hp hm hd h hread hr.regular hnum.strays (hp.plain u (by simp [hu])))

/-- Two runs on the same problem, with any options, any control law, any solver, guess, continuation and grid, return samples of the
same curve, if the problem is strictly convex between their curves, their end times and constants agree, and the solutions of the
compiled problems are exact.

Missing from the full property: end times that the problem leaves free; controls bounded by 'epstrig', in which the problem is not
convex; everything that is missing from `C73_returned_partial`. -/
theorem C96_returned_partial {S S2 : Sympy} (hL : LuSound S) (hL2 : LuSound S2) {o o2 : Opts} {p p' p2' : Prob} (hp : Stated p)
    (hw : Whole p) (hm : o.momentumShift = true) (hm2 : o2.momentumShift = true) (hd : o.method ≠ .other) (hd2 : o2.method ≠ .other)
    (hS : o.controlMethod = .algebraic → SolveSound S) (hS2 : o2.controlMethod = .algebraic → SolveSound S2)
    (h : indirect S o p = .ok p') (h2 : indirect S2 o2 p = .ok p2') :
    ∃ q q2, primal S p = .ok q ∧ primal S2 p = .ok q2 ∧
      ∀ U Q, Completes U p Q → ∀ a b y pr k ρ s s' a2 b2 y2 pr2 k2 ρ2 s2 s2',
      MappedBack S o p p' q U a b y pr k ρ s s' → MappedBack S2 o2 p p2' q2 U a2 b2 y2 pr2 k2 ρ2 s2 s2' →
      s2'.t.head? = s'.t.head? → s2'.t.getLast? = s'.t.getLast? → s2'.const = s'.const →
      ∃ t₀ t₁ x x2 lam lam2, s'.t.head? = some t₀ ∧ s'.t.getLast? = some t₁ ∧ (∀ t ∈ s'.t ++ s2'.t, t ∈ Set.Icc t₀ t₁) ∧
        Returned Q p x lam s' ∧ Returned Q p x2 lam2 s2' ∧
        (∀ t, x t = ρ (a + (t - t₀) / (t₁ - t₀) * (b - a)) ∧ x2 t = ρ2 (a2 + (t - t₀) / (t₁ - t₀) * (b2 - a2))) ∧
        ∀ D, StrictlyConvex U Q p D t₀ t₁ x x2 →
          (∀ t ∈ Set.Icc t₀ t₁, (∀ d ∈ p.states, x2 t d.name = x t d.name) ∧ ∀ u ∈ p.controls, x2 t u = x t u) ∧
          ∃ X W, Sampled p X W s' ∧ Sampled p X W s2' := by
  obtain ⟨q, B, hq, hB, -⟩ := C73_returned_partial hL hp hm hd hS h
  obtain ⟨q2, B2, hq2, hB2, -⟩ := C73_returned_partial hL2 hp hm2 hd2 hS2 h2
  refine ⟨q, q2, hq, hq2, ?_⟩
  intro U Q hQ a b y pr k ρ s s' a2 b2 y2 pr2 k2 ρ2 s2 s2' hr hr2 hfst hlst hk
  obtain ⟨t₀, c, x, lam, ν₀, ν₁, c1, c2, c3, c4, c5, c6, c7, -, c9, c10⟩ := hr.curve hL hp hm hd hS h hq hB hQ
  obtain ⟨t₂, e, x2, lam2, κ₀, κ₁, e1, e2, e3, e4, e5, e6, e7, -, e9, e10⟩ := hr2.curve hL2 hp hm2 hd2 hS2 h2 hq2 hB hQ
  have h0 : t₂ = t₀ := by
    rw [hfst, c5] at e5
    exact (Option.some.inj e5).symm
  subst h0
  have h1 : t₂ + e * (b2 - a2) = t₂ + c * (b - a) := by
    rw [hlst, c6] at e6
    exact (Option.some.inj e6).symm
  have hdr : ∀ {ρ : ℝ → Env} {a b c : ℝ} {x : ℝ → Env} {lam ν₀ ν₁}, 0 < c → a < b → Drawn ρ a t₂ c x lam ν₀ ν₁ →
      ∀ t, x t = ρ (a + (t - t₂) / (t₂ + c * (b - a) - t₂) * (b - a)) := by
    intro ρ a b c x lam ν₀ ν₁ hc hab hdr t
    have : b - a ≠ 0 := (sub_pos.2 hab).ne'
    have hc' := hc.ne'
    rw [hdr.curve t]
    congr 2
    rw [add_sub_cancel_left]
    field_simp
  have d2 := hdr e1 hr2.lt e4
  rw [h1] at e2 e7 e9 e10 d2
  have d1 := hdr c1 hr.lt c4
  refine ⟨t₂, t₂ + c * (b - a), x, x2, lam, lam2, c5, c6, ?_, c3, e3, fun t => ⟨d1 t, d2 t⟩, ?_⟩
  · intro t ht
    rcases List.mem_append.1 ht with ht | ht
    · exact c7 t ht
    · exact e7 t ht
  intro D hD
  have hab := hD.convex.lt
  have hmem : t₂ ∈ s'.t := List.mem_of_mem_head? c5
  have hmem2 : t₂ ∈ s2'.t := List.mem_of_mem_head? (hfst.trans c5)
  obtain ⟨a1, a2⟩ := extremals_agree hp hB hQ hw c2 e2 (by
    have := (e3.constants t₂ hmem2).trans (hk.trans (c3.constants t₂ hmem).symm)
    intro s hs
    exact List.map_inj_left.1 this s hs) c9 e9 hD
  have ctl : ∀ t ∈ Set.Icc t₂ (t₂ + c * (b - a)), ∀ u ∈ p.controls, x2 t u = x t u := by
    intro t ht u hu
    have k1 : Set.EqOn (fun t => x2 t u) (fun t => x t u) (Set.Icc t₂ (t₂ + c * (b - a))) := by
      have := Set.EqOn.of_subset_closure (s := Set.Ioo t₂ (t₂ + c * (b - a))) (t := Set.Icc t₂ (t₂ + c * (b - a)))
        (f := fun t => x2 t u) (g := fun t => x t u) (fun t ht => a1 t ht u hu) (e10 u hu) (c10 u hu) Set.Ioo_subset_Icc_self
        (by rw [closure_Ioo hab.ne])
      exact this
    exact k1 ht
  refine ⟨fun t ht => ⟨a2 t ht, ctl t ht⟩, fun t => p.states.map fun d => x t d.name, fun t => p.controls.map (x t), ⟨c3.states, ?_⟩, ?_, ?_⟩
  · have he := no_trig hp hD.convex.utm
    rw [c3.controls]
    congr 1
    refine List.map_congr_left fun t _ => List.map_congr_left fun u hu => ?_
    exact hQ.off _ _ (declared_undefined hp he (by simp [declared, hu]))
  · rw [e3.states]
    congr 1
    exact List.map_congr_left fun t ht => List.map_congr_left fun d hd => a2 t (e7 t ht) d hd
  · have he := no_trig hp hD.convex.utm
    rw [e3.controls]
    congr 1
    refine List.map_congr_left fun t ht => List.map_congr_left fun u hu => ?_
    rw [hQ.off _ _ (declared_undefined hp he (by simp [declared, hu]))]
    exact ctl t (e7 t ht) u hu

/-! ### A concrete case -/

theorem exP_whole : Whole exP := by
  intro e he s hs
  have : ∀ e ∈ allExprs exP, ∀ s ∈ e.free, s ∈ declared exP ++ exP.quantities.map Quantity.name ++ exP.switches.map Switch.name := by
    decide +kernel
  exact this e he s hs

theorem boxConvex (U : Name → Nat → ℝ → ℝ) {x z : ℝ → Env} (hx : ∀ t ∈ Set.Icc (0 : ℝ) 1, x t ∈ barredSet)
    (hz : ∀ t ∈ Set.Icc (0 : ℝ) 1, z t ∈ barredSet) : ConvexStated U exQ exP (fun _ => barredSet) 0 1 x z where
  lt := (barredConvex U hz).lt
  motion := (barredConvex U hz).motion
  path := (barredConvex U hz).path
  initial := (barredConvex U hz).initial
  terminal := (barredConvex U hz).terminal
  ends := (barredConvex U hz).ends
  inside := fun t ht => ⟨hx t ht, hz t ht⟩
  around := by
    intro t ht s hs
    obtain ⟨h1, h2, h3⟩ := hx t ht
    simp [exP] at hs
    rcases hs with rfl | rfl
    · filter_upwards [isOpen_Ioo.mem_nhds (show x t "x" ∈ Set.Ioo (-1 : ℝ) 3 from ⟨h2, h3⟩)] with v hv
      exact ⟨by simpa using h1, by simpa using hv.1, by simpa using hv.2⟩
    · refine Filter.Eventually.of_forall fun v => ⟨by simpa using h1, by simpa using h2, by simpa using h3⟩

theorem boxStrict (U : Name → Nat → ℝ → ℝ) {x z : ℝ → Env} (hx : ∀ t ∈ Set.Icc (0 : ℝ) 1, x t ∈ barredSet)
    (hz : ∀ t ∈ Set.Icc (0 : ℝ) 1, z t ∈ barredSet) : StrictlyConvex U exQ exP (fun _ => barredSet) 0 1 x z where
  convex := boxConvex U (fun t ht => by simpa [barredSet, only, declared, exP] using hx t ht)
    (fun t ht => by simpa [barredSet, only, declared, exP] using hz t ht)
  back := boxConvex U (fun t ht => by simpa [barredSet, only, declared, exP] using hz t ht)
    (fun t ht => by simpa [barredSet, only, declared, exP] using hx t ht)
  strict := by
    intro t _ σ _ τ _ h
    simp [exP] at h
    simp [exP, eval, Opt.exQ]
    have := mul_self_pos.2 (sub_ne_zero.2 h)
    nlinarith
  steered := by
    constructor
    · intro σ _ τ _ _ h d hd
      obtain ⟨h1, h2⟩ := h { expr := sym "x" } (by simp [exP]) rfl
      simp [exP] at hd
      subst hd
      simp [eval, Opt.exQ] at h1 h2
      rw [h1, h2]
    · refine ⟨0, ?_⟩
      intro t _ σ _ τ _ h d hd
      simp [exP] at hd
      subst hd
      have := h "u" (by simp [exP])
      simp [eval, Opt.exQ, this]

/-- However the example is solved: what comes back for an exact solution over unit time with `eps = 1` that stays within the bounds is
`x = t` and `u = 1`. -/
example (U : Name → Nat → ℝ → ℝ) {S2 : Sympy} (hL2 : LuSound S2) {o2 : Opts} {p2' : Prob} (hm2 : o2.momentumShift = true)
    (hd2 : o2.method ≠ .other) (hS2 : o2.controlMethod = .algebraic → SolveSound S2) (h2 : indirect S2 o2 exP = .ok p2') :
    ∃ q2, primal S2 exP = .ok q2 ∧ ∀ a2 b2 y2 pr2 ρ2 s2 s2', MappedBack S2 o2 exP p2' q2 U a2 b2 y2 pr2 [1] ρ2 s2 s2' →
      s2'.t.head? = some 0 → s2'.t.getLast? = some 1 → s2'.const = [1] →
      (∀ t ∈ Set.Icc a2 b2, ρ2 t "eps" = 1 ∧ -1 < ρ2 t "x" ∧ ρ2 t "x" < 3) →
      s2'.y = .rows 1 (s2'.t.map fun t => [t]) ∧ s2'.u = .rows 1 (s2'.t.map fun _ => [1]) := by
  obtain ⟨q, q2, hq, hq2, key⟩ := C96_returned_partial (luSound_cramer exS rfl) hL2 (o := exO) exP_stated exP_whole rfl hm2 (by decide) hd2
    (fun _ => exS_sound) hS2 exP'_ok h2
  rw [exq_ok] at hq
  cases hq
  refine ⟨q2, hq2, ?_⟩
  intro a2 b2 y2 pr2 ρ2 s2 s2' hr2 f0 f1 fk hbox
  let O : TrigOps ℝ := { sin := Real.sin, asin := Real.arcsin }
  obtain ⟨s', hs'⟩ : ∃ s', invIndirect exS O trapezoids (real U) exO exP barredSol = .ok s' := by
    refine ok_of ?_
    rfl
  have hf : s'.t = [0, 1 / 2, 1] ∧ s'.const = [1] := by
    have hs' := hs'
    cases hs'
    exact ⟨rfl, rfl⟩
  have hr : MappedBack exS exO exP exP' exq U 0 1 (fun τ => [τ, τ, -2, 0]) [1] [1] barred barredSol s' :=
    { lt := by norm_num
      solution := ⟨_, barredNum U, barredRead U⟩
      regular := barredRegular U
      positive := by simp
      grid := by
        simp only [barredSol, exSol, exGrid]
        intro τ hτ
        simp at hτ
        rcases hτ with rfl | rfl | rfl <;> norm_num
      starts := rfl
      stops := rfl
      states := rfl
      dyn := rfl
      const := rfl
      back := ⟨O, trapezoids, rfl, hs'⟩ }
  obtain ⟨t₀, t₁, x, x2, lam, lam2, k1, k2, k3, k4, k5, k6, k7⟩ := key U exQ (exQ_completes U) _ _ _ _ _ _ _ _ _ _ _ _ _ _ _ _ hr hr2
    (by rw [f0, hf.1]; rfl) (by rw [f1, hf.1]; rfl) (by rw [fk, hf.2])
  rw [hf.1] at k1 k2
  simp at k1 k2
  subst k1 k2
  have hx : ∀ t, x t = barred t := fun t => by rw [(k6 t).1]; congr 1; ring
  obtain ⟨m1, -⟩ := k7 _ (boxStrict U (fun t ht => by
    rw [hx]
    simp only [barredSet, Set.mem_ofPred_eq]
    simp [barred, exCurve]
    constructor <;> linarith [ht.1, ht.2]) fun t ht => by
    rw [(k6 t).2]
    refine hbox _ ?_
    have hlt := sub_pos.2 hr2.lt
    have n1 := mul_nonneg ht.1 hlt.le
    have n2 := mul_le_mul_of_nonneg_right ht.2 hlt.le
    simp only [sub_zero, div_one]
    constructor <;> linarith)
  have m2 : ∀ t ∈ s2'.t, x2 t "x" = t ∧ x2 t "u" = 1 := by
    intro t ht
    obtain ⟨l1, l2⟩ := m1 t (k3 t (List.mem_append_right _ ht))
    have l1 := l1 ⟨"x", sym "u"⟩ (by simp [exP])
    have l2 := l2 "u" (by simp [exP])
    rw [hx] at l1 l2
    simp [barred, exCurve] at l1 l2
    exact ⟨l1, l2⟩
  constructor
  · rw [k5.states]
    congr 1
    refine List.map_congr_left fun t ht => ?_
    simpa [exP] using (m2 t ht).1
  · rw [k5.controls]
    congr 1
    refine List.map_congr_left fun t ht => ?_
    simpa [exP, Opt.exQ] using (m2 t ht).2

end Beluga.E2E
