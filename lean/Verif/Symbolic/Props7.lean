import Verif.Symbolic.Props3
import Verif.Symbolic.Follow

/-! # Time as a state (C54) and constants of motion from symmetries (C53) -/

namespace Beluga.Sym

open Expr

set_option linter.unusedSectionVars false

/-! ### C54 -/

theorem momentumShift_ok {p p' : Prob} (h : momentumShift p = .ok p') :
    p'.states = p.states ++ [⟨p.ind, 1⟩] ∧ p'.ind = "_" ++ p.ind ∧
      { p' with states := p.states, ind := p.ind, symmetries := p.symmetries, chain := p.chain } = p := by
  rw [momentumShift] at h
  split at h
  · cases h
  · cases h
    refine ⟨rfl, rfl, ?_⟩
    cases p; rfl

/-- `MomentumShift` makes time a state without changing the problem.  A curve that starts with the right time follows the
new equations if and only if it follows the old ones and its time is the time; costs, constraints, controls, parameters,
quadratures and constants are the same. -/
theorem C54_time {p p' : Prob} (h : momentumShift p = .ok p') :
    (∀ U a b ρ, ρ a p.ind = a →
      (Follows U p'.states 1 a b ρ ↔ Follows U p.states 1 a b ρ ∧
        ∀ t ∈ Set.Icc a b, HasDerivAt (fun τ => ρ τ p.ind) 1 t ∧ ρ t p.ind = t)) ∧
    { p' with states := p.states, ind := p.ind, symmetries := p.symmetries, chain := p.chain } = p := by
  obtain ⟨hs, -, hr⟩ := momentumShift_ok h
  refine ⟨fun U a b ρ ha => ?_, hr⟩
  constructor
  · intro hf
    have h1 : ∀ t ∈ Set.Icc a b, HasDerivAt (fun τ => ρ τ p.ind) 1 t := by
      intro t ht
      have := hf t ht ⟨p.ind, 1⟩ (by rw [hs]; simp)
      simpa using this
    refine ⟨fun t ht d hd => hf t ht d (by rw [hs]; simp [hd]), fun t ht => ⟨h1 t ht, ?_⟩⟩
    have h0 : ∀ t ∈ Set.Icc a b, HasDerivAt (fun τ => ρ τ p.ind - τ) 0 t := by
      intro t ht
      have := (h1 t ht).sub (hasDerivAt_id' t)
      rw [sub_self] at this
      exact this
    have hc := eq_end_of_deriv_zero h0
    have e1 := hc t ht
    have e2 := hc a ⟨le_refl _, ht.1.trans ht.2⟩
    simp only [ha, sub_self] at e2
    rw [← e2] at e1
    linarith
  · rintro ⟨hf, ht'⟩ t ht d hd
    rw [hs, List.mem_append, List.mem_singleton] at hd
    rcases hd with hd | rfl
    · exact hf t ht d hd
    · simpa using (ht' t ht).1

/-- The new independent variable does not occur in the new problem (if the user does not use its name), so that the new
problem does not depend on when it is started. -/
theorem C54_autonomous {p p' : Prob} (h : momentumShift p = .ok p')
    (hfresh : ∀ s ∈ p.states, "_" ++ p.ind ∉ s.eom.free) : ∀ s ∈ p'.states, p'.ind ∉ s.eom.free := by
  obtain ⟨hs, hi, -⟩ := momentumShift_ok h
  intro s hm
  rw [hs, List.mem_append, List.mem_singleton] at hm
  rw [hi]
  rcases hm with hm | rfl
  · exact hfresh s hm
  · simp [free]

example : (momentumShift { exD with states := [⟨"x", sym "t" * sym "u"⟩] }).map (fun p => (p.ind, p.states)) =
    .ok ("_t", [⟨"x", sym "t" * sym "u"⟩, ⟨"t", 1⟩]) := by decide +kernel

/-! ### What is assumed of sympy's `integrate`, and a second assumption on `LUsolve` -/

/-- The result of `LUsolve` contains no symbols other than those of the system. -/
def LuFree (S : Sympy) : Prop := ∀ M b x, S.lu M b = .ok x → ∀ e ∈ x, ∀ s ∈ e.free,
  (∃ r ∈ M, ∃ m ∈ r, s ∈ m.free) ∨ ∃ c ∈ b, s ∈ c.free

/-- `integrate(e, x)` of an expression without `x` is an expression whose derivative is `e`, without other symbols. -/
structure IntegrateConst (S : Sympy) : Prop where
  free : ∀ e x, x ∉ e.free → ∀ s ∈ (S.integrate e x).free, s = x ∨ s ∈ e.free
  deriv : ∀ e x, x ∉ e.free → ∀ {K : Type} [Field K] (I : Interp K) (ρ : Name → K),
    eval I ρ ((S.integrate e x).diff x) = eval I ρ e
  smooth : ∀ e x, x ∉ e.free → ∀ U ρ, Smooth U ρ e → Smooth U ρ (S.integrate e x)

/-! ### C53 -/

theorem standardForm_free {n : Nat} {r : List Expr} (hr : r ∈ standardForm n) {m : Expr} (hm : m ∈ r) : m.free = [] := by
  rw [standardForm] at hr
  obtain ⟨i, -, rfl⟩ := List.mem_map.1 hr
  obtain ⟨j, -, rfl⟩ := List.mem_map.1 hm
  split
  · rfl
  · split <;> rfl

/-- The gradient of the quantity that `noether` returns for a field that is constant along the trajectories. -/
theorem noether_gradient {S : Sympy} (hS : LuSound S) (hF : LuFree S) (hI : IntegrateConst S) {n : Nat}
    {basis : List Name} {field : List Expr} {g : Expr} (hb : basis.length = 2 * n) (hnd : basis.Nodup)
    (hc : ∀ f ∈ field, ∀ s ∈ f.free, s ∉ basis) (h : noether S (standardForm n) basis field = .ok g) :
    ∃ x, S.lu (standardForm n) field = .ok x ∧ x.length = 2 * n ∧
      (∀ s ∈ g.free, s ∈ basis ∨ ∃ f ∈ field, s ∈ f.free) ∧
      (∀ U ρ, (∀ e ∈ x, Smooth U ρ e) → Smooth U ρ g) ∧
      ∀ {K : Type} [Field K] (I : Interp K) (ρ : Name → K), (∀ e ∈ x, Defined I ρ e) → ∀ i < n,
        eval I ρ (g.diff (basis.getD i "")) = -eval I ρ (field.getD (i + n) 0) ∧
        eval I ρ (g.diff (basis.getD (i + n) "")) = eval I ρ (field.getD i 0) := by
  rw [noether] at h
  cases hx : S.lu (standardForm n) field with
  | error e => rw [hx] at h; cases h
  | ok x =>
    rw [hx] at h
    simp only [bind, Except.bind, Except.ok.injEq] at h
    have hl : (standardForm n).length = 2 * n := by simp [standardForm]
    have hlen : x.length = 2 * n := by rw [hS.length _ _ _ hx, hl]
    have hxf : ∀ e ∈ x, ∀ s ∈ e.free, ∃ f ∈ field, s ∈ f.free := by
      intro e he s hs
      rcases hF _ _ _ hx e he s hs with ⟨r, hr, m, hm, hsm⟩ | h
      · rw [standardForm_free hr hm] at hsm; cases hsm
      · exact h
    have hxb : ∀ e ∈ x, ∀ b ∈ basis, b ∉ e.free := by
      intro e he b hb hmem
      obtain ⟨f, hf, hs⟩ := hxf e he b hmem
      exact hc f hf b hs hb
    have hmemz : ∀ bx ∈ basis.zip x, bx.1 ∈ basis ∧ bx.2 ∈ x := fun bx hbx => List.of_mem_zip hbx
    refine ⟨x, rfl, hlen, ?_, ?_, ?_⟩
    · intro s hs
      rw [← h] at hs
      have : ∀ (l : List (Name × Expr)) (acc : Expr), (∀ bx ∈ l, bx.1 ∈ basis ∧ bx.2 ∈ x) →
          (∀ s ∈ acc.free, s ∈ basis ∨ ∃ f ∈ field, s ∈ f.free) →
          ∀ s ∈ (l.foldl (fun acc bx => acc + S.integrate bx.2 bx.1) acc).free, s ∈ basis ∨ ∃ f ∈ field, s ∈ f.free := by
        intro l
        induction l with
        | nil => intro acc _ ha; exact ha
        | cons bx l ih =>
          intro acc hm ha
          refine ih _ (fun bx h => hm bx (List.mem_cons_of_mem _ h)) ?_
          intro s hs
          obtain ⟨h1, h2⟩ := hm bx (List.mem_cons_self ..)
          rcases List.mem_append.1 (show s ∈ acc.free ++ (S.integrate bx.2 bx.1).free from hs) with hs | hs
          · exact ha s hs
          · rcases hI.free _ _ (hxb _ h2 _ h1) s hs with rfl | hs
            · exact Or.inl h1
            · exact Or.inr (hxf _ h2 s hs)
      exact this _ _ hmemz (by intro s hs; simp [Expr.free] at hs) s hs
    · intro U ρ hsm
      rw [← h]
      refine smooth_foldl_add (fun bx : Name × Expr => S.integrate bx.2 bx.1) _ _ trivial fun bx hbx => ?_
      obtain ⟨h1, h2⟩ := hmemz bx hbx
      exact hI.smooth _ _ (hxb _ h2 _ h1) U ρ (hsm _ h2)
    · intro K _ I ρ hd
      have hgrad : ∀ j < 2 * n, eval I ρ (g.diff (basis.getD j "")) = eval I ρ (x.getD j 0) := by
        intro j hj
        rw [← h, diff_foldl_add I ρ (basis.getD j "") (fun bx : Name × Expr => S.integrate bx.2 bx.1)]
        have h0 : eval I ρ ((0 : Expr).diff (basis.getD j "")) = 0 := by
          change ((0 : ℚ) : K) = 0
          simp
        rw [h0, zero_add]
        have hjb : j < basis.length := by omega
        have hjx : j < x.length := by omega
        have eb : basis.getD j "" = basis[j] := by simp [List.getD, List.getElem?_eq_getElem hjb]
        have ex : x.getD j 0 = x[j] := by simp [List.getD, List.getElem?_eq_getElem hjx]
        rw [eb, ex]
        have hsum : ((basis.zip x).map fun bx => eval I ρ ((S.integrate bx.2 bx.1).diff basis[j])) =
            (List.range (2 * n)).map fun k => if k = j then eval I ρ x[j] else 0 := by
          apply List.ext_getElem
          · simp [hb, hlen]
          · intro k hk1 hk2
            have hk : k < 2 * n := by simpa using hk2
            have hkb : k < basis.length := by omega
            have hkx : k < x.length := by omega
            simp only [List.getElem_map, List.getElem_zip, List.getElem_range]
            by_cases hkj : k = j
            · subst hkj
              rw [if_pos rfl, hI.deriv _ _ (hxb _ (List.getElem_mem ..) _ (List.getElem_mem ..))]
            · rw [if_neg hkj]
              apply eval_diff_of_not_mem
              intro hmem
              rcases hI.free _ _ (hxb _ (List.getElem_mem hkx) _ (List.getElem_mem hkb)) _ hmem with e | hmem
              · exact hkj ((List.Nodup.getElem_inj_iff hnd).1 e).symm
              · exact hxb _ (List.getElem_mem hkx) _ (List.getElem_mem hjb) hmem
        rw [hsum]
        have : ∀ (m : Nat) (v : K), j < m → ((List.range m).map fun k => if k = j then v else 0).sum = v := by
          intro m v hm
          induction m with
          | zero => omega
          | succ m ih =>
            rw [List.range_succ, List.map_append, List.sum_append]
            by_cases hjm : j < m
            · rw [ih hjm]
              simp [show m ≠ j by omega]
            · have : j = m := by omega
              subst this
              have h0 : ((List.range j).map fun k => if k = j then v else 0).sum = 0 := by
                apply List.sum_eq_zero
                intro y hy
                obtain ⟨k, hk, rfl⟩ := List.mem_map.1 hy
                rw [List.mem_range] at hk
                rw [if_neg (by omega)]
              rw [h0]; simp
        exact this _ _ hj
      have hdef : ∀ j < 2 * n, Defined I ρ (x.getD j 0) := by
        intro j hj
        have hjx : j < x.length := by omega
        rw [show x.getD j 0 = x[j] by simp [List.getD, List.getElem?_eq_getElem hjx]]
        exact hd _ (List.getElem_mem ..)
      intro i hi
      have hs := hS.solves _ _ _ hx I ρ
      rw [hl] at hs
      have h1 := hs i (by omega) fun j hj _ => hdef j hj
      have h2 := hs (i + n) (by omega) fun j hj _ => hdef j hj
      rw [sum_standard_upper I ρ n i hi] at h1
      rw [sum_standard_lower I ρ n i hi] at h2
      rw [hgrad i (by omega), hgrad (i + n) (by omega)]
      exact ⟨by rw [← h2, neg_neg], h1⟩

/-- The constants of motion that the symplectic `Dualize` appends. -/
theorem dualize_coms {S : Sympy} {p p' : Prob} (hs : p.sympified = true) (hc : p.costates = [])
    (hcp : p.coparameters = []) (h : dualize S .diffyg p = .ok p') {k : Nat} {f : List Expr}
    (hk : p.symmetries[k]? = some f) :
    ∃ g, noether S (standardForm (p.states.length + p.parameters.length))
        (p.states.map Dyn.name ++ (p.states.map Dyn.name).map lamName)
        (f ++ (p.states.map Dyn.name).map fun _ => 0) = .ok g ∧ ("com_" ++ toString k, g) ∈ p'.coms := by
  rw [dualize, if_neg (by simp [hs])] at h
  simp only [hc, hcp, List.nil_append, bind, Except.bind] at h
  rw [if_neg (by simp)] at h
  cases hv : vectorField S (hamiltonianOf p.costPath p.states) (standardForm (p.states.map Dyn.name ++ p.parameters).length)
      (p.states.map Dyn.name ++ p.parameters ++ (((p.states.map Dyn.name).map fun n => (⟨lamName n, 0⟩ : Dyn)) ++
        p.parameters.map fun n => (⟨lamName n, 0⟩ : Dyn)).map Dyn.name) with
  | error e => rw [hv] at h; cases h
  | ok chi =>
    rw [hv] at h
    simp only at h
    split at h
    · cases h
    · next r hr =>
      simp only [Except.ok.injEq] at h
      have hmap : ∀ (l : List (List Expr)) (r : List Expr) (F : List Expr → Py Expr), l.mapM F = .ok r →
          ∀ (k : Nat) (f : List Expr), l[k]? = some f → ∃ g, F f = .ok g ∧ r[k]? = some g := by
        intro l
        induction l with
        | nil => intro r F _ k f hk; simp at hk
        | cons a l ih =>
          intro r F hr k f hk
          rw [List.mapM_cons] at hr
          cases hF : F a with
          | error e => rw [hF] at hr; cases hr
          | ok g0 =>
            rw [hF] at hr
            cases hl : l.mapM F with
            | error e => rw [hl] at hr; cases hr
            | ok r0 =>
              rw [hl] at hr
              cases hr
              cases k with
              | zero =>
                simp only [List.getElem?_cons_zero, Option.some.injEq] at hk
                subst hk
                exact ⟨g0, hF, rfl⟩
              | succ k => exact ih r0 F hl k f (by simpa using hk)
      obtain ⟨g, hg, hrk⟩ := hmap _ _ _ hr k (f ++ ((p.states.map Dyn.name).map fun n => (⟨lamName n, 0⟩ : Dyn)).map fun _ => 0)
        (by simp [hk])
      refine ⟨g, ?_, ?_⟩
      · rw [← hg]
        simp [Function.comp_def]
      · rw [← h]
        simp only [List.mem_append]
        refine Or.inr (List.mem_map.2 ⟨(g, k), ?_, rfl⟩)
        rw [List.mk_mem_zipIdx_iff_getElem?]
        exact hrk

theorem defined_of_smooth {U : Name → Nat → ℝ → ℝ} {ρ : Name → ℝ} : ∀ {e : Expr}, Smooth U ρ e → Defined (real U) ρ e
  | num _, _ => trivial
  | .pi, _ => trivial
  | sym _, _ => trivial
  | add _ _, h => ⟨defined_of_smooth h.1, defined_of_smooth h.2⟩
  | mul _ _, h => ⟨defined_of_smooth h.1, defined_of_smooth h.2⟩
  | inv _, h => ⟨defined_of_smooth h.1, h.2⟩
  | pow a _, h => defined_of_smooth (e := a) h
  | fn _ a, h => defined_of_smooth (e := a) h.1

theorem sum_map_range {α : Type} (L : List α) (d : α) (F : α → ℝ) :
    (L.map F).sum = ∑ i ∈ Finset.range L.length, F (L.getD i d) := by
  induction L using List.reverseRecOn with
  | nil => simp
  | append_singleton l a ih =>
    rw [List.map_append, List.sum_append, ih, List.length_append, List.length_singleton, Finset.sum_range_succ]
    congr 1
    · apply Finset.sum_congr rfl
      intro i hi
      rw [Finset.mem_range] at hi
      simp [List.getD, List.getElem?_append_left hi]
    · simp [List.getD]

/-- What is needed of a curve and a symmetry: the field is constant along the curve, everything is differentiable. -/
structure ConstantField (S : Sympy) (U : Name → Nat → ℝ → ℝ) (p p' : Prob) (f : List Expr) (a b : ℝ)
    (ρ : ℝ → Name → ℝ) : Prop where
  len : f.length = p.states.length
  const : ∀ c ∈ f, ∀ s ∈ c.free, s ∉ p.states.map Dyn.name ++ (p.states.map Dyn.name).map lamName
  still : ∀ c ∈ f, ∀ s ∈ c.free, Moves a b ρ 0 s
  field : ∀ x, S.lu (standardForm p.states.length) (f ++ (p.states.map Dyn.name).map fun _ => 0) = .ok x →
    ∀ e ∈ x, ∀ t ∈ Set.Icc a b, Smooth U (ρ t) e
  rates : ∀ l ∈ p'.costates, ∀ t ∈ Set.Icc a b, Defined (real U) (ρ t) l.eom

/-- `Dualize` by the symplectic method turns each symmetry `f` of the problem into a quantity that changes, along every
solution of the generated equations, with minus the derivative of the Hamiltonian in the direction of `f`.  (No dynamic
parameters, fields that are constant; see `C53_violated` for what the code registers by itself.) -/
theorem C53_rate_partial {S : Sympy} (hS : LuSound S) (hF : LuFree S) (hI : IntegrateConst S) {p p' : Prob}
    (hs : p.sympified = true) (hc : p.costates = []) (hcp : p.coparameters = []) (hp : p.parameters = [])
    (hf : LamFresh p) (hdis : ∀ s ∈ p.states, ∀ r ∈ p.states, lamName s.name ≠ r.name)
    (h : dualize S .diffyg p = .ok p') {k : Nat} {f : List Expr} (hk : p.symmetries[k]? = some f)
    {U : Name → Nat → ℝ → ℝ} {a b : ℝ} {ρ : ℝ → Name → ℝ} (hcf : ConstantField S U p p' f a b ρ)
    (hfol : Follows U (p'.states ++ p'.costates) 1 a b ρ) :
    ∃ g, ("com_" ++ toString k, g) ∈ p'.coms ∧ ∀ t ∈ Set.Icc a b, HasDerivAt (fun τ => eval (real U) (ρ τ) g)
      (-((p.states.zip f).map fun sf => eval (real U) (ρ t) sf.2 *
        eval (real U) (ρ t) ((hamiltonianOf p.costPath p.states).diff sf.1.name)).sum) t := by
  obtain ⟨g, hg, hmem⟩ := dualize_coms hs hc hcp h hk
  refine ⟨g, hmem, fun t ht => ?_⟩
  simp only [hp, List.length_nil, add_zero] at hg
  set n := p.states.length with hn
  set names := p.states.map Dyn.name with hnames
  have hnl : names.length = n := by rw [hnames, List.length_map]
  have hnd : (names ++ names.map lamName).Nodup := by
    rw [List.nodup_append]
    refine ⟨hf.nodup, ?_, ?_⟩
    · rw [List.nodup_map_iff_inj_on hf.nodup]
      intro x _ y _ e
      exact lam_inj e
    · intro x hx y hy e
      subst e
      obtain ⟨r, hr, rfl⟩ := List.mem_map.1 hx
      obtain ⟨y, hy', e⟩ := List.mem_map.1 hy
      obtain ⟨s, hs', rfl⟩ := List.mem_map.1 hy'
      exact hdis s hs' r hr e
  have hfree : ∀ c ∈ f ++ names.map (fun _ => (0 : Expr)), ∀ s ∈ c.free, s ∉ names ++ names.map lamName := by
    intro c hc' s hsf
    rcases List.mem_append.1 hc' with hc' | hc'
    · exact hcf.const c hc' s hsf
    · obtain ⟨_, -, rfl⟩ := List.mem_map.1 hc'
      simp [Expr.free] at hsf
  obtain ⟨x, hx, hxl, hgf, hgs, hgrad⟩ := noether_gradient hS hF hI (by simp [hnl]; omega) hnd hfree hg
  have hxs : ∀ e ∈ x, Smooth U (ρ t) e := fun e he => hcf.field x hx e he t ht
  -- the rates of the dual problem
  obtain ⟨hcn, -, hcr⟩ := diffyg_rates hS hs hc hcp h
  have hps : p'.states = p.states := by
    obtain ⟨chi, stars, -, q, hq, rfl⟩ := dualize_diffyg hs hc hcp h
    have := dualize_traditional S p hs hc hcp
    rw [hq] at this
    simp only [Except.ok.injEq] at this
    rw [this]
  have hcl : p'.costates.length = n := by
    have := congrArg List.length hcn
    simpa using this
  have hdn : (p'.states ++ p'.costates).map Dyn.name = names ++ names.map lamName := by
    rw [List.map_append, hps, hcn]
    simp [names, Function.comp_def]
  have hder := hfol.deriv (e := g) (by rw [hdn]; exact hnd)
    (by
      intro s hsg hsn
      rw [hdn] at hsn
      rcases hgf s hsg with h' | ⟨c, hc', hsc⟩
      · exact absurd h' hsn
      · rcases List.mem_append.1 hc' with hc' | hc'
        · exact hcf.still c hc' s hsc
        · obtain ⟨_, -, rfl⟩ := List.mem_map.1 hc'
          simp [Expr.free] at hsc)
    ht (hgs U (ρ t) hxs)
  refine hder.congr_deriv ?_
  have hgr := hgrad (real U) (ρ t) fun e he => defined_of_smooth (hxs e he)
  rw [one_mul, List.map_append, List.sum_append, hps]
  have hzero : ∀ i < n, (f ++ names.map fun _ => (0 : Expr)).getD (i + n) 0 = 0 := by
    intro i hi
    have : (names.map fun _ => (0 : Expr))[i]? = some 0 := by
      rw [List.getElem?_map, List.getElem?_eq_getElem (by omega)]; rfl
    rw [List.getD, List.getElem?_append_right (by rw [hcf.len]; omega), hcf.len, show i + n - p.states.length = i by omega,
      this]
    rfl
  have hfst : ∀ i < n, (f ++ names.map fun _ => (0 : Expr)).getD i 0 = f.getD i 0 := by
    intro i hi
    rw [List.getD, List.getElem?_append_left (by rw [hcf.len]; exact hi)]; rfl
  have hs1 : (p.states.map fun d => eval (real U) (ρ t) (g.diff d.name) * eval (real U) (ρ t) d.eom).sum = 0 := by
    apply List.sum_eq_zero
    intro y hy
    obtain ⟨d, hd, rfl⟩ := List.mem_map.1 hy
    obtain ⟨i, hi, rfl⟩ := List.getElem_of_mem hd
    have hb : (names ++ names.map lamName).getD i "" = (p.states[i]).name := by
      have hi' : i < names.length := by omega
      rw [List.getD, List.getElem?_append_left hi', List.getElem?_eq_getElem hi']
      simp [names]
    have := (hgr i hi).1
    rw [hb, hzero i hi, eval_zero, neg_zero] at this
    rw [this, zero_mul]
  rw [hs1, zero_add, sum_map_range _ (⟨"", 0⟩ : Dyn), hcl]
  have hzl : (p.states.zip f).length = n := by simp [hcf.len, hn]
  rw [sum_map_range (p.states.zip f) ((⟨"", 0⟩ : Dyn), (0 : Expr)), hzl, ← Finset.sum_neg_distrib]
  apply Finset.sum_congr rfl
  intro i hi
  rw [Finset.mem_range] at hi
  obtain ⟨l, hl, hrate⟩ := hcr i hi
  have hli : p'.costates.getD i (⟨"", 0⟩ : Dyn) = l := by simp [List.getD, hl]
  have hlm : l ∈ p'.costates := List.mem_of_getElem? hl
  have hlname : l.name = lamName (p.states[i]).name := by
    have := congrArg (fun L => L[i]?) hcn
    simp only [List.getElem?_map, hl, List.getElem?_eq_getElem hi] at this
    simpa using this
  have hb : (names ++ names.map lamName).getD (i + n) "" = lamName (p.states[i]).name := by
    have hi' : i < names.length := by omega
    rw [List.getD, List.getElem?_append_right (by omega), show i + n - names.length = i by omega, List.getElem?_map,
      List.getElem?_eq_getElem hi']
    simp [names]
  have hg2 := (hgr i hi).2
  rw [hb, hfst i hi] at hg2
  have hfi : i < f.length := by rw [hcf.len]; exact hi
  have hz : (p.states.zip f).getD i ((⟨"", 0⟩ : Dyn), (0 : Expr)) = (p.states[i], f[i]) := by
    rw [List.getD, List.getElem?_eq_getElem (by omega)]
    simp
  have hfd : f.getD i 0 = f[i] := by simp [List.getD, List.getElem?_eq_getElem hfi]
  have hnm : (p.states.map Dyn.name ++ p.parameters).getD (i + p.parameters.length) "" = (p.states[i]).name := by
    simp [hp, List.getD, List.getElem?_eq_getElem hi]
  rw [hli, hlname, hg2, hrate (real U) (ρ t) (hcf.rates l hlm t ht), hz, hfd, hnm]
  ring

/-- If the Hamiltonian does not change in the direction of the field, the quantity is constant along the solution. -/
theorem C53_conserved_partial {S : Sympy} (hS : LuSound S) (hF : LuFree S) (hI : IntegrateConst S) {p p' : Prob}
    (hs : p.sympified = true) (hc : p.costates = []) (hcp : p.coparameters = []) (hp : p.parameters = [])
    (hf : LamFresh p) (hdis : ∀ s ∈ p.states, ∀ r ∈ p.states, lamName s.name ≠ r.name)
    (h : dualize S .diffyg p = .ok p') {k : Nat} {f : List Expr} (hk : p.symmetries[k]? = some f)
    {U : Name → Nat → ℝ → ℝ} {a b : ℝ} {ρ : ℝ → Name → ℝ} (hcf : ConstantField S U p p' f a b ρ)
    (hfol : Follows U (p'.states ++ p'.costates) 1 a b ρ)
    (hsym : ∀ t ∈ Set.Icc a b, ((p.states.zip f).map fun sf => eval (real U) (ρ t) sf.2 *
        eval (real U) (ρ t) ((hamiltonianOf p.costPath p.states).diff sf.1.name)).sum = 0) :
    ∃ g, ("com_" ++ toString k, g) ∈ p'.coms ∧ ∀ t ∈ Set.Icc a b, eval (real U) (ρ t) g = eval (real U) (ρ b) g := by
  obtain ⟨g, hg, hd⟩ := C53_rate_partial hS hF hI hs hc hcp hp hf hdis h hk hcf hfol
  refine ⟨g, hg, eq_end_of_deriv_zero fun t ht => ?_⟩
  have := hd t ht
  rwa [hsym t ht, neg_zero] at this

/-- `MomentumShift` registers translation in time as a symmetry whenever no *rate* depends on time, whatever the path
cost.  The "constant of motion" made of it changes with minus the partial derivative of the path cost by time. -/
theorem C53_violated {S : Sympy} (hS : LuSound S) (hF : LuFree S) (hI : IntegrateConst S) {p0 p p' : Prob}
    (h0 : momentumShift p0 = .ok p) (ht0 : ∀ s ∈ p0.states, p0.ind ∉ s.eom.free)
    (hc : p0.costates = []) (hcp : p0.coparameters = []) (hp : p0.parameters = [])
    (hf : LamFresh p) (hdis : ∀ s ∈ p.states, ∀ r ∈ p.states, lamName s.name ≠ r.name)
    (h : dualize S .diffyg p = .ok p') {U : Name → Nat → ℝ → ℝ} {a b : ℝ} {ρ : ℝ → Name → ℝ}
    (hcf : ConstantField S U p p' (List.replicate p0.states.length 0 ++ [1]) a b ρ)
    (hfol : Follows U (p'.states ++ p'.costates) 1 a b ρ) :
    ∃ g, ("com_" ++ toString p0.symmetries.length, g) ∈ p'.coms ∧ ∀ t ∈ Set.Icc a b,
      HasDerivAt (fun τ => eval (real U) (ρ τ) g) (-eval (real U) (ρ t) (p0.costPath.diff p0.ind)) t := by
  have hst : p.states = p0.states ++ [⟨p0.ind, 1⟩] := (momentumShift_ok h0).1
  have hrest := (momentumShift_ok h0).2.2
  have hsp : p.sympified = true := by
    rw [momentumShift] at h0
    split at h0
    · cases h0
    · next hsy => cases h0; simpa using hsy
  have hsym : p.symmetries[p0.symmetries.length]? = some (List.replicate p0.states.length 0 ++ [1]) := by
    rw [momentumShift] at h0
    split at h0
    · cases h0
    · cases h0
      have : ((p0.states ++ [(⟨p0.ind, 1⟩ : Dyn)]).all fun s => !dependsOn p0.ind s.eom) = true := by
        rw [List.all_eq_true]
        intro s hs
        rw [List.mem_append, List.mem_singleton] at hs
        rcases hs with hs | rfl
        · simp [dependsOn, ht0 s hs]
        · simp [dependsOn, Expr.free]
      simp only [this, if_true]
      rw [List.getElem?_append_right (by simp)]
      simp
  have e1 := congrArg Prob.costates hrest
  have e2 := congrArg Prob.coparameters hrest
  have e3 := congrArg Prob.parameters hrest
  have e4 := congrArg Prob.costPath hrest
  simp only at e1 e2 e3 e4
  obtain ⟨g, hg, hd⟩ := C53_rate_partial hS hF hI hsp (Eq.trans e1 hc) (Eq.trans e2 hcp) (Eq.trans e3 hp) hf hdis h hsym hcf hfol
  refine ⟨g, hg, fun t ht => (hd t ht).congr_deriv ?_⟩
  congr 1
  rw [hst, List.zip_append (by simp), List.map_append, List.sum_append, List.sum_eq_zero, zero_add]
  · simp only [List.zip_cons_cons, List.zip_nil_left, List.map_cons, List.map_nil, List.sum_cons, List.sum_nil, add_zero,
      eval_one, one_mul]
    rw [hamiltonianOf, diff_foldl_add, e4, List.sum_eq_zero, add_zero]
    intro y hy
    obtain ⟨s, hs, rfl⟩ := List.mem_map.1 hy
    rw [diff_sym_mul]
    have hne : lamName s.name ≠ p0.ind := by
      intro e
      exact hdis s (by rw [hst]; exact hs) ⟨p0.ind, 1⟩ (by rw [hst]; simp) e
    rw [if_neg hne, zero_add]
    rw [List.mem_append, List.mem_singleton] at hs
    rcases hs with hs | rfl
    · rw [eval_diff_of_not_mem _ _ (ht0 s hs), mul_zero]
    · rw [eval_diff_of_not_mem _ _ (by simp [Expr.free]), mul_zero]
  · intro y hy
    obtain ⟨sf, hsf, rfl⟩ := List.mem_map.1 hy
    have := List.eq_of_mem_replicate (List.of_mem_zip hsf).2
    rw [this, eval_zero, zero_mul]

/-- If the path cost does not contain the time, everything `MomentumShift` registers by itself is conserved along every
solution of the generated equations: time translation is only registered if it is a symmetry of the rates. -/
theorem C53_time_partial {S : Sympy} (hS : LuSound S) (hF : LuFree S) (hI : IntegrateConst S) {p0 p p' : Prob}
    (h0 : momentumShift p0 = .ok p) (hcost : p0.ind ∉ p0.costPath.free)
    (hc : p0.costates = []) (hcp : p0.coparameters = []) (hp : p0.parameters = [])
    (hf : LamFresh p) (hdis : ∀ s ∈ p.states, ∀ r ∈ p.states, lamName s.name ≠ r.name)
    (h : dualize S .diffyg p = .ok p') {k : Nat} {f : List Expr} (hk : p.symmetries[k]? = some f)
    (hnew : p0.symmetries.length ≤ k) {U : Name → Nat → ℝ → ℝ} {a b : ℝ} {ρ : ℝ → Name → ℝ}
    (hcf : ConstantField S U p p' f a b ρ) (hfol : Follows U (p'.states ++ p'.costates) 1 a b ρ) :
    ∃ g, ("com_" ++ toString k, g) ∈ p'.coms ∧ ∀ t ∈ Set.Icc a b, eval (real U) (ρ t) g = eval (real U) (ρ b) g := by
  have key : k = p0.symmetries.length ∧ f = List.replicate p0.states.length 0 ++ [1] ∧
      ∀ s ∈ p0.states, p0.ind ∉ s.eom.free := by
    have h1 := h0
    rw [momentumShift] at h1
    split at h1
    · cases h1
    · cases h1
      dsimp only at hk
      by_cases hi : ((p0.states ++ [(⟨p0.ind, 1⟩ : Dyn)]).all fun s => !dependsOn p0.ind s.eom) = true
      · rw [if_pos hi, List.getElem?_append_right (by simpa using hnew)] at hk
        obtain rfl : k = p0.symmetries.length := by
          by_contra hne
          rw [List.getElem?_eq_none (by simp; omega)] at hk
          cases hk
        refine ⟨rfl, ?_, fun s hs => ?_⟩
        · simpa using hk.symm
        · have := List.all_eq_true.1 hi s (List.mem_append_left _ hs)
          simpa [dependsOn] using this
      · rw [if_neg hi, List.getElem?_eq_none (by simpa using hnew)] at hk
        cases hk
  obtain ⟨rfl, rfl, ht0⟩ := key
  obtain ⟨g, hg, hd⟩ := C53_violated hS hF hI h0 ht0 hc hcp hp hf hdis h hcf hfol
  refine ⟨g, hg, eq_end_of_deriv_zero fun t ht => ?_⟩
  have := hd t ht
  rwa [eval_diff_of_not_mem _ _ hcost, neg_zero] at this

/-! ### The assumptions can be met -/

theorem free_foldl_add {α : Type} (g : α → Expr) {Q : Name → Prop} : ∀ (l : List α) (acc : Expr),
    (∀ s ∈ acc.free, Q s) → (∀ a ∈ l, ∀ s ∈ (g a).free, Q s) → ∀ s ∈ (l.foldl (fun acc a => acc + g a) acc).free, Q s
  | [], _, h, _ => h
  | a :: l, acc, h, hg => free_foldl_add g l _ (fun s hs => by
      rcases List.mem_append.1 (show s ∈ acc.free ++ (g a).free from hs) with hs | hs
      · exact h s hs
      · exact hg a (List.mem_cons_self ..) s hs) fun b hb => hg b (List.mem_cons_of_mem _ hb)

theorem free_detE {Q : Name → Prop} : ∀ (n : Nat) (A : Nat → Nat → Expr),
    (∀ i < n, ∀ j < n, ∀ s ∈ (A i j).free, Q s) → ∀ s ∈ (detE n A).free, Q s
  | 0, _, _ => by intro s hs; simp [detE, Expr.free] at hs
  | n + 1, A, h => by
    rw [detE]
    refine free_foldl_add (fun j : Nat => pow (num (-1)) j * A 0 j * detE n fun i k => A (i + 1) (if k < j then k else k + 1))
      _ _ (by intro s hs; simp [Expr.free] at hs) ?_
    intro j hj s hs
    rw [List.mem_range] at hj
    rcases List.mem_append.1 (show s ∈ ((pow (num (-1)) j) * A 0 j).free ++ (detE n _).free from hs) with hs | hs
    · rcases List.mem_append.1 (show s ∈ (pow (num (-1)) j).free ++ (A 0 j).free from hs) with hs | hs
      · simp [Expr.free] at hs
      · exact h 0 (by omega) j hj s hs
    · refine free_detE n _ ?_ s hs
      intro i hi k hk s hs
      refine h (i + 1) (by omega) _ ?_ s hs
      split <;> omega

theorem luFree_cramer (S : Sympy) (h : S.lu = cramerLu) : LuFree S := by
  intro M b x hx e he s hs
  rw [h, cramerLu] at hx
  split at hx
  · next hc =>
    cases hx
    obtain ⟨i, -, rfl⟩ := List.mem_map.1 he
    have hM : ∀ r c, ∀ s ∈ (entry M r c).free, (∃ r ∈ M, ∃ m ∈ r, s ∈ m.free) ∨ ∃ c ∈ b, s ∈ c.free := by
      intro r c s hs
      rw [entry] at hs
      by_cases hr : r < M.length
      · by_cases hcc : c < (M[r]).length
        · rw [show M.getD r [] = M[r] by simp [List.getD, List.getElem?_eq_getElem hr],
            show (M[r]).getD c 0 = (M[r])[c] by simp [List.getD, List.getElem?_eq_getElem hcc]] at hs
          exact Or.inl ⟨_, List.getElem_mem hr, _, List.getElem_mem hcc, hs⟩
        · rw [show M.getD r [] = M[r] by simp [List.getD, List.getElem?_eq_getElem hr], List.getD,
            List.getElem?_eq_none (by omega)] at hs
          simp [Expr.free] at hs
      · rw [show M.getD r [] = [] by simp [List.getD, List.getElem?_eq_none (show M.length ≤ r by omega)]] at hs
        simp [Expr.free] at hs
    rcases List.mem_append.1 (show s ∈ (detE _ _).free ++ (detE M.length (entry M)).free from hs) with hs | hs
    · refine free_detE (Q := fun s => (∃ r ∈ M, ∃ m ∈ r, s ∈ m.free) ∨ ∃ c ∈ b, s ∈ c.free) _ _ ?_ s hs
      intro r hr c _ s hs
      split at hs
      · beta_reduce at hs
        rw [show b.getD r 0 = b[r] by simp [List.getD, List.getElem?_eq_getElem (show r < b.length by omega)]] at hs
        exact Or.inr ⟨_, List.getElem_mem _, hs⟩
      · exact hM r c s hs
    · exact free_detE (Q := fun s => (∃ r ∈ M, ∃ m ∈ r, s ∈ m.free) ∨ ∃ c ∈ b, s ∈ c.free) _ _
        (fun r _ c _ s hs => hM r c s hs) s hs
  · cases hx

/-- Cramer's rule, and the integral of a constant. -/
def exSympyI : Sympy := ⟨fun _ _ => [], cramerLu, fun e x => e * sym x⟩

example : LuSound exSympyI := luSound_cramer _ rfl

example : LuFree exSympyI := luFree_cramer _ rfl

example : IntegrateConst exSympyI where
  free e x _ s hs := by
    rcases List.mem_append.1 (show s ∈ e.free ++ [x] from hs) with hs | hs
    · exact Or.inr hs
    · exact Or.inl (by simpa using hs)
  deriv e x hx K _ I ρ := by
    change eval I ρ (e.diff x) * _ + eval I ρ e * eval I ρ ((sym x).diff x) = _
    rw [eval_diff_of_not_mem I ρ hx, zero_mul, zero_add]
    simp [Expr.diff, eval]
  smooth e x _ U ρ h := ⟨h, trivial⟩

/-- The rate of the first registered constant of motion along the generated equations, at a point. -/
def comRate (p : Prob) (ρ : Name → ℚ) : Py (Option ℚ) := do
  let p ← momentumShift p
  let p ← dualize exSympyI .diffyg p
  .ok ((p.coms.lookup "com_0").map fun g => ((p.states ++ p.costates).map fun d =>
    eval (⟨3, fun _ x => x⟩ : Interp ℚ) ρ (g.diff d.name) * eval ⟨3, fun _ x => x⟩ ρ d.eom).sum)

/-- `x' = u`; with path cost `u²` momentum in time is conserved. -/
def exN : Prob where
  ind := "t"
  states := [⟨"x", sym "u"⟩]
  controls := ["u"]
  costPath := sym "u" * sym "u"
  sympified := true

example : comRate exN (fun _ => 3) = .ok (some 0) := by decide +kernel

/-- With path cost `t u²` the same symmetry is registered, and the quantity is not conserved. -/
example : comRate { exN with costPath := sym "t" * (sym "u" * sym "u") } (fun _ => 3) = .ok (some (-9)) := by decide +kernel

/-- A symmetry of the user's, translation in `x`. -/
example : (dualize exSympyI .diffyg { exN with symmetries := [[1]] }).map (fun p => p.coms.map fun c =>
    eval (⟨3, fun _ x => x⟩ : Interp ℚ) (fun s => if s = "_lam_x" then 5 else 2) c.2) = .ok [14, 5] := by decide +kernel

end Beluga.Sym
