import Verif.Extremal.Props

/-! # Problems without explicit time, with `momentumShift` switched off: lemmas -/

namespace Beluga.Opt

open Beluga.Sym Beluga.Sym.Expr

variable {U : Name → Nat → ℝ → ℝ}

/-! ### Specification -/

/-- No expression of the problem mentions the time. -/
def Autonomous (p : Prob) : Prop := ∀ e ∈ allExprs p, p.ind ∉ e.free

/-- The problem before the dual variables are added, as `indirect` makes it without `momentumShift`. -/
def primal0 (S : Sympy) (p : Prob) : Py Prob := do
  let p1 ← preprocess p
  let ineq ← ineqSteps (p1.initial ++ p1.path ++ p1.terminal)
  runSteps S (ineq ++ if p1.switches.length > 0 then [.rashs] else []) p1

/-! ### The problem with and without the time as a state -/

/-- `q` is `p` with the time as one more state. -/
def Beside (p q : Prob) : Prop := ∃ sy ch, q = { p with
  states := p.states ++ [⟨p.ind, 1⟩]
  ind := "_" ++ p.ind
  symmetries := sy
  chain := ch }

theorem Beside.of {p q : Prob} (h : q = { p with
    states := p.states ++ [⟨p.ind, 1⟩]
    ind := "_" ++ p.ind
    symmetries := q.symmetries
    chain := q.chain }) : Beside p q := ⟨_, _, h⟩

theorem Beside.subsAll {p q : Prob} (h : Beside p q) (x : Name) (e : Expr) : Beside (p.subsAll x e) (q.subsAll x e) := by
  obtain ⟨sy, ch, rfl⟩ := h
  refine ⟨sy.map fun f => f.map (Expr.subs x e), ch, ?_⟩
  simp only [Prob.subsAll, List.map_append, List.map_cons, List.map_nil, Dyn.subs]
  rfl

theorem Beside.rashsLoop {p q : Prob} (h : Beside p q) : ∀ k, Beside (rashsLoop p k) (rashsLoop q k)
  | 0 => h
  | k + 1 => by
    have ih := Beside.rashsLoop h k
    have e : (Sym.rashsLoop q k).switches = (Sym.rashsLoop p k).switches := by
      obtain ⟨_, _, e⟩ := ih
      rw [e]
    rw [Sym.rashsLoop, Sym.rashsLoop, e]
    split
    · exact ih.subsAll _ _
    · exact ih

theorem Beside.utm {p q p' : Prob} (h : Beside p q) (hu : Sym.utm p = .ok p') : ∃ q', Sym.utm q = .ok q' ∧ Beside p' q' := by
  obtain ⟨sy, ch, rfl⟩ := h
  rw [Sym.utm] at hu
  by_cases hs : (!p.sympified) = true
  · rw [if_pos hs] at hu; cases hu
  rw [if_neg hs] at hu
  rw [Sym.utm]
  dsimp only
  rw [if_neg hs]
  have hfind : utmFind { p with states := p.states ++ [⟨p.ind, 1⟩], ind := "_" ++ p.ind, symmetries := sy, chain := ch } =
    utmFind p := rfl
  rw [hfind]
  cases hf : utmFind p with
  | none => rw [hf] at hu; cases hu
  | some li =>
    obtain ⟨loc, i⟩ := li
    rw [hf] at hu
    dsimp only at hu ⊢
    have hl : Prob.conList { p with states := p.states ++ [⟨p.ind, 1⟩], ind := "_" ++ p.ind, symmetries := sy, chain := ch } loc =
      Prob.conList p loc := by rcases loc with _ | _ | loc <;> rfl
    rw [hl]
    cases hc : (p.conList loc)[i]? with
    | none => rw [hc] at hu; cases hu
    | some c =>
      rw [hc] at hu
      dsimp only at hu ⊢
      cases ha : c.activator with
      | none => rw [ha] at hu; cases hu
      | some a =>
        cases hlo : c.lower with
        | none => rw [ha, hlo] at hu; cases hu
        | some lo =>
          cases hhi : c.upper with
          | none => rw [ha, hlo, hhi] at hu; cases hu
          | some hi =>
            rw [ha, hlo, hhi] at hu
            dsimp only at hu ⊢
            by_cases hk : (p.constants.any fun k => a = sym k) = true
            · rw [if_pos hk] at hu ⊢
              cases hu
              exact ⟨_, rfl, sy, _, rfl⟩
            · rw [if_neg hk] at hu; cases hu

theorem Beside.epsTrig {p q p' : Prob} (h : Beside p q) (hu : Sym.epsTrig p = .ok p') :
    ∃ q', Sym.epsTrig q = .ok q' ∧ Beside p' q' := by
  obtain ⟨sy, ch, rfl⟩ := h
  rw [Sym.epsTrig] at hu
  by_cases hs : (!p.sympified) = true
  · rw [if_pos hs] at hu; cases hu
  rw [if_neg hs] at hu
  rw [Sym.epsTrig]
  dsimp only
  rw [if_neg hs]
  cases hi : p.path.findIdx? fun c => c.method = .epstrig with
  | none => rw [hi] at hu; cases hu
  | some i =>
    rw [hi] at hu
    dsimp only at hu ⊢
    cases hc : p.path[i]? with
    | none => rw [hc] at hu; cases hu
    | some c =>
      rw [hc] at hu
      dsimp only at hu ⊢
      cases hk : p.controls.findIdx? fun u => c.expr = sym u with
      | none => rw [hk] at hu; cases hu
      | some k =>
        rw [hk] at hu
        dsimp only at hu ⊢
        cases h1 : p.controls[k]? with
        | none => rw [h1] at hu; cases hu
        | some u =>
          cases ha : c.activator with
          | none => rw [h1, ha] at hu; cases hu
          | some a =>
            cases hlo : c.lower with
            | none => rw [h1, ha, hlo] at hu; cases hu
            | some lo =>
              cases hhi : c.upper with
              | none => rw [h1, ha, hlo, hhi] at hu; cases hu
              | some hi' =>
                rw [h1, ha, hlo, hhi] at hu
                dsimp only at hu ⊢
                cases hu
                refine ⟨_, rfl, Beside.of ?_⟩
                simp only [Prob.subsAll, List.map_append, List.map_cons, List.map_nil, Dyn.subs]
                rfl

theorem Beside.runSteps {S : Sympy} : ∀ {steps : List Step} {p q p' : Prob},
    (∀ s ∈ steps, s = .utm ∨ s = .epsTrig ∨ s = .rashs) → Beside p q → Sym.runSteps S steps p = .ok p' →
    ∃ q', Sym.runSteps S steps q = .ok q' ∧ Beside p' q'
  | [], p, q, p', _, h, hr => by cases hr; exact ⟨q, rfl, h⟩
  | s :: steps, p, q, p', hs, h, hr => by
    rw [runSteps_cons] at hr
    obtain ⟨r, h1, hr⟩ := bind_ok hr
    have : ∃ q1, s.run S q = .ok q1 ∧ Beside r q1 := by
      rcases hs s (by simp) with rfl | rfl | rfl
      · exact h.utm h1
      · exact h.epsTrig h1
      · have h1 : rashs p = .ok r := h1
        rw [rashs] at h1
        by_cases hy : (!p.sympified) = true
        · rw [if_pos hy] at h1; cases h1
        rw [if_neg hy] at h1
        cases h1
        refine ⟨Sym.rashsLoop q q.switches.length, ?_, ?_⟩
        · change rashs q = _
          obtain ⟨_, _, rfl⟩ := h
          rw [rashs]
          dsimp only
          rw [if_neg hy]
        · have e : q.switches = p.switches := by obtain ⟨_, _, rfl⟩ := h; rfl
          rw [e]
          exact h.rashsLoop _
    obtain ⟨q1, h2, h3⟩ := this
    obtain ⟨q', h4, h5⟩ := Beside.runSteps (S := S) (fun s' hs' => hs s' (by simp [hs'])) h3 hr
    refine ⟨q', ?_, h5⟩
    rw [runSteps_cons, h2]
    exact h4

/-- With the time as a state, the same steps give the same problem with the time as a state. -/
theorem primal_beside {S : Sympy} {p q0 : Prob} (h : primal0 S p = .ok q0) : ∃ q, primal S p = .ok q ∧ Beside q0 q := by
  rw [primal0] at h
  obtain ⟨p1, h1, h⟩ := bind_ok h
  obtain ⟨ineq, h2, h⟩ := bind_ok h
  have hsy : p1.sympified = true := by
    by_contra hn
    have hs : ∀ {p q : Prob}, applyQuantities p = .ok q → p.sympified = true := by
      intro p q hq
      rw [applyQuantities] at hq
      by_contra hn
      rw [if_pos (by simpa using hn)] at hq
      cases hq
    have hk : ∀ (p : Prob) k, (elimLoop p k).sympified = p.sympified := by
      intro p k
      induction k with
      | zero => rfl
      | succ k ih =>
        rw [elimLoop]
        split
        · exact ih
        · exact ih
    rw [preprocess] at h1
    obtain ⟨p0, -, h1⟩ := bind_ok h1
    have h0 := hs h1
    rw [applyQuantities, if_neg (by simp [h0])] at h1
    cases h1
    exact hn (by rw [hk]; exact h0)
  have hm : ∃ p2, momentumShift p1 = .ok p2 ∧ Beside p1 p2 := by
    rw [momentumShift, if_neg (by simp [hsy])]
    exact ⟨_, rfl, _, _, rfl⟩
  obtain ⟨p2, hm1, hm2⟩ := hm
  obtain ⟨q, hq, hb⟩ := hm2.runSteps (S := S) (p' := q0) (by
    intro s hs
    rcases List.mem_append.1 hs with hs | hs
    · rcases ineqSteps_mem h2 s hs with rfl | rfl
      · exact Or.inr (Or.inl rfl)
      · exact Or.inl rfl
    · split at hs
      · exact Or.inr (Or.inr (by simpa using hs))
      · cases hs) h
  refine ⟨q, ?_, hb⟩
  rw [primal, h1]
  change (ineqSteps _ >>= _) = _
  rw [h2]
  change Sym.runSteps S _ p1 = _
  rw [runSteps_cons]
  change (momentumShift p1 >>= _) = _
  rw [hm1]
  exact hq

/-- `indirect` without `momentumShift`. -/
theorem indirect_split0 {S : Sympy} {o : Opts} {p p' : Prob} (hm : o.momentumShift = false) (h : indirect S o p = .ok p') :
    ∃ q ctl, primal0 S p = .ok q ∧
      (ctl = .algebraic ∧ o.controlMethod = .algebraic ∨ ctl = .differential o.method ∧ o.controlMethod = .differential) ∧
      Sym.runSteps S ([.dualize o.method, ctl] ++ (if o.normalizeTime then [.normalizeTime] else []) ++ [.squash] ++
        (if o.analyticalJacobian && o.controlMethod ≠ .algebraic then [.jacobians] else [])) q = .ok p' := by
  rw [indirect] at h
  obtain ⟨p1, h1, h⟩ := bind_ok h
  obtain ⟨steps, h2, h⟩ := bind_ok h
  obtain ⟨ineq, ctl, hineq, hctl, rfl⟩ := indirectSteps_ok h2
  rw [if_neg (by simp [hm]), List.nil_append, List.append_assoc, List.append_assoc, List.append_assoc, runSteps_append] at h
  obtain ⟨q, hq, h⟩ := bind_ok h
  refine ⟨q, ctl, ?_, hctl, ?_⟩
  · rw [primal0, h1]
    change (ineqSteps _ >>= _) = _
    rw [hineq]
    exact hq
  · rw [← h]
    simp

/-! ### Values that do not matter -/

theorem smooth_congr {ρ σ : Name → ℝ} : ∀ {e : Expr}, (∀ s ∈ e.free, ρ s = σ s) → Smooth U ρ e → Smooth U σ e
  | num _, _, _ => trivial
  | pi, _, _ => trivial
  | sym _, _, _ => trivial
  | add a b, h, hs => ⟨smooth_congr (fun s hs => h s (by simp [free, hs])) hs.1, smooth_congr (fun s hs => h s (by simp [free, hs])) hs.2⟩
  | mul a b, h, hs => ⟨smooth_congr (fun s hs => h s (by simp [free, hs])) hs.1, smooth_congr (fun s hs => h s (by simp [free, hs])) hs.2⟩
  | inv a, h, hs => ⟨smooth_congr (fun s hs => h s hs) hs.1, by rw [← eval_congr (real U) (e := a) fun s hs => h s hs]; exact hs.2⟩
  | pow a _, h, hs => smooth_congr (e := a) (fun s hs => h s hs) hs
  | fn f a, h, hs => ⟨smooth_congr (fun s hs => h s hs) hs.1, by rw [← eval_congr (real U) (e := a) fun s hs => h s hs]; exact hs.2⟩

/-- A function that does not depend on the symbol `l`. -/
def Ignores (l : Name) (f : Env → ℝ) : Prop := ∀ σ z, f (Function.update σ l z) = f σ

theorem ignores_eval {l : Name} {e : Expr} (h : l ∉ e.free) : Ignores l fun σ => eval (real U) σ e := by
  intro σ z
  refine eval_congr _ fun s hs => ?_
  rw [Function.update_of_ne]
  rintro rfl
  exact h hs

theorem Ignores.hasPartial {l x : Name} {f : Env → ℝ} (hf : Ignores l f) (hx : x ≠ l) {d : ℝ} {σ : Env} {z : ℝ}
    (h : HasPartial f x d (Function.update σ l z)) : HasPartial f x d σ := by
  rw [HasPartial] at h ⊢
  rw [Function.update_of_ne hx] at h
  have e : (fun y => f (Function.update (Function.update σ l z) x y)) = fun y => f (Function.update σ x y) := by
    funext y
    rw [Function.update_comm hx.symm z y σ, hf]
  rwa [e] at h

theorem Ignores.sum {α : Type} {l : Name} {L : List α} {w : α → ℝ} {f : α → Env → ℝ} (h : ∀ r ∈ L, Ignores l (f r)) :
    Ignores l fun σ => (L.map fun r => w r * f r σ).sum := by
  intro σ z
  dsimp only
  congr 1
  refine List.map_congr_left fun r hr => ?_
  rw [h r hr]

theorem Ignores.add {l : Name} {f g : Env → ℝ} (hf : Ignores l f) (hg : Ignores l g) : Ignores l fun σ => f σ + g σ := by
  intro σ z
  dsimp only
  rw [hf, hg]

theorem Ignores.ham {l : Name} {O : Ocp} (hp : Ignores l O.path) (hr : ∀ r ∈ O.rates, Ignores l r.2) (lam : Name → ℝ) :
    Ignores l (O.ham lam) :=
  hp.add (Ignores.sum (L := O.rates) (w := fun r => lam r.1) (f := fun r => r.2) hr)

theorem Ignores.lagrange {l : Name} {cost : Env → ℝ} {cons : List (Env → ℝ)} (hp : Ignores l cost)
    (hr : ∀ c ∈ cons, Ignores l c) (ν : Nat → ℝ) : Ignores l (lagrange cost cons ν) := by
  refine hp.add (Ignores.sum (L := cons.zipIdx) (w := fun c => ν c.2) (f := fun c => c.1) ?_)
  intro c hc
  exact hr c.1 (List.fst_mem_of_mem_zipIdx hc)

/-- A symbol that no function of the problem depends on may have any value along an extremal. -/
theorem Extremal.ignore {O : Ocp} {l : Name} {a b : ℝ} {x : ℝ → Env} {w : ℝ → ℝ} {lam : ℝ → Name → ℝ} {ν₀ ν₁ : Nat → ℝ}
    (h : Extremal O a b (fun t => Function.update (x t) l (w t)) lam ν₀ ν₁)
    (hl : l ≠ O.ind ∧ l ∉ O.rates.map Prod.fst ∧ l ∉ O.controls ∧ l ∉ O.fixed)
    (h1 : Ignores l O.path ∧ Ignores l O.costInitial ∧ Ignores l O.costTerminal)
    (h2 : ∀ r ∈ O.rates, Ignores l r.2) (h3 : ∀ c ∈ O.initial ++ O.terminal, Ignores l c) : Extremal O a b x lam ν₀ ν₁ := by
  have hr : ∀ r ∈ O.rates, r.1 ≠ l := fun r hr e => hl.2.1 (e ▸ List.mem_map_of_mem hr)
  have hham := fun t => Ignores.ham h1.1 h2 (lam t)
  have hl0 := Ignores.lagrange h1.2.1 (fun c hc => h3 c (List.mem_append_left _ hc)) ν₀
  have hl1 := Ignores.lagrange h1.2.2 (fun c hc => h3 c (List.mem_append_right _ hc)) ν₁
  refine ⟨?_, ?_, ?_, ?_, ?_, ?_, ?_, ?_, ?_, ?_, ?_⟩
  · intro t ht
    have := h.time t ht
    rwa [Function.update_of_ne hl.1.symm] at this
  · intro s hs t ht
    have hne : s ≠ l := fun e => hl.2.2.2 (e ▸ hs)
    have := h.fixed s hs t ht
    rwa [Function.update_of_ne hne, Function.update_of_ne hne] at this
  · intro r hr' t ht
    have := h.motion r hr' t ht
    rw [h2 r hr'] at this
    simpa only [Function.update_of_ne (hr r hr')] using this
  · intro r hr' t ht
    obtain ⟨d, hd1, hd2⟩ := h.adjoint r hr' t ht
    exact ⟨d, (hham t).hasPartial (hr r hr') hd1, hd2⟩
  · intro u hu t ht
    exact (hham t).hasPartial (fun e => hl.2.2.1 (e ▸ hu)) (h.stationary u hu t ht)
  · intro c hc
    have := h.initial c hc
    rwa [h3 c (List.mem_append_left _ hc)] at this
  · intro c hc
    have := h.terminal c hc
    rwa [h3 c (List.mem_append_right _ hc)] at this
  · intro r hr'
    exact hl0.hasPartial (hr r hr') (h.start r hr')
  · intro r hr'
    exact hl1.hasPartial (hr r hr') (h.stop r hr')
  · have := h.start_time
    rw [hham a] at this
    exact hl0.hasPartial hl.1.symm this
  · have := h.stop_time
    rw [hham b] at this
    exact hl1.hasPartial hl.1.symm this

/-! ### From the dual problem without the time to the dual problem with it -/

/-- Symbols of a problem before dualisation that do not occur. -/
structure Absent (q0 : Prob) (s : Name) : Prop where
  rates : ∀ d ∈ q0.states, s ∉ d.eom.free
  cons : ∀ c ∈ q0.initial ++ q0.terminal, s ∉ c.expr.free
  costs : s ∉ q0.costInitial.free ∧ s ∉ q0.costPath.free ∧ s ∉ q0.costTerminal.free

theorem free_augment {pre : String} {cost : Expr} {cons : List Con} {s : Name}
    (h : s ∈ (augment cost (nuNames pre cons.length) cons).free) :
    s ∈ cost.free ∨ (∃ c ∈ cons, s ∈ c.expr.free) ∨ ∃ i : Nat, s = pre ++ toString i := by
  rw [augment] at h
  rcases foldl_add_free (fun nc : Name × Con => sym nc.1 * nc.2.expr) s _ _ h with h | ⟨nc, hn, h⟩
  · exact Or.inl h
  · have hm := List.of_mem_zip hn
    have h : s ∈ [nc.1] ++ nc.2.expr.free := h
    simp only [List.mem_append, List.mem_singleton] at h
    rcases h with h | h
    · obtain ⟨i, -, hi⟩ := List.mem_map.1 hm.1
      exact Or.inr (Or.inr ⟨i, by rw [h, ← hi]⟩)
    · exact Or.inr (Or.inl ⟨nc.2, hm.2, h⟩)

/-- The curve with the time as one more state, whose costate is zero. -/
noncomputable def withTime (t : Name) (t0 c a : ℝ) (ρ : ℝ → Env) (τ : ℝ) : Env :=
  Function.update (Function.update (ρ τ) t (t0 + c * (τ - a))) (lamName t) 0

theorem DualSol.withTime {q0 q : Prob} (hb : Beside q0 q) {c a b : ℝ} {ρ : ℝ → Env} (h : DualSol U q0 c a b ρ) (t0 : ℝ)
    (ht : Absent q0 q0.ind) (hl : Absent q0 (lamName q0.ind)) (hind : q.ind ∉ (phif q).free)
    (hn1 : q0.ind ∉ q0.states.map Dyn.name ++ q0.controls) (hn2 : lamName q0.ind ∉ q0.states.map Dyn.name ++ q0.controls)
    (hn3 : ∀ n, q0.ind ≠ lamName n) (hn4 : ∀ i : Nat, q0.ind ≠ "_nu_0_" ++ toString i ∧ q0.ind ≠ "_nu_f_" ++ toString i)
    (hn5 : ∀ (n : Name) (i : Nat), lamName n ≠ "_nu_0_" ++ toString i ∧ lamName n ≠ "_nu_f_" ++ toString i) :
    DualSol U q c a b (withTime q0.ind t0 c a ρ) := by
  obtain ⟨sy, ch, rfl⟩ := hb
  set t := q0.ind with htdef
  have hoff : ∀ τ s, s ≠ t → s ≠ lamName t → Opt.withTime t t0 c a ρ τ s = ρ τ s := by
    intro τ s h1 h2
    rw [Opt.withTime, Function.update_of_ne h2, Function.update_of_ne h1]
  have hlam0 : ∀ τ, Opt.withTime t t0 c a ρ τ (lamName t) = 0 := fun τ => by rw [Opt.withTime, Function.update_self]
  have htm : ∀ τ, Opt.withTime t t0 c a ρ τ t = t0 + c * (τ - a) := fun τ => by
    rw [Opt.withTime, Function.update_of_ne (hn3 t), Function.update_self]
  have hev : ∀ τ (e : Expr), t ∉ e.free → lamName t ∉ e.free →
      eval (real U) (Opt.withTime t t0 c a ρ τ) e = eval (real U) (ρ τ) e := by
    intro τ e h1 h2
    refine eval_congr _ fun s hs => hoff τ s ?_ ?_
    · rintro rfl; exact h1 hs
    · rintro rfl; exact h2 hs
  have hinj : ∀ {m n : Name}, lamName m = lamName n → m = n := fun e => lam_inj e
  have hH : hexpr { q0 with states := q0.states ++ [⟨t, 1⟩], ind := "_" ++ t, symmetries := sy, chain := ch } =
      hexpr q0 + sym (lamName t) * 1 := by
    simp only [hexpr, hamiltonianOf, List.foldl_append, List.foldl_cons, List.foldl_nil]
  have hHt : t ∉ (hexpr q0).free := by
    intro hh
    rcases free_hexpr hh with hh | ⟨d, hd, e | hh⟩
    · exact ht.costs.2.1 hh
    · exact hn3 _ e
    · exact ht.rates d hd hh
  have hHl : lamName t ∉ (hexpr q0).free := by
    intro hh
    rcases free_hexpr hh with hh | ⟨d, hd, e | hh⟩
    · exact hl.costs.2.1 hh
    · exact hn1 (List.mem_append_left _ (by rw [hinj e]; exact List.mem_map_of_mem hd))
    · exact hl.rates d hd hh
  have hD : ∀ τ x, x ≠ lamName t → eval (real U) (Opt.withTime t t0 c a ρ τ) ((hexpr { q0 with
      states := q0.states ++ [⟨t, 1⟩], ind := "_" ++ t, symmetries := sy, chain := ch }).diff x) =
      eval (real U) (ρ τ) ((hexpr q0).diff x) := by
    intro τ x hx
    rw [hH]
    change eval (real U) _ ((hexpr q0).diff x + (sym (lamName t) * 1).diff x) = _
    rw [eval_add, eval_diff_of_not_mem (e := sym (lamName t) * 1) (real U) _ (by
      intro hh
      have hh : x ∈ [lamName t] ++ [] := hh
      simp only [List.append_nil, List.mem_singleton] at hh
      exact hx hh), add_zero]
    exact hev τ _ (fun hh => hHt (mem_free_diff hh)) fun hh => hHl (mem_free_diff hh)
  have hphi : ∀ {pre cost cons}, (∀ n, t ≠ pre ++ toString (n : Nat) ∧ lamName t ≠ pre ++ toString n) →
      t ∉ Expr.free cost → lamName t ∉ Expr.free cost → (∀ k ∈ cons, t ∉ k.expr.free ∧ lamName t ∉ k.expr.free) →
      t ∉ (augment cost (nuNames pre (List.length cons)) cons).free ∧
        lamName t ∉ (augment cost (nuNames pre (List.length cons)) cons).free := by
    intro pre cost cons h1 h2 h3 h4
    constructor
    · intro hh
      rcases free_augment hh with hh | ⟨k, hk, hh⟩ | ⟨i, hh⟩
      · exact h2 hh
      · exact (h4 k hk).1 hh
      · exact (h1 i).1 hh
    · intro hh
      rcases free_augment hh with hh | ⟨k, hk, hh⟩ | ⟨i, hh⟩
      · exact h3 hh
      · exact (h4 k hk).2 hh
      · exact (h1 i).2 hh
  have hphi0 := hphi (pre := "_nu_0_") (cost := q0.costInitial) (cons := q0.initial) (fun n => ⟨(hn4 n).1, (hn5 t n).1⟩)
    ht.costs.1 hl.costs.1 fun k hk => ⟨ht.cons k (List.mem_append_left _ hk), hl.cons k (List.mem_append_left _ hk)⟩
  have hphif := hphi (pre := "_nu_f_") (cost := q0.costTerminal) (cons := q0.terminal) (fun n => ⟨(hn4 n).2, (hn5 t n).2⟩)
    ht.costs.2.2 hl.costs.2.2 fun k hk => ⟨ht.cons k (List.mem_append_right _ hk), hl.cons k (List.mem_append_right _ hk)⟩
  have hst : ∀ d ∈ q0.states, d.name ≠ t ∧ d.name ≠ lamName t := fun d hd =>
    ⟨fun e => hn1 (List.mem_append_left _ (e ▸ List.mem_map_of_mem hd)),
      fun e => hn2 (List.mem_append_left _ (e ▸ List.mem_map_of_mem hd))⟩
  have hlst : ∀ d ∈ q0.states, lamName d.name ≠ t ∧ lamName d.name ≠ lamName t := fun d hd =>
    ⟨(hn3 _).symm, fun e => (hst d hd).1 (hinj e)⟩
  have hct : ∀ u ∈ q0.controls, u ≠ t ∧ u ≠ lamName t := fun u hu =>
    ⟨fun e => hn1 (List.mem_append_right _ (e ▸ hu)), fun e => hn2 (List.mem_append_right _ (e ▸ hu))⟩
  have hfun : ∀ {s}, s ≠ t ∧ s ≠ lamName t → (fun τ => Opt.withTime t t0 c a ρ τ s) = fun τ => ρ τ s := by
    intro s hs
    funext τ
    exact hoff τ s hs.1 hs.2
  refine ⟨h.pos, ?_, ?_, ?_, ?_, ?_⟩
  · intro τ hτ d hd
    dsimp only at hd
    rw [List.map_append, List.map_singleton] at hd
    simp only [List.mem_append, List.mem_singleton] at hd
    rcases hd with (hd | rfl) | hd | rfl
    · rw [hfun (hst d hd), hev τ _ (ht.rates d hd) (hl.rates d hd)]
      exact h.follows τ hτ d (List.mem_append_left _ hd)
    · dsimp only
      rw [show (fun τ => Opt.withTime t t0 c a ρ τ t) = fun τ => t0 + c * (τ - a) from funext htm]
      have := (((hasDerivAt_id' τ).sub_const a).const_mul c).const_add t0
      simpa using this
    · obtain ⟨d, hm, rfl⟩ := List.mem_map.1 hd
      have hd := hm
      have := h.follows τ hτ ⟨lamName d.name, -((hexpr q0).diff d.name)⟩
        (List.mem_append_right _ (List.mem_map.2 ⟨d, hd, rfl⟩))
      dsimp only at this ⊢
      rw [hfun (hlst d hd), eval_neg, hD τ _ (hst d hd).2]
      rwa [eval_neg] at this
    · dsimp only
      rw [show (fun τ => Opt.withTime t t0 c a ρ τ (lamName t)) = fun _ => 0 from funext hlam0, eval_neg, hD τ _ (hn3 t),
        eval_diff_of_not_mem _ _ hHt, neg_zero, mul_zero]
      exact hasDerivAt_const _ _
  · intro u hu τ hτ
    rw [hfun (hct u hu)]
    exact h.controls u hu τ hτ
  · intro u hu τ hτ
    rw [hD τ u (hct u hu).2]
    exact h.stationary u hu τ hτ
  · intro k hk
    dsimp only at hk
    rw [List.map_append, List.map_append, List.map_singleton, List.map_singleton] at hk
    simp only [List.mem_append, List.mem_singleton] at hk
    rcases hk with hk | hk | rfl
    · rw [hev a _ (ht.cons k (List.mem_append_left _ hk)) (hl.cons k (List.mem_append_left _ hk))]
      exact h.initial k (List.mem_append_left _ hk)
    · have hi := h.initial k (List.mem_append_right _ hk)
      obtain ⟨n, hn, rfl⟩ := List.mem_map.1 hk
      obtain ⟨d, hd, rfl⟩ := List.mem_map.1 hn
      dsimp only at hi ⊢
      rw [eval_add] at hi ⊢
      rw [hev a _ (fun hh => hphi0.1 (mem_free_diff hh)) fun hh => hphi0.2 (mem_free_diff hh)]
      change Opt.withTime t t0 c a ρ a (lamName d.name) + _ = 0
      rw [hoff a _ (hlst d hd).1 (hlst d hd).2]
      exact hi
    · dsimp only
      rw [eval_add, eval_diff_of_not_mem _ _ hphi0.1, add_zero]
      exact hlam0 a
  · intro k hk
    dsimp only at hk
    rw [List.map_append, List.map_append, List.map_singleton, List.map_singleton] at hk
    simp only [List.mem_append, List.mem_singleton] at hk
    rcases hk with (hk | hk | rfl) | rfl
    · rw [hev b _ (ht.cons k (List.mem_append_right _ hk)) (hl.cons k (List.mem_append_right _ hk))]
      exact h.terminal k (List.mem_append_left _ (List.mem_append_left _ hk))
    · have hi := h.terminal k (List.mem_append_left _ (List.mem_append_right _ hk))
      obtain ⟨n, hn, rfl⟩ := List.mem_map.1 hk
      obtain ⟨d, hd, rfl⟩ := List.mem_map.1 hn
      dsimp only at hi ⊢
      rw [eval_sub] at hi ⊢
      rw [hev b _ (fun hh => hphif.1 (mem_free_diff hh)) fun hh => hphif.2 (mem_free_diff hh)]
      change Opt.withTime t t0 c a ρ b (lamName d.name) - _ = 0
      rw [hoff b _ (hlst d hd).1 (hlst d hd).2]
      exact hi
    · dsimp only
      rw [eval_sub, eval_diff_of_not_mem _ _ hphif.1, sub_zero]
      exact hlam0 b
    · have hi := h.terminal { expr := (phif q0).diff q0.ind + hexpr q0 } (List.mem_append_right _ (by simp))
      dsimp only at hi ⊢
      rw [eval_add, eval_diff_of_not_mem _ _ hphif.1, zero_add] at hi
      rw [eval_add, eval_diff_of_not_mem _ _ hind, zero_add, hH, eval_add, hev b _ hHt hHl, hi, zero_add, eval_mul, eval_one,
        mul_one]
      exact hlam0 b

end Beluga.Opt
