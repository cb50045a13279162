import Verif.EndToEnd.Back
import Verif.Extremal.Back
import Verif.Extremal.Clean
import Verif.Numeric.Props1

/-! # The compiled control takes the stationary point with the least Hamiltonian -/

namespace Beluga.E2E

open Beluga.Sym Beluga.Sym.Expr Beluga.Num Beluga.Map Beluga.Opt Beluga.Rep

/-! ### Specification -/

/-- `σ'` differs from `σ` in the controls only. -/
def SameBut (controls : List Name) (σ σ' : Env) : Prop := ∀ s, s ∉ controls → σ' s = σ s

/-- All partial derivatives of the Hamiltonian by the controls vanish at `σ`. -/
def Stationary (O : Ocp) (lam : Name → ℝ) (σ : Env) : Prop := ∀ u ∈ O.controls, HasPartial (O.ham lam) u 0 σ

/-- Pontryagin's minimum principle at one point: no other value of the controls makes the Hamiltonian smaller. -/
def Minimal (O : Ocp) (lam : Name → ℝ) (σ : Env) : Prop := ∀ σ', SameBut O.controls σ σ' → O.ham lam σ ≤ O.ham lam σ'

/-- Where the Hamiltonian has partial derivatives, a minimum is stationary. -/
theorem Minimal.stationary {O : Ocp} {lam : Name → ℝ} {σ : Env} (h : Minimal O lam σ)
    (hd : ∀ u ∈ O.controls, ∃ d, HasPartial (O.ham lam) u d σ) : Stationary O lam σ := by
  intro u hu
  obtain ⟨d, hd⟩ := hd u hu
  have hmin : IsLocalMin (fun z => O.ham lam (Function.update σ u z)) (σ u) := by
    refine Filter.Eventually.of_forall fun z => ?_
    dsimp only
    rw [Function.update_eq_self]
    refine h _ fun s hs => Function.update_of_ne ?_ _ _
    rintro rfl
    exact hs hu
  have hd' : HasDerivAt (fun z => O.ham lam (Function.update σ u z)) d (σ u) := hd
  have := hmin.hasDerivAt_eq_zero hd'
  subst this
  exact hd

/-! ### Lemmas -/

theorem bindArgs_free {K : Type} [Field K] : ∀ {args : List (List Name)} {vals : List (List K)} {env : List (Name × K)},
    bindArgs args vals = .ok env → ∀ s, (env.lookup s).isSome → s ∈ args.flatten
  | [], [], env, h, s, hs => by cases h; simp at hs
  | [], _ :: _, _, h, _, _ => by cases h
  | _ :: _, [], _, h, _, _ => by cases h
  | ns :: args, v :: vals, env, h, s, hs => by
    rw [bindArgs] at h
    split at h
    · cases h
    · obtain ⟨rest, h1, h⟩ := bind_ok h
      cases h
      rw [List.flatten_cons, List.mem_append]
      rw [List.lookup_append] at hs
      cases hl : (ns.zip v).lookup s with
      | some w =>
        left
        obtain ⟨l1, l2, e, -⟩ := List.lookup_eq_some_iff.1 hl
        have : (s, w) ∈ ns.zip v := by rw [e]; simp
        exact (List.of_mem_zip this).1
      | none =>
        right
        rw [hl] at hs
        exact bindArgs_free h1 s (by simpa using hs)

theorem lambdify_free {I : Interp ℝ} {args : List (List Name)} {vals : List (List ℝ)} {e : Expr} {w : ℝ}
    (h : lambdify I args e vals = .ok w) : ∀ s ∈ e.free, s ∈ args.flatten := by
  rw [lambdify] at h
  obtain ⟨env, h1, h⟩ := bind_ok h
  split at h
  · next ha =>
    intro s hs
    exact bindArgs_free h1 s (List.all_eq_true.1 ha s hs)
  · cases h

theorem mapM_every {α β : Type} {f : α → Py β} : ∀ {l : List α} {m : List β}, l.mapM f = .ok m → ∀ x ∈ l, ∃ v ∈ m, f x = .ok v
  | [], _, _, x, hx => by cases hx
  | a :: l, m, h, x, hx => by
    rw [List.mapM_cons] at h
    obtain ⟨v, h1, h⟩ := bind_ok h
    obtain ⟨vs, h2, h⟩ := bind_ok h
    cases h
    rcases List.mem_cons.1 hx with rfl | hx
    · exact ⟨v, by simp, h1⟩
    · obtain ⟨w, hw, h3⟩ := mapM_every h2 x hx
      exact ⟨w, by simp [hw], h3⟩

theorem mapM_from {α β : Type} {f : α → Py β} : ∀ {l : List α} {m : List β}, l.mapM f = .ok m → ∀ v ∈ m, ∃ x ∈ l, f x = .ok v
  | [], m, h, v, hv => by cases h; cases hv
  | a :: l, m, h, w, hw => by
    rw [List.mapM_cons] at h
    obtain ⟨v, h1, h⟩ := bind_ok h
    obtain ⟨vs, h2, h⟩ := bind_ok h
    cases h
    rcases List.mem_cons.1 hw with rfl | hw
    · exact ⟨a, by simp, h1⟩
    · obtain ⟨x, hx, h3⟩ := mapM_from h2 w hw
      exact ⟨x, by simp [hx], h3⟩

/-- The options use states, parameters and constants only; the chosen one is the only one or has the least Hamiltonian. -/
theorem computeU_least {U : Name → Nat → ℝ → ℝ} {p : Prob} {σ : Env} {y pr k u : List ℝ} (hy : (sts p).map σ = y)
    (hp : p.parameters.map σ = pr) (hk : p.constants.map σ = k) (h : computeU (real U) p y pr k = .ok (some u)) :
    ∀ opt ∈ p.controlLaw, (∀ e ∈ opt, ∀ s ∈ e.free, s ∈ sts p ++ p.parameters ++ p.constants) ∧
      (u = opt.map (eval (real U) σ) ∨ ∃ H, p.hamiltonian = some H ∧ ∀ σ₁ σ₂ : Env,
        (∀ s ∈ sts p ++ p.parameters ++ p.constants, σ₁ s = σ s ∧ σ₂ s = σ s) → p.controls.map σ₁ = u →
        p.controls.map σ₂ = opt.map (eval (real U) σ) → eval (real U) σ₁ H ≤ eval (real U) σ₂ H) := by
  have hargs : ∀ av ∈ [sts p, p.parameters, p.constants].zip [y, pr, k], av.1.length = av.2.length → av.1.map σ = av.2 := by
    intro av hav _
    simp only [List.zip_cons_cons, List.mem_cons, List.zip_nil_left, List.not_mem_nil, or_false] at hav
    rcases hav with rfl | rfl | rfl
    · exact hy
    · exact hp
    · exact hk
  have hflat : ∀ s, s ∈ [sts p, p.parameters, p.constants].flatten → s ∈ sts p ++ p.parameters ++ p.constants := by
    intro s hs
    simpa [or_assoc] using hs
  rw [computeU] at h
  split at h
  · cases h
  · next o ho =>
    obtain ⟨w, h1, h⟩ := bind_ok h
    cases h
    intro opt hopt
    rw [ho, List.mem_singleton] at hopt
    subst hopt
    refine ⟨fun e he s hs => ?_, Or.inl (lambdifyL_val h1 hargs)⟩
    obtain ⟨v, -, hv⟩ := mapM_every h1 e he
    exact hflat s (lambdify_free hv s hs)
  · obtain ⟨us, h1, h⟩ := bind_ok h
    have h1' := lambdifyM_val h1 hargs
    split at h
    · cases h
    · next H hH =>
      obtain ⟨hs, h2, h⟩ := bind_ok h
      have h3 := mapM_fst h2
      simp only [Except.ok.injEq, Option.map_eq_some_iff] at h
      obtain ⟨uh, h4, rfl⟩ := h
      intro opt hopt
      refine ⟨fun e he s hse => ?_, Or.inr ⟨H, hH, fun σ₁ σ₂ hσ hc1 hc2 => ?_⟩⟩
      · obtain ⟨v, -, hv⟩ := mapM_every h1 opt hopt
        obtain ⟨v', -, hv'⟩ := mapM_every hv e he
        exact hflat s (lambdify_free hv' s hse)
      · have hne : hs ≠ [] := by rintro rfl; cases h4
        obtain ⟨pre, w, post, z, g1, g2, g3, g4, g5⟩ :=
          (C36_minimal_partial (fun uh : List ℝ × ℝ => some uh.2) hs (by simp)).2 hne
        rw [h4] at g2
        cases g2
        simp only [Option.some.injEq] at g3
        have hval : ∀ uh' ∈ hs, ∀ σ' : Env, (∀ s ∈ sts p ++ p.parameters ++ p.constants, σ' s = σ s) →
            p.controls.map σ' = uh'.1 → uh'.2 = eval (real U) σ' H := by
          intro uh' hm σ' hoff hc
          obtain ⟨u', -, hu'⟩ := mapM_from h2 uh' hm
          obtain ⟨hh, e1, e2⟩ := bind_ok hu'
          cases e2
          refine lambdify_val e1 ?_
          intro av hav _
          simp only [List.zip_cons_cons, List.mem_cons, List.zip_nil_left, List.not_mem_nil, or_false] at hav
          rcases hav with rfl | rfl | rfl | rfl
          · rw [← hy]
            exact List.map_congr_left fun s hs => hoff s (by simp [hs])
          · exact hc
          · rw [← hp]
            exact List.map_congr_left fun s hs => hoff s (by simp [hs])
          · rw [← hk]
            exact List.map_congr_left fun s hs => hoff s (by simp [hs])
        have hmem : opt.map (eval (real U) σ) ∈ hs.map Prod.fst := by
          rw [h3, h1']
          exact List.mem_map_of_mem hopt
        obtain ⟨vh, hv1, hv2⟩ := List.mem_map.1 hmem
        have a1 := hval uh (by rw [g1]; simp) σ₁ (fun s hs => (hσ s hs).1) hc1
        have a2 := hval vh hv1 σ₂ (fun s hs => (hσ s hs).2) (by rw [hc2, hv2])
        rw [← a1, ← a2, g3]
        rw [g1] at hv1
        rcases List.mem_append.1 hv1 with hv | hv
        · exact (g4 _ hv _ rfl).le
        · rcases List.mem_cons.1 hv with rfl | hv
          · exact g3.ge
          · exact g5 _ hv _ rfl

/-- What `solve` finds is one of the options. -/
theorem law_finds {S : Sympy} (hL : LuSound S) {q p' : Prob} (hq : Clean q) {m : Method} (hm : m ≠ .other) {norm jac : Bool}
    (h : runSteps S ([.dualize m, .algebraic] ++ (if norm then [.normalizeTime] else []) ++ [.squash] ++
      (if jac then [.jacobians] else [])) q = .ok p') :
    p'.hamiltonian = some (hexpr q) ∧ p'.controls = q.controls ∧
      sts p' = sts q ++ q.states.map (fun s => lamName s.name) ∧
      List.Forall₂ (fun sol opt => pickOption q.controls sol = .ok opt)
        (S.solve (q.controls.map fun u => (hexpr q).diff u) q.controls) p'.controlLaw := by
  rw [List.append_assoc, List.append_assoc, List.cons_append, List.cons_append, List.nil_append, runSteps_cons] at h
  obtain ⟨qd, hdu, h⟩ := bind_ok h
  rw [runSteps_cons] at h
  obtain ⟨q1, h1, h⟩ := bind_ok h
  rw [← List.append_assoc] at h
  obtain ⟨t1, t2, t3, t4, t5, t6, t7⟩ := tail_ok h
  obtain ⟨w1, w2, w3, w4⟩ := tail_more h
  have hD := dualize_any hL hq hm hdu
  have hHd := hD.ham
  have hcn := hD.controls
  have hst := hD.states
  have hco := hD.names
  have h1 : algebraicControl S qd = .ok q1 := h1
  obtain ⟨dhdu, chain, e, hlaw⟩ := algebraic_ok hHd h1
  have g1 : q1.hamiltonian = qd.hamiltonian := by rw [e]
  have g2 : q1.controls = qd.controls := by rw [e]
  have g3 : sts q1 = sts qd := by rw [e]; rfl
  have g4 : q1.costates = qd.costates := by rw [e]
  rw [hcn] at hlaw
  refine ⟨by rw [w4, g1, hHd], by rw [t4, g2, hcn], ?_, by rw [t5]; exact hlaw⟩
  rw [w1, g3, g4, hco, sts, hst, sts]

/-- At a point of the curve, the compiled control has the least Hamiltonian among all stationary points that `solve` knows. -/
theorem chosen_least {S : Sympy} (hL : LuSound S) {q p' : Prob} (hq : Clean q) {m : Method} (hm : m ≠ .other) {norm jac : Bool}
    (h : runSteps S ([.dualize m, .algebraic] ++ (if norm then [.normalizeTime] else []) ++ [.squash] ++
      (if jac then [.jacobians] else [])) q = .ok p')
    (hdis : ∀ u ∈ q.controls, u ∉ p'.parameters ++ p'.constants)
    {U : Name → Nat → ℝ → ℝ} {a b : ℝ} {y : ℝ → List ℝ} {pr pc k : List ℝ} {ρ : ℝ → Env}
    (hr : Reads U p' a b y pr pc k ρ) {t : ℝ} (ht : t ∈ Set.Icc a b) (hou : ∃ ou, computeU (real U) p' (y t) pr k = .ok ou)
    {σ : Env} (hσ : SameBut q.controls (ρ t) σ) (hst : ∀ u ∈ q.controls, eval (real U) σ ((hexpr q).diff u) = 0)
    (hfind : SolveFinds S U (q.controls.map fun u => (hexpr q).diff u) q.controls σ) :
    eval (real U) (ρ t) (hexpr q) ≤ eval (real U) σ (hexpr q) := by
  obtain ⟨hH, hcn, hsts, hlaw⟩ := law_finds hL hq hm h
  obtain ⟨sol, hsol, hv⟩ := hfind (by
    intro e he
    obtain ⟨u, hu, rfl⟩ := List.mem_map.1 he
    exact hst u hu)
  obtain ⟨opt, hopt, hpk⟩ := forall₂_left hlaw sol hsol
  have hpk := pickOption_ok hpk
  obtain ⟨ou, hou⟩ := hou
  cases ou with
  | none =>
    have := computeU_none hou
    rw [this] at hopt
    cases hopt
  | some u =>
    have hu := hr.controls t ht u hou
    have hoff : ∀ s ∈ sts p' ++ p'.parameters ++ p'.constants, s ∉ q.controls := by
      intro s hs hsc
      rw [List.append_assoc, List.mem_append] at hs
      rcases hs with hs | hs
      · rw [hsts] at hs
        have := hq.nodup
        exact (List.nodup_append.1 this).2.2 s hs s hsc rfl
      · exact hdis s hsc hs
    obtain ⟨hfree, hc⟩ := computeU_least (hr.states t) (hr.parameters t) (hr.constants t) hou opt hopt
    have hval : q.controls.map σ = opt.map (eval (real U) (ρ t)) := by
      clear hopt hc
      have key : ∀ {us : List Name} {es : List Expr}, List.Forall₂ (fun u e => sol.lookup u = some e) us es →
          (∀ u ∈ us, u ∈ q.controls) → (∀ e ∈ es, ∀ s ∈ e.free, s ∈ sts p' ++ p'.parameters ++ p'.constants) →
          us.map σ = es.map (eval (real U) (ρ t)) := by
        intro us es hf
        induction hf with
        | nil => intros; rfl
        | @cons u e us es he _ ih =>
          intro h1 h2
          rw [List.map_cons, List.map_cons, ih (fun u hu => h1 u (by simp [hu])) fun e he => h2 e (by simp [he])]
          congr 1
          obtain ⟨e', g1, g2⟩ := hv u (h1 u (by simp))
          rw [he] at g1
          cases g1
          rw [g2]
          exact eval_congr _ fun s hs => hσ s (hoff s (h2 e (by simp) s hs))
      exact key hpk (fun _ hu => hu) hfree
    rcases hc with hc | ⟨H, hH', hc⟩
    · have : σ = ρ t := by
        funext s
        by_cases hs : s ∈ q.controls
        · have e : q.controls.map σ = q.controls.map (ρ t) := by rw [hval, ← hc, ← hu, hcn]
          exact (List.map_inj_left.1 e) s hs
        · exact hσ s hs
      rw [this]
    · rw [hH] at hH'
      cases hH'
      exact hc (ρ t) σ (fun s hs => ⟨rfl, hσ s (hoff s hs)⟩) hu (by rw [hcn, hval])

/-- Along the curve over `[t₀, t₁]`, the controls have the least Hamiltonian among all stationary controls that sympy's
`solve` finds. -/
def Least (S : Sympy) (U : Name → Nat → ℝ → ℝ) (q : Prob) (O : Ocp) (t₀ t₁ : ℝ) (x : ℝ → Env) (lam : ℝ → Name → ℝ) : Prop :=
  ∀ t ∈ Set.Icc t₀ t₁, ∀ σ, SameBut O.controls (x t) σ → Stationary O (lam t) σ → SmoothRates q U σ →
    SolveFinds S U (q.controls.map fun u => (hexpr q).diff u) q.controls σ → O.ham (lam t) (x t) ≤ O.ham (lam t) σ

/-- If the least value over all controls is taken somewhere, and `solve` finds that point, then Pontryagin's minimum
principle holds. -/
theorem Least.minimal {S : Sympy} {U : Name → Nat → ℝ → ℝ} {q : Prob} {O : Ocp} {t₀ t₁ : ℝ} {x : ℝ → Env} {lam : ℝ → Name → ℝ}
    (h : Least S U q O t₀ t₁ x lam) {t : ℝ} (ht : t ∈ Set.Icc t₀ t₁) {σ : Env} (hσ : SameBut O.controls (x t) σ)
    (hm : Minimal O (lam t) σ) (hd : ∀ u ∈ O.controls, ∃ d, HasPartial (O.ham (lam t)) u d σ) (hs : SmoothRates q U σ)
    (hf : SolveFinds S U (q.controls.map fun u => (hexpr q).diff u) q.controls σ) : Minimal O (lam t) (x t) := by
  intro σ' hσ'
  refine (h t ht σ hσ (hm.stationary hd) hs hf).trans (hm σ' fun s hs => ?_)
  rw [hσ' s hs, hσ s hs]

end Beluga.E2E
