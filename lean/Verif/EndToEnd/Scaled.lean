import Verif.EndToEnd.Shooting
import Verif.Homog.Props

/-! # Solutions of the scaled problem are solutions of the problem -/

namespace Beluga.E2E

open Beluga.Sym Beluga.Sym.Expr Beluga.Num Beluga.Map Beluga.Opt Beluga.Rep

/-! ### What follows from a successful evaluation -/

theorem bindArgs_dom : ∀ {args : List (List Name)} {vals : List (List ℝ)} {env : List (Name × ℝ)},
    bindArgs args vals = .ok env → args.map List.length = vals.map List.length ∧ ∀ x ∈ env, x.1 ∈ args.flatten
  | [], [], env, h => by cases h; simp
  | [], _ :: _, env, h => by cases h
  | _ :: _, [], env, h => by cases h
  | ns :: args, v :: vals, env, h => by
    rw [bindArgs] at h
    split at h
    · cases h
    · next hl =>
      obtain ⟨rest, h1, h⟩ := bind_ok h
      cases h
      obtain ⟨i1, i2⟩ := bindArgs_dom h1
      refine ⟨by simp only [List.map_cons, i1]; rw [not_not.1 hl], ?_⟩
      intro x hx
      rw [List.flatten_cons, List.mem_append]
      rcases List.mem_append.1 hx with hx | hx
      · exact Or.inl (List.of_mem_zip (a := x.1) (b := x.2) hx).1
      · exact Or.inr (i2 x hx)

theorem lambdify_dom {I : Interp ℝ} {args : List (List Name)} {vals : List (List ℝ)} {e : Expr} {w : ℝ}
    (h : lambdify I args e vals = .ok w) :
    args.map List.length = vals.map List.length ∧ ∀ s ∈ e.free, s ∈ args.flatten := by
  rw [lambdify] at h
  obtain ⟨env, h1, h⟩ := bind_ok h
  obtain ⟨i1, i2⟩ := bindArgs_dom h1
  split at h
  · next hf =>
    refine ⟨i1, fun s hs => ?_⟩
    have := List.all_eq_true.1 hf s hs
    obtain ⟨x, hx⟩ := Option.isSome_iff_exists.1 this
    obtain ⟨l1, l2, e, -⟩ := List.lookup_eq_some_iff.1 hx
    exact i2 (s, x) (by rw [e]; simp)
  · cases h

theorem mapM_each {α β : Type} {f : α → Py β} : ∀ {l : List α} {w : List β}, l.mapM f = .ok w → ∀ x ∈ l, ∃ y, f x = .ok y
  | [], _, _, x, hx => by cases hx
  | a :: l, w, h, x, hx => by
    rw [List.mapM_cons] at h
    obtain ⟨y, h1, h⟩ := bind_ok h
    obtain ⟨ys, h2, h⟩ := bind_ok h
    rcases List.mem_cons.1 hx with rfl | hx
    · exact ⟨y, h1⟩
    · exact mapM_each h2 x hx

theorem lambdifyL_dom {I : Interp ℝ} {args : List (List Name)} {vals : List (List ℝ)} {es : List Expr} {w : List ℝ}
    (h : lambdifyL I args es vals = .ok w) : ∀ e ∈ es, args.map List.length = vals.map List.length ∧ ∀ s ∈ e.free, s ∈ args.flatten := by
  intro e he
  obtain ⟨y, hy⟩ := mapM_each h e he
  exact lambdify_dom hy

theorem computeU_some_law {I : Interp ℝ} {p : Prob} {y pr k u : List ℝ} (h : computeU I p y pr k = .ok (some u)) :
    p.controlLaw ≠ [] := by
  intro h0
  rw [computeU, h0] at h
  cases h

/-- A successful call of the derivative function: the arrays have the right sizes, the equations contain known symbols only. -/
theorem derivFunc_dom {I : Interp ℝ} {p : Prob} {y pr k w : List ℝ} (hne : p.states ≠ []) (h : derivFunc I p y pr k = .ok w) :
    (y.length = p.states.length ∧ pr.length = p.parameters.length ∧ k.length = p.constants.length) ∧
      (∀ d ∈ p.states, Closed p [] d.eom) ∧ ∃ u, computeU I p y pr k = .ok u := by
  rw [derivFunc, atPoint] at h
  obtain ⟨u, hu, h⟩ := bind_ok h
  have hmem : ∀ d ∈ p.states, d.eom ∈ p.states.map Dyn.eom := fun d hd => List.mem_map_of_mem hd
  obtain ⟨d0, hd0⟩ := List.exists_mem_of_ne_nil _ hne
  cases u with
  | none =>
    have h : lambdifyL I [sts p, p.parameters, p.constants] (p.states.map Dyn.eom) [y, pr, k] = .ok w := h
    refine ⟨?_, ?_, _, hu⟩
    · have := (lambdifyL_dom h _ (hmem d0 hd0)).1
      simp [sts] at this
      exact ⟨this.1.symm, this.2.1.symm, this.2.2.symm⟩
    · intro d hd s hs
      have := (lambdifyL_dom h _ (hmem d hd)).2 s hs
      simp at this
      tauto
  | some u =>
    have h : lambdifyL I [sts p, p.controls, p.parameters, p.constants] (p.states.map Dyn.eom) [y, u, pr, k] = .ok w := h
    refine ⟨?_, ?_, _, hu⟩
    · have := (lambdifyL_dom h _ (hmem d0 hd0)).1
      simp [sts] at this
      exact ⟨this.1.symm, this.2.2.1.symm, this.2.2.2.symm⟩
    · intro d hd s hs
      have := (lambdifyL_dom h _ (hmem d hd)).2 s hs
      have hl := computeU_some_law hu
      simp at this
      tauto

theorem bcEnd_dom {I : Interp ℝ} {p : Prob} {cs : List Con} {y q pr pc k w : List ℝ} (hq : p.quads = [])
    (h : bcEnd I p cs y q pr pc k = .ok w) :
    (∀ c ∈ cs, Closed p (qds p ++ p.constraintParams) c.expr) ∧ (cs ≠ [] → pc.length = p.constraintParams.length) := by
  rw [bcEnd] at h
  obtain ⟨u, hu, h⟩ := bind_ok h
  have hmem : ∀ c ∈ cs, c.expr ∈ cs.map Con.expr := fun d hd => List.mem_map_of_mem hd
  cases u with
  | none =>
    simp only [hq, List.length_nil, gt_iff_lt, lt_irrefl, if_false, List.append_nil] at h
    have h : lambdifyL I [sts p, p.parameters, p.constraintParams, p.constants] (cs.map Con.expr) [y, pr, pc, k] = .ok w := h
    refine ⟨?_, ?_⟩
    · intro c hc s hs
      have := (lambdifyL_dom h _ (hmem c hc)).2 s hs
      simp at this ⊢
      tauto
    · intro hne
      obtain ⟨c, hc⟩ := List.exists_mem_of_ne_nil _ hne
      have := (lambdifyL_dom h _ (hmem c hc)).1
      simp at this
      exact this.2.2.1.symm
  | some u =>
    simp only [hq, List.length_nil, gt_iff_lt, lt_irrefl, if_false, List.append_nil] at h
    have h : lambdifyL I [sts p, p.controls, p.parameters, p.constraintParams, p.constants] (cs.map Con.expr) [y, u, pr, pc, k] = .ok w := h
    have hl := computeU_some_law hu
    refine ⟨?_, ?_⟩
    · intro c hc s hs
      have := (lambdifyL_dom h _ (hmem c hc)).2 s hs
      simp at this ⊢
      tauto
    · intro hne
      obtain ⟨c, hc⟩ := List.exists_mem_of_ne_nil _ hne
      have := (lambdifyL_dom h _ (hmem c hc)).1
      simp at this
      exact this.2.2.2.1.symm

/-! ### The control -/

variable {U : Name → Nat → ℝ → ℝ} {Γ : Name → Expr}

theorem family_exists {p : Prob} (hn : (sts p ++ p.controls ++ p.parameters ++ p.constraintParams ++ p.constants).Nodup)
    (ρ : Name → ℝ) : ∃ σ, Family p ρ σ := by
  have hc : p.controls.Nodup := by
    simp only [List.nodup_append] at hn
    tauto
  refine ⟨fun u s => if s ∈ p.controls then ((p.controls.zip u).lookup s).getD 0 else ρ s, ?_, ?_⟩
  · intro u hu
    refine Eq.trans ?_ (zip_lookup hc hu.symm)
    exact List.map_congr_left fun s hs => if_pos hs
  · intro u s hs
    refine if_neg fun hm => ?_
    simp only [List.nodup_append, List.mem_append] at hn hs
    obtain ⟨⟨⟨⟨-, -, h1⟩, -, h2⟩, -, -⟩, -, h4⟩ := hn
    rcases hs with (hs | hs) | hs
    · exact h1 s hs s hm rfl
    · exact h2 s (Or.inr hm) s hs rfl
    · exact h4 s (Or.inl (Or.inl (Or.inr hm))) s hs rfl

/-- If the control can be computed at one point, then the Hamiltonian can be replaced by one that has known symbols only: it is
used only to choose between several options. -/
theorem control_ok {p : Prob} (hn : (sts p ++ p.controls ++ p.parameters ++ p.constraintParams ++ p.constants).Nodup)
    (hlaw : ∀ o ∈ p.controlLaw, List.Forall₂ (fun u e => Dim U Γ e (Γ u)) p.controls o)
    (hham : ∀ H, p.hamiltonian = some H → ∃ d, Dim U Γ H d) {y pr k : List ℝ} {u : Option (List ℝ)}
    (h : computeU (real U) p y pr k = .ok u) :
    ∃ H, (∀ y pr k, computeU (real U) { p with hamiltonian := H } y pr k = computeU (real U) p y pr k) ∧
      ∀ ρ, ControlOk U Γ { p with hamiltonian := H } ρ := by
  have hsize : ∀ o ∈ p.controlLaw, o.length = p.controls.length := fun o ho => (hlaw o ho).length_eq.symm
  have hlaw' : ∀ o ∈ p.controlLaw, List.Forall₂ (fun e s => Dim U Γ e (Γ s)) o p.controls := fun o ho => (hlaw o ho).flip
  rw [computeU.eq_def] at h
  have hcases : p.controlLaw = [] ∨ (∃ o, p.controlLaw = [o]) ∨ ∃ o o2 rest, p.controlLaw = o :: o2 :: rest := by
    rcases p.controlLaw with _ | ⟨o, _ | ⟨o2, rest⟩⟩
    · exact Or.inl rfl
    · exact Or.inr (Or.inl ⟨o, rfl⟩)
    · exact Or.inr (Or.inr ⟨o, o2, rest, rfl⟩)
  rcases hcases with hl | ⟨o, hl⟩ | ⟨o, o2, rest, hl⟩
  · exact ⟨p.hamiltonian, fun _ _ _ => rfl, fun ρ => Or.inl hl⟩
  · rw [hl] at hlaw' hsize
    refine ⟨some 0, ?_, ?_⟩
    · intro y pr k
      rw [computeU.eq_def, computeU.eq_def]
      simp only [hl]
      rfl
    · intro ρ
      obtain ⟨σ, hσ⟩ := family_exists hn ρ
      rw [hl] at h
      obtain ⟨v, hv, -⟩ := bind_ok h
      refine Or.inr ⟨0, σ, ⟨?_, ⟨0, rfl, ?_⟩, ?_⟩, rfl, ⟨?_, 1, .num 0⟩, ⟨hσ.control, hσ.rest⟩⟩
      · intro o' ho e he s hs
        simp only [hl, List.mem_singleton] at ho
        subst ho
        have := (lambdifyL_dom hv e he).2 s hs
        simp at this
        simp
        tauto
      · intro s hs
        cases hs
      · intro o' ho
        simp only [hl] at ho
        exact hsize o' ho
      · intro o' ho
        simp only [hl] at ho
        exact hlaw' o' ho
  · rw [hl] at hlaw' hsize h
    obtain ⟨us, hus, h⟩ := bind_ok h
    rcases hH : p.hamiltonian with _ | H
    · rw [hH] at h; cases h
    · rw [hH] at h
      obtain ⟨hs, hhs, -⟩ := bind_ok h
      refine ⟨some H, ?_, ?_⟩
      · intro y pr k
        rw [computeU.eq_def, computeU.eq_def]
        simp only [hl, hH]
        rfl
      · intro ρ
        obtain ⟨σ, hσ⟩ := family_exists hn ρ
        have hus0 : ∃ u0, u0 ∈ us := by
          rw [lambdifyM, List.mapM_cons] at hus
          obtain ⟨v, hv, hus⟩ := bind_ok hus
          obtain ⟨vs, hvs, hus⟩ := bind_ok hus
          cases hus
          exact ⟨v, by simp⟩
        obtain ⟨u0, hu0⟩ := hus0
        obtain ⟨uh, huh⟩ := mapM_each hhs u0 hu0
        obtain ⟨hv, hhv, -⟩ := bind_ok huh
        refine Or.inr ⟨H, σ, ⟨?_, ⟨H, rfl, ?_⟩, ?_⟩, rfl, ⟨?_, hham H hH⟩, ⟨hσ.control, hσ.rest⟩⟩
        · intro o' ho e he s hs
          have ho : o' ∈ p.controlLaw := ho
          rw [hl] at ho
          obtain ⟨w, hw⟩ := mapM_each hus o' ho
          have := (lambdifyL_dom hw e he).2 s hs
          simp at this
          simp
          tauto
        · intro s hs
          have := (lambdify_dom hhv).2 s hs
          simp at this
          simp
          tauto
        · intro o' ho
          have ho : o' ∈ p.controlLaw := ho
          rw [hl] at ho
          exact hsize o' ho
        · intro o' ho
          have ho : o' ∈ p.controlLaw := ho
          rw [hl] at ho
          exact hlaw' o' ho

theorem deriv_replace {p : Prob} {H : Option Expr}
    (h : ∀ y pr k, computeU (real U) { p with hamiltonian := H } y pr k = computeU (real U) p y pr k) (y pr k : List ℝ) :
    derivFunc (real U) { p with hamiltonian := H } y pr k = derivFunc (real U) p y pr k := by
  rw [derivFunc, derivFunc, atPoint, atPoint, h]
  rfl

theorem bc_replace {p : Prob} {H : Option Expr}
    (h : ∀ y pr k, computeU (real U) { p with hamiltonian := H } y pr k = computeU (real U) p y pr k) (y0 q0 yf qf pr pc k : List ℝ) :
    bcFunc (real U) { p with hamiltonian := H } y0 q0 yf qf pr pc k = bcFunc (real U) p y0 q0 yf qf pr pc k := by
  rw [bcFunc, bcFunc, bcEnd, bcEnd, bcEnd, bcEnd, h, h]
  rfl

/-! ### Scaling -/

/-- The largest size `D` of the units of the boundary conditions bounds the error of every one. -/
def Largest (U : Name → Nat → ℝ → ℝ) (φ : Name → ℝ) (T : Homog.Tab) (D : ℝ) : Prop :=
  ∀ u ∈ T.initial ++ T.terminal, eval (real U) φ u ≤ D

/-- The boundary conditions of a dimensionally consistent problem: if the scaled ends satisfy them up to `ε`, then the ends in the
user's units do up to `ε * D`. -/
theorem unscale_boundary {φ : Name → ℝ} (hφ : Sizes U Γ φ) {p : Prob} {w : Expr} {T : Homog.Tab} (hc : Homog.Consistent U Γ w p T)
    (hq : p.quads = []) (hst : p.states ≠ []) (hte : p.terminal ≠ [])
    (hn : (sts p ++ p.controls ++ p.parameters ++ p.constraintParams ++ p.constants).Nodup) {ε D a b : ℝ} (hab : a ≤ b)
    (hε : 0 ≤ ε) (hD : Largest U φ T D) {y0 yf pr pc k v0 r' : List ℝ} (hv0 : derivFunc (real U) p y0 pr k = .ok v0)
    (hyf : yf.length = p.states.length) (hr' : bcFunc (real U) p y0 [] yf [] pr pc k = .ok r') (hle : ∀ x ∈ r', |x| ≤ ε)
    {y : ℝ → List ℝ} (ha : y a = List.zipWith (· * ·) y0 (sizes U Γ φ (sts p)))
    (hb : y b = List.zipWith (· * ·) yf (sizes U Γ φ (sts p))) {ρ : ℝ → Env}
    (hr : Reads U p a b y (List.zipWith (· * ·) pr (sizes U Γ φ p.parameters))
      (List.zipWith (· * ·) pc (sizes U Γ φ p.constraintParams)) (List.zipWith (· * ·) k (sizes U Γ φ p.constants)) ρ) :
    ∃ r, bcFunc (real U) p (y a) [] (y b) [] (List.zipWith (· * ·) pr (sizes U Γ φ p.parameters))
      (List.zipWith (· * ·) pc (sizes U Γ φ p.constraintParams)) (List.zipWith (· * ·) k (sizes U Γ φ p.constants)) = .ok r ∧
      ∀ x ∈ r, |x| ≤ ε * D := by
  have hl : ∀ ns, (sizes U Γ φ ns).length = ns.length := fun ns => by simp [sizes]
  obtain ⟨⟨l1, l2, l3⟩, hclosed, u0, hu0⟩ := derivFunc_dom hst hv0
  obtain ⟨H, hH, hok⟩ := control_ok hn hc.law (fun H hH => ⟨_, hc.hamiltonian H hH⟩) hu0
  have epr : List.zipWith (· / ·) (List.zipWith (· * ·) pr (sizes U Γ φ p.parameters)) (sizes U Γ φ p.parameters) = pr :=
    zip_mul_div (by rw [hl]; exact l2) (sizes_pos hφ _)
  have ek : List.zipWith (· / ·) (List.zipWith (· * ·) k (sizes U Γ φ p.constants)) (sizes U Γ φ p.constants) = k :=
    zip_mul_div (by rw [hl]; exact l3) (sizes_pos hφ _)
  have ey0 : List.zipWith (· / ·) (y a) (sizes U Γ φ (sts p)) = y0 := by
    rw [ha]
    exact zip_mul_div (by rw [hl, l1]; simp [sts]) (sizes_pos hφ _)
  have eyf : List.zipWith (· / ·) (y b) (sizes U Γ φ (sts p)) = yf := by
    rw [hb]
    exact zip_mul_div (by rw [hl, hyf]; simp [sts]) (sizes_pos hφ _)
  -- the point
  have hat : ∀ t ∈ Set.Icc a b, At (real U) { p with hamiltonian := H } (ρ t) (y t)
      (List.zipWith (· * ·) pr (sizes U Γ φ p.parameters)) (List.zipWith (· * ·) k (sizes U Γ φ p.constants)) := by
    intro t ht
    refine ⟨(map_sts p (ρ t)).trans (hr.states t), hr.parameters t, hr.constants t, ?_⟩
    rcases hok (ρ t) with h0 | ⟨H', σ, h1, h2, h3, h4⟩
    · left
      refine ⟨?_, h0⟩
      rw [computeU, h0]
    · obtain ⟨u, hu1, -⟩ := C18_control hφ h1 h2 h3 h4
      have e1 : (sts { p with hamiltonian := H }).map (ρ t) = y t := hr.states t
      rw [e1, show ({ p with hamiltonian := H } : Prob).parameters.map (ρ t) = _ from hr.parameters t,
        show ({ p with hamiltonian := H } : Prob).constants.map (ρ t) = _ from hr.constants t] at hu1
      cases u with
      | none =>
        left
        refine ⟨hu1, ?_⟩
        by_contra hne
        obtain ⟨u, hu, -⟩ := C36_compiled_partial (real U) h1 h2 h4 hne
        rw [e1, show ({ p with hamiltonian := H } : Prob).parameters.map (ρ t) = _ from hr.parameters t,
          show ({ p with hamiltonian := H } : Prob).constants.map (ρ t) = _ from hr.constants t, hu1] at hu
        cases hu
      | some u =>
        right
        rw [hu1, hr.controls t ht u (by rw [← hH]; exact hu1)]
  have hA : a ∈ Set.Icc a b := ⟨le_refl _, hab⟩
  have hB : b ∈ Set.Icc a b := ⟨hab, le_refl _⟩
  have hr0 := hr'
  rw [bcFunc] at hr0
  obtain ⟨w1, hw1, hr0⟩ := bind_ok hr0
  obtain ⟨w2, hw2, -⟩ := bind_ok hr0
  obtain ⟨c1, -⟩ := bcEnd_dom hq hw1
  obtain ⟨c2, c3⟩ := bcEnd_dom hq hw2
  have epc : List.zipWith (· / ·) (List.zipWith (· * ·) pc (sizes U Γ φ p.constraintParams)) (sizes U Γ φ p.constraintParams) = pc :=
    zip_mul_div (by rw [hl]; exact c3 hte) (sizes_pos hφ _)
  have hb := C56_boundary (real U) (q0 := []) (qf := []) (hat _ hA) (hat _ hB) (fun hne => absurd hq hne) (fun hne => absurd hq hne)
    (hr.multipliers _) (hr.multipliers _) c1 c2
  rw [bc_replace hH] at hb
  have hat' : ∀ t ∈ Set.Icc a b, ∀ x, List.zipWith (· / ·) (y t) (sizes U Γ φ (sts p)) = x →
      At (real U) { p with hamiltonian := H } (scaled U Γ φ (ρ t)) x pr k := by
    intro t ht x hx
    have h' := at_scaled hφ (hok (ρ t)) (hat t ht)
    rw [map_scaled, map_scaled, map_scaled, (hat t ht).sts, (hat t ht).pars, (hat t ht).consts] at h'
    rw [← hx]
    have e2 : At (real U) { p with hamiltonian := H } (scaled U Γ φ (ρ t))
        (List.zipWith (· / ·) (y t) (sizes U Γ φ (sts p)))
        (List.zipWith (· / ·) (List.zipWith (· * ·) pr (sizes U Γ φ p.parameters)) (sizes U Γ φ p.parameters))
        (List.zipWith (· / ·) (List.zipWith (· * ·) k (sizes U Γ φ p.constants)) (sizes U Γ φ p.constants)) := h'
    rwa [epr, ek] at e2
  have hm : ∀ t, p.constraintParams.map (scaled U Γ φ (ρ t)) = pc := by
    intro t
    rw [map_scaled, hr.multipliers t, epc]
  have hb' := C56_boundary (real U) (q0 := []) (qf := []) (hat' _ hA _ ey0) (hat' _ hB _ eyf) (fun hne => absurd hq hne)
    (fun hne => absurd hq hne) (hm _) (hm _) c1 c2
  rw [bc_replace hH, hr'] at hb'
  cases hb'
  refine ⟨_, hb, ?_⟩
  have key : ∀ (cs : List Con) (us : List Expr) (act : Expr) (σ : Name → ℝ), List.Forall₂ (Homog.ConDim U Γ act) cs us →
      (∀ u ∈ us, eval (real U) φ u ≤ D) → (∀ x ∈ cs.map fun c => eval (real U) (scaled U Γ φ σ) c.expr, |x| ≤ ε) →
      ∀ x ∈ cs.map fun c => eval (real U) σ c.expr, |x| ≤ ε * D := by
    intro cs us act σ hcs
    induction hcs with
    | nil => simp
    | @cons c u cs us hcu _ ih =>
      intro hu hx x hxm
      rcases List.mem_cons.1 hxm with rfl | hxm
      · obtain ⟨d1, d2⟩ := dim_aux hφ σ hcu.expr
        have := hx _ (List.mem_cons_self ..)
        beta_reduce at this
        rw [d2, abs_div, abs_of_pos d1, div_le_iff₀ d1] at this
        exact this.trans (mul_le_mul_of_nonneg_left (hu u (List.mem_cons_self ..)) hε)
      · exact ih (fun u hu' => hu u (List.mem_cons_of_mem _ hu')) (fun x hx' => hx x (List.mem_cons_of_mem _ hx')) x hxm
  intro x hx
  rcases List.mem_append.1 hx with hx | hx
  · exact key _ _ _ _ hc.initial (fun u hu => hD u (List.mem_append_left _ hu)) (fun x hx => hle x (List.mem_append_left _ hx)) x hx
  · exact key _ _ _ _ hc.terminal (fun u hu => hD u (List.mem_append_right _ hu)) (fun x hx => hle x (List.mem_append_right _ hx)) x hx

end Beluga.E2E
