import Verif.Reported.Props
import Verif.Extremal.Pipeline

/-!
# From compiled functions to the symbolic boundary value problem

What the numerical solvers are given are functions of arrays (`Verif.Num`).  A curve of arrays that satisfies them solves
the symbolic boundary value problem.
-/

namespace Beluga.E2E

open Beluga.Sym Beluga.Sym.Expr Beluga.Num Beluga.Map Beluga.Opt Beluga.Rep

/-! ### Specification -/

/-- An exact solution of the compiled boundary value problem: the array of states follows `deriv_func`, and `bc_func` is
zero.  `pr`, `pc`, `k` are the arrays of parameters, multipliers and constants. -/
structure NumSol (U : Name → Nat → ℝ → ℝ) (p : Prob) (a b : ℝ) (y : ℝ → List ℝ) (pr pc k : List ℝ) : Prop where
  rates : ∀ t ∈ Set.Icc a b, ∃ v, derivFunc (real U) p (y t) pr k = .ok v ∧
    ∀ i (h : i < v.length), HasDerivAt (fun τ => (y τ).getD i 0) v[i] t
  boundary : ∃ r, bcFunc (real U) p (y a) [] (y b) [] pr pc k = .ok r ∧ ∀ x ∈ r, x = 0

/-- The same up to a tolerance: all entries of `bc_func` are at most `ε`, which is what the solvers test. -/
structure NumNear (U : Name → Nat → ℝ → ℝ) (p : Prob) (ε a b : ℝ) (y : ℝ → List ℝ) (pr pc k : List ℝ) : Prop where
  rates : ∀ t ∈ Set.Icc a b, ∃ v, derivFunc (real U) p (y t) pr k = .ok v ∧
    ∀ i (h : i < v.length), HasDerivAt (fun τ => (y τ).getD i 0) v[i] t
  boundary : ∃ r, bcFunc (real U) p (y a) [] (y b) [] pr pc k = .ok r ∧ ∀ x ∈ r, |x| ≤ ε

/-- The values of the symbols of `p` along the curve are the entries of the arrays; the controls are those that
`compute_u` chooses; nothing else changes. -/
structure Reads (U : Name → Nat → ℝ → ℝ) (p : Prob) (a b : ℝ) (y : ℝ → List ℝ) (pr pc k : List ℝ) (ρ : ℝ → Env) : Prop where
  states : ∀ t, (sts p).map (ρ t) = y t
  controls : ∀ t ∈ Set.Icc a b, ∀ u, computeU (real U) p (y t) pr k = .ok (some u) → p.controls.map (ρ t) = u
  parameters : ∀ t, p.parameters.map (ρ t) = pr
  multipliers : ∀ t, p.constraintParams.map (ρ t) = pc
  constants : ∀ t, p.constants.map (ρ t) = k
  others : ∀ s, s ∉ sts p → s ∉ p.controls → s ≠ p.ind → ∀ t t', ρ t s = ρ t' s

/-! ### Lemmas -/

theorem lambdifyL_val {I : Interp ℝ} {ρ : Env} {args : List (List Name)} {vals : List (List ℝ)} {es : List Expr} {w : List ℝ}
    (h : lambdifyL I args es vals = .ok w) (hv : ∀ av ∈ args.zip vals, av.1.length = av.2.length → av.1.map ρ = av.2) :
    w = es.map (eval I ρ) :=
  mapM_val h fun _ _ _ hx => lambdify_val hx hv

theorem lambdifyM_val {I : Interp ℝ} {ρ : Env} {args : List (List Name)} {vals : List (List ℝ)} {es : List (List Expr)}
    {w : List (List ℝ)} (h : lambdifyM I args es vals = .ok w)
    (hv : ∀ av ∈ args.zip vals, av.1.length = av.2.length → av.1.map ρ = av.2) : w = es.map fun r => r.map (eval I ρ) :=
  mapM_val h fun _ _ _ hx => lambdifyL_val hx hv

theorem selectGo_mem {K V : Type} [LinearOrder K] (ham : V → Option K) : ∀ (l : List V) (u : V) (h : Option K),
    selectGo ham l u h ∈ u :: l
  | [], u, h => by simp [selectGo]
  | v :: l, u, h => by
    rw [selectGo]
    split
    · exact List.mem_cons_of_mem _ (selectGo_mem ham l v _)
    · rcases List.mem_cons.1 (selectGo_mem ham l u h) with e | e
      · rw [e]; simp
      · exact List.mem_cons_of_mem _ (List.mem_cons_of_mem _ e)

theorem select_mem {K V : Type} [LinearOrder K] {ham : V → Option K} {l : List V} {u : V} (h : select ham l = some u) : u ∈ l := by
  match l, h with
  | [u'], h => cases h; simp
  | a :: b :: l, h =>
    cases h
    exact selectGo_mem ham _ _ _

theorem mapM_fst {α β : Type} {f : α → Py β} : ∀ {l : List α} {m : List (α × β)},
    (l.mapM fun u => do let h ← f u; .ok (u, h)) = (.ok m : Py (List (α × β))) → m.map Prod.fst = l
  | [], m, h => by cases h; rfl
  | x :: l, m, h => by
    rw [List.mapM_cons] at h
    obtain ⟨v, h1, h⟩ := bind_ok h
    obtain ⟨vs, h2, h⟩ := bind_ok h
    obtain ⟨w, -, h1⟩ := bind_ok h1
    cases h
    cases h1
    rw [List.map_cons, mapM_fst h2]

/-- The chosen control is the value of one of the options. -/
theorem computeU_some {U : Name → Nat → ℝ → ℝ} {p : Prob} {σ : Env} {y pr k u : List ℝ} (hy : (sts p).map σ = y)
    (hp : p.parameters.map σ = pr) (hk : p.constants.map σ = k) (h : computeU (real U) p y pr k = .ok (some u)) :
    ∃ opt ∈ p.controlLaw, u = opt.map (eval (real U) σ) := by
  have hargs : ∀ av ∈ [sts p, p.parameters, p.constants].zip [y, pr, k], av.1.length = av.2.length → av.1.map σ = av.2 := by
    intro av hav _
    simp only [List.zip_cons_cons, List.mem_cons, List.zip_nil_left, List.not_mem_nil, or_false] at hav
    rcases hav with rfl | rfl | rfl
    · exact hy
    · exact hp
    · exact hk
  rw [computeU] at h
  split at h
  · cases h
  · next o ho =>
    obtain ⟨w, h1, h⟩ := bind_ok h
    cases h
    exact ⟨o, by simp [ho], lambdifyL_val h1 hargs⟩
  · obtain ⟨us, h1, h⟩ := bind_ok h
    have h1 := lambdifyM_val h1 hargs
    split at h
    · cases h
    · obtain ⟨hs, h2, h⟩ := bind_ok h
      have h3 := mapM_fst h2
      simp only [Except.ok.injEq, Option.map_eq_some_iff] at h
      obtain ⟨uh, h4, rfl⟩ := h
      have h5 : uh.1 ∈ us := h3 ▸ List.mem_map_of_mem (select_mem h4)
      rw [h1, List.mem_map] at h5
      obtain ⟨opt, h6, h7⟩ := h5
      exact ⟨opt, h6, h7.symm⟩

theorem computeU_none {U : Name → Nat → ℝ → ℝ} {p : Prob} {y pr k : List ℝ} (h : computeU (real U) p y pr k = .ok none) :
    p.controlLaw = [] := by
  rw [computeU] at h
  split at h
  · next he => exact he
  · obtain ⟨w, h1, h⟩ := bind_ok h
    cases h
  · obtain ⟨us, h1, h⟩ := bind_ok h
    split at h
    · cases h
    · obtain ⟨hs, h2, h⟩ := bind_ok h
      simp only [Except.ok.injEq, Option.map_eq_none_iff] at h
      have h3 : hs = [] := by
        cases hs with
        | nil => rfl
        | cons x xs => cases xs <;> cases h
      subst h3
      cases us with
      | cons u us =>
        rw [List.mapM_cons] at h2
        obtain ⟨_, _, h2⟩ := bind_ok h2
        obtain ⟨_, _, h2⟩ := bind_ok h2
        cases h2
      | nil =>
        rw [lambdifyM] at h1
        match hl : p.controlLaw, h1 with
        | [], _ => rfl
        | o :: os, h1 =>
          rw [List.mapM_cons] at h1
          obtain ⟨_, _, h1⟩ := bind_ok h1
          obtain ⟨_, _, h1⟩ := bind_ok h1
          cases h1

section
variable {U : Name → Nat → ℝ → ℝ} {p : Prob} {a b : ℝ} {y : ℝ → List ℝ} {pr pc k : List ℝ} {ρ : ℝ → Env}

theorem atPoint_val (hr : Reads U p a b y pr pc k ρ) {t : ℝ} (ht : t ∈ Set.Icc a b) {es : List Expr} {w : List ℝ}
    (h : atPoint (real U) p es (y t) pr k = .ok w) : w = es.map (eval (real U) (ρ t)) := by
  rw [atPoint] at h
  obtain ⟨ou, h1, h⟩ := bind_ok h
  cases ou with
  | none =>
    refine lambdifyL_val h ?_
    intro av hav _
    simp only [List.zip_cons_cons, List.mem_cons, List.zip_nil_left, List.not_mem_nil, or_false] at hav
    rcases hav with rfl | rfl | rfl
    · exact hr.states t
    · exact hr.parameters t
    · exact hr.constants t
  | some u =>
    refine lambdifyL_val h ?_
    intro av hav _
    simp only [List.zip_cons_cons, List.mem_cons, List.zip_nil_left, List.not_mem_nil, or_false] at hav
    rcases hav with rfl | rfl | rfl | rfl
    · exact hr.states t
    · exact hr.controls t ht u h1
    · exact hr.parameters t
    · exact hr.constants t

theorem bcEnd_val (hr : Reads U p a b y pr pc k ρ) (hq : p.quads = []) {t : ℝ} (ht : t ∈ Set.Icc a b) {cs : List Con} {q w : List ℝ}
    (h : bcEnd (real U) p cs (y t) q pr pc k = .ok w) : w = cs.map fun c => eval (real U) (ρ t) c.expr := by
  have e : cs.map (fun c => eval (real U) (ρ t) c.expr) = (cs.map Con.expr).map (eval (real U) (ρ t)) := by
    rw [List.map_map]; rfl
  rw [e]
  rw [bcEnd] at h
  simp only [hq, List.length_nil, gt_iff_lt, lt_irrefl, if_false, List.append_nil] at h
  obtain ⟨ou, h1, h⟩ := bind_ok h
  cases ou with
  | none =>
    refine lambdifyL_val h ?_
    intro av hav _
    simp only [List.map_cons, List.map_nil, List.cons_append, List.nil_append, List.zip_cons_cons, List.mem_cons,
      List.zip_nil_left, List.not_mem_nil, or_false] at hav
    rcases hav with rfl | rfl | rfl | rfl
    · exact hr.states t
    · exact hr.parameters t
    · exact hr.multipliers t
    · exact hr.constants t
  | some u =>
    refine lambdifyL_val h ?_
    intro av hav _
    simp only [List.map_cons, List.map_nil, List.cons_append, List.nil_append, List.zip_cons_cons, List.mem_cons,
      List.zip_nil_left, List.not_mem_nil, or_false] at hav
    rcases hav with rfl | rfl | rfl | rfl | rfl
    · exact hr.states t
    · exact hr.controls t ht u h1
    · exact hr.parameters t
    · exact hr.multipliers t
    · exact hr.constants t

theorem NumSol.near (h : NumSol U p a b y pr pc k) : NumNear U p 0 a b y pr pc k := by
  obtain ⟨r, h1, h2⟩ := h.boundary
  exact ⟨h.rates, r, h1, fun x hx => abs_nonpos_iff.2 (h2 x hx)⟩

/-- A solution of the compiled boundary value problem solves the symbolic one, up to the same tolerance. -/
theorem NumNear.solves {ε : ℝ} (hab : a ≤ b) (h : NumNear U p ε a b y pr pc k) (hr : Reads U p a b y pr pc k ρ) (hq : p.quads = [])
    (hlaw : p.controls = [] ∨ p.controlLaw ≠ []) : NearlySolves U p ε a b ρ where
  follows := by
    intro t ht d hd
    obtain ⟨v, h1, h2⟩ := h.rates t ht
    have hv := atPoint_val hr ht h1
    obtain ⟨i, hi, rfl⟩ := List.mem_iff_getElem.1 hd
    have hi' : i < v.length := by rw [hv]; simpa using hi
    have h3 := h2 i hi'
    have e1 : (fun τ => (y τ).getD i 0) = fun τ => ρ τ p.states[i].name := by
      funext τ
      rw [← hr.states τ, sts]
      simp [hi]
    have e2 : v[i] = eval (real U) (ρ t) p.states[i].eom := by
      simp only [hv, List.getElem_map]
    rw [e1, e2] at h3
    rw [one_mul]
    exact h3
  fixed := by
    intro s h1 _ h3 h4 t ht
    have : (fun τ => ρ τ s) = fun _ => ρ t s := by
      funext τ
      exact hr.others s h1 h3 h4 τ t
    rw [this]
    exact hasDerivAt_const _ _
  law := by
    intro hc t ht
    have hl := hlaw.resolve_left hc
    obtain ⟨v, h1, -⟩ := h.rates t ht
    rw [derivFunc, atPoint] at h1
    obtain ⟨ou, h2, -⟩ := bind_ok h1
    cases ou with
    | none => exact absurd (computeU_none h2) hl
    | some u =>
      obtain ⟨opt, h3, h4⟩ := computeU_some (hr.states t) (hr.parameters t) (hr.constants t) h2
      refine ⟨opt, h3, ?_⟩
      have h5 := hr.controls t ht u h2
      rw [h4] at h5
      rw [← List.forall₂_map_left_iff (f := ρ t) (R := fun x e => x = eval (real U) (ρ t) e), h5]
      rw [List.forall₂_map_left_iff]
      exact List.forall₂_same.2 fun _ _ => rfl
  initial := by
    obtain ⟨r, h1, h2⟩ := h.boundary
    rw [bcFunc] at h1
    obtain ⟨v, h3, h1⟩ := bind_ok h1
    obtain ⟨w, h4, h1⟩ := bind_ok h1
    cases h1
    have hv := bcEnd_val hr hq ⟨le_refl _, hab⟩ h3
    intro c hc
    exact h2 _ (List.mem_append_left _ (by rw [hv]; exact List.mem_map_of_mem hc))
  terminal := by
    obtain ⟨r, h1, h2⟩ := h.boundary
    rw [bcFunc] at h1
    obtain ⟨v, h3, h1⟩ := bind_ok h1
    obtain ⟨w, h4, h1⟩ := bind_ok h1
    cases h1
    have hw := bcEnd_val hr hq ⟨hab, le_refl _⟩ h4
    intro c hc
    exact h2 _ (List.mem_append_right _ (by rw [hw]; exact List.mem_map_of_mem hc))

/-- An exact solution of the compiled boundary value problem solves the symbolic one. -/
theorem NumSol.solves (hab : a ≤ b) (h : NumSol U p a b y pr pc k) (hr : Reads U p a b y pr pc k ρ) (hq : p.quads = [])
    (hlaw : p.controls = [] ∨ p.controlLaw ≠ []) : Solves U p a b ρ :=
  nearlySolves_zero.1 (h.near.solves hab hr hq hlaw)

/-- A solution of the symbolic boundary value problem is one of the compiled problem, if that can be evaluated. -/
theorem numNear_of_nearly {ε : ℝ} (hr : Reads U p a b y pr pc k ρ) (hab : a ≤ b) (hq : p.quads = []) (hs : NearlySolves U p ε a b ρ)
    (hd : ∀ t ∈ Set.Icc a b, ∃ v, derivFunc (real U) p (y t) pr k = .ok v)
    (hb : ∃ r, bcFunc (real U) p (y a) [] (y b) [] pr pc k = .ok r) : NumNear U p ε a b y pr pc k where
  rates := by
    intro t ht
    obtain ⟨v, h1⟩ := hd t ht
    have hv := atPoint_val hr ht h1
    refine ⟨v, h1, ?_⟩
    intro i hi
    have hi' : i < p.states.length := by rw [hv] at hi; simpa using hi
    have h3 := hs.follows t ht p.states[i] (List.getElem_mem hi')
    have e1 : (fun τ => (y τ).getD i 0) = fun τ => ρ τ p.states[i].name := by
      funext τ
      rw [← hr.states τ, sts]
      simp [hi']
    have e2 : v[i] = eval (real U) (ρ t) p.states[i].eom := by
      simp only [hv, List.getElem_map]
    rw [e1, e2]
    rwa [one_mul] at h3
  boundary := by
    obtain ⟨r, h1⟩ := hb
    refine ⟨r, h1, ?_⟩
    rw [bcFunc] at h1
    obtain ⟨v, h3, h1⟩ := bind_ok h1
    obtain ⟨w, h4, h1⟩ := bind_ok h1
    cases h1
    intro x hx
    rcases List.mem_append.1 hx with hx | hx
    · rw [bcEnd_val hr hq ⟨le_refl _, hab⟩ h3] at hx
      obtain ⟨c, hc, rfl⟩ := List.mem_map.1 hx
      exact hs.initial c hc
    · rw [bcEnd_val hr hq ⟨hab, le_refl _⟩ h4] at hx
      obtain ⟨c, hc, rfl⟩ := List.mem_map.1 hx
      exact hs.terminal c hc

theorem numSol_of_solves (hr : Reads U p a b y pr pc k ρ) (hab : a ≤ b) (hq : p.quads = []) (hs : Solves U p a b ρ)
    (hd : ∀ t ∈ Set.Icc a b, ∃ v, derivFunc (real U) p (y t) pr k = .ok v)
    (hb : ∃ r, bcFunc (real U) p (y a) [] (y b) [] pr pc k = .ok r) : NumSol U p a b y pr pc k := by
  have h := numNear_of_nearly hr hab hq (nearlySolves_zero.2 hs) hd hb
  obtain ⟨r, h1, h2⟩ := h.boundary
  exact ⟨h.rates, r, h1, fun x hx => abs_nonpos_iff.1 (h2 x hx)⟩

end

theorem zip_lookup : ∀ {ns : List Name} {vs : List ℝ}, ns.Nodup → ns.length = vs.length →
    ns.map (fun s => ((ns.zip vs).lookup s).getD 0) = vs
  | [], vs, _, h => by
    cases vs with
    | nil => rfl
    | cons _ _ => cases h
  | n :: ns, vs, hn, h => by
    cases vs with
    | nil => cases h
    | cons v vs =>
      rw [List.nodup_cons] at hn
      have ih := zip_lookup hn.2 (Nat.succ.inj h)
      simp only [List.map_cons, List.zip_cons_cons, List.lookup_cons_self, Option.getD_some]
      congr 1
      rw [← ih]
      refine List.map_congr_left fun s hs => ?_
      have : (s == n) = false := by
        rw [beq_eq_false_iff_ne]
        rintro rfl
        exact hn.1 hs
      rw [List.lookup_cons, this, ih]

/-- The controls in use, and zeros if there are none. -/
noncomputable def usedControls (U : Name → Nat → ℝ → ℝ) (p : Prob) (y pr k : List ℝ) : List ℝ :=
  match computeU (real U) p y pr k with
  | .ok (some u) => if u.length = p.controls.length then u else List.replicate p.controls.length 0
  | _ => List.replicate p.controls.length 0

theorem usedControls_length (U : Name → Nat → ℝ → ℝ) (p : Prob) (y pr k : List ℝ) :
    (usedControls U p y pr k).length = p.controls.length := by
  rw [usedControls]
  split
  · split
    · next h => exact h
    · simp
  · simp

theorem computeU_length {U : Name → Nat → ℝ → ℝ} {p : Prob} {m : Nat} (hl : ∀ opt ∈ p.controlLaw, opt.length = m)
    {y pr k u : List ℝ} (h : computeU (real U) p y pr k = .ok (some u)) : u.length = m := by
  have hL : ∀ {args vals es w}, lambdifyL (real U) args es vals = .ok w → w.length = es.length := by
    intro args vals es w h
    rw [lambdifyL] at h
    exact (Opt.mapM_pairs h).length_eq.symm
  rw [computeU] at h
  split at h
  · cases h
  · next o ho =>
    obtain ⟨w, h1, h⟩ := bind_ok h
    cases h
    rw [hL h1]
    exact hl o (by simp [ho])
  · obtain ⟨us, h1, h⟩ := bind_ok h
    split at h
    · cases h
    · obtain ⟨hs, h2, h⟩ := bind_ok h
      have h3 := mapM_fst h2
      simp only [Except.ok.injEq, Option.map_eq_some_iff] at h
      obtain ⟨uh, h4, rfl⟩ := h
      have h5 : uh.1 ∈ us := h3 ▸ List.mem_map_of_mem (select_mem h4)
      rw [lambdifyM] at h1
      obtain ⟨opt, ho, h6⟩ := forall₂_right (Opt.mapM_pairs h1) _ h5
      rw [hL h6]
      exact hl opt ho

/-- The values of the symbols along a curve of arrays exist. -/
theorem C73_reads (U : Name → Nat → ℝ → ℝ) {p : Prob} {a b : ℝ} {y : ℝ → List ℝ} {pr pc k : List ℝ}
    (hn : (sts p ++ p.controls ++ p.parameters ++ p.constraintParams ++ p.constants).Nodup)
    (hl : ∀ opt ∈ p.controlLaw, opt.length = p.controls.length) (hy : ∀ t, (y t).length = p.states.length)
    (h1 : pr.length = p.parameters.length) (h2 : pc.length = p.constraintParams.length) (h3 : k.length = p.constants.length) :
    ∃ ρ, Reads U p a b y pr pc k ρ := by
  let ns := sts p ++ p.controls ++ p.parameters ++ p.constraintParams ++ p.constants
  let vs := fun t => y t ++ usedControls U p (y t) pr k ++ pr ++ pc ++ k
  let ρ : ℝ → Env := fun t s => ((ns.zip (vs t)).lookup s).getD 0
  have key : ∀ t, ns.map (ρ t) = vs t := fun t => zip_lookup hn (by
    simp [ns, vs, sts, hy t, usedControls_length, h1, h2, h3])
  have split5 : ∀ t, (sts p).map (ρ t) = y t ∧ p.controls.map (ρ t) = usedControls U p (y t) pr k ∧
      p.parameters.map (ρ t) = pr ∧ p.constraintParams.map (ρ t) = pc ∧ p.constants.map (ρ t) = k := by
    intro t
    have := key t
    simp only [ns, vs, List.map_append] at this
    obtain ⟨e1, e5⟩ := List.append_inj this (by simp [sts, hy t, usedControls_length, h1, h2])
    obtain ⟨e1, e4⟩ := List.append_inj e1 (by simp [sts, hy t, usedControls_length, h1])
    obtain ⟨e1, e3⟩ := List.append_inj e1 (by simp [sts, hy t, usedControls_length])
    obtain ⟨e1, e2⟩ := List.append_inj e1 (by simp [sts, hy t])
    exact ⟨e1, e2, e3, e4, e5⟩
  refine ⟨ρ, fun t => (split5 t).1, ?_, fun t => (split5 t).2.2.1, fun t => (split5 t).2.2.2.1, fun t => (split5 t).2.2.2.2, ?_⟩
  · intro t _ u hu
    rw [(split5 t).2.1, usedControls, hu]
    simp [computeU_length hl hu]
  · intro s n1 n2 _ t t'
    have skip : ∀ {A B C : List Name} {A' B' C' : List ℝ}, A.length = A'.length → s ∉ A →
        (((A ++ B).zip (A' ++ B')).lookup s) = (B.zip B').lookup s := by
      intro A B C A' B' C' hlen hA
      rw [List.zip_append hlen]
      clear hlen
      induction A generalizing A' with
      | nil => simp
      | cons x A ih =>
        cases A' with
        | nil => simp
        | cons z A' =>
          simp only [List.zip_cons_cons, List.cons_append]
          have : (s == x) = false := by
            rw [beq_eq_false_iff_ne]
            rintro rfl
            exact hA (by simp)
          rw [List.lookup_cons, this]
          exact ih (fun hh => hA (by simp [hh]))
    have hsp : ∀ t, ρ t s = (((p.parameters ++ p.constraintParams ++ p.constants).zip (pr ++ pc ++ k)).lookup s).getD 0 := by
      intro t
      have e1 : ns = (sts p ++ p.controls) ++ (p.parameters ++ p.constraintParams ++ p.constants) := by simp [ns]
      have e2 : vs t = (y t ++ usedControls U p (y t) pr k) ++ (pr ++ pc ++ k) := by simp [vs]
      simp only [ρ]
      rw [e1, e2, skip (C := []) (C' := []) (by simp [sts, hy t, usedControls_length]) (by simp [n1, n2])]
    rw [hsp, hsp]

end Beluga.E2E
