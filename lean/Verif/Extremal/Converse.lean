import Std.Data.String.ToNat
import Verif.Extremal.Lift
import Verif.Extremal.Back
import Verif.Extremal.Props

/-! # Extremals of the user's problem solve the generated boundary value problem (C71) -/

namespace Beluga.Opt

open Beluga.Sym Beluga.Sym.Expr

/-! ### Specification -/

/-- The symbols of the problem `O` that move along a trajectory. -/
def Ocp.moving (O : Ocp) : List Name := O.rates.map Prod.fst ++ O.controls

/-- The curve `ρ` over `[a, b]` carries the curve `x` with costates `lam` and multipliers: time is `A + c (τ - a)`, states,
controls and costates have the values of that time, the costate of time is the negative of the Hamiltonian, the
multipliers are values of further symbols, with normalised time the duration is too, and nothing else moves. -/
structure Carries (O : Ocp) (norm : Bool) (A c a : ℝ) (x : ℝ → Env) (lam : ℝ → Name → ℝ) (ν₀ ν₁ : Nat → ℝ)
    (ρ : ℝ → Env) : Prop where
  moving : ∀ s ∈ O.moving, ∀ τ, ρ τ s = x (A + c * (τ - a)) s
  time : ∀ τ, ρ τ O.ind = A + c * (τ - a)
  costates : ∀ r ∈ O.rates, ∀ τ, ρ τ ("_lam_" ++ r.1) = lam (A + c * (τ - a)) r.1
  costate_time : ∀ τ, ρ τ ("_lam_" ++ O.ind) = -(O.ham (lam (A + c * (τ - a))) (ρ τ))
  start : ∀ i < O.initial.length, ρ a ("_nu_0_" ++ toString i) = ν₀ i
  stop : ∀ i < O.terminal.length, ρ a ("_nu_f_" ++ toString i) = ν₁ i
  duration : norm = true → ρ a ("_delta_" ++ O.ind) = c
  plain : ∀ s, ¬ Reserved s → s ∉ O.moving → s ≠ O.ind → s ≠ "_" ++ O.ind → ρ a s = x A s
  rest : ∀ s, s ∉ O.moving → s ≠ O.ind → (∀ r ∈ O.rates, s ≠ "_lam_" ++ r.1) → s ≠ "_lam_" ++ O.ind →
    s ≠ (if norm then "_tau" else "_" ++ O.ind) → ∀ τ, ρ τ s = ρ a s

/-! ### Every extremal is carried by some curve -/

theorem nu_ne (pre : String) {i j : Nat} (h : pre ++ toString i = pre ++ toString j) : i = j := by
  have := congrArg String.toList h
  rw [String.toList_append, String.toList_append] at this
  exact Nat.repr_injective (String.toList_injective (List.append_cancel_left this))

/-- The curve without the costate of time. -/
noncomputable def preCurve (O : Ocp) (norm : Bool) (A c a : ℝ) (x : ℝ → Env) (lam : ℝ → Name → ℝ) (ν₀ ν₁ : Nat → ℝ)
    (τ : ℝ) (s : Name) : ℝ := by
  classical
  exact
  if s ∈ O.moving then x (A + c * (τ - a)) s
  else if s = O.ind then A + c * (τ - a)
  else if h : ∃ r ∈ O.rates, s = "_lam_" ++ r.1 then lam (A + c * (τ - a)) h.choose.1
  else if h : ∃ i : Nat, s = "_nu_0_" ++ toString i then ν₀ h.choose
  else if h : ∃ i : Nat, s = "_nu_f_" ++ toString i then ν₁ h.choose
  else if norm = true ∧ s = "_delta_" ++ O.ind then c
  else if s = (if norm then "_tau" else "_" ++ O.ind) then τ
  else if Reserved s then 0
  else x A s

theorem lam_cancel {a b : String} (h : "_lam_" ++ a = "_lam_" ++ b) : a = b := by
  have := congrArg String.toList h
  rw [String.toList_append, String.toList_append] at this
  exact String.toList_injective (List.append_cancel_left this)

/-- Names of the problem and generated names do not clash. -/
structure Apart (O : Ocp) : Prop where
  moving : ∀ s ∈ O.moving ++ [O.ind], ¬ Reserved s
  ind : O.ind ∉ O.moving
  ham : ∀ l σ z, O.ham l (Function.update σ ("_lam_" ++ O.ind) z) = O.ham l σ
  under : ¬ Reserved ("_" ++ O.ind)
  controls : ∀ u ∈ O.controls, u ∉ O.rates.map Prod.fst

theorem carries_exists {O : Ocp} (hO : Apart O) (norm : Bool) (A c a : ℝ) (x : ℝ → Env) (lam : ℝ → Name → ℝ) (ν₀ ν₁ : Nat → ℝ) :
    ∃ ρ, Carries O norm A c a x lam ν₀ ν₁ ρ ∧ ∀ u ∈ O.controls, ρ a ("_lam_" ++ u) = 0 := by
  classical
  have hind := hO.moving O.ind (by simp)
  have hmov : ∀ s ∈ O.moving, ¬ Reserved s := fun s hs => hO.moving s (by simp [hs])
  have hlam : ∀ r ∈ O.rates, r.1 ≠ O.ind := by
    intro r hr e
    exact hO.ind (by rw [← e]; exact List.mem_append_left _ (List.mem_map_of_mem hr))
  have k0 : ∀ (i : Nat) n, "_nu_0_" ++ toString i ≠ "_lam_" ++ n := by
    intro i n e
    have := congrArg String.toList e
    simp [String.toList_append] at this
  have k1 : ∀ (i : Nat) n, "_nu_f_" ++ toString i ≠ "_lam_" ++ n := by
    intro i n e
    have := congrArg String.toList e
    simp [String.toList_append] at this
  have k2 : ∀ (i j : Nat), "_nu_f_" ++ toString i ≠ "_nu_0_" ++ toString j := by
    intro i n e
    have := congrArg String.toList e
    simp [String.toList_append] at this
  have kd : ∀ n, "_delta_" ++ O.ind ≠ "_lam_" ++ n := by
    intro n e
    have := congrArg String.toList e
    simp [String.toList_append] at this
  have kd0 : ∀ i : Nat, "_delta_" ++ O.ind ≠ "_nu_0_" ++ toString i := by
    intro n e
    have := congrArg String.toList e
    simp [String.toList_append] at this
  have kdf : ∀ i : Nat, "_delta_" ++ O.ind ≠ "_nu_f_" ++ toString i := by
    intro n e
    have := congrArg String.toList e
    simp [String.toList_append] at this
  have rd : Reserved ("_delta_" ++ O.ind) := by
    refine Or.inr (Or.inr (Or.inr (Or.inl ⟨"_" ++ O.ind, ?_⟩)))
    rw [← String.append_assoc]; rfl
  have rl : ∀ n, Reserved ("_lam_" ++ n) := fun n => Or.inl ⟨n, rfl⟩
  have r0 : ∀ i : Nat, Reserved ("_nu_0_" ++ toString i) := fun i => Or.inr (Or.inl ⟨_, rfl⟩)
  have rf : ∀ i : Nat, Reserved ("_nu_f_" ++ toString i) := fun i => Or.inr (Or.inr (Or.inl ⟨_, rfl⟩))
  have nm : ∀ s, Reserved s → s ∉ O.moving := fun s hs hm => hmov s hm hs
  have ni : ∀ s, Reserved s → s ≠ O.ind := fun s hs e => hind (e ▸ hs)
  let P := preCurve O norm A c a x lam ν₀ ν₁
  let ρ : ℝ → Env := fun τ => Function.update (P τ) ("_lam_" ++ O.ind) (-(O.ham (lam (A + c * (τ - a))) (P τ)))
  have hρ : ∀ τ s, s ≠ "_lam_" ++ O.ind → ρ τ s = P τ s := fun τ s hs => Function.update_of_ne hs _ _
  have hne : ∀ s, ¬ Reserved s → s ≠ "_lam_" ++ O.ind := fun s hs e => hs (e ▸ rl _)
  refine ⟨ρ, ⟨?_, ?_, ?_, ?_, ?_, ?_, ?_, ?_, ?_⟩, ?_⟩
  · intro s hs τ
    rw [hρ τ s (hne s (hmov s hs))]
    rw [show P = preCurve O norm A c a x lam ν₀ ν₁ from rfl, preCurve]
    rw [if_pos hs]
  · intro τ
    rw [hρ τ _ (hne _ hind)]
    rw [show P = preCurve O norm A c a x lam ν₀ ν₁ from rfl, preCurve]
    rw [if_neg hO.ind, if_pos rfl]
  · intro r hr τ
    rw [hρ τ _ (fun e => hlam r hr (lam_cancel e))]
    rw [show P = preCurve O norm A c a x lam ν₀ ν₁ from rfl, preCurve]
    have hex : ∃ r' ∈ O.rates, "_lam_" ++ r.1 = "_lam_" ++ r'.1 := ⟨r, hr, rfl⟩
    rw [if_neg (nm _ (rl _)), if_neg (ni _ (rl _)), dif_pos hex, ← lam_cancel hex.choose_spec.2]
  · intro τ
    have e1 : ρ τ ("_lam_" ++ O.ind) = -(O.ham (lam (A + c * (τ - a))) (P τ)) := Function.update_self _ _ _
    rw [e1]
    change _ = -(O.ham _ (Function.update (P τ) _ _))
    rw [hO.ham]
  · intro i _
    rw [hρ _ _ (k0 i _)]
    rw [show P = preCurve O norm A c a x lam ν₀ ν₁ from rfl, preCurve]
    have hex : ∃ j : Nat, "_nu_0_" ++ toString i = "_nu_0_" ++ toString j := ⟨i, rfl⟩
    rw [if_neg (nm _ (r0 _)), if_neg (ni _ (r0 _)), dif_neg (by rintro ⟨r, -, e⟩; exact k0 _ _ e), dif_pos hex,
      ← nu_ne _ hex.choose_spec]
  · intro i _
    rw [hρ _ _ (k1 i _)]
    rw [show P = preCurve O norm A c a x lam ν₀ ν₁ from rfl, preCurve]
    have hex : ∃ j : Nat, "_nu_f_" ++ toString i = "_nu_f_" ++ toString j := ⟨i, rfl⟩
    rw [if_neg (nm _ (rf _)), if_neg (ni _ (rf _)), dif_neg (by rintro ⟨r, -, e⟩; exact k1 _ _ e),
      dif_neg (by rintro ⟨j, e⟩; exact k2 _ _ e), dif_pos hex, ← nu_ne _ hex.choose_spec]
  · intro hn
    rw [hρ _ _ (kd _)]
    rw [show P = preCurve O norm A c a x lam ν₀ ν₁ from rfl, preCurve]
    rw [if_neg (nm _ rd), if_neg (ni _ rd), dif_neg (by rintro ⟨r, -, e⟩; exact kd _ e),
      dif_neg (by rintro ⟨j, e⟩; exact kd0 _ e), dif_neg (by rintro ⟨j, e⟩; exact kdf _ e), if_pos ⟨hn, rfl⟩]
  · intro s hs h1 h2 h3
    rw [hρ _ _ (hne s hs)]
    rw [show P = preCurve O norm A c a x lam ν₀ ν₁ from rfl, preCurve]
    rw [if_neg h1, if_neg h2, dif_neg (by rintro ⟨r, -, e⟩; exact hs (e ▸ rl _)),
      dif_neg (by rintro ⟨j, e⟩; exact hs (e ▸ r0 _)), dif_neg (by rintro ⟨j, e⟩; exact hs (e ▸ rf _)),
      if_neg (by rintro ⟨-, e⟩; exact hs (e ▸ rd)), if_neg, if_neg hs]
    intro e
    cases norm
    · exact h3 (by simpa using e)
    · exact hs (Or.inr (Or.inr (Or.inr (Or.inr (by simpa using e)))))
  · intro s h1 h2 h3 h4 h5 τ
    have nr : ¬ ∃ r ∈ O.rates, s = "_lam_" ++ r.1 := by rintro ⟨r, hr, e⟩; exact h3 r hr e
    rw [hρ _ _ h4, hρ _ _ h4, show P = preCurve O norm A c a x lam ν₀ ν₁ from rfl, preCurve, preCurve]
    rw [if_neg h1, if_neg h1, if_neg h2, if_neg h2, dif_neg nr, dif_neg nr, if_neg h5, if_neg h5]
  · intro u hu
    have n1 : u ≠ O.ind := fun e => hO.ind (e ▸ List.mem_append_right _ hu)
    have n2 : ¬ ∃ r ∈ O.rates, "_lam_" ++ u = "_lam_" ++ r.1 := by
      rintro ⟨r, hr, e⟩
      exact hO.controls u hu (List.mem_map.2 ⟨r, hr, (lam_cancel e).symm⟩)
    rw [hρ _ _ (fun e => n1 (lam_cancel e)), show P = preCurve O norm A c a x lam ν₀ ν₁ from rfl, preCurve]
    rw [if_neg (nm _ (rl _)), if_neg (ni _ (rl _)), dif_neg n2, dif_neg (by rintro ⟨j, e⟩; exact k0 _ _ e.symm),
      dif_neg (by rintro ⟨j, e⟩; exact k1 _ _ e.symm), if_neg (by rintro ⟨-, e⟩; exact kd _ e.symm), if_neg, if_pos (rl u)]
    cases norm
    · exact fun e => hO.under ((show "_lam_" ++ u = "_" ++ O.ind by simpa using e) ▸ rl u)
    · intro e
      have := congrArg String.toList e
      simp [String.toList_append] at this

/-! ### Property -/

/-- From the dual problem: extremals solve the generated boundary value problem. -/
theorem FrontOk.complete {S : Sympy} (hL : LuSound S) {o : Opts} {p p' p3 q : Prob} {f f2 f3 : Expr → Expr} {ctl : Step}
    (hp : Stated p) (hf : FrontOk p p3 q f f2 f3)
    (hctl : ctl = .algebraic ∧ o.controlMethod = .algebraic ∨
      ctl = .differential o.method ∧ o.controlMethod = .differential)
    (hd : o.method ≠ .other)
    (h : runSteps S ([.dualize o.method, ctl] ++ (if o.normalizeTime then [.normalizeTime] else []) ++ [.squash] ++
        (if o.analyticalJacobian && o.controlMethod ≠ .algebraic then [.jacobians] else [])) q = .ok p')
    {B : ℝ → ℝ → ℝ → ℝ → ℝ} (hocp : ∀ U Q, Completes U p Q →
      ocpOf U p.ind (p.states.map fun d => ⟨d.name, f3 (f2 (f d.eom))⟩) p.constants q = userOcp U Q B p) :
      ∀ U Q, Completes U p Q → ∀ A E x lam ν₀ ν₁, Extremal (userOcp U Q B p) A E x lam ν₀ ν₁ →
        (∀ s ∈ (userOcp U Q B p).controls, ∀ t ∈ Set.Icc A E, DifferentiableAt ℝ (fun τ => x τ s) t) →
        (∀ s, ¬ Reserved s → s ∉ (userOcp U Q B p).moving → s ≠ p.ind → ∀ t ∈ Set.Icc A E, x t s = x A s) →
        ∀ a b c, a < b → 0 < c → (o.normalizeTime = false → c = 1) → E = A + c * (b - a) →
          (∃ ρ, Carries (userOcp U Q B p) o.normalizeTime A c a x lam ν₀ ν₁ ρ ∧
            ∀ u ∈ (userOcp U Q B p).controls, ρ a ("_lam_" ++ u) = 0) ∧
          ∀ ρ, Carries (userOcp U Q B p) o.normalizeTime A c a x lam ν₀ ν₁ ρ → Regular S U q p' a b ρ →
            (o.controlMethod = .algebraic → ∀ t ∈ Set.Icc a b,
              SolveFinds S U (q.controls.map fun u => (hexpr q).diff u) q.controls (ρ t)) →
            (o.controlMethod = .differential → ∀ t ∈ Set.Icc a b, Nondegenerate U (hexpr q) q.controls (ρ t)) →
            (o.method = .diffyg → o.controlMethod = .differential →
              ∀ u ∈ (userOcp U Q B p).controls, ρ a ("_lam_" ++ u) = 0) →
            Solves U p' a b ρ := by
  intro U Q hQ A E x lam ν₀ ν₁ he hdu hconst a b c hab hc hnorm hE
  rw [← hocp U Q hQ] at he hdu hconst ⊢
  have hname : "_delta" ++ q.ind = "_delta_" ++ p.ind := by
    rw [hf.ind, ← String.append_assoc]
    rfl
  have hcl := hf.clean hp
  generalize hinit : (p.states.map fun d => (⟨d.name, f3 (f2 (f d.eom))⟩ : Dyn)) = init at *
  have hst : q.states = init ++ [⟨p.ind, 1⟩] := by rw [← hinit]; exact hf.states
  have hmov : (ocpOf U p.ind init p.constants q).moving = init.map Dyn.name ++ q.controls := by
    simp [Ocp.moving, ocpOf, List.map_map, Function.comp_def]
  have hin : init.map Dyn.name = p.states.map Dyn.name := by rw [← hinit]; simp [List.map_map, Function.comp_def]
  have hplain : ∀ s ∈ q.states.map Dyn.name, Plain p s := by
    intro s hs
    rw [hf.names] at hs
    exact hp.plain s (by simp only [List.mem_append] at hs ⊢; exact Or.inl (Or.inl hs))
  have hw : Within q (Plain p) := by
    refine ⟨fun d hd => ⟨hplain _ (List.mem_map_of_mem hd), fun s hs => (hf.eom_good d hd s hs).1⟩,
      fun u hu => (hf.control_mem hp hu).1, fun k hk s hs => (hf.con_good k hk s hs).1,
      fun e he s hs => (hf.cost_good e he s hs).1⟩
  have hnr : ∀ s ∈ init.map Dyn.name ++ q.controls ++ [p.ind], Plain p s := by
    intro s hs
    simp only [List.mem_append, List.mem_singleton] at hs
    rcases hs with (hs | hs) | rfl
    · exact hp.plain s (by rw [hin] at hs; simp only [List.mem_append]; exact Or.inl (Or.inl (Or.inl hs)))
    · exact (hf.control_mem hp hs).1
    · exact hp.plain _ (by simp)
  have hmemi : ∀ d ∈ init, d ∈ q.states := fun d hd => by simp [hst, hd]
  refine ⟨carries_exists ⟨?_, ?_, ?_, hp.ind, ?_⟩ _ _ _ _ _ _ _ _, ?_⟩
  · rw [hmov]
    exact fun s hs => (hnr s hs).1
  · rw [hmov]
    intro hh
    change p.ind ∈ _ at hh
    rcases List.mem_append.1 hh with hh | hh
    · have hnd := hcl.toNamed.lam.nodup
      rw [hst, List.map_append, List.nodup_append] at hnd
      exact hnd.2.2 _ hh p.ind (by simp) rfl
    · exact (hf.control_mem hp hh).2 (by simp)
  · intro l σ z
    refine ham_within hw hmemi l _ _ fun s hs => ?_
    exact Function.update_of_ne (fun e => hs.1 (Or.inl ⟨_, e⟩)) _ _
  · intro u hu hh
    have hh : u ∈ init.map Dyn.name := by
      simpa [ocpOf, List.map_map, Function.comp_def] using hh
    exact (hf.control_mem hp hu).2 (by rw [hin] at hh; exact List.mem_append_left _ (List.mem_append_left _ hh))
  · intro ρ hρ hr hsol hdet hzero
    have hcon : ∀ s, s ∉ q.states.map Dyn.name ++ q.states.map (fun s => lamName s.name) ++ q.controls →
        s ≠ (if o.normalizeTime then "_tau" else q.ind) → ∀ τ, ρ τ s = ρ a s := by
      intro s h1 h2
      simp only [List.mem_append, not_or] at h1
      have h3 : s ∉ init.map Dyn.name ∧ s ≠ p.ind := by
        have := h1.1.1
        rw [hst, List.map_append, List.mem_append, not_or] at this
        simpa using this
      refine hρ.rest s ?_ h3.2 ?_ ?_ ?_
      · rw [hmov, List.mem_append, not_or]
        exact ⟨h3.1, h1.2⟩
      · intro r hr e
        obtain ⟨d, hd, rfl⟩ := List.mem_map.1 hr
        exact h1.1.2 (List.mem_map.2 ⟨d, hmemi d hd, e.symm⟩)
      · intro e
        exact h1.1.2 (List.mem_map.2 ⟨⟨p.ind, 1⟩, by simp [hst], e.symm⟩)
      · rw [hf.ind] at h2
        exact h2
    have hres : ∀ s, Reserved s → (∀ n, s ≠ "_lam_" ++ n) → s ≠ "_tau" → ∀ τ, ρ τ s = ρ a s := by
      intro s hs h1 h2
      refine hcon s ?_ ?_
      · simp only [List.mem_append, not_or]
        refine ⟨⟨fun hh => (hplain s hh).1 hs, fun hh => ?_⟩, fun hh => (hf.control_mem hp hh).1.1 hs⟩
        obtain ⟨d, -, e⟩ := List.mem_map.1 hh
        exact h1 _ e.symm
      · split
        · exact h2
        · rw [hf.ind]
          exact fun e => hp.ind (e ▸ hs)
    have hlift : Lifts U q p.ind init (Plain p) A c a b x lam ν₀ ν₁ ρ := by
      refine ⟨?_, ?_, hρ.time, ?_, ?_, hρ.costate_time, ?_, ?_⟩
      · intro d hd τ
        exact hρ.moving _ (by rw [hmov]; exact List.mem_append_left _ (List.mem_map_of_mem hd)) τ
      · intro u hu τ
        exact hρ.moving _ (by rw [hmov]; exact List.mem_append_right _ hu) τ
      · intro s hs h1 h2
        have h3 : s ∉ init.map Dyn.name ∧ s ≠ p.ind := by
          rw [hst, List.map_append, List.mem_append, not_or] at h1
          simpa using h1
        have h4 : s ∉ (ocpOf U p.ind init p.constants q).moving := by
          rw [hmov, List.mem_append, not_or]
          exact ⟨h3.1, h2⟩
        constructor
        · intro τ
          rw [hρ.rest s h4 h3.2 (fun r _ e => hs.1 (Or.inl ⟨_, e⟩)) (fun e => hs.1 (Or.inl ⟨_, e⟩)) ?_ τ]
          · exact hρ.plain s hs.1 h4 h3.2 hs.2
          · split
            · exact fun e => hs.1 (Or.inr (Or.inr (Or.inr (Or.inr e))))
            · exact hs.2
        · intro τ hτ
          refine hconst s hs.1 h4 h3.2 _ ?_
          have h5 := mul_nonneg hc.le (sub_nonneg.2 hτ.1)
          have h6 := mul_le_mul_of_nonneg_left (sub_le_sub_right hτ.2 a) hc.le
          constructor <;> linarith
      · intro d hd τ
        exact hρ.costates (d.name, fun σ => eval (real U) σ d.eom) (List.mem_map.2 ⟨d, hd, rfl⟩) τ
      · intro i hi τ
        rw [hres _ (Or.inr (Or.inl ⟨_, rfl⟩)) _ _ τ]
        · exact hρ.start i (by simpa [ocpOf] using hi)
        · intro n e
          have := congrArg String.toList e
          simp [String.toList_append] at this
        · intro e
          have := congrArg String.toList e
          simp [String.toList_append] at this
      · intro i hi τ
        rw [hres _ (Or.inr (Or.inr (Or.inl ⟨_, rfl⟩))) _ _ τ]
        · exact hρ.stop i (by simpa [ocpOf] using hi)
        · intro n e
          have := congrArg String.toList e
          simp [String.toList_append] at this
        · intro e
          have := congrArg String.toList e
          simp [String.toList_append] at this
    have hdual := hlift.dual hcl.toNamed hst hw he hc hab.le hE hdu hr.rates hr.start hr.stop
    refine pipeline_back hL hcl hd hf.empty.2.2.2.1 (hctl.imp (fun h => h.1) fun h => h.1) hst h hab hdual ?_ ?_ hr ?_ ?_ ?_
    · intro s h1 h2 t ht
      rw [show (fun τ => ρ τ s) = fun _ => ρ a s from funext (hcon s h1 h2)]
      exact hasDerivAt_const _ _
    · intro t ht
      split
      · next hn =>
        rw [hname, hres _ _ _ _ t]
        · exact (hρ.duration hn).symm
        · exact Or.inr (Or.inr (Or.inr (Or.inl ⟨_, hname.symm⟩)))
        · intro n e
          have := congrArg String.toList e
          simp [String.toList_append] at this
        · intro e
          have := congrArg String.toList e
          simp [String.toList_append] at this
      · next hn => exact hnorm (by simpa using hn)
    · intro e
      refine hsol ?_
      rcases hctl with h1 | h1
      · exact h1.2
      · rw [e] at h1; cases h1.1
    · intro e
      refine hdet ?_
      rcases hctl with h1 | h1
      · rw [e] at h1; cases h1.1
      · exact h1.2
    · intro e u hu
      have h0 : ρ a ("_lam_" ++ u) = 0 := by
        rcases hctl with h1 | h1
        · rw [e] at h1; cases h1.1
        · have h2 := h1.1
          rw [e] at h2
          cases hm : o.method <;> rw [hm] at h2 <;> cases h2
          exact hzero hm h1.2 u hu
      refine ⟨fun t ht => ?_, h0⟩
      have hk : ∀ τ, ρ τ (lamName u) = ρ a (lamName u) := by
        refine hcon _ ?_ ?_
        · simp only [List.mem_append, not_or]
          refine ⟨⟨fun hh => (hplain _ hh).1 (Or.inl ⟨_, rfl⟩), fun hh => ?_⟩,
            fun hh => (hf.control_mem hp hh).1.1 (Or.inl ⟨_, rfl⟩)⟩
          obtain ⟨d, hd, e⟩ := List.mem_map.1 hh
          have e : d.name = u := lam_cancel e
          have hd := List.mem_map_of_mem (f := Dyn.name) hd
          rw [hf.names, e] at hd
          exact (hf.control_mem hp hu).2 (List.mem_append_left _ hd)
        · split
          · intro e
            have := congrArg String.toList e
            simp [lamName, String.toList_append] at this
          · rw [hf.ind]
            exact fun e => hp.ind (e ▸ Or.inl ⟨u, rfl⟩)
      rw [show (fun τ => ρ τ (lamName u)) = fun _ => ρ a (lamName u) from funext hk]
      exact hasDerivAt_const _ _

/-- Every extremal of the problem that the user stated solves the boundary value problem that `make_indirect_method`
generates: any curve that carries it does, and there is one.  With the method 'diffyg' and differential control, the
controls have costates too: the carrying curve must set them to zero.  Together with `C64_extremal_partial`, the boundary value
problem has exactly the extremals as solutions.

Assumed of the extremal: its controls are differentiable, and the generated expressions are regular along it.  Assumed of
sympy: with algebraic control, `solve` returns the stationary point that the extremal uses; with differential control, the
second derivatives of the Hamiltonian by the controls are nondegenerate along it (otherwise the extremal is lost, see
`C71_violated_solve`).  Missing from the full property: what is missing in `C64_extremal_partial`. -/
theorem C71_complete_partial {S : Sympy} (hL : LuSound S) {o : Opts} {p p' : Prob} (hp : Stated p)
    (hm : o.momentumShift = true) (hd : o.method ≠ .other) (h : indirect S o p = .ok p') :
    ∃ q B, primal S p = .ok q ∧ Barriers B ∧
      ∀ U Q, Completes U p Q → ∀ A E x lam ν₀ ν₁, Extremal (userOcp U Q B p) A E x lam ν₀ ν₁ →
        (∀ s ∈ (userOcp U Q B p).controls, ∀ t ∈ Set.Icc A E, DifferentiableAt ℝ (fun τ => x τ s) t) →
        (∀ s, ¬ Reserved s → s ∉ (userOcp U Q B p).moving → s ≠ p.ind → ∀ t ∈ Set.Icc A E, x t s = x A s) →
        ∀ a b c, a < b → 0 < c → (o.normalizeTime = false → c = 1) → E = A + c * (b - a) →
          (∃ ρ, Carries (userOcp U Q B p) o.normalizeTime A c a x lam ν₀ ν₁ ρ ∧
            ∀ u ∈ (userOcp U Q B p).controls, ρ a ("_lam_" ++ u) = 0) ∧
          ∀ ρ, Carries (userOcp U Q B p) o.normalizeTime A c a x lam ν₀ ν₁ ρ → Regular S U q p' a b ρ →
            (o.controlMethod = .algebraic → ∀ t ∈ Set.Icc a b,
              SolveFinds S U (q.controls.map fun u => (hexpr q).diff u) q.controls (ρ t)) →
            (o.controlMethod = .differential → ∀ t ∈ Set.Icc a b, Nondegenerate U (hexpr q) q.controls (ρ t)) →
            (o.method = .diffyg → o.controlMethod = .differential →
              ∀ u ∈ (userOcp U Q B p).controls, ρ a ("_lam_" ++ u) = 0) →
            Solves U p' a b ρ := by
  obtain ⟨q, ctl, hq, hctl, h⟩ := indirect_split hm h
  obtain ⟨p3, f, f2, f3, hf⟩ := front hp hq
  obtain ⟨B, hB, hocp⟩ := hf.ocp
  exact ⟨q, B, hq, hB, hf.complete hL hp hctl hd h hocp⟩

/-- Both directions for the same barrier functions: a curve that carries a candidate solves the boundary value problem
exactly if the candidate is an extremal. -/
theorem C71_exact_partial {S : Sympy} (hL : LuSound S) {o : Opts} {p p' : Prob} (hp : Stated p)
    (hm : o.momentumShift = true) (hd : o.method ≠ .other) (hS : o.controlMethod = .algebraic → SolveSound S)
    (h : indirect S o p = .ok p') :
    ∃ q B, primal S p = .ok q ∧ Barriers B ∧
      ∀ U Q, Completes U p Q → ∀ A E x lam ν₀ ν₁,
        (∀ s ∈ (userOcp U Q B p).controls, ∀ t ∈ Set.Icc A E, DifferentiableAt ℝ (fun τ => x τ s) t) →
        (∀ s, ¬ Reserved s → s ∉ (userOcp U Q B p).moving → s ≠ p.ind → ∀ t ∈ Set.Icc A E, x t s = x A s) →
        ∀ a b c, a < b → 0 < c → (o.normalizeTime = false → c = 1) → E = A + c * (b - a) →
          ∀ ρ, Carries (userOcp U Q B p) o.normalizeTime A c a x lam ν₀ ν₁ ρ → Regular S U q p' a b ρ →
            (o.controlMethod = .algebraic → ∀ t ∈ Set.Icc a b,
              SolveFinds S U (q.controls.map fun u => (hexpr q).diff u) q.controls (ρ t)) →
            (o.controlMethod = .differential → ∀ t ∈ Set.Icc a b, Nondegenerate U (hexpr q) q.controls (ρ t)) →
            (o.method = .diffyg → o.controlMethod = .differential →
              ∀ u ∈ (userOcp U Q B p).controls, ρ a ("_lam_" ++ u) = 0) →
            ((Extremal (userOcp U Q B p) A E x lam ν₀ ν₁ → Solves U p' a b ρ) ∧
              (Solves U p' a b ρ → Extremal (userOcp U Q B p) A E (fun s => ρ (a + (s - A) / c))
                (fun s n => ρ (a + (s - A) / c) ("_lam_" ++ n)) (fun i => ρ a ("_nu_0_" ++ toString i))
                (fun i => ρ a ("_nu_f_" ++ toString i)))) := by
  obtain ⟨q, ctl, hq, hctl, h⟩ := indirect_split hm h
  obtain ⟨p3, f, f2, f3, hf⟩ := front hp hq
  obtain ⟨B, hB, hocp⟩ := hf.ocp
  refine ⟨q, B, hq, hB, ?_⟩
  intro U Q hQ A E x lam ν₀ ν₁ hdu hconst a b c hab hc hnorm hE ρ hρ hr hsol hdet hzero
  have hA : ρ a p.ind = A := by
    have := hρ.time a
    rwa [sub_self, mul_zero, add_zero] at this
  constructor
  · intro he
    exact (hf.complete hL hp hctl hd h hocp U Q hQ A E x lam ν₀ ν₁ he hdu hconst a b c hab hc hnorm hE).2 ρ hρ hr hsol hdet hzero
  · intro hs
    have := nearExtremal_zero.1 (hf.extremal hL hp hctl hd hS h hocp U Q hQ 0 0 a b ρ (le_refl _) (by simp) hab.le
      (nearlySolves_zero.2 hs) hr c (by
        split
        · next hn => exact (hρ.duration hn).symm
        · next hn => exact hnorm (by simpa using hn)) hc)
    rwa [hA, ← hE] at this

/-- Without what is assumed of `solve` the extremals are lost: a curve along which, at some time, the controls are not those
of a solution that `solve` returned does not solve the boundary value problem, whether it carries an extremal or not. -/
theorem C71_violated_solve {S : Sympy} (hL : LuSound S) {o : Opts} {p p' q : Prob} (hp : Stated p) (hm : o.momentumShift = true)
    (hd : o.method ≠ .other) (ho : o.controlMethod = .algebraic) (h : indirect S o p = .ok p')
    (hq : primal S p = .ok q) (hne : q.controls ≠ []) {U : Name → Nat → ℝ → ℝ} {a b t : ℝ} {ρ : ℝ → Env}
    (ht : t ∈ Set.Icc a b)
    (hlost : ∀ sol ∈ S.solve (q.controls.map fun u => (hexpr q).diff u) q.controls, ∃ u ∈ q.controls, ∀ e,
      sol.lookup u = some e → ρ t u ≠ eval (real U) (ρ t) e) :
    ¬ Solves U p' a b ρ := by
  intro hs
  obtain ⟨q', ctl, hq', hctl, h⟩ := indirect_split hm h
  rw [hq] at hq'
  cases hq'
  obtain ⟨p3, f, f2, f3, hf⟩ := front hp hq
  have hcl := hf.clean hp
  rcases hctl with ⟨rfl, -⟩ | ⟨-, hh⟩
  swap
  · rw [ho] at hh; cases hh
  rw [List.append_assoc, List.append_assoc, List.cons_append, List.cons_append, List.nil_append, runSteps_cons] at h
  obtain ⟨qd, hqd, h⟩ := bind_ok h
  rw [runSteps_cons] at h
  obtain ⟨q1, h1, h⟩ := bind_ok h
  have hqd : dualize S o.method q = .ok qd := hqd
  have h1 : algebraicControl S qd = .ok q1 := h1
  rw [← List.append_assoc] at h
  obtain ⟨-, -, -, t4, t5, -, -⟩ := tail_ok h
  have hD := dualize_any hL hcl hd hqd
  have hHd := hD.ham
  have hcn := hD.controls
  obtain ⟨dhdu, chain, e, hlaw⟩ := algebraic_ok hHd h1
  have g6 : q1.controls = qd.controls := by rw [e]
  rw [hcn] at hlaw g6
  obtain ⟨opt, hopt, hval⟩ := hs.law (by rw [t4, g6]; exact hne) t ht
  rw [t5] at hopt
  obtain ⟨sol, hsol, hpk⟩ := forall₂_left hlaw.flip opt hopt
  obtain ⟨u, hu, hbad⟩ := hlost sol hsol
  replace hpk := pickOption_ok hpk
  rw [t4, g6] at hval
  clear hopt hlost hne hlaw hcn hD hcl hf hp t4 t5
  generalize q.controls = us at hu hval hpk
  induction hval with
  | nil => cases hu
  | cons r rs ih =>
    cases hpk with
    | cons r2 rs2 =>
      rcases List.mem_cons.1 hu with rfl | hu
      · exact hbad _ r2 r
      · exact ih hu rs2

/-! ### Concrete cases -/

theorem exCarries (U : Name → Nat → ℝ → ℝ) (B : ℝ → ℝ → ℝ → ℝ → ℝ) : Carries (userOcp U exQ B exP) true 0 1 0 exCurve
    (fun s n => exCurve s ("_lam_" ++ n)) (fun i => exCurve 0 ("_nu_0_" ++ toString i))
    (fun i => exCurve 0 ("_nu_f_" ++ toString i)) exCurve where
  moving := by intro s _ τ; simp
  time := by
    intro τ
    simp [userOcp, exP, exCurve]
  costates := by intro r _ τ; simp
  costate_time := by
    intro τ
    have e1 : "_lam_" ++ (userOcp U exQ B exP).ind = "_lam_t" := rfl
    have e2 : "_lam_" ++ "x" = "_lam_x" := rfl
    rw [e1]
    simp [Ocp.ham, userOcp, exP, exCurve, exQ, eval, penalties, e2]
    norm_num
  start := fun _ _ => rfl
  stop := fun _ _ => rfl
  duration := by
    intro _
    have e1 : "_delta_" ++ (userOcp U exQ B exP).ind = "_delta_t" := rfl
    rw [e1]
    simp [exCurve]
  plain := fun _ _ _ _ _ => rfl
  rest := by
    intro s h1 h2 h3 h4 h5 τ
    have e1 : s ≠ "x" := fun e => h1 (by simp [Ocp.moving, userOcp, exP, e])
    have e2 : s ≠ "t" := h2
    have e3 : s ≠ "_tau" := by simpa using h5
    simp [exCurve, e1, e2, e3]

theorem exFinds (U : Name → Nat → ℝ → ℝ) (t : ℝ) :
    SolveFinds exS U (exq.controls.map fun u => (hexpr exq).diff u) exq.controls (exCurve t) := by
  intro _
  have : exS.solve (exq.controls.map fun u => (hexpr exq).diff u) exq.controls = [[("u", -(sym "_lam_x") / 2)]] := by
    decide +kernel
  rw [this, exq_controls]
  refine ⟨_, List.mem_singleton_self _, ?_⟩
  intro x hx
  rw [List.mem_singleton] at hx
  subst hx
  exact ⟨_, rfl, by simp [eval, exCurve]⟩

theorem exMoving (U : Name → Nat → ℝ → ℝ) (B : ℝ → ℝ → ℝ → ℝ → ℝ) {s : Name} (h1 : ¬ Reserved s)
    (h2 : s ∉ (userOcp U exQ B exP).moving) (h3 : s ≠ exP.ind) (t : ℝ) : exCurve t s = exCurve 0 s := by
  have e1 : s ≠ "x" := fun e => h2 (by simp [Ocp.moving, userOcp, exP, e])
  have e2 : s ≠ "t" := h3
  have e3 : s ≠ "_tau" := fun e => h1 (Or.inr (Or.inr (Or.inr (Or.inr e))))
  simp [exCurve, e1, e2, e3]

theorem exControls (U : Name → Nat → ℝ → ℝ) (B : ℝ → ℝ → ℝ → ℝ → ℝ) : ∀ s ∈ (userOcp U exQ B exP).controls,
    ∀ t ∈ Set.Icc (0 : ℝ) 1, DifferentiableAt ℝ (fun τ => exCurve τ s) t := by
  intro s hs t ht
  have : s = "u" := by
    have e : (userOcp U exQ B exP).controls = ["u"] := by
      change exP.controls.map (fun u => if u ∈ epsControls exP.path then trigName u else u) = _
      decide
    rw [e, List.mem_singleton] at hs
    exact hs
  subst this
  exact (exCurve_const "u" (by decide) (by decide) (by decide) t ht).differentiableAt

/-- For the problem of the previous example: the straight line with unit speed is an extremal, and therefore a solution of
the boundary value problem. -/
example (U : Name → Nat → ℝ → ℝ) : ∃ B, Barriers B ∧
    Extremal (userOcp U exQ B exP) 0 1 exCurve (fun s n => exCurve s ("_lam_" ++ n))
      (fun i => exCurve 0 ("_nu_0_" ++ toString i)) (fun i => exCurve 0 ("_nu_f_" ++ toString i)) ∧
    (Extremal (userOcp U exQ B exP) 0 1 exCurve (fun s n => exCurve s ("_lam_" ++ n))
      (fun i => exCurve 0 ("_nu_0_" ++ toString i)) (fun i => exCurve 0 ("_nu_f_" ++ toString i)) →
        Solves U exP' 0 1 exCurve) := by
  obtain ⟨q, B, hq, hB, h⟩ := C71_exact_partial (luSound_cramer exS rfl) exP_stated (o := exO) rfl (by decide)
    (fun _ => exS_sound) exP'_ok
  rw [exq_ok] at hq
  cases hq
  have := h U exQ (exQ_completes U) 0 1 exCurve _ _ _ (exControls U B)
    (fun s h1 h2 h3 t _ => exMoving U B h1 h2 h3 t) 0 1 1 (by norm_num) (by norm_num) (fun _ => rfl) (by norm_num) exCurve
    (exCarries U B) (exRegular U) (fun _ t _ => exFinds U t) (fun e => by cases e) (fun e => by cases e)
  refine ⟨B, hB, ?_, this.1⟩
  have := this.2 (exSolves U)
  simpa only [sub_zero, div_one, zero_add] using this

/-- A solver that finds nothing. -/
def exS0 : Sympy := { exS with solve := fun _ _ => [] }

def exP0 : Prob := match indirect exS0 exO exP with
  | .ok p => p
  | .error _ => {}

theorem exP0_ok : indirect exS0 exO exP = .ok exP0 := by
  have : (match indirect exS0 exO exP with | .ok _ => true | .error _ => false) = true := by decide +kernel
  rw [exP0]
  cases h : indirect exS0 exO exP with
  | ok p => rfl
  | error e => rw [h] at this; cases this

/-- With a solver that is sound but finds nothing, the problem is translated without complaint, although the boundary value
problem has no solution and the stated problem has an extremal. -/
example (U : Name → Nat → ℝ → ℝ) : SolveSound exS0 ∧ (∀ ρ, ¬ Solves U exP0 0 1 ρ) ∧
    ∃ B x lam ν₀ ν₁, Extremal (userOcp U exQ B exP) 0 1 x lam ν₀ ν₁ := by
  have hq : primal exS0 exP = .ok exq := by
    have : (match primal exS0 exP with | .ok p => decide (p = exq) | .error _ => false) = true := by decide +kernel
    cases h : primal exS0 exP with
    | ok p =>
      rw [h] at this
      rw [of_decide_eq_true this]
    | error e => rw [h] at this; cases this
  refine ⟨?_, fun ρ => ?_, ?_⟩
  · intro U eqs syms sol hs
    cases hs
  · refine C71_violated_solve (luSound_cramer exS0 rfl) exP_stated rfl (by decide) rfl exP0_ok hq (by rw [exq_controls]; decide) (t := 0) (by simp) ?_
    intro sol hs
    cases hs
  · obtain ⟨q, B, hq, hB, h⟩ := C64_extremal_partial (luSound_cramer exS rfl) exP_stated (o := exO) rfl (by decide)
      (fun _ => exS_sound) exP'_ok
    rw [exq_ok] at hq
    cases hq
    have := h U exQ (exQ_completes U) 0 1 exCurve (by norm_num) (exSolves U) (exRegular U) 1 (by
      have : "_delta_" ++ exP.ind = "_delta_t" := rfl
      rw [this]; simp [exO, exCurve]) (by norm_num)
    have e : exCurve 0 exP.ind = 0 := by simp [exP, exCurve]
    simp only [e, sub_zero, div_one, zero_add, one_mul] at this
    exact ⟨_, _, _, _, _, this⟩

end Beluga.Opt
