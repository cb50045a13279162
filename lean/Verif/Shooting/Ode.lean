import Verif.Shooting.Flow
import Verif.Shooting.Follow

/-!
# Regular solutions in terms of the differential equations (C90, C91)

`Regular` and `RegularOn` speak of the flow that the integrator computes.  Here the hypotheses are on the differential equations and the
boundary conditions alone, for an integrator that is exact: the flow exists near the solution and is differentiable, its derivative
comes from the linearised differential equations, and regularity means that the linearised boundary value problem
`w' = f'(t) (w, dp)`, `DΨ (w(a), w(b), dp, dpn) = 0` has no solution but zero.
-/

namespace Beluga.Shoot

open Beluga.Traj (Arr Curve mix getD_eq)
open Beluga.Flow (Follows Sens Tube)
open Set
open scoped Topology

/-! ### What is expected -/

/-- `η` solves the differential equation `η' = rhs η` on `[a, b]`. -/
def Runs {n : Nat} (rhs : List ℝ → Py (List ℝ)) (a b : ℝ) (η : ℝ → Fin n → ℝ) : Prop :=
  ∀ t ∈ Icc a b, ∃ v : Fin n → ℝ, rhs (List.ofFn (η t)) = .ok (List.ofFn v) ∧ HasDerivWithinAt η v (Icc a b) t

/-- The integration is exact: wherever the initial value problem has a solution and no other, the last state is the one that the
solution has at the end of the span. -/
def ExactOde (ivp : Ivp ℝ) : Prop :=
  ∀ (n : Nat) (rhs : List ℝ → Py (List ℝ)) (a b : ℝ) (η : ℝ → Fin n → ℝ), a < b → Runs rhs a b η →
    (∀ ζ : ℝ → Fin n → ℝ, Runs rhs a b ζ → ζ a = η a → ζ b = η b) →
    ∃ ts ys, ivp rhs [a, b] (List.ofFn (η a)) = .ok (ts, ys) ∧ ys.getD (ys.length - 1) [] = List.ofFn (η b)

/-- A regular solution of the boundary value problem: the states `x`, the parameters `p` and `pn`.  Near them the right hand side is
`f` and the boundary conditions are `Ψ`, both continuously differentiable (strictly differentiable along the solution); and the
linearised boundary value problem has no solution but zero. -/
structure SmoothSolution (E : Env ℝ) (a b : ℝ) {nO nP nN : Nat} (x : ℝ → Fin nO → ℝ) (p : Fin nP → ℝ) (pn : Fin nN → ℝ)
    (f : (Fin nO → ℝ) × (Fin nP → ℝ) → Fin nO → ℝ)
    (Ψ : (Fin nO → ℝ) × (Fin nO → ℝ) × (Fin nP → ℝ) × (Fin nN → ℝ) → Fin (nO + nP + nN) → ℝ)
    (f' : ℝ → ((Fin nO → ℝ) × (Fin nP → ℝ)) →L[ℝ] Fin nO → ℝ)
    (DΨ : ((Fin nO → ℝ) × (Fin nO → ℝ) × (Fin nP → ℝ) × (Fin nN → ℝ)) →L[ℝ] Fin (nO + nP + nN) → ℝ) : Prop where
  eom : ∀ t ∈ Icc a b, ∀ᶠ z in 𝓝 (x t, p), E.eom [List.ofFn z.1, List.ofFn z.2, E.const] = .ok (List.ofFn (f z))
  bc : ∀ᶠ z in 𝓝 (x a, x b, p, pn), E.bc [List.ofFn z.1, List.ofFn z.2.1, List.ofFn z.2.2.1, List.ofFn z.2.2.2, E.const] =
    .ok (List.ofFn (Ψ z))
  ode : ∀ t ∈ Icc a b, HasDerivWithinAt x (f (x t, p)) (Icc a b) t
  ends : Ψ (x a, x b, p, pn) = 0
  deom : ∀ t ∈ Icc a b, HasStrictFDerivAt f (f' t) (x t, p)
  dbc : HasStrictFDerivAt Ψ DΨ (x a, x b, p, pn)
  nondeg : ∀ (w : ℝ → Fin nO → ℝ) (dp : Fin nP → ℝ) (dpn : Fin nN → ℝ),
    (∀ t ∈ Icc a b, HasDerivWithinAt w (f' t (w t, dp)) (Icc a b) t) → DΨ (w a, w b, dp, dpn) = 0 →
    (∀ t ∈ Icc a b, w t = 0) ∧ dp = 0 ∧ dpn = 0

/-- A branch of regular solutions over the constants in `S`; the right hand side and the boundary conditions depend on the constants
too. -/
structure SmoothBranch (E : Env ℝ) (a b : ℝ) {m nO nP nN : Nat} (S : Set (Fin m → ℝ)) (x : (Fin m → ℝ) → ℝ → Fin nO → ℝ)
    (p : (Fin m → ℝ) → Fin nP → ℝ) (pn : (Fin m → ℝ) → Fin nN → ℝ)
    (f : (Fin nO → ℝ) × (Fin m → ℝ) × (Fin nP → ℝ) → Fin nO → ℝ)
    (Ψ : (Fin m → ℝ) × (Fin nO → ℝ) × (Fin nO → ℝ) × (Fin nP → ℝ) × (Fin nN → ℝ) → Fin (nO + nP + nN) → ℝ)
    (f' : (Fin m → ℝ) → ℝ → ((Fin nO → ℝ) × (Fin m → ℝ) × (Fin nP → ℝ)) →L[ℝ] Fin nO → ℝ)
    (DΨ : (Fin m → ℝ) → ((Fin m → ℝ) × (Fin nO → ℝ) × (Fin nO → ℝ) × (Fin nP → ℝ) × (Fin nN → ℝ)) →L[ℝ] Fin (nO + nP + nN) → ℝ) :
    Prop where
  eom : ∀ c ∈ S, ∀ t ∈ Icc a b, ∀ᶠ z in 𝓝 (x c t, c, p c),
    E.eom [List.ofFn z.1, List.ofFn z.2.2, List.ofFn z.2.1] = .ok (List.ofFn (f z))
  bc : ∀ c ∈ S, ∀ᶠ z in 𝓝 (c, x c a, x c b, p c, pn c), E.bc [List.ofFn z.2.1, List.ofFn z.2.2.1, List.ofFn z.2.2.2.1,
    List.ofFn z.2.2.2.2, List.ofFn z.1] = .ok (List.ofFn (Ψ z))
  ode : ∀ c ∈ S, ∀ t ∈ Icc a b, HasDerivWithinAt (x c) (f (x c t, c, p c)) (Icc a b) t
  ends : ∀ c ∈ S, Ψ (c, x c a, x c b, p c, pn c) = 0
  deom : ∀ c ∈ S, ∀ t ∈ Icc a b, HasStrictFDerivAt f (f' c t) (x c t, c, p c)
  dbc : ∀ c ∈ S, HasStrictFDerivAt Ψ (DΨ c) (c, x c a, x c b, p c, pn c)
  nondeg : ∀ c ∈ S, ∀ (w : ℝ → Fin nO → ℝ) (dp : Fin nP → ℝ) (dpn : Fin nN → ℝ),
    (∀ t ∈ Icc a b, HasDerivWithinAt w (f' c t (w t, 0, dp)) (Icc a b) t) → DΨ c (0, w a, w b, dp, dpn) = 0 →
    (∀ t ∈ Icc a b, w t = 0) ∧ dp = 0 ∧ dpn = 0
  cx : ∀ t ∈ Icc a b, ContinuousOn (fun c => x c t) S
  cp : ContinuousOn p S
  cpn : ContinuousOn pn S

/-! ### The flow of an exact integrator -/

section flow
variable {nO : Nat} {Q : Type} [NormedAddCommGroup Q] [NormedSpace ℝ Q] {F : Q → List ℝ → Py (List ℝ)}

open Classical in
/-- The right hand side as a function, zero where there is none. -/
noncomputable def rhsOf (nO : Nat) (F : Q → List ℝ → Py (List ℝ)) (z : (Fin nO → ℝ) × Q) : Fin nO → ℝ :=
  if h : ∃ v : Fin nO → ℝ, F z.2 (List.ofFn z.1) = .ok (List.ofFn v) then h.choose else 0

theorem rhsOf_eq {z : (Fin nO → ℝ) × Q} {v : Fin nO → ℝ} (h : F z.2 (List.ofFn z.1) = .ok (List.ofFn v)) : rhsOf nO F z = v := by
  have h' : ∃ v : Fin nO → ℝ, F z.2 (List.ofFn z.1) = .ok (List.ofFn v) := ⟨v, h⟩
  rw [rhsOf, dif_pos h']
  exact List.ofFn_injective (Except.ok.inj (h'.choose_spec.symm.trans h))

theorem Runs.follows {q : Q} {a b : ℝ} {η : ℝ → Fin nO → ℝ} (h : Runs (F q) a b η) : Follows (rhsOf nO F) q a b η := by
  intro t ht
  obtain ⟨v, h1, h2⟩ := h t ht
  rwa [rhsOf_eq (z := (η t, q)) h1]

open Classical in
/-- The state at the end of a solution, zero where there is none. -/
noncomputable def flowOf (F : Q → List ℝ → Py (List ℝ)) (a b : ℝ) (z : (Fin nO → ℝ) × Q) : Fin nO → ℝ :=
  if h : ∃ ξ, ξ a = z.1 ∧ Follows (rhsOf nO F) z.2 a b ξ then h.choose b else 0

/-- Around a solution, an exact integrator computes `flowOf`, and this is differentiable. -/
theorem flowOf_strict {ivp : Ivp ℝ} (hE : ExactOde ivp) {a b : ℝ} (hab : a < b) {x : ℝ → Fin nO → ℝ} {q : Q}
    {f : (Fin nO → ℝ) × Q → Fin nO → ℝ} {f' : ℝ → ((Fin nO → ℝ) × Q) →L[ℝ] Fin nO → ℝ}
    (heom : ∀ t ∈ Icc a b, ∀ᶠ z in 𝓝 (x t, q), F z.2 (List.ofFn z.1) = .ok (List.ofFn (f z))) (hx : Follows f q a b x)
    (hf : ∀ t ∈ Icc a b, HasStrictFDerivAt f (f' t) (x t, q)) {W : ℝ → ((Fin nO → ℝ) × Q) →L[ℝ] Fin nO → ℝ} (hW : Sens f' a b W) :
    (∀ᶠ z in 𝓝 (x a, q), ∃ ts ys, ivp (F z.2) [a, b] (List.ofFn z.1) = .ok (ts, ys) ∧
      ys.getD (ys.length - 1) [] = List.ofFn (flowOf F a b z)) ∧
    HasStrictFDerivAt (flowOf F a b) (W b) (x a, q) ∧ flowOf F a b (x a, q) = x b := by
  have heq : ∀ t ∈ Icc a b, f =ᶠ[𝓝 (x t, q)] rhsOf nO F := fun t ht => (heom t ht).mono fun z hz => (rhsOf_eq hz).symm
  have hx' : Follows (rhsOf nO F) q a b x := fun t ht => by
    have := hx t ht
    rwa [(heq t ht).eq_of_nhds] at this
  have hf' : ∀ t ∈ Icc a b, HasStrictFDerivAt (rhsOf nO F) (f' t) (x t, q) := fun t ht => (hf t ht).congr_of_eventuallyEq (heq t ht)
  obtain ⟨L, ρ, C, hT⟩ := Flow.exists_tube hab.le hx' hf'
  have hK : IsCompact ((fun t => (x t, q)) '' Icc a b) := isCompact_Icc.image_of_continuousOn (hx.cont.prodMk continuousOn_const)
  obtain ⟨σ, hσ, hsub⟩ := hK.exists_thickening_subset_open (t := interior {z | F z.2 (List.ofFn z.1) = .ok (List.ofFn (f z))})
    isOpen_interior (by
      rintro _ ⟨t, ht, rfl⟩
      exact mem_interior_iff_mem_nhds.2 (heom t ht))
  have hΦ : ∀ᶠ z in 𝓝 (x a, q), ∃ ξ, ξ a = z.1 ∧ ξ b = flowOf F a b z ∧ Follows (rhsOf nO F) z.2 a b ξ := by
    filter_upwards [hT.exists hab.le hx'] with z hz
    exact ⟨hz.choose, hz.choose_spec.1, by rw [flowOf, dif_pos hz], hz.choose_spec.2⟩
  refine ⟨?_, Flow.flow_strict hab.le hx' hf' hW hΦ⟩
  filter_upwards [hΦ, hT.within hσ, hT.unique] with z ⟨ξ, h1, h2, h3⟩ h4 h5
  have hr : Runs (F z.2) a b ξ := by
    intro t ht
    have hin : (ξ t, z.2) ∈ Metric.thickening σ ((fun t => (x t, q)) '' Icc a b) :=
      Metric.mem_thickening_iff.2 ⟨_, mem_image_of_mem _ ht, h4 ξ h1 h3 t ht⟩
    have hok : F z.2 (List.ofFn (ξ t)) = .ok (List.ofFn (f (ξ t, z.2))) := by
      have := interior_subset (hsub hin)
      exact this
    refine ⟨_, hok, ?_⟩
    have := h3 t ht
    rwa [rhsOf_eq (z := (ξ t, z.2)) hok] at this
  obtain ⟨ts, ys, h6, h7⟩ := hE nO (F z.2) a b ξ hab hr fun ζ hζ h0 =>
    h5 ζ ξ (h0.trans h1) h1 hζ.follows h3 b (right_mem_Icc.2 hab.le)
  exact ⟨ts, ys, by rw [← h1]; exact h6, by rw [h7, h2]⟩

end flow

/-! ### The nodes -/

theorem node_zero (a b : ℝ) (n : Nat) : node a b n 0 = a := by simp [node]

theorem node_last (a b : ℝ) {n : Nat} (hn : 0 < n) : node a b n n = b := by
  have : (n : ℝ) ≠ 0 := Nat.cast_ne_zero.2 hn.ne'
  rw [node]
  field_simp
  ring

theorem node_lt {a b : ℝ} (hab : a < b) {n : Nat} (hn : 0 < n) (i : Nat) : node a b n i < node a b n (i + 1) := by
  have h : 0 < (b - a) / (n : ℝ) := div_pos (by linarith) (Nat.cast_pos.2 hn)
  rw [node, node]
  push_cast
  linarith

theorem node_mono {a b : ℝ} (hab : a < b) {n : Nat} (hn : 0 < n) {i j : Nat} (h : i ≤ j) : node a b n i ≤ node a b n j :=
  monotone_nat_of_le_succ (f := node a b n) (fun i => (node_lt hab hn i).le) h

theorem node_sub {a b : ℝ} (hab : a < b) {n i : Nat} (hi : i < n) : Icc (node a b n i) (node a b n (i + 1)) ⊆ Icc a b := by
  have hn : 0 < n := by omega
  refine Icc_subset_Icc ?_ ?_
  · have := node_mono hab hn (Nat.zero_le i)
    rwa [node_zero] at this
  · have := node_mono hab hn (Nat.succ_le_of_lt hi)
    rwa [node_last a b hn] at this

theorem node_mem {a b : ℝ} (hab : a < b) {n i : Nat} (hn : 0 < n) (hi : i ≤ n) : node a b n i ∈ Icc a b := by
  constructor
  · have := node_mono hab hn (Nat.zero_le i)
    rwa [node_zero] at this
  · have := node_mono hab hn hi
    rwa [node_last a b hn] at this

/-- Arcs of the linearised equation that meet at the nodes are one solution. -/
theorem join_arcs {X Q : Type} [NormedAddCommGroup X] [NormedSpace ℝ X] [NormedAddCommGroup Q] [NormedSpace ℝ Q] {f' : ℝ → X × Q →L[ℝ] X}
    {a b : ℝ} (hab : a < b) {n : Nat} (hn : 0 < n) {W : Nat → ℝ → X × Q →L[ℝ] X}
    (hW : ∀ i < n, Sens f' (node a b n i) (node a b n (i + 1)) (W i)) {w : Nat → X} {dq : Q}
    (hw : ∀ i < n, w (i + 1) = W i (node a b n (i + 1)) (w i, dq)) :
    ∃ ω : ℝ → X, (∀ i ≤ n, ω (node a b n i) = w i) ∧ ∀ t ∈ Icc a b, HasDerivWithinAt ω (f' t (ω t, dq)) (Icc a b) t := by
  have key : ∀ k, k < n → ∃ ω : ℝ → X, (∀ i ≤ k + 1, ω (node a b n i) = w i) ∧
      ∀ t ∈ Icc a (node a b n (k + 1)), HasDerivWithinAt ω (f' t (ω t, dq)) (Icc a (node a b n (k + 1))) t := by
    have arc : ∀ i < n, ∃ ω : ℝ → X, ω (node a b n i) = w i ∧ ω (node a b n (i + 1)) = w (i + 1) ∧
        ∀ t ∈ Icc (node a b n i) (node a b n (i + 1)), HasDerivWithinAt ω (f' t (ω t, dq)) (Icc (node a b n i) (node a b n (i + 1))) t := by
      intro i hi
      refine ⟨fun t => W i t (w i, dq), ?_, (hw i hi).symm, fun t ht => (hW i hi).rate t ht (w i, dq)⟩
      change W i _ _ = _
      rw [(hW i hi).start]
      rfl
    intro k
    induction k with
    | zero =>
      intro hk
      obtain ⟨ω, h1, h2, h3⟩ := arc 0 hk
      rw [node_zero] at h3
      refine ⟨ω, fun i hi => ?_, h3⟩
      match i, hi with
      | 0, _ => exact h1
      | 1, _ => exact h2
    | succ k ih =>
      intro hk
      obtain ⟨u, h1, h2⟩ := ih (by omega)
      obtain ⟨v, h3, h4, h5⟩ := arc (k + 1) hk
      have hak : a ≤ node a b n (k + 1) := by
        have := node_mono hab hn (Nat.zero_le (k + 1))
        rwa [node_zero] at this
      obtain ⟨ω, g1, g2, g3⟩ := Flow.glue (v := fun t y => f' t (y, dq)) hak (node_lt hab hn (k + 1)).le h2 h5
        ((h1 _ le_rfl).trans h3.symm)
      refine ⟨ω, fun i hi => ?_, g3⟩
      rcases Nat.lt_or_ge i (k + 2) with hlt | hge
      · rw [g1 _ ⟨?_, node_mono hab hn (by omega)⟩]
        · exact h1 i (by omega)
        · have := node_mono hab hn (Nat.zero_le i)
          rwa [node_zero] at this
      · have : i = k + 1 + 1 := by omega
        subst this
        rw [g2 _ ⟨(node_lt hab hn (k + 1)).le, le_rfl⟩, h4]
  obtain ⟨ω, h1, h2⟩ := key (n - 1) (by omega)
  rw [show n - 1 + 1 = n by omega, node_last a b hn] at h2
  exact ⟨ω, fun i hi => h1 i (by omega), h2⟩

theorem follows_sub {X Q : Type} [NormedAddCommGroup X] [NormedSpace ℝ X] {f : X × Q → X} {q : Q} {a b c d : ℝ} {x : ℝ → X}
    (h : Follows f q a b x) (hs : Icc c d ⊆ Icc a b) : Follows f q c d x := fun t ht => (h t (hs ht)).mono hs

/-! ### Regular solutions -/

section fixed
variable {E : Env ℝ} {a b : ℝ} {nO nP nN : Nat} {x : ℝ → Fin nO → ℝ} {p : Fin nP → ℝ} {pn : Fin nN → ℝ}
  {f : (Fin nO → ℝ) × (Fin nP → ℝ) → Fin nO → ℝ}
  {Ψ : (Fin nO → ℝ) × (Fin nO → ℝ) × (Fin nP → ℝ) × (Fin nN → ℝ) → Fin (nO + nP + nN) → ℝ}
  {f' : ℝ → ((Fin nO → ℝ) × (Fin nP → ℝ)) →L[ℝ] Fin nO → ℝ}
  {DΨ : ((Fin nO → ℝ) × (Fin nO → ℝ) × (Fin nP → ℝ) × (Fin nN → ℝ)) →L[ℝ] Fin (nO + nP + nN) → ℝ}

/-- For an exact integrator a regular solution of the differential equations is one for the solver, with any number of arcs. -/
theorem SmoothSolution.regular (h : SmoothSolution E a b x p pn f Ψ f' DΨ) (hE : ExactOde E.ivp) (hab : a < b) {n : Nat} (hn : 0 < n) :
    ∃ Φ DΦ, Regular E a b n (fun i => x (node a b n i)) p pn Φ Ψ DΦ DΨ := by
  let F : (Fin nP → ℝ) → List ℝ → Py (List ℝ) := fun q y => E.eom [y, List.ofFn q, E.const]
  have hfol : Follows f p a b x := h.ode
  have hsens : ∀ i, ∃ W, i < n → Sens f' (node a b n i) (node a b n (i + 1)) W := by
    intro i
    by_cases hi : i < n
    · obtain ⟨W, hW⟩ := Flow.exists_sens (f := f) (γ := fun t => (x t, p)) (node_lt hab hn i).le
        ((hfol.cont.prodMk continuousOn_const).mono (node_sub hab hi)) fun t ht => h.deom t (node_sub hab hi ht)
      exact ⟨W, fun _ => hW⟩
    · exact ⟨fun _ => 0, fun h => absurd h hi⟩
  choose W hW using hsens
  have key : ∀ i < n, _ := fun i hi => flowOf_strict (F := F) hE (node_lt hab hn i) (fun t ht => h.eom t (node_sub hab hi ht))
    (follows_sub hfol (node_sub hab hi)) (fun t ht => h.deom t (node_sub hab hi ht)) (hW i hi)
  refine ⟨fun i => flowOf F (node a b n i) (node a b n (i + 1)), fun i => W i (node a b n (i + 1)), ?_⟩
  have e0 : x (node a b n 0) = x a := by rw [node_zero]
  have en : x (node a b n n) = x b := by rw [node_last a b hn]
  refine ⟨fun i hi => ?_, ?_, fun i hi => (key i hi).2.2, ?_, fun i hi => (key i hi).2.1, ?_, ?_⟩
  · filter_upwards [(key i hi).1] with z ⟨ts, ys, h1, h2⟩
    change (do let r ← E.ivp (F z.2) [node a b n i, node a b n (i + 1)] (List.ofFn z.1); Except.ok (r.2.getD (r.2.length - 1) [])) = _
    rw [h1]
    exact congrArg Except.ok h2
  · rw [e0, en]
    exact h.bc
  · rw [e0, en]
    exact h.ends
  · rw [e0, en]
    exact h.dbc
  · intro w dp dpn h1 h2
    obtain ⟨ω, g1, g2⟩ := join_arcs hab hn (W := W) hW h1
    have g0 := g1 0 (Nat.zero_le _)
    have gn := g1 n le_rfl
    rw [node_zero] at g0
    rw [node_last a b hn] at gn
    obtain ⟨k1, k2⟩ := h.nondeg ω dp dpn g2 (by rw [g0, gn]; exact h2)
    exact ⟨fun i hi => by rw [← g1 i hi.le]; exact k1 _ (node_mem hab hn hi.le), k2⟩

/-- **C90** Near a regular solution of the differential equations and boundary conditions, the shooting solver with an exact integrator
converges to it, with every number of arcs: see `C90_local_partial`. -/
theorem C90_smooth_partial (h : SmoothSolution E a b x p pn f Ψ f' DΨ) (hE : ExactOde E.ivp) (hab : a < b)
    (hI : IvpSound E.ivp) (hC : Complete E.ivp) (hser : E.parallel = false) (hq : E.quad = none)
    (S : Scipy ℝ) {norm : List ℝ → ℝ} (hN : NormSound norm) (hN0 : ∀ v, 0 ≤ norm v)
    (hN1 : ∀ v : List ℝ, norm v ≤ (v.map fun a => |a|).sum)
    {lin : List (List ℝ) → List ℝ → Py (List ℝ)} (hlin : LinSound lin) {alg : String} (halg : alg.toLower = "armijo") {n : Nat}
    (hn : 0 < n) {θ : ℝ} (hθ0 : 0 < θ) (hθ : θ ≤ 1 / 2) :
    ∃ r > 0, ∃ C > 0, ∀ (sol : Curve ℝ) (p0 pn0 : List ℝ), GuessNear a b n (fun i => x (node a b n i)) p pn r sol p0 pn0 →
      ∀ (h : ℝ → ℝ), (∀ a, h a ≠ 0 ∧ |h a| < r) → ∀ (o : Opts ℝ) (k fuel : Nat), C * θ ^ (k + 1) ≤ o.tol → k ≤ o.maxIter → C ≤ o.maxErr →
      k + 1 ≤ fuel →
      ∃ res, solveFd E S norm lin h o alg fuel n sol p0 pn0 = .ok (some res) ∧ res.converged = true ∧ res.nIter ≤ k + 1 ∧
        Satisfied E sol n o.tol res ∧ CloseTo E sol n (fun i => x (node a b n i)) p pn (C * o.tol) res := by
  obtain ⟨Φ, DΦ, hR⟩ := h.regular hE hab hn
  exact C90_local_partial hI hC hser hq S hN hN0 hN1 hlin halg hn hR hθ0 hθ

end fixed

section branch
variable {E : Env ℝ} {a b : ℝ} {m nO nP nN : Nat} {S : Set (Fin m → ℝ)} {x : (Fin m → ℝ) → ℝ → Fin nO → ℝ}
  {p : (Fin m → ℝ) → Fin nP → ℝ} {pn : (Fin m → ℝ) → Fin nN → ℝ}
  {f : (Fin nO → ℝ) × (Fin m → ℝ) × (Fin nP → ℝ) → Fin nO → ℝ}
  {Ψ : (Fin m → ℝ) × (Fin nO → ℝ) × (Fin nO → ℝ) × (Fin nP → ℝ) × (Fin nN → ℝ) → Fin (nO + nP + nN) → ℝ}
  {f' : (Fin m → ℝ) → ℝ → ((Fin nO → ℝ) × (Fin m → ℝ) × (Fin nP → ℝ)) →L[ℝ] Fin nO → ℝ}
  {DΨ : (Fin m → ℝ) → ((Fin m → ℝ) × (Fin nO → ℝ) × (Fin nO → ℝ) × (Fin nP → ℝ) × (Fin nN → ℝ)) →L[ℝ] Fin (nO + nP + nN) → ℝ}

/-- The arguments in the order of the flow. -/
noncomputable def reorder (m nO nP : Nat) :
    ((Fin m → ℝ) × (Fin nO → ℝ) × (Fin nP → ℝ)) →L[ℝ] ((Fin nO → ℝ) × (Fin m → ℝ) × (Fin nP → ℝ)) :=
  ((ContinuousLinearMap.fst ℝ _ _).comp (ContinuousLinearMap.snd ℝ _ _)).prod
    ((ContinuousLinearMap.fst ℝ _ _).prod ((ContinuousLinearMap.snd ℝ _ _).comp (ContinuousLinearMap.snd ℝ _ _)))

theorem reorder_apply (z : (Fin m → ℝ) × (Fin nO → ℝ) × (Fin nP → ℝ)) : reorder m nO nP z = (z.2.1, z.1, z.2.2) := rfl

/-- For an exact integrator a branch of regular solutions of the differential equations is one for the solver, with any number of
arcs. -/
theorem SmoothBranch.regularOn (h : SmoothBranch E a b S x p pn f Ψ f' DΨ) (hE : ExactOde E.ivp) (hab : a < b) {n : Nat} (hn : 0 < n) :
    ∃ Φ DΦ, RegularOn E a b n S (fun c i => x c (node a b n i)) p pn Φ Ψ DΦ DΨ := by
  let F : (Fin m → ℝ) × (Fin nP → ℝ) → List ℝ → Py (List ℝ) := fun q y => E.eom [y, List.ofFn q.2, List.ofFn q.1]
  have hfol : ∀ c ∈ S, Follows f (c, p c) a b (x c) := h.ode
  have hsens : ∀ c i, ∃ W, c ∈ S → i < n → Sens (f' c) (node a b n i) (node a b n (i + 1)) W := by
    intro c i
    by_cases hi : c ∈ S ∧ i < n
    · obtain ⟨W, hW⟩ := Flow.exists_sens (f := f) (γ := fun t => (x c t, c, p c)) (node_lt hab hn i).le
        (((hfol c hi.1).cont.prodMk continuousOn_const).mono (node_sub hab hi.2)) fun t ht => h.deom c hi.1 t (node_sub hab hi.2 ht)
      exact ⟨W, fun _ _ => hW⟩
    · exact ⟨fun _ => 0, fun h1 h2 => absurd ⟨h1, h2⟩ hi⟩
  choose W hW using hsens
  have key : ∀ c ∈ S, ∀ i < n, _ := fun c hc i hi => flowOf_strict (F := F) hE (node_lt hab hn i)
    (fun t ht => h.eom c hc t (node_sub hab hi ht)) (follows_sub (hfol c hc) (node_sub hab hi))
    (fun t ht => h.deom c hc t (node_sub hab hi ht)) (hW c i hc hi)
  refine ⟨fun i z => flowOf F (node a b n i) (node a b n (i + 1)) (reorder m nO nP z),
    fun c i => (W c i (node a b n (i + 1))).comp (reorder m nO nP), ?_⟩
  have e0 : ∀ c, x c (node a b n 0) = x c a := fun c => by rw [node_zero]
  have en : ∀ c, x c (node a b n n) = x c b := fun c => by rw [node_last a b hn]
  refine ⟨fun c hc i hi => ?_, fun c hc => ?_, fun c hc i hi => (key c hc i hi).2.2, fun c hc => ?_, fun c hc i hi => ?_, fun c hc => ?_,
    fun c hc => ?_, fun i hi => h.cx _ (node_mem hab hn hi.le), h.cp, h.cpn⟩
  · have hc' : ContinuousAt (reorder m nO nP) (c, x c (node a b n i), p c) := (reorder m nO nP).continuous.continuousAt
    filter_upwards [hc'.eventually (key c hc i hi).1] with z ⟨ts, ys, h1, h2⟩
    change (do let r ← E.ivp (F (reorder m nO nP z).2) [node a b n i, node a b n (i + 1)] (List.ofFn (reorder m nO nP z).1)
               Except.ok (r.2.getD (r.2.length - 1) [])) = _
    rw [h1]
    exact congrArg Except.ok h2
  · rw [e0, en]
    exact h.bc c hc
  · rw [e0, en]
    exact h.ends c hc
  · exact HasStrictFDerivAt.comp (g := flowOf F (node a b n i) (node a b n (i + 1))) (c, x c (node a b n i), p c) (key c hc i hi).2.1
      (reorder m nO nP).hasStrictFDerivAt
  · rw [e0, en]
    exact h.dbc c hc
  · intro w dp dpn h1 h2
    obtain ⟨ω, g1, g2⟩ := join_arcs hab hn (W := W c) (dq := ((0 : Fin m → ℝ), dp)) (fun i hi => hW c i hc hi) h1
    have g0 := g1 0 (Nat.zero_le _)
    have gn := g1 n le_rfl
    rw [node_zero] at g0
    rw [node_last a b hn] at gn
    obtain ⟨k1, k2⟩ := h.nondeg c hc ω dp dpn g2 (by rw [g0, gn]; exact h2)
    exact ⟨fun i hi => by rw [← g1 i hi.le]; exact k1 _ (node_mem hab hn hi.le), k2⟩

/-- One solution of a branch. -/
theorem SmoothBranch.at (h : SmoothBranch E a b S x p pn f Ψ f' DΨ) {c : Fin m → ℝ} (hc : c ∈ S) :
    SmoothSolution { E with const := List.ofFn c } a b (x c) (p c) (pn c) (fun z => f (z.1, c, z.2)) (fun z => Ψ (c, z))
      (fun t => (f' c t).comp ((ContinuousLinearMap.fst ℝ _ _).prod ((ContinuousLinearMap.inr ℝ _ _).comp (ContinuousLinearMap.snd ℝ _ _))))
      ((DΨ c).comp (ContinuousLinearMap.inr ℝ _ _)) where
  eom := fun t ht => by
    have h2 : ContinuousAt (fun z : (Fin nO → ℝ) × (Fin nP → ℝ) => (z.1, c, z.2)) (x c t, p c) := by fun_prop
    exact h2.eventually (h.eom c hc t ht)
  bc := by
    have h2 : ContinuousAt (fun z : (Fin nO → ℝ) × (Fin nO → ℝ) × (Fin nP → ℝ) × (Fin nN → ℝ) => (c, z)) (x c a, x c b, p c, pn c) := by
      fun_prop
    exact h2.eventually (h.bc c hc)
  ode := h.ode c hc
  ends := h.ends c hc
  deom := fun t ht => HasStrictFDerivAt.comp (g := f) (x c t, p c) (h.deom c hc t ht)
    (hasStrictFDerivAt_fst.prodMk ((((hasStrictFDerivAt_const c _).prodMk hasStrictFDerivAt_snd :
      HasStrictFDerivAt (fun z : (Fin nO → ℝ) × (Fin nP → ℝ) => (c, z.2)) _ (x c t, p c))).congr_fderiv (by ext <;> simp)))
  dbc := HasStrictFDerivAt.comp (g := Ψ) (x c a, x c b, p c, pn c) (h.dbc c hc)
    ((hasStrictFDerivAt_const c _).prodMk (hasStrictFDerivAt_id _))
  nondeg := fun w dp dpn h1 h2 => h.nondeg c hc w dp dpn h1 h2

/-- **C91** Continuation with the shooting solver and an exact integrator follows a branch of regular solutions of the differential
equations and boundary conditions, with every number of arcs: see `C91_shooting_partial`. -/
theorem C91_smooth_partial (hR : SmoothBranch E a b S x p pn f Ψ f' DΨ) (hE : ExactOde E.ivp) (hab : a < b) (hS : IsCompact S)
    (hI : IvpSound E.ivp) (hC : Complete E.ivp)
    (hser : E.parallel = false) (hq : E.quad = none) (Sc : Scipy ℝ) {norm : List ℝ → ℝ} (hN : NormSound norm) (hN0 : ∀ v, 0 ≤ norm v)
    (hN1 : ∀ v : List ℝ, norm v ≤ (v.map fun a => |a|).sum) {lin : List (List ℝ) → List ℝ → Py (List ℝ)} (hlin : LinSound lin)
    {alg : String} (halg : alg.toLower = "armijo") {n : Nat} (hn : 0 < n) {θ : ℝ} (hθ0 : 0 < θ) (hθ : θ ≤ 1 / 2) :
    ∃ r > 0, ∃ C > 0, ∃ δ > 0, ∀ (h : ℝ → ℝ), (∀ a, h a ≠ 0 ∧ |h a| < r) → ∀ (o : Opts ℝ) (k fuel : Nat), C * θ ^ (k + 1) ≤ o.tol →
      C * o.tol ≤ r → k ≤ o.maxIter → C ≤ o.maxErr → k + 1 ≤ fuel → ∀ (L : LogOps ℝ) (names : List String), names.Nodup →
      ∀ (M fuel' : Nat) (ss : List (Cont.Strat ℝ (Curve ℝ × List ℝ × List ℝ))) (guess : Cont.Traj ℝ (Curve ℝ × List ℝ × List ℝ))
        (final : List ℝ), Cont.FinePlan L names (fun c => c.length = m ∧ vec m c ∈ S) δ M guess.const ss final →
      names.length = guess.const.length → 2 * M + 1 ≤ fuel' →
      GuessNear a b n (fun i => x (vec m guess.const) (node a b n i)) (p (vec m guess.const)) (pn (vec m guess.const)) r guess.data.1
        guess.data.2.1 guess.data.2.2 →
      ∃ sols, Cont.runContinuationSet L (shootCase E Sc norm lin h o alg fuel n) names fuel' (some ss) guess = .returned sols ∧
        sols.map List.length = ss.map Cont.Strat.numCases ∧
        (∀ l ∈ sols, ∀ sol ∈ l, sol.converged = true ∧
          FineSol E a b n (fun c i => x c (node a b n i)) p pn o.tol (C * o.tol) sol.const sol.data) ∧
        (ss ≠ [] → ∃ pre l sol, sols = pre ++ [l ++ [sol]] ∧ sol.const = final) := by
  obtain ⟨Φ, DΦ, hR'⟩ := hR.regularOn hE hab hn
  exact C91_shooting_partial hR' hS hI hC hser hq Sc hN hN0 hN1 hlin halg hn hθ0 hθ

end branch

/-! ### There is an exact integrator -/

open Classical in
/-- An exact integrator. -/
noncomputable def odeIvp : Ivp ℝ := fun rhs ts y0 =>
  match rhs y0 with
  | .error e => .error e
  | .ok _ =>
    if h : ∃ η : ℝ → Fin y0.length → ℝ, List.ofFn (η (ts.getD 0 0)) = y0 ∧ Runs rhs (ts.getD 0 0) (lastT ts) η then
      .ok ([ts.getD 0 0, lastT ts], [y0, List.ofFn (h.choose (lastT ts))])
    else .ok ([ts.getD 0 0, lastT ts], [y0, y0])

theorem odeIvp_ok {rhs : List ℝ → Py (List ℝ)} {ts y0 : List ℝ} {out : List ℝ × List (List ℝ)} (h : odeIvp rhs ts y0 = .ok out) :
    ∃ y1 : List ℝ, y1.length = y0.length ∧ out = ([ts.getD 0 0, lastT ts], [y0, y1]) := by
  rw [odeIvp] at h
  split at h
  · cases h
  · split at h
    · exact ⟨_, by simp, (Except.ok.inj h).symm⟩
    · exact ⟨_, rfl, (Except.ok.inj h).symm⟩

theorem odeIvp_sound : IvpSound odeIvp where
  raises := by intro rhs ts y0 e h; rw [odeIvp, h]
  sorted := by
    intro rhs ts y0 a b h hlt
    obtain ⟨y1, h1, e⟩ := odeIvp_ok h
    cases e
    simpa using hlt
  length := by intro rhs ts y0 a b h; obtain ⟨y1, h1, e⟩ := odeIvp_ok h; cases e; rfl
  pos := by intro rhs ts y0 a b h; obtain ⟨y1, h1, e⟩ := odeIvp_ok h; cases e; simp
  first := by intro rhs ts y0 a b h; obtain ⟨y1, h1, e⟩ := odeIvp_ok h; cases e; rfl
  state := by intro rhs ts y0 a b h; obtain ⟨y1, h1, e⟩ := odeIvp_ok h; cases e; rfl
  width := by
    intro rhs ts y0 a b h r hr
    obtain ⟨y1, h1, e⟩ := odeIvp_ok h
    cases e
    simp only [List.mem_cons, List.not_mem_nil, or_false] at hr
    rcases hr with rfl | rfl
    · rfl
    · exact h1

theorem odeIvp_complete : Complete odeIvp := by
  intro rhs ts y0 a b h
  obtain ⟨y1, h1, e⟩ := odeIvp_ok h
  cases e
  rfl

theorem odeIvp_exact : ExactOde odeIvp := by
  intro n rhs a b η hab hη hu
  obtain ⟨v, hv, -⟩ := hη a (left_mem_Icc.2 hab.le)
  generalize hy : List.ofFn (η a) = y0 at hv
  have hn : y0.length = n := by rw [← hy]; simp
  subst hn
  have h : ∃ η : ℝ → Fin y0.length → ℝ, List.ofFn (η a) = y0 ∧ Runs rhs a b η := ⟨η, hy, hη⟩
  have e : odeIvp rhs [a, b] y0 = .ok ([a, b], [y0, List.ofFn (h.choose b)]) := by
    rw [odeIvp, hv]
    dsimp only
    exact dif_pos h
  refine ⟨_, _, e, ?_⟩
  change List.ofFn (h.choose b) = _
  rw [hu _ h.choose_spec.2 (List.ofFn_injective (h.choose_spec.1.trans hy.symm))]

/-! ### An example -/

/-- The state `x' = p x²` with the conditions `x(0) = 1`, `x(1) = c`.  Solutions from some starts do not exist on all of `[0, 1]`. -/
noncomputable def exBlow : Env ℝ :=
  ⟨odeIvp, fun _ _ => 0, fun a => match a with | [[x], [p], _] => .ok [p * x ^ 2] | _ => .error .typeError, none,
    fun a => .ok [(a.getD 0 []).getD 0 0 - 1, (a.getD 1 []).getD 0 0 - (a.getD 4 []).getD 0 0], [2], false⟩

/-- The parameter of the branch. -/
noncomputable def exBlowP (c : Fin 1 → ℝ) : ℝ := 1 - 1 / c 0

theorem exBlow_pos {c : Fin 1 → ℝ} (hc : c ∈ Icc (fun _ : Fin 1 => (1 : ℝ)) fun _ => 4) {t : ℝ} (ht : t ∈ Icc (0 : ℝ) 1) :
    0 < 1 - exBlowP c * t := by
  have h1 : (1 : ℝ) ≤ c 0 := hc.1 0
  have h2 : 0 < 1 / c 0 := by positivity
  have h3 : 1 / c 0 ≤ 1 := by rw [div_le_one (by linarith)]; exact h1
  rw [exBlowP]
  nlinarith [ht.1, ht.2]

/-- The branch `x = 1 / (1 - p t)`, `p = 1 - 1 / c` for `c` from `1` to `4`. -/
theorem exBlow_smooth : SmoothBranch (m := 1) (nO := 1) (nP := 1) (nN := 0) exBlow 0 1 (Icc (fun _ => 1) (fun _ => 4))
    (fun c t _ => 1 / (1 - exBlowP c * t)) (fun c _ => exBlowP c) (fun _ => Fin.elim0)
    (fun z _ => z.2.2 0 * z.1 0 ^ 2) (fun z => ![z.2.1 0 - 1, z.2.2.1 0 - z.1 0])
    (fun c t => ContinuousLinearMap.pi fun _ => (2 * exBlowP c * (1 / (1 - exBlowP c * t))) •
      (ContinuousLinearMap.proj 0).comp (ContinuousLinearMap.fst ℝ _ _) +
      ((1 / (1 - exBlowP c * t)) ^ 2) • (ContinuousLinearMap.proj 0).comp ((ContinuousLinearMap.snd ℝ _ _).comp (ContinuousLinearMap.snd ℝ _ _)))
    (fun _ => ContinuousLinearMap.pi ![(ContinuousLinearMap.proj 0).comp ((ContinuousLinearMap.fst ℝ _ _).comp (ContinuousLinearMap.snd ℝ _ _)),
      (ContinuousLinearMap.proj 0).comp ((ContinuousLinearMap.fst ℝ _ _).comp
        ((ContinuousLinearMap.snd ℝ _ _).comp (ContinuousLinearMap.snd ℝ _ _))) -
        (ContinuousLinearMap.proj 0).comp (ContinuousLinearMap.fst ℝ _ _)]) where
  eom := fun c hc t ht => Filter.Eventually.of_forall fun z => by simp [exBlow]
  bc := fun c hc => Filter.Eventually.of_forall fun z => by simp [exBlow]
  ode := by
    intro c hc t ht
    have hp := exBlow_pos hc ht
    rw [hasDerivWithinAt_pi]
    intro j
    have h1 : HasDerivAt (fun t : ℝ => 1 - exBlowP c * t) (-(exBlowP c)) t := by
      simpa using ((hasDerivAt_id t).const_mul (exBlowP c)).const_sub 1
    have h2 := (h1.inv hp.ne').hasDerivWithinAt (s := Icc (0 : ℝ) 1)
    simp only [one_div]
    refine h2.congr_deriv ?_
    field_simp
  ends := by
    intro c hc
    have h1 : (1 : ℝ) ≤ c 0 := hc.1 0
    have h2 : c 0 ≠ 0 := by linarith
    funext j
    fin_cases j
    · simp
    · simp [exBlowP]
  deom := by
    intro c hc t ht
    have hp := exBlow_pos hc ht
    refine hasStrictFDerivAt_pi'.2 fun j => ?_
    have h1 := ((ContinuousLinearMap.proj (R := ℝ) (φ := fun _ : Fin 1 => ℝ) 0).comp (ContinuousLinearMap.fst ℝ (Fin 1 → ℝ)
      ((Fin 1 → ℝ) × (Fin 1 → ℝ)))).hasStrictFDerivAt (x := ((fun _ => 1 / (1 - exBlowP c * t), c, fun _ => exBlowP c) :
        (Fin 1 → ℝ) × (Fin 1 → ℝ) × (Fin 1 → ℝ)))
    have h2 := ((ContinuousLinearMap.proj (R := ℝ) (φ := fun _ : Fin 1 => ℝ) 0).comp ((ContinuousLinearMap.snd ℝ (Fin 1 → ℝ)
      (Fin 1 → ℝ)).comp (ContinuousLinearMap.snd ℝ (Fin 1 → ℝ) ((Fin 1 → ℝ) × (Fin 1 → ℝ))))).hasStrictFDerivAt
      (x := ((fun _ => 1 / (1 - exBlowP c * t), c, fun _ => exBlowP c) : (Fin 1 → ℝ) × (Fin 1 → ℝ) × (Fin 1 → ℝ)))
    refine (h2.mul (h1.pow 2)).congr_fderiv ?_
    ext z <;> simp <;> ring
  dbc := by
    intro c hc
    exact (ContinuousLinearMap.hasStrictFDerivAt _).sub_const ![1, 0] |>.congr_of_eventuallyEq (Filter.Eventually.of_forall fun z => by
      funext j
      fin_cases j <;> simp)
  nondeg := by
    intro c hc w dp dpn h1 h2
    have a0 : w 0 0 = 0 := by simpa using congrFun h2 0
    have a1 : w 1 0 = 0 := by simpa using congrFun h2 1
    have hd : ∀ t ∈ Icc (0 : ℝ) 1, HasDerivWithinAt (fun t => w t 0 * (1 - exBlowP c * t) ^ 2 - dp 0 * t) 0 (Icc 0 1) t := by
      intro t ht
      have hp := exBlow_pos hc ht
      have k1 := (hasDerivWithinAt_pi.1 (h1 t ht)) 0
      have k2 : HasDerivAt (fun t : ℝ => 1 - exBlowP c * t) (-(exBlowP c)) t := by
        simpa using ((hasDerivAt_id t).const_mul (exBlowP c)).const_sub 1
      have k3 := (k1.mul (k2.pow 2).hasDerivWithinAt).sub (((hasDerivAt_id t).const_mul (dp 0)).hasDerivWithinAt)
      refine k3.congr_deriv ?_
      simp
      field_simp
      ring
    have hconst : ∀ t ∈ Icc (0 : ℝ) 1, w t 0 * (1 - exBlowP c * t) ^ 2 - dp 0 * t = 0 := by
      intro t ht
      have := constant_of_derivWithin_zero (f := fun t => w t 0 * (1 - exBlowP c * t) ^ 2 - dp 0 * t) (a := 0) (b := 1)
        (fun t ht => (hd t ht).differentiableWithinAt) (fun t ht => (hd t (Ico_subset_Icc_self ht)).derivWithin
          (uniqueDiffOn_Icc zero_lt_one t (Ico_subset_Icc_self ht))) t ht
      simpa [a0] using this
    have hdp : dp 0 = 0 := by
      have := hconst 1 (right_mem_Icc.2 zero_le_one)
      rw [a1] at this
      linarith
    refine ⟨fun t ht => ?_, ?_, Subsingleton.elim _ _⟩
    · funext j
      fin_cases j
      have hp := exBlow_pos hc ht
      have := hconst t ht
      rw [hdp] at this
      have h3 : w t 0 * (1 - exBlowP c * t) ^ 2 = 0 := by linarith
      exact (mul_eq_zero.1 h3).resolve_right (pow_ne_zero 2 hp.ne')
    · funext j
      fin_cases j
      exact hdp
  cx := by
    intro t ht c hc
    have hp := exBlow_pos hc ht
    have h1 : (1 : ℝ) ≤ c 0 := hc.1 0
    refine continuousWithinAt_pi.2 fun j => ?_
    refine ContinuousAt.continuousWithinAt ?_
    have h2 : ContinuousAt exBlowP c := by
      unfold exBlowP
      exact continuousAt_const.sub (continuousAt_const.div (continuous_apply 0).continuousAt (by linarith))
    exact continuousAt_const.div (continuousAt_const.sub (h2.mul continuousAt_const)) hp.ne'
  cp := by
    intro c hc
    have h1 : (1 : ℝ) ≤ c 0 := hc.1 0
    refine continuousWithinAt_pi.2 fun j => ContinuousAt.continuousWithinAt ?_
    unfold exBlowP
    exact continuousAt_const.sub (continuousAt_const.div (continuous_apply 0).continuousAt (by linarith))
  cpn := continuousOn_const

/-- From guesses near `x = 1 / (1 - t / 2)` the solver finds it with three arcs, for `c = 2`. -/
example : ∃ r > 0, ∃ C > 0, ∀ (sol : Curve ℝ) (p0 pn0 : List ℝ),
    GuessNear (nO := 1) (nP := 1) (nN := 0) 0 1 3 (fun i _ => 1 / (1 - exBlowP (fun _ => 2) * node 0 1 3 i)) (fun _ => exBlowP fun _ => 2)
      Fin.elim0 r sol p0 pn0 →
    ∀ (h : ℝ → ℝ), (∀ a, h a ≠ 0 ∧ |h a| < r) → ∀ (o : Opts ℝ) (k fuel : Nat), C * (1 / 10) ^ (k + 1) ≤ o.tol → k ≤ o.maxIter → C ≤ o.maxErr →
      k + 1 ≤ fuel →
      ∃ res, solveFd { exBlow with const := List.ofFn fun _ : Fin 1 => (2 : ℝ) }
        ⟨fun _ _ _ _ => .error .typeError, fun _ _ _ => .error .typeError, fun _ _ => .error .typeError⟩
        (fun v => Real.sqrt (v.map (· ^ 2)).sum) exLinR h o "Armijo" fuel 3 sol p0 pn0 = .ok (some res) ∧ res.converged = true ∧
        res.nIter ≤ k + 1 ∧ Satisfied { exBlow with const := List.ofFn fun _ : Fin 1 => (2 : ℝ) } sol 3 o.tol res ∧
        CloseTo (nO := 1) (nP := 1) (nN := 0) { exBlow with const := List.ofFn fun _ : Fin 1 => (2 : ℝ) } sol 3
          (fun i _ => 1 / (1 - exBlowP (fun _ => 2) * node 0 1 3 i)) (fun _ => exBlowP fun _ => 2) Fin.elim0 (C * o.tol) res :=
  C90_smooth_partial (exBlow_smooth.at ⟨fun _ => by norm_num, fun _ => by norm_num⟩) odeIvp_exact zero_lt_one odeIvp_sound odeIvp_complete
    rfl rfl _ euclid_sound (fun _ => Real.sqrt_nonneg _) euclid_le_sum exLinR_sound (by decide +kernel) (by norm_num) (by norm_num) (by norm_num)

/-- With enough cases, bisection from `c = 1` to `c = 4` goes through with three arcs, from guesses near `x = 1`. -/
example (L : LogOps ℝ) : ∃ r > 0, ∃ C > 0, ∃ N : Nat, ∀ (h : ℝ → ℝ), (∀ a, h a ≠ 0 ∧ |h a| < r) → ∀ (o : Opts ℝ) (k fuel : Nat),
    C * (1 / 10) ^ (k + 1) ≤ o.tol → C * o.tol ≤ r → k ≤ o.maxIter → C ≤ o.maxErr → k + 1 ≤ fuel →
    ∀ g : Cont.Traj ℝ (Curve ℝ × List ℝ × List ℝ), g.const = [1] →
    GuessNear (nO := 1) (nP := 1) (nN := 0) 0 1 3 (fun _ _ => 1) (fun _ => 0) Fin.elim0 r g.data.1 g.data.2.1 g.data.2.2 →
    ∃ l sol, Cont.runContinuationSet L (shootCase exBlow
        ⟨fun _ _ _ _ => .error .typeError, fun _ _ _ => .error .typeError, fun _ _ => .error .typeError⟩
        (fun v => Real.sqrt (v.map (· ^ 2)).sum) exLinR h o "Armijo" fuel 3) ["c"] (6 * N + 1)
        (some [(Cont.Strat.newBisection N 1 2).const "c" 4]) g = .returned [l ++ [sol]] ∧
      (l ++ [sol]).length = N ∧ (∀ s ∈ l ++ [sol], s.converged = true) ∧ sol.const = [4] ∧
      ∀ j : Fin 1, |sol.data.2.1.getD j 0 - 3 / 4| < C * o.tol := by
  obtain ⟨r, hr, C, hC, δ, hδ, hmain⟩ := C91_smooth_partial exBlow_smooth odeIvp_exact zero_lt_one isCompact_Icc odeIvp_sound odeIvp_complete
    rfl rfl ⟨fun _ _ _ _ => .error .typeError, fun _ _ _ => .error .typeError, fun _ _ => .error .typeError⟩ euclid_sound
    (fun _ => Real.sqrt_nonneg _) euclid_le_sum exLinR_sound (alg := "Armijo") (by decide +kernel) (n := 3) (by norm_num) (θ := 1 / 10)
    (by norm_num) (by norm_num)
  obtain ⟨N, hN⟩ := exists_nat_ge (3 / δ)
  refine ⟨r, hr, C, hC, N + 2, fun h hh o k fuel h1 h2 h3 h4 h5 g hg hnear => ?_⟩
  obtain ⟨c0, conv, d⟩ := g
  dsimp only at hg hnear
  subst hg
  obtain ⟨sols, e1, e2, e3, e4⟩ := hmain h hh o k fuel h1 h2 h3 h4 h5 L ["c"] (by simp) (3 * (N + 2)) (6 * (N + 2) + 1) _ ⟨[1], conv, d⟩ [4]
    (exPlan L hδ hN) rfl (by omega) (by simpa [vec, exBlowP] using hnear)
  obtain ⟨pre, l, sol, rfl, e5⟩ := e4 (by simp)
  have hpre : pre = [] := by
    have := congrArg List.length e2
    simpa using this
  subst hpre
  refine ⟨l, sol, e1, List.head_eq_of_cons_eq e2, fun s hs => (e3 _ (by simp) s hs).1, e5, fun j => ?_⟩
  obtain ⟨_, res, _, _, hd, _, hF⟩ := (e3 (l ++ [sol]) (by simp) sol (by simp)).2
  have := hF.p j
  rw [e5] at this
  simp only [vec, exBlowP] at this
  norm_num at this
  rw [hd]
  simpa using this

end Beluga.Shoot
