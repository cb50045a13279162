import Verif.Shooting.Stack
import Verif.Continuation.Near
import Mathlib.Topology.MetricSpace.UniformConvergence
import Mathlib.Topology.UniformSpace.Compact

/-!
# C91: continuation with the shooting solver follows a branch of regular solutions
-/

namespace Beluga.Shoot

open Beluga.Traj (Arr Curve)
open scoped Topology

/-! ### The program -/

/-- One pass of the loop of `run_continuation_set` with the shooting solver and without scaling (continuation.py:571-607,
Shooting.py:429-799): the guess has the constants of the case and the trajectory and parameters of the solution before it. -/
noncomputable def shootCase (E : Env ℝ) (S : Scipy ℝ) (norm : List ℝ → ℝ) (lin : List (List ℝ) → List ℝ → Py (List ℝ)) (h : ℝ → ℝ)
    (o : Opts ℝ) (alg : String) (fuel n : Nat) (_ : Nat) (g : Cont.Traj ℝ (Curve ℝ × List ℝ × List ℝ)) :
    Py (Cont.Traj ℝ (Curve ℝ × List ℝ × List ℝ)) := do
  match ← solveFd { E with const := g.const } S norm lin h o alg fuel n g.data.1 g.data.2.1 g.data.2.2 with
  | none => .error .runtimeError
  | some r => .ok ⟨g.const, r.converged, (trajOf n r, r.p, r.pn)⟩

/-! ### What is expected -/

/-- A branch of regular solutions over the constants `S`: states `y c i` at the nodes and parameters `p c`, `pn c` that are continuous
in the constants `c`.  Near each of them, the ends of the arcs are given by `Φ i` and the boundary conditions by `Ψ`, which are strictly differentiable there
in constants and unknowns; and the linearised boundary value problem for fixed constants has no solution but zero. -/
structure RegularOn (E : Env ℝ) (a b : ℝ) (n : Nat) {m nO nP nN : Nat} (S : Set (Fin m → ℝ)) (y : (Fin m → ℝ) → Nat → Fin nO → ℝ)
    (p : (Fin m → ℝ) → Fin nP → ℝ) (pn : (Fin m → ℝ) → Fin nN → ℝ)
    (Φ : Nat → (Fin m → ℝ) × (Fin nO → ℝ) × (Fin nP → ℝ) → Fin nO → ℝ)
    (Ψ : (Fin m → ℝ) × (Fin nO → ℝ) × (Fin nO → ℝ) × (Fin nP → ℝ) × (Fin nN → ℝ) → Fin (nO + nP + nN) → ℝ)
    (DΦ : (Fin m → ℝ) → Nat → ((Fin m → ℝ) × (Fin nO → ℝ) × (Fin nP → ℝ)) →L[ℝ] Fin nO → ℝ)
    (DΨ : (Fin m → ℝ) → ((Fin m → ℝ) × (Fin nO → ℝ) × (Fin nO → ℝ) × (Fin nP → ℝ) × (Fin nN → ℝ)) →L[ℝ] Fin (nO + nP + nN) → ℝ) :
    Prop where
  flow : ∀ c ∈ S, ∀ i < n, ∀ᶠ z in 𝓝 (c, y c i, p c), endOf E.ivp (fun x => E.eom (x ++ [List.ofFn z.1])) (node a b n i)
    (node a b n (i + 1)) [List.ofFn z.2.1, List.ofFn z.2.2] = .ok (List.ofFn (Φ i z))
  bc : ∀ c ∈ S, ∀ᶠ z in 𝓝 (c, y c 0, y c n, p c, pn c), E.bc [List.ofFn z.2.1, List.ofFn z.2.2.1, List.ofFn z.2.2.2.1,
    List.ofFn z.2.2.2.2, List.ofFn z.1] = .ok (List.ofFn (Ψ z))
  arcs : ∀ c ∈ S, ∀ i < n, Φ i (c, y c i, p c) = y c (i + 1)
  ends : ∀ c ∈ S, Ψ (c, y c 0, y c n, p c, pn c) = 0
  dflow : ∀ c ∈ S, ∀ i < n, HasStrictFDerivAt (Φ i) (DΦ c i) (c, y c i, p c)
  dbc : ∀ c ∈ S, HasStrictFDerivAt Ψ (DΨ c) (c, y c 0, y c n, p c, pn c)
  nondeg : ∀ c ∈ S, ∀ (w : Nat → Fin nO → ℝ) (dp : Fin nP → ℝ) (dpn : Fin nN → ℝ), (∀ i < n, w (i + 1) = DΦ c i (0, w i, dp)) →
    DΨ c (0, w 0, w n, dp, dpn) = 0 → (∀ i < n, w i = 0) ∧ dp = 0 ∧ dpn = 0
  cy : ∀ i < n, ContinuousOn (fun c => y c i) S
  cp : ContinuousOn p S
  cpn : ContinuousOn pn S

/-- The solution of a case: the result of a run of the solver that satisfies the boundary value problem for its constants within the
tolerance and is within `ε` of the branch. -/
def FineSol (E : Env ℝ) (a b : ℝ) (n : Nat) {m nO nP nN : Nat} (y : (Fin m → ℝ) → Nat → Fin nO → ℝ) (p : (Fin m → ℝ) → Fin nP → ℝ)
    (pn : (Fin m → ℝ) → Fin nN → ℝ) (tol ε : ℝ) (c : List ℝ) (d : Curve ℝ × List ℝ × List ℝ) : Prop :=
  ∃ sol res, sol.t.getD 0 0 = a ∧ lastT sol.t = b ∧ d = (trajOf n res, res.p, res.pn) ∧ Satisfied { E with const := c } sol n tol res ∧
    GuessNear a b n (y (vec m c)) (p (vec m c)) (pn (vec m c)) ε (curveOf res) res.p res.pn

/-- The guess, or a result with the same points. -/
def Alike (n : Nat) (g g' : Curve ℝ) : Prop := g' = g ∨ ∃ res : Result ℝ, res.y ≠ [] ∧ g' = trajOf n res ∧ g = curveOf res

theorem Alike.solve {n : Nat} {g g' : Curve ℝ} (hA : Alike n g g') {E : Env ℝ} {S : Scipy ℝ} {norm : List ℝ → ℝ}
    {lin : List (List ℝ) → List ℝ → Py (List ℝ)} {h : ℝ → ℝ} {o : Opts ℝ} {alg : String} {fuel nA : Nat} {p pn : List ℝ} :
    solveFd E S norm lin h o alg fuel nA g' p pn = solveFd E S norm lin h o alg fuel nA g p pn := by
  rcases hA with rfl | ⟨res, hy, rfl, rfl⟩
  · rfl
  · exact solveFd_trajOf hy n

/-! ### Solutions for constants that are close to each other -/

section joint
variable {m n nO nP nN : Nat} (Φ : Nat → (Fin m → ℝ) × (Fin nO → ℝ) × (Fin nP → ℝ) → Fin nO → ℝ)
  (Ψ : (Fin m → ℝ) × (Fin nO → ℝ) × (Fin nO → ℝ) × (Fin nP → ℝ) × (Fin nN → ℝ) → Fin (nO + nP + nN) → ℝ)
  (DΦ : Nat → ((Fin m → ℝ) × (Fin nO → ℝ) × (Fin nP → ℝ)) →L[ℝ] Fin nO → ℝ)
  (DΨ : ((Fin m → ℝ) × (Fin nO → ℝ) × (Fin nO → ℝ) × (Fin nP → ℝ) × (Fin nN → ℝ)) →L[ℝ] Fin (nO + nP + nN) → ℝ)

/-- Jumps and boundary conditions as a function of constants and unknowns. -/
def jointF (n : Nat) (z : (Fin m → ℝ) × (Fin (nO * n + nP + nN) → ℝ)) : Fin (nO * n + nP + nN) → ℝ :=
  flatF (fun i x => Φ i (z.1, x)) (fun x => Ψ (z.1, x)) n z.2

/-- The constants and the start and parameters of an arc. -/
def argΦ (m n nO nP nN i : Nat) : ((Fin m → ℝ) × (Fin (nO * n + nP + nN) → ℝ)) →L[ℝ] (Fin m → ℝ) × (Fin nO → ℝ) × (Fin nP → ℝ) :=
  (ContinuousLinearMap.fst ℝ _ _).prod (((blockY n nO nP nN i).comp (ContinuousLinearMap.snd ℝ _ _)).prod
    ((blockP n nO nP nN).comp (ContinuousLinearMap.snd ℝ _ _)))

/-- The derivative of jumps and boundary conditions. -/
def jointD (n : Nat) : ((Fin m → ℝ) × (Fin (nO * n + nP + nN) → ℝ)) →L[ℝ] Fin (nO * n + nP + nN) → ℝ := ContinuousLinearMap.pi fun k =>
  if (k : Nat) < nO * (n - 1) then
    (coord nO (k % nO)).comp ((DΦ (k / nO)).comp (argΦ m n nO nP nN (k / nO))) -
      (coord (nO * n + nP + nN) (nO + k)).comp (ContinuousLinearMap.snd ℝ _ _)
  else (coord (nO + nP + nN) (k - nO * (n - 1))).comp (DΨ.comp ((ContinuousLinearMap.fst ℝ _ _).prod
    (((blockY n nO nP nN 0).comp (ContinuousLinearMap.snd ℝ _ _)).prod (((DΦ (n - 1)).comp (argΦ m n nO nP nN (n - 1))).prod
    (((blockP n nO nP nN).comp (ContinuousLinearMap.snd ℝ _ _)).prod ((blockN n nO nP nN).comp (ContinuousLinearMap.snd ℝ _ _)))))))

theorem jointD_inr (d : Fin (nO * n + nP + nN) → ℝ) : jointD DΦ DΨ n (0, d) =
    flatD (fun i => (DΦ i).comp (ContinuousLinearMap.inr ℝ _ _)) (DΨ.comp (ContinuousLinearMap.inr ℝ _ _)) n d := by
  funext k
  rw [jointD, flatD, ContinuousLinearMap.coe_pi', ContinuousLinearMap.coe_pi']
  dsimp only
  by_cases hk : (k : Nat) < nO * (n - 1)
  · rw [if_pos hk, if_pos hk]; rfl
  · rw [if_neg hk, if_neg hk]; rfl

end joint

variable {E : Env ℝ} {a b : ℝ} {m n nO nP nN : Nat} {S : Set (Fin m → ℝ)} {y : (Fin m → ℝ) → Nat → Fin nO → ℝ}
  {p : (Fin m → ℝ) → Fin nP → ℝ} {pn : (Fin m → ℝ) → Fin nN → ℝ} {Φ : Nat → (Fin m → ℝ) × (Fin nO → ℝ) × (Fin nP → ℝ) → Fin nO → ℝ}
  {Ψ : (Fin m → ℝ) × (Fin nO → ℝ) × (Fin nO → ℝ) × (Fin nP → ℝ) × (Fin nN → ℝ) → Fin (nO + nP + nN) → ℝ}
  {DΦ : (Fin m → ℝ) → Nat → ((Fin m → ℝ) × (Fin nO → ℝ) × (Fin nP → ℝ)) →L[ℝ] Fin nO → ℝ}
  {DΨ : (Fin m → ℝ) → ((Fin m → ℝ) × (Fin nO → ℝ) × (Fin nO → ℝ) × (Fin nP → ℝ) × (Fin nN → ℝ)) →L[ℝ] Fin (nO + nP + nN) → ℝ}

/-- Each point of the branch is a regular solution. -/
theorem RegularOn.at (h : RegularOn E a b n S y p pn Φ Ψ DΦ DΨ) {c : Fin m → ℝ} (hc : c ∈ S) :
    Regular { E with const := List.ofFn c } a b n (y c) (p c) (pn c) (fun i x => Φ i (c, x)) (fun x => Ψ (c, x))
      (fun i => (DΦ c i).comp (ContinuousLinearMap.inr ℝ _ _)) ((DΨ c).comp (ContinuousLinearMap.inr ℝ _ _)) where
  flow := fun i hi => by
    have h1 := h.flow c hc i hi
    have h2 : ContinuousAt (fun x : (Fin nO → ℝ) × (Fin nP → ℝ) => (c, x)) (y c i, p c) := by fun_prop
    exact h2.eventually h1
  bc := by
    have h1 := h.bc c hc
    have h2 : ContinuousAt (fun x : (Fin nO → ℝ) × (Fin nO → ℝ) × (Fin nP → ℝ) × (Fin nN → ℝ) => (c, x)) (y c 0, y c n, p c, pn c) := by
      fun_prop
    exact h2.eventually h1
  arcs := fun i hi => h.arcs c hc i hi
  ends := h.ends c hc
  dflow := fun i hi => (h.dflow c hc i hi).comp (y c i, p c) ((hasStrictFDerivAt_const c _).prodMk (hasStrictFDerivAt_id _))
  dbc := (h.dbc c hc).comp (y c 0, y c n, p c, pn c) ((hasStrictFDerivAt_const c _).prodMk (hasStrictFDerivAt_id _))
  nondeg := fun w dp dpn h1 h2 => h.nondeg c hc w dp dpn h1 h2

theorem RegularOn.strict (h : RegularOn E a b n S y p pn Φ Ψ DΦ DΨ) (hn : 0 < n) {c : Fin m → ℝ} (hc : c ∈ S)
    {X : Fin (nO * n + nP + nN) → ℝ} (hy : ∀ i < n, blockY n nO nP nN i X = y c i)
    (hp : blockP n nO nP nN X = p c) (hpn : blockN n nO nP nN X = pn c) :
    HasStrictFDerivAt (jointF Φ Ψ n) (jointD (DΦ c) (DΨ c) n) (c, X) := by
  have hΦ : ∀ i < n, HasStrictFDerivAt (fun z : (Fin m → ℝ) × (Fin (nO * n + nP + nN) → ℝ) =>
      Φ i (z.1, blockY n nO nP nN i z.2, blockP n nO nP nN z.2)) ((DΦ c i).comp (argΦ m n nO nP nN i)) (c, X) := by
    intro i hi
    have h1 := h.dflow c hc i hi
    rw [← hy i hi, ← hp] at h1
    exact HasStrictFDerivAt.comp (g := Φ i) (c, X) h1 (argΦ m n nO nP nN i).hasStrictFDerivAt
  unfold jointF flatF jointD
  refine hasStrictFDerivAt_pi.2 fun k => ?_
  by_cases hk : (k : Nat) < nO * (n - 1)
  · simp only [if_pos hk]
    obtain ⟨h1, -, -⟩ := div_mul_lt hk
    exact ((coord nO (k % nO)).hasStrictFDerivAt.comp (c, X) (hΦ _ (by omega))).sub
      ((coord (nO * n + nP + nN) (nO + k)).comp (ContinuousLinearMap.snd ℝ (Fin m → ℝ) _)).hasStrictFDerivAt
  · simp only [if_neg hk]
    have h1 := h.dbc c hc
    have e : (c, blockY n nO nP nN 0 X, Φ (n - 1) (c, blockY n nO nP nN (n - 1) X, blockP n nO nP nN X), blockP n nO nP nN X,
        blockN n nO nP nN X) = (c, y c 0, y c n, p c, pn c) := by
      rw [hy 0 hn, hy (n - 1) (by omega), hp, hpn, h.arcs c hc (n - 1) (by omega), show n - 1 + 1 = n by omega]
    rw [← e] at h1
    refine (coord _ _).hasStrictFDerivAt.comp (c, X) (HasStrictFDerivAt.comp (g := Ψ) (c, X) h1
      ((ContinuousLinearMap.fst ℝ (Fin m → ℝ) (Fin (nO * n + nP + nN) → ℝ)).hasStrictFDerivAt.prodMk
      (((blockY n nO nP nN 0).comp (ContinuousLinearMap.snd ℝ (Fin m → ℝ) _)).hasStrictFDerivAt.prodMk
      ((hΦ (n - 1) (by omega)).prodMk (((blockP n nO nP nN).comp (ContinuousLinearMap.snd ℝ (Fin m → ℝ) _)).hasStrictFDerivAt.prodMk
        ((blockN n nO nP nN).comp (ContinuousLinearMap.snd ℝ (Fin m → ℝ) _)).hasStrictFDerivAt)))))

/-- Near a point of the branch, the residual of the program is the function above. -/
theorem RegularOn.residual (h : RegularOn E a b n S y p pn Φ Ψ DΦ DΨ) (hn : 0 < n) {c : Fin m → ℝ} (hc : c ∈ S)
    {X : Fin (nO * n + nP + nN) → ℝ} (hy : ∀ i < n, blockY n nO nP nN i X = y c i)
    (hp : blockP n nO nP nN X = p c) (hpn : blockN n nO nP nN X = pn c) (hI : IvpSound E.ivp) (hC : Complete E.ivp) (hser : E.parallel = false)
    (hq : E.quad = none) : ∃ δ > 0, ∀ (c' : Fin m → ℝ) (sol : Curve ℝ) (gs : List (Curve ℝ)), Guess nO 0 sol → sol.t.getD 0 0 = a →
      lastT sol.t = b → makeArcs sol n = .ok gs → ∀ x : List ℝ, x.length = nO * n + nP + nN → dist (c', vec _ x) (c, X) < δ →
      residual { E with const := List.ofFn c' } gs ⟨nO, 0, nP, n⟩ x = .ok (List.ofFn (jointF Φ Ψ n (c', vec _ x))) ∧
      ∃ (ts : Nat → List ℝ) (ys : Nat → List (List ℝ)), (∀ i < n, E.ivp (fun y => E.eom [y, paramOf nO n nP x, List.ofFn c'])
        [junction sol n i, junction sol n (i + 1)] (startOf nO i x) = .ok (ts i, ys i)) := by
  have c1 : ∀ i < n, ∀ᶠ z in 𝓝 (c, X), endOf E.ivp (fun x => E.eom (x ++ [List.ofFn z.1])) (node a b n i) (node a b n (i + 1))
      [List.ofFn (blockY n nO nP nN i z.2), List.ofFn (blockP n nO nP nN z.2)] =
      .ok (List.ofFn (Φ i (z.1, blockY n nO nP nN i z.2, blockP n nO nP nN z.2))) := by
    intro i hi
    have h1 := h.flow c hc i hi
    rw [← hy i hi, ← hp] at h1
    exact ((argΦ m n nO nP nN i).continuous.continuousAt (x := (c, X))).eventually h1
  have c2 : ∀ᶠ z in 𝓝 (c, X), E.bc [List.ofFn (blockY n nO nP nN 0 z.2),
      List.ofFn (Φ (n - 1) (z.1, blockY n nO nP nN (n - 1) z.2, blockP n nO nP nN z.2)),
      List.ofFn (blockP n nO nP nN z.2), List.ofFn (blockN n nO nP nN z.2), List.ofFn z.1] =
      .ok (List.ofFn (Ψ (z.1, blockY n nO nP nN 0 z.2, Φ (n - 1) (z.1, blockY n nO nP nN (n - 1) z.2, blockP n nO nP nN z.2),
        blockP n nO nP nN z.2, blockN n nO nP nN z.2))) := by
    have h1 := h.bc c hc
    have e : (c, y c 0, y c n, p c, pn c) = (c, blockY n nO nP nN 0 X,
        Φ (n - 1) (c, blockY n nO nP nN (n - 1) X, blockP n nO nP nN X), blockP n nO nP nN X, blockN n nO nP nN X) := by
      rw [hy 0 hn, hy (n - 1) (by omega), hp, hpn, h.arcs c hc (n - 1) (by omega), show n - 1 + 1 = n by omega]
    rw [e] at h1
    have hd := (h.dflow c hc (n - 1) (by omega)).continuousAt
    rw [← hy (n - 1) (by omega), ← hp] at hd
    have hc1 : ContinuousAt (fun z : (Fin m → ℝ) × (Fin (nO * n + nP + nN) → ℝ) =>
        Φ (n - 1) (z.1, blockY n nO nP nN (n - 1) z.2, blockP n nO nP nN z.2)) (c, X) :=
      ContinuousAt.comp (f := argΦ m n nO nP nN (n - 1)) hd (argΦ m n nO nP nN (n - 1)).continuous.continuousAt
    have hc2 : ContinuousAt (fun z : (Fin m → ℝ) × (Fin (nO * n + nP + nN) → ℝ) => (z.1, blockY n nO nP nN 0 z.2,
        Φ (n - 1) (z.1, blockY n nO nP nN (n - 1) z.2, blockP n nO nP nN z.2), blockP n nO nP nN z.2, blockN n nO nP nN z.2)) (c, X) :=
      continuous_fst.continuousAt.prodMk (((blockY n nO nP nN 0).continuous.comp continuous_snd).continuousAt.prodMk (hc1.prodMk
        (((blockP n nO nP nN).continuous.comp continuous_snd).continuousAt.prodMk
          ((blockN n nO nP nN).continuous.comp continuous_snd).continuousAt)))
    exact hc2.eventually h1
  have c3 := (Finset.range n).eventually_all.2 fun i hi => c1 i (Finset.mem_range.1 hi)
  obtain ⟨δ, hδ, hball⟩ := Metric.eventually_nhds_iff.1 (c3.and c2)
  refine ⟨δ, hδ, fun c' sol gs hG ha hb hgs x hx hxd => ?_⟩
  obtain ⟨d1, d2⟩ := hball hxd
  exact residual_flat (E := { E with const := List.ofFn c' }) (Φ := fun i x => Φ i (c', x)) (Ψ := fun x => Ψ (c', x)) hn hI hC hser hq
    hG ha hb hgs hx (fun i hi => d1 i (Finset.mem_range.2 hi)) d2

/-- What C90 says of the solution for the constants `c`. -/
def Works (E : Env ℝ) (a b : ℝ) (n : Nat) (S : Scipy ℝ) (norm : List ℝ → ℝ) (lin : List (List ℝ) → List ℝ → Py (List ℝ)) (alg : String)
    (θ : ℝ) {m nO nP nN : Nat} (y : (Fin m → ℝ) → Nat → Fin nO → ℝ) (p : (Fin m → ℝ) → Fin nP → ℝ) (pn : (Fin m → ℝ) → Fin nN → ℝ)
    (r C : ℝ) (c : Fin m → ℝ) : Prop :=
  ∀ (sol : Curve ℝ) (p0 pn0 : List ℝ), GuessNear a b n (y c) (p c) (pn c) r sol p0 pn0 →
    ∀ (h : ℝ → ℝ), (∀ a, h a ≠ 0 ∧ |h a| < r) → ∀ (o : Opts ℝ) (k fuel : Nat), C * θ ^ (k + 1) ≤ o.tol → k ≤ o.maxIter → C ≤ o.maxErr →
    k + 1 ≤ fuel →
    ∃ res, solveFd { E with const := List.ofFn c } S norm lin h o alg fuel n sol p0 pn0 = .ok (some res) ∧ res.converged = true ∧
      Satisfied { E with const := List.ofFn c } sol n o.tol res ∧
      CloseTo { E with const := List.ofFn c } sol n (y c) (p c) (pn c) (C * o.tol) res

theorem GuessNear.mono {y : Nat → Fin nO → ℝ} {p : Fin nP → ℝ} {pn : Fin nN → ℝ} {r r' : ℝ} {sol : Curve ℝ} {p0 pn0 : List ℝ}
    (h : GuessNear a b n y p pn r sol p0 pn0) (hr : r ≤ r') : GuessNear a b n y p pn r' sol p0 pn0 :=
  ⟨h.shape, h.first, h.last, h.lp, h.lpn, fun i hi => by
    obtain ⟨s, h1, h2⟩ := h.y i hi
    exact ⟨s, h1, fun j => lt_of_lt_of_le (h2 j) hr⟩, fun j => lt_of_lt_of_le (h.p j) hr, fun j => lt_of_lt_of_le (h.pn j) hr⟩

theorem Works.mono {S : Scipy ℝ} {norm : List ℝ → ℝ} {lin : List (List ℝ) → List ℝ → Py (List ℝ)} {alg : String} {θ r r' C C' : ℝ}
    {c : Fin m → ℝ} (hθ : 0 < θ) (hC : 0 ≤ C) (h : Works E a b n S norm lin alg θ y p pn r C c) (hr : r' ≤ r) (hCC : C ≤ C') :
    Works E a b n S norm lin alg θ y p pn r' C' c := by
  intro sol p0 pn0 hg hd hh o k fuel hk hki hmax hf
  have hpow : 0 < θ ^ (k + 1) := pow_pos hθ _
  have htol : 0 ≤ o.tol := le_trans (mul_nonneg (hC.trans hCC) hpow.le) hk
  obtain ⟨res, h1, h2, h3, h4⟩ := h sol p0 pn0 (hg.mono hr) hd (fun a => ⟨(hh a).1, lt_of_lt_of_le (hh a).2 hr⟩) o k fuel
    (le_trans (mul_le_mul_of_nonneg_right hCC hpow.le) hk) hki (hCC.trans hmax) hf
  exact ⟨res, h1, h2, h3, h4.mono (mul_le_mul_of_nonneg_right hCC htol)⟩

/-- The radius and the constant of C90 can be chosen for all constants near `c0` at once. -/
theorem RegularOn.local_works (h : RegularOn E a b n S y p pn Φ Ψ DΦ DΨ) (hI : IvpSound E.ivp) (hC : Complete E.ivp)
    (hser : E.parallel = false) (hq : E.quad = none) (Sc : Scipy ℝ) {norm : List ℝ → ℝ} (hN : NormSound norm) (hN0 : ∀ v, 0 ≤ norm v)
    (hN1 : ∀ v : List ℝ, norm v ≤ (v.map fun a => |a|).sum) {lin : List (List ℝ) → List ℝ → Py (List ℝ)} (hlin : LinSound lin)
    {alg : String} (halg : alg.toLower = "armijo") (hn : 0 < n) {θ : ℝ} (hθ0 : 0 < θ) (hθ : θ ≤ 1 / 2) {c0 : Fin m → ℝ} (hc0 : c0 ∈ S) :
    ∃ r > 0, ∃ C > 0, ∀ᶠ c in 𝓝[S] c0, Works E a b n Sc norm lin alg θ y p pn r C c := by
  choose X hXy hXp hXn using fun c => exists_blocks (n := n) (y c) (p c) (pn c)
  obtain ⟨δ, hδ, hres⟩ := h.residual hn hc0 (hXy c0) (hXp c0) (hXn c0) hI hC hser hq
  have hst := h.strict hn hc0 (hXy c0) (hXp c0) (hXn c0)
  have hinj := (h.at hc0).injective hn
  let A := flatD (nP := nP) (nN := nN) (fun i => (DΦ c0 i).comp (ContinuousLinearMap.inr ℝ _ _))
    ((DΨ c0).comp (ContinuousLinearMap.inr ℝ _ _)) n
  obtain ⟨β, hβ, hanti⟩ := LinearMap.exists_antilipschitzWith (A : (Fin (nO * n + nP + nN) → ℝ) →ₗ[ℝ] Fin (nO * n + nP + nN) → ℝ)
    (LinearMap.ker_eq_bot.2 hinj)
  have hM : (0 : ℝ) ≤ (nO * n + nP + nN : Nat) := Nat.cast_nonneg _
  generalize hMe : ((nO * n + nP + nN : Nat) : ℝ) = M at hM
  have hκ : 0 < θ / (4 * ((β : ℝ) + 1) * (M + 1) ^ 2) := by positivity
  obtain ⟨s, hs, happ⟩ := hst.approximates_deriv_on_nhds (c := ⟨θ / (4 * ((β : ℝ) + 1) * (M + 1) ^ 2), hκ.le⟩) (Or.inr hκ)
  obtain ⟨ε, hε, hball⟩ := Metric.mem_nhds_iff.1 hs
  have hρ0 : 0 < min ε δ := lt_min hε hδ
  obtain ⟨ρ, hρe⟩ : ∃ ρ, ρ = min ε δ / 2 := ⟨_, rfl⟩
  have hρ : 0 < ρ := by rw [hρe]; linarith
  have hεl : 2 * ρ ≤ ε := by rw [hρe]; linarith [min_le_left ε δ]
  have hδl : 2 * ρ ≤ δ := by rw [hρe]; linarith [min_le_right ε δ]
  refine ⟨ρ / 2, by linarith, M * ((‖A‖ + θ / (4 * ((β : ℝ) + 1) * (M + 1) ^ 2)) * ρ) + 2 * β + 1, by positivity, ?_⟩
  have e1 : ∀ᶠ c in 𝓝[S] c0, ∀ i ∈ Finset.range n, dist (y c i) (y c0 i) < ρ :=
    (Finset.range n).eventually_all.2 fun i hi =>
      ((h.cy i (Finset.mem_range.1 hi)) c0 hc0).eventually (Metric.ball_mem_nhds _ hρ)
  have e2 : ∀ᶠ c in 𝓝[S] c0, dist (p c) (p c0) < ρ := (h.cp c0 hc0).eventually (Metric.ball_mem_nhds _ hρ)
  have e3 : ∀ᶠ c in 𝓝[S] c0, dist (pn c) (pn c0) < ρ := (h.cpn c0 hc0).eventually (Metric.ball_mem_nhds _ hρ)
  have e4 : ∀ᶠ c in 𝓝[S] c0, dist c c0 < ρ := mem_nhdsWithin_of_mem_nhds (Metric.ball_mem_nhds _ hρ)
  filter_upwards [e1, e2, e3, e4, self_mem_nhdsWithin] with c d1 d2 d3 d4 hcS
  have hXd : ‖X c - X c0‖ < ρ := by
    refine (pi_norm_lt_iff hρ).2 fun k => ?_
    rw [Real.norm_eq_abs]
    refine blocks_all (n := n) (nO := nO) (nP := nP) (nN := nN) (Q := fun a => |a| < ρ) (X := X c - X c0) ?_ ?_ ?_ k
    · intro i hi j
      rw [map_sub, hXy c i hi, hXy c0 i hi]
      have := d1 i (Finset.mem_range.2 hi)
      rw [dist_eq_norm] at this
      exact lt_of_le_of_lt (norm_le_pi_norm (y c i - y c0 i) j) this
    · intro j
      rw [map_sub, hXp c, hXp c0]
      rw [dist_eq_norm] at d2
      exact lt_of_le_of_lt (norm_le_pi_norm (p c - p c0) j) d2
    · intro j
      rw [map_sub, hXn c, hXn c0]
      rw [dist_eq_norm] at d3
      exact lt_of_le_of_lt (norm_le_pi_norm (pn c - pn c0) j) d3
  have hnb : ∀ x, ‖x - X c‖ < ρ → dist (c, x) (c0, X c0) < 2 * ρ := by
    intro x hx
    rw [Prod.dist_eq, max_lt_iff]
    refine ⟨by linarith, ?_⟩
    dsimp only
    calc dist x (X c0) ≤ dist x (X c) + dist (X c) (X c0) := dist_triangle _ _ _
      _ < ρ + ρ := by rw [dist_eq_norm, dist_eq_norm]; exact add_lt_add hx hXd
      _ = 2 * ρ := by ring
  have hnr : Nearly (fun x => jointF Φ Ψ n (c, x)) (X c) A β (θ / (4 * ((β : ℝ) + 1) * (M + 1) ^ 2)) ρ := by
    refine ⟨β.2, hκ.le, fun v => ?_, fun x hx x' hx' => ?_, ?_⟩
    · have := hanti.le_mul_dist v 0
      simpa using this
    · rw [mem_ball_iff_norm] at hx hx'
      have h1 := happ (c, x) (hball (Metric.mem_ball.2 (lt_of_lt_of_le (hnb x hx) hεl))) (c, x')
        (hball (Metric.mem_ball.2 (lt_of_lt_of_le (hnb x' hx') hεl)))
      rw [Prod.mk_sub_mk, sub_self, jointD_inr] at h1
      refine h1.trans (le_of_eq ?_)
      rw [Prod.norm_mk, norm_zero, max_eq_right (norm_nonneg _)]
      rfl
    · exact (h.at hcS).zero hn (hXy c) (hXp c) (hXn c)
  intro sol p0 pn0 hg hd hh o k fuel hk hki hmax hf
  obtain ⟨res, h1, h2, -, h4, h5⟩ := solve_rate (E := { E with const := List.ofFn c }) hI hC hser hq Sc hN hN0 hN1 hlin halg hn (hXy c) (hXp c) (hXn c)
    β.2 hρ hθ0 hθ hMe hnr le_rfl hg
    (fun gs hgs x hx hxd => hres c sol gs hg.shape hg.first hg.last hgs x hx (lt_of_lt_of_le (hnb _ hxd) hδl)) hh hk hki hmax hf
  exact ⟨res, h1, h2, h4, h5⟩

/-- And for all constants of the branch at once. -/
theorem RegularOn.works (h : RegularOn E a b n S y p pn Φ Ψ DΦ DΨ) (hS : IsCompact S) (hI : IvpSound E.ivp) (hC : Complete E.ivp)
    (hser : E.parallel = false) (hq : E.quad = none) (Sc : Scipy ℝ) {norm : List ℝ → ℝ} (hN : NormSound norm) (hN0 : ∀ v, 0 ≤ norm v)
    (hN1 : ∀ v : List ℝ, norm v ≤ (v.map fun a => |a|).sum) {lin : List (List ℝ) → List ℝ → Py (List ℝ)} (hlin : LinSound lin)
    {alg : String} (halg : alg.toLower = "armijo") (hn : 0 < n) {θ : ℝ} (hθ0 : 0 < θ) (hθ : θ ≤ 1 / 2) :
    ∃ r > 0, ∃ C > 0, ∀ c ∈ S, Works E a b n Sc norm lin alg θ y p pn r C c := by
  refine hS.induction_on (p := fun s => ∃ r > 0, ∃ C > 0, ∀ c ∈ s, Works E a b n Sc norm lin alg θ y p pn r C c) ?_ ?_ ?_ ?_
  · exact ⟨1, one_pos, 1, one_pos, by simp⟩
  · rintro s t hst ⟨r, hr, C, hC, hw⟩
    exact ⟨r, hr, C, hC, fun c hc => hw c (hst hc)⟩
  · rintro s t ⟨r, hr, C, hC, hw⟩ ⟨r', hr', C', hC', hw'⟩
    refine ⟨min r r', lt_min hr hr', max C C', lt_max_of_lt_left hC, fun c hc => ?_⟩
    rcases hc with hc | hc
    · exact (hw c hc).mono hθ0 hC.le (min_le_left _ _) (le_max_left _ _)
    · exact (hw' c hc).mono hθ0 hC'.le (min_le_right _ _) (le_max_right _ _)
  · intro c hc
    obtain ⟨r, hr, C, hC', hw⟩ := h.local_works hI hC hser hq Sc hN hN0 hN1 hlin halg hn hθ0 hθ hc
    exact ⟨_, hw, r, hr, C, hC', fun c hc => hc⟩

/-- The branch moves little if the constants do. -/
theorem RegularOn.uniform (h : RegularOn E a b n S y p pn Φ Ψ DΦ DΨ) (hS : IsCompact S) {ε : ℝ} (hε : 0 < ε) :
    ∃ δ > 0, ∀ c ∈ S, ∀ c' ∈ S, dist c c' < δ →
      (∀ i < n, ∀ j, |y c i j - y c' i j| < ε) ∧ (∀ j, |p c j - p c' j| < ε) ∧ ∀ j, |pn c j - pn c' j| < ε := by
  have u : ∀ {k : Nat} {f : (Fin m → ℝ) → Fin k → ℝ}, ContinuousOn f S → ∃ δ > 0, ∀ c ∈ S, ∀ c' ∈ S, dist c c' < δ → ∀ j, |f c j - f c' j| < ε := by
    intro k f hf
    obtain ⟨δ, hδ, hd⟩ := Metric.uniformContinuousOn_iff.1 (hS.uniformContinuousOn_of_continuous hf) ε hε
    refine ⟨δ, hδ, fun c hc c' hc' hcc j => ?_⟩
    have := hd c hc c' hc' hcc
    rw [dist_eq_norm] at this
    exact lt_of_le_of_lt (norm_le_pi_norm (f c - f c') j) this
  have uy : ∀ k ≤ n, ∃ δ > 0, ∀ c ∈ S, ∀ c' ∈ S, dist c c' < δ → ∀ i < k, ∀ j, |y c i j - y c' i j| < ε := by
    intro k
    induction k with
    | zero => intro _; exact ⟨1, one_pos, fun _ _ _ _ _ i hi => by omega⟩
    | succ k ih =>
      intro hk
      obtain ⟨δ1, h1, h2⟩ := ih (by omega)
      obtain ⟨δ2, h3, h4⟩ := u (h.cy k (by omega))
      refine ⟨min δ1 δ2, lt_min h1 h3, fun c hc c' hc' hcc i hi => ?_⟩
      rcases Nat.lt_succ_iff_lt_or_eq.1 hi with hi | rfl
      · exact h2 c hc c' hc' (lt_of_lt_of_le hcc (min_le_left _ _)) i hi
      · exact h4 c hc c' hc' (lt_of_lt_of_le hcc (min_le_right _ _))
  obtain ⟨δ1, h1, h2⟩ := uy n le_rfl
  obtain ⟨δ2, h3, h4⟩ := u h.cp
  obtain ⟨δ3, h5, h6⟩ := u h.cpn
  refine ⟨min δ1 (min δ2 δ3), lt_min h1 (lt_min h3 h5), fun c hc c' hc' hcc => ⟨?_, ?_, ?_⟩⟩
  · exact h2 c hc c' hc' (lt_of_lt_of_le hcc (min_le_left _ _))
  · exact h4 c hc c' hc' (lt_of_lt_of_le hcc ((min_le_right _ _).trans (min_le_left _ _)))
  · exact h6 c hc c' hc' (lt_of_lt_of_le hcc ((min_le_right _ _).trans (min_le_right _ _)))

theorem dist1_ge : ∀ {c c' : List ℝ}, c.length = c'.length → ∀ k, |c.getD k 0 - c'.getD k 0| ≤ Cont.dist1 c c'
  | [], [], _, k => by simp [Cont.dist1]
  | x :: c, x' :: c', hl, k => by
    have ih := dist1_ge (c := c) (c' := c') (by simpa using hl)
    have h0 : 0 ≤ Cont.dist1 c c' := Cont.dist1_nonneg _ _
    rw [Cont.dist1]
    cases k with
    | zero => simpa using h0
    | succ k =>
      have := ih k
      simp only [List.getD_cons_succ]
      linarith [abs_nonneg (x - x')]

theorem dist_vec {c c' : List ℝ} (h : c.length = m) (h' : c'.length = m) : dist (vec m c) (vec m c') ≤ Cont.dist1 c c' := by
  rw [dist_eq_norm]
  exact (pi_norm_le_iff_of_nonneg (Cont.dist1_nonneg _ _)).2 fun k => dist1_ge (h.trans h'.symm) k

/-- **C91** Let the boundary value problem have a branch of regular solutions over a compact set of constants.  Then there are `r`, `C`
and `δ` such that, with differences below `r` and options that allow for the tolerance (`C θ ^ (k + 1)` is at most the tolerance,
and `C` times the tolerance at most `r`), every list of continuation steps with cases at most `δ` apart, from a guess within `r`
of the branch, runs to its end: every step solves its cases and no more, all are reported as converged, satisfy the boundary value problem for their constants
within the tolerance and are within `C` times the tolerance of the branch, and the last one is for the constants asked for last.
(Without quadratures, not in parallel, no scaling; the sums are exact.) -/
theorem C91_shooting_partial (hR : RegularOn E a b n S y p pn Φ Ψ DΦ DΨ) (hS : IsCompact S) (hI : IvpSound E.ivp) (hC : Complete E.ivp)
    (hser : E.parallel = false) (hq : E.quad = none) (Sc : Scipy ℝ) {norm : List ℝ → ℝ} (hN : NormSound norm) (hN0 : ∀ v, 0 ≤ norm v)
    (hN1 : ∀ v : List ℝ, norm v ≤ (v.map fun a => |a|).sum) {lin : List (List ℝ) → List ℝ → Py (List ℝ)} (hlin : LinSound lin)
    {alg : String} (halg : alg.toLower = "armijo") (hn : 0 < n) {θ : ℝ} (hθ0 : 0 < θ) (hθ : θ ≤ 1 / 2) :
    ∃ r > 0, ∃ C > 0, ∃ δ > 0, ∀ (h : ℝ → ℝ), (∀ a, h a ≠ 0 ∧ |h a| < r) → ∀ (o : Opts ℝ) (k fuel : Nat), C * θ ^ (k + 1) ≤ o.tol →
      C * o.tol ≤ r → k ≤ o.maxIter → C ≤ o.maxErr → k + 1 ≤ fuel → ∀ (L : LogOps ℝ) (names : List String), names.Nodup →
      ∀ (M fuel' : Nat) (ss : List (Cont.Strat ℝ (Curve ℝ × List ℝ × List ℝ))) (guess : Cont.Traj ℝ (Curve ℝ × List ℝ × List ℝ))
        (final : List ℝ), Cont.FinePlan L names (fun c => c.length = m ∧ vec m c ∈ S) δ M guess.const ss final →
      names.length = guess.const.length → 2 * M + 1 ≤ fuel' →
      GuessNear a b n (y (vec m guess.const)) (p (vec m guess.const)) (pn (vec m guess.const)) r guess.data.1 guess.data.2.1 guess.data.2.2 →
      ∃ sols, Cont.runContinuationSet L (shootCase E Sc norm lin h o alg fuel n) names fuel' (some ss) guess = .returned sols ∧
        sols.map List.length = ss.map Cont.Strat.numCases ∧
        (∀ l ∈ sols, ∀ sol ∈ l, sol.converged = true ∧ FineSol E a b n y p pn o.tol (C * o.tol) sol.const sol.data) ∧
        (ss ≠ [] → ∃ pre l sol, sols = pre ++ [l ++ [sol]] ∧ sol.const = final) := by
  obtain ⟨r, hr, C, hC0, hw⟩ := hR.works hS hI hC hser hq Sc hN hN0 hN1 hlin halg hn hθ0 hθ
  obtain ⟨δ, hδ, hu⟩ := hR.uniform hS (ε := r / 2) (by linarith)
  refine ⟨r / 2, by linarith, C + 1, by linarith, min (δ / 2) 1, lt_min (by linarith) one_pos, ?_⟩
  intro h hh o k fuel hk htr hki hmax hf L names hnames M fuel' ss guess final hplan hlen hfuel hg
  have hpow : 0 < θ ^ (k + 1) := pow_pos hθ0 _
  have htol : 0 < o.tol := lt_of_lt_of_le (mul_pos (by linarith) hpow) hk
  have hT : Cont.TracksNear (shootCase E Sc norm lin h o alg fuel n) (fun c => c.length = m ∧ vec m c ∈ S)
      (fun c d => ∃ g, Alike n g d.1 ∧ GuessNear a b n (y (vec m c)) (p (vec m c)) (pn (vec m c)) (r / 2) g d.2.1 d.2.2)
      (FineSol E a b n y p pn o.tol ((C + 1) * o.tol)) (min (δ / 2) 1) := by
    constructor
    · rintro i ⟨c', conv, sol', p0, pn0⟩ c ⟨hc1, hc2⟩ ⟨hc3, hc4⟩ ⟨sol, hA, hG⟩ hd
      dsimp only at hc3 hc4 hA hG hd ⊢
      have hdist : dist (vec m c) (vec m c') < δ :=
        lt_of_le_of_lt (dist_vec hc1 hc3) (lt_of_le_of_lt (hd.trans (min_le_left _ _)) (by linarith))
      obtain ⟨u1, u2, u3⟩ := hu _ hc2 _ hc4 hdist
      have hG' : GuessNear a b n (y (vec m c')) (p (vec m c')) (pn (vec m c')) r sol p0 pn0 := by
        refine ⟨hG.shape, hG.first, hG.last, hG.lp, hG.lpn, fun i hi => ?_, fun j => ?_, fun j => ?_⟩
        · obtain ⟨s, h1, h2⟩ := hG.y i hi
          refine ⟨s, h1, fun j => ?_⟩
          linarith [abs_sub_le (s.1.getD j 0) (y (vec m c) i j) (y (vec m c') i j), h2 j, u1 i hi j]
        · linarith [abs_sub_le (p0.getD j 0) (p (vec m c) j) (p (vec m c') j), hG.p j, u2 j]
        · linarith [abs_sub_le (pn0.getD j 0) (pn (vec m c) j) (pn (vec m c') j), hG.pn j, u3 j]
      obtain ⟨res, s1, s2, s3, s4⟩ := hw _ hc4 sol p0 pn0 hG' h (fun a => ⟨(hh a).1, by linarith [(hh a).2]⟩) o k fuel
        (le_trans (mul_le_mul_of_nonneg_right (by linarith) hpow.le) hk) hki (by linarith) hf
      rw [ofFn_vec hc3] at s1 s3 s4
      refine ⟨⟨c', res.converged, (trajOf n res, res.p, res.pn)⟩, ?_, rfl, s2, sol, res, hG.first, hG.last, rfl, s3, ?_⟩
      · rw [shootCase]
        dsimp only
        rw [hA.solve, s1]
        rfl
      · exact s4.guess (E := { E with const := c' }) hI hC hn hG.shape hG.first hG.last
          (mul_lt_mul_of_pos_right (by linarith) htol)
    · rintro c d _ ⟨_, res, _, _, rfl, _, hF⟩
      refine ⟨curveOf res, Or.inr ⟨res, fun hy => ?_, rfl, rfl⟩, hF.mono htr⟩
      obtain ⟨rows, hrows, _⟩ := hF.shape.y
      rw [curveOf, hy] at hrows
      cases hrows
  exact Cont.C91_plan hnames hT (lt_min (by linarith) one_pos).le (lt_of_le_of_lt (min_le_right _ _) (by norm_num)) hplan hlen
    ⟨_, Or.inl rfl, hg⟩ fuel' hfuel


/-! ### An example -/

/-- The state `x' = p` with the conditions `x(0) = 1`, `x(1)² = c`. -/
noncomputable def exRoot : Env ℝ :=
  ⟨eulerR, fun _ _ => 0, fun a => match a with | [_, p, _] => .ok p | _ => .error .typeError, none,
    fun a => .ok [(a.getD 0 []).getD 0 0 - 1, (a.getD 1 []).getD 0 0 ^ 2 - (a.getD 4 []).getD 0 0], [], false⟩

/-- The branch `x = 1 + (√c - 1) t` for `c` from `1` to `4`. -/
theorem exRoot_regular : RegularOn (m := 1) (nO := 1) (nP := 1) (nN := 0) exRoot 0 1 2 (Set.Icc (fun _ => 1) (fun _ => 4))
    (fun c i _ => 1 + (Real.sqrt (c 0) - 1) * ((i : ℝ) / 2)) (fun c _ => Real.sqrt (c 0) - 1) (fun _ => Fin.elim0)
    (fun _ z j => z.2.1 j + 1 / 2 * z.2.2 j) (fun z => ![z.2.1 0 - 1, z.2.2.1 0 ^ 2 - z.1 0])
    (fun _ _ => (ContinuousLinearMap.fst ℝ _ _).comp (ContinuousLinearMap.snd ℝ _ _) +
      (1 / 2 : ℝ) • (ContinuousLinearMap.snd ℝ _ _).comp (ContinuousLinearMap.snd ℝ _ _))
    (fun c => ContinuousLinearMap.pi ![(ContinuousLinearMap.proj 0).comp ((ContinuousLinearMap.fst ℝ _ _).comp (ContinuousLinearMap.snd ℝ _ _)),
      (2 * Real.sqrt (c 0)) • (ContinuousLinearMap.proj 0).comp ((ContinuousLinearMap.fst ℝ _ _).comp
        ((ContinuousLinearMap.snd ℝ _ _).comp (ContinuousLinearMap.snd ℝ _ _))) -
        (ContinuousLinearMap.proj 0).comp (ContinuousLinearMap.fst ℝ _ _)]) where
  flow := by
    intro c hc i hi
    refine Filter.Eventually.of_forall fun z => ?_
    simp only [endOf, exRoot, eulerR, List.cons_append, List.nil_append, Py.ok_bind, List.ofFn_succ, List.ofFn_zero, node, lastT]
    match i, hi with
    | 0, _ => simp
    | 1, _ => simp; left; norm_num
  bc := fun c hc => Filter.Eventually.of_forall fun z => by simp [exRoot]
  arcs := by
    intro c hc i hi
    funext j
    push_cast
    ring
  ends := by
    intro c hc
    have h0 : 0 ≤ c 0 := le_trans zero_le_one (hc.1 0)
    funext j
    fin_cases j
    · norm_num
    · have := Real.sq_sqrt h0
      simp
      linarith
  dflow := by
    intro c hc i hi
    exact ((ContinuousLinearMap.fst ℝ (Fin 1 → ℝ) (Fin 1 → ℝ)).comp (ContinuousLinearMap.snd ℝ (Fin 1 → ℝ) ((Fin 1 → ℝ) × (Fin 1 → ℝ))) +
      (1 / 2 : ℝ) • (ContinuousLinearMap.snd ℝ (Fin 1 → ℝ) (Fin 1 → ℝ)).comp
        (ContinuousLinearMap.snd ℝ (Fin 1 → ℝ) ((Fin 1 → ℝ) × (Fin 1 → ℝ)))).hasStrictFDerivAt
  dbc := by
    intro c hc
    refine hasStrictFDerivAt_pi'.2 fun j => ?_
    fin_cases j
    · exact ((ContinuousLinearMap.proj (R := ℝ) (φ := fun _ : Fin 1 => ℝ) 0).comp ((ContinuousLinearMap.fst ℝ (Fin 1 → ℝ)
        ((Fin 1 → ℝ) × (Fin 1 → ℝ) × (Fin 0 → ℝ))).comp (ContinuousLinearMap.snd ℝ (Fin 1 → ℝ)
          ((Fin 1 → ℝ) × (Fin 1 → ℝ) × (Fin 1 → ℝ) × (Fin 0 → ℝ))))).hasStrictFDerivAt.sub_const 1
    · have h1 := ((ContinuousLinearMap.proj (R := ℝ) (φ := fun _ : Fin 1 => ℝ) 0).comp ((ContinuousLinearMap.fst ℝ (Fin 1 → ℝ)
        ((Fin 1 → ℝ) × (Fin 0 → ℝ))).comp ((ContinuousLinearMap.snd ℝ (Fin 1 → ℝ) ((Fin 1 → ℝ) × (Fin 1 → ℝ) × (Fin 0 → ℝ))).comp
          (ContinuousLinearMap.snd ℝ (Fin 1 → ℝ) ((Fin 1 → ℝ) × (Fin 1 → ℝ) × (Fin 1 → ℝ) × (Fin 0 → ℝ)))))).hasStrictFDerivAt
        (x := ((c, fun _ => 1 + (Real.sqrt (c 0) - 1) * (((0 : ℕ) : ℝ) / 2), fun _ => 1 + (Real.sqrt (c 0) - 1) * (((2 : ℕ) : ℝ) / 2),
          fun _ => Real.sqrt (c 0) - 1, Fin.elim0) : (Fin 1 → ℝ) × (Fin 1 → ℝ) × (Fin 1 → ℝ) × (Fin 1 → ℝ) × (Fin 0 → ℝ)))
      have h2 := (h1.pow 2).sub ((ContinuousLinearMap.proj (R := ℝ) (φ := fun _ : Fin 1 => ℝ) 0).comp (ContinuousLinearMap.fst ℝ
        (Fin 1 → ℝ) ((Fin 1 → ℝ) × (Fin 1 → ℝ) × (Fin 1 → ℝ) × (Fin 0 → ℝ)))).hasStrictFDerivAt
      refine h2.congr_fderiv ?_
      ext z <;> simp
  nondeg := by
    intro c hc w dp dpn h1 h2
    have h0 : 0 < Real.sqrt (c 0) := Real.sqrt_pos.2 (lt_of_lt_of_le one_pos (hc.1 0))
    have a0 := congrFun h2 0
    have a1 := congrFun h2 1
    have b0 := congrFun (h1 0 (by norm_num)) 0
    have b1 := congrFun (h1 1 (by norm_num)) 0
    simp [h0.ne'] at a0 a1 b0 b1
    have hd : dp 0 = 0 := by linarith
    refine ⟨?_, ?_, ?_⟩
    · intro i hi
      funext j
      fin_cases j
      match i, hi with
      | 0, _ => exact a0
      | 1, _ => simp; linarith
    · funext j
      fin_cases j
      exact hd
    · exact Subsingleton.elim _ _
  cy := fun i hi => by fun_prop
  cp := by fun_prop
  cpn := continuousOn_const

/-- With enough cases, the steps of bisection from `c = 1` to `c = 4` are small. -/
theorem exPlan (L : LogOps ℝ) {δ : ℝ} (hδ : 0 < δ) {N : Nat} (hN : 3 / δ ≤ N) :
    Cont.FinePlan L ["c"] (fun c => c.length = 1 ∧ vec 1 c ∈ Set.Icc (fun _ => (1 : ℝ)) (fun _ => 4)) δ (3 * (N + 2)) [1]
      [((Cont.Strat.newBisection (N + 2) 1 2).const "c" 4 : Cont.Strat ℝ (Curve ℝ × List ℝ × List ℝ))] [4] := by
  have hv : (((Cont.Strat.newBisection (N + 2) 1 2).const "c" 4 : Cont.Strat ℝ (Curve ℝ × List ℝ × List ℝ))).vars.map Prod.fst = ["c"] := rfl
  refine .cons (goal := [4]) (Or.inr ⟨rfl, le_rfl⟩) rfl (show 2 ≤ N + 2 by omega) (by rw [hv]; simp) (by rw [hv]; simp) ?_ ?_ ?_ ?_ (.nil _)
  · refine ⟨rfl, fun j nm v hj hv => ?_⟩
    match j with
    | 0 => cases hj; cases hv; rfl
    | j + 1 => simp at hv
  · show Cont.dist1 [(1 : ℝ)] [4] ≤ δ * ((N + 2 - 1 : Nat) : ℝ)
    rw [show N + 2 - 1 = N + 1 by omega]
    rw [div_le_iff₀ hδ] at hN
    simp only [Cont.dist1]
    norm_num
    linarith
  · rintro τ c' h0 h1 ⟨hl, hc⟩
    have h2 := hc 0 "c" 1 rfl rfl
    obtain ⟨x, rfl⟩ : ∃ x, c' = [x] := List.length_eq_one_iff.1 (by simpa using hl)
    change some x = some (1 + τ * (4 - 1)) at h2
    rw [Option.some.injEq] at h2
    refine ⟨rfl, fun j => ?_, fun j => ?_⟩ <;> fin_cases j <;> simp [vec] <;> linarith
  · show (N + 2 - 1) * (2 + 1) ≤ 3 * (N + 2)
    omega

/-- With enough cases, bisection from `c = 1` to `c = 4` goes through, from guesses near `x = 1`, with the Euclidean norm. -/
example (L : LogOps ℝ) : ∃ r > 0, ∃ C > 0, ∃ N : Nat, ∀ (h : ℝ → ℝ), (∀ a, h a ≠ 0 ∧ |h a| < r) → ∀ (o : Opts ℝ) (k fuel : Nat),
    C * (1 / 10) ^ (k + 1) ≤ o.tol → C * o.tol ≤ r → k ≤ o.maxIter → C ≤ o.maxErr → k + 1 ≤ fuel →
    ∀ g : Cont.Traj ℝ (Curve ℝ × List ℝ × List ℝ), g.const = [1] →
    GuessNear (nO := 1) (nP := 1) (nN := 0) 0 1 2 (fun _ _ => 1) (fun _ => 0) Fin.elim0 r g.data.1 g.data.2.1 g.data.2.2 →
    ∃ l sol, Cont.runContinuationSet L (shootCase exRoot
        ⟨fun _ _ _ _ => .error .typeError, fun _ _ _ => .error .typeError, fun _ _ => .error .typeError⟩
        (fun v => Real.sqrt (v.map (· ^ 2)).sum) exLinR h o "Armijo" fuel 2) ["c"] (6 * N + 1)
        (some [(Cont.Strat.newBisection N 1 2).const "c" 4]) g = .returned [l ++ [sol]] ∧
      (l ++ [sol]).length = N ∧ (∀ s ∈ l ++ [sol], s.converged = true) ∧ sol.const = [4] ∧ ∀ j : Fin 1, |sol.data.2.1.getD j 0 - 1| < C * o.tol := by
  obtain ⟨r, hr, C, hC, δ, hδ, hmain⟩ := C91_shooting_partial exRoot_regular isCompact_Icc eulerR_sound eulerR_complete rfl rfl
    ⟨fun _ _ _ _ => .error .typeError, fun _ _ _ => .error .typeError, fun _ _ => .error .typeError⟩ euclid_sound
    (fun _ => Real.sqrt_nonneg _) euclid_le_sum exLinR_sound (alg := "Armijo") (by decide +kernel) (by norm_num) (θ := 1 / 10) (by norm_num) (by norm_num)
  obtain ⟨N, hN⟩ := exists_nat_ge (3 / δ)
  refine ⟨r, hr, C, hC, N + 2, fun h hh o k fuel h1 h2 h3 h4 h5 g hg hnear => ?_⟩
  obtain ⟨c0, conv, d⟩ := g
  dsimp only at hg hnear
  subst hg
  have hplan := exPlan L hδ hN
  obtain ⟨sols, e1, e2, e3, e4⟩ := hmain h hh o k fuel h1 h2 h3 h4 h5 L ["c"] (by simp) (3 * (N + 2)) (6 * (N + 2) + 1) _ ⟨[1], conv, d⟩ [4] hplan rfl
    (by omega) (by
      simpa [vec] using hnear)
  obtain ⟨pre, l, sol, rfl, e5⟩ := e4 (by simp)
  have hpre : pre = [] := by
    have := congrArg List.length e2
    simpa using this
  subst hpre
  refine ⟨l, sol, e1, ?_, fun s hs => (e3 _ (by simp) s hs).1, e5, fun j => ?_⟩
  · have := List.head_eq_of_cons_eq e2
    exact this
  · obtain ⟨_, res, _, _, hd, _, hF⟩ := (e3 (l ++ [sol]) (by simp) sol (by simp)).2
    have := hF.p j
    rw [e5] at this
    have h4 : Real.sqrt 4 = 2 := by rw [show (4 : ℝ) = 2 ^ 2 by norm_num]; exact Real.sqrt_sq (by norm_num)
    simp only [vec] at this
    norm_num [h4] at this
    rw [hd]
    simpa using this

end Beluga.Shoot
