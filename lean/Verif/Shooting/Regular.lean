import Verif.Shooting.Local
import Mathlib.Analysis.Calculus.FDeriv.Prod
import Mathlib.Analysis.Calculus.FDeriv.Pi
import Mathlib.Analysis.Calculus.FDeriv.Pow

/-!
# The shooting solver converges near a regular solution (C90)
-/

namespace Beluga.Shoot

open Beluga.Traj (Arr Curve mix getD_eq)
open scoped Topology

/-! ### What is expected -/

/-- The node `i` of `n` equal intervals between `a` and `b`. -/
noncomputable def node (a b : ℝ) (n i : Nat) : ℝ := a + (i : ℝ) * ((b - a) / (n : ℝ))

/-- A regular solution of the boundary value problem: the states `y i` at the nodes and the parameters `p`, `pn`.  Near them, the states at
the ends of the arcs are given by `Φ i` and the boundary conditions by `Ψ`, which are continuously differentiable (strictly
differentiable at the solution); and the linearised boundary value problem has no solution but zero. -/
structure Regular (E : Env ℝ) (a b : ℝ) (n : Nat) {nO nP nN : Nat} (y : Nat → Fin nO → ℝ) (p : Fin nP → ℝ) (pn : Fin nN → ℝ)
    (Φ : Nat → (Fin nO → ℝ) × (Fin nP → ℝ) → Fin nO → ℝ)
    (Ψ : (Fin nO → ℝ) × (Fin nO → ℝ) × (Fin nP → ℝ) × (Fin nN → ℝ) → Fin (nO + nP + nN) → ℝ)
    (DΦ : Nat → ((Fin nO → ℝ) × (Fin nP → ℝ)) →L[ℝ] Fin nO → ℝ)
    (DΨ : ((Fin nO → ℝ) × (Fin nO → ℝ) × (Fin nP → ℝ) × (Fin nN → ℝ)) →L[ℝ] Fin (nO + nP + nN) → ℝ) : Prop where
  flow : ∀ i < n, ∀ᶠ z in 𝓝 (y i, p), endOf E.ivp (fun x => E.eom (x ++ [E.const])) (node a b n i) (node a b n (i + 1))
    [List.ofFn z.1, List.ofFn z.2] = .ok (List.ofFn (Φ i z))
  bc : ∀ᶠ z in 𝓝 (y 0, y n, p, pn), E.bc [List.ofFn z.1, List.ofFn z.2.1, List.ofFn z.2.2.1, List.ofFn z.2.2.2, E.const] =
    .ok (List.ofFn (Ψ z))
  arcs : ∀ i < n, Φ i (y i, p) = y (i + 1)
  ends : Ψ (y 0, y n, p, pn) = 0
  dflow : ∀ i < n, HasStrictFDerivAt (Φ i) (DΦ i) (y i, p)
  dbc : HasStrictFDerivAt Ψ DΨ (y 0, y n, p, pn)
  nondeg : ∀ (w : Nat → Fin nO → ℝ) (dp : Fin nP → ℝ) (dpn : Fin nN → ℝ), (∀ i < n, w (i + 1) = DΦ i (w i, dp)) →
    DΨ (w 0, w n, dp, dpn) = 0 → (∀ i < n, w i = 0) ∧ dp = 0 ∧ dpn = 0

/-- The guess is within `r` of the solution at the nodes where arcs start. -/
structure GuessNear (a b : ℝ) (n : Nat) {nO nP nN : Nat} (y : Nat → Fin nO → ℝ) (p : Fin nP → ℝ) (pn : Fin nN → ℝ) (r : ℝ)
    (sol : Curve ℝ) (p0 pn0 : List ℝ) : Prop where
  shape : Guess nO 0 sol
  first : sol.t.getD 0 0 = a
  last : lastT sol.t = b
  lp : p0.length = nP
  lpn : pn0.length = nN
  y : ∀ i < n, ∃ s, Traj.call sol (node a b n i) = .ok s ∧ ∀ j : Fin nO, |s.1.getD j 0 - y i j| < r
  p : ∀ j : Fin nP, |p0.getD j 0 - p j| < r
  pn : ∀ j : Fin nN, |pn0.getD j 0 - pn j| < r

/-- The arcs of the result start within `ε` of the solution, those before the last one end within `ε` of it, and so are the
parameters. -/
structure CloseTo (E : Env ℝ) (sol : Curve ℝ) (n : Nat) {nO nP nN : Nat} (y : Nat → Fin nO → ℝ) (p : Fin nP → ℝ) (pn : Fin nN → ℝ) (ε : ℝ)
    (res : Result ℝ) : Prop where
  y : ∃ arcs, MadeOf E sol n arcs res ∧ (∀ i < n, ∀ g, arcs[i]? = some g → (row g.y 0).length = nO ∧
      ∀ j : Fin nO, |(row g.y 0).getD j 0 - y i j| ≤ ε) ∧
    ∀ i, i + 1 < n → ∀ g, arcs[i]? = some g → ∀ j : Fin nO, |(final g.y).getD j 0 - y (i + 1) j| ≤ ε
  lp : res.p.length = nP
  lpn : res.pn.length = nN
  q : res.q = []
  p : ∀ j : Fin nP, |res.p.getD j 0 - p j| ≤ ε
  pn : ∀ j : Fin nN, |res.pn.getD j 0 - pn j| ≤ ε

/-! ### The unknowns as one vector -/

/-- The coordinate `k`, zero where there is none. -/
def coord (m k : Nat) : (Fin m → ℝ) →L[ℝ] ℝ := if h : k < m then ContinuousLinearMap.proj ⟨k, h⟩ else 0

theorem coord_fin {m : Nat} (j : Fin m) (f : Fin m → ℝ) : coord m j f = f j := by
  rw [coord, dif_pos j.2]; rfl

theorem coord_lt {m k : Nat} (h : k < m) (f : Fin m → ℝ) : coord m k f = f ⟨k, h⟩ := by
  rw [coord, dif_pos h]; rfl

theorem coord_vec {m k : Nat} {x : List ℝ} (h : x.length = m) : coord m k (vec m x) = x.getD k 0 := by
  by_cases hk : k < m
  · rw [coord_lt hk]; rfl
  · rw [coord, dif_neg hk, List.getD_eq_getElem?_getD, List.getElem?_eq_none (by omega)]; rfl

theorem coord_ofFn {m k : Nat} (f : Fin m → ℝ) : coord m k f = (List.ofFn f).getD k 0 := by
  conv_lhs => rw [← vec_ofFn f]
  exact coord_vec (by simp)

section blocks
variable (n nO nP nN : Nat)

/-- The start of the arc `i`. -/
def blockY (i : Nat) : (Fin (nO * n + nP + nN) → ℝ) →L[ℝ] Fin nO → ℝ :=
  ContinuousLinearMap.pi fun j => coord (nO * n + nP + nN) (i * nO + j)

@[inherit_doc paramOf] def blockP : (Fin (nO * n + nP + nN) → ℝ) →L[ℝ] Fin nP → ℝ :=
  ContinuousLinearMap.pi fun j => coord (nO * n + nP + nN) (nO * n + j)

@[inherit_doc paramNdOf] def blockN : (Fin (nO * n + nP + nN) → ℝ) →L[ℝ] Fin nN → ℝ :=
  ContinuousLinearMap.pi fun j => coord (nO * n + nP + nN) (nO * n + nP + j)

variable {n nO nP nN}

theorem blockY_apply (i : Nat) (X : Fin (nO * n + nP + nN) → ℝ) (j : Fin nO) :
    blockY n nO nP nN i X j = coord (nO * n + nP + nN) (i * nO + j) X := rfl

theorem blockP_apply (X : Fin (nO * n + nP + nN) → ℝ) (j : Fin nP) :
    blockP n nO nP nN X j = coord (nO * n + nP + nN) (nO * n + j) X := rfl

theorem blockN_apply (X : Fin (nO * n + nP + nN) → ℝ) (j : Fin nN) :
    blockN n nO nP nN X j = coord (nO * n + nP + nN) (nO * n + nP + j) X := rfl

theorem getD_drop (x : List ℝ) (a k : Nat) : (x.drop a).getD k 0 = x.getD (a + k) 0 := by
  rw [List.getD_eq_getElem?_getD, List.getD_eq_getElem?_getD, List.getElem?_drop]

theorem getD_take {x : List ℝ} {a k : Nat} (h : k < a) : (x.take a).getD k 0 = x.getD k 0 := by
  rw [List.getD_eq_getElem?_getD, List.getD_eq_getElem?_getD, List.getElem?_take_of_lt h]

theorem blockY_vec {x : List ℝ} (h : x.length = nO * n + nP + nN) (i : Nat) : blockY n nO nP nN i (vec _ x) = vec nO (startOf nO i x) := by
  funext j
  rw [blockY_apply, coord_vec h, vec, startOf, getD_take j.2, getD_drop]

theorem blockP_vec {x : List ℝ} (h : x.length = nO * n + nP + nN) : blockP n nO nP nN (vec _ x) = vec nP (paramOf nO n nP x) := by
  funext j
  rw [blockP_apply, coord_vec h, vec, paramOf, getD_take j.2, getD_drop]

theorem blockN_vec {x : List ℝ} (h : x.length = nO * n + nP + nN) : blockN n nO nP nN (vec _ x) = vec nN (paramNdOf nO n nP x) := by
  funext j
  rw [blockN_apply, coord_vec h, vec, paramNdOf, getD_drop]

theorem div_mul_lt {k m nO : Nat} (h : k < nO * m) : k / nO < m ∧ k % nO < nO ∧ k / nO * nO + k % nO = k := by
  have h0 : 0 < nO := Nat.pos_of_ne_zero fun e => by subst e; simp at h
  exact ⟨Nat.div_lt_of_lt_mul h, Nat.mod_lt _ h0, Nat.div_add_mod' k nO⟩

/-- Bounds on the blocks are bounds on the vector. -/
theorem blocks_all {Q : ℝ → Prop} {X : Fin (nO * n + nP + nN) → ℝ} (h1 : ∀ i < n, ∀ j, Q (blockY n nO nP nN i X j))
    (h2 : ∀ j, Q (blockP n nO nP nN X j)) (h3 : ∀ j, Q (blockN n nO nP nN X j)) (k : Fin (nO * n + nP + nN)) : Q (X k) := by
  by_cases hk : (k : Nat) < nO * n
  · obtain ⟨a, b, c⟩ := div_mul_lt hk
    have := h1 _ a ⟨_, b⟩
    rw [blockY_apply] at this
    rwa [c, coord_fin] at this
  by_cases hk' : (k : Nat) < nO * n + nP
  · have := h2 ⟨k - nO * n, by omega⟩
    rw [blockP_apply] at this
    rwa [show nO * n + (k - nO * n) = (k : Nat) by omega, coord_fin] at this
  · have := h3 ⟨k - (nO * n + nP), by omega⟩
    rw [blockN_apply] at this
    rwa [show nO * n + nP + (k - (nO * n + nP)) = (k : Nat) by omega, coord_fin] at this

/-- The vector with the blocks `y i`, `p` and `pn`. -/
theorem exists_blocks (y : Nat → Fin nO → ℝ) (p : Fin nP → ℝ) (pn : Fin nN → ℝ) : ∃ X : Fin (nO * n + nP + nN) → ℝ,
    (∀ i < n, blockY n nO nP nN i X = y i) ∧ blockP n nO nP nN X = p ∧ blockN n nO nP nN X = pn := by
  refine ⟨fun k => if (k : Nat) < nO * n then coord nO (k % nO) (y (k / nO)) else if (k : Nat) < nO * n + nP then coord nP (k - nO * n) p
    else coord nN (k - (nO * n + nP)) pn, ?_, ?_, ?_⟩
  · intro i hi
    funext j
    have h1 : i * nO + j < nO * n := by
      have : (i + 1) * nO ≤ nO * n := by rw [Nat.mul_comm nO]; exact Nat.mul_le_mul_right _ (by omega)
      rw [Nat.succ_mul] at this
      omega
    rw [blockY_apply, coord_lt (by omega)]
    dsimp only
    have h0 : 0 < nO := j.pos
    rw [if_pos h1, show (i * nO + (j : Nat)) % nO = j by rw [Nat.mul_comm, Nat.mul_add_mod, Nat.mod_eq_of_lt j.2],
      show (i * nO + (j : Nat)) / nO = i by rw [Nat.mul_comm, Nat.mul_add_div h0, Nat.div_eq_of_lt j.2, Nat.add_zero], coord_fin]
  · funext j
    rw [blockP_apply, coord_lt (by omega)]
    dsimp only
    rw [if_neg (by omega), if_pos (by omega), show nO * n + (j : Nat) - nO * n = j by omega, coord_fin]
  · funext j
    rw [blockN_apply, coord_lt (by omega)]
    dsimp only
    rw [if_neg (by omega), if_neg (by omega), show nO * n + nP + (j : Nat) - (nO * n + nP) = j by omega, coord_fin]

end blocks

/-! ### The residual as one function -/

section flat
variable {n nO nP nN : Nat} (Φ : Nat → (Fin nO → ℝ) × (Fin nP → ℝ) → Fin nO → ℝ)
  (Ψ : (Fin nO → ℝ) × (Fin nO → ℝ) × (Fin nP → ℝ) × (Fin nN → ℝ) → Fin (nO + nP + nN) → ℝ)
  (DΦ : Nat → ((Fin nO → ℝ) × (Fin nP → ℝ)) →L[ℝ] Fin nO → ℝ)
  (DΨ : ((Fin nO → ℝ) × (Fin nO → ℝ) × (Fin nP → ℝ) × (Fin nN → ℝ)) →L[ℝ] Fin (nO + nP + nN) → ℝ)

/-- Jumps and boundary conditions. -/
def flatF (n : Nat) (X : Fin (nO * n + nP + nN) → ℝ) : Fin (nO * n + nP + nN) → ℝ := fun k =>
  if (k : Nat) < nO * (n - 1) then
    coord nO (k % nO) (Φ (k / nO) (blockY n nO nP nN (k / nO) X, blockP n nO nP nN X)) - coord (nO * n + nP + nN) (nO + k) X
  else coord (nO + nP + nN) (k - nO * (n - 1)) (Ψ (blockY n nO nP nN 0 X,
    Φ (n - 1) (blockY n nO nP nN (n - 1) X, blockP n nO nP nN X), blockP n nO nP nN X, blockN n nO nP nN X))

/-- Their derivative. -/
def flatD (n : Nat) : (Fin (nO * n + nP + nN) → ℝ) →L[ℝ] Fin (nO * n + nP + nN) → ℝ := ContinuousLinearMap.pi fun k =>
  if (k : Nat) < nO * (n - 1) then
    (coord nO (k % nO)).comp ((DΦ (k / nO)).comp ((blockY n nO nP nN (k / nO)).prod (blockP n nO nP nN))) - coord (nO * n + nP + nN) (nO + k)
  else (coord (nO + nP + nN) (k - nO * (n - 1))).comp (DΨ.comp ((blockY n nO nP nN 0).prod
    (((DΦ (n - 1)).comp ((blockY n nO nP nN (n - 1)).prod (blockP n nO nP nN))).prod ((blockP n nO nP nN).prod (blockN n nO nP nN)))))

end flat

variable {E : Env ℝ} {a b : ℝ} {n nO nP nN : Nat} {y : Nat → Fin nO → ℝ} {p : Fin nP → ℝ} {pn : Fin nN → ℝ}
  {Φ : Nat → (Fin nO → ℝ) × (Fin nP → ℝ) → Fin nO → ℝ}
  {Ψ : (Fin nO → ℝ) × (Fin nO → ℝ) × (Fin nP → ℝ) × (Fin nN → ℝ) → Fin (nO + nP + nN) → ℝ}
  {DΦ : Nat → ((Fin nO → ℝ) × (Fin nP → ℝ)) →L[ℝ] Fin nO → ℝ}
  {DΨ : ((Fin nO → ℝ) × (Fin nO → ℝ) × (Fin nP → ℝ) × (Fin nN → ℝ)) →L[ℝ] Fin (nO + nP + nN) → ℝ}
  {X : Fin (nO * n + nP + nN) → ℝ}

theorem Regular.strict (h : Regular E a b n y p pn Φ Ψ DΦ DΨ) (hn : 0 < n) (hy : ∀ i < n, blockY n nO nP nN i X = y i)
    (hp : blockP n nO nP nN X = p) (hpn : blockN n nO nP nN X = pn) : HasStrictFDerivAt (flatF Φ Ψ n) (flatD DΦ DΨ n) X := by
  have hΦ : ∀ i < n, HasStrictFDerivAt (fun X => Φ i (blockY n nO nP nN i X, blockP n nO nP nN X))
      ((DΦ i).comp ((blockY n nO nP nN i).prod (blockP n nO nP nN))) X := by
    intro i hi
    have h1 := h.dflow i hi
    rw [← hy i hi, ← hp] at h1
    exact h1.comp X ((blockY n nO nP nN i).hasStrictFDerivAt.prodMk (blockP n nO nP nN).hasStrictFDerivAt)
  unfold flatF flatD
  refine hasStrictFDerivAt_pi.2 fun k => ?_
  by_cases hk : (k : Nat) < nO * (n - 1)
  · simp only [if_pos hk]
    obtain ⟨h1, -, -⟩ := div_mul_lt hk
    exact ((coord nO (k % nO)).hasStrictFDerivAt.comp X (hΦ _ (by omega))).sub (coord _ _).hasStrictFDerivAt
  · simp only [if_neg hk]
    have h1 := h.dbc
    have e : (blockY n nO nP nN 0 X, Φ (n - 1) (blockY n nO nP nN (n - 1) X, blockP n nO nP nN X), blockP n nO nP nN X, blockN n nO nP nN X) =
        (y 0, y n, p, pn) := by
      rw [hy 0 hn, hy (n - 1) (by omega), hp, hpn, h.arcs (n - 1) (by omega), show n - 1 + 1 = n by omega]
    rw [← e] at h1
    exact (coord _ _).hasStrictFDerivAt.comp X (h1.comp X ((blockY n nO nP nN 0).hasStrictFDerivAt.prodMk
      ((hΦ (n - 1) (by omega)).prodMk ((blockP n nO nP nN).hasStrictFDerivAt.prodMk (blockN n nO nP nN).hasStrictFDerivAt))))

theorem Regular.zero (h : Regular E a b n y p pn Φ Ψ DΦ DΨ) (hn : 0 < n) (hy : ∀ i < n, blockY n nO nP nN i X = y i)
    (hp : blockP n nO nP nN X = p) (hpn : blockN n nO nP nN X = pn) : flatF Φ Ψ n X = 0 := by
  funext k
  rw [flatF]
  by_cases hk : (k : Nat) < nO * (n - 1)
  · rw [if_pos hk]
    obtain ⟨h1, h2, h3⟩ := div_mul_lt hk
    rw [hy _ (by omega), hp, h.arcs _ (by omega), ← hy _ (by omega), coord_lt h2, blockY_apply]
    dsimp only
    rw [Nat.succ_mul, show (k : Nat) / nO * nO + nO + k % nO = nO + k by omega]
    simp
  · rw [if_neg hk, hy 0 hn, hy (n - 1) (by omega), hp, hpn, h.arcs (n - 1) (by omega), show n - 1 + 1 = n by omega, h.ends]
    simp

theorem Regular.injective (h : Regular E a b n y p pn Φ Ψ DΦ DΨ) (hn : 0 < n) : Function.Injective (flatD DΦ DΨ n) := by
  rw [← ContinuousLinearMap.coe_coe, ← LinearMap.ker_eq_bot, LinearMap.ker_eq_bot']
  intro d hd
  rw [ContinuousLinearMap.coe_coe] at hd
  have hrow := fun k => congrFun hd k
  have key := h.nondeg (fun i => if i < n then blockY n nO nP nN i d else DΦ (n - 1) (blockY n nO nP nN (n - 1) d, blockP n nO nP nN d))
    (blockP n nO nP nN d) (blockN n nO nP nN d) ?_ ?_
  · obtain ⟨k1, k2, k3⟩ := key
    funext k
    refine blocks_all (Q := fun a => a = 0) (fun i hi j => ?_) (fun j => by rw [k2]; rfl) (fun j => by rw [k3]; rfl) k
    have := k1 i hi
    rw [if_pos hi] at this
    rw [this]; rfl
  · intro i hi
    rw [if_pos hi]
    by_cases hi' : i + 1 < n
    · rw [if_pos hi']
      funext j
      have hle : (i + 1) * nO ≤ nO * (n - 1) := by rw [Nat.mul_comm nO]; exact Nat.mul_le_mul_right _ (by omega)
      have hle2 : nO * (n - 1) + nO = nO * n := by rw [← Nat.mul_succ]; congr 1; omega
      rw [Nat.succ_mul] at hle
      have h0 : 0 < nO := j.pos
      have hr := hrow ⟨i * nO + j, by omega⟩
      rw [flatD, ContinuousLinearMap.coe_pi'] at hr
      dsimp only at hr
      rw [if_pos (by omega), show (i * nO + (j : Nat)) % nO = j by rw [Nat.mul_comm, Nat.mul_add_mod, Nat.mod_eq_of_lt j.2],
        show (i * nO + (j : Nat)) / nO = i by rw [Nat.mul_comm, Nat.mul_add_div h0, Nat.div_eq_of_lt j.2, Nat.add_zero]] at hr
      simp only [ContinuousLinearMap.sub_apply, ContinuousLinearMap.comp_apply, ContinuousLinearMap.prod_apply, coord_fin, Pi.zero_apply] at hr
      rw [blockY_apply]
      rw [Nat.succ_mul, show i * nO + nO + (j : Nat) = nO + (i * nO + j) by omega]
      linarith
    · rw [if_neg hi', show n - 1 = i by omega]
  · rw [if_pos hn, if_neg (lt_irrefl n)]
    have hle2 : nO * (n - 1) + nO = nO * n := by rw [← Nat.mul_succ]; congr 1; omega
    funext j
    have hr := hrow ⟨nO * (n - 1) + j, by omega⟩
    rw [flatD, ContinuousLinearMap.coe_pi'] at hr
    dsimp only at hr
    rw [if_neg (by omega), show nO * (n - 1) + (j : Nat) - nO * (n - 1) = j by omega] at hr
    simpa only [ContinuousLinearMap.comp_apply, ContinuousLinearMap.prod_apply, coord_fin, Pi.zero_apply] using hr

/-- Entries of blocks of the same length. -/
theorem flatMap_getD {nO : Nat} {f : Nat → List ℝ} : ∀ {m : Nat}, (∀ i < m, (f i).length = nO) → ∀ {k : Nat}, k < nO * m →
    ((List.range m).flatMap f).getD k 0 = (f (k / nO)).getD (k % nO) 0
  | 0, _, k, hk => by simp at hk
  | m + 1, h, k, hk => by
    have hl : ((List.range m).flatMap f).length = nO * m := by
      rw [List.flatMap_def, flatten_length (n := nO)]
      · simp
      · intro l hl
        obtain ⟨i, hi, rfl⟩ := List.mem_map.1 hl
        exact h i (by have := List.mem_range.1 hi; omega)
    rw [List.range_succ, List.flatMap_append, List.getD_eq_getElem?_getD]
    by_cases hk' : k < nO * m
    · rw [List.getElem?_append_left (by omega), ← List.getD_eq_getElem?_getD]
      exact flatMap_getD (fun i hi => h i (by omega)) hk'
    · rw [List.getElem?_append_right (by omega), hl, ← List.getD_eq_getElem?_getD, List.flatMap_singleton]
      have h0 : 0 < nO := Nat.pos_of_ne_zero fun e => by subst e; simp at hk
      rw [Nat.mul_succ] at hk
      obtain ⟨j, rfl⟩ : ∃ j, k = nO * m + j := ⟨k - nO * m, by omega⟩
      have hj : j < nO := by omega
      rw [Nat.mul_add_div h0, Nat.div_eq_of_lt hj, Nat.mul_add_mod, Nat.mod_eq_of_lt hj, Nat.add_zero, Nat.add_sub_cancel_left]

/-- The residual of the program is the function above wherever flow and boundary conditions are what they are near the solution. -/
theorem residual_flat (hn : 0 < n) (hI : IvpSound E.ivp) (hC : Complete E.ivp) (hser : E.parallel = false) (hq : E.quad = none)
    {sol : Curve ℝ} {gs : List (Curve ℝ)} (hG : Guess nO 0 sol) (ha : sol.t.getD 0 0 = a) (hb : lastT sol.t = b)
    (hgs : makeArcs sol n = .ok gs) {x : List ℝ} (hx : x.length = nO * n + nP + nN)
    (d1 : ∀ i < n, endOf E.ivp (fun x => E.eom (x ++ [E.const])) (node a b n i) (node a b n (i + 1))
      [List.ofFn (blockY n nO nP nN i (vec _ x)), List.ofFn (blockP n nO nP nN (vec _ x))] =
      .ok (List.ofFn (Φ i (blockY n nO nP nN i (vec _ x), blockP n nO nP nN (vec _ x)))))
    (d2 : E.bc [List.ofFn (blockY n nO nP nN 0 (vec _ x)),
      List.ofFn (Φ (n - 1) (blockY n nO nP nN (n - 1) (vec _ x), blockP n nO nP nN (vec _ x))),
      List.ofFn (blockP n nO nP nN (vec _ x)), List.ofFn (blockN n nO nP nN (vec _ x)), E.const] =
      .ok (List.ofFn (Ψ (blockY n nO nP nN 0 (vec _ x), Φ (n - 1) (blockY n nO nP nN (n - 1) (vec _ x), blockP n nO nP nN (vec _ x)),
        blockP n nO nP nN (vec _ x), blockN n nO nP nN (vec _ x))))) :
    residual E gs ⟨nO, 0, nP, n⟩ x = .ok (List.ofFn (flatF Φ Ψ n (vec _ x))) ∧
      ∃ (ts : Nat → List ℝ) (ys : Nat → List (List ℝ)), (∀ i < n, E.ivp (fun y => E.eom [y, paramOf nO n nP x, E.const])
        [junction sol n i, junction sol n (i + 1)] (startOf nO i x) = .ok (ts i, ys i)) := by
  have hjn : ∀ i, junction sol n i = node a b n i := fun i => by rw [junction, node, ha, hb]
  have eS : ∀ i < n, List.ofFn (blockY n nO nP nN i (vec _ x)) = startOf nO i x := fun i hi => by
    rw [blockY_vec hx, ofFn_vec (startOf_length (by omega) hi)]
  have eP : List.ofFn (blockP n nO nP nN (vec _ x)) = paramOf nO n nP x := by
    rw [blockP_vec hx, ofFn_vec (by simp only [paramOf, List.length_take, List.length_drop]; omega)]
  have eN : List.ofFn (blockN n nO nP nN (vec _ x)) = paramNdOf nO n nP x := by
    rw [blockN_vec hx, ofFn_vec (by simp only [paramNdOf, List.length_drop]; omega)]
  have he : ∀ i < n, endOf E.ivp (fun x => E.eom (x ++ [E.const])) (junction sol n i) (junction sol n (i + 1))
      [startOf nO i x, paramOf nO n nP x] = .ok (List.ofFn (Φ i (blockY n nO nP nN i (vec _ x), blockP n nO nP nN (vec _ x)))) := by
    intro i hi
    rw [hjn, hjn, ← eS i hi, ← eP]
    exact d1 i hi
  constructor
  · rw [(residual_ok (nP := nP) hI hC hser hq hG hn hgs (by omega) he).2, ← eS 0 hn, ← eP, ← eN, d2]
    change Except.ok _ = _
    congr 1
    have hlen : ((List.range (n - 1)).flatMap fun i => List.zipWith (· - ·)
        (List.ofFn (Φ i (blockY n nO nP nN i (vec _ x), blockP n nO nP nN (vec _ x)))) (startOf nO (i + 1) x)).length = nO * (n - 1) := by
      rw [List.flatMap_def, flatten_length (n := nO)]
      · simp
      · intro l hl
        obtain ⟨i, hi, rfl⟩ := List.mem_map.1 hl
        have := List.mem_range.1 hi
        rw [List.length_zipWith, startOf_length (n := n) (by omega) (by omega)]
        simp
    have hle2 : nO * (n - 1) + nO = nO * n := by rw [← Nat.mul_succ]; congr 1; omega
    refine List.ext_getElem (by rw [List.length_append, hlen]; simp; omega) fun k k1 k2 => ?_
    have hkN : k < nO * n + nP + nN := by simpa using k2
    rw [List.getElem_ofFn, flatF]
    by_cases hk : k < nO * (n - 1)
    · dsimp only
      rw [if_pos hk, List.getElem_append_left (by omega), ← getD_eq (by omega), flatMap_getD (nO := nO) ?_ hk]
      · obtain ⟨g1, g2, g3⟩ := div_mul_lt hk
        rw [getD_eq (l := List.zipWith _ _ _) (by rw [List.length_zipWith, startOf_length (n := n) (by omega) (by omega)]; simpa using g2),
          List.getElem_zipWith, ← getD_eq (l := List.ofFn _) (by simpa using g2), ← coord_ofFn,
          ← getD_eq (l := startOf _ _ _) (by rw [startOf_length (n := n) (by omega) (by omega)]; exact g2), coord_vec hx, startOf, getD_take g2, getD_drop,
          Nat.succ_mul, show k / nO * nO + nO + k % nO = nO + k by omega]
      · intro i hi
        rw [List.length_zipWith, startOf_length (n := n) (by omega) (by omega)]
        simp
    · dsimp only
      rw [if_neg hk, List.getElem_append_right (by omega), ← getD_eq, coord_ofFn, hlen]
  · have hx : ∀ i, ∃ r : List ℝ × List (List ℝ), i < n → E.ivp (fun y => E.eom [y, paramOf nO n nP x, E.const])
        [junction sol n i, junction sol n (i + 1)] (startOf nO i x) = .ok r := by
      intro i
      by_cases hi : i < n
      · have := he i hi
        rw [endOf] at this
        obtain ⟨r, h1, -⟩ := Py.bind_ok.1 this
        exact ⟨r, fun _ => h1⟩
      · exact ⟨([], []), fun h' => absurd h' hi⟩
    choose r hr using hx
    exact ⟨fun i => (r i).1, fun i => (r i).2, fun i hi => hr i hi⟩

/-- Near the solution, the residual of the program is the function above. -/
theorem Regular.residual (h : Regular E a b n y p pn Φ Ψ DΦ DΨ) (hn : 0 < n) (hy : ∀ i < n, blockY n nO nP nN i X = y i)
    (hp : blockP n nO nP nN X = p) (hpn : blockN n nO nP nN X = pn) (hI : IvpSound E.ivp) (hC : Complete E.ivp) (hser : E.parallel = false)
    (hq : E.quad = none) : ∃ δ > 0, ∀ (sol : Curve ℝ) (gs : List (Curve ℝ)), Guess nO 0 sol → sol.t.getD 0 0 = a → lastT sol.t = b →
      makeArcs sol n = .ok gs → ∀ x : List ℝ, x.length = nO * n + nP + nN → ‖vec _ x - X‖ < δ →
      residual E gs ⟨nO, 0, nP, n⟩ x = .ok (List.ofFn (flatF Φ Ψ n (vec _ x))) ∧
      ∃ (ts : Nat → List ℝ) (ys : Nat → List (List ℝ)), (∀ i < n, E.ivp (fun y => E.eom [y, paramOf nO n nP x, E.const]) [junction sol n i, junction sol n (i + 1)] (startOf nO i x) =
        .ok (ts i, ys i)) := by
  have c1 : ∀ i < n, ∀ᶠ Z in 𝓝 X, endOf E.ivp (fun x => E.eom (x ++ [E.const])) (node a b n i) (node a b n (i + 1))
      [List.ofFn (blockY n nO nP nN i Z), List.ofFn (blockP n nO nP nN Z)] =
      .ok (List.ofFn (Φ i (blockY n nO nP nN i Z, blockP n nO nP nN Z))) := by
    intro i hi
    have h1 := h.flow i hi
    rw [← hy i hi, ← hp] at h1
    have hc : ContinuousAt (fun Z => (blockY n nO nP nN i Z, blockP n nO nP nN Z)) X :=
      ((blockY n nO nP nN i).continuous.prodMk (blockP n nO nP nN).continuous).continuousAt
    exact hc.eventually h1
  have c2 : ∀ᶠ Z in 𝓝 X, E.bc [List.ofFn (blockY n nO nP nN 0 Z), List.ofFn (Φ (n - 1) (blockY n nO nP nN (n - 1) Z, blockP n nO nP nN Z)),
      List.ofFn (blockP n nO nP nN Z), List.ofFn (blockN n nO nP nN Z), E.const] =
      .ok (List.ofFn (Ψ (blockY n nO nP nN 0 Z, Φ (n - 1) (blockY n nO nP nN (n - 1) Z, blockP n nO nP nN Z), blockP n nO nP nN Z,
        blockN n nO nP nN Z))) := by
    have h1 := h.bc
    have e : (y 0, y n, p, pn) = (blockY n nO nP nN 0 X, Φ (n - 1) (blockY n nO nP nN (n - 1) X, blockP n nO nP nN X), blockP n nO nP nN X,
        blockN n nO nP nN X) := by
      rw [hy 0 hn, hy (n - 1) (by omega), hp, hpn, h.arcs (n - 1) (by omega), show n - 1 + 1 = n by omega]
    rw [e] at h1
    have hc0 : ContinuousAt (fun Z => (blockY n nO nP nN (n - 1) Z, blockP n nO nP nN Z)) X :=
      ((blockY n nO nP nN (n - 1)).continuous.prodMk (blockP n nO nP nN).continuous).continuousAt
    have hd := (h.dflow (n - 1) (by omega)).continuousAt
    rw [← hy (n - 1) (by omega), ← hp] at hd
    have hc1 : ContinuousAt (fun Z => Φ (n - 1) (blockY n nO nP nN (n - 1) Z, blockP n nO nP nN Z)) X :=
      ContinuousAt.comp (f := fun Z => (blockY n nO nP nN (n - 1) Z, blockP n nO nP nN Z)) hd hc0
    have hc : ContinuousAt (fun Z => (blockY n nO nP nN 0 Z, Φ (n - 1) (blockY n nO nP nN (n - 1) Z, blockP n nO nP nN Z),
        blockP n nO nP nN Z, blockN n nO nP nN Z)) X :=
      (blockY n nO nP nN 0).continuous.continuousAt.prodMk (hc1.prodMk
        ((blockP n nO nP nN).continuous.continuousAt.prodMk (blockN n nO nP nN).continuous.continuousAt))
    exact hc.eventually h1
  have c3 : ∀ᶠ Z in 𝓝 X, ∀ i ∈ Finset.range n, endOf E.ivp (fun x => E.eom (x ++ [E.const])) (node a b n i) (node a b n (i + 1))
      [List.ofFn (blockY n nO nP nN i Z), List.ofFn (blockP n nO nP nN Z)] =
      .ok (List.ofFn (Φ i (blockY n nO nP nN i Z, blockP n nO nP nN Z))) :=
    (Finset.range n).eventually_all.2 fun i hi => c1 i (Finset.mem_range.1 hi)
  obtain ⟨δ, hδ, hball⟩ := Metric.eventually_nhds_iff.1 (c3.and c2)
  refine ⟨δ, hδ, fun sol gs hG ha hb hgs x hx hxd => ?_⟩
  obtain ⟨d1, d2⟩ := hball (show dist (vec _ x) X < δ by rw [dist_eq_norm]; exact hxd)
  exact residual_flat hn hI hC hser hq hG ha hb hgs hx (fun i hi => d1 i (Finset.mem_range.2 hi)) d2

/-- The arcs fit together as far as the residual is small. -/
theorem jumps_le (hn : 0 < n) (hI : IvpSound E.ivp) (hC : Complete E.ivp) (hser : E.parallel = false) {sol : Curve ℝ}
    (hG : Guess nO 0 sol) {gs : List (Curve ℝ)} (hgs : makeArcs sol n = .ok gs) {x v : List ℝ} {tol : ℝ}
    {out : List (Curve ℝ) × List ℝ × List ℝ} (hs : shoot E gs ⟨nO, effective E.quad 0, nP, n⟩ x = .ok out)
    (hr : residual E gs ⟨nO, effective E.quad 0, nP, n⟩ x = .ok v) (hv : ∀ a ∈ v, |a| ≤ tol) {i : Nat} {g g' : Curve ℝ}
    (hi : out.1[i]? = some g) (hi' : out.1[i + 1]? = some g') (j : Fin nO) :
    |(final g.y).getD j 0 - (row g'.y 0).getD j 0| ≤ tol := by
  obtain ⟨arcs, p, pn⟩ := out
  dsimp only at hi hi'
  rw [residual, hs, Py.ok_bind] at hr
  dsimp only at hr
  obtain ⟨h1, -, -⟩ := shoot_spec hI hser hG hn (makeArcs_arcs hG hn hgs) hs
  have hf := h1.flight hI hC hG hn
  obtain ⟨g0, hg0, -⟩ := hf.arc 0 hn
  obtain ⟨l, hl, -⟩ := hf.arc (n - 1) (by omega)
  obtain ⟨b, rfl, -⟩ := bcMs_ok hf hn hg0 hl hr
  have hin : i + 1 < n := by rw [← hf.length]; exact (List.getElem?_eq_some_iff.1 hi').1
  obtain ⟨a, ha, fa⟩ := hf.arc i (by omega)
  obtain ⟨a', ha', fa'⟩ := hf.arc (i + 1) hin
  rw [hi, Option.some.injEq] at ha
  rw [hi', Option.some.injEq] at ha'
  subst ha ha'
  have two := fa.two
  have two' := fa'.two
  have hla : (final g.y).length = nO := by
    rw [← lastRow_final, fa.y, lastRow, getD_eq (by rw [fa.ylen]; omega)]
    exact fa.ywidth _ (List.getElem_mem _)
  have hlb : (row g'.y 0).length = nO := by
    rw [fa'.y, row, getD_eq (by rw [fa'.ylen]; omega)]
    exact fa'.ywidth _ (List.getElem_mem _)
  have hm := jumps_mem hi hi'
  rw [lastRow_final] at hm
  rw [getD_eq (by rw [hla]; exact j.2), getD_eq (by rw [hlb]; exact j.2)]
  have hz : (j : Nat) < (List.zipWith (· - ·) (final g.y) (row g'.y 0)).length := by rw [List.length_zipWith, hla, hlb, min_self]; exact j.2
  have e : (final g.y)[(j : Nat)]'(by rw [hla]; exact j.2) - (row g'.y 0)[(j : Nat)]'(by rw [hlb]; exact j.2) =
      (List.zipWith (· - ·) (final g.y) (row g'.y 0))[(j : Nat)]'hz := by simp
  rw [e]
  exact hv _ (List.mem_append_left _ (List.mem_flatten.2 ⟨_, hm, List.getElem_mem hz⟩))

/-! ### Convergence -/

theorem Nearly.mono {N : Nat} {φ : (Fin N → ℝ) → Fin N → ℝ} {xs : Fin N → ℝ} {A : (Fin N → ℝ) →L[ℝ] Fin N → ℝ} {β κ ρ ρ' : ℝ}
    (h : Nearly φ xs A β κ ρ) (hρ : ρ' ≤ ρ) : Nearly φ xs A β κ ρ' :=
  ⟨h.beta, h.kappa, h.inv, fun x hx y hy => h.approx x (Metric.ball_subset_ball hρ hx) y (Metric.ball_subset_ball hρ hy), h.zero⟩

theorem sum_abs_le {N : Nat} (f : Fin N → ℝ) : ((List.ofFn f).map fun a => |a|).sum ≤ N * ‖f‖ := by
  rw [List.map_ofFn, List.sum_ofFn]
  calc ∑ i, ((fun a => |a|) ∘ f) i ≤ ∑ _i : Fin N, ‖f‖ := Finset.sum_le_sum fun i _ => norm_le_pi_norm f i
    _ = N * ‖f‖ := by simp

theorem norm_le_of_sound {N : Nat} {norm : List ℝ → ℝ} (hN : NormSound norm) (h0 : 0 ≤ norm []) (f : Fin N → ℝ) : ‖f‖ ≤ norm (List.ofFn f) := by
  have hnn : 0 ≤ norm (List.ofFn f) := by
    cases N with
    | zero => simpa using h0
    | succ N => exact (abs_nonneg (f 0)).trans (hN _ _ (List.mem_ofFn.2 ⟨0, rfl⟩))
  exact (pi_norm_le_iff_of_nonneg hnn).2 fun i => hN _ _ (List.mem_ofFn.2 ⟨i, rfl⟩)

/-- What the shooting solver does with a guess in a ball around a zero of the residual. -/
theorem solve_near {E : Env ℝ} (hI : IvpSound E.ivp) (hC : Complete E.ivp) (hser : E.parallel = false) (hq : E.quad = none) (S : Scipy ℝ)
    {norm : List ℝ → ℝ} (hN : NormSound norm) (hN0 : ∀ v, 0 ≤ norm v) (hN1 : ∀ v : List ℝ, norm v ≤ (v.map fun a => |a|).sum)
    {lin : List (List ℝ) → List ℝ → Py (List ℝ)} (hlin : LinSound lin) {alg : String} (halg : alg.toLower = "armijo") {n nO nP nN : Nat}
    (hn : 0 < n) {a b : ℝ} {y : Nat → Fin nO → ℝ} {p : Fin nP → ℝ} {pn : Fin nN → ℝ} {X : Fin (nO * n + nP + nN) → ℝ}
    (hy : ∀ i < n, blockY n nO nP nN i X = y i) (hp : blockP n nO nP nN X = p) (hpn : blockN n nO nP nN X = pn)
    {φ : (Fin (nO * n + nP + nN) → ℝ) → Fin (nO * n + nP + nN) → ℝ}
    {A : (Fin (nO * n + nP + nN) → ℝ) →L[ℝ] Fin (nO * n + nP + nN) → ℝ} {β κ ρ θ : ℝ} (hnear : Nearly φ X A β κ ρ) (hθ0 : 0 ≤ θ)
    (hθ : θ ≤ 1 / 2) (hs : β * (κ * ((nO * n + nP + nN : Nat) + 1)) ≤ 1 / 4)
    (hs' : (nO * n + nP + nN : Nat) * (2 * (β * (κ * ((nO * n + nP + nN : Nat) + 1)))) ≤ θ)
    {sol : Curve ℝ} {p0 pn0 : List ℝ} (hg : GuessNear a b n y p pn (ρ / 2) sol p0 pn0)
    (hres : ∀ gs, makeArcs sol n = .ok gs → ∀ x : List ℝ, x.length = nO * n + nP + nN → ‖vec _ x - X‖ < ρ →
      residual E gs ⟨nO, 0, nP, n⟩ x = .ok (List.ofFn (φ (vec _ x))) ∧
      ∃ (ts : Nat → List ℝ) (ys : Nat → List (List ℝ)), ∀ i < n, E.ivp (fun y => E.eom [y, paramOf nO n nP x, E.const])
        [junction sol n i, junction sol n (i + 1)] (startOf nO i x) = .ok (ts i, ys i))
    {h : ℝ → ℝ} (hh : ∀ a, h a ≠ 0 ∧ |h a| < ρ / 2) {o : Opts ℝ} {k fuel : Nat} (htol : 0 ≤ o.tol)
    (hk : (nO * n + nP + nN : Nat) * ((‖A‖ + κ) * ρ) * θ ^ (k + 1) ≤ o.tol) (hki : k ≤ o.maxIter)
    (hmax : (nO * n + nP + nN : Nat) * ((‖A‖ + κ) * ρ) < o.maxErr) (hfuel : k + 1 ≤ fuel) :
    ∃ res, solveFd E S norm lin h o alg fuel n sol p0 pn0 = .ok (some res) ∧ res.converged = true ∧ res.nIter ≤ k + 1 ∧
      Satisfied E sol n o.tol res ∧ CloseTo E sol n y p pn ((2 * β + 1) * o.tol) res := by
  have hG := hg.shape
  have hp0 := hg.lp
  have hpn0 := hg.lpn
  subst hp0
  subst hpn0
  obtain ⟨gs, hgs, hlen, -, -, harc⟩ := C44_split hG hn
  obtain ⟨g, rest, rfl⟩ : ∃ g rest, gs = g :: rest := by
    cases gs with
    | nil => simp at hlen; omega
    | cons g rest => exact ⟨g, rest, rfl⟩
  have hjn : ∀ i, junction sol n i = node a b n i := fun i => by rw [junction, node, hg.first, hg.last]
  have hO : ∀ a ∈ g :: rest, (row a.y 0).length = nO := by
    intro a ha
    obtain ⟨i, hi, rfl⟩ := List.getElem_of_mem ha
    obtain ⟨ya, qa, ua, yb, qb, ub, -, -, w1, -, hg, -⟩ := harc i (by rw [← hlen]; exact hi)
    rw [List.getElem?_eq_getElem hi, Option.some.injEq] at hg
    rw [hg]
    simpa [row] using w1
  have hQ : (row g.q 0).length = 0 := by
    obtain ⟨ya, qa, ua, yb, qb, ub, -, -, -, w2, hg, -⟩ := harc 0 hn
    simp only [List.getElem?_cons_zero, Option.some.injEq] at hg
    rw [hg]
    simpa [row] using w2
  have hr1 : rest.length + 1 = n := by simpa using hlen
  obtain ⟨x0, hx0, hxl, hun⟩ := C44_pack (p := p0) (pn := pn0) hO hQ
  rw [hr1] at hxl hun
  have hxl' : x0.length = nO * n + p0.length + pn0.length := by omega
  rw [unwrap, if_neg (by omega)] at hun
  simp only [Except.ok.injEq, Prod.mk.injEq] at hun
  obtain ⟨u1, -, u3, u4⟩ := hun
  rw [Nat.add_zero] at u3 u4
  have hρ : 0 < ρ / 2 := lt_of_le_of_lt (abs_nonneg _) (hh 0).2
  -- the guess is near
  have hstart : ∀ i < n, ∀ j : Fin nO, |(startOf nO i x0).getD j 0 - y i j| < ρ / 2 := by
    intro i hi j
    have e : startOf nO i x0 = row ((g :: rest)[i]'(by rw [hlen]; exact hi)).y 0 := by
      have := congrArg (fun l => l[i]?) u1
      simp only [List.getElem?_map, List.getElem?_range hi, Option.map_some] at this
      rw [List.getElem?_eq_getElem (by rw [hlen]; exact hi), Option.map_some] at this
      exact Option.some.inj this
    obtain ⟨ya, qa, ua, yb, qb, ub, w0, -, w1, -, hg', -⟩ := harc i hi
    rw [List.getElem?_eq_getElem (by rw [hlen]; exact hi), Option.some.injEq] at hg'
    obtain ⟨s, hs1, hs2⟩ := hg.y i hi
    rw [hjn] at w0
    cases w0.symm.trans hs1
    rw [e, hg']
    exact hs2 j
  have hnear0 : ‖vec (nO * n + p0.length + pn0.length) x0 - X‖ < ρ / 2 := by
    refine (pi_norm_lt_iff hρ).2 fun k => ?_
    have := blocks_all (n := n) (nO := nO) (nP := p0.length) (nN := pn0.length) (Q := fun a => |a| < ρ / 2) (X := vec _ x0 - X) ?_ ?_ ?_ k
    · rwa [Real.norm_eq_abs]
    · intro i hi j
      rw [map_sub, blockY_vec hxl', hy i hi]
      exact hstart i hi j
    · intro j
      rw [map_sub, blockP_vec hxl', hp, paramOf]
      dsimp only [Pi.sub_apply, vec]
      rw [u3]
      exact hg.p j
    · intro j
      rw [map_sub, blockN_vec hxl', hpn, paramNdOf]
      dsimp only [Pi.sub_apply, vec]
      rw [u4]
      exact hg.pn j
  -- the iteration
  let P : List ℝ → Prop := fun x => x.length = nO * n + p0.length + pn0.length ∧ ‖vec (nO * n + p0.length + pn0.length) x - X‖ < ρ / 2
  have hF : ∀ x, P x → residual E (g :: rest) ⟨nO, 0, p0.length, n⟩ x = .ok (List.ofFn (φ (vec _ x))) := fun x hx =>
    (hres _ hgs x hx.1 (by linarith [hx.2])).1
  have hβ := hnear.beta
  have hκ := hnear.kappa
  let Ar : Armijo ℝ := ⟨fun x => (residual E (g :: rest) ⟨nO, 0, p0.length, n⟩ x).map (List.map some), norm,
      newtonFd lin h (residual E (g :: rest) ⟨nO, 0, p0.length, n⟩)⟩
  have hstep : ∀ x, P x → ∃ v d w, Ar.F x = .ok (v.map some) ∧ Ar.newton x v = .ok d ∧ P (List.zipWith (· + ·) x d) ∧
      Ar.F (List.zipWith (· + ·) x d) = .ok (w.map some) ∧ Ar.norm w ≤ θ * Ar.norm v := by
    intro x hx
    obtain ⟨d, d1, d2, d3, d4⟩ := hnear.newton hs (F := residual E (g :: rest) ⟨nO, 0, p0.length, n⟩)
      (fun x hx hx' => (hres _ hgs x hx hx').1) hlin hh hx.1 hx.2
    have hP : P (List.zipWith (· + ·) x d) := ⟨by simp [hx.1, d2], lt_of_le_of_lt d3 (by linarith [hx.2, norm_nonneg (vec (nO * n + p0.length + pn0.length) x - X)])⟩
    refine ⟨_, d, _, by dsimp only [Ar]; rw [hF x hx]; rfl, d1, hP, by dsimp only [Ar]; rw [hF _ hP]; rfl, ?_⟩
    dsimp only [Ar]
    calc norm (List.ofFn (φ (vec _ (List.zipWith (· + ·) x d))))
        ≤ (nO * n + p0.length + pn0.length : Nat) * ‖φ (vec _ (List.zipWith (· + ·) x d))‖ := (hN1 _).trans (sum_abs_le _)
      _ ≤ (nO * n + p0.length + pn0.length : Nat) * (2 * (β * (κ * ((nO * n + p0.length + pn0.length : Nat) + 1))) * ‖φ (vec _ x)‖) :=
          mul_le_mul_of_nonneg_left d4 (Nat.cast_nonneg _)
      _ = (nO * n + p0.length + pn0.length : Nat) * (2 * (β * (κ * ((nO * n + p0.length + pn0.length : Nat) + 1)))) * ‖φ (vec _ x)‖ := by ring
      _ ≤ θ * ‖φ (vec _ x)‖ := mul_le_mul_of_nonneg_right hs' (norm_nonneg _)
      _ ≤ θ * norm (List.ofFn (φ (vec _ x))) := mul_le_mul_of_nonneg_left (norm_le_of_sound hN (hN0 _) _) hθ0
  have hP0 : P x0 := ⟨hxl', hnear0⟩
  have hv0 : norm (List.ofFn (φ (vec _ x0))) ≤ (nO * n + p0.length + pn0.length : Nat) * ((‖A‖ + κ) * ρ) := by
    refine (hN1 _).trans ((sum_abs_le _).trans (mul_le_mul_of_nonneg_left ?_ (Nat.cast_nonneg _)))
    have ha := hnear.approx (vec _ x0) (by rw [mem_ball_iff_norm]; linarith) X (Metric.mem_ball_self (by linarith))
    rw [hnear.zero, sub_zero] at ha
    have h1 : ‖φ (vec _ x0)‖ ≤ ‖φ (vec _ x0) - A (vec _ x0 - X)‖ + ‖A (vec _ x0 - X)‖ := by
      have e : φ (vec _ x0) = (φ (vec _ x0) - A (vec _ x0 - X)) + A (vec _ x0 - X) := by abel
      conv_lhs => rw [e]
      exact norm_add_le _ _
    have h2 := A.le_opNorm (vec _ x0 - X)
    have h3 : (‖A‖ + κ) * ‖vec _ x0 - X‖ ≤ (‖A‖ + κ) * ρ := mul_le_mul_of_nonneg_left (by linarith) (by linarith [norm_nonneg A])
    linarith
  obtain ⟨x', w, m, ev, e1, e2, e3, e4, e5⟩ := armijo_shrinks (A := Ar) (o := o) (ls := fuel) htol (by omega) hθ0 hθ hN0 hstep k fuel x0
    (List.ofFn (φ (vec _ x0))) (.val (-1)) 0 [] hP0 (by dsimp only [Ar]; rw [hF x0 hP0]; rfl)
    (le_trans (mul_le_mul_of_nonneg_right hv0 (pow_nonneg hθ0 _)) hk) (by omega) (by omega)
    (by simp only [Flt.lt, decide_eq_true_eq]; linarith [hN0 (List.ofFn (φ (vec _ x0)))]) (lt_of_le_of_lt hv0 hmax)
  obtain ⟨n1, n2⟩ := armijo_alg halg
  have hf : findRoot S norm (newtonFd lin h (Shoot.residual E (g :: rest) ⟨nO, 0, p0.length, n⟩)) o alg fuel
      (Shoot.residual E (g :: rest) ⟨nO, 0, p0.length, n⟩) x0 = .ok (some ⟨x', .num (.val (norm w)), m, true⟩) := by
    rw [findRoot, if_neg n1, if_neg n2, if_neg (by rw [halg]; decide), if_pos halg]
    dsimp only [Ar] at e1
    rw [e1, Py.ok_bind]
  have hm : ∃ msg, message o ⟨x', .num (.val (norm w)), m, true⟩ = .ok msg := by
    simp only [message, errLt, errGt, Py.ok_bind]
    split
    · split <;> exact ⟨_, rfl⟩
    · split
      · exact ⟨_, rfl⟩
      · split <;> exact ⟨_, rfl⟩
  obtain ⟨msg, hm⟩ := hm
  obtain ⟨r1, ts, ys, r2⟩ := hres _ hgs x' e2.1 (by linarith [e2.2])
  have hw : w = List.ofFn (φ (vec _ x')) := by
    have h1 : Ar.F x' = .ok ((List.ofFn (φ (vec _ x'))).map some) := by dsimp only [Ar]; rw [r1]; rfl
    exact List.map_injective_iff.2 (Option.some_injective _) (Except.ok.inj (e3.symm.trans h1))
  have hsh := shoot_ok (nP := p0.length) hser hq hG hn hgs (by rw [e2.1]; omega) r2
  have he : effective E.quad 0 = 0 := by rw [hq]; rfl
  let arcs : List (Curve ℝ) := (List.range n).map fun i => ⟨ts i, .mat nO (ys i), .vec [], .vec []⟩
  refine ⟨⟨stitch (arcs.map fun a => a.t), stitch (arcs.map fun a => rows a.y), stitch (arcs.map fun a => rows a.q),
    paramOf nO n p0.length x', paramNdOf nO n p0.length x', true, msg, m⟩, ?_, rfl, ?_, ?_, ?_⟩
  rotate_left
  · dsimp only
    have : m ≤ k + 1 := by omega
    exact_mod_cast this
  rotate_left 2
  · rw [solveFd, hG.nStates, Py.ok_bind, hG.nQuads, Py.ok_bind, he, hgs, Py.ok_bind, solve, hG.nStates, Py.ok_bind, hG.nQuads, Py.ok_bind,
      he, hgs, Py.ok_bind, hx0, Py.ok_bind, hf, Py.ok_bind]
    dsimp only
    rw [hsh, Py.ok_bind, hm, Py.ok_bind]
  · refine satisfied_of_residual (nP := p0.length) (xx := x') (v := w) hI hC hser hG hn hgs (by rw [he]; exact hsh)
      (by rw [he, hw]; exact r1) (fun a ha => (hN w a ha).trans e4) rfl rfl rfl rfl rfl
  · have hd : ‖vec (nO * n + p0.length + pn0.length) x' - X‖ ≤ 2 * β * o.tol := by
      refine (hnear.dist_le hs e2.2).trans (mul_le_mul_of_nonneg_left ?_ (by linarith))
      rw [hw] at e4
      exact (norm_le_of_sound hN (hN0 _) _).trans e4
    have hco : ∀ k, |coord (nO * n + p0.length + pn0.length) k (vec (nO * n + p0.length + pn0.length) x' - X)| ≤ 2 * β * o.tol := by
      intro k
      by_cases hk : k < nO * n + p0.length + pn0.length
      · rw [coord_lt hk]
        exact (norm_le_pi_norm _ _).trans hd
      · rw [coord, dif_neg hk]
        simpa using (norm_nonneg _).trans hd
    have hle : 2 * β * o.tol ≤ (2 * β + 1) * o.tol := mul_le_mul_of_nonneg_right (by linarith) htol
    have hstarts : ∀ i < n, ∀ j : Fin nO, |(startOf nO i x').getD j 0 - y i j| ≤ 2 * β * o.tol := by
      intro i hi j
      rw [← hy i hi]
      have := hco (i * nO + j)
      rw [← blockY_apply, map_sub, blockY_vec e2.1] at this
      exact this
    have hrow : ∀ i < n, row (.mat nO (ys i)) 0 = startOf nO i x' := fun i hi => hI.state (r2 i hi)
    have hlx := e2.1
    refine ⟨⟨arcs, ⟨by simp [arcs], fun i hi => ⟨startOf nO i x', _, by dsimp only [arcs]; rw [List.getElem?_map, List.getElem?_range hi]; rfl, r2 i hi⟩, rfl, rfl, rfl⟩,
      ?_, ?_⟩, ?_, ?_, ?_, ?_, ?_⟩
    · intro i hi g hg
      dsimp only [arcs] at hg
      rw [List.getElem?_map, List.getElem?_range hi] at hg
      cases hg
      dsimp only
      rw [hrow i hi]
      exact ⟨startOf_length (by omega) hi, fun j => (hstarts i hi j).trans hle⟩
    · intro i hi g hg j
      have hg' : arcs[i + 1]? = some ⟨ts (i + 1), .mat nO (ys (i + 1)), .vec [], .vec []⟩ := by
        dsimp only [arcs]
        rw [List.getElem?_map, List.getElem?_range hi]
        rfl
      have h1 := jumps_le (nP := p0.length) hn hI hC hser hG hgs (by rw [he]; exact hsh) (by rw [he]; exact r1)
        (tol := o.tol) (fun a ha => (hN _ a ha).trans (by rw [hw] at e4; exact e4)) hg hg' j
      dsimp only at h1
      rw [hrow (i + 1) hi] at h1
      have h2 := hstarts (i + 1) hi j
      have h3 := abs_sub_le ((final g.y).getD j 0) ((startOf nO (i + 1) x').getD j 0) (y (i + 1) j)
      linarith
    · dsimp only
      simp only [paramOf, List.length_take, List.length_drop]
      omega
    · dsimp only
      simp only [paramNdOf, List.length_drop]
      omega
    · dsimp only [arcs]
      obtain ⟨m', hm'⟩ : ∃ m', n = m' + 1 := ⟨n - 1, by omega⟩
      rw [hm', List.range_succ_eq_map]
      simp [stitch, rows, List.flatMap_map]
    · intro j
      rw [← hp]
      have := hco (nO * n + j)
      rw [← blockP_apply, map_sub, blockP_vec e2.1] at this
      exact le_trans this hle
    · intro j
      rw [← hpn]
      have := hco (nO * n + p0.length + j)
      rw [← blockN_apply, map_sub, blockN_vec e2.1] at this
      exact le_trans this hle

/-- Closer is close. -/
theorem CloseTo.mono {sol : Curve ℝ} {ε ε' : ℝ} {res : Result ℝ} (h : CloseTo E sol n y p pn ε res) (hle : ε ≤ ε') :
    CloseTo E sol n y p pn ε' res := by
  obtain ⟨⟨arcs, c1, c2, c3⟩, c4, c5, c6, c7, c8⟩ := h
  exact ⟨⟨arcs, c1, fun i hi g hg => ⟨(c2 i hi g hg).1, fun j => ((c2 i hi g hg).2 j).trans hle⟩,
    fun i hi g hg j => (c3 i hi g hg j).trans hle⟩, c4, c5, c6, fun j => (c7 j).trans hle, fun j => (c8 j).trans hle⟩

/-- The same with the constants in terms of the rate `θ`. -/
theorem solve_rate {E : Env ℝ} (hI : IvpSound E.ivp) (hC : Complete E.ivp) (hser : E.parallel = false) (hq : E.quad = none) (S : Scipy ℝ)
    {norm : List ℝ → ℝ} (hN : NormSound norm) (hN0 : ∀ v, 0 ≤ norm v) (hN1 : ∀ v : List ℝ, norm v ≤ (v.map fun a => |a|).sum)
    {lin : List (List ℝ) → List ℝ → Py (List ℝ)} (hlin : LinSound lin) {alg : String} (halg : alg.toLower = "armijo") {n nO nP nN : Nat}
    (hn : 0 < n) {a b : ℝ} {y : Nat → Fin nO → ℝ} {p : Fin nP → ℝ} {pn : Fin nN → ℝ} {X : Fin (nO * n + nP + nN) → ℝ}
    (hy : ∀ i < n, blockY n nO nP nN i X = y i) (hp : blockP n nO nP nN X = p) (hpn : blockN n nO nP nN X = pn)
    {φ : (Fin (nO * n + nP + nN) → ℝ) → Fin (nO * n + nP + nN) → ℝ}
    {A : (Fin (nO * n + nP + nN) → ℝ) →L[ℝ] Fin (nO * n + nP + nN) → ℝ} {β ρ θ M C : ℝ} (hβ : 0 ≤ β) (hρ : 0 < ρ) (hθ0 : 0 < θ)
    (hθ : θ ≤ 1 / 2) (hMe : ((nO * n + nP + nN : Nat) : ℝ) = M) (hnr : Nearly φ X A β (θ / (4 * (β + 1) * (M + 1) ^ 2)) ρ)
    (hCle : M * ((‖A‖ + θ / (4 * (β + 1) * (M + 1) ^ 2)) * ρ) + 2 * β + 1 ≤ C)
    {sol : Curve ℝ} {p0 pn0 : List ℝ} (hg : GuessNear a b n y p pn (ρ / 2) sol p0 pn0)
    (hres : ∀ gs, makeArcs sol n = .ok gs → ∀ x : List ℝ, x.length = nO * n + nP + nN → ‖vec _ x - X‖ < ρ →
      residual E gs ⟨nO, 0, nP, n⟩ x = .ok (List.ofFn (φ (vec _ x))) ∧
      ∃ (ts : Nat → List ℝ) (ys : Nat → List (List ℝ)), ∀ i < n, E.ivp (fun y => E.eom [y, paramOf nO n nP x, E.const])
        [junction sol n i, junction sol n (i + 1)] (startOf nO i x) = .ok (ts i, ys i))
    {h : ℝ → ℝ} (hh : ∀ a, h a ≠ 0 ∧ |h a| < ρ / 2) {o : Opts ℝ} {k fuel : Nat}
    (hk : C * θ ^ (k + 1) ≤ o.tol) (hki : k ≤ o.maxIter) (hmax : C ≤ o.maxErr) (hfuel : k + 1 ≤ fuel) :
    ∃ res, solveFd E S norm lin h o alg fuel n sol p0 pn0 = .ok (some res) ∧ res.converged = true ∧ res.nIter ≤ k + 1 ∧
      Satisfied E sol n o.tol res ∧ CloseTo E sol n y p pn (C * o.tol) res := by
  have hM : (0 : ℝ) ≤ M := by rw [← hMe]; exact Nat.cast_nonneg _
  have hκ : β * (θ / (4 * (β + 1) * (M + 1) ^ 2) * (M + 1)) ≤ θ / (4 * (M + 1)) := by
    rw [show β * (θ / (4 * (β + 1) * (M + 1) ^ 2) * (M + 1)) = (β / (β + 1)) * (θ / (4 * (M + 1))) by field_simp]
    exact mul_le_of_le_one_left (by positivity) ((div_le_one (by linarith)).2 (by linarith))
  have hs : β * (θ / (4 * (β + 1) * (M + 1) ^ 2) * (M + 1)) ≤ 1 / 4 := by
    refine hκ.trans ?_
    rw [div_le_div_iff₀ (by positivity) (by norm_num)]
    linarith
  have hs' : M * (2 * (β * (θ / (4 * (β + 1) * (M + 1) ^ 2) * (M + 1)))) ≤ θ := by
    calc M * (2 * (β * (θ / (4 * (β + 1) * (M + 1) ^ 2) * (M + 1)))) ≤ M * (2 * (θ / (4 * (M + 1)))) :=
          mul_le_mul_of_nonneg_left (by linarith) hM
      _ = (M / (M + 1)) * (θ / 2) := by field_simp; ring
      _ ≤ 1 * (θ / 2) := mul_le_mul_of_nonneg_right ((div_le_one (by linarith)).2 (by linarith)) (by linarith)
      _ ≤ θ := by linarith
  have hD := norm_nonneg A
  have hQ : 0 ≤ M * ((‖A‖ + θ / (4 * (β + 1) * (M + 1) ^ 2)) * ρ) := by positivity
  have hpow : 0 < θ ^ (k + 1) := pow_pos hθ0 _
  have hC0 : 0 ≤ C := by linarith
  have htol : 0 ≤ o.tol := le_trans (by positivity) hk
  obtain ⟨res, h1, h2, h3, h4, h5⟩ := solve_near hI hC hser hq S hN hN0 hN1 hlin halg hn hy hp hpn hnr hθ0.le hθ (by rw [hMe]; exact hs)
    (by rw [hMe]; exact hs') hg hres hh (o := o) (k := k)
    (fuel := fuel) htol (by rw [hMe]; exact le_trans (mul_le_mul_of_nonneg_right (by linarith) hpow.le) hk) hki
    (by rw [hMe]; linarith) hfuel
  exact ⟨res, h1, h2, h3, h4, h5.mono (mul_le_mul_of_nonneg_right (by linarith) htol)⟩

/-- **C90** Near a regular solution of the boundary value problem the shooting solver converges to it: for every rate `θ` there is a
neighbourhood, independent of the tolerance, from which every guess, with differences small enough, leads to a result that is reported
as converged after at most `k + 1` iterations, where `C θ ^ (k + 1)` is the tolerance; the result is within `C` times the tolerance of
the solution.  (Without quadratures, not in parallel; the sums are exact.) -/
theorem C90_local_partial {E : Env ℝ} (hI : IvpSound E.ivp) (hC : Complete E.ivp) (hser : E.parallel = false) (hq : E.quad = none)
    (S : Scipy ℝ) {norm : List ℝ → ℝ} (hN : NormSound norm) (hN0 : ∀ v, 0 ≤ norm v)
    (hN1 : ∀ v : List ℝ, norm v ≤ (v.map fun a => |a|).sum)
    {lin : List (List ℝ) → List ℝ → Py (List ℝ)} (hlin : LinSound lin) {alg : String} (halg : alg.toLower = "armijo") {n nO nP nN : Nat}
    (hn : 0 < n) {a b : ℝ} {y : Nat → Fin nO → ℝ} {p : Fin nP → ℝ} {pn : Fin nN → ℝ}
    {Φ : Nat → (Fin nO → ℝ) × (Fin nP → ℝ) → Fin nO → ℝ}
    {Ψ : (Fin nO → ℝ) × (Fin nO → ℝ) × (Fin nP → ℝ) × (Fin nN → ℝ) → Fin (nO + nP + nN) → ℝ}
    {DΦ : Nat → ((Fin nO → ℝ) × (Fin nP → ℝ)) →L[ℝ] Fin nO → ℝ}
    {DΨ : ((Fin nO → ℝ) × (Fin nO → ℝ) × (Fin nP → ℝ) × (Fin nN → ℝ)) →L[ℝ] Fin (nO + nP + nN) → ℝ}
    (hR : Regular E a b n y p pn Φ Ψ DΦ DΨ) {θ : ℝ} (hθ0 : 0 < θ) (hθ : θ ≤ 1 / 2) :
    ∃ r > 0, ∃ C > 0, ∀ (sol : Curve ℝ) (p0 pn0 : List ℝ), GuessNear a b n y p pn r sol p0 pn0 →
      ∀ (h : ℝ → ℝ), (∀ a, h a ≠ 0 ∧ |h a| < r) → ∀ (o : Opts ℝ) (k fuel : Nat), C * θ ^ (k + 1) ≤ o.tol → k ≤ o.maxIter → C ≤ o.maxErr →
      k + 1 ≤ fuel →
      ∃ res, solveFd E S norm lin h o alg fuel n sol p0 pn0 = .ok (some res) ∧ res.converged = true ∧ res.nIter ≤ k + 1 ∧
        Satisfied E sol n o.tol res ∧ CloseTo E sol n y p pn (C * o.tol) res := by
  obtain ⟨X, hy, hp, hpn⟩ := exists_blocks (n := n) y p pn
  obtain ⟨δ, hδ, hres⟩ := hR.residual hn hy hp hpn hI hC hser hq
  obtain ⟨β, hβ, hnear⟩ := nearly_of_strict (hR.zero hn hy hp hpn) (hR.strict hn hy hp hpn) (hR.injective hn)
  have hM : (0 : ℝ) ≤ (nO * n + nP + nN : Nat) := Nat.cast_nonneg _
  generalize hMe : ((nO * n + nP + nN : Nat) : ℝ) = M at hM
  obtain ⟨ρ0, hρ0, hN'⟩ := hnear (θ / (4 * (β + 1) * (M + 1) ^ 2)) (by positivity)
  have hnr := hN'.mono (min_le_left ρ0 δ)
  have hρ : 0 < min ρ0 δ := lt_min hρ0 hδ
  have hD := norm_nonneg (flatD DΦ DΨ n)
  have hQ : 0 ≤ M * ((‖flatD DΦ DΨ n‖ + θ / (4 * (β + 1) * (M + 1) ^ 2)) * min ρ0 δ) := by positivity
  refine ⟨min ρ0 δ / 2, by linarith, M * ((‖flatD DΦ DΨ n‖ + θ / (4 * (β + 1) * (M + 1) ^ 2)) * min ρ0 δ) + 2 * β + 1, by linarith, ?_⟩
  intro sol p0 pn0 hg h hh o k fuel hk hki hmax hfuel
  exact solve_rate hI hC hser hq S hN hN0 hN1 hlin halg hn hy hp hpn hβ hρ hθ0 hθ hMe hnr le_rfl hg
    (fun gs hgs x hx hxd => hres sol gs hg.shape hg.first hg.last hgs x hx (lt_of_lt_of_le hxd (min_le_right _ _))) hh hk hki hmax hfuel

/-! ### An example -/

theorem euclid_le_sum : ∀ v : List ℝ, Real.sqrt (v.map (· ^ 2)).sum ≤ (v.map fun a => |a|).sum := by
  intro v
  have h : ∀ v : List ℝ, 0 ≤ (v.map fun a => |a|).sum ∧ (v.map (· ^ 2)).sum ≤ (v.map fun a => |a|).sum ^ 2 := by
    intro v
    induction v with
    | nil => simp
    | cons a v ih =>
      obtain ⟨h1, h2⟩ := ih
      simp only [List.map_cons, List.sum_cons]
      refine ⟨add_nonneg (abs_nonneg _) h1, ?_⟩
      have := mul_nonneg (abs_nonneg a) h1
      nlinarith [sq_abs a]
  exact Real.sqrt_le_iff.2 (h v)

/-- One step of Euler's method. -/
noncomputable def eulerR : Ivp ℝ := fun rhs ts y0 => do
  let f ← rhs y0
  .ok ([ts.getD 0 0, lastT ts], [y0, (List.range y0.length).map fun j => y0.getD j 0 + (lastT ts - ts.getD 0 0) * f.getD j 0])

theorem eulerR_ok {rhs : List ℝ → Py (List ℝ)} {ts y0 : List ℝ} {out : List ℝ × List (List ℝ)}
    (h : eulerR rhs ts y0 = .ok out) : ∃ f, rhs y0 = .ok f ∧
      out = ([ts.getD 0 0, lastT ts], [y0, (List.range y0.length).map fun j => y0.getD j 0 + (lastT ts - ts.getD 0 0) * f.getD j 0]) := by
  rw [eulerR] at h
  obtain ⟨f, hf, h⟩ := Py.bind_ok.1 h
  exact ⟨f, hf, (Except.ok.inj h).symm⟩

theorem eulerR_sound : IvpSound eulerR where
  raises := by intro rhs ts y0 e h; rw [eulerR, h]; rfl
  sorted := by
    intro rhs ts y0 a b h hlt
    obtain ⟨f, hf, e⟩ := eulerR_ok h
    cases e
    simpa using hlt
  length := by intro rhs ts y0 a b h; obtain ⟨f, hf, e⟩ := eulerR_ok h; cases e; rfl
  pos := by intro rhs ts y0 a b h; obtain ⟨f, hf, e⟩ := eulerR_ok h; cases e; simp
  first := by intro rhs ts y0 a b h; obtain ⟨f, hf, e⟩ := eulerR_ok h; cases e; rfl
  state := by intro rhs ts y0 a b h; obtain ⟨f, hf, e⟩ := eulerR_ok h; cases e; rfl
  width := by
    intro rhs ts y0 a b h r hr
    obtain ⟨f, hf, e⟩ := eulerR_ok h
    cases e
    simp only [List.mem_cons, List.not_mem_nil, or_false] at hr
    rcases hr with rfl | rfl <;> simp

theorem eulerR_complete : Complete eulerR := by
  intro rhs ts y0 a b h
  obtain ⟨f, hf, e⟩ := eulerR_ok h
  cases e
  simp [lastT]

/-- A solver of linear equations over the reals. -/
noncomputable def exLinR (J : List (List ℝ)) (b : List ℝ) : Py (List ℝ) :=
  open Classical in if h : ∃ d : List ℝ, d.length = J.length ∧ Solves J d b then .ok h.choose else .error .valueError

theorem exLinR_sound : LinSound exLinR := by
  intro J b _ h
  exact ⟨h.choose, by rw [exLinR, dif_pos h], h.choose_spec⟩

/-- The state `x' = p` with the nonlinear conditions `x(0) = 1`, `x(1)² = 4`. -/
noncomputable def exSquare : Env ℝ :=
  ⟨eulerR, fun _ _ => 0, fun a => match a with | [_, p, _] => .ok p | _ => .error .typeError, none,
    fun a => .ok [(a.getD 0 []).getD 0 0 - 1, (a.getD 1 []).getD 0 0 ^ 2 - 4], [], false⟩

/-- Two arcs of `x = 1 + t`, the solution near `p = 1`; another one is `x = 1 - 3 t`. -/
theorem exSquare_regular : Regular (nO := 1) (nP := 1) (nN := 0) exSquare 0 1 2 (fun i _ => 1 + (i : ℝ) / 2) (fun _ => 1) Fin.elim0
    (fun _ z j => z.1 j + 1 / 2 * z.2 j) (fun z => ![z.1 0 - 1, z.2.1 0 ^ 2 - 4])
    (fun _ => ContinuousLinearMap.fst ℝ _ _ + (1 / 2 : ℝ) • ContinuousLinearMap.snd ℝ _ _)
    (ContinuousLinearMap.pi ![(ContinuousLinearMap.proj 0).comp (ContinuousLinearMap.fst ℝ _ _),
      (4 : ℝ) • (ContinuousLinearMap.proj 0).comp ((ContinuousLinearMap.fst ℝ _ _).comp (ContinuousLinearMap.snd ℝ _ _))]) where
  flow := by
    intro i hi
    refine Filter.Eventually.of_forall fun z => ?_
    simp only [endOf, exSquare, eulerR, List.cons_append, List.nil_append, Py.ok_bind, List.ofFn_succ, List.ofFn_zero, node, lastT]
    match i, hi with
    | 0, _ => simp
    | 1, _ => simp; left; norm_num
  bc := Filter.Eventually.of_forall fun z => by simp [exSquare]
  arcs := by
    intro i hi
    funext j
    push_cast
    ring
  ends := by
    funext j
    fin_cases j <;> norm_num
  dflow := by
    intro i hi
    exact ((ContinuousLinearMap.fst ℝ (Fin 1 → ℝ) (Fin 1 → ℝ)) + (1 / 2 : ℝ) • ContinuousLinearMap.snd ℝ (Fin 1 → ℝ) (Fin 1 → ℝ)).hasStrictFDerivAt
  dbc := by
    refine hasStrictFDerivAt_pi'.2 fun j => ?_
    fin_cases j
    · exact ((ContinuousLinearMap.proj (R := ℝ) (φ := fun _ : Fin 1 => ℝ) 0).comp (ContinuousLinearMap.fst ℝ (Fin 1 → ℝ)
        ((Fin 1 → ℝ) × (Fin 1 → ℝ) × (Fin 0 → ℝ)))).hasStrictFDerivAt.sub_const 1
    · have h1 := ((ContinuousLinearMap.proj (R := ℝ) (φ := fun _ : Fin 1 => ℝ) 0).comp ((ContinuousLinearMap.fst ℝ (Fin 1 → ℝ)
        ((Fin 1 → ℝ) × (Fin 0 → ℝ))).comp (ContinuousLinearMap.snd ℝ (Fin 1 → ℝ) ((Fin 1 → ℝ) × (Fin 1 → ℝ) × (Fin 0 → ℝ))))).hasStrictFDerivAt
        (x := ((fun _ => 1 + ((0 : ℕ) : ℝ) / 2, fun _ => 1 + ((2 : ℕ) : ℝ) / 2, fun _ => 1, Fin.elim0) :
          (Fin 1 → ℝ) × (Fin 1 → ℝ) × (Fin 1 → ℝ) × (Fin 0 → ℝ)))
      have h2 := (h1.pow 2).sub_const 4
      refine h2.congr_fderiv ?_
      ext z <;> simp <;> exact Or.inl (by norm_num)
  nondeg := by
    intro w dp dpn h1 h2
    have a0 := congrFun h2 0
    have a1 := congrFun h2 1
    have b0 := congrFun (h1 0 (by norm_num)) 0
    have b1 := congrFun (h1 1 (by norm_num)) 0
    simp at a0 a1 b0 b1
    have hd : dp 0 = 0 := by linarith
    refine ⟨?_, ?_, ?_⟩
    · intro i hi
      funext j
      fin_cases j
      match i, hi with
      | 0, _ => exact a0
      | 1, _ => simp; linarith
    · funext j
      fin_cases j
      exact hd
    · exact Subsingleton.elim _ _

/-- From guesses near `x = 1 + t` the solver finds it, with the Euclidean norm. -/
example : ∃ r > 0, ∃ C > 0, ∀ (sol : Curve ℝ) (p0 pn0 : List ℝ),
    GuessNear (nO := 1) (nP := 1) (nN := 0) 0 1 2 (fun i _ => 1 + (i : ℝ) / 2) (fun _ => 1) Fin.elim0 r sol p0 pn0 →
    ∀ (h : ℝ → ℝ), (∀ a, h a ≠ 0 ∧ |h a| < r) → ∀ (o : Opts ℝ) (k fuel : Nat), C * (1 / 10) ^ (k + 1) ≤ o.tol → k ≤ o.maxIter → C ≤ o.maxErr →
      k + 1 ≤ fuel →
      ∃ res, solveFd exSquare ⟨fun _ _ _ _ => .error .typeError, fun _ _ _ => .error .typeError, fun _ _ => .error .typeError⟩
        (fun v => Real.sqrt (v.map (· ^ 2)).sum) exLinR h o "Armijo" fuel 2 sol p0 pn0 = .ok (some res) ∧ res.converged = true ∧
        res.nIter ≤ k + 1 ∧ Satisfied exSquare sol 2 o.tol res ∧
        CloseTo (nO := 1) (nP := 1) (nN := 0) exSquare sol 2 (fun i _ => 1 + (i : ℝ) / 2) (fun _ => 1) Fin.elim0 (C * o.tol) res :=
  C90_local_partial eulerR_sound eulerR_complete rfl rfl _ euclid_sound (fun _ => Real.sqrt_nonneg _) euclid_le_sum exLinR_sound
    (by decide +kernel) (by norm_num) exSquare_regular (by norm_num) (by norm_num)

end Beluga.Shoot
