import Verif.Shooting.Accept
import Mathlib.LinearAlgebra.Pi
import Mathlib.LinearAlgebra.StdBasis
import Mathlib.Algebra.BigOperators.Fin
import Mathlib.Tactic.LinearCombination
import Mathlib.Tactic.FieldSimp

/-!
# The Newton direction of the shooting solver
-/

namespace Beluga.Shoot

set_option linter.unusedSectionVars false

open Beluga.Traj (Arr Curve mix)

section model
variable {K : Type} [Field K] [LinearOrder K]

/-- `approx_jacobian(X, _constraint_function_wrapper, 1e-6)`: the columns of forward differences (Shooting.py:650-651).  The step `h` is a
function of the coordinate, because SciPy takes another one where `1e-6` is lost in rounding.  The value at `x` is evaluated again. -/
def fdJacobian (F : List K → Py (List K)) (h : K → K) (x : List K) : Py (List (List K)) := do
  let v ← F x
  (List.range x.length).mapM fun j => do
    let w ← F (x.set j (x.getD j 0 + h (x.getD j 0)))
    .ok (List.zipWith (fun a b => (a - b) / h (x.getD j 0)) w v)

/-- The Newton direction (Shooting.py:711-720); `lin` is `np.linalg.solve` with `np.linalg.lstsq` where it raises. -/
def newtonFd (lin : List (List K) → List K → Py (List K)) (h : K → K) (F : List K → Py (List K)) (x r : List K) : Py (List K) := do
  let jac ← fdJacobian F h x
  lin jac (r.map fun a => -a)

/-- `Shooting.solve` with its Newton direction (Shooting.py:429-799). -/
def solveFd (E : Env K) (S : Scipy K) (norm : List K → K) (lin : List (List K) → List K → Py (List K)) (h : K → K) (o : Opts K)
    (alg : String) (fuel nA : Nat) (sol : Curve K) (p pn : List K) : Py (Option (Result K)) := do
  let nO ← nStates sol
  let nQ ← nQuads E sol
  let gs ← makeArcs sol nA
  solve E S norm (newtonFd lin h (residual E gs ⟨nO, nQ, p.length, nA⟩)) o alg fuel nA sol p pn

end model

/-! ### What is expected -/

section spec
variable {K : Type} [Field K] [LinearOrder K]

/-- `d` solves the linear equations with the columns `J` and the right-hand side `b`. -/
def Solves (J : List (List K)) (d b : List K) : Prop :=
  ∀ i < b.length, ∑ j ∈ Finset.range J.length, (J.getD j []).getD i 0 * d.getD j 0 = b.getD i 0

/-- Linear equations that have a solution are solved. -/
def LinSound (lin : List (List K) → List K → Py (List K)) : Prop :=
  ∀ J b, (∀ c ∈ J, c.length = b.length) → (∃ d, d.length = J.length ∧ Solves J d b) →
    ∃ d, lin J b = .ok d ∧ d.length = J.length ∧ Solves J d b

/-- A function of several vectors, of the lengths `ns`, that keeps straight lines: linear up to a constant. -/
structure Affine (ns : List Nat) (m : Nat) (f : Fn K) : Prop where
  total : ∀ x, x.map List.length = ns → ∃ v, f x = .ok v ∧ v.length = m
  line : ∀ θ x y v w, x.map List.length = ns → y.map List.length = ns → f x = .ok v → f y = .ok w →
    f (List.zipWith (mix θ) x y) = .ok (mix θ v w)

/-- The state at the end of an integration, as a function of the state at the start and the parameters. -/
def endOf (ivp : Ivp K) (f : Fn K) (a b : K) : Fn K
  | [y, p] => do
    let r ← ivp (fun y => f [y, p]) [a, b] y
    .ok (r.2.getD (r.2.length - 1) [])
  | _ => .error .typeError

/-- Linear differential equations have linear flows. -/
def LinearIvp (ivp : Ivp K) : Prop :=
  ∀ nO nP f, Affine [nO, nP] nO f → ∀ a b, a < b → Affine [nO, nP] nO (endOf ivp f a b)

/-- The boundary value problem has a solution: starts of the arcs and parameters such that every arc ends where the next one starts,
and the boundary conditions hold. -/
def HasSolution (E : Env K) (sol : Curve K) (n nO nP nN : Nat) : Prop :=
  ∃ (y : Nat → List K) (p pn b : List K), (∀ i ≤ n, (y i).length = nO) ∧ p.length = nP ∧ pn.length = nN ∧
    (∀ i < n, endOf E.ivp (fun x => E.eom (x ++ [E.const])) (junction sol n i) (junction sol n (i + 1)) [y i, p] = .ok (y (i + 1))) ∧
    E.bc [y 0, y n, p, pn, E.const] = .ok b ∧ ∀ a ∈ b, a = 0

end spec

variable {K : Type} [Field K] [LinearOrder K] [IsStrictOrderedRing K]

/-! ### Lines -/

theorem mix_length (θ : K) (x y : List K) : (mix θ x y).length = min x.length y.length := by simp [mix]

theorem mix_length_eq {θ : K} {x y : List K} {n : Nat} (hx : x.length = n) (hy : y.length = n) : (mix θ x y).length = n := by
  rw [mix_length, hx, hy, min_self]

theorem mix_getD {θ : K} {x y : List K} (h : x.length = y.length) (i : Nat) :
    (mix θ x y).getD i 0 = (1 - θ) * x.getD i 0 + θ * y.getD i 0 := by
  by_cases hi : i < x.length
  · rw [Traj.getD_eq (by rw [mix_length]; omega), Traj.getD_eq hi, Traj.getD_eq (by omega)]
    simp [mix]
  · have e : ∀ l : List K, l.length ≤ i → l.getD i 0 = 0 := fun l hl => by simp [List.getD_eq_getElem?_getD, List.getElem?_eq_none hl]
    rw [e _ (by rw [mix_length]; omega), e _ (by omega), e _ (by omega)]
    simp

theorem mix_append (θ : K) {x y x' y' : List K} (h : x.length = y.length) :
    mix θ (x ++ x') (y ++ y') = mix θ x y ++ mix θ x' y' := by
  rw [mix, mix, mix, List.zipWith_append h]

theorem mix_take (θ : K) (x y : List K) (n : Nat) : (mix θ x y).take n = mix θ (x.take n) (y.take n) := by
  simp [mix, List.take_zipWith]

theorem mix_drop (θ : K) (x y : List K) (n : Nat) : (mix θ x y).drop n = mix θ (x.drop n) (y.drop n) := by
  simp [mix, List.drop_zipWith]

theorem mix_sub (θ : K) {a b c d : List K} {n : Nat} (ha : a.length = n) (hb : b.length = n) (hc : c.length = n) (hd : d.length = n) :
    List.zipWith (· - ·) (mix θ a b) (mix θ c d) = mix θ (List.zipWith (· - ·) a c) (List.zipWith (· - ·) b d) := by
  refine List.ext_getElem (by simp [mix]; omega) fun i h1 h2 => ?_
  simp only [mix, List.getElem_zipWith]
  ring

theorem mix_flatMap {α : Type} (θ : K) {f g : α → List K} : ∀ {l : List α}, (∀ i ∈ l, (f i).length = (g i).length) →
    mix θ (l.flatMap f) (l.flatMap g) = l.flatMap fun i => mix θ (f i) (g i)
  | [], _ => rfl
  | a :: l, h => by
    rw [List.flatMap_cons, List.flatMap_cons, List.flatMap_cons, mix_append θ (h a (List.mem_cons_self ..)),
      mix_flatMap θ fun i hi => h i (List.mem_cons_of_mem _ hi)]

/-! ### Newton's step for a linear function -/

/-- The case of one vector. -/
structure Aff (n m : Nat) (F : List K → Py (List K)) : Prop where
  total : ∀ x : List K, x.length = n → ∃ v, F x = .ok v ∧ v.length = m
  line : ∀ θ x y v w, x.length = n → y.length = n → F x = .ok v → F y = .ok w → F (mix θ x y) = .ok (mix θ v w)

/-- A scalar function on `Fin n → K` that keeps lines. -/
theorem line_sum {n : Nat} {φ : (Fin n → K) → K} (hφ : ∀ θ x y, φ (fun i => (1 - θ) * x i + θ * y i) = (1 - θ) * φ x + θ * φ y)
    (x d : Fin n → K) : ∀ h : Fin n → K, (∀ i, h i ≠ 0) →
    φ (fun i => x i + d i) = φ x + ∑ j, (φ (Function.update x j (x j + h j)) - φ x) / h j * d j := by
  intro h hh
  have hs : ∀ (t : K) (y : Fin n → K), φ (fun i => t * y i) - φ 0 = t * (φ y - φ 0) := by
    intro t y
    have := hφ t 0 y
    simp only [Pi.zero_apply, mul_zero, zero_add] at this
    linear_combination this
  have ha : ∀ y z : Fin n → K, φ (fun i => y i + z i) - φ 0 = (φ y - φ 0) + (φ z - φ 0) := by
    intro y z
    have h1 := hφ (1 / 2) (fun i => 2 * y i) (fun i => 2 * z i)
    have e : (fun i => (1 - 1 / 2 : K) * (2 * y i) + 1 / 2 * (2 * z i)) = fun i => y i + z i := by
      funext i; ring
    rw [e] at h1
    have h2 := hs 2 y
    have h3 := hs 2 z
    rw [h1]
    linear_combination (1 / 2) * h2 + (1 / 2) * h3
  let L : (Fin n → K) →ₗ[K] K :=
    { toFun := fun y => φ y - φ 0
      map_add' := fun y z => ha y z
      map_smul' := fun t y => hs t y }
  have hL : ∀ y, L y = ∑ j, y j * L (Pi.single j 1) := by
    intro y
    rw [LinearMap.pi_apply_eq_sum_univ L y]
    refine Finset.sum_congr rfl fun j _ => ?_
    rw [smul_eq_mul]
    congr 2
    funext i
    by_cases hij : j = i
    · subst hij; simp
    · rw [if_neg hij, Pi.single_eq_of_ne (Ne.symm hij)]
  have h1 : φ (fun i => x i + d i) = φ x + L d := by
    have := ha x d
    change _ = φ x + (φ d - φ 0)
    linear_combination this
  rw [h1, hL]
  congr 1
  refine Finset.sum_congr rfl fun j _ => ?_
  have e : Function.update x j (x j + h j) = fun i => x i + (h j • (Pi.single j 1 : Fin n → K)) i := by
    funext i
    by_cases hij : i = j
    · subst hij; simp
    · rw [Function.update_of_ne hij]; simp [Pi.single_eq_of_ne hij]
  have h2 : φ (Function.update x j (x j + h j)) - φ x = h j * L (Pi.single j 1) := by
    rw [e]
    have := ha x (h j • (Pi.single j 1 : Fin n → K))
    have h3 : L (h j • (Pi.single j 1 : Fin n → K)) = h j * L (Pi.single j 1) := by rw [map_smul, smul_eq_mul]
    rw [← h3]
    change _ = φ _ - φ 0
    linear_combination this
  rw [h2]
  field_simp [hh j]

/-- Forward differences are exact for a function that keeps lines. -/
theorem Aff.jacobian {n m : Nat} {F : List K → Py (List K)} (hF : Aff n m F) {h : K → K} (hh : ∀ a, h a ≠ 0) {x v : List K}
    (hx : x.length = n) (hv : F x = .ok v) :
    ∃ J, fdJacobian F h x = .ok J ∧ J.length = n ∧ (∀ c ∈ J, c.length = m) ∧
      ∀ d w : List K, d.length = n → F (List.zipWith (· + ·) x d) = .ok w →
        ∀ i < m, w.getD i 0 = v.getD i 0 + ∑ j ∈ Finset.range n, (J.getD j []).getD i 0 * d.getD j 0 := by
  have hx' : ∀ x : List K, ∃ v : List K, v.length = m ∧ (x.length = n → F x = .ok v) := by
    intro x
    by_cases h : x.length = n
    · obtain ⟨v, h1, h2⟩ := hF.total x h
      exact ⟨v, h2, fun _ => h1⟩
    · exact ⟨List.replicate m 0, by simp, fun h' => absurd h' h⟩
  choose G hG1 hG2 using hx'
  have hGx : G x = v := Except.ok.inj ((hG2 x hx).symm.trans hv)
  have hJ : fdJacobian F h x = .ok ((List.range n).map fun j => List.zipWith (fun a b => (a - b) / h (x.getD j 0))
      (G (x.set j (x.getD j 0 + h (x.getD j 0)))) v) := by
    rw [fdJacobian, hv, Py.ok_bind, hx]
    refine Py.mapM_ok fun j hj => ?_
    rw [hG2 _ (by simp [hx]), Py.ok_bind]
  have hvl : v.length = m := by rw [← hGx, hG1]
  refine ⟨_, hJ, by simp, ?_, ?_⟩
  · intro c hc
    obtain ⟨j, -, rfl⟩ := List.mem_map.1 hc
    simp [hG1, hvl]
  · intro d w hd hw i hi
    have hwl : List.zipWith (· + ·) x d = List.ofFn fun k : Fin n => x.getD k 0 + d.getD k 0 := by
      refine List.ext_getElem (by simp [hx, hd]) fun k h1 h2 => ?_
      simp [List.getElem_zipWith, hx, hd]
    have hxo : ∀ f : Fin n → K, (List.ofFn f).length = n := fun f => by simp
    let φ : (Fin n → K) → K := fun f => (G (List.ofFn f)).getD i 0
    have hφ : ∀ θ (f g : Fin n → K), φ (fun k => (1 - θ) * f k + θ * g k) = (1 - θ) * φ f + θ * φ g := by
      intro θ f g
      have h1 := hF.line θ _ _ _ _ (hxo f) (hxo g) (hG2 _ (hxo f)) (hG2 _ (hxo g))
      have e : mix θ (List.ofFn f) (List.ofFn g) = List.ofFn fun k => (1 - θ) * f k + θ * g k := by
        refine List.ext_getElem (by simp [mix]) fun k h1 h2 => ?_
        simp [mix]
      rw [e, hG2 _ (hxo _)] at h1
      have h2 := Except.ok.inj h1
      change (G _).getD i 0 = _
      rw [h2, mix_getD (by rw [hG1, hG1])]
    have key := line_sum hφ (fun k : Fin n => x.getD k 0) (fun k => d.getD k 0) (fun k => h (x.getD k 0)) fun k => hh _
    have ex : (List.ofFn fun k : Fin n => x.getD k 0) = x := by
      refine List.ext_getElem (by simp [hx]) fun k h1 h2 => ?_
      rw [List.getElem_ofFn, Traj.getD_eq h2]
    have e1 : φ (fun k : Fin n => x.getD k 0) = v.getD i 0 := by
      change (G (List.ofFn _)).getD i 0 = _
      rw [ex, hGx]
    have e2 : φ (fun k : Fin n => x.getD k 0 + d.getD k 0) = w.getD i 0 := by
      change (G (List.ofFn _)).getD i 0 = _
      rw [← hwl, Except.ok.inj ((hG2 _ (by simp [hx, hd])).symm.trans hw)]
    rw [e1, e2] at key
    rw [key, Finset.sum_range]
    congr 1
    refine Finset.sum_congr rfl fun j _ => ?_
    have e3 : (List.ofFn (Function.update (fun k : Fin n => x.getD k 0) j (x.getD j 0 + h (x.getD j 0)))) =
        x.set j (x.getD j 0 + h (x.getD j 0)) := by
      refine List.ext_getElem (by simp [hx]) fun k h1 h2 => ?_
      rw [List.getElem_ofFn, List.getElem_set]
      by_cases hk : (j : Nat) = k
      · rw [if_pos hk, show (⟨k, by simpa using h1⟩ : Fin n) = j from Fin.ext hk.symm, Function.update_self]
      · rw [if_neg hk, Function.update_of_ne (fun h => hk (by rw [← h]))]
        have : k < x.length := by simpa using h2
        rw [Traj.getD_eq this]
    have e4 : φ (Function.update (fun k : Fin n => x.getD k 0) j (x.getD j 0 + h (x.getD j 0))) =
        (G (x.set j (x.getD j 0 + h (x.getD j 0)))).getD i 0 := by
      change (G (List.ofFn _)).getD i 0 = _
      rw [e3]
    rw [e4]
    congr 1
    have e5 : ((List.range n).map fun j => List.zipWith (fun a b => (a - b) / h (x.getD j 0))
        (G (x.set j (x.getD j 0 + h (x.getD j 0)))) v).getD j [] = List.zipWith (fun a b => (a - b) / h (x.getD j 0))
        (G (x.set j (x.getD j 0 + h (x.getD j 0)))) v := by
      rw [Traj.getD_eq (by rw [List.length_map, List.length_range]; exact j.2), List.getElem_map, List.getElem_range]
    rw [e5, Traj.getD_eq (l := List.zipWith _ _ _) (by rw [List.length_zipWith, hG1, hvl, min_self]; exact hi), List.getElem_zipWith,
      Traj.getD_eq (by rw [hG1]; exact hi), Traj.getD_eq (l := v) (by omega)]

/-- **The Newton step of a linear function ends in a zero**, if there is one. -/
theorem Aff.newton {n m : Nat} {F : List K → Py (List K)} (hF : Aff n m F) {lin : List (List K) → List K → Py (List K)}
    (hlin : LinSound lin) {h : K → K} (hh : ∀ a, h a ≠ 0) {x v : List K} (hx : x.length = n) (hv : F x = .ok v) {z o : List K}
    (hz : z.length = n) (ho : F z = .ok o) (h0 : ∀ a ∈ o, a = 0) :
    ∃ d w, newtonFd lin h F x v = .ok d ∧ d.length = n ∧ F (List.zipWith (· + ·) x d) = .ok w ∧ ∀ a ∈ w, a = 0 := by
  obtain ⟨J, hJ, j1, j2, j3⟩ := hF.jacobian hh hx hv
  have hvl : v.length = m := by
    obtain ⟨v', h1, h2⟩ := hF.total x hx
    rw [Except.ok.inj (hv.symm.trans h1), h2]
  have hol : o.length = m := by
    obtain ⟨v', h1, h2⟩ := hF.total z hz
    rw [Except.ok.inj (ho.symm.trans h1), h2]
  have hb : (v.map fun a => -a).length = m := by simp [hvl]
  have hneg : ∀ i, (v.map fun a => -a).getD i 0 = - v.getD i 0 := by
    intro i
    rw [List.getD_eq_getElem?_getD, List.getElem?_map, List.getD_eq_getElem?_getD]
    cases v[i]? <;> simp
  obtain ⟨d, d1, d2, d3⟩ := hlin J (v.map fun a => -a) (fun c hc => by rw [j2 c hc, hb])
    ⟨List.zipWith (· - ·) z x, by simp [hz, hx, j1], fun i hi => by
      have e : List.zipWith (· + ·) x (List.zipWith (· - ·) z x) = z := by
        refine List.ext_getElem (by simp [hx, hz]) fun k h1 h2 => ?_
        simp
      have := j3 (List.zipWith (· - ·) z x) o (by simp [hz, hx]) (by rw [e, ho]) i (by rw [← hb]; exact hi)
      have e0 : o.getD i 0 = 0 := by
        rw [Traj.getD_eq (by rw [hol, ← hb]; exact hi)]
        exact h0 _ (List.getElem_mem _)
      rw [j1, hneg]
      linear_combination (-1) * this + e0⟩
  rw [j1] at d2
  obtain ⟨w, w1, w2⟩ := hF.total (List.zipWith (· + ·) x d) (by simp [hx, d2])
  refine ⟨d, w, by rw [newtonFd, hJ, Py.ok_bind, d1], d2, w1, fun a ha => ?_⟩
  obtain ⟨i, hi, rfl⟩ := List.getElem_of_mem ha
  have h1 := j3 d w d2 w1 i (by omega)
  have h2 := d3 i (by omega)
  rw [j1, hneg] at h2
  rw [Traj.getD_eq hi] at h1
  rw [h1, h2]
  ring

end Beluga.Shoot
