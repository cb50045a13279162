import Verif.Shooting.Contract

/-!
# The Armijo iteration near a regular zero
-/

namespace Beluga.Shoot

open Beluga.Traj (Arr Curve mix getD_eq)

/-- A list as a vector. -/
def vec (N : Nat) (x : List ℝ) : Fin N → ℝ := fun k => x.getD k 0

theorem ofFn_vec {N : Nat} {x : List ℝ} (h : x.length = N) : List.ofFn (vec N x) = x := by
  refine List.ext_getElem (by simp [h]) fun k h1 h2 => ?_
  rw [List.getElem_ofFn, vec, getD_eq h2]

theorem vec_ofFn {N : Nat} (f : Fin N → ℝ) : vec N (List.ofFn f) = f := by
  funext k
  rw [vec, getD_eq (by simp), List.getElem_ofFn]

theorem vec_add {N : Nat} {x d : List ℝ} (h : x.length = N) (hd : d.length = N) : vec N (List.zipWith (· + ·) x d) = vec N x + vec N d := by
  funext k
  rw [Pi.add_apply, vec, vec, vec, getD_eq (l := List.zipWith _ _ _) (by simp [h, hd]), getD_eq (l := x) (by omega), getD_eq (l := d) (by omega),
    List.getElem_zipWith]

theorem vec_set {N : Nat} {x : List ℝ} (h : x.length = N) (j : Fin N) (a : ℝ) : vec N (x.set j a) = Function.update (vec N x) j a := by
  funext k
  rw [vec, getD_eq (by simp [h]), List.getElem_set]
  by_cases hk : (j : Nat) = k
  · rw [if_pos hk, ← Fin.ext hk, Function.update_self]
  · rw [if_neg hk, Function.update_of_ne (fun e => hk (by rw [e])), vec, getD_eq (l := x) (by omega)]

variable {N : Nat} {φ : (Fin N → ℝ) → Fin N → ℝ} {xs : Fin N → ℝ} {A : (Fin N → ℝ) →L[ℝ] Fin N → ℝ} {β κ ρ : ℝ}

/-- The Newton step of the program, near a regular zero. -/
theorem Nearly.newton (hN : Nearly φ xs A β κ ρ) (hs : β * (κ * (N + 1)) ≤ 1 / 4) {F : List ℝ → Py (List ℝ)}
    (hF : ∀ x : List ℝ, x.length = N → ‖vec N x - xs‖ < ρ → F x = .ok (List.ofFn (φ (vec N x))))
    {lin : List (List ℝ) → List ℝ → Py (List ℝ)} (hlin : LinSound lin) {h : ℝ → ℝ} (hh : ∀ a, h a ≠ 0 ∧ |h a| < ρ / 2) {x : List ℝ}
    (hx : x.length = N) (hr : ‖vec N x - xs‖ < ρ / 2) :
    ∃ d, newtonFd lin h F x (List.ofFn (φ (vec N x))) = .ok d ∧ d.length = N ∧
      ‖vec N (List.zipWith (· + ·) x d) - xs‖ ≤ ‖vec N x - xs‖ / 2 ∧
      ‖φ (vec N (List.zipWith (· + ·) x d))‖ ≤ 2 * (β * (κ * (N + 1))) * ‖φ (vec N x)‖ := by
  have hρ : 0 < ρ / 2 := lt_of_le_of_lt (norm_nonneg _) hr
  let J : List (List ℝ) := (List.range N).map fun j => List.zipWith (fun a b => (a - b) / h (x.getD j 0))
      (List.ofFn (φ (vec N (x.set j (x.getD j 0 + h (x.getD j 0)))))) (List.ofFn (φ (vec N x)))
  have hset : ∀ j : Nat, j < N → ‖vec N (x.set j (x.getD j 0 + h (x.getD j 0))) - xs‖ < ρ := by
    intro j hj
    rw [vec_set hx ⟨j, hj⟩]
    change ‖Function.update (vec N x) ⟨j, hj⟩ (vec N x ⟨j, hj⟩ + _) - xs‖ < ρ
    calc ‖Function.update (vec N x) ⟨j, hj⟩ (vec N x ⟨j, hj⟩ + h (x.getD j 0)) - xs‖
        = ‖(Function.update (vec N x) ⟨j, hj⟩ (vec N x ⟨j, hj⟩ + h (x.getD j 0)) - vec N x) + (vec N x - xs)‖ := by congr 1; abel
      _ ≤ ‖Function.update (vec N x) ⟨j, hj⟩ (vec N x ⟨j, hj⟩ + h (x.getD j 0)) - vec N x‖ + ‖vec N x - xs‖ := norm_add_le _ _
      _ < ρ / 2 + ρ / 2 := by
          rw [update_add, norm_smul, Pi.norm_single, norm_one, mul_one, Real.norm_eq_abs]
          exact add_lt_add (hh _).2 hr
      _ = ρ := by ring
  have hJ : fdJacobian F h x = .ok J := by
    rw [fdJacobian, hF x hx (by linarith), Py.ok_bind, hx]
    refine Py.mapM_ok fun j hj => ?_
    rw [hF _ (by simp [hx]) (hset j (List.mem_range.1 hj)), Py.ok_bind]
  have hJl : J.length = N := by simp [J]
  have hb : ((List.ofFn (φ (vec N x))).map fun a => -a).length = N := by simp
  have hsolve : ∀ d : List ℝ, d.length = N → (Solves J d ((List.ofFn (φ (vec N x))).map fun a => -a) ↔
      fdMap φ (fun j => h (x.getD j 0)) (vec N x) (vec N d) = -φ (vec N x)) := by
    intro d hd
    have hent : ∀ i : Fin N, ∑ j ∈ Finset.range J.length, (J.getD j []).getD i 0 * d.getD j 0 =
        fdMap φ (fun j => h (x.getD j 0)) (vec N x) (vec N d) i := by
      intro i
      rw [hJl, Finset.sum_range]
      simp only [fdMap, LinearMap.coe_mk, AddHom.coe_mk, Finset.sum_apply, Pi.smul_apply, smul_eq_mul, Pi.sub_apply]
      refine Finset.sum_congr rfl fun j _ => ?_
      have e1 : J.getD j [] = List.zipWith (fun a b => (a - b) / h (x.getD j 0))
          (List.ofFn (φ (Function.update (vec N x) j (x.getD j 0 + h (x.getD j 0))))) (List.ofFn (φ (vec N x))) := by
        rw [getD_eq (by rw [hJl]; exact j.2), ← vec_set hx j]
        simp [J]
      rw [e1, getD_eq (l := List.zipWith _ _ _) (by simp), List.getElem_zipWith, List.getElem_ofFn, List.getElem_ofFn]
      simp only [vec]
      field_simp
    have hneg : ∀ i : Fin N, ((List.ofFn (φ (vec N x))).map fun a => -a).getD i 0 = -φ (vec N x) i := by
      intro i
      rw [getD_eq (by rw [hb]; exact i.2), List.getElem_map, List.getElem_ofFn]
    constructor
    · intro hS
      funext i
      have := hS i (by rw [hb]; exact i.2)
      rw [hent, hneg] at this
      exact this
    · intro hE i hi
      rw [hb] at hi
      have := congrFun hE ⟨i, hi⟩
      rw [← hent ⟨i, hi⟩] at this
      rw [this, hneg ⟨i, hi⟩]
      rfl
  have hhj : ∀ j : Fin N, h (x.getD j 0) ≠ 0 ∧ |h (x.getD j 0)| < ρ / 2 := fun j => hh _
  obtain ⟨d0, hd0⟩ := hN.step_exists hs hr hhj (-φ (vec N x))
  obtain ⟨d, e1, e2, e3⟩ := hlin J ((List.ofFn (φ (vec N x))).map fun a => -a) (fun c hc => by
      obtain ⟨j, -, rfl⟩ := List.mem_map.1 hc
      simp) ⟨List.ofFn d0, by simp [hJl], (hsolve _ (by simp)).2 (by rw [vec_ofFn]; exact hd0)⟩
  rw [hJl] at e2
  have hd := (hsolve d e2).1 e3
  obtain ⟨h1, h2⟩ := hN.step hs hr hhj hd
  refine ⟨d, by rw [newtonFd, hJ, Py.ok_bind, e1], e2, ?_, ?_⟩
  · rw [vec_add hx e2]; exact h1
  · rw [vec_add hx e2]; exact h2

/-! ### The iteration -/

section armijo
variable {K : Type} [Field K] [LinearOrder K] [IsStrictOrderedRing K]

/-- The line search accepts the full step if it halves the residual. -/
theorem pass_full {A : Armijo K} {o : Opts K} (htol : 0 ≤ o.tol) {ls : Nat} (hls : 1 ≤ ls) {x v d w : List K} (hv0 : 0 ≤ A.norm v)
    (h0 : A.F x = .ok (v.map some)) (hn : A.newton x v = .ok d) (h1 : A.F (List.zipWith (· + ·) x d) = .ok (w.map some))
    (hle : A.norm w ≤ 1 / 2 * A.norm v) (e : Flt K) (it : Nat) (ev : List Nat) :
    pass A o ls ⟨x, e, it, false, ev⟩ =
      .ok (some ⟨List.zipWith (· + ·) x d, .val (A.norm w), it + 1, decide (A.norm w ≤ o.tol), ev ++ [1]⟩) := by
  obtain ⟨m, rfl⟩ : ∃ m, ls = m + 1 := ⟨ls - 1, by omega⟩
  have hl : lineSearch A o x d (A.norm v) (m + 1) 1 .inf [] 0 = .ok (some (.val (A.norm w), d, 1)) := by
    rw [lineSearch, if_pos (by simp [Flt.ge, Flt.gt]; norm_num)]
    dsimp only
    rw [show d.map (fun x => (1 : K) * x) = d by simp, h1, Py.ok_bind, normF_some, lineSearch.eq_def]
    dsimp only
    rw [if_neg]
    simp only [Flt.ge, Flt.gt, Bool.and_eq_true, decide_eq_true_eq, not_and]
    intro h2
    exfalso
    have h3 : (1 - 1 / 10000 * (1 * (1 / 2)) : K) * A.norm v ≤ 1 / 2 * A.norm v := h2.1.trans hle
    have h4 : A.norm v ≤ 0 := by linarith
    linarith [h2.2]
  rw [pass, h0, Py.ok_bind, if_neg (by simp)]
  dsimp only
  rw [show (v.map some).filterMap id = v by simp [List.filterMap_map], hn, Py.ok_bind, hl, Py.ok_bind]
  rfl

/-- The iteration converges if every full step shortens the residual by the factor `θ`. -/
theorem armijo_shrinks {A : Armijo K} {o : Opts K} {ls : Nat} (htol : 0 ≤ o.tol) (hls : 1 ≤ ls) {θ : K} (hθ0 : 0 ≤ θ) (hθ : θ ≤ 1 / 2)
    (hnn : ∀ v, 0 ≤ A.norm v) {P : List K → Prop}
    (hstep : ∀ x, P x → ∃ v d w, A.F x = .ok (v.map some) ∧ A.newton x v = .ok d ∧ P (List.zipWith (· + ·) x d) ∧
      A.F (List.zipWith (· + ·) x d) = .ok (w.map some) ∧ A.norm w ≤ θ * A.norm v) :
    ∀ (k fuel : Nat) (x v : List K) (e : Flt K) (it : Nat) (ev : List Nat), P x → A.F x = .ok (v.map some) →
      A.norm v * θ ^ (k + 1) ≤ o.tol → it + k ≤ o.maxIter → k + 1 ≤ fuel → e.lt o.maxErr = true → A.norm v < o.maxErr →
      ∃ x' w n ev', armijo A o ls fuel ⟨x, e, it, false, ev⟩ = .ok (some ⟨x', .val (A.norm w), n, true, ev'⟩) ∧ P x' ∧
        A.F x' = .ok (w.map some) ∧ A.norm w ≤ o.tol ∧ n ≤ it + k + 1 := by
  intro k
  induction k with
  | zero =>
    intro fuel x v e it ev hP hv ht hit hf he hm
    obtain ⟨m, rfl⟩ : ∃ m, fuel = m + 1 := ⟨fuel - 1, by omega⟩
    obtain ⟨v', d, w, h1, h2, h3, h4, h5⟩ := hstep x hP
    have hvv : v' = v := by
      have := Except.ok.inj (h1.symm.trans hv)
      exact List.map_injective_iff.2 (Option.some_injective _) this
    subst hvv
    have hw : A.norm w ≤ o.tol := by
      have : A.norm v' * θ ^ (0 + 1) = θ * A.norm v' := by ring
      linarith
    have hp := pass_full htol hls (hnn v') h1 h2 h4 (h5.trans (mul_le_mul_of_nonneg_right hθ (hnn _))) e it ev
    refine ⟨_, w, it + 1, ev ++ [1], ?_, h3, h4, hw, by omega⟩
    rw [armijo.eq_def]
    dsimp only
    rw [if_pos (by simp [goOn, he]; omega), hp, Py.ok_bind]
    dsimp only
    rw [armijo.eq_def]
    dsimp only
    rw [if_neg (by simp [goOn, hw])]
    simp [hw]
  | succ k ih =>
    intro fuel x v e it ev hP hv ht hit hf he hm
    obtain ⟨m, rfl⟩ : ∃ m, fuel = m + 1 := ⟨fuel - 1, by omega⟩
    obtain ⟨v', d, w, h1, h2, h3, h4, h5⟩ := hstep x hP
    have hvv : v' = v := by
      have := Except.ok.inj (h1.symm.trans hv)
      exact List.map_injective_iff.2 (Option.some_injective _) this
    subst hvv
    have hp := pass_full htol hls (hnn v') h1 h2 h4 (h5.trans (mul_le_mul_of_nonneg_right hθ (hnn _))) e it ev
    by_cases hw : A.norm w ≤ o.tol
    · refine ⟨_, w, it + 1, ev ++ [1], ?_, h3, h4, hw, by omega⟩
      rw [armijo.eq_def]
      dsimp only
      rw [if_pos (by simp [goOn, he]; omega), hp, Py.ok_bind]
      dsimp only
      rw [armijo.eq_def]
      dsimp only
      rw [if_neg (by simp [goOn, hw])]
      simp [hw]
    · have hwm : A.norm w < o.maxErr := by
        have := mul_le_mul_of_nonneg_right hθ (hnn v')
        linarith [hnn v']
      obtain ⟨x', w', n, ev', e1, e2, e3, e4, e5⟩ := ih m (List.zipWith (· + ·) x d) w (.val (A.norm w)) (it + 1) (ev ++ [1]) h3 h4
        (by
          refine le_trans ?_ ht
          have : θ * A.norm v' * θ ^ (k + 1) = A.norm v' * θ ^ (k + 1 + 1) := by ring
          rw [← this]
          exact mul_le_mul_of_nonneg_right h5 (pow_nonneg hθ0 _))
        (by omega) (by omega) (by simp [Flt.lt, hwm]) hwm
      refine ⟨x', w', n, ev', ?_, e2, e3, e4, by omega⟩
      rw [armijo.eq_def]
      dsimp only
      rw [if_pos (by simp [goOn, he]; omega), hp, Py.ok_bind]
      dsimp only
      rw [show decide (A.norm w ≤ o.tol) = false by simp [hw]]
      exact e1

end armijo

end Beluga.Shoot
