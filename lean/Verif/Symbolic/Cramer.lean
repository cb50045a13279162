import Verif.Symbolic.Oracle
import Mathlib.LinearAlgebra.Matrix.Adjugate
import Mathlib.LinearAlgebra.Matrix.Determinant.Basic

/-! # The assumption on `LUsolve` can be met: Cramer's rule -/

namespace Beluga.Sym

open Expr

/-- Determinant by expansion along the first row. -/
def detE : Nat → (Nat → Nat → Expr) → Expr
  | 0, _ => 1
  | n + 1, A => (List.range (n + 1)).foldl (fun acc j =>
      acc + pow (num (-1)) j * A 0 j * detE n fun i k => A (i + 1) (if k < j then k else k + 1)) 0

/-- The `i`-th unknown by Cramer's rule. -/
def cramerE (n : Nat) (A : Nat → Nat → Expr) (b : Nat → Expr) (i : Nat) : Expr :=
  detE n (fun r c => if c = i then b r else A r c) * inv (detE n A)

/-- A `LUsolve` that works for every square system. -/
def cramerLu (M : List (List Expr)) (b : List Expr) : Py (List Expr) :=
  if b.length = M.length ∧ ∀ i < M.length, ∃ j < M.length, entry M i j ≠ num 0 then
    .ok ((List.range M.length).map (cramerE M.length (entry M) fun i => b.getD i 0))
  else .error .valueError

theorem eval_detE {K : Type} [Field K] (I : Interp K) (ρ : Name → K) : ∀ (n : Nat) (A : Nat → Nat → Expr),
    eval I ρ (detE n A) = (Matrix.of fun i j : Fin n => eval I ρ (A i j)).det
  | 0, A => by simp [detE]
  | n + 1, A => by
    rw [Matrix.det_succ_row_zero, detE, eval_foldl_add, eval_zero, zero_add]
    have hsum : ∀ (m : Nat) (g : Nat → K), ((List.range m).map g).sum = ∑ j : Fin m, g j := by
      intro m g
      rw [Fin.sum_univ_eq_sum_range]
      induction m with
      | zero => simp
      | succ m ih => rw [List.range_succ, List.map_append, List.sum_append, ih, Finset.sum_range_succ]; simp
    rw [hsum]
    apply Finset.sum_congr rfl
    intro j _
    rw [eval_mul, eval_mul, eval_detE I ρ n]
    have h1 : eval I ρ (pow (num (-1)) (j : Nat)) = (-1) ^ (j : Nat) := by simp [eval]
    rw [h1]
    congr 2
    ext i k
    simp only [Matrix.of_apply, Matrix.submatrix_apply, Fin.val_succ]
    congr 2
    by_cases hk : (k : Nat) < j
    · rw [if_pos hk, Fin.succAbove_of_castSucc_lt _ _ (by simpa [Fin.lt_def] using hk)]; rfl
    · rw [if_neg hk, Fin.succAbove_of_le_castSucc _ _ (by simpa [Fin.le_def] using hk)]; rfl

/-- Cramer's rule satisfies the assumption. -/
theorem luSound_cramer (S : Sympy) (h : S.lu = cramerLu) : LuSound S where
  length M b x hx := by
    rw [h, cramerLu] at hx
    split at hx
    · cases hx; simp
    · cases hx
  solves M b x hx K _ I ρ i hi hd := by
    rw [h, cramerLu] at hx
    split at hx
    · next hc =>
      cases hx
      have h0 : eval I ρ (detE M.length (entry M)) ≠ 0 :=
by
        obtain ⟨j, hj, hne⟩ := hc.2 i hi
        have := hd j hj hne
        rw [getD_map_range _ _ _ _ hj] at this
        exact this.2.2
      set n := M.length with hn
      let A : Matrix (Fin n) (Fin n) K := Matrix.of fun i j => eval I ρ (entry M i j)
      let v : Fin n → K := fun i => eval I ρ (b.getD i 0)
      have hdet : eval I ρ (detE n (entry M)) = A.det := eval_detE I ρ n _
      have hx : ∀ j : Fin n, eval I ρ (((List.range n).map (cramerE n (entry M) fun i => b.getD i 0)).getD j 0) =
          A.cramer v j / A.det := by
        intro j
        rw [getD_map_range _ _ _ _ j.2, cramerE, Matrix.cramer_apply]
        change eval I ρ _ * (eval I ρ _)⁻¹ = _
        rw [hdet, eval_detE, div_eq_mul_inv]
        congr 2
        ext r c
        rw [Matrix.updateCol_apply, Matrix.of_apply]
        by_cases hc : c = j
        · subst hc; simp [v]
        · rw [if_neg (fun e => hc (Fin.ext e)), if_neg hc]; rfl
      rw [← Fin.sum_univ_eq_sum_range (fun j => eval I ρ (entry M i j) *
        eval I ρ (((List.range n).map (cramerE n (entry M) fun i => b.getD i 0)).getD j 0))]
      simp only [hx]
      have key := congrFun (Matrix.mulVec_cramer A v) ⟨i, hi⟩
      simp only [Matrix.mulVec, dotProduct, Pi.smul_apply, smul_eq_mul] at key
      rw [hdet] at h0
      have : ∑ j : Fin n, eval I ρ (entry M i j) * (A.cramer v j / A.det) =
          (∑ j : Fin n, A ⟨i, hi⟩ j * A.cramer v j) / A.det := by
        rw [div_eq_mul_inv, Finset.sum_mul]
        apply Finset.sum_congr rfl
        intro j _
        rw [← mul_div_assoc, div_eq_mul_inv]; rfl
      rw [this, key, mul_div_cancel_left₀ _ h0]
    · cases hx

/-- A sympy for the examples: Cramer's rule, no `solve`, no `integrate`. -/
def exSympy : Sympy := ⟨fun _ _ => [], cramerLu, fun _ _ => 0⟩

theorem exSympy_sound : LuSound exSympy := luSound_cramer _ rfl

end Beluga.Sym
