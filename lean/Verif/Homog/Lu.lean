import Verif.Homog.Lemmas
import Verif.Symbolic.Cramer

/-! # Units of the solutions of linear systems -/

namespace Beluga.Homog

open Beluga.Sym Beluga.Sym.Expr Beluga.Num

variable {U : Name → Nat → ℝ → ℝ} {Γ : Name → Expr}

/-- `LUsolve` respects units: if the entry of row `i` and column `j` has the unit `R i / X j` and the right-hand side of row
`i` the unit `R i`, then the `j`-th unknown has the unit `X j`. -/
def LuDim (U : Name → Nat → ℝ → ℝ) (Γ : Name → Expr) (S : Sympy) : Prop :=
  ∀ (M : List (List Expr)) (b x : List Expr) (R X : Nat → Expr), S.lu M b = .ok x → (∀ i, IsUnit U (R i)) → (∀ j, IsUnit U (X j)) →
    (∀ i < M.length, ∀ j < M.length, Dim U Γ (entry M i j) (R i / X j)) →
    (∀ i < M.length, Dim U Γ (b.getD i 0) (R i)) → ∀ j, ∀ e, x[j]? = some e → Dim U Γ e (X j)

/-- `sympy.solve` respects units: from equations that have a unit it computes symbols in their own units. -/
def SolveDim (U : Name → Nat → ℝ → ℝ) (Γ : Name → Expr) (S : Sympy) : Prop :=
  ∀ eqs syms, (∀ e ∈ eqs, ∃ d, Dim U Γ e d) → ∀ o ∈ S.solve eqs syms, ∀ x ∈ o, Dim U Γ x.2 (Γ x.1)

/-! ### Cramer's rule -/

/-- A product of units. -/
def prodE : Nat → (Nat → Expr) → Expr
  | 0, _ => 1
  | n + 1, R => prodE n R * R n

theorem eval_prodE (φ : Name → ℝ) : ∀ (n : Nat) (R : Nat → Expr),
    eval (real U) φ (prodE n R) = ∏ i : Fin n, eval (real U) φ (R i)
  | 0, R => by simp [prodE]
  | n + 1, R => by
    rw [Fin.prod_univ_castSucc, prodE, eval_mul, eval_prodE φ n]
    rfl

theorem prodE_unit : ∀ (n : Nat) {R : Nat → Expr}, (∀ i, IsUnit U (R i)) → IsUnit U (prodE n R)
  | 0, _, _ => isUnit_one
  | n + 1, _, h => IsUnit.mul (prodE_unit n h) (h n)

theorem detE_dim : ∀ (n : Nat) {A : Nat → Nat → Expr} {R X : Nat → Expr}, (∀ i, IsUnit U (R i)) → (∀ i, IsUnit U (X i)) →
    (∀ i < n, ∀ j < n, Dim U Γ (A i j) (R i / X j)) → Dim U Γ (detE n A) (prodE n R / prodE n X)
  | 0, A, R, X, _, _, _ => by
    refine .conv (.num 1) fun φ _ => ?_
    rw [eval_div, prodE, prodE, eval_one', div_one]
  | n + 1, A, R, X, hR, hX, h => by
    rw [detE]
    refine Dim.foldl_add (f := fun j : Nat => pow (num (-1)) j * A 0 j *
      detE n fun i k => A (i + 1) (if k < j then k else k + 1)) _ (.zero (IsUnit.div (prodE_unit _ hR) (prodE_unit _ hX))) fun j hj => ?_
    have hj : j < n + 1 := List.mem_range.1 hj
    have ih := detE_dim n (A := fun i k => A (i + 1) (if k < j then k else k + 1)) (R := fun i => R (i + 1))
      (X := fun k => X (if k < j then k else k + 1)) (fun i => hR _) (fun i => hX _)
      (fun i hi k hk => h (i + 1) (by omega) _ (by split <;> omega))
    refine .conv (.mul (.mul (.pow j (.num (-1))) (h 0 (by omega) j hj)) ih) fun φ hφ => ?_
    have e1 : eval (real U) φ (prodE (n + 1) R) = eval (real U) φ (R 0) * eval (real U) φ (prodE n fun i => R (i + 1)) := by
      rw [eval_prodE, eval_prodE, Fin.prod_univ_succ]
      rfl
    have e2 : eval (real U) φ (prodE (n + 1) X) =
        eval (real U) φ (X j) * eval (real U) φ (prodE n fun k => X (if k < j then k else k + 1)) := by
      rw [eval_prodE, eval_prodE, Fin.prod_univ_succAbove _ ⟨j, hj⟩]
      congr 1
      refine Finset.prod_congr rfl fun k _ => ?_
      congr 2
      by_cases hk : (k : Nat) < j
      · rw [if_pos hk, Fin.succAbove_of_castSucc_lt _ _ (by simpa [Fin.lt_def] using hk)]; rfl
      · rw [if_neg hk, Fin.succAbove_of_le_castSucc _ _ (by simpa [Fin.le_def] using hk)]; rfl
    have h1 : eval (real U) φ (pow 1 j) = 1 := by simp [eval]
    rw [eval_mul, eval_mul, eval_div, eval_div, eval_div, e1, e2, h1, one_mul, div_mul_div_comm]

/-- Cramer's rule respects units. -/
theorem luDim_cramer (S : Sympy) (h : S.lu = cramerLu) : LuDim U Γ S := by
  intro M b x R X hx hR hX hM hb j e he
  rw [h, cramerLu] at hx
  split at hx
  · cases hx
    set n := M.length with hn
    have hj : j < n := by
      have := (List.getElem?_eq_some_iff.1 he).1
      simpa using this
    rw [List.getElem?_map, List.getElem?_range hj] at he
    cases he
    have hR' := prodE_unit (U := U) n hR
    have hX' := prodE_unit (U := U) n hX
    -- the matrix with the right-hand side in column `j`: that column has the unit 1
    have h1 := detE_dim (U := U) (Γ := Γ) n (A := fun r c => if c = j then b.getD r 0 else entry M r c) (R := R)
      (X := fun c => if c = j then 1 else X c) hR (fun c => by split; exacts [isUnit_one, hX c]) (by
        intro r hr c hc
        by_cases hcj : c = j
        · simp only [if_pos hcj]
          refine .conv (hb r hr) fun φ _ => ?_
          rw [eval_div, eval_one', div_one]
        · simp only [if_neg hcj]
          exact hM r hr c hc)
    have h2 := detE_dim (U := U) (Γ := Γ) n hR hX hM
    refine .conv (.mul h1 (.inv h2)) fun φ hφ => ?_
    have e : eval (real U) φ (prodE n X) =
        eval (real U) φ (X j) * eval (real U) φ (prodE n fun c => if c = j then 1 else X c) := by
      rw [eval_prodE, eval_prodE, ← Finset.mul_prod_erase _ _ (Finset.mem_univ (⟨j, hj⟩ : Fin n)),
        ← Finset.mul_prod_erase (f := fun i : Fin n => eval (real U) φ (if (i : Nat) = j then 1 else X i)) _ (Finset.mem_univ (⟨j, hj⟩ : Fin n))]
      simp only [if_true, eval_one', one_mul]
      congr 1
      refine Finset.prod_congr rfl fun i hi => ?_
      have : (i : Nat) ≠ j := fun h => (Finset.mem_erase.1 hi).1 (Fin.ext h)
      rw [if_neg this]
    have p1 := (hR' φ hφ).ne'
    have p2 := (prodE_unit (U := U) n (R := fun c => if c = j then 1 else X c) (fun c => by split; exacts [isUnit_one, hX c]) φ hφ).ne'
    have p3 := (hX j φ hφ).ne'
    simp only [eval_div, eval, e]
    field_simp
  · cases hx

end Beluga.Homog
