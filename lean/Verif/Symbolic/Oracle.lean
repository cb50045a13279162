import Verif.Symbolic.Dual
import Mathlib.Algebra.BigOperators.Intervals

/-!
# What is assumed of sympy's `LUsolve`

`M.LUsolve(b)` refuses a matrix with a row of zeros, and otherwise returns expressions `x` with `M x = b`: each row of
the system holds at every point at which the unknowns that occur in the row are defined (no division by zero, e.g. by a
pivot).
-/

namespace Beluga.Sym

open Expr

namespace Expr

/-- No sub-expression divides by zero. -/
def Defined {K : Type _} [Field K] (I : Interp K) (ρ : Name → K) : Expr → Prop
  | num _ | pi | sym _ => True
  | add a b | mul a b => Defined I ρ a ∧ Defined I ρ b
  | inv a => Defined I ρ a ∧ eval I ρ a ≠ 0
  | pow a _ => Defined I ρ a
  | fn _ a => Defined I ρ a

end Expr

/-- Entry of a matrix of expressions. -/
def entry (M : List (List Expr)) (i j : Nat) : Expr := (M.getD i []).getD j 0

/-- `lu` solves linear systems. -/
structure LuSound (S : Sympy) : Prop where
  length : ∀ M b x, S.lu M b = .ok x → x.length = M.length
  solves : ∀ M b x, S.lu M b = .ok x → ∀ {K : Type} [Field K] (I : Interp K) (ρ : Name → K),
    ∀ i < M.length,
      (∀ j < M.length, entry M i j ≠ num 0 → Defined I ρ (x.getD j 0)) →
      ∑ j ∈ Finset.range M.length, eval I ρ (entry M i j) * eval I ρ (x.getD j 0) = eval I ρ (b.getD i 0)

theorem getD_map_range {α : Type _} (n : Nat) (f : Nat → α) (i : Nat) (d : α) (h : i < n) :
    ((List.range n).map f).getD i d = f i := by
  simp [List.getD, h]

theorem entry_map_range (n : Nat) (f : Nat → Nat → Expr) (i j : Nat) (hi : i < n) (hj : j < n) :
    entry ((List.range n).map fun i : Nat => (List.range n).map fun j : Nat => f i j) i j = f i j := by
  rw [entry, getD_map_range _ _ _ _ hi, getD_map_range _ _ _ _ hj]

section
variable {K : Type} [Field K] (I : Interp K) (ρ : Name → K)

theorem eval_num_one : eval I ρ (num 1) = 1 := by simp [eval]
theorem eval_num_neg_one : eval I ρ (num (-1)) = -1 := by simp [eval]
theorem eval_num_zero : eval I ρ (num 0) = 0 := by simp [eval]

/-- The rows of the standard form. -/
theorem sum_standard_upper (n i : Nat) (h : i < n) (y : Nat → K) :
    ∑ j ∈ Finset.range (2 * n), eval I ρ (entry (standardForm n) i j) * y j = y (i + n) := by
  rw [Finset.sum_eq_single_of_mem (i + n) (by simp; omega)]
  · rw [standardForm, entry_map_range _ _ _ _ (by omega) (by omega), if_neg (by omega), if_pos rfl, eval_num_one,
      one_mul]
  · intro j hj hne
    rw [Finset.mem_range] at hj
    rw [standardForm, entry_map_range _ _ _ _ (by omega) (by omega), if_neg (by omega), if_neg hne, eval_num_zero,
      zero_mul]

theorem sum_standard_lower (n i : Nat) (h : i < n) (y : Nat → K) :
    ∑ j ∈ Finset.range (2 * n), eval I ρ (entry (standardForm n) (i + n) j) * y j = -y i := by
  rw [Finset.sum_eq_single_of_mem i (by simp; omega)]
  · rw [standardForm, entry_map_range _ _ _ _ (by omega) (by omega), if_pos rfl, eval_num_neg_one, neg_one_mul]
  · intro j hj hne
    rw [Finset.mem_range] at hj
    rw [standardForm, entry_map_range _ _ _ _ (by omega) (by omega), if_neg (by omega), if_neg (by omega),
      eval_num_zero, zero_mul]

end

/-- The Hamiltonian vector field of the standard form is Hamilton's. -/
theorem vectorField_standard {S : Sympy} (hS : LuSound S) {H : Expr} {n : Nat} {basis : List Name} {chi : List Expr}
    (h : vectorField S H (standardForm n) basis = .ok chi) (hb : basis.length = 2 * n) :
    chi.length = 2 * n ∧ ∀ {K : Type} [Field K] (I : Interp K) (ρ : Name → K), ∀ i < n,
      (Defined I ρ (chi.getD i 0) → eval I ρ (chi.getD i 0) = eval I ρ (H.diff (basis.getD (i + n) ""))) ∧
      (Defined I ρ (chi.getD (i + n) 0) →
        eval I ρ (chi.getD (i + n) 0) = -eval I ρ (H.diff (basis.getD i ""))) := by
  rw [vectorField] at h
  cases hx : S.lu (standardForm n) (basis.map fun b => H.diff b) with
  | error e => rw [hx] at h; cases h
  | ok x =>
    rw [hx] at h
    simp only [bind, Except.bind, Except.ok.injEq] at h
    subst h
    have hl : (standardForm n).length = 2 * n := by simp [standardForm]
    have hlen := hS.length _ _ _ hx
    rw [hl] at hlen
    refine ⟨by simp [hlen], fun I ρ i hi => ?_⟩
    have hs := hS.solves _ _ _ hx I ρ
    rw [hl] at hs
    have hg : ∀ j, j < 2 * n → (x.map fun e => -e).getD j 0 = -(x.getD j 0) := by
      intro j hj
      have hj' : j < x.length := by omega
      simp [List.getD, List.getElem?_eq_getElem hj']
    have hb' : ∀ j, j < 2 * n → (basis.map fun b => H.diff b).getD j 0 = H.diff (basis.getD j "") := by
      intro j hj
      have hj' : j < basis.length := by omega
      simp [List.getD, List.getElem?_eq_getElem hj']
    rw [hg _ (by omega), hg _ (by omega), eval_neg, eval_neg]
    have hz : ∀ a b, entry (standardForm n) a b ≠ num 0 → a < 2 * n → b < 2 * n → a = b + n ∨ b = a + n := by
      intro a b h ha hb
      rw [standardForm, entry_map_range _ _ _ _ ha hb] at h
      by_contra hc
      rw [not_or] at hc
      rw [if_neg hc.1, if_neg hc.2] at h
      exact h rfl
    constructor
    · intro hd
      have h2 := hs (i + n) (by omega) (by
          intro j hj he
          rcases hz _ _ he (by omega) hj with h | h
          · rw [show j = i by omega]; exact hd.2
          · omega)
      rw [sum_standard_lower I ρ n i hi, hb' _ (by omega)] at h2
      exact h2
    · intro hd
      have h1 := hs i (by omega) (by
          intro j hj he
          rcases hz _ _ he (by omega) hj with h | h
          · omega
          · rw [h]; exact hd.2)
      rw [sum_standard_upper I ρ n i hi, hb' _ (by omega)] at h1
      rw [h1]

end Beluga.Sym
