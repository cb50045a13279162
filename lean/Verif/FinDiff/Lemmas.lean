import Verif.FinDiff.Model
import Mathlib.LinearAlgebra.Lagrange
import Mathlib.Tactic.FieldSimp
import Mathlib.Tactic.Ring
import Mathlib.Tactic.LinearCombination

/-!
# Lemmas on the stencil recursion

The entry `coef_array[m, n, nu]` is the `m`-th derivative at zero of the Lagrange basis polynomial of the point `nu` among
the points `0, …, n`.
-/

namespace Beluga.FinDiff

open Polynomial

set_option linter.unusedSectionVars false

variable {K : Type} [Field K]

/-- A loop over `m` that overwrites entries `(m, n, nu)` by values computed from row `n - 1`. -/
theorem fold_put {F : Arr3 K → Nat → K} {n nu : Nat} (hn : 1 ≤ n)
    (hF : ∀ a b m, (∀ m' nu', a m' (n - 1) nu' = b m' (n - 1) nu') → F a m = F b m) (M : Nat) (a : Arr3 K) :
    (List.range M).foldl (fun a m => put a m n nu (F a m)) a =
      fun m' n' nu' => if m' < M ∧ n' = n ∧ nu' = nu then F a m' else a m' n' nu' := by
  induction M with
  | zero => funext m' n' nu'; simp
  | succ M ih =>
    rw [List.range_succ, List.foldl_append, ih, List.foldl_cons, List.foldl_nil]
    funext m' n' nu'
    rw [put]
    have hrow : F (fun m' n' nu' => if m' < M ∧ n' = n ∧ nu' = nu then F a m' else a m' n' nu') M = F a M := by
      refine hF _ _ _ fun m' nu' => ?_
      rw [if_neg (by omega)]
    by_cases h : m' = M ∧ n' = n ∧ nu' = nu
    · rw [if_pos h, if_pos ⟨by omega, h.2⟩, hrow, h.1]
    · rw [if_neg h]
      by_cases h2 : m' < M ∧ n' = n ∧ nu' = nu
      · rw [if_pos h2, if_pos ⟨by omega, h2.2⟩]
      · rw [if_neg h2, if_neg (by rintro ⟨h3, h4, h5⟩; exact h2 ⟨by omega, h4, h5⟩)]

/-- The value written by the first inner loop. -/
def oldVal (g : List K) (order n nu : Nat) (a : Arr3 K) (m : Nat) : K :=
  (g.getD n 0 * a m (n - 1) nu - (m : K) * a (wrap order m) (n - 1) nu) / (g.getD n 0 - g.getD nu 0)

/-- The value written by the second inner loop. -/
def newVal (g : List K) (order n : Nat) (c1 c2 : K) (a : Arr3 K) (m : Nat) : K :=
  c1 / c2 * ((m : K) * a (wrap order m) (n - 1) (n - 1) - g.getD (n - 1) 0 * a m (n - 1) (n - 1))

theorem stepNu_eq (g : List K) (order n nu : Nat) (hn : 1 ≤ n) (s : Arr3 K × K) :
    stepNu g order n s nu = (fun m' n' nu' => if m' < min n order + 1 ∧ n' = n ∧ nu' = nu then
      oldVal g order n nu s.1 m' else s.1 m' n' nu', s.2 * (g.getD n 0 - g.getD nu 0)) := by
  rw [stepNu]
  refine Prod.ext ?_ rfl
  exact fold_put (F := oldVal g order n nu) hn (fun a b m h => by rw [oldVal, oldVal, h, h]) _ _

theorem foldNu_eq (g : List K) (order n : Nat) (hn : 1 ≤ n) (s : Arr3 K × K) (k : Nat) :
    (List.range k).foldl (stepNu g order n) s = (fun m' n' nu' => if m' < min n order + 1 ∧ n' = n ∧ nu' < k then
      oldVal g order n nu' s.1 m' else s.1 m' n' nu', s.2 * ∏ j ∈ Finset.range k, (g.getD n 0 - g.getD j 0)) := by
  induction k with
  | zero => simp
  | succ k ih =>
    rw [List.range_succ, List.foldl_append, ih, List.foldl_cons, List.foldl_nil, stepNu_eq _ _ _ _ hn,
      Finset.prod_range_succ]
    refine Prod.ext ?_ (by rw [mul_assoc])
    funext m' n' nu'
    dsimp only
    have hrow : oldVal g order n k (fun m' n' nu' => if m' < min n order + 1 ∧ n' = n ∧ nu' < k then
        oldVal g order n nu' s.1 m' else s.1 m' n' nu') m' = oldVal g order n k s.1 m' := by
      rw [oldVal, oldVal, if_neg (by omega), if_neg (by omega)]
    by_cases h : m' < min n order + 1 ∧ n' = n ∧ nu' = k
    · rw [if_pos h, if_pos ⟨h.1, h.2.1, by omega⟩, hrow, h.2.2]
    · rw [if_neg h]
      by_cases h2 : m' < min n order + 1 ∧ n' = n ∧ nu' < k
      · rw [if_pos h2, if_pos ⟨h2.1, h2.2.1, by omega⟩]
      · rw [if_neg h2, if_neg (by rintro ⟨h3, h4, h5⟩; exact h2 ⟨h3, h4, by omega⟩)]

theorem stepN_eq (g : List K) (order n : Nat) (hn : 1 ≤ n) (s : Arr3 K × K) :
    stepN g order s n =
      (fun m' n' nu' =>
        if m' < min n order + 1 ∧ n' = n ∧ nu' = n then
          newVal g order n s.2 (∏ j ∈ Finset.range n, (g.getD n 0 - g.getD j 0)) s.1 m'
        else if m' < min n order + 1 ∧ n' = n ∧ nu' < n then oldVal g order n nu' s.1 m'
        else s.1 m' n' nu', ∏ j ∈ Finset.range n, (g.getD n 0 - g.getD j 0)) := by
  rw [stepN, foldNu_eq _ _ _ hn]
  refine Prod.ext ?_ (by simp)
  dsimp only
  rw [one_mul]
  have := fold_put (F := newVal g order n s.2 (∏ j ∈ Finset.range n, (g.getD n 0 - g.getD j 0))) (nu := n) hn
    (fun a b m h => by rw [newVal, newVal, h, h]) (min n order + 1)
    (fun m' n' nu' => if m' < min n order + 1 ∧ n' = n ∧ nu' < n then oldVal g order n nu' s.1 m' else s.1 m' n' nu')
  refine this.trans ?_
  funext m' n' nu'
  by_cases h : m' < min n order + 1 ∧ n' = n ∧ nu' = n
  · rw [if_pos h, if_pos h, newVal, newVal, if_neg (by omega), if_neg (by omega)]
  · rw [if_neg h, if_neg h]

/-! ### Basis polynomials -/

/-- The `m`-th derivative at zero. -/
noncomputable def der (m : Nat) (p : K[X]) : K := (m.factorial : K) * p.coeff m

theorem wrap_le {order m : Nat} (h : m ≤ order) : wrap order m ≤ order := by
  rw [wrap]; split <;> omega

theorem der_mul_X_sub (m order : Nat) (hm : m ≤ order) (a : K) (p : K[X]) :
    der m ((X - C a) * p) = (m : K) * der (wrap order m) p - a * der m p := by
  rw [der, der, der, wrap]
  cases m with
  | zero => simp [sub_mul]
  | succ m =>
    rw [if_neg (by omega), sub_mul, coeff_sub, coeff_X_mul, coeff_C_mul, Nat.add_sub_cancel, Nat.factorial_succ]
    push_cast
    ring

theorem der_C_mul (m : Nat) (a : K) (p : K[X]) : der m (C a * p) = a * der m p := by
  rw [der, der, coeff_C_mul]; ring

theorem basis_lt {v : Nat → K} {n nu : Nat} (h : nu < n) :
    Lagrange.basis (Finset.range (n + 1)) v nu =
      C (v nu - v n)⁻¹ * ((X - C (v n)) * Lagrange.basis (Finset.range n) v nu) := by
  rw [Lagrange.basis, Lagrange.basis, Finset.range_add_one,
    Finset.erase_insert_of_ne (by omega), Finset.prod_insert (by simp), Lagrange.basisDivisor, mul_assoc]

theorem basis_self (v : Nat → K) (n : Nat) :
    Lagrange.basis (Finset.range (n + 1)) v n =
      C (∏ j ∈ Finset.range n, (v n - v j))⁻¹ * ∏ j ∈ Finset.range n, (X - C (v j)) := by
  rw [Lagrange.basis, Finset.range_add_one, Finset.erase_insert (by simp), ← Finset.prod_inv_distrib, map_prod,
    ← Finset.prod_mul_distrib]
  rfl

theorem prod_ne_zero {v : Nat → K} {n : Nat} (h : ∀ j < n, v j ≠ v n) : ∏ j ∈ Finset.range n, (v n - v j) ≠ 0 := by
  refine Finset.prod_ne_zero_iff.2 fun j hj => ?_
  exact sub_ne_zero.2 (h j (Finset.mem_range.1 hj)).symm

theorem basis_succ {v : Nat → K} {n : Nat} (h : ∀ j < n, v j ≠ v n) :
    Lagrange.basis (Finset.range (n + 2)) v (n + 1) =
      C ((∏ j ∈ Finset.range n, (v n - v j)) / ∏ j ∈ Finset.range (n + 1), (v (n + 1) - v j)) *
        ((X - C (v n)) * Lagrange.basis (Finset.range (n + 1)) v n) := by
  rw [basis_self, basis_self, Finset.prod_range_succ (fun j => X - C (v j)), div_eq_mul_inv, C_mul]
  have h0 : (C (∏ j ∈ Finset.range n, (v n - v j)) : K[X]) * C (∏ j ∈ Finset.range n, (v n - v j))⁻¹ = 1 := by
    rw [← C_mul, mul_inv_cancel₀ (prod_ne_zero h), C_1]
  linear_combination (-(C (∏ j ∈ Finset.range (n + 1), (v (n + 1) - v j))⁻¹ *
    ((X - C (v n)) * ∏ j ∈ Finset.range n, (X - C (v j))))) * h0

/-- The state of the loop over `n` after the points `1, …, k`. -/
theorem fold_inv (g : List K) (order : Nat) {N : Nat} (hd : ∀ i < N, ∀ j < N, g.getD i 0 = g.getD j 0 → i = j) (k : Nat)
    (hk : k < N) :
    ∃ a, (List.range' 1 k).foldl (stepN g order) (put (fun _ _ _ => 0) 0 0 0 1, 1) =
        (a, ∏ j ∈ Finset.range k, (g.getD k 0 - g.getD j 0)) ∧
      (∀ m ≤ order, ∀ nu ≤ k, a m k nu = der m (Lagrange.basis (Finset.range (k + 1)) (fun i => g.getD i 0) nu)) ∧
      ∀ m n nu, k < n → a m n nu = 0 := by
  induction k with
  | zero =>
    refine ⟨_, rfl, fun m _ nu hnu => ?_, fun m n nu hn => ?_⟩
    · obtain rfl : nu = 0 := by omega
      rw [show Finset.range (0 + 1) = {0} by rfl, Lagrange.basis_singleton, der, put, coeff_one]
      by_cases hm : m = 0
      · subst hm; simp
      · rw [if_neg (by tauto), if_neg (by omega)]; simp
    · rw [put, if_neg (by omega)]
  | succ k ih =>
    obtain ⟨a, ha, h1, h2⟩ := ih (by omega)
    rw [List.range'_1_concat, List.foldl_append, ha, List.foldl_cons, List.foldl_nil, Nat.add_comm 1 k,
      stepN_eq _ _ _ (by omega)]
    refine ⟨_, rfl, fun m hm nu hnu => ?_, fun m n nu hn => ?_⟩
    · dsimp only
      have hdeg : ∀ nu ≤ k + 1, k + 1 < m →
          der m (Lagrange.basis (Finset.range (k + 2)) (fun i => g.getD i 0) nu) = 0 := by
        intro nu hnu hm
        rw [der, coeff_eq_zero_of_natDegree_lt, mul_zero]
        rw [Lagrange.natDegree_basis (s := Finset.range (k + 2)) (v := fun i => g.getD i 0) (i := nu)]
        · simpa using hm
        · intro i hi j hj hij
          simp only [Finset.coe_range, Set.mem_Iio] at hi hj
          exact hd i (by omega) j (by omega) hij
        · simp; omega
      by_cases hmk : m < min (k + 1) order + 1
      · by_cases hs : nu = k + 1
        · subst hs
          rw [if_pos ⟨hmk, rfl, rfl⟩, newVal, Nat.add_sub_cancel, h1 _ (wrap_le hm) _ le_rfl,
            h1 _ hm _ le_rfl, basis_succ (v := fun i => g.getD i 0) (fun j hj h => by
              have := hd j (by omega) k (by omega) h; omega), der_C_mul, der_mul_X_sub m order hm]
        · rw [if_neg (by tauto), if_pos ⟨hmk, rfl, by omega⟩, oldVal, Nat.add_sub_cancel,
            h1 _ (wrap_le hm) nu (by omega), h1 _ hm nu (by omega),
            basis_lt (v := fun i => g.getD i 0) (show nu < k + 1 by omega), der_C_mul, der_mul_X_sub m order hm]
          have hne : g.getD (k + 1) 0 - g.getD nu 0 ≠ 0 := by
            refine sub_ne_zero.2 fun h => ?_
            have := hd _ (by omega) _ (by omega) h; omega
          have hne' : g.getD nu 0 - g.getD (k + 1) 0 ≠ 0 := by
            rw [← neg_sub]; exact neg_ne_zero.2 hne
          have : (g.getD nu 0 - g.getD (k + 1) 0)⁻¹ = -(g.getD (k + 1) 0 - g.getD nu 0)⁻¹ := by
            rw [← neg_sub, inv_neg]
          rw [this]
          ring
      · rw [if_neg (by tauto), if_neg (by tauto), h2 _ _ _ (by omega), hdeg _ hnu (by omega)]
    · dsimp only
      rw [if_neg (by omega), if_neg (by omega), h2 _ _ _ (by omega)]

theorem getD_inj {g : List K} (h : g.Nodup) : ∀ i < g.length, ∀ j < g.length, g.getD i 0 = g.getD j 0 → i = j := by
  intro i hi j hj hij
  simp only [List.getD, List.getElem?_eq_getElem hi, List.getElem?_eq_getElem hj, Option.getD_some] at hij
  exact (List.Nodup.getElem_inj_iff h).1 hij

/-- The generated coefficients are derivatives of the basis polynomials. -/
theorem coeffs_ok {g : List K} (h : g.Nodup) {order : Nat} (ho : order < g.length) :
    coeffs order g = .ok ((List.range g.length).map fun nu =>
      der order (Lagrange.basis (Finset.range g.length) (fun i => g.getD i 0) nu)) := by
  rw [coeffs, if_neg (by omega)]
  obtain ⟨a, ha, h1, -⟩ := fold_inv g order (getD_inj h) (g.length - 1) (by omega)
  simp only [ha]
  congr 1
  refine List.map_congr_left fun nu hnu => ?_
  rw [List.mem_range] at hnu
  rw [h1 _ le_rfl _ (by omega), show g.length - 1 + 1 = g.length by omega]

end Beluga.FinDiff
