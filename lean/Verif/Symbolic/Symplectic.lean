import Verif.Symbolic.Props4

/-! # The symplectic form with controls: lemmas for C30 -/

namespace Beluga.Sym

open Expr

section
variable {K : Type} [Field K] (I : Interp K) (ρ : Name → K)

theorem control_entry (N m k : Nat) (udot : List Expr) (i j : Nat) (hi : i < 2 * N) (hj : j < 2 * N) :
    entry (controlForm N m k udot) i j = if i = k ∧ 2 * N - m ≤ j then -(udot.getD (j - (2 * N - m)) 0)
      else if j = k ∧ 2 * N - m ≤ i then udot.getD (i - (2 * N - m)) 0
      else if i = j + N then num (-1) else if j = i + N then num 1 else num 0 := by
  rw [controlForm, entry_map_range _ _ _ _ hi hj]

theorem sum_control_upper (n m i : Nat) (udot : List Expr) (hi : i < n + m) (hik : i ≠ n - 1) (hn : 0 < n) (y : Nat → K) :
    ∑ j ∈ Finset.range (2 * (n + m)), eval I ρ (entry (controlForm (n + m) m (n - 1) udot) i j) * y j =
      y (i + (n + m)) := by
  rw [Finset.sum_eq_single_of_mem (i + (n + m)) (by simp; omega)]
  · rw [control_entry _ _ _ _ _ _ (by omega) (by omega), if_neg (by omega), if_neg (by omega), if_neg (by omega),
      if_pos rfl, eval_num_one, one_mul]
  · intro j hj hne
    rw [Finset.mem_range] at hj
    rw [control_entry _ _ _ _ _ _ (by omega) (by omega), if_neg (by omega), if_neg (by omega), if_neg (by omega),
      if_neg hne, eval_num_zero, zero_mul]

theorem sum_control_time (n m : Nat) (udot : List Expr) (hn : 0 < n) (y : Nat → K) :
    ∑ j ∈ Finset.range (2 * (n + m)), eval I ρ (entry (controlForm (n + m) m (n - 1) udot) (n - 1) j) * y j =
      y (n - 1 + (n + m)) - ∑ j ∈ Finset.range m, eval I ρ (udot.getD j 0) * y (n + j + (n + m)) := by
  have e : 2 * (n + m) = (2 * n + m) + m := by omega
  rw [e, Finset.sum_range_add, sub_eq_add_neg, ← Finset.sum_neg_distrib]
  congr 1
  · rw [Finset.sum_eq_single_of_mem (n - 1 + (n + m)) (by simp; omega)]
    · rw [control_entry _ _ _ _ _ _ (by omega) (by omega), if_neg (by omega), if_neg (by omega), if_neg (by omega),
        if_pos rfl, eval_num_one, one_mul]
    · intro j hj hne
      rw [Finset.mem_range] at hj
      rw [control_entry _ _ _ _ _ _ (by omega) (by omega), if_neg (by omega), if_neg (by omega), if_neg (by omega),
        if_neg hne, eval_num_zero, zero_mul]
  · apply Finset.sum_congr rfl
    intro j hj
    rw [Finset.mem_range] at hj
    rw [control_entry _ _ _ _ _ _ (by omega) (by omega), if_pos ⟨rfl, by omega⟩, eval_neg]
    have e1 : 2 * n + m + j - (2 * (n + m) - m) = j := by omega
    have e2 : 2 * n + m + j = n + j + (n + m) := by omega
    rw [e1, e2]
    ring

theorem sum_control_lower (n m a : Nat) (udot : List Expr) (ha : a < n) (y : Nat → K) :
    ∑ j ∈ Finset.range (2 * (n + m)), eval I ρ (entry (controlForm (n + m) m (n - 1) udot) (a + (n + m)) j) * y j =
      -y a := by
  rw [Finset.sum_eq_single_of_mem a (by simp; omega)]
  · rw [control_entry _ _ _ _ _ _ (by omega) (by omega), if_neg (by omega), if_neg (by omega), if_pos rfl,
      eval_num_neg_one, neg_one_mul]
  · intro j hj hne
    rw [Finset.mem_range] at hj
    rw [control_entry _ _ _ _ _ _ (by omega) (by omega), if_neg (by omega), if_neg (by omega), if_neg (by omega),
      if_neg (by omega), eval_num_zero, zero_mul]

theorem sum_control_ctl (n m j : Nat) (udot : List Expr) (hn : 0 < n) (hj : j < m) (y : Nat → K) :
    ∑ i ∈ Finset.range (2 * (n + m)), eval I ρ (entry (controlForm (n + m) m (n - 1) udot) (n + j + (n + m)) i) * y i =
      eval I ρ (udot.getD j 0) * y (n - 1) - y (n + j) := by
  rw [← Finset.sum_subset (s₁ := {n - 1, n + j})]
  · rw [Finset.sum_pair (by omega), control_entry _ _ _ _ _ _ (by omega) (by omega), if_neg (by omega),
      if_pos ⟨rfl, by omega⟩, control_entry _ _ _ _ _ _ (by omega) (by omega), if_neg (by omega), if_neg (by omega),
      if_pos (by omega), eval_num_neg_one]
    have e1 : n + j + (n + m) - (2 * (n + m) - m) = j := by omega
    rw [e1]
    ring
  · intro i hi
    simp only [Finset.mem_insert, Finset.mem_singleton] at hi
    rw [Finset.mem_range]
    omega
  · intro i hi hne
    simp only [Finset.mem_insert, Finset.mem_singleton, not_or] at hne
    rw [Finset.mem_range] at hi
    rw [control_entry _ _ _ _ _ _ (by omega) (by omega), if_neg (by omega), if_neg (by omega), if_neg (by omega),
      if_neg (by omega), eval_num_zero, zero_mul]

end

/-- The Hamiltonian vector field of the form with controls. -/
theorem vectorField_control {S : Sympy} (hS : LuSound S) {H : Expr} {n m : Nat} {udot : List Expr} {basis : List Name}
    {chi : List Expr} (h : vectorField S H (controlForm (n + m) m (n - 1) udot) basis = .ok chi)
    (hb : basis.length = 2 * (n + m)) (hn : 0 < n) :
    chi.length = 2 * (n + m) ∧ ∀ {K : Type} [Field K] (I : Interp K) (ρ : Name → K), (∀ e ∈ chi, Defined I ρ e) →
      (∀ a < n, eval I ρ (chi.getD a 0) = eval I ρ (H.diff (basis.getD (a + (n + m)) ""))) ∧
      (∀ j < m, eval I ρ (chi.getD (n + j) 0) = eval I ρ (H.diff (basis.getD (n + j + (n + m)) "")) +
        eval I ρ (udot.getD j 0) * eval I ρ (chi.getD (n - 1) 0)) ∧
      (∀ i < n + m, i ≠ n - 1 → eval I ρ (chi.getD (i + (n + m)) 0) = -eval I ρ (H.diff (basis.getD i ""))) ∧
      eval I ρ (chi.getD (n - 1 + (n + m)) 0) = -eval I ρ (H.diff (basis.getD (n - 1) "")) -
        ∑ j ∈ Finset.range m, eval I ρ (udot.getD j 0) * eval I ρ (H.diff (basis.getD (n + j) "")) := by
  rw [vectorField] at h
  cases hx : S.lu (controlForm (n + m) m (n - 1) udot) (basis.map fun b => H.diff b) with
  | error e => rw [hx] at h; cases h
  | ok x =>
    rw [hx] at h
    simp only [bind, Except.bind, Except.ok.injEq] at h
    subst h
    have hl : (controlForm (n + m) m (n - 1) udot).length = 2 * (n + m) := by simp [controlForm]
    have hlen := hS.length _ _ _ hx
    rw [hl] at hlen
    refine ⟨by simp [hlen], fun I ρ hd => ?_⟩
    have hg : ∀ j, j < 2 * (n + m) → (x.map fun e => -e).getD j 0 = -(x.getD j 0) := by
      intro j hj
      have hj' : j < x.length := by omega
      simp [List.getD, List.getElem?_eq_getElem hj']
    have hb' : ∀ j, j < 2 * (n + m) → (basis.map fun b => H.diff b).getD j 0 = H.diff (basis.getD j "") := by
      intro j hj
      have hj' : j < basis.length := by omega
      simp [List.getD, List.getElem?_eq_getElem hj']
    have hs : ∀ i < 2 * (n + m), ∑ j ∈ Finset.range (2 * (n + m)),
        eval I ρ (entry (controlForm (n + m) m (n - 1) udot) i j) * eval I ρ (x.getD j 0) =
          eval I ρ (H.diff (basis.getD i "")) := by
      intro i hi
      have := hS.solves _ _ _ hx I ρ i (by omega) (by
        intro j hj _
        have := hd (-(x.getD j 0)) (by
          rw [List.getD, List.getElem?_eq_getElem (by omega)]
          exact List.mem_map_of_mem (List.getElem_mem _))
        exact this.2)
      rw [hl, hb' _ hi] at this
      exact this
    have hA : ∀ i < n + m, i ≠ n - 1 → eval I ρ (x.getD (i + (n + m)) 0) = eval I ρ (H.diff (basis.getD i "")) := by
      intro i hi hik
      have := hs i (by omega)
      rwa [sum_control_upper I ρ n m i udot hi hik hn fun j => eval I ρ (x.getD j 0)] at this
    refine ⟨?_, ?_, ?_, ?_⟩
    · intro a ha
      have := hs (a + (n + m)) (by omega)
      rw [sum_control_lower I ρ n m a udot ha fun j => eval I ρ (x.getD j 0)] at this
      rw [hg _ (by omega), eval_neg, this]
    · intro j hj
      have := hs (n + j + (n + m)) (by omega)
      rw [sum_control_ctl I ρ n m j udot hn hj fun j => eval I ρ (x.getD j 0)] at this
      rw [hg _ (by omega), hg _ (by omega), eval_neg, eval_neg, ← this]
      ring
    · intro i hi hik
      rw [hg _ (by omega), eval_neg, hA i hi hik]
    · have := hs (n - 1) (by omega)
      rw [sum_control_time I ρ n m udot hn fun j => eval I ρ (x.getD j 0)] at this
      rw [hg _ (by omega), eval_neg, ← this]
      have e : ∑ j ∈ Finset.range m, eval I ρ (udot.getD j 0) * eval I ρ (x.getD (n + j + (n + m)) 0) =
          ∑ j ∈ Finset.range m, eval I ρ (udot.getD j 0) * eval I ρ (H.diff (basis.getD (n + j) "")) := by
        apply Finset.sum_congr rfl
        intro j hj
        rw [Finset.mem_range] at hj
        rw [hA (n + j) (by omega) (by omega)]
      rw [e]
      ring

end Beluga.Sym
