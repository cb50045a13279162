import Verif.Spline.Model
import Mathlib.LinearAlgebra.Matrix.Gershgorin
import Mathlib.Analysis.Calculus.Deriv.Pow
import Mathlib.Analysis.Calculus.Deriv.Mul
import Mathlib.Analysis.Calculus.Deriv.Add
import Mathlib.Tactic.FieldSimp
import Mathlib.Tactic.Ring
import Mathlib.Tactic.Linarith

/-!
# Lemmas on spline tables
-/

namespace Beluga.Spline

set_option linter.unusedSectionVars false

/-! ### The linear system -/

section
variable {K : Type} [Field K]

theorem sum_ite_val (m c : Nat) (g : Nat → K) :
    ∑ j : Fin m, (if (j : Nat) = c then g j else 0) = if c < m then g c else 0 := by
  rw [Fin.sum_univ_eq_sum_range (fun j => if j = c then g j else 0) m, Finset.sum_ite_eq' (Finset.range m) c g]
  simp only [Finset.mem_range]

theorem pad_succ {m : Nat} (z : Fin m → K) (i : Fin m) : pad z (i + 1) = z i := by
  rw [pad, if_neg (by omega), dif_pos (show (i : Nat) + 1 - 1 < m by have := i.2; omega)]
  congr 1

theorem pad_end {m : Nat} (z : Fin m → K) {i : Nat} (h : m < i) : pad z i = 0 := by
  rw [pad, if_neg (by omega), dif_neg (by omega)]

theorem pad_zero {m : Nat} (z : Fin m → K) : pad z 0 = 0 := rfl

/-- A row of the system. -/
theorem row_sum (x : List K) {m : Nat} (z : Fin m → K) (i : Fin m) :
    ∑ j, matCoeff x m i j * z j =
      h x i * pad z i + v x i * pad z (i + 1) + h x (i + 1) * pad z (i + 2) := by
  have e : ∀ j : Fin m, matCoeff x m i j * z j =
      (if (j : Nat) = i then v x i * pad z (i + 1) else 0) +
        (if (j : Nat) = i + 1 then h x (i + 1) * pad z (i + 2) else 0) +
        (if (j : Nat) = i - 1 then (if (i : Nat) = 0 then 0 else h x i * pad z i) else 0) := by
    intro j
    rw [matCoeff, add_mul, add_mul, ← pad_succ z j]
    congr 1
    · congr 1
      · by_cases hij : (i : Nat) = j
        · rw [if_pos hij, if_pos hij.symm, hij]
        · rw [if_neg hij, if_neg (Ne.symm hij), zero_mul]
      · by_cases hij : (j : Nat) = i + 1
        · rw [if_pos hij, if_pos hij, hij]
        · rw [if_neg hij, if_neg hij, zero_mul]
    · by_cases hij : (i : Nat) = j + 1
      · rw [if_pos hij, if_pos (by omega), if_neg (by omega), hij]
      · rw [if_neg hij, zero_mul]
        by_cases h2 : (j : Nat) = i - 1
        · rw [if_pos h2, if_pos (by omega)]
        · rw [if_neg h2]
  simp only [e]
  rw [Finset.sum_add_distrib, Finset.sum_add_distrib, sum_ite_val m i fun _ => v x i * pad z (i + 1),
    sum_ite_val m (i + 1) fun _ => h x (i + 1) * pad z (i + 2),
    sum_ite_val m (i - 1) fun _ => if (i : Nat) = 0 then 0 else h x i * pad z i]
  have hi := i.2
  rw [if_pos hi, if_pos (show (i : Nat) - 1 < m by omega)]
  have h1 : (if (i : Nat) + 1 < m then h x (i + 1) * pad z (i + 2) else 0) = h x (i + 1) * pad z (i + 2) := by
    by_cases hc : (i : Nat) + 1 < m
    · rw [if_pos hc]
    · rw [if_neg hc, pad_end z (by omega), mul_zero]
  have h2 : (if (i : Nat) = 0 then 0 else h x i * pad z i) = h x i * pad z i := by
    by_cases hc : (i : Nat) = 0
    · rw [if_pos hc, hc, pad_zero, mul_zero]
    · rw [if_neg hc]
  rw [h1, h2]
  ring

end

/-- What is assumed of `np.linalg.solve`: a nonsingular system is solved. -/
def SolverSound (solve : Solver ℝ) : Prop :=
  ∀ m (M : Fin m → Fin m → ℝ) (r : Fin m → ℝ), (Matrix.of M).det ≠ 0 →
    ∃ z, solve m M r = .ok z ∧ ∀ i, ∑ j, M i j * z j = r i

/-- Increasing abscissae. -/
def Increasing (x : List ℝ) : Prop := x.Pairwise (· < ·)

theorem getD_lt {x : List ℝ} (hx : Increasing x) {i j : Nat} (hij : i < j) (hj : j < x.length) : x.getD i 0 < x.getD j 0 := by
  have hi : i < x.length := by omega
  simp only [List.getD, List.getElem?_eq_getElem hi, List.getElem?_eq_getElem hj, Option.getD_some]
  exact List.pairwise_iff_getElem.1 hx i j hi hj hij

theorem getD_le {x : List ℝ} (hx : Increasing x) {i j : Nat} (hij : i ≤ j) (hj : j < x.length) :
    x.getD i 0 ≤ x.getD j 0 := by
  rcases Nat.eq_or_lt_of_le hij with rfl | h
  · exact le_refl _
  · exact (getD_lt hx h hj).le

theorem h_pos {x : List ℝ} (hx : Increasing x) {i : Nat} (hi : i + 1 < x.length) : 0 < h x i :=
  sub_pos.2 (getD_lt hx (by omega) hi)

/-- The system is strictly diagonally dominant. -/
theorem det_ne_zero {x : List ℝ} (hx : Increasing x) {m : Nat} (hm : m + 2 ≤ x.length) :
    (Matrix.of (matCoeff x m)).det ≠ 0 := by
  refine det_ne_zero_of_sum_row_lt_diag fun k => ?_
  have hk := k.2
  have p1 := h_pos hx (i := k) (by omega)
  have p2 := h_pos hx (i := k + 1) (by omega)
  have hd : ‖(Matrix.of (matCoeff x m)) k k‖ = 2 * (h x k + h x (k + 1)) := by
    rw [Matrix.of_apply, matCoeff, if_pos rfl, if_neg (by omega), add_zero, add_zero, v, Real.norm_eq_abs,
      abs_of_pos (by linarith)]
  rw [hd]
  have hle : ∑ j ∈ Finset.univ.erase k, ‖(Matrix.of (matCoeff x m)) k j‖ ≤
      ∑ j : Fin m, ((if (j : Nat) = k + 1 then h x (k + 1) else 0) +
        (if (j : Nat) = k - 1 then (if (k : Nat) = 0 then 0 else h x k) else 0)) := by
    refine (Finset.sum_le_sum (g := fun j : Fin m => (if (j : Nat) = k + 1 then h x (k + 1) else 0) +
        (if (j : Nat) = k - 1 then (if (k : Nat) = 0 then 0 else h x k) else 0)) fun j hj => ?_).trans
      (Finset.sum_le_univ_sum_of_nonneg fun j => ?_)
    · have hjk : j ≠ k := (Finset.mem_erase.1 hj).1
      have hjk' : (k : Nat) ≠ j := fun e => hjk (Fin.ext e.symm)
      rw [Matrix.of_apply, matCoeff, if_neg hjk', zero_add]
      by_cases h1 : (j : Nat) = k + 1
      · rw [if_pos h1, if_neg (by omega), add_zero, Real.norm_eq_abs, abs_of_pos p2, if_neg (by omega), add_zero]
      · rw [if_neg h1, zero_add, zero_add]
        by_cases h2 : (k : Nat) = j + 1
        · rw [if_pos h2, if_pos (by omega), if_neg (by omega), Real.norm_eq_abs, ← h2, abs_of_pos p1]
        · rw [if_neg h2, norm_zero]
          split
          · split
            · exact le_refl _
            · exact p1.le
          · exact le_refl _
    · refine add_nonneg ?_ ?_
      · split
        · exact p2.le
        · exact le_refl _
      · split
        · split
          · exact le_refl _
          · exact p1.le
        · exact le_refl _
  refine lt_of_le_of_lt hle ?_
  rw [Finset.sum_add_distrib, sum_ite_val m (k + 1) fun _ => h x (k + 1),
    sum_ite_val m (k - 1) fun _ => if (k : Nat) = 0 then 0 else h x k]
  have e1 : (if (k : Nat) + 1 < m then h x (k + 1) else 0) ≤ h x (k + 1) := by
    split
    · exact le_refl _
    · exact p2.le
  have e2 : (if (k : Nat) - 1 < m then (if (k : Nat) = 0 then 0 else h x k) else 0) ≤ h x k := by
    split
    · split
      · exact p1.le
      · exact le_refl _
    · exact p1.le
  linarith

/-! ### Pieces -/

section
variable (x y : List ℝ) (z : Nat → ℝ) (i : Nat)

/-- The formulas of `form_eval_function` with the coefficients of segment `i`. -/
noncomputable def piece (x y : List ℝ) (z : Nat → ℝ) (i : Nat) : Nat → ℝ → ℝ
  | 0, t => (row x y z i).1 * (t - x.getD i 0) ^ 3 + (row x y z i).2.1 * (x.getD (i + 1) 0 - t) ^ 3 +
      (row x y z i).2.2.1 * (t - x.getD i 0) + (row x y z i).2.2.2 * (x.getD (i + 1) 0 - t)
  | 1, t => 3 * ((row x y z i).1 * (t - x.getD i 0) ^ 2 - (row x y z i).2.1 * (x.getD (i + 1) 0 - t) ^ 2) +
      (row x y z i).2.2.1 - (row x y z i).2.2.2
  | 2, t => 6 * ((row x y z i).1 * (t - x.getD i 0) + (row x y z i).2.1 * (x.getD (i + 1) 0 - t))
  | 3, _ => 6 * ((row x y z i).1 - (row x y z i).2.1)
  | _, _ => 0

theorem piece_deriv (k : Nat) (t : ℝ) : HasDerivAt (piece x y z i k) (piece x y z i (k + 1) t) t := by
  have h1 : HasDerivAt (fun t => t - x.getD i 0) 1 t := (hasDerivAt_id' t).sub_const _
  have h2 : HasDerivAt (fun t => x.getD (i + 1) 0 - t) (-1) t := by
    refine ((hasDerivAt_const t (x.getD (i + 1) 0)).sub (hasDerivAt_id' t)).congr_deriv ?_
    ring
  rcases k with _ | _ | _ | _ | k
  · refine ((((h1.pow 3).const_mul (row x y z i).1).add ((h2.pow 3).const_mul (row x y z i).2.1)).add
      (h1.const_mul (row x y z i).2.2.1)).add (h2.const_mul (row x y z i).2.2.2) |>.congr_deriv ?_
    simp only [piece]; push_cast; ring
  · refine ((((h1.pow 2).const_mul (row x y z i).1).sub ((h2.pow 2).const_mul (row x y z i).2.1)).const_mul 3
      |>.add_const (row x y z i).2.2.1 |>.sub_const (row x y z i).2.2.2) |>.congr_deriv ?_
    simp only [piece]; push_cast; ring
  · refine (((h1.const_mul (row x y z i).1).add (h2.const_mul (row x y z i).2.1)).const_mul 6) |>.congr_deriv ?_
    simp only [piece]; ring
  · exact hasDerivAt_const _ _
  · exact hasDerivAt_const _ _

variable {x i}

theorem piece_left (hh : h x i ≠ 0) : piece x y z i 0 (x.getD i 0) = y.getD i 0 := by
  have : x.getD (i + 1) 0 - x.getD i 0 = h x i := rfl
  simp only [piece, row, this, sub_self]
  field_simp
  ring

theorem piece_right (hh : h x i ≠ 0) : piece x y z i 0 (x.getD (i + 1) 0) = y.getD (i + 1) 0 := by
  have : x.getD (i + 1) 0 - x.getD i 0 = h x i := rfl
  simp only [piece, row, this, sub_self]
  field_simp
  ring

theorem piece2_left (hh : h x i ≠ 0) : piece x y z i 2 (x.getD i 0) = z i := by
  have : x.getD (i + 1) 0 - x.getD i 0 = h x i := rfl
  simp only [piece, row, this, sub_self]
  field_simp
  ring

theorem piece2_right (hh : h x i ≠ 0) : piece x y z i 2 (x.getD (i + 1) 0) = z (i + 1) := by
  have : x.getD (i + 1) 0 - x.getD i 0 = h x i := rfl
  simp only [piece, row, this, sub_self]
  field_simp
  ring

theorem piece1_left (hh : h x i ≠ 0) :
    piece x y z i 1 (x.getD i 0) = b x y i - h x i * (2 * z i + z (i + 1)) / 6 := by
  have : x.getD (i + 1) 0 - x.getD i 0 = h x i := rfl
  simp only [piece, row, this, sub_self, b]
  field_simp
  ring

theorem piece1_right (hh : h x i ≠ 0) :
    piece x y z i 1 (x.getD (i + 1) 0) = b x y i + h x i * (z i + 2 * z (i + 1)) / 6 := by
  have : x.getD (i + 1) 0 - x.getD i 0 = h x i := rfl
  simp only [piece, row, this, sub_self, b]
  field_simp
  ring

end

/-- Neighbouring pieces agree at the common point, with their first two derivatives, if the system is solved. -/
theorem pieces_match {x y : List ℝ} {z : Nat → ℝ} {i : Nat} (hh : h x i ≠ 0) (hh' : h x (i + 1) ≠ 0)
    (hsys : h x i * z i + v x i * z (i + 1) + h x (i + 1) * z (i + 2) = u x y i) {k : Nat} (hk : k ≤ 2) :
    piece x y z i k (x.getD (i + 1) 0) = piece x y z (i + 1) k (x.getD (i + 1) 0) := by
  rcases k with _ | _ | _ | k
  · rw [piece_right y z hh, piece_left y z hh']
  · rw [piece1_right y z hh, piece1_left y z hh']
    rw [v, u] at hsys
    linarith
  · rw [piece2_right y z hh, piece2_left y z hh']
  · omega

/-! ### Gluing -/

theorem glue_deriv {X : Nat → ℝ} {S S' : ℝ → ℝ} : ∀ n, (∀ i < n, X i ≤ X (i + 1)) →
    (∀ i < n, ∀ t ∈ Set.Icc (X i) (X (i + 1)), HasDerivWithinAt S (S' t) (Set.Icc (X i) (X (i + 1))) t) →
    ∀ t ∈ Set.Icc (X 0) (X n), HasDerivWithinAt S (S' t) (Set.Icc (X 0) (X n)) t := by
  intro n
  induction n with
  | zero =>
    intro _ _ t _
    rw [Set.Icc_self]
    exact HasFDerivWithinAt.of_subsingleton Set.subsingleton_singleton
  | succ n ih =>
    intro hmono hd t ht
    have hmono' : X 0 ≤ X n := by
      have : ∀ j ≤ n, X 0 ≤ X j := by
        intro j
        induction j with
        | zero => intro _; exact le_refl _
        | succ j ihj => intro hj; exact (ihj (by omega)).trans (hmono j (by omega))
      exact this n le_rfl
    rw [← Set.Icc_union_Icc_eq_Icc hmono' (hmono n (by omega))]
    refine HasDerivWithinAt.union ?_ ?_
    · by_cases h1 : t ∈ Set.Icc (X 0) (X n)
      · exact ih (fun i hi => hmono i (by omega)) (fun i hi => hd i (by omega)) t h1
      · refine HasFDerivWithinAt.of_notMem_closure ?_
        rwa [isClosed_Icc.closure_eq]
    · by_cases h1 : t ∈ Set.Icc (X n) (X (n + 1))
      · exact hd n (by omega) t h1
      · refine HasFDerivWithinAt.of_notMem_closure ?_
        rwa [isClosed_Icc.closure_eq]

theorem glue_cont {X : Nat → ℝ} {S : ℝ → ℝ} : ∀ n, (∀ i < n, X i ≤ X (i + 1)) →
    (∀ i < n, ContinuousOn S (Set.Icc (X i) (X (i + 1)))) → ContinuousOn S (Set.Icc (X 0) (X n)) := by
  intro n
  induction n with
  | zero =>
    intro _ _
    rw [Set.Icc_self]
    exact continuousOn_singleton S (X 0)
  | succ n ih =>
    intro hmono hd
    have hmono' : X 0 ≤ X n := by
      have : ∀ j ≤ n, X 0 ≤ X j := by
        intro j
        induction j with
        | zero => intro _; exact le_refl _
        | succ j ihj => intro hj; exact (ihj (by omega)).trans (hmono j (by omega))
      exact this n le_rfl
    rw [← Set.Icc_union_Icc_eq_Icc hmono' (hmono n (by omega))]
    exact (ih (fun i hi => hmono i (by omega)) (fun i hi => hd i (by omega))).union_of_isClosed (hd n (by omega))
      isClosed_Icc isClosed_Icc

/-! ### The lookup -/

theorem searchRight_eq {x : List ℝ} (hx : Increasing x) {i : Nat} (hi : i + 1 < x.length) {t : ℝ}
    (h1 : x.getD i 0 ≤ t) (h2 : t < x.getD (i + 1) 0) : searchRight x t = i + 1 := by
  rw [searchRight]
  have : x.filter (fun a => decide (a ≤ t)) = x.take (i + 1) := by
    conv_lhs => rw [← List.take_append_drop (i + 1) x]
    rw [List.filter_append, List.filter_eq_self.2, List.filter_eq_nil_iff.2, List.append_nil]
    · intro a ha
      obtain ⟨j, hj, rfl⟩ := List.mem_iff_getElem.1 ha
      rw [List.getElem_drop]
      rw [List.length_drop] at hj
      have := getD_le hx (show i + 1 ≤ i + 1 + j by omega) (by omega)
      simp only [List.getD, List.getElem?_eq_getElem (show i + 1 + j < x.length by omega), Option.getD_some] at this
      simp only [decide_eq_true_eq, not_le]
      refine lt_of_lt_of_le h2 ?_
      rw [List.getD]
      exact this
    · intro a ha
      obtain ⟨j, hj, rfl⟩ := List.mem_iff_getElem.1 ha
      rw [List.getElem_take]
      rw [List.length_take] at hj
      have := getD_le hx (show j ≤ i by omega) (by omega)
      simp only [List.getD, List.getElem?_eq_getElem (show j < x.length by omega), Option.getD_some] at this
      simp only [decide_eq_true_eq]
      refine le_trans ?_ h1
      rw [List.getD]
      exact this
  rw [this, List.length_take]
  omega

theorem searchRight_last {x : List ℝ} {t : ℝ} (h : ∀ a ∈ x, a ≤ t) : searchRight x t = x.length := by
  rw [searchRight, List.filter_eq_self.2]
  intro a ha
  simpa using h a ha

theorem segment_exists {X : Nat → ℝ} {n : Nat} {t : ℝ} (h0 : X 0 ≤ t) (hn : t < X n) :
    ∃ i < n, X i ≤ t ∧ t < X (i + 1) := by
  induction n with
  | zero => exact absurd h0 (not_le.2 hn)
  | succ n ih =>
    by_cases h : t < X n
    · obtain ⟨i, hi, h1⟩ := ih h
      exact ⟨i, by omega, h1⟩
    · exact ⟨n, by omega, not_lt.1 h, hn⟩

theorem interp_eq {x y : List ℝ} (hx : Increasing x) {m : Nat} (hm : x.length = m + 2) (z : Fin m → ℝ) {i : Nat} (hi : i < m + 1)
    {t : ℝ} (h1 : x.getD i 0 ≤ t) (h2 : t < x.getD (i + 1) 0) (k : Nat) :
    interp ⟨x, (List.range (m + 1)).map (row x y (pad z))⟩ k t = .ok (piece x y (pad z) i k t) := by
  have hs := searchRight_eq hx (i := i) (by omega) h1 h2
  have e1 : at' ((List.range (m + 1)).map (row x y (pad z))) (((i + 1 : Nat) : Int) - 1) = .ok (row x y (pad z) i) := by
    rw [at', show (((i + 1 : Nat) : Int) - 1) = (i : Int) by omega, if_neg (by omega), Int.toNat_natCast, List.getElem?_map,
      List.getElem?_range hi]
    rfl
  have e2 : at' x (((i + 1 : Nat) : Int) - 1) = .ok (x.getD i 0) := by
    rw [at', show (((i + 1 : Nat) : Int) - 1) = (i : Int) by omega, if_neg (by omega), Int.toNat_natCast,
      List.getElem?_eq_getElem (show i < x.length by omega)]
    simp [List.getD, List.getElem?_eq_getElem (show i < x.length by omega)]
  have e3 : at' x ((i + 1 : Nat) : Int) = .ok (x.getD (i + 1) 0) := by
    rw [at', if_neg (by omega), Int.toNat_natCast, List.getElem?_eq_getElem (show i + 1 < x.length by omega)]
    simp [List.getD, List.getElem?_eq_getElem (show i + 1 < x.length by omega)]
  rcases k with _ | _ | _ | _ | k
  · simp only [interp]
    rw [hs, e1, Py.ok_bind, e2, Py.ok_bind, e3, Py.ok_bind, piece]
  · simp only [interp]
    rw [hs, e1, Py.ok_bind, e2, Py.ok_bind, e3, Py.ok_bind, piece]
  · simp only [interp]
    rw [hs, e1, Py.ok_bind, e2, Py.ok_bind, e3, Py.ok_bind, piece]
  · simp only [interp]
    rw [hs, e1, Py.ok_bind, piece]
  · rfl

end Beluga.Spline
