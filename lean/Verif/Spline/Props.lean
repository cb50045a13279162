import Verif.Spline.Lemmas

/-!
# C38: spline tables
-/

namespace Beluga.Spline

open Filter Topology

set_option linter.unusedSectionVars false

/-- The function represented by a table, closed on the right. -/
noncomputable def S (x y : List ℝ) (z : Nat → ℝ) (m k : Nat) (t : ℝ) : ℝ :=
  if t < x.getD (m + 1) 0 then piece x y z (searchRight x t - 1) k t else piece x y z m k t

theorem S_half {x y : List ℝ} (hx : Increasing x) {m : Nat} (hm : x.length = m + 2) (z : Nat → ℝ) {i : Nat} (hi : i < m + 1)
    {t : ℝ} (h1 : x.getD i 0 ≤ t) (h2 : t < x.getD (i + 1) 0) (k : Nat) : S x y z m k t = piece x y z i k t := by
  rw [S, if_pos (lt_of_lt_of_le h2 (getD_le hx (by omega) (by omega))), searchRight_eq hx (by omega) h1 h2,
    Nat.add_sub_cancel]

theorem S_on {x y : List ℝ} (hx : Increasing x) {m : Nat} (hm : x.length = m + 2) {z : Nat → ℝ}
    (hsys : ∀ i < m, h x i * z i + v x i * z (i + 1) + h x (i + 1) * z (i + 2) = u x y i) {i : Nat} (hi : i < m + 1)
    {t : ℝ} (ht : t ∈ Set.Icc (x.getD i 0) (x.getD (i + 1) 0)) {k : Nat} (hk : k ≤ 2) :
    S x y z m k t = piece x y z i k t := by
  rcases lt_or_eq_of_le ht.2 with h2 | h2
  · exact S_half hx hm z hi ht.1 h2 k
  · by_cases hl : i = m
    · subst hl
      rw [S, if_neg (by rw [h2]; exact lt_irrefl _)]
    · rw [h2, S_half hx hm z (i := i + 1) (by omega) (le_refl _) (getD_lt hx (by omega) (by omega)) k,
        pieces_match (ne_of_gt (h_pos hx (by omega))) (ne_of_gt (h_pos hx (by omega))) (hsys i (by omega)) hk]

/-- **C38.**  A table with at least two increasing abscissae can be made, and between the first (included) and the last
abscissa (excluded) its value and its derivative functions are those of one function `S 0` on the closed range which takes
the tabulated values, is twice continuously differentiable, and has no curvature at the ends.  The third derivative
function is the derivative of the second one from the right. -/
theorem C38_smooth_partial {solve : Solver ℝ} (hs : SolverSound solve) {x y : List ℝ} (hx : Increasing x)
    (hl : 2 ≤ x.length) (hy : y.length = x.length) :
    ∃ (T : Table ℝ) (S : Nat → ℝ → ℝ) (a b : ℝ), make solve x y = .ok T ∧ x.head? = some a ∧ x.getLast? = some b ∧
      (∀ k, ∀ t ∈ Set.Ico a b, interp T k t = .ok (S k t)) ∧
      (∀ p ∈ x.zip y, S 0 p.1 = p.2) ∧
      (∀ k < 2, ∀ t ∈ Set.Icc a b, HasDerivWithinAt (S k) (S (k + 1) t) (Set.Icc a b) t) ∧
      ContinuousOn (S 2) (Set.Icc a b) ∧ S 2 a = 0 ∧ S 2 b = 0 ∧
      ∀ k, ∀ t ∈ Set.Ico a b, HasDerivWithinAt (S k) (S (k + 1) t) (Set.Ici t) t := by
  obtain ⟨m, hm⟩ : ∃ m, x.length = m + 2 := ⟨x.length - 2, by omega⟩
  obtain ⟨z, hz, hsol⟩ := hs m (matCoeff x m) (fun i => u x y i) (det_ne_zero hx (by omega))
  have hsys : ∀ i < m, h x i * pad z i + v x i * pad z (i + 1) + h x (i + 1) * pad z (i + 2) = u x y i := by
    intro i hi
    rw [← hsol ⟨i, hi⟩]
    exact (row_sum x z ⟨i, hi⟩).symm
  have hne : ∀ i < m + 1, h x i ≠ 0 := fun i hi => ne_of_gt (h_pos hx (by omega))
  have hmk : make solve x y = .ok ⟨x, (List.range (m + 1)).map (row x y (pad z))⟩ := by
    rw [make, if_neg (by omega)]
    change (solve (x.length - 2) _ _ >>= _) = _
    rw [show x.length - 2 = m by omega, hz]
    rfl
  have hmono : ∀ i < m + 1, x.getD i 0 ≤ x.getD (i + 1) 0 := fun i hi => (getD_lt hx (by omega) (by omega)).le
  refine ⟨_, S x y (pad z) m, x.getD 0 0, x.getD (m + 1) 0, hmk, ?_, ?_, ?_, ?_, ?_, ?_, ?_, ?_, ?_⟩
  · rw [List.head?_eq_getElem?, List.getD, List.getElem?_eq_getElem (by omega)]; rfl
  · rw [List.getLast?_eq_getElem?, List.getD, show x.length - 1 = m + 1 by omega, List.getElem?_eq_getElem (by omega)]; rfl
  · rintro k t ⟨h1, h2⟩
    obtain ⟨i, hi, h3, h4⟩ := segment_exists (X := fun i => x.getD i 0) h1 h2
    rw [interp_eq hx hm z hi h3 h4, S_half hx hm (pad z) hi h3 h4]
  · intro p hp
    obtain ⟨i, hi, rfl⟩ := List.mem_iff_getElem.1 hp
    rw [List.length_zip] at hi
    rw [List.getElem_zip]
    have ex : x[i]'(by omega) = x.getD i 0 := by simp [List.getD, List.getElem?_eq_getElem (show i < x.length by omega)]
    have ey : y[i]'(by omega) = y.getD i 0 := by simp [List.getD, List.getElem?_eq_getElem (show i < y.length by omega)]
    dsimp only
    rw [ex, ey]
    by_cases hlast : i = m + 1
    · subst hlast
      rw [S_on hx hm hsys (i := m) (by omega) ⟨hmono m (by omega), le_refl _⟩ (by omega), piece_right _ _ (hne m (by omega))]
    · rw [S_on hx hm hsys (i := i) (by omega) ⟨le_refl _, hmono i (by omega)⟩ (by omega), piece_left _ _ (hne i (by omega))]
  · intro k hk
    refine glue_deriv (X := fun i => x.getD i 0) (m + 1) hmono fun i hi t ht => ?_
    rw [S_on hx hm hsys hi ht (by omega)]
    refine ((piece_deriv x y (pad z) i k t).hasDerivWithinAt).congr_of_mem (fun s hs => ?_) ht
    exact S_on hx hm hsys hi hs (by omega)
  · refine glue_cont (X := fun i => x.getD i 0) (m + 1) hmono fun i hi => ?_
    refine ContinuousOn.congr (f := piece x y (pad z) i 2) ?_ fun s hs => S_on hx hm hsys hi hs (by omega)
    exact fun t _ => (piece_deriv x y (pad z) i 2 t).continuousAt.continuousWithinAt
  · rw [S_on hx hm hsys (i := 0) (by omega) ⟨le_refl _, hmono 0 (by omega)⟩ (by omega), piece2_left _ _ (hne 0 (by omega)),
      pad_zero]
  · rw [S_on hx hm hsys (i := m) (by omega) ⟨hmono m (by omega), le_refl _⟩ (by omega), piece2_right _ _ (hne m (by omega)),
      pad_end z (by omega)]
  · rintro k t ⟨h1, h2⟩
    obtain ⟨i, hi, h3, h4⟩ := segment_exists (X := fun i => x.getD i 0) h1 h2
    rw [S_half hx hm (pad z) hi h3 h4]
    refine ((piece_deriv x y (pad z) i k t).hasDerivWithinAt).congr_of_eventuallyEq ?_ (S_half hx hm (pad z) hi h3 h4 k)
    filter_upwards [Ico_mem_nhdsGE h4] with s hs
    exact S_half hx hm (pad z) hi (h3.trans hs.1) hs.2 k

/-- **C38 is violated** at the last abscissa: there is no segment to the right, and the lookup is out of bounds (in
compiled code, which does not check bounds, the result is whatever is found in memory). -/
theorem C38_violated {solve : Solver ℝ} (hs : SolverSound solve) {x y : List ℝ} (hx : Increasing x)
    (hl : 2 ≤ x.length) : ∃ T b, make solve x y = .ok T ∧ x.getLast? = some b ∧
      ∀ k ≤ 3, ∀ t, b ≤ t → interp T k t = .error .indexError := by
  obtain ⟨m, hm⟩ : ∃ m, x.length = m + 2 := ⟨x.length - 2, by omega⟩
  obtain ⟨z, hz, -⟩ := hs m (matCoeff x m) (fun i => u x y i) (det_ne_zero hx (by omega))
  have hmk : make solve x y = .ok ⟨x, (List.range (m + 1)).map (row x y (pad z))⟩ := by
    rw [make, if_neg (by omega)]
    change (solve (x.length - 2) _ _ >>= _) = _
    rw [show x.length - 2 = m by omega, hz]
    rfl
  refine ⟨_, x.getD (m + 1) 0, hmk, ?_, fun k hk t ht => ?_⟩
  · rw [List.getLast?_eq_getElem?, List.getD, show x.length - 1 = m + 1 by omega, List.getElem?_eq_getElem (by omega)]; rfl
  · have hsr : searchRight x t = m + 2 := by
      rw [searchRight_last, hm]
      intro a ha
      obtain ⟨i, hi, rfl⟩ := List.mem_iff_getElem.1 ha
      have := getD_le hx (show i ≤ m + 1 by omega) (by omega)
      rw [List.getD, List.getElem?_eq_getElem hi] at this
      exact le_trans this ht
    have e : at' ((List.range (m + 1)).map (row x y (pad z))) (((m + 2 : Nat) : Int) - 1) = .error .indexError := by
      rw [at', show (((m + 2 : Nat) : Int) - 1) = ((m + 1 : Nat) : Int) by omega, if_neg (by omega), Int.toNat_natCast,
        List.getElem?_eq_none (by simp)]
    rcases k with _ | _ | _ | _ | k
    · simp only [interp]; rw [hsr, e]; rfl
    · simp only [interp]; rw [hsr, e]; rfl
    · simp only [interp]; rw [hsr, e]; rfl
    · simp only [interp]; rw [hsr, e]; rfl
    · omega

/-- **C38 is violated** before the first abscissa: the index `-1` selects the last segment, taken from the last abscissa
to the first, so that just before the first abscissa `a` the value is `-(b - a) / (b - b')` times the *last* tabulated
value, where `b'` and `b` are the last two abscissae: for `n` segments of equal length, `-n` times. -/
theorem C38_violated_left {solve : Solver ℝ} (hs : SolverSound solve) {x y : List ℝ} (hx : Increasing x)
    {a b b' yb : ℝ} (ha : x.head? = some a) (hb : x.getLast? = some b) (hb' : x[x.length - 2]? = some b')
    (hl : 2 ≤ x.length) (hy : y.length = x.length) (hyb : y.getLast? = some yb) :
    ∃ T f, make solve x y = .ok T ∧ (∀ t < a, interp T 0 t = .ok (f t)) ∧
      Tendsto f (𝓝[<] a) (𝓝 (-(b - a) / (b - b') * yb)) := by
  obtain ⟨m, hm⟩ : ∃ m, x.length = m + 2 := ⟨x.length - 2, by omega⟩
  obtain ⟨z, hz, -⟩ := hs m (matCoeff x m) (fun i => u x y i) (det_ne_zero hx (by omega))
  have hmk : make solve x y = .ok ⟨x, (List.range (m + 1)).map (row x y (pad z))⟩ := by
    rw [make, if_neg (by omega)]
    change (solve (x.length - 2) _ _ >>= _) = _
    rw [show x.length - 2 = m by omega, hz]
    rfl
  have ea : x.getD 0 0 = a := by rw [List.getD, ← List.head?_eq_getElem?, ha]; rfl
  have eb : x.getD (m + 1) 0 = b := by
    rw [List.getD, show m + 1 = x.length - 1 by omega, ← List.getLast?_eq_getElem?, hb]; rfl
  have eb' : x.getD m 0 = b' := by rw [List.getD, show m = x.length - 2 by omega, hb']; rfl
  have ey : y.getD (m + 1) 0 = yb := by
    rw [List.getD, show m + 1 = y.length - 1 by omega, ← List.getLast?_eq_getElem?, hyb]; rfl
  have hlast : b' < b := by rw [← eb, ← eb']; exact getD_lt hx (by omega) (by omega)
  refine ⟨_, fun t => (row x y (pad z) m).1 * (t - b) ^ 3 + (row x y (pad z) m).2.1 * (a - t) ^ 3 +
    (row x y (pad z) m).2.2.1 * (t - b) + (row x y (pad z) m).2.2.2 * (a - t), hmk, fun t ht => ?_, ?_⟩
  · have hsr : searchRight x t = 0 := by
      rw [searchRight, List.length_eq_zero_iff, List.filter_eq_nil_iff]
      intro c hc
      obtain ⟨i, hi, rfl⟩ := List.mem_iff_getElem.1 hc
      have := getD_le hx (show 0 ≤ i by omega) hi
      rw [ea, List.getD, List.getElem?_eq_getElem hi] at this
      simpa using lt_of_lt_of_le ht this
    have e1 : at' ((List.range (m + 1)).map (row x y (pad z))) (((0 : Nat) : Int) - 1) = .ok (row x y (pad z) m) := by
      rw [at', if_pos (by omega), List.length_map, List.length_range, Nat.add_sub_cancel, List.getElem?_map,
        List.getElem?_range (by omega)]; rfl
    have e2 : at' x (((0 : Nat) : Int) - 1) = .ok b := by
      rw [at', if_pos (by omega), ← List.getLast?_eq_getElem?, hb]
    have e3 : at' x ((0 : Nat) : Int) = .ok a := by
      rw [at', if_neg (by omega), Int.toNat_natCast, ← List.head?_eq_getElem?, ha]
    simp only [interp]
    rw [hsr, e1, e2, e3]
    rfl
  · have hc : Continuous fun t : ℝ => (row x y (pad z) m).1 * (t - b) ^ 3 + (row x y (pad z) m).2.1 * (a - t) ^ 3 +
        (row x y (pad z) m).2.2.1 * (t - b) + (row x y (pad z) m).2.2.2 * (a - t) := by fun_prop
    have hv := (hc.tendsto a).mono_left (nhdsWithin_le_nhds (s := Set.Iio a))
    convert hv using 2
    have hh : h x m = b - b' := by rw [h, eb, eb']
    have h0 : b - b' ≠ 0 := (sub_pos.2 hlast).ne'
    simp only [row, pad_end z (Nat.lt_succ_self m), ey, hh]
    field_simp
    ring

/-! ### A concrete table

The solver of the example handles one unknown, enough for three points. -/

/-- A solver for at most one unknown. -/
def solveOne : Solver ℚ := fun m M r => if m ≤ 1 then .ok fun i => r i / M i i else .error .linAlgError

/-- The values at `0, 1/2, 1, 2`, then beyond the last abscissa, then before the first one, where the coefficients of
the last segment are used. -/
def exVals : List (Py ℚ) := [0, 1/2, 1, 2, 3, -1].map fun t => do
  let T ← make solveOne [0, 1, 3] [0, 3, 3]
  interp T 0 t

example : exVals = [.ok 0, .ok (27/16), .ok 3, .ok (15/4), .error .indexError, .ok (-15/4)] := by decide +kernel

theorem solver_exists : ∃ solve : Solver ℝ, SolverSound solve := by
  classical
  refine ⟨fun m M r => .ok ((Matrix.of M)⁻¹.mulVec r), fun m M r hdet => ⟨_, rfl, fun i => ?_⟩⟩
  have : (Matrix.of M).mulVec ((Matrix.of M)⁻¹.mulVec r) = r := by
    rw [Matrix.mulVec_mulVec, Matrix.mul_nonsing_inv _ (isUnit_iff_ne_zero.2 hdet), Matrix.one_mulVec]
  exact congrFun this i

end Beluga.Spline
