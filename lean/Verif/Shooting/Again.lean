import Verif.Shooting.Regular

/-!
# A result of the shooting solver as the next guess
-/

set_option linter.unusedSectionVars false

namespace Beluga.Shoot

open Beluga.Traj (Arr Curve getD_eq Fits FitsOrEmpty rowAt)

section
variable {K : Type} [Field K] [LinearOrder K] [IsStrictOrderedRing K]

/-- Rows as an array; no rows are the empty array (Shooting.py:776-786). -/
def arrOf : List (List K) → Arr K
  | [] => .vec []
  | x :: r => .mat x.length (x :: r)

/-- The trajectory that `Shooting.solve` returns (Shooting.py:776-796).  `Propagator` leaves the controls of the arcs empty. -/
def curveOf (r : Result K) : Curve K := ⟨r.t, arrOf r.y, arrOf r.q, .vec []⟩

theorem stitch_append {α : Type} {a : List (List α)} (h : a ≠ []) (b : List (List α)) :
    stitch (a ++ b) = stitch a ++ b.flatMap List.tail := by
  cases a with
  | nil => exact absurd rfl h
  | cons l ls => simp [stitch]

theorem row_rows (a : Arr K) : row a 0 = (rows a).getD 0 [] := by
  cases a with
  | vec l => cases l <;> rfl
  | mat c r => rfl

theorem final_rows (a : Arr K) : final a = (rows a).getLastD [] := by cases a <;> rfl

theorem getLastD_eq {α : Type} (l : List α) (d : α) : l.getLastD d = l.getD (l.length - 1) d := by
  rw [List.getD_eq_getElem?_getD, ← List.getLast?_eq_getElem?, List.getLastD_eq_getLast?]

theorem getD_append_left' {α : Type} {l l' : List α} {i : Nat} (h : i < l.length) (d : α) : (l ++ l').getD i d = l.getD i d := by
  rw [List.getD_eq_getElem?_getD, List.getD_eq_getElem?_getD, List.getElem?_append_left h]

/-- The times and rows of one arc. -/
structure Leg (a b : K) (nO : Nat) (t : List K) (Y : List (List K)) : Prop where
  sorted : t.Pairwise (· < ·)
  pos : 0 < t.length
  first : t.getD 0 0 = a
  last : lastT t = b
  len : Y.length = t.length
  width : ∀ r ∈ Y, r.length = nO

theorem Leg.two {a b : K} {nO : Nat} {t : List K} {Y : List (List K)} (h : Leg a b nO t Y) (hab : a < b) : 2 ≤ t.length := by
  have h1 := h.pos
  by_contra hc
  have e : t.length - 1 = 0 := by omega
  have h2 := h.last
  rw [lastT, e, h.first] at h2
  exact absurd h2 (ne_of_lt hab)

/-- Two arcs that fit together, the second without its first point. -/
theorem Leg.append {a b c : K} {nO : Nat} {t t' : List K} {Y Y' : List (List K)} (h : Leg a b nO t Y) (h' : Leg b c nO t' Y')
    (hbc : b < c) : Leg a c nO (t ++ t'.tail) (Y ++ Y'.tail) ∧ (Y ++ Y'.tail).getLastD [] = Y'.getLastD [] := by
  have two := h'.two hbc
  have hl := h'.len
  obtain ⟨x0, x1, t', rfl⟩ : ∃ x0 x1 r, t' = x0 :: x1 :: r := by
    match t', two with
    | x0 :: x1 :: r, _ => exact ⟨x0, x1, r, rfl⟩
  obtain ⟨z0, z1, Y', rfl⟩ : ∃ z0 z1 r, Y' = z0 :: z1 :: r := by
    match Y', (by omega : 2 ≤ Y'.length) with
    | x0 :: x1 :: r, _ => exact ⟨x0, x1, r, rfl⟩
  have hs := h'.sorted
  rw [List.pairwise_cons] at hs
  have hx0 : x0 = b := by simpa using h'.first
  subst hx0
  refine ⟨⟨?_, by simp, ?_, ?_, ?_, ?_⟩, ?_⟩
  · rw [List.tail_cons, List.pairwise_append]
    refine ⟨h.sorted, hs.2, fun x hx x' hx' => ?_⟩
    refine lt_of_le_of_lt ?_ (hs.1 x' hx')
    obtain ⟨i, hi, rfl⟩ := List.getElem_of_mem hx
    rw [← h.last, lastT, ← getD_eq hi 0]
    exact Traj.getD_le h.sorted (by omega) (by have := h.pos; omega)
  · rw [getD_append_left' h.pos, h.first]
  · have hp := h.pos
    have := h'.last
    rw [lastT] at this ⊢
    rw [List.getD_eq_getElem?_getD] at this ⊢
    rw [List.tail_cons, List.getElem?_append_right (by simp only [List.length_append, List.length_cons]; omega)]
    simp only [List.length_append, List.length_cons] at this ⊢
    rw [show t.length + (t'.length + 1) - 1 - t.length = t'.length by omega]
    rw [show t'.length + 1 + 1 - 1 = t'.length + 1 by omega, List.getElem?_cons_succ] at this
    exact this
  · simp only [List.length_append, List.tail_cons, List.length_cons, h.len]
    simp only [List.length_cons] at hl
    omega
  · intro r hr
    rcases List.mem_append.1 hr with hr | hr
    · exact h.width r hr
    · exact h'.width r (List.mem_of_mem_tail hr)
  · rw [List.tail_cons, List.getLastD_eq_getLast?, List.getLastD_eq_getLast?, List.getLast?_append]
    simp [List.getLast?_cons]

/-- The points of `k` arcs. -/
theorem stitched {j : Nat → K} (hj : ∀ i, j i < j (i + 1)) {nO : Nat} {arcs : List (Curve K)}
    (harc : ∀ i g, arcs[i]? = some g → Leg (j i) (j (i + 1)) nO g.t (rows g.y)) : ∀ (k : Nat) (g : Curve K), arcs[k]? = some g →
      Leg (j 0) (j (k + 1)) nO (stitch ((arcs.take (k + 1)).map fun g => g.t)) (stitch ((arcs.take (k + 1)).map fun g => rows g.y)) ∧
      (stitch ((arcs.take (k + 1)).map fun g => rows g.y)).getLastD [] = final g.y := by
  intro k
  induction k with
  | zero =>
    intro g hg
    obtain ⟨rest, rfl⟩ : ∃ rest, arcs = g :: rest := by
      cases arcs with
      | nil => cases hg
      | cons x rest => cases hg; exact ⟨rest, rfl⟩
    have := harc 0 g hg
    simp only [List.take_succ_cons, List.take_zero, List.map_cons, List.map_nil, stitch, List.flatMap_nil, List.append_nil]
    exact ⟨this, (final_rows _).symm⟩
  | succ k ih =>
    intro g hg
    obtain ⟨hk, rfl⟩ := List.getElem?_eq_some_iff.1 hg
    obtain ⟨h1, -⟩ := ih arcs[k] (List.getElem?_eq_getElem (by omega))
    have hne : arcs.take (k + 1) ≠ [] := by
      intro e
      have := congrArg List.length e
      rw [List.length_take, List.length_nil] at this
      omega
    rw [List.take_succ_eq_append_getElem hk, List.map_append, List.map_append, stitch_append (by simpa using hne),
      stitch_append (by simpa using hne)]
    simp only [List.map_cons, List.map_nil, List.flatMap_cons, List.flatMap_nil, List.append_nil]
    obtain ⟨h2, h3⟩ := h1.append (harc (k + 1) _ hg) (hj (k + 1))
    exact ⟨h2, h3.trans (final_rows _).symm⟩

/-- The trajectory of a result without quadratures is a guess again, on the same interval; it starts like the first arc and at
the junctions has the ends of the arcs before them. -/
theorem guess_of_result {E : Env K} (hI : IvpSound E.ivp) (hC : Complete E.ivp) {sol : Curve K} {nO n : Nat} (hG : Guess nO 0 sol)
    (hn : 0 < n) {arcs : List (Curve K)} {r : Result K} (hm : MadeOf E sol n arcs r)
    (hw : ∀ i < n, ∀ g, arcs[i]? = some g → (row g.y 0).length = nO) (hq : r.q = []) :
    Guess nO 0 (curveOf r) ∧ (curveOf r).t.getD 0 0 = sol.t.getD 0 0 ∧ lastT (curveOf r).t = lastT sol.t ∧
      (∀ g, arcs[0]? = some g → ∃ s, Traj.call (curveOf r) (junction sol n 0) = .ok s ∧ s.1 = row g.y 0) ∧
      ∀ i < n, ∀ g, arcs[i]? = some g → ∃ s, Traj.call (curveOf r) (junction sol n (i + 1)) = .ok s ∧ s.1 = final g.y := by
  have hj := junction_lt hG hn
  have harc : ∀ i g, arcs[i]? = some g → Leg (junction sol n i) (junction sol n (i + 1)) nO g.t (rows g.y) := by
    intro i g hg
    have hi : i < n := by rw [← hm.number]; exact (List.getElem?_eq_some_iff.1 hg).1
    obtain ⟨y0, g', hg', hv⟩ := hm.solves i hi
    rw [hg, Option.some.injEq] at hg'
    subst hg'
    have hy0 : y0.length = nO := by
      rw [← hw i hi g hg, row_rows, hI.state hv]
    refine ⟨hI.sorted hv (by simpa [lastT] using hj i), hI.pos hv, by simpa using hI.first hv, by simpa [lastT] using hC hv, hI.length hv, fun s hs => ?_⟩
    rw [hI.width hv s hs, hy0]
  have hst := stitched hj harc
  have hlast : arcs[n - 1]? = some (arcs[n - 1]'(by rw [hm.number]; omega)) := List.getElem?_eq_getElem _
  obtain ⟨hL, -⟩ := hst (n - 1) _ hlast
  have htake : arcs.take (n - 1 + 1) = arcs := List.take_of_length_le (by rw [hm.number]; omega)
  rw [htake, ← hm.t, ← hm.y, show n - 1 + 1 = n by omega] at hL
  have htwo : 2 ≤ r.t.length := hL.two (by
    rw [junction_zero, junction_last sol hn]; exact hG.lt)
  obtain ⟨x, Y, hY⟩ : ∃ x Y, r.y = x :: Y := by
    have := hL.len
    cases hr : r.y with
    | nil => rw [hr] at this; simp at this; omega
    | cons x Y => exact ⟨x, Y, rfl⟩
  have hx : x.length = nO := hL.width x (by rw [hY]; simp)
  have hya : arrOf r.y = .mat nO r.y := by rw [hY, arrOf, hx]
  have hfit : Fits r.t.length (.mat nO r.y) := ⟨hL.len, hL.width⟩
  have hg : Guess nO 0 (curveOf r) := by
    refine ⟨hL.sorted, htwo, ⟨r.y, hya, by rw [show (curveOf r).y = .mat nO r.y from hya]; exact hfit⟩, Or.inl ⟨rfl, ?_⟩, Or.inl rfl⟩
    show arrOf r.q = _
    rw [hq]; rfl
  have hcall : ∀ k < r.t.length, ∃ s, Traj.call (curveOf r) (r.t.getD k 0) = .ok s ∧ s.1 = r.y.getD k [] := by
    intro k hk
    refine ⟨_, Traj.C39_stamp (g := curveOf r) (hL.sorted.imp fun h => ne_of_lt h) ?_ ?_ (Or.inl rfl) hk, ?_⟩
    · rw [show (curveOf r).y = .mat nO r.y from hya]; exact hfit
    · left
      show arrOf r.q = _
      rw [hq]; rfl
    · rw [show (curveOf r).y = .mat nO r.y from hya]; rfl
  refine ⟨hg, ?_, ?_, fun g hg0 => ?_, fun i hi g hgi => ?_⟩
  · show r.t.getD 0 0 = _
    rw [hL.first, junction_zero]
  · show lastT r.t = _
    rw [hL.last, junction_last sol hn]
  · obtain ⟨s, h1, h2⟩ := hcall 0 (by omega)
    rw [hL.first] at h1
    refine ⟨s, h1, ?_⟩
    rw [h2, row_rows]
    obtain ⟨rest, rfl⟩ : ∃ rest, arcs = g :: rest := by
      cases arcs with
      | nil => cases hg0
      | cons x rest => cases hg0; exact ⟨rest, rfl⟩
    have hl := harc 0 g hg0
    rw [hm.y, List.map_cons, stitch, getD_append_left' (by rw [hl.len]; exact hl.pos)]
  · obtain ⟨hLi, hend⟩ := hst i g hgi
    have hne : (arcs.take (i + 1)) ≠ [] := by
      intro e
      have h1 := congrArg List.length e
      have h2 := hm.number
      rw [List.length_take, List.length_nil] at h1
      omega
    have et : r.t = stitch ((arcs.take (i + 1)).map fun g => g.t) ++ ((arcs.drop (i + 1)).map fun g => g.t).flatMap List.tail := by
      rw [hm.t]
      conv_lhs => rw [← List.take_append_drop (i + 1) arcs, List.map_append, stitch_append (by simpa using hne)]
    have ey : r.y = stitch ((arcs.take (i + 1)).map fun g => rows g.y) ++ ((arcs.drop (i + 1)).map fun g => rows g.y).flatMap List.tail := by
      rw [hm.y]
      conv_lhs => rw [← List.take_append_drop (i + 1) arcs, List.map_append, stitch_append (by simpa using hne)]
    have hp := hLi.pos
    have hlen := hLi.len
    obtain ⟨s, h1, h2⟩ := hcall ((stitch ((arcs.take (i + 1)).map fun g => g.t)).length - 1) (by
      rw [et, List.length_append]; omega)
    refine ⟨s, ?_, ?_⟩
    · rw [← hLi.last, lastT]
      rw [et, getD_append_left' (by omega)] at h1
      exact h1
    · rw [h2, ey, getD_append_left' (by omega), ← hend, getLastD_eq, hlen]

end

/-- A result that is close to a solution is a guess near it. -/
theorem CloseTo.guess {E : Env ℝ} (hI : IvpSound E.ivp) (hC : Complete E.ivp) {n nO nP nN : Nat} (hn : 0 < n) {a b : ℝ}
    {y : Nat → Fin nO → ℝ} {p : Fin nP → ℝ} {pn : Fin nN → ℝ} {sol : Curve ℝ} {ε r : ℝ} {res : Result ℝ}
    (h : CloseTo E sol n y p pn ε res) (hG : Guess nO 0 sol) (ha : sol.t.getD 0 0 = a) (hb : lastT sol.t = b) (hε : ε < r) :
    GuessNear a b n y p pn r (curveOf res) res.p res.pn := by
  obtain ⟨⟨arcs, c1, c2, c3⟩, c4, c5, c6, c7, c8⟩ := h
  obtain ⟨g1, g2, g3, g4, g5⟩ := guess_of_result hI hC hG hn c1 (fun i hi g hg => (c2 i hi g hg).1) c6
  refine ⟨g1, g2.trans ha, g3.trans hb, c4, c5, fun i hi => ?_, fun j => lt_of_le_of_lt (c7 j) hε, fun j => lt_of_le_of_lt (c8 j) hε⟩
  have hjn : ∀ i, junction sol n i = node a b n i := fun i => by rw [junction, node, ha, hb]
  have hget : ∀ i < n, ∃ g, arcs[i]? = some g := fun i hi => ⟨_, List.getElem?_eq_getElem (by rw [c1.number]; exact hi)⟩
  cases i with
  | zero =>
    obtain ⟨g, hg⟩ := hget 0 hn
    obtain ⟨s, s1, s2⟩ := g4 g hg
    rw [hjn] at s1
    exact ⟨s, s1, fun j => by rw [s2]; exact lt_of_le_of_lt ((c2 0 hn g hg).2 j) hε⟩
  | succ i =>
    obtain ⟨g, hg⟩ := hget i (by omega)
    obtain ⟨s, s1, s2⟩ := g5 i (by omega) g hg
    rw [hjn] at s1
    exact ⟨s, s1, fun j => by rw [s2]; exact lt_of_le_of_lt (c3 i hi g hg j) hε⟩

end Beluga.Shoot
