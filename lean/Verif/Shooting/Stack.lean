import Verif.Shooting.Again
import Verif.Traj.Seq

/-!
# The shapes of the arrays in a result of the shooting solver

`np.vstack` of one-dimensional arrays without entries has one row for each of them.  The solution of a problem without quadratures that was found with
`k ≥ 2` arcs has an array of quadratures (and one of controls) with `k` rows and no columns.
-/

set_option linter.unusedSectionVars false

namespace Beluga.Shoot

open Beluga.Traj (Arr Curve Fits FitsOrEmpty)

section
variable {K : Type}

/-- `np.atleast_2d`, used by `np.vstack`. -/
def atleast2 : Arr K → Nat × List (List K)
  | .vec l => (l.length, [l])
  | .mat c r => (c, r)

/-- `np.vstack((a, b))` (Shooting.py:784-786). -/
def vstack (a b : Arr K) : Py (Arr K) :=
  if (atleast2 a).1 = (atleast2 b).1 then .ok (.mat (atleast2 a).1 ((atleast2 a).2 ++ (atleast2 b).2)) else .error .valueError

/-- `a[1:]` (Shooting.py:783-786). -/
def dropFirst : Arr K → Arr K
  | .vec l => .vec l.tail
  | .mat c r => .mat c r.tail

/-- `a_out = gamma_set[0].a` and the loop behind it (Shooting.py:777-786). -/
def stackArcs : List (Arr K) → Py (Arr K)
  | [] => .error .indexError
  | a :: rest => rest.foldlM (fun out b => vstack out (dropFirst b)) a

/-- The shape of the rows of `n` arcs after stacking. -/
def stackOf (n : Nat) : List (List K) → Arr K
  | [] => if n ≤ 1 then .vec [] else .mat 0 (List.replicate n [])
  | x :: r => .mat x.length (x :: r)

/-- Arcs whose arrays have entries are stacked row by row. -/
theorem stackArcs_rows {c : Nat} : ∀ {rs : List (List (List K))}, (∀ r ∈ rs, ∃ x t, r = x :: t ∧ x.length = c) → rs ≠ [] →
    stackArcs (rs.map fun r => .mat c r) = .ok (stackOf rs.length (stitch rs))
  | [], _, h => absurd rfl h
  | r :: rs, h, _ => by
    have key : ∀ (rs : List (List (List K))) (acc : List (List K)), (rs.map fun r => Arr.mat c r).foldlM (fun out b => vstack out (dropFirst b)) (Arr.mat c acc) =
        (Except.ok (.mat c (acc ++ rs.flatMap List.tail)) : Py (Arr K)) := by
      intro rs
      induction rs with
      | nil => intro acc; simp; rfl
      | cons r rs ih =>
        intro acc
        rw [List.map_cons, List.foldlM_cons, vstack, dropFirst, atleast2, atleast2, if_pos rfl]
        change (rs.map fun r => Arr.mat c r).foldlM _ (Arr.mat c (acc ++ r.tail)) = _
        rw [ih, List.flatMap_cons, List.append_assoc]
    obtain ⟨x, t, rfl, hx⟩ := h r (by simp)
    rw [List.map_cons, stackArcs, key, stitch]
    simp [stackOf, hx]

/-- Arcs without quadratures: one row without entries for each. -/
theorem stackArcs_empty : ∀ (n : Nat), 0 < n → stackArcs (List.replicate n (.vec [] : Arr K)) = .ok (stackOf n [])
  | 0, h => absurd h (lt_irrefl 0)
  | 1, _ => rfl
  | n + 2, _ => by
    have key : ∀ (k j : Nat), (List.replicate k (Arr.vec [] : Arr K)).foldlM (fun out b => vstack out (dropFirst b)) (Arr.mat 0 (List.replicate j [])) =
        (Except.ok (.mat 0 (List.replicate (j + k) [])) : Py (Arr K)) := by
      intro k
      induction k with
      | zero => intro j; rfl
      | succ k ih =>
        intro j
        rw [List.replicate_succ, List.foldlM_cons]
        change (List.replicate k (Arr.vec [] : Arr K)).foldlM _ (Arr.mat 0 (List.replicate j [] ++ [[]])) = _
        rw [show (List.replicate j ([] : List K) ++ [[]]) = List.replicate (j + 1) [] by rw [List.replicate_succ'], ih]
        congr 3
        omega
    rw [List.replicate_succ, stackArcs, List.replicate_succ, List.foldlM_cons]
    change (List.replicate n (Arr.vec [] : Arr K)).foldlM _ (Arr.mat 0 (List.replicate 2 [])) = _
    rw [key, stackOf, if_neg (by omega), Nat.add_comm]

end

section
variable {K : Type} [Field K] [LinearOrder K] [IsStrictOrderedRing K]

/-- The trajectory that `Shooting.solve` returns for `n` arcs, with the shapes of its arrays (Shooting.py:776-791).  The controls of the arcs
are empty. -/
def trajOf (n : Nat) (r : Result K) : Curve K := ⟨r.t, stackOf n r.y, stackOf n r.q, stackOf n []⟩

theorem atOthers_stackOf (ts : List K) (n : Nat) (r : List (List K)) (x : K) :
    Traj.atOthers ts (stackOf n r) x = Traj.atOthers ts (arrOf r) x := by
  cases r with
  | nil =>
    rw [stackOf]
    by_cases hn : n ≤ 1
    · rw [if_pos hn]; rfl
    · rw [if_neg hn]; rfl
  | cons y r => rfl

/-- `Trajectory.__call__` does not see the difference. -/
theorem call_trajOf {r : Result K} (hy : r.y ≠ []) (n : Nat) (x : K) : Traj.call (trajOf n r) x = Traj.call (curveOf r) x := by
  obtain ⟨y, Y, hY⟩ : ∃ y Y, r.y = y :: Y := by
    cases h : r.y with
    | nil => exact absurd h hy
    | cons y Y => exact ⟨y, Y, rfl⟩
  have e : stackOf n r.y = arrOf r.y := by rw [hY]; rfl
  simp only [Traj.call, trajOf, curveOf, atOthers_stackOf, e]
  rfl

/-- Nor does the solver when the result is its next guess. -/
theorem solveFd_trajOf {r : Result K} (hy : r.y ≠ []) (m : Nat) {E : Env K} {S : Scipy K} {norm : List K → K}
    {lin : List (List K) → List K → Py (List K)} {h : K → K} {o : Opts K} {alg : String} {fuel nA : Nat} {p pn : List K} :
    solveFd E S norm lin h o alg fuel nA (trajOf m r) p pn = solveFd E S norm lin h o alg fuel nA (curveOf r) p pn := by
  obtain ⟨y, Y, hY⟩ : ∃ y Y, r.y = y :: Y := by
    cases h : r.y with
    | nil => exact absurd h hy
    | cons y Y => exact ⟨y, Y, rfl⟩
  have e : stackOf m r.y = arrOf r.y := by rw [hY]; rfl
  have e1 : nStates (trajOf m r) = nStates (curveOf r) := by simp only [nStates, trajOf, curveOf, e]
  have e2 : nQuads E (trajOf m r) = nQuads E (curveOf r) := by
    have : (trajOf m r).q = (curveOf r).q ∨ (∃ l, (trajOf m r).q = .mat 0 l) ∧ (curveOf r).q = .vec [] := by
      show stackOf m r.q = arrOf r.q ∨ (∃ l, stackOf m r.q = .mat 0 l) ∧ arrOf r.q = .vec []
      cases r.q with
      | nil =>
        rw [stackOf]
        by_cases hm : m ≤ 1
        · rw [if_pos hm]; exact Or.inl rfl
        · rw [if_neg hm]; exact Or.inr ⟨⟨_, rfl⟩, rfl⟩
      | cons x t => exact Or.inl rfl
    rcases this with h1 | ⟨⟨l, h1⟩, h2⟩
    · rw [nQuads, nQuads, h1]
    · rw [nQuads, nQuads, h1, h2]
      cases E.quad <;> rfl
  have e3 : makeArcs (trajOf m r) nA = makeArcs (curveOf r) nA := by
    simp only [makeArcs, call_trajOf hy]
    rfl
  rw [solveFd, solveFd, e1, e2, e3]
  simp only [solve, e1, e2, e3]

end

end Beluga.Shoot

namespace Beluga.Traj

variable {K : Type} {g : Curve K}

/-- An array with fewer rows than there are points raises for the later ones. -/
theorem C84_short {k : Nat} (hq : g.q = .mat 0 (List.replicate k [])) (hk : 0 < k) (hy : FitsOrEmpty g.t.length g.y)
    {i : Nat} (hi : k ≤ i) (hl : i < lengthOf g) : getItem g i = .error .indexError := by
  have h : Stands g.t.length i i := ⟨hl, Or.inl rfl⟩
  have hqe : itemOf g.q i = .error .indexError := by
    rw [hq, itemOf, if_pos (by simpa using hk)]
    exact npItem_out (Or.inr (by simpa using hi))
  rw [getItem, itemOf_ok (Or.inr rfl : FitsOrEmpty g.t.length (.vec g.t)) h, itemOf_ok hy h]
  change (do let q ← itemOf g.q i; let u ← itemOf g.u i; Except.ok (_, _, q, u) : Py _) = _
  rw [hqe]
  rfl

end Beluga.Traj

namespace Beluga.Shoot

open Beluga.Traj (Arr Curve Fits FitsOrEmpty lengthOf getItem Loops pointAt)

variable {K : Type} [Field K] [LinearOrder K] [IsStrictOrderedRing K]

/-- C84 is violated by what the shooting solver returns for a problem without quadratures with `n ≥ 2` arcs and more than `n` points, whatever the
controls are that are filled in later: the points from `n` on cannot be asked for, and a loop over the trajectory
ends after the first `n` points. -/
theorem C84_violated_arcs {r : Result K} {n : Nat} (hn : 2 ≤ n) (hq : r.q = []) (hlen : r.y.length = r.t.length) {w : Nat}
    (hw : ∀ x ∈ r.y, x.length = w) (hlong : n < r.t.length) {g : Curve K} {u : Arr K} (hg : g = { trajOf n r with u := u })
    (hu : FitsOrEmpty r.t.length u) :
    lengthOf g = r.t.length ∧ (∀ i : Nat, n ≤ i → i < lengthOf g → getItem g i = .error .indexError) ∧
      ∀ pts, Loops g pts ↔ pts = (List.range n).map (pointAt g) := by
  obtain ⟨x, Y, hY⟩ : ∃ x Y, r.y = x :: Y := by
    cases h : r.y with
    | nil => rw [h] at hlen; simp at hlen; omega
    | cons x Y => exact ⟨x, Y, rfl⟩
  have hgy : g.y = .mat w r.y := by
    rw [hg]
    show stackOf n r.y = _
    rw [hY, stackOf, hw x (by rw [hY]; simp)]
  have hgq : g.q = .mat 0 (List.replicate n []) := by
    rw [hg]
    show stackOf n r.q = _
    rw [hq, stackOf, if_neg (by omega)]
  have hgt : g.t = r.t := by rw [hg]; rfl
  have hgu : g.u = u := by rw [hg]
  have hyf : FitsOrEmpty g.t.length g.y := by
    rw [hgt, hgy]
    exact Or.inr ⟨hlen, hw⟩
  have hout : ∀ i : Nat, n ≤ i → i < lengthOf g → getItem g i = .error .indexError := fun i h1 h2 =>
    Traj.C84_short hgq (by omega) hyf h1 h2
  have hlg : lengthOf g = r.t.length := by rw [lengthOf, hgt]
  have hin : ∀ i < n, getItem g i = .ok (pointAt g i) := by
    intro i hi
    have h : Traj.Stands g.t.length i i := ⟨by rw [hgt]; omega, Or.inl rfl⟩
    have hqi : Traj.itemOf g.q i = .ok (Traj.rowAt g.q i) := by
      rw [hgq]
      have h' : Traj.Stands n i i := ⟨hi, Or.inl rfl⟩
      have hf : FitsOrEmpty n (Arr.mat 0 (List.replicate n ([] : List K))) := Or.inr ⟨by simp, by simp⟩
      exact Traj.itemOf_ok hf h'
    rw [getItem, Traj.itemOf_ok (Or.inr rfl : FitsOrEmpty g.t.length (.vec g.t)) h, Traj.itemOf_ok hyf h, hqi,
      Traj.itemOf_ok (by rw [hgu, hgt]; exact hu) h]
    rfl
  refine ⟨hlg, hout, fun pts => ⟨fun ⟨h1, h2⟩ => ?_, fun e => ?_⟩⟩
  · have hlen : pts.length = n := by
      rcases Nat.lt_trichotomy pts.length n with h | h | h
      · rw [hin _ h] at h2; cases h2
      · exact h
      · have := h1 n h
        rw [hout n le_rfl (by omega)] at this; cases this
    refine List.ext_getElem (by simp [hlen]) fun k k1 k2 => ?_
    have := (h1 k k1).symm.trans (hin k (by omega))
    simpa using Except.ok.inj this
  · subst e
    refine ⟨fun k hk => ?_, ?_⟩
    · have hk' : k < n := by simpa using hk
      rw [hin k hk']; simp
    · simp only [List.length_map, List.length_range]
      exact hout n le_rfl (by omega)

/-- Two arcs with two points each: three points, of which the last cannot be asked for. -/
def exTwo : Result ℚ := ⟨[0, 1, 2], [[5], [6], [7]], [], [], [], true, .convergedIn 1, 1⟩

example : getItem { trajOf 2 exTwo with u := .mat 1 [[1], [2], [3]] } (1 : Nat) = .ok ([1], [6], [], [2]) := by decide +kernel
example : getItem { trajOf 2 exTwo with u := .mat 1 [[1], [2], [3]] } (2 : Nat) = .error .indexError := by decide +kernel
example := C84_violated_arcs (K := ℚ) (r := exTwo) (n := 2) (by decide) rfl rfl (w := 1) (by decide) (by decide) (u := .mat 1 [[1], [2], [3]]) rfl
  (Or.inr ⟨rfl, by decide⟩)

end Beluga.Shoot
