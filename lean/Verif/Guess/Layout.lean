import Verif.Guess.Model
import Verif.Mappers.Props

/-!
# The indirect chain on a trajectory given point by point
-/

set_option linter.unusedSectionVars false

namespace Beluga.Guess

open Beluga.Map

variable {K : Type} [Field K] [LinearOrder K]

theorem zipWith_tab {α β γ : Type} (f : α → β → γ) (T : Nat) (a : Nat → α) (b : Nat → β) :
    List.zipWith f ((List.range T).map a) ((List.range T).map b) = (List.range T).map fun i => f (a i) (b i) := by
  apply List.ext_getElem <;> simp

theorem npInsert_end (l : List K) (x : K) : npInsert l l.length [x] = l ++ [x] := by simp [npInsert]

theorem insRow_end : ∀ (xs : List K) (m : Nat) (r : List K), xs.length = m →
    insRow (List.zip (List.range' r.length m) xs) r = r ++ xs
  | [], m, r, _ => by simp [insRow]
  | x :: xs, 0, r, h => by simp at h
  | x :: xs, m + 1, r, h => by
    rw [List.range'_succ, List.zip_cons_cons, insRow, npInsert_end]
    have := insRow_end xs m (r ++ [x]) (by simpa using h)
    rw [List.length_append, List.length_singleton] at this
    rw [this, List.append_assoc, List.singleton_append]

/-- The columns of an array given row by row. -/
theorem sortedCols_range {a m m' T : Nat} (hm : m' ≤ m) (u : Nat → List K) :
    sortedCols (List.range' a m) (.rows m' ((List.range T).map u)) =
      List.zip (List.range' a m') ((List.range m').map fun k => (List.range T).map fun i => (u i).getD k 0) := by
  have hcols : (Arr.rows m' ((List.range T).map u)).columns =
      (List.range m').map fun k => (List.range T).map fun i => (u i).getD k 0 := by
    simp only [Arr.columns, List.map_map]
    rfl
  have hz : List.zip (List.range' a m) ((List.range m').map fun k => (List.range T).map fun i => (u i).getD k 0) =
      List.zip (List.range' a m') ((List.range m').map fun k => (List.range T).map fun i => (u i).getD k 0) := by
    apply List.ext_getElem
    · simp; omega
    · intro i h1 h2
      simp
  unfold sortedCols
  rw [hcols, hz]
  apply List.Pairwise.insertionSort_eq
  rw [List.pairwise_iff_getElem]
  intro i j h1 h2 hij
  simp
  omega

/-- `DifferentialControlMapper.map` on a trajectory given point by point, with `m'` control columns of the `m`
expected. -/
theorem differential_tab (O : TrigOps K) {p m m' a T : Nat} (s : Sol K) (y u : Nat → List K) (hm : m' ≤ m) (hp : p ≤ a)
    (hy : s.y = .rows a ((List.range T).map y)) (ly : ∀ i, (y i).length = a)
    (hu : s.u = .rows m' ((List.range T).map u)) (lu : ∀ i, (u i).length = m') :
    (Mapper.differential (List.range' p m)).map O s = .ok { s with
      y := .rows (a + m') ((List.range T).map fun i => insRow (List.zip (List.range' p m') (u i)) (y i))
      u := .rows 0 ((List.range T).map fun _ => []) } := by
  have hS := sortedCols_range (a := p) (T := T) hm u
  set S := List.zip (List.range' p m') ((List.range m').map fun k => (List.range T).map fun i => (u i).getD k 0) with hSdef
  have lS : S.length = m' := by simp [hSdef]
  obtain ⟨r, r', e1, e2, e3, e4⟩ := insertAll_ok (K := K) S (T := T) (c := a) (y := .rows a ((List.range T).map y))
    ⟨_, rfl, by simp, by simpa using fun i _ => ly i⟩
    (by
      intro q hq
      have := (List.of_mem_zip (a := q.1) (b := q.2) hq).2
      obtain ⟨k, -, hk⟩ := List.mem_map.1 this
      rw [← hk]; simp)
    (by
      intro k q hq
      have hk := (List.getElem?_eq_some_iff.1 hq).1
      rw [lS] at hk
      rw [hSdef, List.getElem?_zip_eq_some] at hq
      have := hq.1
      rw [List.getElem?_range' (by simpa using hk)] at this
      have := Option.some.inj this
      omega)
  injection e1 with _ e1
  subst e1
  have hr' : r' = (List.range T).map fun i => insRow (List.zip (List.range' p m') (u i)) (y i) := by
    apply List.ext_getElem?
    intro τ
    by_cases hτ : τ < T
    · rw [e4 τ (y τ) (by simp [hτ])]
      simp only [List.getElem?_map, List.getElem?_range hτ, Option.map_some]
      congr 2
      apply List.ext_getElem
      · simp [hSdef, lu]
      · intro k h1 h2
        have hk : k < m' := by simpa [lS] using h1
        simp [hSdef, hτ, List.getD, List.getElem?_eq_getElem (show k < (u τ).length by rw [lu]; exact hk)]
    · rw [List.getElem?_eq_none (by omega), List.getElem?_eq_none (by simp; omega)]
  have hdel : (Arr.rows m' ((List.range T).map u)).deleteCols (List.range m') =
      .ok (.rows 0 ((List.range T).map fun _ => [])) := by
    simp only [Arr.deleteCols, List.map_map]
    rw [if_pos (by simp)]
    have h1 : (Arr.deleteFrom (List.range m') 0 (List.range m')).length = 0 := by
      have := deleteFrom_range_all m' (List.range m') (by simp)
      rw [this]; rfl
    simp only [h1]
    congr 2
    apply List.map_congr_left
    intro i _
    exact deleteFrom_range_all m' (u i) (lu i)
  simp only [Mapper.map, hy, hu, hS, e2, lS, hdel, bind, Except.bind, hr']

/-- The part of the chain that works on the caller's object. -/
def indirectHead (n m k nu : Nat) (cc : Sol K → K) : List (Mapper K) :=
  .momentumShift n :: (List.replicate k .identity ++ [.dualize nu cc, .differential (List.range' (n + 1) m)])

/-- The first four mappers, point by point. -/
theorem head_tab (O : TrigOps K) {n m m' k nu a b T : Nat} (cc : Sol K → K) (s : Sol K) (y u dl : Nat → List K)
    (t dt : Nat → K) (hm : m' ≤ m) (ha : n ≤ a) (hb : n ≤ b)
    (hy : s.y = .rows a ((List.range T).map y)) (ly : ∀ i, (y i).length = a)
    (hd : s.dual = .rows b ((List.range T).map dl)) (hu : s.u = .rows m' ((List.range T).map u))
    (lu : ∀ i, (u i).length = m') (ht : s.t = (List.range T).map t) (hdt : dualTOf s = (List.range T).map dt) :
    mapSol O (indirectHead n m k nu cc) s = .ok { s with
      dualT := (List.range T).map dt
      y := .rows (a + 1 + m') ((List.range T).map fun i =>
        insRow (List.zip (List.range' (n + 1) m') (u i)) (npInsert (y i) n [t i]))
      dual := .rows (b + 1) ((List.range T).map fun i => npInsert (dl i) n [dt i])
      u := .rows 0 ((List.range T).map fun _ => [])
      nondyn := if s.nondyn.length = 0 then List.replicate nu 1 else s.nondyn } := by
  have e : (if s.dualT.length = 0 then s.t.map fun _ => (0 : K) else s.dualT) = (List.range T).map dt := by
    rw [← hdt]; unfold dualTOf; simp only [List.length_eq_zero_iff]
  have i1 : s.y.insertCol n s.t = .ok (.rows (a + 1) ((List.range T).map fun i => npInsert (y i) n [t i])) := by
    rw [hy, ht]; simp only [Arr.insertCol]; rw [if_neg (by omega), if_pos (by simp), zipWith_tab]
  have i2 : s.dual.insertCol n ((List.range T).map dt) =
      .ok (.rows (b + 1) ((List.range T).map fun i => npInsert (dl i) n [dt i])) := by
    rw [hd]; simp only [Arr.insertCol]; rw [if_neg (by omega), if_pos (by simp), zipWith_tab]
  rw [indirectHead, mapSol]
  simp only [Mapper.map, e, i1, i2, bind, Except.bind]
  rw [C20_forward, mapSol_identities]
  simp only [bind, Except.bind, mapSol]
  have d1 : ∀ z : Sol K, (Mapper.dualize nu cc).map O z =
      .ok { z with nondyn := if z.nondyn.length = 0 then List.replicate nu 1 else z.nondyn } := by
    intro z
    simp only [Mapper.map]
    split <;> rfl
  rw [d1]
  simp only
  have hdiff := fun z h1 h2 => differential_tab O (p := n + 1) (m := m) (a := a + 1) (T := T) z
    (fun i => npInsert (y i) n [t i]) u hm (by omega) h1 (by intro i; rw [npInsert_length, ly]) h2 lu
  rw [hdiff]
  · rfl
  · exact hu

/-- The whole chain, point by point. -/
theorem chain_tab (O : TrigOps K) {n m m' k nu a b T pIdx c d : Nat} (cc : Sol K → K) (s : Sol K)
    (y u dl : Nat → List K) (t dt : Nat → K) (hT : 0 < T) (hm : m' ≤ m) (ha : n ≤ a) (hb : n ≤ b)
    (hy : s.y = .rows a ((List.range T).map y)) (ly : ∀ i, (y i).length = a)
    (hd : s.dual = .rows b ((List.range T).map dl)) (hu : s.u = .rows m' ((List.range T).map u))
    (lu : ∀ i, (u i).length = m') (ht : s.t = (List.range T).map t) (hdt : dualTOf s = (List.range T).map dt) :
    mapSol O (indirectChain n m k nu pIdx c d cc) s =
      if pIdx ≤ s.dyn.length then .ok { s with
        t := (List.range T).map fun i => (t i - t 0) / (t (T - 1) - t 0)
        dualT := (List.range T).map dt
        y := .rows (a + 1 + m' + (b + 1)) ((List.range T).map fun i =>
          insRow (List.zip (List.range' (n + 1) m') (u i)) (npInsert (y i) n [t i]) ++ npInsert (dl i) n [dt i])
        dual := .rows (b + 1) ((List.range T).map fun i => npInsert (dl i) n [dt i])
        u := .rows 0 ((List.range T).map fun _ => [])
        dyn := npInsert s.dyn pIdx [t (T - 1) - t 0]
        nondyn := if s.nondyn.length = 0 then List.replicate nu 1 else s.nondyn }
      else .error .indexError := by
  have hsplit : indirectChain n m k nu pIdx c d cc = indirectHead n m k nu cc ++
      [.normalizeTime pIdx, .squash (n + 1 + m) (n + 1 + m + (n + 1)) c d] := by
    simp [indirectChain, indirectHead]
  have h0 : s.t.head? = some (t 0) := by
    rw [ht, List.head?_eq_getElem?]; simp [hT]
  have h1 : s.t.getLast? = some (t (T - 1)) := by
    rw [ht, List.getLast?_eq_getElem?]; simp [hT]
  rw [hsplit, C20_forward, head_tab O cc s y u dl t dt hm ha hb hy ly hd hu lu ht hdt]
  simp only [bind, Except.bind, mapSol, Mapper.map, h0, h1]
  by_cases hp : pIdx ≤ s.dyn.length
  · rw [if_pos hp, if_pos hp]
    simp only [Arr.len, Arr.rowList, List.length_map, List.length_range]
    rw [if_pos hT]
    simp only [Arr.hcat, ht, List.map_map]
    rw [if_pos (by simp), zipWith_tab]
    rfl
  · rw [if_neg hp, if_neg hp]

theorem inPlace_identities (O : TrigOps K) (k : Nat) (ms : List (Mapper K)) (s : Sol K) :
    inPlace O (List.replicate k .identity ++ ms) s = inPlace O ms s := by
  induction k with
  | zero => rfl
  | succ k ih => simpa only [List.replicate_succ, List.cons_append, inPlace, Mapper.map, bind, Except.bind] using ih

/-- What the caller's trajectory looks like afterwards. -/
theorem inPlace_indirect (O : TrigOps K) (n m k nu pIdx c d : Nat) (cc : Sol K → K) (s : Sol K) :
    inPlace O (indirectChain n m k nu pIdx c d cc) s = mapSol O (indirectHead n m k nu cc) s := by
  rw [indirectChain, indirectHead]
  simp only [inPlace, mapSol, C20_forward, mapSol_identities, inPlace_identities, bind, Except.bind]

/-- Every array with `T` rows is given row by row. -/
theorem tab_of_rows {α : Type} (z : α) (r : List α) : r = (List.range r.length).map fun i => r.getD i z := by
  apply List.ext_getElem
  · simp
  · intro i h1 h2
    simp [List.getD, List.getElem?_eq_getElem h1]

end Beluga.Guess
