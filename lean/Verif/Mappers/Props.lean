import Verif.Mappers.Differential
import Mathlib.Tactic.Linarith

/-!
# Properties of the trajectory mappers (C19, C20, C21)

`RoundTrip O m s s'` says: mapping `s` forward and the result backward succeeds and gives `s'`.
-/

set_option linter.unusedSectionVars false

namespace Beluga.Map

variable {K : Type _} [Field K] [LinearOrder K]

/-- Forward and back through one mapper. -/
def RoundTrip (O : TrigOps K) (m : Mapper K) (s s' : Sol K) : Prop :=
  ∃ s1, m.map O s = .ok s1 ∧ m.inv O s1 = .ok s'

/-- Forward and back through a chain of mappers. -/
def ChainRoundTrip (O : TrigOps K) (ms : List (Mapper K)) (s s' : Sol K) : Prop :=
  ∃ s1, mapSol O ms s = .ok s1 ∧ invMapSol O ms s1 = .ok s'

/-- The multiplier of time as the user gets it back: zeros if none was given. -/
def dualTOf (s : Sol K) : List K := if s.dualT = [] then s.t.map fun _ => 0 else s.dualT

/-! ## C19: one mapper at a time -/

/-- Time made a state and taken out again. -/
theorem C19_momentumShift (O : TrigOps K) (idx n n' : Nat) (s : Sol K) (hy : s.y.Shape s.t.length n)
    (hd : s.dual.Shape s.t.length n') (hi : idx ≤ n) (hi' : idx ≤ n')
    (hdt : s.dualT = [] ∨ s.dualT.length = s.t.length) :
    RoundTrip O (.momentumShift idx) s { s with dualT := dualTOf s } := by
  obtain ⟨ry, ey, ly, cy⟩ := hy
  obtain ⟨rd, ed, ld, cd⟩ := hd
  have e1 : (if s.dualT.length = 0 then s.t.map fun _ => (0 : K) else s.dualT) = dualTOf s := by
    unfold dualTOf
    simp only [List.length_eq_zero_iff]
  have ldt : (dualTOf s).length = s.t.length := by
    unfold dualTOf
    rcases hdt with h | h
    · rw [if_pos h]; simp
    · split
      · simp
      · exact h
  have eyi : s.y.insertCol idx s.t = .ok (.rows (n + 1) (List.zipWith (fun row x => npInsert row idx [x]) ry s.t)) := by
    rw [ey]; simp only [Arr.insertCol]; rw [if_neg (by omega), if_pos ly.symm]
  have edi : s.dual.insertCol idx (dualTOf s) =
      .ok (.rows (n' + 1) (List.zipWith (fun row x => npInsert row idx [x]) rd (dualTOf s))) := by
    rw [ed]; simp only [Arr.insertCol]; rw [if_neg (by omega), if_pos (by omega)]
  refine ⟨_, by simp only [Mapper.map, e1, eyi, edi, bind, Except.bind]; rfl, ?_⟩
  have a1 : (List.zipWith (fun row x => npInsert row idx [x]) ry s.t).map (fun row => row.getD idx 0) = s.t := by
    have := map_zipWith_right (fun row : List K => row.getD idx 0) (fun row (x : K) => npInsert row idx [x]) id ry s.t
      ly (fun a ha b => npInsert_getD (by rw [cy a ha]; exact hi))
    rwa [List.map_id] at this
  have a2 : (List.zipWith (fun row x => npInsert row idx [x]) ry s.t).map (fun row => row.eraseIdx idx) = ry := by
    have := map_zipWith_left (fun row : List K => row.eraseIdx idx) (fun row (x : K) => npInsert row idx [x]) id ry s.t
      ly (fun a ha b => npInsert_eraseIdx (by rw [cy a ha]; exact hi))
    rwa [List.map_id] at this
  have b1 : (List.zipWith (fun row x => npInsert row idx [x]) rd (dualTOf s)).map (fun row => row.getD idx 0) =
      dualTOf s := by
    have := map_zipWith_right (fun row : List K => row.getD idx 0) (fun row (x : K) => npInsert row idx [x]) id rd
      (dualTOf s) (by omega) (fun a ha b => npInsert_getD (by rw [cd a ha]; exact hi'))
    rwa [List.map_id] at this
  have b2 : (List.zipWith (fun row x => npInsert row idx [x]) rd (dualTOf s)).map (fun row => row.eraseIdx idx) =
      rd := by
    have := map_zipWith_left (fun row : List K => row.eraseIdx idx) (fun row (x : K) => npInsert row idx [x]) id rd
      (dualTOf s) (by omega) (fun a ha b => npInsert_eraseIdx (by rw [cd a ha]; exact hi'))
    rwa [List.map_id] at this
  simp only [Mapper.inv, Arr.col, Arr.deleteCol, bind, Except.bind]
  rw [if_pos (by omega), if_pos (by omega)]
  simp only []
  rw [if_pos (by omega), if_pos (by omega)]
  simp only [a1, a2, b1, b2]
  congr 1
  cases s
  simp only at ey ed
  subst ey ed
  simp

/-- Controls that became states and come back as controls; the positions may be interleaved with the states in any
way and given in any order. -/
theorem C19_differential (O : TrigOps K) (idxs : List Nat) (T n m : Nat) (s : Sol K) (hy : s.y.Shape T n)
    (hu : s.u.Shape T m) (hl : idxs.length = m) (hnd : idxs.Nodup) (hb : ∀ i ∈ idxs, i < n + m) :
    RoundTrip O (.differential idxs) s s := by
  obtain ⟨ry, ey, ly, cy⟩ := hy
  obtain ⟨ru, eu, lu, cu⟩ := hu
  obtain ⟨r', e1, l1, h1⟩ := insertAll_sortedCols (K := K) ly cy lu hl hnd hb
  have hdel : (Arr.rows m ru).deleteCols (List.range m) = .ok (.rows 0 (ru.map fun _ => [])) := by
    simp only [Arr.deleteCols]
    rw [if_pos (by simp), deleteFrom_range_all m _ (by simp)]
    congr 2
    apply List.map_congr_left
    intro x hx
    exact deleteFrom_range_all m x (cu x hx)
  refine ⟨_, by simp only [Mapper.map, ey, eu, e1, sortedCols_length hl, hdel, bind, Except.bind]; rfl, ?_⟩
  have hpick : r'.map (fun row => idxs.map fun i => row.getD i 0) = ru := by
    apply List.ext_getElem?
    intro τ
    rw [List.getElem?_map]
    by_cases hτ : τ < T
    · have a1 : ry[τ]? = some (ry[τ]'(by omega)) := List.getElem?_eq_getElem _
      have a2 : ru[τ]? = some (ru[τ]'(by omega)) := List.getElem?_eq_getElem _
      obtain ⟨row', g1, g2, g3, -⟩ := h1 τ _ _ a1 a2
      rw [g1, a2]
      simp only [Option.map_some, Option.some.injEq]
      have hlen : (ru[τ]'(by omega)).length = m := cu _ (List.getElem_mem _)
      apply List.ext_getElem?
      intro k
      rw [List.getElem?_map]
      by_cases hk : k < m
      · have b1 : idxs[k]? = some (idxs[k]'(by omega)) := List.getElem?_eq_getElem _
        rw [b1, Option.map_some, List.getD_eq_getElem?_getD, g3 k _ b1, Option.getD_some,
          List.getD_eq_getElem?_getD, List.getElem?_eq_getElem (by omega)]
        rfl
      · rw [List.getElem?_eq_none (by omega), List.getElem?_eq_none (by omega)]; rfl
    · rw [List.getElem?_eq_none (by omega), List.getElem?_eq_none (by omega)]; rfl
  have hdely : r'.map (Arr.deleteFrom idxs 0) = ry := by
    apply List.ext_getElem?
    intro τ
    rw [List.getElem?_map]
    by_cases hτ : τ < T
    · have a1 : ry[τ]? = some (ry[τ]'(by omega)) := List.getElem?_eq_getElem _
      have a2 : ru[τ]? = some (ru[τ]'(by omega)) := List.getElem?_eq_getElem _
      obtain ⟨row', g1, -, -, g4⟩ := h1 τ _ _ a1 a2
      rw [g1, a1, Option.map_some, g4]
    · rw [List.getElem?_eq_none (by omega), List.getElem?_eq_none (by omega)]; rfl
  simp only [Mapper.inv, Arr.pick, Arr.deleteCols, bind, Except.bind]
  rw [if_pos hb]
  simp only [hpick, hdely, deleteFrom_range_length hl hnd hb, hl]
  rw [if_pos hb]
  cases s
  simp only at ey eu
  subst ey eu
  rfl

/-- The multipliers are created and dropped again; the cost is the computed one.  A user who declared constraint
parameters does not get them back: whatever `nondyn` was, it is empty afterwards. -/
theorem C19_dualize (O : TrigOps K) (nuLen : Nat) (cc : Sol K → K) (s : Sol K) :
    RoundTrip O (.dualize nuLen cc) s { s with nondyn := [], cost := some (cc { s with nondyn := [] }) } := by
  refine ⟨_, rfl, ?_⟩
  simp only [Mapper.inv]
  split <;> rfl

/-- The algebraic control law recomputes the controls from the (unchanged) states and costates and leaves everything
else alone. -/
theorem C19_algebraic (O : TrigOps K) (m : Nat) (f : K → List K → List K → List K → List K → List K) (s : Sol K) :
    ∃ s', RoundTrip O (.algebraic m f) s s' ∧ { s' with u := s.u } = s ∧
      ∀ (i : Nat) (t : K) (y lam : List K), s.t[i]? = some t → s.y.rowList[i]? = some y →
        s.dual.rowList[i]? = some lam → s'.u.rowList[i]? = some (f t y lam s.dyn s.const) := by
  refine ⟨_, ⟨s, rfl, rfl⟩, rfl, ?_⟩
  intro i t y lam h1 h2 h3
  have hz : ((List.zip s.t (List.zip s.y.rowList s.dual.rowList)).map
      fun x => f x.1 x.2.1 x.2.2 s.dyn s.const)[i]? = some (f t y lam s.dyn s.const) := by
    have hz2 : (List.zip s.t (List.zip s.y.rowList s.dual.rowList))[i]? = some (t, y, lam) :=
      List.getElem?_zip_eq_some.2 ⟨h1, List.getElem?_zip_eq_some.2 ⟨h2, h3⟩⟩
    rw [List.getElem?_map, hz2]
    rfl
  simp only
  split
  · next h => rw [h] at hz; simp at hz
  · exact hz

/-- Costates appended to the states and cut off again.  The adjoint slice starts at or after the end of the
parameters, which is what the code computes (mapping_functions.py:673-677: the slice is taken after the list has been
extended). -/
theorem C19_squash (O : TrigOps K) (T n k c d : Nat) (s : Sol K) (hT : 0 < T) (hy : s.y.Shape T n)
    (hd : s.dual.Shape T k) (hc : s.nondyn.length ≤ c) (hcd : c ≤ d) : RoundTrip O (.squash n (n + k) c d) s s := by
  obtain ⟨ry, ey, ly, cy⟩ := hy
  obtain ⟨rd, ed, ld, cd⟩ := hd
  have hlen : s.dual.len > 0 := by rw [ed]; simp only [Arr.len, Arr.rowList]; omega
  refine ⟨{ s with y := .rows (n + k) (List.zipWith (· ++ ·) ry rd) }, ?_, ?_⟩
  · simp only [Mapper.map]
    rw [if_pos hlen, ey, ed]
    simp only [Arr.hcat]
    rw [if_pos (by omega)]
    rfl
  · have a1 : (List.zipWith (· ++ ·) ry rd).map (fun row : List K => (row.take (n + k)).drop n) = rd := by
      have := map_zipWith_right (fun row : List K => (row.take (n + k)).drop n) (· ++ ·)
        (fun b : List K => b.take k) ry rd (by omega) (fun a ha b => by
          have := cy a ha
          rw [List.take_append, this, List.take_of_length_le (by omega), List.drop_append_of_le_length (by omega),
            List.drop_eq_nil_of_le (by omega), Nat.add_sub_cancel_left]
          rfl)
      rw [this]
      conv_rhs => rw [← List.map_id rd]
      apply List.map_congr_left
      intro b hb
      rw [List.take_of_length_le (by rw [cd b hb])]; rfl
    have a2 : (List.zipWith (· ++ ·) ry rd).map (fun row : List K => row.take n ++ row.drop (n + k)) = ry := by
      have : ∀ x ∈ List.zip ry rd, (x.1 ++ x.2).take n ++ (x.1 ++ x.2).drop (n + k) = x.1 := by
        rintro ⟨a, b⟩ hx
        have h1 := cy a (List.of_mem_zip hx).1
        have h2 := cd b (List.of_mem_zip hx).2
        simp only
        rw [List.take_append_of_le_length (by omega), List.take_of_length_le (by omega),
          List.drop_eq_nil_of_le (by rw [List.length_append]; omega), List.append_nil]
      rw [← List.map_uncurry_zip_eq_zipWith, List.map_map]
      have e2 : (List.zip ry rd).map Prod.fst = ry := zip_map_fst (by omega)
      conv_rhs => rw [← e2]
      exact List.map_congr_left this
    simp only [Mapper.inv, Arr.slice, Arr.deleteSlice, bind, Except.bind, a1, a2]
    rw [List.take_of_length_le hc]
    cases s
    simp only at ey ed hc
    subst ey ed
    simp only [Except.ok.injEq, Sol.mk.injEq, true_and, and_true, Arr.rows.injEq]
    refine ⟨by omega, by omega, ?_⟩
    rw [List.drop_eq_nil_of_le (by omega), List.append_nil]

theorem rowVals_eq {β : Type _} (f : List K → List K → β) : ∀ (t : List K) (ys ds : List (List K)),
    ys.length = t.length → ds.length = t.length → rowVals f t ys ds = .ok (List.zipWith f ys ds)
  | [], ys, ds, h1, h2 => by
    have : ys = [] := by simpa using h1
    subst this
    rfl
  | _ :: ts, [], _, h1, _ => by simp at h1
  | _ :: ts, _ :: _, [], _, h2 => by simp at h2
  | _ :: ts, y :: ys, d :: ds, h1, h2 => by
    simp only [rowVals, rowVals_eq f ts ys ds (by simpa using h1) (by simpa using h2), bind, Except.bind,
      List.zipWith_cons_cons]

/-- Mishchenko–Fomenko reduction: a pair (state `i`, costate `j`) is replaced by a parameter and a quadrature and
recovered.  `p` is conserved along the trajectory, `pInv` solves it for the removed state and `qInv` solves the
quadrature for the removed costate (mapping_functions.py:535, 572, 651-653). -/
theorem C19_mf (O : TrigOps K) (i j n k w : Nat) (p : List K → List K → List K → List K → K)
    (q : List K → List K → List K → List K → K) (pInv : List K → List K → List K → List K → K)
    (qInv : List K → List K → List K → List K → List K → K) (s : Sol K) (val : K) (hT : s.t ≠ [])
    (hy : s.y.Shape s.t.length n) (hd : s.dual.Shape s.t.length k) (hq : s.q.Shape s.t.length w)
    (hi : i < n) (hj : j < k)
    (hcons : ∀ (τ : Nat) (y d : List K), s.y.rowList[τ]? = some y → s.dual.rowList[τ]? = some d →
      p y d s.dyn s.const = val)
    (hp : ∀ (y d : List K), y.length = n → d.length = k →
      pInv (y.eraseIdx i) (d.eraseIdx j) (s.dyn ++ [p y d s.dyn s.const]) s.const = y.getD i 0)
    (hqi : ∀ (y d qr : List K), y.length = n → d.length = k → qr.length = w →
      qInv (y.eraseIdx i) (d.eraseIdx j) (qr ++ [q y d (s.dyn ++ [p y d s.dyn s.const]) s.const])
        (s.dyn ++ [p y d s.dyn s.const]) s.const = d.getD j 0) :
    RoundTrip O (.mf (.states i) (.costates j) p q pInv qInv) s s := by
  obtain ⟨ry, ey, ly, cy⟩ := hy
  obtain ⟨rd, ed, ld, cd⟩ := hd
  obtain ⟨rq, eq, lq, cq⟩ := hq
  have hpos : 0 < s.t.length := List.length_pos_iff.2 hT
  have gy : ∀ τ, τ < s.t.length → ∃ y, ry[τ]? = some y ∧ y.length = n := fun τ h =>
    ⟨ry[τ]'(by omega), List.getElem?_eq_getElem _, cy _ (List.getElem_mem _)⟩
  have gd : ∀ τ, τ < s.t.length → ∃ y, rd[τ]? = some y ∧ y.length = k := fun τ h =>
    ⟨rd[τ]'(by omega), List.getElem?_eq_getElem _, cd _ (List.getElem_mem _)⟩
  have gq : ∀ τ, τ < s.t.length → ∃ y, rq[τ]? = some y ∧ y.length = w := fun τ h =>
    ⟨rq[τ]'(by omega), List.getElem?_eq_getElem _, cq _ (List.getElem_mem _)⟩
  rw [ey, ed] at hcons
  simp only [Arr.rowList] at hcons
  obtain ⟨y0, hy0, -⟩ := gy 0 hpos
  obtain ⟨d0, hd0, -⟩ := gd 0 hpos
  have hv : p y0 d0 s.dyn s.const = val := hcons 0 y0 d0 hy0 hd0
  set dyn' := s.dyn ++ [val] with hdyn
  set qv := List.zipWith (fun y d => q y d dyn' s.const) ry rd with hqv
  have lqv : qv.length = s.t.length := by rw [hqv, List.length_zipWith]; omega
  refine ⟨{ s with dyn := dyn', y := .rows (n - 1) (ry.map (·.eraseIdx i)), dual := .rows (k - 1) (rd.map (·.eraseIdx j)),
                   q := .rows (w + 1) (List.zipWith (fun row x => row ++ [x]) rq qv) }, ?_, ?_⟩
  · simp only [Mapper.map, ey, ed, Arr.rowList, Py.get, hy0, hd0, bind, Except.bind, hv, ← hdyn,
      rowVals_eq _ s.t ry rd ly ld, removeAt, Arr.deleteCol]
    rw [if_pos hi]
    simp only []
    rw [if_pos hj]
    simp only [eq, Arr.stackCol]
    rw [if_pos (by rw [← hqv, lqv, lq])]
  · have lz : (List.zipWith (fun row x => row ++ [x]) rq qv).length = s.t.length := by
      rw [List.length_zipWith]; omega
    simp only [Mapper.inv, Arr.rowList, bind, Except.bind,
      rowVals_eq (fun y d => (y, d)) s.t (ry.map (·.eraseIdx i)) (rd.map (·.eraseIdx j)) (by simp [ly]) (by simp [ld]),
      rowVals_eq (fun q _ => q) s.t _ _ lz lz, putBack]
    rw [if_pos (by simp [ly, ld])]
    simp only []
    rw [if_pos (by simp [ly, ld, lz])]
    simp only []
    rw [if_neg (by omega)]
    have hyy : List.zipWith (fun row x => npInsert row i [x]) (ry.map (·.eraseIdx i))
        ((List.zipWith (fun y d => (y, d)) (ry.map (·.eraseIdx i)) (rd.map (·.eraseIdx j))).map
          fun yd => pInv yd.1 yd.2 dyn' s.const) = ry := by
      apply List.ext_getElem?
      intro τ
      by_cases hτ : τ < s.t.length
      · obtain ⟨y, e1, l1⟩ := gy τ hτ
        obtain ⟨d, e2, l2⟩ := gd τ hτ
        have := hp y d l1 l2
        rw [hcons τ y d e1 e2, ← hdyn] at this
        simp only [List.getElem?_zipWith, List.getElem?_map, e1, e2, Option.map_some, this,
          eraseIdx_npInsert (show i < y.length by omega)]
      · rw [List.getElem?_eq_none (by simp; omega), List.getElem?_eq_none (by omega)]
    have hdd : List.zipWith (fun row x => npInsert row j [x]) (rd.map (·.eraseIdx j))
        (List.zipWith (fun (yd : List K × List K) q => qInv yd.1 yd.2 q dyn' s.const)
          (List.zipWith (fun y d => (y, d)) (ry.map (·.eraseIdx i)) (rd.map (·.eraseIdx j)))
          (List.zipWith (fun q _ => q) (List.zipWith (fun row x => row ++ [x]) rq qv)
            (List.zipWith (fun row x => row ++ [x]) rq qv))) = rd := by
      apply List.ext_getElem?
      intro τ
      by_cases hτ : τ < s.t.length
      · obtain ⟨y, e1, l1⟩ := gy τ hτ
        obtain ⟨d, e2, l2⟩ := gd τ hτ
        obtain ⟨r, e3, l3⟩ := gq τ hτ
        have := hqi y d r l1 l2 l3
        rw [hcons τ y d e1 e2, ← hdyn] at this
        simp only [List.getElem?_zipWith, List.getElem?_map, e1, e2, e3, Option.map_some, hqv, this,
          eraseIdx_npInsert (show j < d.length by omega)]
      · rw [List.getElem?_eq_none (by simp; omega), List.getElem?_eq_none (by omega)]
    have hqq : (List.zipWith (fun row x => row ++ [x]) rq qv).map (·.eraseIdx (w + 1 - 1)) = rq := by
      have := map_zipWith_left (fun row : List K => row.eraseIdx (w + 1 - 1)) (fun row (x : K) => row ++ [x]) id rq qv
        (by omega) (fun a ha b => by
          have := cq a ha
          rw [Nat.add_sub_cancel, List.eraseIdx_append_of_length_le (by omega), this]
          simp)
      rwa [List.map_id] at this
    simp only [hyy, hdd, hqq]
    simp only [hdyn, List.dropLast_concat]
    cases s
    simp only at ey ed eq
    subst ey ed eq
    simp only [Except.ok.injEq, Sol.mk.injEq, true_and, and_true, Arr.rows.injEq]
    refine ⟨?_, ?_, ?_⟩ <;> omega

/-- Mishchenko–Fomenko reduction: a pair (costate `j`, state `i`), the usual case in which the
conserved quantity is solved for a costate, is replaced by a parameter and a quadrature and
recovered.  `p` is conserved along the trajectory, `pInv` solves it for the removed costate and `qInv` solves the
quadrature for the removed state (mapping_functions.py:535, 572, 651-653). -/
theorem C19_mf_costate (O : TrigOps K) (i j n k w : Nat) (p : List K → List K → List K → List K → K)
    (q : List K → List K → List K → List K → K) (pInv : List K → List K → List K → List K → K)
    (qInv : List K → List K → List K → List K → List K → K) (s : Sol K) (val : K) (hT : s.t ≠ [])
    (hy : s.y.Shape s.t.length n) (hd : s.dual.Shape s.t.length k) (hq : s.q.Shape s.t.length w)
    (hi : i < n) (hj : j < k)
    (hcons : ∀ (τ : Nat) (y d : List K), s.y.rowList[τ]? = some y → s.dual.rowList[τ]? = some d →
      p y d s.dyn s.const = val)
    (hp : ∀ (y d : List K), y.length = n → d.length = k →
      pInv (y.eraseIdx i) (d.eraseIdx j) (s.dyn ++ [p y d s.dyn s.const]) s.const = d.getD j 0)
    (hqi : ∀ (y d qr : List K), y.length = n → d.length = k → qr.length = w →
      qInv (y.eraseIdx i) (d.eraseIdx j) (qr ++ [q y d (s.dyn ++ [p y d s.dyn s.const]) s.const])
        (s.dyn ++ [p y d s.dyn s.const]) s.const = y.getD i 0) :
    RoundTrip O (.mf (.costates j) (.states i) p q pInv qInv) s s := by
  obtain ⟨ry, ey, ly, cy⟩ := hy
  obtain ⟨rd, ed, ld, cd⟩ := hd
  obtain ⟨rq, eq, lq, cq⟩ := hq
  have hpos : 0 < s.t.length := List.length_pos_iff.2 hT
  have gy : ∀ τ, τ < s.t.length → ∃ y, ry[τ]? = some y ∧ y.length = n := fun τ h =>
    ⟨ry[τ]'(by omega), List.getElem?_eq_getElem _, cy _ (List.getElem_mem _)⟩
  have gd : ∀ τ, τ < s.t.length → ∃ y, rd[τ]? = some y ∧ y.length = k := fun τ h =>
    ⟨rd[τ]'(by omega), List.getElem?_eq_getElem _, cd _ (List.getElem_mem _)⟩
  have gq : ∀ τ, τ < s.t.length → ∃ y, rq[τ]? = some y ∧ y.length = w := fun τ h =>
    ⟨rq[τ]'(by omega), List.getElem?_eq_getElem _, cq _ (List.getElem_mem _)⟩
  rw [ey, ed] at hcons
  simp only [Arr.rowList] at hcons
  obtain ⟨y0, hy0, -⟩ := gy 0 hpos
  obtain ⟨d0, hd0, -⟩ := gd 0 hpos
  have hv : p y0 d0 s.dyn s.const = val := hcons 0 y0 d0 hy0 hd0
  set dyn' := s.dyn ++ [val] with hdyn
  set qv := List.zipWith (fun y d => q y d dyn' s.const) ry rd with hqv
  have lqv : qv.length = s.t.length := by rw [hqv, List.length_zipWith]; omega
  refine ⟨{ s with dyn := dyn', y := .rows (n - 1) (ry.map (·.eraseIdx i)), dual := .rows (k - 1) (rd.map (·.eraseIdx j)),
                   q := .rows (w + 1) (List.zipWith (fun row x => row ++ [x]) rq qv) }, ?_, ?_⟩
  · simp only [Mapper.map, ey, ed, Arr.rowList, Py.get, hy0, hd0, bind, Except.bind, hv, ← hdyn,
      rowVals_eq _ s.t ry rd ly ld, removeAt, Arr.deleteCol]
    rw [if_pos hj]
    simp only []
    rw [if_pos hi]
    simp only [eq, Arr.stackCol]
    rw [if_pos (by rw [← hqv, lqv, lq])]
  · have lz : (List.zipWith (fun row x => row ++ [x]) rq qv).length = s.t.length := by
      rw [List.length_zipWith]; omega
    simp only [Mapper.inv, Arr.rowList, bind, Except.bind,
      rowVals_eq (fun y d => (y, d)) s.t (ry.map (·.eraseIdx i)) (rd.map (·.eraseIdx j)) (by simp [ly]) (by simp [ld]),
      rowVals_eq (fun q _ => q) s.t _ _ lz lz, putBack]
    rw [if_pos (by simp [ly, ld])]
    simp only []
    rw [if_pos (by simp [ly, ld, lz])]
    simp only []
    rw [if_neg (by omega)]
    have hdd : List.zipWith (fun row x => npInsert row j [x]) (rd.map (·.eraseIdx j))
        ((List.zipWith (fun y d => (y, d)) (ry.map (·.eraseIdx i)) (rd.map (·.eraseIdx j))).map
          fun yd => pInv yd.1 yd.2 dyn' s.const) = rd := by
      apply List.ext_getElem?
      intro τ
      by_cases hτ : τ < s.t.length
      · obtain ⟨y, e1, l1⟩ := gy τ hτ
        obtain ⟨d, e2, l2⟩ := gd τ hτ
        have := hp y d l1 l2
        rw [hcons τ y d e1 e2, ← hdyn] at this
        simp only [List.getElem?_zipWith, List.getElem?_map, e1, e2, Option.map_some, this,
          eraseIdx_npInsert (show j < d.length by omega)]
      · rw [List.getElem?_eq_none (by simp; omega), List.getElem?_eq_none (by omega)]
    have hyy : List.zipWith (fun row x => npInsert row i [x]) (ry.map (·.eraseIdx i))
        (List.zipWith (fun (yd : List K × List K) q => qInv yd.1 yd.2 q dyn' s.const)
          (List.zipWith (fun y d => (y, d)) (ry.map (·.eraseIdx i)) (rd.map (·.eraseIdx j)))
          (List.zipWith (fun q _ => q) (List.zipWith (fun row x => row ++ [x]) rq qv)
            (List.zipWith (fun row x => row ++ [x]) rq qv))) = ry := by
      apply List.ext_getElem?
      intro τ
      by_cases hτ : τ < s.t.length
      · obtain ⟨y, e1, l1⟩ := gy τ hτ
        obtain ⟨d, e2, l2⟩ := gd τ hτ
        obtain ⟨r, e3, l3⟩ := gq τ hτ
        have := hqi y d r l1 l2 l3
        rw [hcons τ y d e1 e2, ← hdyn] at this
        simp only [List.getElem?_zipWith, List.getElem?_map, e1, e2, e3, Option.map_some, hqv, this,
          eraseIdx_npInsert (show i < y.length by omega)]
      · rw [List.getElem?_eq_none (by simp; omega), List.getElem?_eq_none (by omega)]
    have hqq : (List.zipWith (fun row x => row ++ [x]) rq qv).map (·.eraseIdx (w + 1 - 1)) = rq := by
      have := map_zipWith_left (fun row : List K => row.eraseIdx (w + 1 - 1)) (fun row (x : K) => row ++ [x]) id rq qv
        (by omega) (fun a ha b => by
          have := cq a ha
          rw [Nat.add_sub_cancel, List.eraseIdx_append_of_length_le (by omega), this]
          simp)
      rwa [List.map_id] at this
    simp only [hyy, hdd, hqq]
    simp only [hdyn, List.dropLast_concat]
    cases s
    simp only at ey ed eq
    subst ey ed eq
    simp only [Except.ok.injEq, Sol.mk.injEq, true_and, and_true, Arr.rows.injEq]
    refine ⟨?_, ?_, ?_⟩ <;> omega

/-! ### The differential-geometry control mapper does not undo itself -/

theorem diffyGDual_one {T n : Nat} {rd : List (List K)} (hn : 0 < n) (ld : rd.length = T) :
    diffyGDual T 1 (.rows n rd) (.empty : Arr K) =
      .ok (.rows (n + 1) (rd.map fun row => npInsert row (n - 1) [0]), .rows T [List.replicate T 0]) := by
  simp only [diffyGDual, Arr.insertColBeforeLast, bind, Except.bind]
  rw [if_neg (by omega)]
  simp only [Arr.insertCol]
  rw [if_neg (by omega), if_pos (by simp [ld])]
  simp only [Arr.len, Arr.rowList, List.length_nil, if_true]
  congr 3
  apply List.ext_getElem?
  intro τ
  rw [zipWith_insert_getElem?, List.getElem?_map]
  by_cases h : τ < T
  · rw [List.getElem?_eq_getElem (by omega), List.getElem?_replicate, if_pos h]
    rfl
  · rw [List.getElem?_eq_none (by omega), List.getElem?_eq_none (by simp; omega)]; rfl

/-- With one control appended after the `n` states (as mapping_functions.py:466-470 does) the costate of the control
is put *before* the last costate but the entry removed on the way back is the last one, so the last costate of the
user's trajectory comes back as 0. -/
theorem C19_diffyg_violated (O : TrigOps K) (T n : Nat) (s : Sol K) (ry rd ru : List (List K)) (hn : 0 < n)
    (ey : s.y = .rows n ry) (ly : ry.length = T) (cy : ∀ x ∈ ry, x.length = n)
    (ed : s.dual = .rows n rd) (ld : rd.length = T) (cd : ∀ x ∈ rd, x.length = n)
    (eu : s.u = .rows 1 ru) (lu : ru.length = T) (cu : ∀ x ∈ ru, x.length = 1)
    (hdu : s.dualU = .empty) (hT : s.t.length = T) :
    RoundTrip O (.differentialDiffyG [n]) s
      { s with dual := .rows n (rd.map fun row => row.take (n - 1) ++ [0]), dualU := .rows T [List.replicate T 0] } := by
  -- states and controls behave as in `C19_differential`
  obtain ⟨s1, f1, b1⟩ := C19_differential O [n] T n 1 s ⟨ry, ey, ly, cy⟩ ⟨ru, eu, lu, cu⟩ rfl (by simp) (by simp)
  have hlen : (sortedCols [n] s.u).length = 1 := by rw [eu]; exact sortedCols_length rfl
  simp only [Mapper.map, bind, Except.bind] at f1
  cases h1 : insertAll (sortedCols [n] s.u) s.y with
  | error e => rw [h1] at f1; cases f1
  | ok y1 =>
    rw [h1] at f1; simp only at f1
    cases h2 : s.u.deleteCols (List.range (sortedCols [n] s.u).length) with
    | error e => rw [h2] at f1; cases f1
    | ok u1 =>
      rw [h2] at f1; cases f1
      simp only [Mapper.inv, bind, Except.bind] at b1
      cases h3 : y1.pick [n] with
      | error e => rw [h3] at b1; cases b1
      | ok u2 =>
        rw [h3] at b1; simp only at b1
        cases h4 : y1.deleteCols [n] with
        | error e => rw [h4] at b1; cases b1
        | ok y2 =>
          rw [h4] at b1
          simp only [Except.ok.injEq] at b1
          have hy2 : y2 = s.y := congrArg Sol.y b1
          have hu2 : u2 = s.u := congrArg Sol.u b1
          refine ⟨{ s with y := y1, u := u1, dual := .rows (n + 1) (rd.map fun row => npInsert row (n - 1) [0]),
                           dualU := .rows T [List.replicate T 0] }, ?_, ?_⟩
          · simp only [Mapper.map, h1, h2, bind, Except.bind]
            rw [hlen, hT, ed, hdu, diffyGDual_one hn ld]
          · have hr := deleteFrom_range_length (idxs := [n]) (n := n) (m := 1) rfl (by simp) (by simp)
            have h5 : (Arr.rows (n + 1) (rd.map fun row => npInsert row (n - 1) [0])).deleteCols [n] =
                .ok (.rows n ((rd.map fun row => npInsert row (n - 1) [0]).map (Arr.deleteFrom [n] 0))) := by
              simp only [Arr.deleteCols]
              rw [if_pos (by simp), hr]
            simp only [Mapper.inv, h3, h4, h5, bind, Except.bind]
            simp only [hy2, hu2, Except.ok.injEq, Sol.mk.injEq, true_and, and_true, Arr.rows.injEq]
            rw [List.map_map]
            apply List.map_congr_left
            intro row hrow
            have hl := cd row hrow
            simp only [Function.comp]
            have e1 : npInsert row (n - 1) [0] = (row.take (n - 1) ++ [0]) ++ row.drop (n - 1) := rfl
            have e2 : (row.take (n - 1) ++ [0]).length = n := by simp; omega
            obtain ⟨z, hz⟩ := List.length_eq_one_iff.1 (show (row.drop (n - 1)).length = 1 by simp; omega)
            rw [e1, deleteFrom_append, Nat.zero_add, e2, hz]
            have e3 : ∀ (off : Nat) (l : List K), off + l.length ≤ n → Arr.deleteFrom [n] off l = l := by
              intro off l
              induction l generalizing off with
              | nil => intro _; rfl
              | cons a l ih =>
                intro h
                rw [List.length_cons] at h
                rw [Arr.deleteFrom, if_neg (by simp; omega), ih (off + 1) (by omega)]
            rw [e3 0 _ (by omega)]
            simp [Arr.deleteFrom]

/-- With two or more controls and two or more time points the forward map raises `ValueError`: the second insertion
into `dual_u` has one value per time point but `dual_u` has a single row. -/
theorem C19_diffyg_crash (O : TrigOps K) (idxs : List Nat) (T n m : Nat) (s : Sol K) (hy : s.y.Shape T n)
    (hd : s.dual.Shape T n) (hu : s.u.Shape T m) (hdu : s.dualU = .empty) (hl : idxs.length = m) (hnd : idxs.Nodup)
    (hb : ∀ i ∈ idxs, i < n + m) (hT : s.t.length = T) (hn : 0 < n) (h2 : 2 ≤ m) (hT2 : 2 ≤ T) :
    (Mapper.differentialDiffyG idxs).map O s = .error .valueError := by
  obtain ⟨ry, ey, ly, cy⟩ := hy
  obtain ⟨rd, ed, ld, cd⟩ := hd
  obtain ⟨ru, eu, lu, cu⟩ := hu
  obtain ⟨r', e1, l1, h1⟩ := insertAll_sortedCols (K := K) ly cy lu hl hnd hb
  simp only [Mapper.map, ey, eu, e1, sortedCols_length hl, bind, Except.bind, hT, ed, hdu]
  obtain ⟨m', rfl⟩ : ∃ m', m = m' + 2 := ⟨m - 2, by omega⟩
  have hd2 : diffyGDual T (m' + 2) (.rows n rd) (.empty : Arr K) = .error .valueError := by
    simp only [diffyGDual, Arr.insertColBeforeLast, bind, Except.bind]
    rw [if_neg (by omega)]
    simp only [Arr.insertCol, Arr.len, Arr.rowList, List.length_nil, if_true]
    rw [if_neg (by omega), if_pos (by simp [ld])]
    simp only []
    rw [if_neg (by omega), if_neg (by omega), if_pos (by simp [ld])]
    simp only [List.length_cons, List.length_nil]
    rw [if_neg (by omega), if_neg (by omega), if_neg (by omega), if_neg (by simp; omega)]
    obtain ⟨T', rfl⟩ : ∃ T', T = T' + 2 := ⟨T - 2, by omega⟩
    simp [List.replicate_succ]
  rw [hd2]

/-! ## C21: time normalisation -/

/-- The normalised time starts at 0 and ends at 1, its length is unchanged, the duration becomes the new parameter
at the given position; and the inverse gives back every time counted from the first one.  The original time is
recovered exactly when the trajectory starts at 0. -/
theorem C21_normalise (O : TrigOps K) (idx : Nat) (s : Sol K) (t0 tf : K) (h0 : s.t.head? = some t0)
    (hf : s.t.getLast? = some tf) (hne : tf ≠ t0) (hidx : idx ≤ s.dyn.length) :
    (∃ s1, (Mapper.normalizeTime idx).map O s = .ok s1 ∧ s1.t.head? = some 0 ∧ s1.t.getLast? = some 1 ∧
      s1.t.length = s.t.length ∧ s1.dyn[idx]? = some (tf - t0) ∧ { s1 with t := s.t, dyn := s.dyn } = s ∧
      (Mapper.normalizeTime idx).inv O s1 = .ok { s with t := s.t.map fun t => t - t0 }) := by
  have hd : tf - t0 ≠ 0 := sub_ne_zero.2 hne
  refine ⟨{ s with dyn := npInsert s.dyn idx [tf - t0], t := s.t.map fun t => (t - t0) / (tf - t0) },
    by simp only [Mapper.map, h0, hf]; rw [if_pos hidx], ?_, ?_, by simp, ?_, rfl, ?_⟩
  · simp [List.head?_map, h0]
  · simp [List.getLast?_map, hf, div_self hd]
  · simp [npInsert_getElem? hidx]
  · have : Py.get (npInsert s.dyn idx [tf - t0]) idx = .ok (tf - t0) := by
      simp [Py.get, npInsert_getElem? hidx]
    simp only [Mapper.inv, this, bind, Except.bind, npInsert_eraseIdx hidx, List.map_map]
    congr 2
    apply List.map_congr_left
    intro t _
    simp only [Function.comp]
    field_simp

/-- Hence alone it is an exact inverse only for trajectories starting at time 0. -/
theorem C21_violated (O : TrigOps K) (idx : Nat) (s : Sol K) (t0 tf : K) (h0 : s.t.head? = some t0)
    (hf : s.t.getLast? = some tf) (hne : tf ≠ t0) (hidx : idx ≤ s.dyn.length) :
    RoundTrip O (.normalizeTime idx) s s ↔ t0 = 0 := by
  obtain ⟨s1, h1, -, -, -, -, -, h2⟩ := C21_normalise O idx s t0 tf h0 hf hne hidx
  have hmap : (s.t.map fun t => t - t0) = s.t ↔ t0 = 0 := by
    cases ht : s.t with
    | nil => rw [ht] at h0; cases h0
    | cons a l =>
      rw [ht] at h0
      cases h0
      constructor
      · intro h
        have := congrArg List.head? h
        simp at this
        exact this.symm
      · intro h
        subst h
        simp
  constructor
  · rintro ⟨s2, g1, g2⟩
    rw [h1] at g1
    cases g1
    rw [h2] at g2
    exact hmap.1 (congrArg Sol.t (Except.ok.inj g2))
  · intro h
    refine ⟨s1, h1, ?_⟩
    rw [h2, hmap.2 h]

/-! ## C20: chains -/

/-- A chain is applied front to back. -/
theorem C20_forward (O : TrigOps K) (a b : List (Mapper K)) (s : Sol K) :
    mapSol O (a ++ b) s = (mapSol O a s) >>= mapSol O b := by
  induction a generalizing s with
  | nil => rfl
  | cons m a ih =>
    simp only [List.cons_append, mapSol]
    cases m.map O s with
    | error e => rfl
    | ok s' => exact ih s'

theorem invLoop_append (O : TrigOps K) (a b : List (Mapper K)) (s : Sol K) :
    invLoop O (a ++ b) s = (invLoop O a s) >>= invLoop O b := by
  induction a generalizing s with
  | nil => rfl
  | cons m a ih =>
    simp only [List.cons_append, invLoop]
    cases m.inv O s with
    | error e => rfl
    | ok s' => exact ih s'

/-- The inverse of a chain undoes its last part first. -/
theorem C20_backward (O : TrigOps K) (a b : List (Mapper K)) (s : Sol K) :
    invMapSol O (a ++ b) s = (invMapSol O b s) >>= invMapSol O a := by
  simp only [invMapSol, List.reverse_append, invLoop_append]
  rfl

/-- A chain every member of which undoes what it did on this trajectory is undone as a whole. -/
theorem C20_chain (O : TrigOps K) (ms : List (Mapper K)) (s s' : Sol K) (h : mapSol O ms s = .ok s')
    (hinv : ∀ (a : List (Mapper K)) (m : Mapper K) (b : List (Mapper K)), ms = a ++ m :: b →
      ∀ s1 s2, mapSol O a s = .ok s1 → m.map O s1 = .ok s2 → m.inv O s2 = .ok s1) :
    invMapSol O ms s' = .ok s := by
  induction ms generalizing s with
  | nil => cases h; rfl
  | cons m ms ih =>
    simp only [mapSol, bind, Except.bind] at h
    cases hm : m.map O s with
    | error e => rw [hm] at h; cases h
    | ok s1 =>
      rw [hm] at h
      have e1 := ih s1 h (by
        intro a m' b e s2 s3 h2 h3
        refine hinv (m :: a) m' b (by rw [e]; rfl) s2 s3 ?_ h3
        simp only [mapSol, hm, bind, Except.bind]
        exact h2)
      have := C20_backward O [m] ms s'
      rw [List.singleton_append] at this
      rw [this, e1]
      simp only [bind, Except.bind, invMapSol, List.reverse_cons, List.reverse_nil, List.nil_append, invLoop]
      rw [hinv [] m ms rfl s s1 rfl hm]

/-- The mappers of the indirect method with the differential control law (mapping_functions.py:856-938): time made
a state after the `n` user states, `k` transformations without effect on the trajectory ('utm', switches), `nu`
multipliers, `m` controls appended to the states, time normalised, `n + 1` costates appended to the states. -/
def indirectChain (n m k nu pIdx c d : Nat) (cc : Sol K → K) : List (Mapper K) :=
  .momentumShift n :: (List.replicate k .identity ++
    [.dualize nu cc, .differential (List.range' (n + 1) m), .normalizeTime pIdx,
      .squash (n + 1 + m) (n + 1 + m + (n + 1)) c d])

theorem differential_inv_frame (O : TrigOps K) (idxs : List Nat) (s s' : Sol K) (x : List K)
    (h : (Mapper.differential idxs).inv O s = .ok s') :
    (Mapper.differential idxs).inv O { s with t := x } = .ok { s' with t := x } := by
  simp only [Mapper.inv, bind, Except.bind] at h ⊢
  cases hp : s.y.pick idxs with
  | error e => rw [hp] at h; cases h
  | ok u =>
    rw [hp] at h
    simp only at h
    cases hd : s.y.deleteCols idxs with
    | error e => rw [hd] at h; cases h
    | ok y =>
      rw [hd] at h
      cases h
      simp

theorem momentumShift_inv_frame (O : TrigOps K) (idx : Nat) (s s' : Sol K) (x nd : List K) (co : Option K)
    (h : (Mapper.momentumShift idx).inv O s = .ok s') :
    (Mapper.momentumShift idx).inv O { s with t := x, nondyn := nd, cost := co } =
      .ok { s' with nondyn := nd, cost := co } := by
  simp only [Mapper.inv, bind, Except.bind] at h ⊢
  cases h1 : s.y.col idx with
  | error e => rw [h1] at h; cases h
  | ok a =>
    rw [h1] at h; simp only at h
    cases h2 : s.y.deleteCol idx with
    | error e => rw [h2] at h; cases h
    | ok b =>
      rw [h2] at h; simp only at h
      cases h3 : s.dual.col idx with
      | error e => rw [h3] at h; cases h
      | ok c =>
        rw [h3] at h; simp only at h
        cases h4 : s.dual.deleteCol idx with
        | error e => rw [h4] at h; cases h
        | ok d => rw [h4] at h; cases h; simp

theorem mapSol_identities (O : TrigOps K) (k : Nat) (s : Sol K) : mapSol O (List.replicate k .identity) s = .ok s := by
  induction k with
  | zero => rfl
  | succ k ih => simp only [List.replicate_succ, mapSol, Mapper.map, bind, Except.bind, ih]

theorem invMapSol_identities (O : TrigOps K) (k : Nat) (s : Sol K) :
    invMapSol O (List.replicate k .identity) s = .ok s := by
  unfold invMapSol
  rw [List.reverse_replicate]
  induction k with
  | zero => rfl
  | succ k ih => simp only [List.replicate_succ, invLoop, Mapper.inv, bind, Except.bind, ih]

theorem insertCol_shape {a : Arr K} {T n i : Nat} {v : List K} {a' : Arr K} (h : a.Shape T n) (hv : v.length = T)
    (hi : i ≤ n) (he : a.insertCol i v = .ok a') : a'.Shape T (n + 1) := by
  obtain ⟨r, rfl, hl, hc⟩ := h
  simp only [Arr.insertCol] at he
  rw [if_neg (by omega), if_pos (by omega)] at he
  cases he
  refine ⟨_, rfl, by simp; omega, ?_⟩
  intro x hx
  obtain ⟨τ, hτ⟩ := List.getElem?_of_mem hx
  rw [zipWith_insert_getElem?] at hτ
  cases h1 : r[τ]? with
  | none => rw [h1] at hτ; cases hτ
  | some row =>
    cases h2 : v[τ]? with
    | none => rw [h1, h2] at hτ; cases hτ
    | some z =>
      rw [h1, h2] at hτ
      cases hτ
      rw [npInsert_length, hc row (List.mem_of_getElem? h1)]

/-- The user's trajectory comes back from the whole chain: time, states, costates, quadratures, controls, parameters
and constants are exactly the ones that went in, whatever the initial time. -/
theorem C20_indirect (O : TrigOps K) (n m k nu pIdx c d : Nat) (cc : Sol K → K) (s : Sol K) (t0 tf : K)
    (h0 : s.t.head? = some t0) (hf : s.t.getLast? = some tf) (hne : tf ≠ t0) (hp : pIdx ≤ s.dyn.length)
    (hy : s.y.Shape s.t.length n) (hd : s.dual.Shape s.t.length n) (hu : s.u.Shape s.t.length m)
    (hdt : s.dualT = [] ∨ s.dualT.length = s.t.length) (hnd : s.nondyn = []) (hc : nu ≤ c) (hcd : c ≤ d) :
    ∃ s', ChainRoundTrip O (indirectChain n m k nu pIdx c d cc) s s' ∧ s'.t = s.t ∧ s'.y = s.y ∧
      s'.dual = s.dual ∧ s'.u = s.u ∧ s'.q = s.q ∧ s'.dyn = s.dyn ∧ s'.nondyn = s.nondyn ∧ s'.const = s.const ∧
      s'.dualT = dualTOf s := by
  set T := s.t.length with hT
  have hTpos : 0 < T := by
    rw [hT]; apply List.length_pos_iff.2; intro h; rw [h] at h0; cases h0
  -- forward
  obtain ⟨s1, f1, b1⟩ := C19_momentumShift O n n n s hy hd (Nat.le_refl _) (Nat.le_refl _) hdt
  have ldt : (dualTOf s).length = T := by
    unfold dualTOf
    split
    · simp [hT]
    · next h => exact (hdt.resolve_left h)
  obtain ⟨y1, d1, ey1, ed1, es1⟩ : ∃ y1 d1, s.y.insertCol n s.t = .ok y1 ∧ s.dual.insertCol n (dualTOf s) = .ok d1 ∧
      s1 = { s with dualT := dualTOf s, y := y1, dual := d1 } := by
    have e : (if s.dualT.length = 0 then s.t.map fun _ => (0 : K) else s.dualT) = dualTOf s := by
      unfold dualTOf; simp only [List.length_eq_zero_iff]
    simp only [Mapper.map, e, bind, Except.bind] at f1
    cases h1 : s.y.insertCol n s.t with
    | error e => rw [h1] at f1; cases f1
    | ok y1 =>
      rw [h1] at f1; simp only at f1
      cases h2 : s.dual.insertCol n (dualTOf s) with
      | error e => rw [h2] at f1; cases f1
      | ok d1 => rw [h2] at f1; cases f1; exact ⟨y1, d1, rfl, rfl, rfl⟩
  have hy1 := insertCol_shape hy hT.symm (Nat.le_refl _) ey1
  have hd1 := insertCol_shape hd ldt (Nat.le_refl _) ed1
  set s2 : Sol K := { s1 with nondyn := List.replicate nu 1 } with hs2
  have f2 : (Mapper.dualize nu cc).map O s1 = .ok s2 := by
    simp only [Mapper.map]
    rw [if_pos (by rw [es1, hnd]; rfl)]
  obtain ⟨s3, f3, b3⟩ := C19_differential O (List.range' (n + 1) m) T (n + 1) m s2 (by rw [hs2, es1]; exact hy1)
    (by rw [hs2, es1]; exact hu) (by simp) (List.nodup_range') (by intro i hi; rw [List.mem_range'_1] at hi; omega)
  obtain ⟨y3, u3, hy3, es3⟩ : ∃ y3 u3, Arr.Shape y3 T (n + 1 + m) ∧ s3 = { s2 with y := y3, u := u3 } := by
    have hys2 : s2.y.Shape T (n + 1) := by rw [hs2, es1]; exact hy1
    have hus2 : s2.u.Shape T m := by rw [hs2, es1]; exact hu
    obtain ⟨ry, ey, ly, cy⟩ := hys2
    obtain ⟨ru, eu, lu, cu⟩ := hus2
    obtain ⟨r', e1, l1, h1⟩ := insertAll_sortedCols (K := K) (idxs := List.range' (n + 1) m) (m := m) ly cy lu (by simp)
      (List.nodup_range') (by intro i hi; rw [List.mem_range'_1] at hi; omega)
    simp only [Mapper.map, ey, eu, e1, bind, Except.bind] at f3
    cases hdel : (Arr.rows m ru).deleteCols (List.range (sortedCols (List.range' (n + 1) m) (.rows m ru)).length) with
    | error e => rw [hdel] at f3; cases f3
    | ok u3 =>
      rw [hdel] at f3
      cases f3
      refine ⟨_, u3, ⟨r', rfl, l1, ?_⟩, rfl⟩
      intro x hx
      obtain ⟨τ, hτ⟩ := List.getElem?_of_mem hx
      have hlt := (List.getElem?_eq_some_iff.1 hτ).1
      obtain ⟨row', g1, g2, -⟩ := h1 τ _ _ (List.getElem?_eq_getElem (show τ < ry.length by omega))
        (List.getElem?_eq_getElem (show τ < ru.length by omega))
      rw [g1] at hτ; cases hτ
      exact g2
  have ht3 : s3.t = s.t := by rw [es3, hs2, es1]
  have hdyn3 : s3.dyn = s.dyn := by rw [es3, hs2, es1]
  obtain ⟨s4, f4, -, -, l4, -, fr4, b4⟩ := C21_normalise O pIdx s3 t0 tf (by rw [ht3]; exact h0) (by rw [ht3]; exact hf)
    hne (by rw [hdyn3]; exact hp)
  have hy4 : s4.y = s3.y := by rw [← fr4]
  have hd4 : s4.dual = s3.dual := by rw [← fr4]
  have hn4 : s4.nondyn = List.replicate nu 1 := by rw [show s4.nondyn = s3.nondyn by rw [← fr4], es3]
  obtain ⟨s5, f5, b5⟩ := C19_squash O T (n + 1 + m) (n + 1) c d s4 hTpos (by rw [hy4, es3]; exact hy3)
    (by rw [hd4, es3, hs2, es1]; exact hd1) (by rw [hn4]; simp; exact hc) hcd
  -- backward
  have b3' := differential_inv_frame O _ _ _ (s3.t.map fun t => t - t0) b3
  have b1' := fun co => momentumShift_inv_frame O _ _ _ (s3.t.map fun t => t - t0) [] co b1
  have hback : ∀ cst, (Mapper.dualize nu cst).inv O { s2 with t := s3.t.map fun t => t - t0 } =
      .ok { s1 with t := s3.t.map fun t => t - t0, nondyn := [],
                    cost := some (cst { s1 with t := s3.t.map fun t => t - t0, nondyn := [] }) } := by
    intro cst; rfl
  refine ⟨{ s with dualT := dualTOf s, nondyn := [],
                   cost := some (cc { s1 with t := s3.t.map fun t => t - t0, nondyn := [] }) }, ⟨s5, ?_, ?_⟩, ?_⟩
  rotate_left
  · have e := C20_backward O [.momentumShift n] (List.replicate k .identity ++
      [.dualize nu cc, .differential (List.range' (n + 1) m), .normalizeTime pIdx,
        .squash (n + 1 + m) (n + 1 + m + (n + 1)) c d]) s5
    rw [List.singleton_append] at e
    rw [indirectChain, e, C20_backward]
    have e2 : invMapSol O [.dualize nu cc, .differential (List.range' (n + 1) m), .normalizeTime pIdx,
        .squash (n + 1 + m) (n + 1 + m + (n + 1)) c d] s5 = (Mapper.dualize nu cc).inv O { s2 with t := s3.t.map fun t => t - t0 } := by
      simp only [invMapSol, List.reverse_cons, List.reverse_nil, List.nil_append, List.cons_append, invLoop, b5, b4,
        b3', bind, Except.bind]
      rfl
    rw [e2, hback]
    simp only [bind, Except.bind, invMapSol_identities]
    simp only [invMapSol, List.reverse_cons, List.reverse_nil, List.nil_append, invLoop, b1', bind, Except.bind]
  · exact ⟨rfl, rfl, rfl, rfl, rfl, rfl, hnd.symm, rfl, rfl⟩
  · have e := C20_forward O (List.replicate k .identity) [.dualize nu cc, .differential (List.range' (n + 1) m),
      .normalizeTime pIdx, .squash (n + 1 + m) (n + 1 + m + (n + 1)) c d] s1
    simp only [indirectChain, mapSol, f1, bind, Except.bind] at e ⊢
    rw [e, mapSol_identities]
    simp only [f2, f3, f4, f5]

/-! ### Concrete cases -/

/-- Trigonometric functions are not needed here. -/
def noTrig : TrigOps ℚ := ⟨id, id⟩

/-- Three time points from 1 to 3, two states, two costates, two controls, one parameter. -/
def exSol : Sol ℚ where
  t := [1, 2, 3]
  dualT := []
  y := .rows 2 [[10, 20], [11, 21], [12, 22]]
  dual := .rows 2 [[1, 2], [3, 4], [5, 6]]
  q := .empty
  u := .rows 2 [[7, 8], [9, 10], [11, 12]]
  dualU := .empty
  dyn := [5]
  nondyn := []
  const := [9]
  converged := true
  cost := none

-- controls interleaved with the states, positions out of order
example : ((Mapper.differential [3, 0]).map noTrig exSol).map Sol.y =
    .ok (.rows 4 [[8, 10, 20, 7], [10, 11, 21, 9], [12, 12, 22, 11]]) := by decide +kernel

example : ((Mapper.differential [3, 0]).map noTrig exSol >>= (Mapper.differential [3, 0]).inv noTrig) = .ok exSol := by
  decide +kernel

-- the normalised time and what comes back
example : ((Mapper.normalizeTime 0).map noTrig exSol).map (fun s => (s.t, s.dyn)) = .ok ([0, 1/2, 1], [2, 5]) := by
  decide +kernel

example : ((Mapper.normalizeTime 0).map noTrig exSol >>= (Mapper.normalizeTime 0).inv noTrig).map Sol.t =
    .ok [0, 1, 2] := by decide +kernel

-- the whole chain
example : (mapSol noTrig (indirectChain 2 2 1 3 1 3 3 fun _ => 4) exSol >>=
    invMapSol noTrig (indirectChain 2 2 1 3 1 3 3 fun _ => 4)) =
    .ok { exSol with dualT := [0, 0, 0], cost := some 4 } := by decide +kernel

example : ((mapSol noTrig (indirectChain 2 2 1 3 1 3 3 fun _ => 4) exSol).map fun s => (s.t, s.y, s.dyn, s.nondyn)) =
    .ok ([0, 1/2, 1], .rows 8 [[10, 20, 1, 7, 8, 1, 2, 0], [11, 21, 2, 9, 10, 3, 4, 0],
      [12, 22, 3, 11, 12, 5, 6, 0]], [5, 2], [1, 1, 1]) := by decide +kernel

-- the differential-geometry mapper: the last costate is lost
example : (let s := { exSol with u := .rows 1 [[7], [8], [9]] }
    ((Mapper.differentialDiffyG [2]).map noTrig s >>= (Mapper.differentialDiffyG [2]).inv noTrig).map Sol.dual) =
    .ok (.rows 2 [[1, 0], [3, 0], [5, 0]]) := by decide +kernel

example : (Mapper.differentialDiffyG [2, 3]).map noTrig exSol = .error .valueError := by decide +kernel

-- reduction by the conserved costate `λ₁ = 3` with quadrature `x₁`
example : (let s : Sol ℚ := { exSol with dual := .rows 2 [[3, 2], [3, 4], [3, 6]], q := .rows 0 [[], [], []] }
    let m : Mapper ℚ := .mf (.costates 0) (.states 0) (fun _ d _ _ => d.getD 0 0) (fun y _ _ _ => y.getD 0 0)
      (fun _ _ p _ => p.getD 1 0) (fun _ _ q _ _ => q.getD 0 0)
    ((m.map noTrig s).map fun s => (s.y, s.dual, s.q, s.dyn)) =
        .ok (.rows 1 [[20], [21], [22]], .rows 1 [[2], [4], [6]], .rows 1 [[10], [11], [12]], [5, 3]) ∧
      (m.map noTrig s >>= m.inv noTrig) = .ok s) := by decide +kernel

-- algebraic control law `u = λ₁ / 2`
example : ((Mapper.algebraic 1 fun _ _ l _ _ => [l.getD 0 0 / 2]).inv noTrig exSol).map Sol.u =
    .ok (.rows 1 [[1/2], [3/2], [5/2]]) := by decide +kernel

end Beluga.Map
