import Verif.Shooting.Model
import Verif.Traj.Props

/-!
# Packing, splitting and stitching arcs
-/

namespace Beluga.Shoot

set_option linter.unusedSectionVars false

open Beluga.Traj (Arr Curve Simpson getD_eq Fits FitsOrEmpty)

section lists
variable {α : Type}

theorem flatten_length {n : Nat} : ∀ {L : List (List α)}, (∀ l ∈ L, l.length = n) → L.flatten.length = n * L.length
  | [], _ => by simp
  | l :: L, h => by
    rw [List.flatten_cons, List.length_append, h l (List.mem_cons_self ..),
      flatten_length fun m hm => h m (List.mem_cons_of_mem _ hm), List.length_cons, Nat.mul_succ, Nat.add_comm]

theorem chunks {n : Nat} (rest : List α) : ∀ {L : List (List α)}, (∀ l ∈ L, l.length = n) →
    (List.range L.length).map (fun i => ((L.flatten ++ rest).drop (i * n)).take n) = L
  | [], _ => rfl
  | l :: L, h => by
    have hl : l.length = n := h l (List.mem_cons_self ..)
    have ih := chunks rest fun m hm => h m (List.mem_cons_of_mem _ hm)
    rw [List.length_cons, List.range_succ_eq_map, List.map_cons, List.map_map]
    congr 1
    · rw [Nat.zero_mul, List.drop_zero, List.flatten_cons, List.append_assoc, List.take_left' hl]
    · conv_rhs => rw [← ih]
      refine List.map_congr_left fun i _ => ?_
      simp only [Function.comp]
      rw [Nat.succ_mul, Nat.add_comm, ← List.drop_drop, List.flatten_cons, List.append_assoc, List.drop_left' hl]

theorem flatten_chunks (xx : List α) (n : Nat) : ∀ m : Nat,
    ((List.range m).map fun i => (xx.drop (i * n)).take n).flatten = xx.take (n * m)
  | 0 => by simp
  | m + 1 => by
    rw [List.range_succ, List.map_append, List.flatten_append, flatten_chunks xx n m, Nat.mul_succ, List.take_add]
    simp [Nat.mul_comm]

end lists

variable {K : Type} [Field K] [LinearOrder K] [IsStrictOrderedRing K]

/-- **C44** Unpacking what was packed gives the starting states of all arcs, the starting quadratures of the first, and the
parameters. -/
theorem C44_pack {g : Curve K} {gs : List (Curve K)} {p pn : List K} {nO nQ : Nat}
    (hO : ∀ h ∈ g :: gs, (row h.y 0).length = nO) (hQ : (row g.q 0).length = nQ) :
    ∃ xx, wrap (g :: gs) p pn = .ok xx ∧ xx.length = nO * (gs.length + 1) + nQ + p.length + pn.length ∧
      unwrap xx nO nQ p.length (gs.length + 1) = .ok ((g :: gs).map (fun h => row h.y 0), row g.q 0, p, pn) := by
  refine ⟨_, rfl, ?_, ?_⟩
  · rw [List.length_append, List.length_append, List.length_append, List.flatMap_def, flatten_length (n := nO), hQ]
    · simp
    · simpa using hO
  have hL : ((g :: gs).map fun h => row h.y 0).flatten.length = nO * (gs.length + 1) := by
    rw [flatten_length (n := nO)]
    · simp
    · simpa using hO
  have hc := chunks (row g.q 0 ++ p ++ pn) (L := (g :: gs).map fun h => row h.y 0) (n := nO) (by simpa using hO)
  rw [List.length_map, List.length_cons] at hc
  rw [unwrap, List.flatMap_def, if_neg (by simp only [List.length_append, hL]; omega)]
  congr 2
  · conv_rhs => rw [← hc]
    simp only [List.append_assoc]
  · simp only [List.append_assoc]
    congr 1
    · rw [List.drop_left' hL, List.take_left' hQ]
    · congr 1
      · rw [← List.drop_drop, List.drop_left' hL, List.drop_left' hQ, List.take_left' rfl]
      · rw [Nat.add_right_comm, ← List.drop_drop, ← List.drop_drop, List.drop_left' hL, List.drop_left' hQ, List.drop_left' rfl]

/-- The arc has a row of states and of quadratures to write the unknowns into. -/
structure Writable (nQ : Nat) (g : Curve K) : Prop where
  y : ∃ c r rs, g.y = .mat c (r :: rs)
  q : ∃ r rs, g.q = .mat nQ (r :: rs) ∧ r.length = nQ

theorem row_setFirst {c : Nat} {r : List K} {rs : List (List K)} (s : List K) : row (setFirst (.mat c (r :: rs)) s) 0 = s := by
  simp [row, setFirst]

theorem setStarts_cons (g : Curve K) (gs : List (Curve K)) (r : List K) (rs : List (List K)) (q : List K) (nQ : Nat) :
    setStarts (g :: gs) (r :: rs) q nQ =
      { g with y := setFirst g.y r, q := if 0 < nQ then setFirst g.q q else g.q } :: setStarts gs rs q nQ := rfl

theorem setStarts_starts {nQ : Nat} {q : List K} : ∀ {gs : List (Curve K)} {ys : List (List K)}, gs.length = ys.length →
    (∀ g ∈ gs, Writable nQ g) → (setStarts gs ys q nQ).map (fun h => row h.y 0) = ys
  | [], [], _, _ => rfl
  | g :: gs, y :: ys, hl, h => by
    rw [setStarts_cons, List.map_cons, setStarts_starts (by simpa using hl) fun m hm => h m (List.mem_cons_of_mem _ hm)]
    obtain ⟨c, r, rs, e⟩ := (h g (List.mem_cons_self ..)).y
    simp only [e, row_setFirst]

/-- **C44** Writing unpacked unknowns into the arcs and packing them again gives the same unknowns. -/
theorem C44_unpack {gs : List (Curve K)} {xx : List K} {nO nQ nP : Nat} (hpos : gs ≠ [])
    (hw : ∀ g ∈ gs, Writable nQ g) (hlen : nO * gs.length + nQ + nP ≤ xx.length) :
    ∃ ys q p pn, unwrap xx nO nQ nP gs.length = .ok (ys, q, p, pn) ∧ ys.length = gs.length ∧ q.length = nQ ∧
      p.length = nP ∧ (∀ y ∈ ys, y.length = nO) ∧ wrap (setStarts gs ys q nQ) p pn = .ok xx := by
  refine ⟨_, _, _, _, by rw [unwrap, if_neg (by omega)], by simp, ?_, ?_, ?_, ?_⟩
  · simp only [List.length_take, List.length_drop]; omega
  · simp only [List.length_take, List.length_drop]; omega
  · intro y hy
    obtain ⟨i, hi, rfl⟩ := List.mem_map.1 hy
    have hi := List.mem_range.1 hi
    have : (i + 1) * nO ≤ nO * gs.length := by rw [Nat.mul_comm nO]; exact Nat.mul_le_mul_right _ (by omega)
    rw [Nat.succ_mul] at this
    simp only [List.length_take, List.length_drop]
    omega
  · set ys := (List.range gs.length).map fun i => (xx.drop (i * nO)).take nO with hys
    set q := (xx.drop (nO * gs.length)).take nQ with hq
    have hs := setStarts_starts (q := q) (ys := ys) (by simp [hys]) hw
    have hqlen : q.length = nQ := by rw [hq]; simp only [List.length_take, List.length_drop]; omega
    have hfl : (setStarts gs ys q nQ).flatMap (fun g => row g.y 0) = xx.take (nO * gs.length) := by
      rw [List.flatMap_def, hs, hys, flatten_chunks]
    clear_value ys q
    cases gs with
    | nil => exact absurd rfl hpos
    | cons g gs =>
      cases ys with
      | nil => simp [setStarts] at hs; simp at hys
      | cons y ys =>
        rw [setStarts_cons] at hfl ⊢
        rw [wrap, hfl]
        have hrow : row (if 0 < nQ then setFirst g.q q else g.q) 0 = q := by
          obtain ⟨r, rs, e, hr⟩ := (hw g (List.mem_cons_self ..)).q
          by_cases h0 : 0 < nQ
          · rw [if_pos h0, e, row_setFirst]
          · obtain rfl : nQ = 0 := by omega
            rw [if_neg h0, e, List.length_eq_zero_iff.1 hqlen]
            simpa [row] using hr
        rw [hrow, hq]
        congr 1
        rw [← List.take_add, ← List.take_add, Nat.add_right_comm, List.take_append_drop]

/-- Two arcs with two states, one quadrature, one parameter and one multiplier. -/
def exArcs : List (Curve Rat) :=
  [⟨[0, 1], .mat 2 [[1, 2], [3, 4]], .mat 1 [[9], [10]], .mat 0 [[], []]⟩, ⟨[1, 2], .mat 2 [[3, 4], [5, 6]], .mat 1 [[10], [11]], .mat 0 [[], []]⟩]

example : wrap exArcs [7] [8] = .ok [1, 2, 3, 4, 9, 7, 8] ∧
    unwrap ([1, 2, 3, 4, 9, 7, 8] : List Rat) 2 1 1 2 = .ok ([[1, 2], [3, 4]], [9], [7], [8]) := by decide +kernel

/-! ### Quadratures -/

theorem shiftQ_length (gs : List (Curve K)) : ∀ last, (shiftQ last gs).length = gs.length := by
  induction gs with
  | nil => intro _; rfl
  | cons g gs ih => intro last; simp [shiftQ, ih]

/-- A quadrature array of an arc: a row of `n` numbers for each time. -/
structure QFits (n : Nat) (g : Curve K) : Prop where
  q : ∃ rows, g.q = .mat n rows ∧ 0 < rows.length ∧ ∀ r ∈ rows, r.length = n

theorem zipWith_add_sub {a b : List K} (h : a.length = b.length) :
    List.zipWith (· + ·) b (List.zipWith (· - ·) a b) = a := by
  refine List.ext_getElem (by simp [h]) fun i h1 h2 => ?_
  simp

/-- What the shift of one arc does. -/
theorem shift_one {n : Nat} {g : Curve K} (h : QFits n g) {last : List K} (hl : last.length = n) :
    row (addRows (List.zipWith (· - ·) last (row g.q 0)) g.q) 0 = last ∧
      QFits n { g with q := addRows (List.zipWith (· - ·) last (row g.q 0)) g.q } := by
  obtain ⟨rows, e, h0, hr⟩ := h.q
  obtain ⟨r, rs, rfl⟩ := List.exists_cons_of_length_pos h0
  have hr0 := hr r (List.mem_cons_self ..)
  constructor
  · simp only [e, addRows, row, List.map_cons, List.getD_cons_zero]
    exact zipWith_add_sub (by omega)
  · refine ⟨⟨_, by simp only [e, addRows]; rfl, by simp, ?_⟩⟩
    intro s hs
    obtain ⟨s', hs', rfl⟩ := List.mem_map.1 hs
    simp [row, hr s' hs', hl, hr0]

theorem lastRow_length {n : Nat} {g : Curve K} (h : QFits n g) : (lastRow g.q).length = n := by
  obtain ⟨rows, e, h0, hr⟩ := h.q
  rw [e, lastRow, getD_eq (by omega)]
  exact hr _ (List.getElem_mem _)

/-- After the shift every arc starts with the quadratures the previous one ended with, and nothing but a constant was added. -/
theorem shiftQ_spec {n : Nat} : ∀ (gs : List (Curve K)) (last : List K), (∀ g ∈ gs, QFits n g) → last.length = n →
    (∀ i < gs.length, row ((shiftQ last gs).getD i ⟨[], .vec [], .vec [], .vec []⟩).q 0 =
      if i = 0 then last else lastRow ((shiftQ last gs).getD (i - 1) ⟨[], .vec [], .vec [], .vec []⟩).q) ∧
    List.Forall₂ (fun g g' => ∃ d : List K, d.length = n ∧ g' = { g with q := addRows d g.q }) gs (shiftQ last gs)
  | [], _, _, _ => ⟨fun i hi => absurd hi (by simp), .nil⟩
  | g :: gs, last, h, hl => by
    have hg := h g (List.mem_cons_self ..)
    obtain ⟨h1, h2⟩ := shift_one hg hl
    obtain ⟨ih1, ih2⟩ := shiftQ_spec gs (lastRow (addRows (List.zipWith (· - ·) last (row g.q 0)) g.q))
      (fun m hm => h m (List.mem_cons_of_mem _ hm)) (lastRow_length h2)
    refine ⟨fun i hi => ?_, ?_⟩
    · cases i with
      | zero => exact h1
      | succ i =>
        rw [if_neg (by omega), shiftQ, List.getD_cons_succ, ih1 i (by simpa using hi)]
        cases i with
        | zero => rfl
        | succ i => rfl
    · refine .cons ⟨_, ?_, rfl⟩ ih2
      obtain ⟨rows, e, h0, hr⟩ := hg.q
      rw [e, row, getD_eq h0, List.length_zipWith, hl, hr _ (List.getElem_mem _), min_self]

/-! ### Stitching -/

theorem stitch_length {α : Type} : ∀ {l : List α} {ls : List (List α)}, (∀ m ∈ ls, 0 < m.length) →
    (stitch (l :: ls)).length + ls.length = ((l :: ls).map List.length).sum
  | l, [], _ => by simp [stitch]
  | l, m :: ls, h => by
    have ih := stitch_length (l := l) (ls := ls) fun m hm => h m (List.mem_cons_of_mem _ hm)
    have hm := h m (List.mem_cons_self ..)
    simp only [stitch, List.flatMap_cons, List.length_append, List.length_tail, List.map_cons, List.sum_cons,
      List.length_cons] at ih ⊢
    omega

theorem stitch_zip {α β : Type} : ∀ {ls : List (List α)} {ms : List (List β)},
    List.Forall₂ (fun l m => l.length = m.length) ls ms →
    (stitch ls).zip (stitch ms) = stitch (List.zipWith List.zip ls ms)
  | _, _, .nil => rfl
  | _, _, .cons (a := l) (b := m) (l₁ := ls) (l₂ := ms) h hs => by
    have hz : ∀ {ls : List (List α)} {ms : List (List β)}, List.Forall₂ (fun l m => l.length = m.length) ls ms →
        (ls.flatMap List.tail).zip (ms.flatMap List.tail) = (List.zipWith List.zip ls ms).flatMap List.tail := by
      intro ls ms hs
      induction hs with
      | nil => rfl
      | @cons a b _ _ h _ ih =>
        rw [List.flatMap_cons, List.flatMap_cons, List.zipWith_cons_cons, List.flatMap_cons, List.zip_append (by simp [h]), ih]
        cases a <;> cases b <;> simp
    simp only [stitch, List.zipWith_cons_cons]
    rw [List.zip_append h, hz hs]

theorem stitch_cons_cons {α : Type} (l m : List α) (ls : List (List α)) :
    stitch (l :: m :: ls) = stitch ((l ++ m.tail) :: ls) := by
  simp [stitch]

theorem lastT_append {l m : List K} (hm : 0 < m.length) (_hl : 0 < l.length) (h : lastT l = m.getD 0 0) :
    lastT (l ++ m.tail) = lastT m := by
  obtain ⟨a, m, rfl⟩ := List.exists_cons_of_length_pos hm
  cases m with
  | nil => simpa [lastT] using h
  | cons b m =>
    simp only [lastT, List.tail_cons, List.length_append, List.length_cons]
    rw [getD_eq (by simp), getD_eq (by simp), List.getElem_append_right (by omega)]
    simp only [Nat.add_sub_cancel, List.getElem_cons_succ]
    congr 1
    omega

/-- Time lists that follow each other without gap or overlap. -/
def Joined (ls : List (List K)) : Prop := ls.IsChain fun l m => lastT l = m.getD 0 0

/-- Stitching time lists without gaps loses nothing, repeats nothing and keeps the order. -/
theorem stitch_times : ∀ (ls : List (List K)) (l : List K), (∀ m ∈ l :: ls, 0 < m.length) →
    (∀ m ∈ l :: ls, m.Pairwise (· < ·)) → Joined (l :: ls) →
    (stitch (l :: ls)).Pairwise (· < ·) ∧ (∀ t, t ∈ stitch (l :: ls) ↔ ∃ m ∈ l :: ls, t ∈ m) ∧
      0 < (stitch (l :: ls)).length ∧ (stitch (l :: ls)).getD 0 0 = l.getD 0 0 ∧
      lastT (stitch (l :: ls)) = lastT ((l :: ls).getD ls.length [])
  | [], l, h0, hs, _ => by
    have : stitch [l] = l := by simp [stitch]
    rw [this]
    exact ⟨hs l (by simp), by simp, h0 l (by simp), rfl, rfl⟩
  | m :: ls, l, h0, hs, hj => by
    have hl0 := h0 l (by simp)
    have hm0 := h0 m (by simp)
    have hls := hs l (by simp)
    have hms := hs m (by simp)
    rw [Joined, List.isChain_cons_cons] at hj
    have hlast := lastT_append hm0 hl0 hj.1
    have hp : (l ++ m.tail).Pairwise (· < ·) := by
      obtain ⟨a, m, rfl⟩ := List.exists_cons_of_length_pos hm0
      have ha : lastT l = a := by simpa using hj.1
      rw [List.pairwise_cons] at hms
      rw [List.tail_cons, List.pairwise_append]
      refine ⟨hls, hms.2, fun x hx y hy => lt_of_le_of_lt ?_ (hms.1 y hy)⟩
      obtain ⟨i, hi, rfl⟩ := List.getElem_of_mem hx
      rw [← ha, lastT, ← getD_eq hi 0]
      exact Traj.getD_le hls (by omega) (by omega)
    have hj' : Joined ((l ++ m.tail) :: ls) := by
      cases ls with
      | nil => exact List.isChain_singleton _
      | cons k ls =>
        rw [List.isChain_cons_cons] at hj
        rw [Joined, List.isChain_cons_cons]
        exact ⟨by rw [hlast]; exact hj.2.1, hj.2.2⟩
    obtain ⟨i1, i2, i3, i4, i5⟩ := stitch_times ls (l ++ m.tail)
      (by
        intro k hk
        rcases List.mem_cons.1 hk with rfl | hk
        · simp; omega
        · exact h0 k (by simp [hk]))
      (by
        intro k hk
        rcases List.mem_cons.1 hk with rfl | hk
        · exact hp
        · exact hs k (by simp [hk])) hj'
    rw [stitch_cons_cons]
    refine ⟨i1, fun t => ?_, i3, ?_, ?_⟩
    · rw [i2]
      obtain ⟨a, m, rfl⟩ := List.exists_cons_of_length_pos hm0
      have ha : a ∈ l := by
        have : lastT l = a := by simpa using hj.1
        rw [← this, lastT, getD_eq (by omega)]
        exact List.getElem_mem _
      simp only [List.mem_cons, exists_eq_or_imp, List.mem_append, List.tail_cons]
      constructor
      · rintro ((h | h) | h)
        · exact .inl h
        · exact .inr (.inl (.inr h))
        · exact .inr (.inr h)
      · rintro (h | (rfl | h) | h)
        · exact .inl (.inl h)
        · exact .inl (.inl ha)
        · exact .inl (.inr h)
        · exact .inr h
    · rw [i4, getD_eq (by simp; omega), getD_eq hl0, List.getElem_append_left hl0]
    · rw [i5]
      cases ls with
      | nil => simpa using hlast
      | cons k ls => simp

end Beluga.Shoot
