import Verif.Mappers.Model
import Verif.PyLemmas
import Mathlib.Tactic.Ring
import Mathlib.Tactic.FieldSimp
import Mathlib.Data.List.Sort
import Mathlib.Algebra.Field.Rat
import Mathlib.Algebra.Order.Ring.Rat

/-!
# List lemmas for the mappers
-/

set_option linter.unusedSectionVars false

namespace Beluga.Map

variable {K : Type _}

theorem npInsert_length {l : List K} {i : Nat} {x : K} : (npInsert l i [x]).length = l.length + 1 := by
  simp only [npInsert, List.length_append, List.length_take, List.length_drop, List.length_singleton]
  omega

theorem npInsert_getElem? {l : List K} {i j : Nat} {x : K} (hi : i ≤ l.length) :
    (npInsert l i [x])[j]? = if j < i then l[j]? else if j = i then some x else l[j - 1]? := by
  have ht : (l.take i).length = i := by simp [hi]
  rw [npInsert]
  split
  · next h =>
    rw [List.append_assoc, List.getElem?_append_left (by omega), List.getElem?_take_of_lt h]
  · next h =>
    split
    · next h2 =>
      subst h2
      rw [List.append_assoc, List.getElem?_append_right (by omega), ht]
      simp
    · next h2 =>
      rw [List.getElem?_append_right (by simp [hi]; omega), List.length_append, ht, List.getElem?_drop]
      congr 1
      simp; omega

theorem npInsert_getD [Zero K] {l : List K} {i : Nat} {x : K} (hi : i ≤ l.length) : (npInsert l i [x]).getD i 0 = x := by
  rw [List.getD_eq_getElem?_getD, npInsert_getElem? hi]; simp

theorem npInsert_eraseIdx {l : List K} {i : Nat} {x : K} (hi : i ≤ l.length) : (npInsert l i [x]).eraseIdx i = l := by
  rw [npInsert, List.append_assoc, List.eraseIdx_append_of_length_le (by simp)]
  have : i - (l.take i).length = 0 := by simp [hi]
  rw [this]
  simp

theorem eraseIdx_npInsert [Zero K] {l : List K} {i : Nat} (hi : i < l.length) :
    npInsert (l.eraseIdx i) i [l.getD i 0] = l := by
  apply List.ext_getElem?
  intro j
  have hlen : (l.eraseIdx i).length = l.length - 1 := by rw [List.length_eraseIdx, if_pos hi]
  rw [npInsert_getElem? (by omega)]
  split
  · next h => rw [List.getElem?_eraseIdx, if_pos h]
  · next h =>
    split
    · next h2 => subst h2; rw [List.getD_eq_getElem?_getD, List.getElem?_eq_getElem hi]; rfl
    · next h2 =>
      rw [List.getElem?_eraseIdx, if_neg (by omega)]
      congr 1; omega

theorem map_zipWith_left {α β γ δ : Type _} (g : γ → δ) (f : α → β → γ) (h : α → δ) :
    ∀ (l : List α) (m : List β), l.length = m.length → (∀ a ∈ l, ∀ b, g (f a b) = h a) →
      (List.zipWith f l m).map g = l.map h
  | [], _, _, _ => by simp
  | a :: l, [], h1, _ => by simp at h1
  | a :: l, b :: m, h1, h2 => by
    simp only [List.zipWith_cons_cons, List.map_cons]
    rw [h2 a (by simp), map_zipWith_left g f h l m (by simpa using h1) (fun a' ha b => h2 a' (by simp [ha]) b)]

theorem map_zipWith_right {α β γ δ : Type _} (g : γ → δ) (f : α → β → γ) (h : β → δ) :
    ∀ (l : List α) (m : List β), l.length = m.length → (∀ a ∈ l, ∀ b, g (f a b) = h b) →
      (List.zipWith f l m).map g = m.map h
  | [], [], _, _ => by simp
  | [], _ :: _, h1, _ => by simp at h1
  | a :: l, [], h1, _ => by simp at h1
  | a :: l, b :: m, h1, h2 => by
    simp only [List.zipWith_cons_cons, List.map_cons]
    rw [h2 a (by simp), map_zipWith_right g f h l m (by simpa using h1) (fun a' ha b => h2 a' (by simp [ha]) b)]

/-! ### deleting positions -/

open Arr

theorem deleteFrom_append (idxs : List Nat) (off : Nat) (a b : List K) :
    deleteFrom idxs off (a ++ b) = deleteFrom idxs off a ++ deleteFrom idxs (off + a.length) b := by
  induction a generalizing off with
  | nil => simp [deleteFrom]
  | cons x a ih =>
    simp only [List.cons_append, deleteFrom, ih, List.length_cons]
    have : off + 1 + a.length = off + (a.length + 1) := by omega
    rw [this]
    split <;> rfl

theorem deleteFrom_all_lt {idxs : List Nat} {off : Nat} (h : ∀ i ∈ idxs, i < off) (l : List K) :
    deleteFrom idxs off l = l := by
  induction l generalizing off with
  | nil => rfl
  | cons x l ih =>
    rw [deleteFrom, if_neg (fun hm => by have := h _ hm; omega), ih fun i hi => by have := h i hi; omega]

theorem deleteFrom_nil (off : Nat) (l : List K) : deleteFrom [] off l = l := deleteFrom_all_lt (by simp) l

theorem deleteFrom_congr {idxs idxs' : List Nat} {off : Nat} (h : ∀ i, off ≤ i → (i ∈ idxs ↔ i ∈ idxs')) (l : List K) :
    deleteFrom idxs off l = deleteFrom idxs' off l := by
  induction l generalizing off with
  | nil => rfl
  | cons x l ih =>
    rw [deleteFrom, deleteFrom, ih fun i hi => h i (by omega)]
    simp only [h off (Nat.le_refl _)]

/-- Deleting the inserted position together with smaller ones is deleting the smaller ones before inserting. -/
theorem deleteFrom_npInsert {idxs : List Nat} {i : Nat} {x : K} {l : List K} (hi : i ≤ l.length)
    (hlt : ∀ j ∈ idxs, j < i) : deleteFrom (i :: idxs) 0 (npInsert l i [x]) = deleteFrom idxs 0 l := by
  have ht : (l.take i).length = i := by simp [hi]
  conv_rhs => rw [← List.take_append_drop i l]
  rw [npInsert, List.append_assoc, deleteFrom_append, deleteFrom_append _ _ (l.take i), ht, Nat.zero_add]
  congr 1
  · -- the part before `i`
    have : ∀ (off : Nat) (m : List K), off + m.length ≤ i →
        deleteFrom (i :: idxs) off m = deleteFrom idxs off m := by
      intro off m
      induction m generalizing off with
      | nil => intro _; rfl
      | cons a m ih =>
        intro h
        rw [List.length_cons] at h
        rw [deleteFrom, deleteFrom, ih (off + 1) (by omega)]
        simp only [List.mem_cons, show ¬ off = i by omega, false_or]
    exact this 0 _ (by omega)
  · rw [List.singleton_append, deleteFrom, if_pos (by simp), deleteFrom_all_lt (by
        intro j hj
        rcases List.mem_cons.1 hj with rfl | hj
        · omega
        · have := hlt j hj; omega),
      deleteFrom_all_lt (by intro j hj; exact hlt j hj)]

theorem deleteFrom_length_congr (idxs : List Nat) (off : Nat) {β : Type _} (l : List K) (m : List β)
    (h : l.length = m.length) : (deleteFrom idxs off l).length = (deleteFrom idxs off m).length := by
  induction l generalizing off m with
  | nil => cases m with
    | nil => rfl
    | cons => simp at h
  | cons x l ih =>
    cases m with
    | nil => simp at h
    | cons y m =>
      rw [deleteFrom, deleteFrom]
      have := ih (off + 1) m (by simpa using h)
      split
      · exact this
      · simp [this]

/-! ### inserting several columns -/

/-- Inserting several values, in the given order. -/
def insRow : List (Nat × K) → List K → List K
  | [], r => r
  | (i, x) :: rest, r => insRow rest (npInsert r i [x])

theorem insRow_append (a b : List (Nat × K)) (r : List K) : insRow (a ++ b) r = insRow b (insRow a r) := by
  induction a generalizing r with
  | nil => rfl
  | cons p a ih => obtain ⟨i, x⟩ := p; simp only [List.cons_append, insRow, ih]

theorem insRow_length (a : List (Nat × K)) (r : List K) : (insRow a r).length = r.length + a.length := by
  induction a generalizing r with
  | nil => rfl
  | cons p a ih => obtain ⟨i, x⟩ := p; simp only [insRow, ih, npInsert_length, List.length_cons]; omega

/-- Inserting at strictly increasing positions puts each value at its position, and deleting the positions gives the
row back. -/
theorem insRow_sorted (r : List K) (S : List (Nat × K)) (hs : S.Pairwise fun a b => a.1 < b.1)
    (hv : ∀ p ∈ S, p.1 < r.length + S.length) :
    (∀ p ∈ S, (insRow S r)[p.1]? = some p.2) ∧ deleteFrom (S.map Prod.fst) 0 (insRow S r) = r := by
  induction S using List.reverseRecOn with
  | nil => exact ⟨by simp, by simpa [insRow] using deleteFrom_nil 0 r⟩
  | append_singleton S p ih =>
    obtain ⟨i, x⟩ := p
    rw [List.pairwise_append] at hs
    obtain ⟨hs1, -, hs2⟩ := hs
    have hlt : ∀ q ∈ S, q.1 < i := fun q hq => hs2 q hq (i, x) (by simp)
    -- strictly increasing positions below `i < len + |S| + 1`
    have hvS : ∀ q ∈ S, q.1 < r.length + S.length := by
      intro q hq
      have h1 := hlt q hq
      have h2 := hv (i, x) (by simp)
      simp only [List.length_append, List.length_singleton] at h2
      omega
    obtain ⟨h1, h2⟩ := ih hs1 hvS
    have hi : i ≤ (insRow S r).length := by
      rw [insRow_length]
      have h2 := hv (i, x) (by simp)
      simp only [List.length_append, List.length_singleton] at h2
      omega
    rw [insRow_append]
    simp only [insRow]
    constructor
    · intro q hq
      rw [npInsert_getElem? hi]
      rcases List.mem_append.1 hq with hq | hq
      · rw [if_pos (hlt q hq)]; exact h1 q hq
      · simp only [List.mem_singleton] at hq; subst hq
        simp
    · have : deleteFrom ((S ++ [(i, x)]).map Prod.fst) 0 (npInsert (insRow S r) i [x]) =
          deleteFrom (i :: S.map Prod.fst) 0 (npInsert (insRow S r) i [x]) := by
        apply deleteFrom_congr
        intro j _
        simp [or_comm]
      rw [this, deleteFrom_npInsert hi, h2]
      intro j hj
      obtain ⟨q, hq, rfl⟩ := List.mem_map.1 hj
      exact hlt q hq

theorem zipWith_insert_getElem? (r : List (List K)) (v : List K) (i τ : Nat) : (List.zipWith (fun row x => npInsert row i [x]) r v)[τ]? =
      match r[τ]?, v[τ]? with
      | some row, some x => some (npInsert row i [x])
      | _, _ => none := by
  rw [List.getElem?_zipWith]
  cases r[τ]? <;> cases v[τ]? <;> rfl

/-- The column loop, row by row. -/
theorem insertAll_ok [Zero K] (S : List (Nat × List K)) {T c : Nat} {y : Arr K} (hy : y.Shape T c)
    (hS : ∀ p ∈ S, p.2.length = T) (hpos : ∀ (k : Nat) (p : Nat × List K), S[k]? = some p → p.1 ≤ c + k) :
    ∃ r r', y = .rows c r ∧ insertAll S y = .ok (.rows (c + S.length) r') ∧ r'.length = T ∧
      ∀ (τ : Nat) (row : List K), r[τ]? = some row →
        r'[τ]? = some (insRow (S.map fun p => (p.1, p.2.getD τ 0)) row) := by
  induction S generalizing y c with
  | nil =>
    obtain ⟨r, rfl, h1, h2⟩ := hy
    exact ⟨r, r, rfl, rfl, h1, fun τ row h => by simpa [insRow] using h⟩
  | cons p S ih =>
    obtain ⟨i, v⟩ := p
    obtain ⟨r, rfl, h1, h2⟩ := hy
    have hv : v.length = T := hS (i, v) (by simp)
    have hi : i ≤ c := by simpa using hpos 0 (i, v) rfl
    have hins : Arr.insertCol (.rows c r) i v =
        .ok (.rows (c + 1) (List.zipWith (fun row x => npInsert row i [x]) r v)) := by
      simp only [Arr.insertCol]
      rw [if_neg (by omega), if_pos (by omega)]
    have hshape : (Arr.rows (c + 1) (List.zipWith (fun row x => npInsert row i [x]) r v)).Shape T (c + 1) := by
      refine ⟨_, rfl, by simp; omega, ?_⟩
      intro x hx
      obtain ⟨k, hk⟩ := List.getElem?_of_mem hx
      rw [zipWith_insert_getElem?] at hk
      cases hr : r[k]? with
      | none => rw [hr] at hk; cases hk
      | some row =>
        cases hvk : v[k]? with
        | none => rw [hr, hvk] at hk; cases hk
        | some z =>
          rw [hr, hvk] at hk
          cases hk
          rw [npInsert_length, h2 row (List.mem_of_getElem? hr)]
    obtain ⟨r1, r', e1, e2, e3, e4⟩ := ih hshape (fun p hp => hS p (by simp [hp])) (by
      intro k p hp
      have := hpos (k + 1) p (by simpa using hp)
      omega)
    cases e1
    refine ⟨r, r', rfl, ?_, e3, ?_⟩
    · simp only [insertAll, hins, bind, Except.bind, e2, List.length_cons]
      congr 2; omega
    · intro τ row hrow
      have hτ : τ < T := by
        have := (List.getElem?_eq_some_iff.1 hrow).1
        omega
      have hvτ : v[τ]? = some (v.getD τ 0) := by
        rw [List.getD_eq_getElem?_getD, List.getElem?_eq_getElem (by omega)]; rfl
      have hz := zipWith_insert_getElem? r v i τ
      rw [hrow, hvτ] at hz
      rw [e4 τ _ hz]
      rfl

end Beluga.Map
