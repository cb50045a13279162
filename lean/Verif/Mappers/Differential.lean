import Verif.Mappers.Lemmas

/-!
# The differential control mapper: sorted insertion and its inverse
-/

set_option linter.unusedSectionVars false

namespace Beluga.Map

variable {K : Type _}

open Arr

/-- Strictly increasing positions below `n + m` leave room: the `k`-th one is at most `n + k`. -/
theorem sorted_pos {β : Type _} {S : List (Nat × β)} {n : Nat} (hs : S.Pairwise fun a b => a.1 < b.1)
    (hv : ∀ p ∈ S, p.1 < n + S.length) (k : Nat) (p : Nat × β) (hp : S[k]? = some p) : p.1 ≤ n + k := by
  have key : ∀ (d j : Nat) (a b : Nat × β), S[j]? = some a → S[j + d]? = some b → a.1 + d ≤ b.1 := by
    intro d
    induction d with
    | zero =>
      intro j a b h1 h2
      rw [Nat.add_zero, h1] at h2
      cases h2; omega
    | succ d ih =>
      intro j a b h1 h2
      have hlt := (List.getElem?_eq_some_iff.1 h2).1
      have hc : S[j + d]? = some (S[j + d]'(by omega)) := List.getElem?_eq_getElem _
      have h3 := ih j a _ h1 hc
      have h4 := List.pairwise_iff_getElem.1 hs (j + d) (j + (d + 1)) (by omega) hlt (by omega)
      have h5 : b = S[j + (d + 1)] := (List.getElem?_eq_some_iff.1 h2).2.symm
      rw [h5]; omega
  have hk := (List.getElem?_eq_some_iff.1 hp).1
  have hl : S[k + (S.length - 1 - k)]? = some (S[S.length - 1]'(by omega)) := by
    rw [show k + (S.length - 1 - k) = S.length - 1 by omega]
    exact List.getElem?_eq_getElem _
  have h1 := key _ _ _ _ hp hl
  have h2 := hv _ (List.getElem_mem (show S.length - 1 < S.length by omega))
  omega

variable [Field K] [LinearOrder K]

theorem columns_length {m : Nat} {r : List (List K)} : (Arr.rows m r).columns.length = m := by
  simp [Arr.columns]

theorem sortedCols_perm (idxs : List Nat) (u : Arr K) : (sortedCols idxs u).Perm (List.zip idxs u.columns) :=
  List.perm_insertionSort _ _

theorem zip_map_fst {α β : Type _} {a : List α} {b : List β} (h : a.length = b.length) :
    (List.zip a b).map Prod.fst = a := by
  rw [List.map_fst_zip]; omega

theorem sortedCols_fst {idxs : List Nat} {m : Nat} {r : List (List K)} (hl : idxs.length = m) :
    ((sortedCols idxs (.rows m r)).map Prod.fst).Perm idxs := by
  have h := (sortedCols_perm idxs (.rows m r)).map Prod.fst
  rwa [zip_map_fst (by rw [columns_length]; exact hl)] at h

theorem sortedCols_length {idxs : List Nat} {m : Nat} {r : List (List K)} (hl : idxs.length = m) :
    (sortedCols idxs (.rows m r)).length = m := by
  have := (sortedCols_fst (r := r) hl).length_eq
  rw [List.length_map] at this
  omega

theorem sortedCols_lt {idxs : List Nat} {m : Nat} {r : List (List K)} (hl : idxs.length = m) (hnd : idxs.Nodup) :
    (sortedCols idxs (.rows m r)).Pairwise fun a b => a.1 < b.1 := by
  have i1 : Std.Total fun a b : Nat × List K => a.1 ≤ b.1 := ⟨fun a b => Nat.le_total _ _⟩
  have i2 : IsTrans (Nat × List K) fun a b => a.1 ≤ b.1 := ⟨fun a b c => Nat.le_trans⟩
  have h1 : (sortedCols idxs (.rows m r)).Pairwise fun a b => a.1 ≤ b.1 := List.pairwise_insertionSort _ _
  have h2 : ((sortedCols idxs (.rows m r)).map Prod.fst).Nodup := (sortedCols_fst hl).nodup_iff.2 hnd
  rw [List.Nodup, List.pairwise_map] at h2
  refine (h1.and h2).imp ?_
  rintro a b ⟨h3, h4⟩
  omega

theorem sortedCols_bound {idxs : List Nat} {m n : Nat} {r : List (List K)} (hl : idxs.length = m)
    (hb : ∀ i ∈ idxs, i < n + m) : ∀ p ∈ sortedCols idxs (.rows m r), p.1 < n + m := by
  intro p hp
  exact hb _ ((sortedCols_fst (r := r) hl).mem_iff.1 (List.mem_map_of_mem hp))

theorem sortedCols_mem {idxs : List Nat} {m : Nat} {r : List (List K)} (hl : idxs.length = m) {k i : Nat}
    (hk : idxs[k]? = some i) : (i, r.map fun row => row.getD k 0) ∈ sortedCols idxs (.rows m r) := by
  rw [(sortedCols_perm idxs (.rows m r)).mem_iff]
  have hk' := (List.getElem?_eq_some_iff.1 hk).1
  apply List.mem_of_getElem? (i := k)
  rw [List.getElem?_zip_eq_some]
  refine ⟨hk, ?_⟩
  simp only [Arr.columns]
  rw [List.getElem?_map, List.getElem?_range (by omega)]
  rfl

theorem sortedCols_col_length {idxs : List Nat} {m : Nat} {r : List (List K)} :
    ∀ p ∈ sortedCols idxs (.rows m r), p.2.length = r.length := by
  rintro ⟨i, v⟩ hp
  rw [(sortedCols_perm idxs (.rows m r)).mem_iff] at hp
  have := (List.of_mem_zip hp).2
  simp only [Arr.columns, List.mem_map] at this
  obtain ⟨j, -, rfl⟩ := this
  simp

/-- What the insertion loop makes of the states, row by row. -/
theorem insertAll_sortedCols {idxs : List Nat} {T n m : Nat} {ry ru : List (List K)}
    (hly : ry.length = T) (hcy : ∀ x ∈ ry, x.length = n) (hlu : ru.length = T)
    (hl : idxs.length = m) (hnd : idxs.Nodup) (hb : ∀ i ∈ idxs, i < n + m) :
    ∃ r', insertAll (sortedCols idxs (.rows m ru)) (.rows n ry) = .ok (.rows (n + m) r') ∧ r'.length = T ∧
      ∀ (τ : Nat) (row urow : List K), ry[τ]? = some row → ru[τ]? = some urow → ∃ row', r'[τ]? = some row' ∧
        row'.length = n + m ∧ (∀ (k i : Nat), idxs[k]? = some i → row'[i]? = some (urow.getD k 0)) ∧
        deleteFrom idxs 0 row' = row := by
  have hlt := sortedCols_lt (r := ru) hl hnd
  have hlen := sortedCols_length (r := ru) hl
  have hbd := sortedCols_bound (r := ru) hl hb
  obtain ⟨r, r', e1, e2, e3, e4⟩ := insertAll_ok (sortedCols idxs (.rows m ru)) (T := T) (c := n) (y := .rows n ry)
    ⟨ry, rfl, hly, hcy⟩ (fun p hp => (sortedCols_col_length p hp).trans hlu)
    (fun k p hp => sorted_pos hlt (by rw [hlen]; exact hbd) k p hp)
  cases e1
  rw [hlen] at e2
  refine ⟨r', e2, e3, ?_⟩
  intro τ row urow hrow hurow
  have hrl : row.length = n := hcy row (List.mem_of_getElem? hrow)
  set S := (sortedCols idxs (.rows m ru)).map fun p => (p.1, p.2.getD τ 0) with hS
  have hSl : S.length = m := by rw [hS, List.length_map, hlen]
  have hfst : S.map Prod.fst = (sortedCols idxs (.rows m ru)).map Prod.fst := by
    rw [hS, List.map_map]; rfl
  obtain ⟨g1, g2⟩ := insRow_sorted row S (by rw [hS, List.pairwise_map]; exact hlt) (by
    intro p hp
    rw [hS, List.mem_map] at hp
    obtain ⟨q, hq, rfl⟩ := hp
    rw [hSl, hrl]
    exact hbd q hq)
  refine ⟨_, e4 τ row hrow, by rw [insRow_length, hrl, hSl], ?_, ?_⟩
  · intro k i hk
    have hmem : (i, urow.getD k 0) ∈ S := by
      rw [hS, List.mem_map]
      refine ⟨_, sortedCols_mem (r := ru) hl hk, ?_⟩
      simp only [List.getD_eq_getElem?_getD, List.getElem?_map, hurow, Option.map_some, Option.getD_some]
    exact g1 _ hmem
  · conv_rhs => rw [← g2]
    apply deleteFrom_congr
    intro j _
    rw [hfst]
    exact (sortedCols_fst hl).mem_iff.symm

/-- The number of columns left after deleting the positions of the controls. -/
theorem deleteFrom_range_length {idxs : List Nat} {n m : Nat} (hl : idxs.length = m) (hnd : idxs.Nodup)
    (hb : ∀ i ∈ idxs, i < n + m) : (deleteFrom idxs 0 (List.range (n + m))).length = n := by
  obtain ⟨r', -, h1, h2⟩ := insertAll_sortedCols (K := ℚ) (idxs := idxs) (T := 1) (n := n) (m := m)
    (ry := [List.replicate n 0]) (ru := [List.replicate m 0]) rfl (by simp) rfl hl hnd hb
  obtain ⟨row', -, g1, -, g2⟩ := h2 0 _ _ rfl rfl
  rw [deleteFrom_length_congr idxs 0 (List.range (n + m)) row' (by simp [g1]), g2]
  simp

/-- Deleting all positions. -/
theorem deleteFrom_range_all {α : Type _} (m : Nat) (l : List α) (h : l.length = m) :
    deleteFrom (List.range m) 0 l = [] := by
  have key : ∀ (off : Nat) (l : List α), off + l.length = m → deleteFrom (List.range m) off l = [] := by
    intro off l
    induction l generalizing off with
    | nil => intro _; rfl
    | cons x l ih =>
      intro h
      rw [List.length_cons] at h
      rw [deleteFrom, if_pos (by simp; omega), ih (off + 1) (by omega)]
  exact key 0 l (by omega)

end Beluga.Map
