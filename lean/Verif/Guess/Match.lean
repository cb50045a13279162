import Verif.Guess.Model
import Verif.PyLemmas

/-!
# C48: boundary constants follow the guess
-/

namespace Beluga.Guess

open Beluga.Map

variable {K : Type} [Field K] [LinearOrder K]

theorem append_inj_left {a b s : String} (h : a ++ s = b ++ s) : a = b := by
  have := congrArg String.toList h
  simp only [String.toList_append] at this
  exact String.toList_inj.mp (List.append_cancel_right this)

theorem suffix_ne {a b : String} : a ++ "_0" ≠ b ++ "_f" := by
  intro h
  have := congrArg (fun s : String => s.toList.getLast?) h
  simp only [String.toList_append] at this
  simp at this

theorem dictOf_go {β : Type} : ∀ (l : List (String × β)) (d : List (String × β)), (l.map Prod.fst).Nodup →
    (∀ e ∈ l, ∀ f ∈ d, f.1 ≠ e.1) →
    l.foldl (fun d kv => if d.any (·.1 == kv.1) then d.map (fun e => if e.1 == kv.1 then (e.1, kv.2) else e)
      else d ++ [kv]) d = d ++ l
  | [], d, _, _ => by simp
  | e :: l, d, hn, hd => by
    rw [List.foldl_cons, if_neg]
    · rw [List.map_cons, List.nodup_cons] at hn
      rw [dictOf_go l (d ++ [e]) hn.2]
      · simp
      · intro x hx f hf
        rcases List.mem_append.mp hf with h | h
        · exact hd x (List.mem_cons_of_mem _ hx) f h
        · rw [List.mem_singleton] at h
          subst h
          intro heq
          exact hn.1 (List.mem_map.mpr ⟨x, hx, heq.symm⟩)
    · simp only [List.any_eq_true, beq_iff_eq, not_exists, not_and]
      intro f hf
      exact hd e List.mem_cons_self f hf

theorem zip_fst_sublist {α β : Type} : ∀ (a : List α) (b : List β), ((List.zip a b).map Prod.fst).Sublist a
  | [], _ => by simp
  | _ :: _, [] => by simp
  | x :: a, y :: b => by simpa using zip_fst_sublist a b

theorem dictOf_eq {β : Type} {keys : List String} {vals : List β} (h : keys.Nodup) :
    dictOf keys vals = List.zip keys vals := by
  unfold dictOf
  rw [dictOf_go _ [] _ (by simp), List.nil_append]
  exact h.sublist (zip_fst_sublist _ _)

omit [Field K] [LinearOrder K] in
theorem matchLoop_spec {suf : String} {cn : List String} (hcn : cn.Nodup) : ∀ (d : List (String × K)) (c : List K),
    (d.map Prod.fst).Nodup → c.length = cn.length →
    ∃ c', matchLoop suf cn d c = .ok c' ∧ c'.length = c.length ∧
      (∀ e ∈ d, ∀ j : Nat, cn[j]? = some (e.1 ++ suf) → c'[j]? = some e.2) ∧
      (∀ j : Nat, (∀ e ∈ d, cn[j]? ≠ some (e.1 ++ suf)) → c'[j]? = c[j]?)
  | [], c, _, _ => ⟨c, rfl, rfl, by simp, by simp⟩
  | (n, v) :: rest, c, hn, hc => by
    rw [List.map_cons, List.nodup_cons] at hn
    rw [matchLoop]
    by_cases hm : n ++ suf ∈ cn
    · rw [if_pos hm]
      obtain ⟨j, hj⟩ := Py.index_of_mem hm
      have hj' := (Py.index_ok_iff hcn).mp hj
      have hlt : j < c.length := by
        rw [hc]
        exact (List.getElem?_eq_some_iff.mp hj').1
      have hset : Py.set c j v = .ok (c.set j v) := by
        rw [Py.set_ok]; exact ⟨hlt, rfl⟩
      obtain ⟨c', h1, h2, h3, h4⟩ := matchLoop_spec hcn rest (c.set j v) hn.2 (by simpa using hc)
      refine ⟨c', by rw [hj, Py.ok_bind, hset, Py.ok_bind, h1], by simpa using h2, ?_, ?_⟩
      · intro e he i hi
        rcases List.mem_cons.mp he with rfl | he
        · have hij : i = j := by
            have ⟨hi1, hi2⟩ := List.getElem?_eq_some_iff.mp hi
            have ⟨hj1, hj2⟩ := List.getElem?_eq_some_iff.mp hj'
            exact (List.Nodup.getElem_inj_iff hcn).mp (hi2.trans hj2.symm)
          subst hij
          rw [h4 i]
          · rw [List.getElem?_set_self hlt]
          · intro e he heq
            rw [hi] at heq
            have := append_inj_left (Option.some.inj heq)
            exact hn.1 (List.mem_map.mpr ⟨e, he, this.symm⟩)
        · exact h3 e he i hi
      · intro i hi
        rw [h4 i (fun e he => hi e (List.mem_cons_of_mem _ he))]
        have hij : i ≠ j := by
          rintro rfl
          exact hi _ List.mem_cons_self hj'
        rw [List.getElem?_set_ne (Ne.symm hij)]
    · rw [if_neg hm]
      obtain ⟨c', h1, h2, h3, h4⟩ := matchLoop_spec hcn rest c hn.2 hc
      refine ⟨c', h1, h2, ?_, ?_⟩
      · intro e he i hi
        rcases List.mem_cons.mp he with rfl | he
        · exact absurd (List.mem_of_getElem? hi) hm
        · exact h3 e he i hi
      · intro i hi
        exact h4 i (fun e he => hi e (List.mem_cons_of_mem _ he))

omit [Field K] [LinearOrder K] in
/-- **C48.**  Given a problem with states `states`, independent variable `ind` and constants `consts` (no name used
twice in either list), and a trajectory with at least one point, as many state columns as states and as many constants as the
problem: the call succeeds, changes nothing but the constants, and

* a constant called `<name>_0` gets the value of `<name>` (a state or the independent variable) in the first point,
* a constant called `<name>_f` gets the value in the last point,
* every other constant keeps its value. -/
theorem C48_match_constants {states consts : List String} {ind : String} (hs : (states ++ [ind]).Nodup)
    (hc : consts.Nodup) {s : Sol K} {ya yb : List K} {ta tb : K} {rows : List (List K)}
    (hy : s.y = .rows states.length rows) (hya : rows.head? = some ya) (hyb : rows.getLast? = some yb)
    (hta : s.t.head? = some ta) (htb : s.t.getLast? = some tb) (hla : ya.length = states.length)
    (hlb : yb.length = states.length) (hk : s.const.length = consts.length) :
    ∃ k, matchConstants (states ++ [ind]) consts s = .ok { s with const := k } ∧ k.length = consts.length ∧
      (∀ i j : Nat, ∀ x, states[i]? = some x → consts[j]? = some (x ++ "_0") → k[j]? = ya[i]?) ∧
      (∀ i j : Nat, ∀ x, states[i]? = some x → consts[j]? = some (x ++ "_f") → k[j]? = yb[i]?) ∧
      (∀ j : Nat, consts[j]? = some (ind ++ "_0") → k[j]? = some ta) ∧
      (∀ j : Nat, consts[j]? = some (ind ++ "_f") → k[j]? = some tb) ∧
      (∀ j : Nat, ∀ nm, consts[j]? = some nm → (∀ x ∈ states ++ [ind], nm ≠ x ++ "_0" ∧ nm ≠ x ++ "_f") →
        k[j]? = s.const[j]?) := by
  have hnz : ∀ v : List K, ((List.zip (states ++ [ind]) v).map Prod.fst).Nodup := fun v =>
    hs.sublist (zip_fst_sublist _ _)
  obtain ⟨c1, h1, h2, h3, h4⟩ := matchLoop_spec (suf := "_0") hc (List.zip (states ++ [ind]) (ya ++ [ta])) s.const
    (hnz _) hk
  obtain ⟨c2, g1, g2, g3, g4⟩ := matchLoop_spec (suf := "_f") hc (List.zip (states ++ [ind]) (yb ++ [tb])) c1
    (hnz _) (h2.trans hk)
  have key : ∀ (v : List K) (z : K), v.length = states.length → ∀ e ∈ List.zip (states ++ [ind]) (v ++ [z]),
      e.1 ∈ states ++ [ind] := fun v z _ e he => (List.of_mem_zip he).1
  have stay0 : ∀ (j : Nat) (x : String), consts[j]? = some (x ++ "_0") → c2[j]? = c1[j]? := by
    intro j x hj
    apply g4
    intro e _ he
    rw [hj] at he
    exact suffix_ne (Option.some.inj he)
  have pairs : ∀ (v : List K) (z : K) (i : Nat) (x : String), v.length = states.length → states[i]? = some x →
      ∃ w, v[i]? = some w ∧ (x, w) ∈ List.zip (states ++ [ind]) (v ++ [z]) := by
    intro v z i x hv hx
    have hi := (List.getElem?_eq_some_iff.mp hx).1
    refine ⟨v[i], List.getElem?_eq_getElem (by omega), ?_⟩
    rw [List.zip_append hv.symm]
    apply List.mem_append_left
    apply List.mem_of_getElem? (i := i)
    rw [List.getElem?_zip_eq_some]
    exact ⟨hx, List.getElem?_eq_getElem (by omega)⟩
  have pairt : ∀ (v : List K) (z : K), v.length = states.length →
      (ind, z) ∈ List.zip (states ++ [ind]) (v ++ [z]) := by
    intro v z hv
    rw [List.zip_append hv.symm]
    simp
  refine ⟨c2, ?_, by omega, ?_, ?_, ?_, ?_, ?_⟩
  · have e0 : Py.get s.y.rowList 0 = .ok ya := by
      rw [Py.get_ok, hy]; rw [List.head?_eq_getElem?] at hya; exact hya
    have e1 : Py.get s.t 0 = .ok ta := by
      rw [Py.get_ok]; rw [List.head?_eq_getElem?] at hta; exact hta
    have e2 : s.y.rowList.getLast? = some yb := by rw [hy]; exact hyb
    unfold matchConstants
    rw [e0, Py.ok_bind, e1, Py.ok_bind, e2]
    simp only [htb, Py.ok_bind, dictOf_eq hs, h1, g1]
  · intro i j x hx hj
    obtain ⟨w, hw, hm⟩ := pairs ya ta i x hla hx
    rw [stay0 j x hj, hw]
    exact h3 _ hm j hj
  · intro i j x hx hj
    obtain ⟨w, hw, hm⟩ := pairs yb tb i x hlb hx
    rw [hw]
    exact g3 _ hm j hj
  · intro j hj
    rw [stay0 j ind hj]
    exact h3 _ (pairt ya ta hla) j hj
  · intro j hj
    exact g3 _ (pairt yb tb hlb) j hj
  · intro j nm hj hnm
    rw [g4, h4]
    · intro e he heq
      rw [hj] at heq
      exact (hnm e.1 (List.of_mem_zip he).1).1 (Option.some.inj heq)
    · intro e he heq
      rw [hj] at heq
      exact (hnm e.1 (List.of_mem_zip he).1).2 (Option.some.inj heq)

/-- A trajectory with two states. -/
def exTraj : Sol ℚ where
  t := [0, 5]
  dualT := []
  y := .rows 2 [[1, 2], [3, 4]]
  dual := .empty
  q := .empty
  u := .empty
  dualU := .empty
  dyn := []
  nondyn := []
  const := [9, 9, 9, 9, 9]
  converged := false
  cost := none

example : (matchConstants ["x", "v", "t"] ["g", "v_0", "x_f", "t_f", "x_00"] exTraj).map (·.const) =
    .ok [9, 2, 3, 5, 9] := by decide +kernel

/-- With a state called `x_0`, the constant `x_0_0` is its initial value and `x_0` the one of `x`. -/
example : (matchConstants ["x_0", "x", "t"] ["x_0", "x_0_0", "a", "b", "t_0"] exTraj).map (·.const) =
    .ok [2, 1, 9, 9, 0] := by decide +kernel

end Beluga.Guess
