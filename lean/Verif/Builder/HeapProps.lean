import Verif.Builder.Heap
import Verif.Builder.Props

/-! # C34: what `solve` leaves of the user's problem -/

namespace Beluga.Build

variable {D : Type}

/-- The heap is well formed for the user's problem `p`: it exists, and it and its components are below `next`. -/
structure Wf (h : Heap D) (p : Nat) : Prop where
  bound : p < h.next
  comps : ∀ cs c, h.prob p = some (cs, c) → ∀ a ∈ cs, a < h.next

/-- Relation between the heap before `solve` and a later one, with the problem being worked on at `q`: old objects are
untouched, `q` and its components are new, `q` has the user's compiler, whose table has only grown. -/
structure Frame (h : Heap D) (p : Nat) (names : List Name) (h' : Heap D) (q : Nat) : Prop where
  comp : ∀ a < h.next, h'.comp a = h.comp a
  prob : ∀ a < h.next, h'.prob a = h.prob a
  le : h.next ≤ h'.next
  fresh : h.next ≤ q ∧ q < h'.next
  cur : ∃ cs cs0 c, h'.prob q = some (cs, c) ∧ h.prob p = some (cs0, c) ∧ ∀ a ∈ cs, h.next ≤ a ∧ a < h'.next
  table : ∀ cs0 c, h.prob p = some (cs0, c) → h'.table c = h.table c ++ names ∧ ∀ b, b ≠ c → h'.table b = h.table b

theorem allocs_spec : ∀ (ds : List (Option D)) (h : Heap D),
    (∀ a < h.next, (h.allocs ds).1.comp a = h.comp a) ∧ (h.allocs ds).1.prob = h.prob ∧ (h.allocs ds).1.table = h.table ∧
    h.next ≤ (h.allocs ds).1.next ∧ (∀ a ∈ (h.allocs ds).2, h.next ≤ a ∧ a < (h.allocs ds).1.next) ∧
    (h.allocs ds).2.map (h.allocs ds).1.comp = ds
  | [], h => by simp [Heap.allocs]
  | d :: ds, h => by
    obtain ⟨h1, h2, h3, h4, h5, h6⟩ := allocs_spec ds (h.alloc d).1
    have hn : (h.alloc d).1.next = h.next + 1 := rfl
    have ha : (h.alloc d).2 = h.next := rfl
    rw [hn] at h1 h4 h5
    simp only [Heap.allocs]
    refine ⟨fun a hlt => ?_, h2, h3, by omega, fun a hm => ?_, ?_⟩
    · rw [h1 a (by omega)]
      simp only [Heap.alloc]
      rw [if_neg (by omega)]
    · rcases List.mem_cons.1 hm with rfl | hm
      · rw [ha]; omega
      · have := h5 a hm; omega
    · rw [List.map_cons, h6, ha, h1 h.next (by omega)]
      simp [Heap.alloc]

theorem deepcopy_frame {h : Heap D} {p : Nat} {h' : Heap D} {q : Nat} {names : List Name} (hf : Frame h p names h' q) :
    Frame h p names (h'.deepcopy q).1 (h'.deepcopy q).2 := by
  obtain ⟨cs, cs0, c, hq, hp, hcs⟩ := hf.cur
  obtain ⟨h1, h2, h3, h4, h5, -⟩ := allocs_spec (cs.map h'.comp) h'
  have hle := hf.le
  simp only [Heap.deepcopy, hq]
  refine ⟨fun a ha => ?_, fun a ha => ?_, by dsimp only; omega, ⟨by omega, by dsimp only; omega⟩, ?_, ?_⟩
  · rw [← hf.comp a ha]; exact h1 a (by omega)
  · dsimp only
    rw [if_neg (by omega), h2, hf.prob a ha]
  · refine ⟨_, cs0, c, if_pos rfl, hp, fun a ha => ?_⟩
    have := h5 a ha
    dsimp only
    omega
  · intro cs1 c1 hc
    dsimp only
    rw [h3]
    exact hf.table cs1 c1 hc

/-- The name an action registers. -/
def Action.names : Action D → List Name
  | .append n _ => n.toList
  | _ => []

theorem act_frame {h : Heap D} {p : Nat} {h' : Heap D} {q : Nat} {names : List Name} (hf : Frame h p names h' q)
    (a : Action D) : Frame h p (names ++ a.names) (h'.act q a).1 (h'.act q a).2 := by
  obtain ⟨cs, cs0, c, hq, hp, hcs⟩ := hf.cur
  have hle := hf.le
  have hfr := hf.fresh
  cases a with
  | write i d =>
    simp only [Heap.act, hq, Action.names, List.append_nil]
    cases hi : cs[i]? with
    | none => exact hf
    | some a =>
      have ha := hcs a (List.mem_of_getElem? hi)
      refine ⟨fun b hb => ?_, hf.prob, hf.le, hf.fresh, hf.cur, hf.table⟩
      dsimp only
      rw [if_neg (by omega), hf.comp b hb]
  | append n d =>
    simp only [Heap.act, hq, Action.names]
    refine ⟨fun b hb => ?_, fun b hb => ?_, ?_, ?_, ?_, ?_⟩
    · simp only [Heap.alloc]
      rw [if_neg (by omega), hf.comp b hb]
    · dsimp only
      rw [if_neg (by omega)]
      exact hf.prob b hb
    · simp only [Heap.alloc]; omega
    · simp only [Heap.alloc]; omega
    · refine ⟨_, cs0, c, if_pos rfl, hp, fun b hb => ?_⟩
      rcases List.mem_append.1 hb with hb | hb
      · have := hcs b hb
        simp only [Heap.alloc]; omega
      · rw [List.mem_singleton] at hb
        rw [hb]
        simp only [Heap.alloc]; omega
    · intro cs1 c1 hc
      rw [hp] at hc
      cases hc
      have ht := hf.table cs0 c hp
      dsimp only
      refine ⟨?_, fun b hb => ?_⟩
      · rw [if_pos rfl]
        simp only [Heap.alloc]
        rw [ht.1, List.append_assoc]
      · rw [if_neg hb]
        exact ht.2 b hb
  | select is =>
    simp only [Heap.act, hq, Action.names, List.append_nil]
    refine ⟨hf.comp, fun b hb => ?_, hf.le, hf.fresh, ⟨_, cs0, c, if_pos rfl, hp, fun b hb => ?_⟩, hf.table⟩
    · dsimp only
      rw [if_neg (by omega), hf.prob b hb]
    · obtain ⟨i, -, hi⟩ := List.mem_filterMap.1 hb
      exact hcs b (List.mem_of_getElem? hi)
  | copy =>
    simp only [Action.names, List.append_nil]
    exact deepcopy_frame hf

theorem solve_frame {h : Heap D} {p : Nat} {cs0 : List Nat} {c : Nat} (hp : h.prob p = some (cs0, c)) (as : List (Action D)) :
    Frame h p (as.flatMap Action.names) (h.solve p as).1 (h.solve p as).2 := by
  have h0 : Frame h p [] (h.deepcopy p).1 (h.deepcopy p).2 := by
    obtain ⟨h1, h2, h3, h4, h5, -⟩ := allocs_spec (cs0.map h.comp) h
    simp only [Heap.deepcopy, hp]
    refine ⟨h1, fun a ha => ?_, by dsimp only; omega, ⟨h4, Nat.lt_succ_self _⟩,
      ⟨_, cs0, c, if_pos rfl, hp, fun a ha => ?_⟩, fun cs1 c1 hc => ?_⟩
    · dsimp only
      rw [if_neg (by omega), h2]
    · have := h5 a ha
      dsimp only
      omega
    · dsimp only
      rw [h3]
      simp
  have : ∀ (as : List (Action D)) (names : List Name) (h' : Heap D) (q : Nat), Frame h p names h' q →
      Frame h p (names ++ as.flatMap Action.names) (as.foldl (fun hp a => hp.1.act hp.2 a) (h', q)).1
        (as.foldl (fun hp a => hp.1.act hp.2 a) (h', q)).2 := by
    intro as
    induction as with
    | nil => intro names h' q hf; simpa using hf
    | cons a as ih =>
      intro names h' q hf
      have := ih _ _ _ (act_frame hf a)
      rw [List.flatMap_cons, ← List.append_assoc]
      exact this
  exact this as [] _ _ h0

/-- **C34.**  Whatever the functors do, after `solve` the user's problem still consists of the same components with the same
data, in the same order; and every other problem with another compiler has the names it had.  (The full statement, that
the same declarations are accepted as before, is false: `C34_violated`.) -/
theorem C34_components_partial {h : Heap D} {p : Nat} (hw : Wf h p) {cs0 : List Nat} {c : Nat} (hp : h.prob p = some (cs0, c))
    (as : List (Action D)) :
    (h.solve p as).1.view p = h.view p ∧ (h.solve p as).1.prob p = h.prob p ∧
    (∀ q < h.next, (h.solve p as).1.prob q = h.prob q) ∧ (∀ a < h.next, (h.solve p as).1.comp a = h.comp a) ∧
    ∀ q < h.next, ∀ cs c', h.prob q = some (cs, c') → c' ≠ c → (h.solve p as).1.used q = h.used q := by
  have hf := solve_frame hp as
  have hpp := hf.prob p hw.bound
  refine ⟨?_, hpp, hf.prob, hf.comp, fun q hq cs c' hqc hne => ?_⟩
  · simp only [Heap.view, hpp, hp, Option.map_some]
    congr 1
    exact List.map_congr_left fun a ha => hf.comp a (hw.comps cs0 c hp a ha)
  · simp only [Heap.used, hf.prob q hq, hqc]
    exact (hf.table cs0 c hp).2 c' hne

/-- **C34.**  The names in use for the user's problem after `solve` are those before and those that the functors
registered. -/
theorem C34_names {h : Heap D} {p : Nat} (hw : Wf h p) {cs0 : List Nat} {c : Nat} (hp : h.prob p = some (cs0, c))
    (as : List (Action D)) : (h.solve p as).1.used p = h.used p ++ as.flatMap Action.names := by
  have hf := solve_frame hp as
  simp only [Heap.used, hf.prob p hw.bound, hp]
  exact (hf.table cs0 c hp).1

/-- **C34 is violated.**  Every name that a functor registers for its own purposes is, after `solve`, refused in
declarations on the user's problem, where it was accepted before; in particular, after the indirect method, the names
`hamiltonian` and `_lam_x` for every state `x`. -/
theorem C34_violated {h : Heap D} {p : Nat} (hw : Wf h p) {cs0 : List Nat} {c : Nat} (hp : h.prob p = some (cs0, c))
    (as : List (Action D)) {m n : Nat} {states : List Name} (has : ∀ s ∈ dualizeNames m n states, s ∈ as.flatMap Action.names)
    (ind : Name) (comps : List (Kind × Name)) (k : Kind) (s : Name) (hs : s = "hamiltonian" ∨ ∃ x ∈ states, s = "_lam_" ++ x)
    (hnew : s ∉ h.used p) :
    (exec (.declare k s) ⟨h.used p, ind, comps⟩).2 = none ∧
      (exec (.declare k s) ⟨(h.solve p as).1.used p, ind, comps⟩).2 = some .runtimeWarning := by
  have hmem : s ∈ dualizeNames m n states := by
    rcases hs with rfl | ⟨x, hx, rfl⟩
    · simp [dualizeNames]
    · simp only [dualizeNames, List.mem_append, List.mem_map]
      exact Or.inl (Or.inr ⟨x, hx, rfl⟩)
  constructor
  · rw [exec, if_neg hnew]
  · rw [exec, if_pos]
    rw [C34_names hw hp as]
    exact List.mem_append_right _ (has s hmem)

/-- A problem with two components (at 0 and 1), itself at 2, with compiler 0. -/
def exHeap : Heap String where
  comp a := if a = 0 then some "x' = v" else if a = 1 then some "v' = u" else none
  prob a := if a = 2 then some ([0, 1], 0) else none
  table a := if a = 0 then ["_t", "x", "v"] else []
  next := 3

/-- Some actions of an indirect method. -/
def exActions : List (Action String) :=
  [.write 0 "sympified", .append (some "_lam_x") "costate", .copy, .write 1 "0", .select [2, 0],
    .append (some "hamiltonian") "H", .write 0 "changed"]

example : (exHeap.solve 2 exActions).1.view 2 = some [some "x' = v", some "v' = u"] ∧
    (exHeap.solve 2 exActions).1.used 2 = ["_t", "x", "v", "_lam_x", "hamiltonian"] ∧
    (exHeap.solve 2 exActions).1.view (exHeap.solve 2 exActions).2 = some [some "changed", some "sympified", some "H"] := by
  decide +kernel

end Beluga.Build
