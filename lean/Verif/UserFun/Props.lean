import Verif.UserFun.Names

/-!
# C62: the compiled derivative of a user function is the derivative that was taken
-/

namespace Beluga.UserFun

variable {F : Type}

/-! ### Specification -/

/-- A function object as the mathematician sees it: a user function at some arguments, differentiated with respect to the
arguments at the positions in `path` (the last one first). -/
structure Origin (F : Type) where
  gen : Gen F
  args : List Str
  path : List Nat

/-- What a session makes. -/
def trace : List (Act F) → List (Origin F) → List (Origin F)
  | [], os => os
  | .call g args :: l, os => trace l (os ++ [⟨g, args, []⟩])
  | .diff k i :: l, os =>
    match os[k]? with
    | some o => trace l (os ++ [{ o with path := i :: o.path }])
    | none => trace l os

/-- The function that has to be called for it. -/
def Origin.intended (o : Origin F) : EvalFunc F :=
  if o.path = [] then .base o.gen.func
  else .numDiff o.gen.func ((List.range o.args.length).map fun i => o.path.count i) o.gen.method

/-- Sessions in which the names cannot be confused:

* a name stands for one function; function names do not start with a digit, and none continues another one with `_d`;
* a function of several arguments is always used with the same, different arguments;
* names of arguments of functions that are differentiated more than once do not contain the letter `d` or end with an underscore. -/
structure Tidy (os : List (Origin F)) : Prop where
  digit : ∀ o ∈ os, NoDigit o.gen.name
  func : ∀ o ∈ os, ∀ o' ∈ os, o.gen.name = o'.gen.name → o.gen.func = o'.gen.func
  apart : ∀ o ∈ os, ∀ o' ∈ os, Apart o.gen.name o'.gen.name
  args : ∀ o ∈ os, ∀ o' ∈ os, o.gen.name = o'.gen.name → o.args = o'.args ∨ (o.args.length ≤ 1 ∧ o'.args.length ≤ 1)
  nodup : ∀ o ∈ os, o.args.Nodup
  plain : ∀ o ∈ os, o.path.length ≤ 1 ∨ ∀ a ∈ o.args, Plain a

/-- Letters, digits and underscores only. -/
def Word (s : Str) : Prop := ∀ c ∈ s, c.isAlphanum = true ∨ c = '_'

/-! ### What a session does -/

/-- What is registered for a function object. -/
def Node.evalFunc (n : Node F) : EvalFunc F := if n.order.sum = 0 then .base n.func else .numDiff n.func n.order "c_diff"

/-- A function object and its origin belong together. -/
structure Match (arity : F → Nat) (n : Node F) (o : Origin F) : Prop where
  func : n.func = o.gen.func
  args : n.args = o.args
  arity : o.args.length = arity o.gen.func
  path : ∀ i ∈ o.path, i < o.args.length
  order : n.order = ord o.args.length o.path
  name : n.name = nameOf o.gen.name o.args o.path

theorem make_ok {arity : F → Nat} {jit : F → Bool} {base : Str} {f : F} {args : List Str} {order : List Nat} {m : String} {L L' : Locals F}
    {n : Node F} (h : make arity jit base f args order m L = .ok (n, L')) :
    args.length = arity f ∧ n = ⟨constructName base args order, f, args, order⟩ ∧
      L' = Function.update L (constructName base args order) (some (if order.sum = 0 then .base f else .numDiff f order m)) := by
  unfold make at h
  split at h
  · cases h
  · next hl =>
    split at h
    · cases h
    · cases h; exact ⟨not_not.1 hl, rfl, rfl⟩

theorem call_match {arity : F → Nat} {jit : F → Bool} {g : Gen F} {args : List Str} {L L' : Locals F} {n : Node F}
    (h : g.call arity jit args L = .ok (n, L')) :
    Match arity n ⟨g, args, []⟩ ∧ L' = Function.update L n.name (some n.evalFunc) := by
  obtain ⟨h1, h2, h3⟩ := make_ok h
  have hs : (List.replicate (arity g.func) 0).sum = 0 := by simp
  subst h2 h3
  refine ⟨⟨rfl, rfl, h1, by simp, ?_, ?_⟩, ?_⟩
  · simp only [ord, h1]
    apply List.ext_getElem <;> simp
  · simp [constructName, nameOf]
  · simp [Node.evalFunc]

theorem fdiff_match {arity : F → Nat} {jit : F → Bool} {n0 n : Node F} {o : Origin F} {i : Nat} {L L' : Locals F} (hm : Match arity n0 o)
    (h : n0.fdiff arity jit i L = .ok (n, L')) :
    Match arity n { o with path := i :: o.path } ∧ L' = Function.update L n.name (some n.evalFunc) := by
  unfold Node.fdiff at h
  split at h
  · next hi =>
    obtain ⟨h1, h2, h3⟩ := make_ok h
    have hord : n0.order.modify i (· + 1) = ord o.args.length (i :: o.path) := by rw [hm.order, ord_cons]
    subst h2
    refine ⟨⟨hm.func, hm.args, hm.arity, ?_, hord, ?_⟩, ?_⟩
    · intro j hj
      rcases List.mem_cons.1 hj with rfl | hj
      · rw [← hm.args]; exact hi
      · exact hm.path j hj
    · simp only
      rw [hord, hm.args, hm.name]
      rfl
    · rw [h3]
      rfl
  · cases h

/-- What holds after any number of actions. -/
structure Inv (arity : F → Nat) (s : List (Node F) × Locals F) (os : List (Origin F)) : Prop where
  all : List.Forall₂ (Match arity) s.1 os
  reg : ∀ n ∈ s.1, ∃ n' ∈ s.1, n'.name = n.name ∧ s.2 n.name = some n'.evalFunc

theorem Inv.push {arity : F → Nat} {s : List (Node F) × Locals F} {os : List (Origin F)} {n : Node F} {o : Origin F} {L' : Locals F}
    (hi : Inv arity s os) (hm : Match arity n o) (hL : L' = Function.update s.2 n.name (some n.evalFunc)) :
    Inv arity (s.1 ++ [n], L') (os ++ [o]) := by
  refine ⟨List.rel_append hi.all (.cons hm .nil), ?_⟩
  intro x hx
  by_cases hxn : x.name = n.name
  · exact ⟨n, by simp, hxn.symm, by simp only [hL, hxn, Function.update_self]⟩
  · rcases List.mem_append.1 hx with hx | hx
    · obtain ⟨n', h1, h2, h3⟩ := hi.reg x hx
      exact ⟨n', by simp [h1], h2, by simp only [hL, Function.update_of_ne hxn, h3]⟩
    · rw [List.mem_singleton] at hx
      exact absurd (by rw [hx]) hxn

theorem run_inv {arity : F → Nat} {jit : F → Bool} : ∀ (acts : List (Act F)) (s s' : List (Node F) × Locals F) (os : List (Origin F)),
    Inv arity s os → acts.foldlM (step arity jit) s = .ok s' → Inv arity s' (trace acts os)
  | [], s, s', os, hi, h => by cases h; exact hi
  | a :: acts, s, s', os, hi, h => by
    rw [List.foldlM_cons] at h
    obtain ⟨s1, h1, h⟩ := Py.bind_ok.1 h
    cases a with
    | call g args =>
      obtain ⟨⟨n, L'⟩, h2, h3⟩ := Py.bind_ok.1 h1
      cases h3
      obtain ⟨h4, h5⟩ := call_match h2
      exact run_inv acts _ s' _ (hi.push h4 h5) h
    | diff k i =>
      obtain ⟨n0, h0, h1⟩ := Py.bind_ok.1 h1
      obtain ⟨⟨n, L'⟩, h2, h3⟩ := Py.bind_ok.1 h1
      cases h3
      have hk : s.1[k]? = some n0 := Py.get_ok.1 h0
      have hlen := hi.all.length_eq
      obtain ⟨hk1, hk2⟩ := List.getElem?_eq_some_iff.1 hk
      have hko : os[k]? = some (os[k]'(by omega)) := List.getElem?_eq_getElem _
      have hm : Match arity n0 (os[k]'(by omega)) := by
        have := (List.forall₂_iff_get.1 hi.all).2 k hk1 (by omega)
        simpa [hk2] using this
      obtain ⟨h4, h5⟩ := fdiff_match hm h2
      rw [trace, hko]
      exact run_inv acts _ s' _ (hi.push h4 h5) h

/-! ### C62 -/

theorem nameOf_word {f : Str} {args : List Str} (hf : Word f) (ha : ∀ a ∈ args, Word a) : ∀ p : List Nat, Word (nameOf f args p) := by
  have hdec : ∀ n, Word (dec n) := fun n c hc => by
    have := dec_digit hc
    left
    simp only [Char.isAlphanum, this, Bool.or_true]
  have hpost : ∀ o, Word (post args o) := by
    intro o c hc
    unfold post at hc
    rw [List.mem_flatten] at hc
    obtain ⟨l, hl, hc⟩ := hc
    obtain ⟨i, hi, rfl⟩ := List.mem_iff_getElem.1 hl
    rw [List.getElem_zipWith] at hc
    have hai := ha _ (List.getElem_mem (l := args) (n := i) (by simp at hi; omega))
    unfold piece at hc
    split at hc
    · simp at hc
    · split at hc
      · rcases List.mem_cons.1 hc with rfl | hc
        · left; decide
        · exact hai c hc
      · rcases List.mem_cons.1 hc with rfl | hc
        · left; decide
        · rcases List.mem_append.1 hc with hc | hc
          · exact hai c hc
          · exact hdec _ c hc
  intro p
  induction p with
  | nil => exact hf
  | cons i p ih =>
    have hrest : Word (nameOf f args p ++ '_' :: post args (ord args.length (i :: p))) := by
      intro c hc
      rcases List.mem_append.1 hc with hc | hc
      · exact ih c hc
      · rcases List.mem_cons.1 hc with rfl | hc
        · right; rfl
        · exact hpost _ c hc
    rw [nameOf]
    unfold constructName
    intro c
    dsimp only
    revert c
    split
    · exact ih
    · split
      · intro c hc
        rcases List.mem_cons.1 hc with rfl | hc
        · left; decide
        · exact hrest c hc
      · intro c hc
        rcases List.mem_cons.1 hc with rfl | hc
        · left; decide
        · rcases List.mem_append.1 hc with hc | hc
          · exact hdec _ c hc
          · exact hrest c hc

theorem nameOf_ident {f : Str} {args : List Str} (hf : Word f) (hd : NoDigit f) (ha : ∀ a ∈ args, Word a) {p : List Nat}
    (hp : ∀ i ∈ p, i < args.length) : isIdent (nameOf f args p) = true := by
  have hw := nameOf_word hf ha p
  have hhead : ∃ c r, nameOf f args p = c :: r ∧ c.isDigit = false := by
    rw [nameOf_eq _ _ _ hp]
    obtain ⟨c, r, rfl, hc⟩ := hd
    cases hl : p.length with
    | zero => exact ⟨c, _, by simp [pre]; rfl, hc⟩
    | succ k =>
      obtain ⟨r', hr'⟩ := pre_head (k := k) (u := c :: r ++ tailOf args p)
      exact ⟨'d', r', hr', by decide⟩
  obtain ⟨c, r, e, hc⟩ := hhead
  have hall : (c :: r).all (fun c => c.isAlphanum || c == '_') = true := by
    rw [List.all_eq_true]
    intro x hx
    rw [← e] at hx
    rcases hw x hx with h | h
    · simp [h]
    · simp [h]
  rw [e]
  simp only [isIdent, hc, hall, Bool.not_false, Bool.and_self]

/-- **C62 (what holds).**  After any tidy session every function object calls what is intended: the user's function, or
its numerical derivative of the right order with respect to the right arguments - with central differences.  (The full
claim is that this holds for every session and for the method chosen by the user; see the theorems below.) -/
theorem C62_partial {arity : F → Nat} {jit : F → Bool} {acts : List (Act F)} {L0 L : Locals F} {nodes : List (Node F)}
    (h : run arity jit acts L0 = .ok (nodes, L)) (ht : Tidy (trace acts [])) :
    List.Forall₂ (fun n o => n.args = o.args ∧
      (o.gen.method = "c_diff" ∨ o.path = [] → L n.name = some o.intended) ∧
      (o.gen.method = "c_diff" ∨ o.path = [] → Word o.gen.name → (∀ a ∈ o.args, Word a) → n.called L = .ok o.intended))
      nodes (trace acts []) := by
  have hinv : Inv arity (nodes, L) (trace acts []) :=
    run_inv acts ([], L0) _ [] ⟨.nil, by simp⟩ h
  have hreg : ∀ n ∈ nodes, ∃ n' ∈ nodes, n'.name = n.name ∧ L n.name = some n'.evalFunc := hinv.reg
  have hall : List.Forall₂ (Match arity) nodes (trace acts []) := hinv.all
  have hkey : ∀ n ∈ nodes, ∀ o ∈ trace acts [], Match arity n o → L n.name = some n.evalFunc := by
    intro n hn o ho hm
    obtain ⟨n', hn', hname, hL⟩ := hreg n hn
    obtain ⟨i, hi, rfl⟩ := List.mem_iff_getElem.1 hn'
    have hlen := hall.length_eq
    have hm' := (List.forall₂_iff_get.1 hall).2 i hi (by omega)
    simp only [List.get_eq_getElem] at hm'
    set o' := (trace acts [])[i]'(by omega) with ho'
    have ho'm : o' ∈ trace acts [] := List.getElem_mem _
    rw [hm.name, hm'.name] at hname
    obtain ⟨e1, e2, e3⟩ := nameOf_function (ht.digit _ ho'm) (ht.digit _ ho) (ht.apart _ ho'm _ ho) (ht.apart _ ho _ ho'm)
      hm'.path hm.path hname
    have hf : nodes[i].func = n.func := by rw [hm'.func, hm.func, ht.func _ ho'm _ ho e1]
    have hl : o'.args.length = o.args.length := by rw [hm'.arity, hm.arity, ht.func _ ho'm _ ho e1]
    have hord : nodes[i].order = n.order := by
      rw [hm'.order, hm.order]
      rcases ht.args _ ho'm _ ho e1 with ea | ⟨l1, l2⟩
      · rw [ea] at e3 ⊢
        have hp' := hm'.path
        rw [ea] at hp'
        by_cases hl1 : o.path.length ≤ 1
        · match hpo : o.path, hpo' : o'.path with
          | [], [] => rfl
          | [], x :: l => rw [hpo, hpo'] at e2; simp at e2
          | x :: l, [] => rw [hpo, hpo'] at e2; simp at e2
          | x :: y :: l, z :: m => rw [hpo] at hl1; simp at hl1
          | [x], y :: z :: m => rw [hpo, hpo'] at e2; simp at e2
          | [x], [y] =>
            rw [hpo, hpo'] at e3
            have := tail_first (ht.nodup _ ho) (hp' y (by rw [hpo']; simp)) (hm.path x (by rw [hpo]; simp)) e3
            rw [this]
        · exact tail_order (ht.nodup _ ho) ((ht.plain _ ho).resolve_left hl1) hp' hm.path e2 e3
      · have hone : ∀ (n : Nat) (p : List Nat), n ≤ 1 → (∀ i ∈ p, i < n) → ord n p = List.replicate n p.length := by
          intro n p hn hp
          rcases Nat.le_one_iff_eq_zero_or_eq_one.1 hn with rfl | rfl
          · rfl
          · have hz : ∀ i ∈ p, i = 0 := fun i hi => by have := hp i hi; omega
            have : p.count 0 = p.length := List.count_eq_length.2 fun i hi => (hz i hi).symm
            simp [ord, this]
        rw [hone _ _ l1 hm'.path, hone _ _ l2 hm.path, e2, hl]
    rw [hL]
    simp only [Node.evalFunc, hf, hord]
  have hres : ∀ (n : Node F) (o : Origin F), Match arity n o → L n.name = some n.evalFunc →
      o.gen.method = "c_diff" ∨ o.path = [] → L n.name = some o.intended := by
    intro n o hm hL hme
    rw [hL, Node.evalFunc, hm.order, sum_ord hm.path, hm.func, Origin.intended]
    by_cases hp : o.path = []
    · simp [hp]
    · rw [if_neg (by simpa using hp), if_neg hp, hme.resolve_right hp]
      rfl
  rw [List.forall₂_iff_get]
  refine ⟨hall.length_eq, fun i h1 h2 => ?_⟩
  have hm := (List.forall₂_iff_get.1 hall).2 i h1 h2
  have hL := hkey _ (List.getElem_mem h1) _ (List.getElem_mem h2) hm
  simp only [List.get_eq_getElem] at hm hL ⊢
  have hr := hres _ _ hm hL
  refine ⟨hm.args, hr, fun hme hw ha => ?_⟩
  have hid : isIdent nodes[i].name = true := by
    rw [hm.name]
    exact nameOf_ident hw (ht.digit _ (List.getElem_mem h2)) ha hm.path
  simp only [Node.called, hid, if_true, hr hme]

/-- **C62 is false for the method.**  Derivatives are always taken with central differences, whatever the user chose
(`num_deriv_type`). -/
theorem C62_violated_method {arity : F → Nat} {jit : F → Bool} {acts : List (Act F)} {L : Locals F} {nodes : List (Node F)}
    (h : run arity jit acts (fun _ => none) = .ok (nodes, L)) {s : Str} {f : F} {order : List Nat} {m : String}
    (hs : L s = some (.numDiff f order m)) : m = "c_diff" := by
  have key : ∀ (acts : List (Act F)) (s0 s1 : List (Node F) × Locals F),
      (∀ s f o m, s0.2 s = some (.numDiff f o m) → m = "c_diff") → acts.foldlM (step arity jit) s0 = .ok s1 →
      ∀ s f o m, s1.2 s = some (.numDiff f o m) → m = "c_diff" := by
    intro acts
    induction acts with
    | nil => intro s0 s1 h0 h; cases h; exact h0
    | cons a acts ih =>
      intro s0 s1 h0 h
      rw [List.foldlM_cons] at h
      obtain ⟨s2, h1, h⟩ := Py.bind_ok.1 h
      refine ih s2 s1 ?_ h
      have upd : ∀ (n : Str) (e : EvalFunc F), (∀ f o m, e = .numDiff f o m → m = "c_diff") →
          ∀ s f o m, Function.update s0.2 n (some e) s = some (.numDiff f o m) → m = "c_diff" := by
        intro n e he s f o m hs
        by_cases hsn : s = n
        · subst hsn
          rw [Function.update_self] at hs
          exact he f o m (Option.some.inj hs)
        · rw [Function.update_of_ne hsn] at hs
          exact h0 s f o m hs
      cases a with
      | call g args =>
        obtain ⟨⟨n, L'⟩, h2, h3⟩ := Py.bind_ok.1 h1
        cases h3
        obtain ⟨-, h5⟩ := call_match h2
        intro s f o m hs
        simp only [h5] at hs
        refine upd _ _ ?_ s f o m hs
        intro f o m he
        unfold Node.evalFunc at he
        split at he
        · cases he
        · cases he; rfl
      | diff k i =>
        obtain ⟨n0, h0', h1⟩ := Py.bind_ok.1 h1
        obtain ⟨⟨n, L'⟩, h2, h3⟩ := Py.bind_ok.1 h1
        cases h3
        unfold Node.fdiff at h2
        split at h2
        · obtain ⟨-, -, h5⟩ := make_ok h2
          intro s f o m hs
          simp only [h5] at hs
          refine upd _ _ ?_ s f o m hs
          intro f o m he
          split at he
          · cases he
          · cases he; rfl
        · cases h2
  exact key acts _ _ (by simp) h s f order m hs

/-- **C62 is false for functions that numba does not differentiate**, all functions of several arguments among them: the first
derivative raises `AttributeError`. -/
theorem C62_violated_jit {arity : F → Nat} {jit : F → Bool} {g : Gen F} (hj : jit g.func = false) {args : List Str}
    (hl : args.length = arity g.func) {i : Nat} (hi : i < args.length) (L0 : Locals F) :
    run arity jit [.call g args] L0 ≠ .error .attributeError ∧ run arity jit [.call g args, .diff 0 i] L0 = .error .attributeError := by
  have hs : ((List.replicate (arity g.func) 0).modify i (· + 1)).sum ≠ 0 := by
    intro h
    have h1 : 1 ∈ (List.replicate (arity g.func) 0).modify i (· + 1) := by
      refine List.mem_iff_getElem.2 ⟨i, by simp; omega, ?_⟩
      simp
    have := List.le_sum_of_mem h1
    omega
  constructor
  · simp [run, List.foldlM, step, Gen.call, make, hl, Py.ok_bind]
  · have hi' : i < arity g.func := hl ▸ hi
    simp [run, List.foldlM, step, Gen.call, make, hl, Py.ok_bind, Py.get, Node.fdiff, hi', hj, hs]
    rfl

/-- **C62 is false for repeated arguments.**  In `f(a, a)` both partial derivatives get the same name; both objects
call the derivative with respect to the second argument. -/
theorem C62_violated_repeat {arity : F → Nat} {jit : F → Bool} {g : Gen F} (hg : arity g.func = 2) (hj : jit g.func = true) (a : Str) (L0 : Locals F) :
    ∃ nodes L n1, run arity jit [.call g [a, a], .diff 0 0, .diff 0 1] L0 = .ok (nodes, L) ∧ nodes[1]? = some n1 ∧
      L n1.name = some (.numDiff g.func [0, 1] "c_diff") ∧
      (trace [.call g [a, a], .diff 0 0, .diff 0 1] [])[1]?.map Origin.intended = some (.numDiff g.func [1, 0] g.method) := by
  refine ⟨_, _, ⟨'d' :: (g.name ++ '_' :: 'd' :: a), g.func, [a, a], [1, 0]⟩, by
    simp [run, List.foldlM, step, Gen.call, make, hg, hj, Py.ok_bind, Py.get, Node.fdiff, constructName, post, piece]; exact ⟨rfl, rfl⟩, ?_, ?_, ?_⟩
  · rfl
  · simp
  · simp [trace, Origin.intended, List.range_succ]

/-- **C62 is false for exchanged arguments.**  With `f(a, b)` and `f(b, a)` in the same problem, the derivatives with
respect to `a` of both get the same name; both call the derivative with respect to the second argument. -/
theorem C62_violated_swap {arity : F → Nat} {jit : F → Bool} {g : Gen F} (hg : arity g.func = 2) (hj : jit g.func = true) (a b : Str) (L0 : Locals F) :
    ∃ nodes L n2, run arity jit [.call g [a, b], .call g [b, a], .diff 0 0, .diff 1 1] L0 = .ok (nodes, L) ∧
      nodes[2]? = some n2 ∧ L n2.name = some (.numDiff g.func [0, 1] "c_diff") ∧
      (trace [.call g [a, b], .call g [b, a], .diff 0 0, .diff 1 1] [])[2]?.map Origin.intended =
        some (.numDiff g.func [1, 0] g.method) := by
  refine ⟨_, _, ⟨'d' :: (g.name ++ '_' :: 'd' :: a), g.func, [a, b], [1, 0]⟩, by
    simp [run, List.foldlM, step, Gen.call, make, hg, hj, Py.ok_bind, Py.get, Node.fdiff, constructName, post, piece]; exact ⟨rfl, rfl⟩, ?_, ?_, ?_⟩
  · rfl
  · simp
  · simp [trace, Origin.intended, List.range_succ]

/-- **C62 is false for composite arguments.**  The derivative of `f(e)`, where the printed form of `e` contains anything
but letters, digits and underscores, cannot be called. -/
theorem C62_violated_composite {arity : F → Nat} {jit : F → Bool} {g : Gen F} (hg : arity g.func = 1) (hj : jit g.func = true) {a : Str} {c : Char} (hc : c ∈ a)
    (hc' : c.isAlphanum = false ∧ c ≠ '_') (L0 : Locals F) :
    ∃ nodes L n1, run arity jit [.call g [a], .diff 0 0] L0 = .ok (nodes, L) ∧ nodes[1]? = some n1 ∧
      n1.called L = .error .nameError := by
  refine ⟨_, _, ⟨'d' :: (g.name ++ '_' :: 'd' :: a), g.func, [a], [1]⟩, by
    simp [run, List.foldlM, step, Gen.call, make, hg, hj, Py.ok_bind, Py.get, Node.fdiff, constructName, post, piece]; exact ⟨rfl, rfl⟩, ?_, ?_⟩
  · rfl
  · have : isIdent ('d' :: (g.name ++ '_' :: 'd' :: a)) = false := by
      simp only [isIdent]
      have : ('d' :: (g.name ++ '_' :: 'd' :: a)).all (fun c => c.isAlphanum || c == '_') = false := by
        rw [List.all_eq_false]
        exact ⟨c, by simp [hc], by simp [hc'.1, hc'.2]⟩
      rw [this, Bool.and_false]
    simp [Node.called, this]

/-- **C62 (tables).**  After any sequence of table lookups and derivatives of them, with names as for functions and any
arguments, each name stands for its table and its order of differentiation. -/
theorem C62_tables {l : List (Str × Str × Nat)} (hd : ∀ x ∈ l, NoDigit x.1) (ha : ∀ x ∈ l, ∀ y ∈ l, Apart x.1 y.1)
    (L0 : Str → Option (Str × Nat)) : ∀ x ∈ l, tableRun l L0 (tableName x.1 x.2.1 x.2.2) = some (x.1, x.2.2) := by
  have inj : ∀ {t t' a a' : Str} {k k' : Nat}, NoDigit t → NoDigit t' → Apart t t' → Apart t' t →
      tableName t a k = tableName t' a' k' → t = t' ∧ k = k' := by
    intro t t' a a' k k' h1 h2 h3 h4 h
    have hnd : ∀ {t u : Str}, NoDigit t → ∀ c, (t ++ u).head? = some c → c.isDigit = false := by
      rintro t u ⟨c, r, rfl, hc⟩ x hx
      simp only [List.cons_append, List.head?_cons, Option.some.injEq] at hx
      rw [← hx]; exact hc
    have one : ∀ {t u v : Str} {m : Nat}, NoDigit t → t ++ u ≠ dec m ++ v := by
      rintro t u v m ht h
      obtain ⟨d, ds, hds⟩ := List.exists_cons_of_ne_nil (dec_ne_nil m)
      have h1 := dec_digit (n := m) (c := d) (by rw [hds]; simp)
      have h2 := hnd ht d (by rw [h, hds]; rfl)
      rw [h1] at h2; cases h2
    unfold tableName at h
    by_cases hk : k = 0
    · by_cases hk' : k' = 0
      · simp only [hk, hk', if_true] at h
        exact ⟨h, by omega⟩
      · exfalso
        simp only [hk, if_true, if_neg hk'] at h
        split at h
        · exact h4 ⟨['d'], a', by simp [h]⟩
        · exact h4 ⟨'d' :: dec k', a' ++ dec k', by simp [h]⟩
    · by_cases hk' : k' = 0
      · exfalso
        simp only [hk', if_true, if_neg hk] at h
        split at h
        · exact h3 ⟨['d'], a, by simp [← h]⟩
        · exact h3 ⟨'d' :: dec k, a ++ dec k, by simp [← h]⟩
      · simp only [if_neg hk, if_neg hk'] at h
        by_cases hk1 : k = 1
        · by_cases hk1' : k' = 1
          · simp only [hk1, hk1', if_true, List.cons.injEq, true_and] at h
            exact ⟨(mid_inj h3 h4 h).1, by omega⟩
          · simp only [hk1, if_true, if_neg hk1', List.cons.injEq, true_and] at h
            exact absurd h (one h1)
        · by_cases hk1' : k' = 1
          · simp only [hk1', if_true, if_neg hk1, List.cons.injEq, true_and] at h
            exact absurd h.symm (one h2)
          · simp only [if_neg hk1, if_neg hk1', List.cons.injEq, true_and] at h
            obtain ⟨e1, e2⟩ := dec_append_inj (hnd h1) (hnd h2) h
            exact ⟨(mid_inj h3 h4 e2).1, e1⟩
  have keep : ∀ (l : List (Str × Str × Nat)) (L : Str → Option (Str × Nat)) (s : Str) (v : Str × Nat),
      (∀ x ∈ l, tableName x.1 x.2.1 x.2.2 = s → (x.1, x.2.2) = v) → L s = some v → tableRun l L s = some v := by
    intro l
    induction l with
    | nil => intro L s v _ h; exact h
    | cons y l ih =>
      intro L s v hl h
      obtain ⟨t, a, k⟩ := y
      rw [tableRun]
      refine ih _ s v (fun x hx => hl x (by simp [hx])) ?_
      by_cases hs : tableName t a k = s
      · subst hs
        rw [Function.update_self]
        exact congrArg some (hl (t, a, k) (by simp) rfl)
      · rw [Function.update_of_ne (Ne.symm hs)]
        exact h
  have main : ∀ (l' : List (Str × Str × Nat)), (∀ x ∈ l', x ∈ l) → ∀ L : Str → Option (Str × Nat),
      ∀ x ∈ l', tableRun l' L (tableName x.1 x.2.1 x.2.2) = some (x.1, x.2.2) := by
    intro l'
    induction l' with
    | nil => intro _ _ x hx; cases hx
    | cons y l' ih =>
      intro hsub L x hx
      have hl' : ∀ x ∈ l', x ∈ l := fun x hx => hsub x (by simp [hx])
      obtain ⟨t, a, k⟩ := y
      rw [tableRun]
      rcases List.mem_cons.1 hx with rfl | hx
      · refine keep l' _ _ _ ?_ (by rw [Function.update_self])
        intro z hz hname
        have hz' := hl' z hz
        have hy : (t, a, k) ∈ l := hsub _ (by simp)
        obtain ⟨e1, e2⟩ := inj (hd z hz') (hd _ hy) (ha z hz' _ hy) (ha _ hy z hz') hname
        simp only at e1 e2 ⊢
        rw [e1, e2]
      · exact ih hl' _ x hx
  exact main l (fun _ h => h) L0

/-! ### Examples -/

/-- One function, named 1, of two arguments. -/
def exGen : Gen Nat := ⟨"drift".toList, 1, "c_diff"⟩
def exActs : List (Act Nat) :=
  [.call exGen ["x1".toList, "x2".toList], .diff 0 0, .diff 0 1, .diff 1 1, .diff 2 0, .diff 1 0]
def exRes : List (Node Nat) × Locals Nat := (run (fun _ => 2) (fun _ => true) exActs (fun _ => none)).toOption.getD ([], fun _ => none)

example : exRes.1.map (fun n => (String.ofList n.name, n.called exRes.2 |>.toOption)) =
    [("drift", some (.base 1)), ("ddrift_dx1", some (.numDiff 1 [1, 0] "c_diff")), ("ddrift_dx2", some (.numDiff 1 [0, 1] "c_diff")),
     ("d2ddrift_dx1_dx1dx2", some (.numDiff 1 [1, 1] "c_diff")), ("d2ddrift_dx2_dx1dx2", some (.numDiff 1 [1, 1] "c_diff")),
     ("d2ddrift_dx1_dx12", some (.numDiff 1 [2, 0] "c_diff"))] := by decide +kernel

/-- Different arguments with a `d` in their names can give the same name. -/
example : nameOf "f".toList ["xdy".toList, "x".toList, "ydx".toList] [0, 1] =
    nameOf "f".toList ["xdy".toList, "x".toList, "ydx".toList] [2, 1] := by decide +kernel

/-- So can arguments that contain `_d`. -/
example : nameOf "f".toList ["x_dx_dx".toList, "x_dx".toList, "x".toList] [0, 2] =
    nameOf "f".toList ["x_dx_dx".toList, "x_dx".toList, "x".toList] [2, 1] := by decide +kernel

/-- Arguments that end with a digit are not confused with orders. -/
example : post ["x".toList, "x2".toList, "y".toList, "y2".toList] [2, 0, 0, 1] =
    post ["x".toList, "x2".toList, "y".toList, "y2".toList] [0, 1, 2, 0] ∧
    nameOf "f".toList ["x".toList, "x2".toList, "y".toList, "y2".toList] [0, 0, 3] ≠
      nameOf "f".toList ["x".toList, "x2".toList, "y".toList, "y2".toList] [1, 2, 2] := by decide +kernel

example : isIdent "df_dx**2".toList = false ∧ tableName "rho".toList "h - h0".toList 1 = "drho_dh - h0".toList := by decide +kernel

end Beluga.UserFun
