import Verif.Functor.Model

/-!
# C35: composition of transformations
-/

namespace Beluga.Fun

variable {P : Type _}

/-! ## Specification -/

/-- Heaps that arise: `_right` is an older object. -/
def Wf (h : Heap P) : Prop := ∀ (a : Nat) (o : Obj P) (r : Nat), h[a]? = some o → o.right = some r → r < a

/-- Doing `f` after `g`; an exception in `g` is the exception of the composition. -/
def after (f g : P → Py P) : P → Py P := fun p => (g p) >>= f

/-- `f` done `n` times. -/
def times (f : P → Py P) : Nat → P → Py P
  | 0 => .ok
  | n + 1 => after f (times f n)

/-! ## Lemmas -/

theorem wf_alloc {h : Heap P} (hw : Wf h) {o : Obj P} (ho : ∀ r, o.right = some r → r < h.length) :
    Wf (alloc h o).1 := by
  intro a o' r ha hr
  simp only [alloc] at ha
  rcases Nat.lt_trichotomy a h.length with hl | hl | hl
  · rw [List.getElem?_append_left hl] at ha; exact hw a o' r ha hr
  · subst hl; simp at ha; subst ha; exact ho r hr
  · rw [List.getElem?_eq_none (by simp; omega)] at ha; cases ha

/-- The value of an address is not affected by later allocations. -/
theorem call_prefix {h h' : Heap P} (hp : h <+: h') (a : Nat) (ha : a < h.length) (p : P) :
    call h' a p = call h a p := by
  induction a using Nat.strong_induction_on generalizing p with
  | _ a ih =>
    have he : h'[a]? = h[a]? := by
      obtain ⟨t, rfl⟩ := hp
      rw [List.getElem?_append_left ha]
    rw [call, call, he]
    cases h[a]? with
    | none => rfl
    | some o =>
      simp only
      cases o.right with
      | none => rfl
      | some r =>
        simp only
        split
        · next hr => rw [ih r hr (by omega)]
        · rfl

theorem repr_prefix {h h' : Heap P} (hp : h <+: h') (a : Nat) (ha : a < h.length) :
    repr h' a = repr h a := by
  induction a using Nat.strong_induction_on with
  | _ a ih =>
    have he : h'[a]? = h[a]? := by
      obtain ⟨t, rfl⟩ := hp
      rw [List.getElem?_append_left ha]
    rw [repr, repr, he]
    cases h[a]? with
    | none => rfl
    | some o =>
      simp only
      cases o.right with
      | none => rfl
      | some r =>
        simp only
        split
        · next hr => rw [ih r hr (by omega)]
        · rfl

theorem alloc_prefix (h : Heap P) (o : Obj P) : h <+: (alloc h o).1 := ⟨[o], rfl⟩

theorem call_alloc_none {h : Heap P} {o : Obj P} (ho : o.right = none) (p : P) :
    call (alloc h o).1 (alloc h o).2 p = o.trans p := by
  rw [call]; simp [alloc, ho]

theorem call_alloc_some {h : Heap P} {o : Obj P} {r : Nat} (ho : o.right = some r) (hr : r < h.length) (p : P) :
    call (alloc h o).1 (alloc h o).2 p = (call h r p >>= o.trans) := by
  rw [call]
  simp only [alloc, List.getElem?_append_right (Nat.le_refl _), Nat.sub_self, List.getElem?_cons_zero, ho, hr, if_true]
  rw [call_prefix ⟨[o], rfl⟩ r hr]

theorem repr_alloc_some {h : Heap P} {o : Obj P} {r : Nat} (ho : o.right = some r) (hr : r < h.length) :
    repr (alloc h o).1 (alloc h o).2 = (repr h r >>= fun s => .ok (o.name ++ " . " ++ s)) := by
  rw [repr]
  simp only [alloc, List.getElem?_append_right (Nat.le_refl _), Nat.sub_self, List.getElem?_cons_zero, ho, hr, if_true]
  rw [repr_prefix ⟨[o], rfl⟩ r hr]

theorem bind_assoc' {α β γ : Type _} (x : Py α) (f : α → Py β) (g : β → Py γ) :
    ((x >>= f) >>= g) = (x >>= fun a => f a >>= g) := by cases x <;> rfl

theorem after_assoc (f g k : P → Py P) : after (after f g) k = after f (after g k) := by
  funext p; exact (bind_assoc' (k p) g f).symm

theorem ok_after (f : P → Py P) : after .ok f = f := by
  funext p; simp only [after]; cases f p <;> rfl

theorem after_ok (f : P → Py P) : after f .ok = f := rfl

/-- What `*` builds. -/
theorem mul_ok {h : Heap P} (hw : Wf h) {a b : Nat} (ha : a < h.length) (hb : b < h.length) :
    ∃ h' c, mul h a b = .ok (h', c) ∧ h <+: h' ∧ Wf h' ∧ c < h'.length ∧
      (∀ p, call h' c p = after (call h a) (call h b) p) ∧
      ∃ s t, repr h a = .ok s ∧ repr h b = .ok t ∧ repr h' c = .ok (s ++ " . " ++ t) := by
  have hreprs : ∀ x, x < h.length → ∃ s, repr h x = .ok s := by
    intro x hx
    induction x using Nat.strong_induction_on with
    | _ x ih =>
      rw [repr, List.getElem?_eq_getElem hx]
      simp only
      cases hr : h[x].right with
      | none => exact ⟨_, rfl⟩
      | some r =>
        have hlt := hw x h[x] r (List.getElem?_eq_getElem hx) hr
        obtain ⟨s, hs⟩ := ih r hlt (by omega)
        simp only [hlt, if_true, hs]
        exact ⟨_, rfl⟩
  induction a using Nat.strong_induction_on with
  | _ a ih =>
    have hget : h[a]? = some h[a] := List.getElem?_eq_getElem ha
    rw [mul, hget]
    simp only
    cases hr : h[a].right with
    | none =>
      refine ⟨_, _, rfl, alloc_prefix _ _, wf_alloc hw (by simp; omega), by simp, ?_, ?_⟩
      · intro p
        refine (call_alloc_some (o := { h[a] with right := some b }) rfl hb p).trans ?_
        simp only [after]
        congr 1
        funext q
        rw [call, hget]
        simp only [hr]
      · obtain ⟨t, ht⟩ := hreprs b hb
        refine ⟨h[a].name, t, ?_, ht, ?_⟩
        · rw [repr, hget]; simp only [hr]
        · refine (repr_alloc_some (o := { h[a] with right := some b }) rfl hb).trans ?_
          rw [ht]; rfl
    | some r =>
      have hlt := hw a h[a] r hget hr
      simp only [hlt, if_true]
      obtain ⟨h1, c1, e1, p1, w1, l1, d1, s, t, e2, e3, e4⟩ := ih r hlt (by omega)
      rw [e1]
      simp only [bind, Except.bind]
      refine ⟨_, _, rfl, p1.trans (alloc_prefix _ _), wf_alloc w1 (by simp; omega), by simp, ?_, ?_⟩
      · intro p
        refine (call_alloc_some (o := { h[a] with right := some c1 }) rfl l1 p).trans ?_
        rw [d1]
        simp only [after, bind_assoc']
        congr 1
        funext q
        conv_rhs => rw [call, hget]
        simp only [hr, hlt, if_true]
      · refine ⟨h[a].name ++ " . " ++ s, t, ?_, e3, ?_⟩
        · rw [repr, hget]; simp only [hr, hlt, if_true, e2]; rfl
        · refine (repr_alloc_some (o := { h[a] with right := some c1 }) rfl l1).trans ?_
          rw [e4]
          simp only [bind, Except.bind, String.append_assoc]

/-! ## Properties -/

/-- C35, product: `f * g` succeeds, leaves every existing object as it was (`h` is a prefix of the new heap), and
applying it is applying `g`, then `f`. -/
theorem C35_mul {h : Heap P} (hw : Wf h) {a b : Nat} (ha : a < h.length) (hb : b < h.length) :
    ∃ h' c, mul h a b = .ok (h', c) ∧ h <+: h' ∧ Wf h' ∧ c < h'.length ∧
      call h' c = after (call h a) (call h b) := by
  obtain ⟨h', c, h1, h2, h3, h4, h5, -⟩ := mul_ok hw ha hb
  exact ⟨h', c, h1, h2, h3, h4, funext h5⟩

/-- Operands, and everything else that exists, behave as before any composition. -/
theorem C35_operands_unchanged {h h' : Heap P} {a b c x : Nat} (hw : Wf h) (ha : a < h.length) (hb : b < h.length)
    (hm : mul h a b = .ok (h', c)) (hx : x < h.length) : h'[x]? = h[x]? ∧ call h' x = call h x := by
  obtain ⟨h'', c', h1, h2, -⟩ := mul_ok hw ha hb
  rw [hm] at h1
  cases h1
  refine ⟨?_, funext fun p => call_prefix h2 x hx p⟩
  obtain ⟨t, rfl⟩ := h2
  rw [List.getElem?_append_left hx]

/-- C35, associativity: `(f * g) * k` and `f * (g * k)` do the same. -/
theorem C35_assoc {h : Heap P} (hw : Wf h) {a b c : Nat} (ha : a < h.length) (hb : b < h.length)
    (hc : c < h.length) :
    ∃ h1 x h2 y h3 z h4 w, mul h a b = .ok (h1, x) ∧ mul h1 x c = .ok (h2, y) ∧
      mul h b c = .ok (h3, z) ∧ mul h3 a z = .ok (h4, w) ∧ call h2 y = call h4 w := by
  obtain ⟨h1, x, e1, p1, w1, l1, d1⟩ := C35_mul hw ha hb
  obtain ⟨h2, y, e2, p2, w2, l2, d2⟩ := C35_mul w1 l1 (Nat.lt_of_lt_of_le hc p1.length_le)
  obtain ⟨h3, z, e3, p3, w3, l3, d3⟩ := C35_mul hw hb hc
  obtain ⟨h4, w, e4, p4, w4, l4, d4⟩ := C35_mul w3 (Nat.lt_of_lt_of_le ha p3.length_le) l3
  refine ⟨h1, x, h2, y, h3, z, h4, w, e1, e2, e3, e4, ?_⟩
  rw [d2, d4, d1, d3]
  have h5 : call h1 c = call h c := funext fun p => call_prefix p1 c hc p
  have h6 : call h3 a = call h a := funext fun p => call_prefix p3 a ha p
  rw [h5, h6, after_assoc]

/-- C35, `>>`: `f >> g` is `g` after `f`; `<<` is the product. -/
theorem C35_shift {h : Heap P} (hw : Wf h) {a b : Nat} (ha : a < h.length) (hb : b < h.length) :
    (∃ h' c, rshift h a b = .ok (h', c) ∧ h <+: h' ∧ call h' c = after (call h b) (call h a)) ∧
    lshift h a b = mul h a b := by
  obtain ⟨h', c, h1, h2, -, -, h5⟩ := C35_mul hw hb ha
  exact ⟨⟨h', c, h1, h2, h5⟩, rfl⟩

theorem powLoop_ok {h0 : Heap P} {a : Nat} (ha : a < h0.length) (n : Nat) {h : Heap P} (hp : h0 <+: h) (hw : Wf h)
    {o : Nat} (ho : o < h.length) :
    ∃ h' c, powLoop a n h o = .ok (h', c) ∧ h <+: h' ∧ Wf h' ∧ c < h'.length ∧
      call h' c = after (call h o) (times (call h0 a) n) := by
  induction n generalizing h o with
  | zero =>
    refine ⟨h, o, rfl, List.prefix_refl _, hw, ho, ?_⟩
    rfl
  | succ n ih =>
    obtain ⟨h1, c1, e1, p1, w1, l1, d1⟩ := C35_mul hw ho (Nat.lt_of_lt_of_le ha hp.length_le)
    obtain ⟨h2, c2, e2, p2, w2, l2, d2⟩ := ih (hp.trans p1) w1 l1
    refine ⟨h2, c2, ?_, p1.trans p2, w2, l2, ?_⟩
    · simp only [powLoop, e1, bind, Except.bind, e2]
    · rw [d2, d1]
      have h5 : call h a = call h0 a := funext fun p => call_prefix hp a ha p
      rw [h5, after_assoc]; rfl

/-- C35, powers: `f ** n` for a non-negative integer applies `f` exactly `n` times (so `f ** 0` is the identity),
for a negative one raises `ValueError`, for a non-integer `TypeError`; existing objects are left as they were. -/
theorem C35_pow {h : Heap P} (hw : Wf h) {a : Nat} (ha : a < h.length) :
    (∀ n : Nat, ∃ h' c, pow h a (.int n) = .ok (h', c) ∧ h <+: h' ∧ Wf h' ∧ c < h'.length ∧
      call h' c = times (call h a) n) ∧
    (∀ n : Int, n < 0 → pow h a (.int n) = .error .valueError) ∧
    pow h a .other = .error .typeError := by
  refine ⟨?_, ?_, rfl⟩
  · intro n
    have hw1 : Wf (alloc h (idObj : Obj P)).1 := wf_alloc hw (by simp [idObj])
    by_cases hn : n = 0
    · subst hn
      refine ⟨_, _, by simp [pow]; rfl, alloc_prefix _ _, hw1, by simp [alloc], ?_⟩
      funext p
      exact call_alloc_none (h := h) (o := idObj) rfl p
    · obtain ⟨h', c, e1, p1, w1, l1, d1⟩ := powLoop_ok ha n (alloc_prefix h idObj) hw1
        (o := (alloc h (idObj : Obj P)).2) (by simp [alloc])
      refine ⟨h', c, ?_, (alloc_prefix _ _).trans p1, w1, l1, ?_⟩
      · simp only [pow]
        rw [if_neg (by omega), if_neg (by omega)]
        exact e1
      · rw [d1]
        funext p
        simp only [after]
        have : call (alloc h (idObj : Obj P)).1 (alloc h (idObj : Obj P)).2 = .ok := by
          funext q; rw [call_alloc_none rfl]; rfl
        rw [this]
        cases times (call h a) n p <;> rfl
  · intro n hn
    simp [pow, hn]

theorem times_add (f : P → Py P) (m n : Nat) : times f (m + n) = after (times f m) (times f n) := by
  induction m with
  | zero => simp only [times, ok_after, Nat.zero_add]
  | succ m ih => rw [Nat.succ_add]; simp only [times, ih, after_assoc]

/-- C35, exponent law: `f ** (m+n)` does what `f ** m * f ** n` does. -/
theorem C35_pow_add {h : Heap P} (hw : Wf h) {a : Nat} (ha : a < h.length) (m n : Nat) :
    ∃ h1 x h2 y h3 z h4 w, pow h a (.int (m + n : Nat)) = .ok (h1, x) ∧ pow h a (.int m) = .ok (h2, y) ∧
      pow h2 a (.int n) = .ok (h3, z) ∧ mul h3 y z = .ok (h4, w) ∧ call h1 x = call h4 w := by
  obtain ⟨h1, x, e1, p1, w1, l1, d1⟩ := (C35_pow hw ha).1 (m + n)
  obtain ⟨h2, y, e2, p2, w2, l2, d2⟩ := (C35_pow hw ha).1 m
  obtain ⟨h3, z, e3, p3, w3, l3, d3⟩ := (C35_pow w2 (Nat.lt_of_lt_of_le ha p2.length_le)).1 n
  obtain ⟨h4, w, e4, p4, w4, l4, d4⟩ := C35_mul w3 (Nat.lt_of_lt_of_le l2 p3.length_le) l3
  refine ⟨h1, x, h2, y, h3, z, h4, w, e1, e2, e3, e4, ?_⟩
  have h5 : call h3 y = call h2 y := funext fun p => call_prefix p3 y l2 p
  have h6 : call h2 a = call h a := funext fun p => call_prefix p2 a ha p
  rw [d1, d4, h5, d2, d3, h6, times_add]

/-- C35, display: the text of a product is the texts of its factors joined by `" . "`. -/
theorem C35_repr {h : Heap P} (hw : Wf h) {a b : Nat} (ha : a < h.length) (hb : b < h.length) :
    ∃ h' c s t, mul h a b = .ok (h', c) ∧ repr h a = .ok s ∧ repr h b = .ok t ∧ repr h' c = .ok (s ++ " . " ++ t) := by
  obtain ⟨h', c, h1, -, -, -, -, s, t, h2, h3, h4⟩ := mul_ok hw ha hb
  exact ⟨h', c, s, t, h1, h2, h3, h4⟩

/-! ### A concrete heap: the identity, `+1`, and a transformation that raises on `5` and doubles otherwise -/

/-- Three functor objects, as after `GenericFunctor()`, `F()`, `G()`. -/
def exHeap : Heap Nat :=
  [idObj, ⟨"F", fun n => .ok (n + 1), none⟩, ⟨"G", fun n => if n = 5 then .error .valueError else .ok (2 * n), none⟩]

theorem exHeap_wf : Wf exHeap := by
  intro a o r h hr
  match a with
  | 0 | 1 | 2 => simp [exHeap, idObj] at h; subst h; cases hr
  | a + 3 => simp [exHeap] at h

example := C35_mul exHeap_wf (a := 1) (b := 2) (by decide) (by decide)
example := C35_assoc exHeap_wf (a := 1) (b := 2) (c := 1) (by decide) (by decide) (by decide)
example := (C35_pow exHeap_wf (a := 1) (by decide)).1 7
example := C35_repr exHeap_wf (a := 1) (b := 2) (by decide) (by decide)
example : after (call exHeap 1) (call exHeap 2) 3 = .ok 7 := by
  have h2 : call exHeap 2 3 = .ok 6 := by rw [call]; rfl
  have h1 : call exHeap 1 6 = .ok 7 := by rw [call]; rfl
  simp only [after, h2]
  exact h1

end Beluga.Fun
