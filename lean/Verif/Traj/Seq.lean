import Verif.Traj.Props

/-!
# A trajectory as a sequence

`Trajectory.__getitem__` and `Trajectory.__len__` (numeric/data_classes/Trajectory.py:170-193), for integer indices.
-/

namespace Beluga.Traj

variable {K : Type}

/-- `a[i]` on the first axis of a NumPy array: negative indices count from the end, others out of range raise `IndexError`
(Trajectory.py:175-185). -/
def npItem {β : Type} (l : List β) (i : Int) : Py β :=
  let k := if i < 0 then (l.length : Int) + i else i
  if k < 0 then .error .indexError
  else match l[k.toNat]? with
    | some x => .ok x
    | none => .error .indexError

/-- One of the blocks `if len(self.y) > 0: y_val = self.y[item]` (Trajectory.py:178-185); a number is a list with one entry. -/
def itemOf (a : Arr K) (i : Int) : Py (List K) :=
  match a with
  | .vec l => if 0 < l.length then do .ok [← npItem l i] else .ok []
  | .mat _ rows => if 0 < rows.length then npItem rows i else .ok []

/-- `Trajectory.__getitem__` (Trajectory.py:170-187). -/
def getItem (g : Curve K) (i : Int) : Py (List K × List K × List K × List K) := do
  let t ← itemOf (.vec g.t) i
  let y ← itemOf g.y i
  let q ← itemOf g.q i
  let u ← itemOf g.u i
  .ok (t, y, q, u)

/-- `Trajectory.__len__` (Trajectory.py:189-193); `t` is never `None` in a trajectory that the code makes. -/
def lengthOf (g : Curve K) : Nat := g.t.length

/-! ### Specification -/

/-- The point with number `k`. -/
def pointAt (g : Curve K) (k : Nat) : List K × List K × List K × List K :=
  ((g.t[k]?).toList, rowAt g.y k, rowAt g.q k, rowAt g.u k)

/-- What `for point in trajectory` does: the class has no `__iter__`, so Python asks for the items 0, 1, 2, … until
`IndexError`.  The loop visits `pts` and ends. -/
def Loops (g : Curve K) (pts : List (List K × List K × List K × List K)) : Prop :=
  (∀ k, (h : k < pts.length) → getItem g k = .ok pts[k]) ∧ getItem g pts.length = .error .indexError

/-! ### Lemmas -/

theorem npItem_nonneg {β : Type} {l : List β} {k : Nat} (h : k < l.length) : npItem l k = .ok l[k] := by
  have h1 : ¬ ((k : Int) < 0) := by omega
  simp [npItem, h1, h]

theorem npItem_neg {β : Type} {l : List β} {k : Nat} (h : k < l.length) : npItem l ((k : Int) - l.length) = .ok l[k] := by
  have h1 : ((k : Int) - l.length) < 0 := by omega
  have h2 : (l.length : Int) + ((k : Int) - l.length) = k := by omega
  have h3 : ¬ ((k : Int) < 0) := by omega
  simp only [npItem, h1, if_true, h2, h3, if_false, Int.toNat_natCast, List.getElem?_eq_getElem h]

theorem npItem_out {β : Type} {l : List β} {i : Int} (h : i < -(l.length : Int) ∨ (l.length : Int) ≤ i) :
    npItem l i = .error .indexError := by
  rcases h with h | h
  · have h1 : i < 0 := by omega
    have h2 : (l.length : Int) + i < 0 := by omega
    simp only [npItem, h1, if_true, h2]
  · have h1 : ¬ i < 0 := by omega
    have h2 : l.length ≤ i.toNat := by omega
    simp only [npItem, h1, if_false, List.getElem?_eq_none h2]

/-- An index that NumPy accepts for `n` entries stands for `k`. -/
def Stands (n : Nat) (i : Int) (k : Nat) : Prop := k < n ∧ (i = k ∨ i = (k : Int) - n)

theorem npItem_ok {β : Type} {l : List β} {n : Nat} (hl : l.length = n) {i : Int} {k : Nat} (h : Stands n i k) :
    ∃ hk : k < l.length, npItem l i = .ok l[k] := by
  subst hl
  refine ⟨h.1, ?_⟩
  rcases h.2 with rfl | rfl
  · exact npItem_nonneg h.1
  · exact npItem_neg h.1

theorem itemOf_ok {a : Arr K} {n : Nat} (ha : FitsOrEmpty n a) {i : Int} {k : Nat} (h : Stands n i k) :
    itemOf a i = .ok (rowAt a k) := by
  rcases ha with rfl | ha
  · rfl
  · cases a with
    | vec l =>
      obtain ⟨hk, e⟩ := npItem_ok (l := l) ha h
      have : 0 < l.length := by omega
      simp only [itemOf, this, if_true, e, rowAt, List.getElem?_eq_getElem hk]
      rfl
    | mat c rows =>
      obtain ⟨hk, e⟩ := npItem_ok (l := rows) ha.1 h
      have : 0 < rows.length := by omega
      simp only [itemOf, this, if_true, e, rowAt]
      rw [List.getD_eq_getElem?_getD, List.getElem?_eq_getElem hk]
      rfl

/-- An array without rows: `np.array([])` or one of shape `(0, c)`. -/
def NoRows (a : Arr K) : Prop := a = .vec [] ∨ ∃ c, a = .mat c []

theorem itemOf_norows {a : Arr K} (ha : NoRows a) (i : Int) (k : Nat) : itemOf a i = .ok (rowAt a k) := by
  rcases ha with rfl | ⟨c, rfl⟩ <;> simp [itemOf, rowAt]

/-! ### C84 -/

variable {g : Curve K}

/-- C84.  An index that is valid for the length gives the point with that number, counted from the end if it is negative:
time, states, quadratures and controls belong together. -/
theorem C84_item (hy : FitsOrEmpty g.t.length g.y ∨ NoRows g.y) (hq : FitsOrEmpty g.t.length g.q ∨ NoRows g.q)
    (hu : FitsOrEmpty g.t.length g.u ∨ NoRows g.u) {i : Int} {k : Nat} (h : Stands (lengthOf g) i k) :
    getItem g i = .ok (pointAt g k) := by
  have key : ∀ {a : Arr K}, FitsOrEmpty g.t.length a ∨ NoRows a → itemOf a i = .ok (rowAt a k) := fun ha =>
    ha.elim (fun h' => itemOf_ok h' h) fun h' => itemOf_norows h' i k
  have ht : itemOf (.vec g.t) i = .ok (rowAt (.vec g.t) k) := key (Or.inl (Or.inr rfl))
  rw [getItem, ht, key hy, key hq, key hu]
  rfl

/-- C84.  Every other index raises `IndexError`, unless the trajectory is empty. -/
theorem C84_range (hpos : 0 < lengthOf g) {i : Int} (h : i < -(lengthOf g : Int) ∨ (lengthOf g : Int) ≤ i) :
    getItem g i = .error .indexError := by
  have hpos : 0 < g.t.length := hpos
  have : itemOf (.vec g.t) i = .error .indexError := by
    simp only [itemOf, hpos, if_true]
    rw [npItem_out h]
    rfl
  rw [getItem, this]
  rfl

/-- C84.  A loop over a trajectory that is not empty visits its points once each, in order, and ends. -/
theorem C84_loop (hpos : 0 < lengthOf g) (hy : FitsOrEmpty g.t.length g.y ∨ NoRows g.y) (hq : FitsOrEmpty g.t.length g.q ∨ NoRows g.q)
    (hu : FitsOrEmpty g.t.length g.u ∨ NoRows g.u) (pts : List (List K × List K × List K × List K)) :
    Loops g pts ↔ pts = (List.range (lengthOf g)).map (pointAt g) := by
  have hin : ∀ k < lengthOf g, getItem g k = .ok (pointAt g k) := fun k hk => C84_item hy hq hu ⟨hk, Or.inl rfl⟩
  have hout : getItem g (lengthOf g) = .error .indexError := C84_range hpos (Or.inr (le_refl _))
  constructor
  · intro ⟨h1, h2⟩
    have hlen : pts.length = lengthOf g := by
      rcases Nat.lt_trichotomy pts.length (lengthOf g) with hlt | he | hgt
      · rw [hin _ hlt] at h2; cases h2
      · exact he
      · rw [h1 _ hgt] at hout; cases hout
    refine List.ext_getElem (by simpa using hlen) fun k hk _ => ?_
    have := (h1 k hk).symm.trans (hin k (hlen ▸ hk))
    simpa using Except.ok.inj this
  · rintro rfl
    refine ⟨fun k hk => ?_, ?_⟩
    · have hk : k < lengthOf g := by simpa using hk
      rw [hin k hk]
      simp
    · simpa using hout

example : Loops exCurve [([2], [5, 6], [], [7]), ([0], [1, 2], [], [9]), ([1], [3, 8], [], [8])] :=
  (C84_loop (by decide) (Or.inl (Or.inr (by simp [Fits, exCurve]))) (Or.inr (Or.inl rfl)) (Or.inl (Or.inr (by simp [Fits, exCurve]))) _).2 rfl

example : getItem exCurve (-1) = .ok ([1], [3, 8], [], [8]) := by decide +kernel

/-- C84 is violated by an empty trajectory: its length is 0, but every index is accepted, and a loop over it never ends. -/
theorem C84_violated : ∃ g : Curve K, lengthOf g = 0 ∧ (∀ i, getItem g i = .ok ([], [], [], [])) ∧ ∀ pts, ¬ Loops g pts := by
  have h : ∀ i, getItem (⟨[], .vec [], .vec [], .vec []⟩ : Curve K) i = .ok ([], [], [], []) := fun i => rfl
  refine ⟨_, rfl, h, fun pts hp => ?_⟩
  rw [Loops, h] at hp
  cases hp.2

/-- C84, with C39.  For distinct times, the point with number `k` is the value of the trajectory at the time with number `k`. -/
theorem C84_call [Field K] [LinearOrder K] [IsStrictOrderedRing K] (hnd : g.t.Nodup) (hy : Fits g.t.length g.y)
    (hq : FitsOrEmpty g.t.length g.q) (hu : FitsOrEmpty g.t.length g.u) {i : Int} {k : Nat} (h : Stands (lengthOf g) i k) :
    ∃ t y q u, getItem g i = .ok ([t], y, q, u) ∧ call g t = .ok (y, q, u) := by
  have hk : k < g.t.length := h.1
  refine ⟨g.t[k], rowAt g.y k, rowAt g.q k, rowAt g.u k, ?_, ?_⟩
  · rw [C84_item (Or.inl (Or.inr hy)) (Or.inl hq) (Or.inl hu) h, pointAt, List.getElem?_eq_getElem hk]
    rfl
  · have := C39_stamp hnd hy hq hu hk
    rwa [getD_eq hk] at this

example : ∃ t y q u, getItem exCurve 2 = .ok ([t], y, q, u) ∧ call exCurve t = .ok (y, q, u) :=
  ⟨1, [3, 8], [], [8], by decide +kernel, by decide +kernel⟩

end Beluga.Traj
