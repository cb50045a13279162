import Verif.Cost.Model
import Mathlib.Algebra.Group.Int.Defs
import Mathlib.Algebra.Group.Prod
import Mathlib.Algebra.Group.TypeTags.Basic
import Mathlib.Data.List.Induction

/-! # Units of the cost (C66) -/

namespace Beluga.CostUnits

/-! ### Specification -/

/-- The parts of a cost. -/
inductive Part where
  | initial | path | terminal
  deriving DecidableEq

/-- The unit that the user declared last for a part. -/
def declared {E G : Type} (part : Part) : List (Decl E G) → Option G
  | [] => none
  | d :: ds =>
    match declared part ds with
    | some u => some u
    | none =>
      match part, d with
      | .initial, .initialCost _ u => some u
      | .path, .pathCost _ u => some u
      | .terminal, .terminalCost _ u => some u
      | _, _ => none

/-- The problem after a script. -/
def script {E G : Type} (zero : E) (ds : List (Decl E G)) : Prob E G := ds.foldl Decl.run (.new zero)

/-- A declaration other than `set_cost`. -/
def Decl.single {E G : Type} : Decl E G → Bool
  | .setCost .. => false
  | _ => true

/-- Unit `u` of a part, as a unit of a boundary cost. -/
def total {G : Type} [Mul G] (ind : G) (part : Part) (u : G) : G := match part with
  | .path => u * ind
  | _ => u

/-- What a declaration says about a part: `some none` is Python's `None`. -/
def assigns {E G : Type} (part : Part) : Decl E G → Option (Option E)
  | .initialCost e _ => if part = .initial then some (some e) else none
  | .pathCost e _ => if part = .path then some (some e) else none
  | .terminalCost e _ => if part = .terminal then some (some e) else none
  | .setCost i m t _ => some (match part with | .initial => i | .path => m | .terminal => t)

/-- The expression declared last for a part. -/
def latest {E G : Type} (zero : E) (part : Part) (ds : List (Decl E G)) : Option E :=
  (ds.reverse.findSome? (assigns part)).getD (some zero)

/-! ### Lemmas -/

variable {E G : Type} [CommGroup G] [DecidableEq G]

omit [CommGroup G] [DecidableEq G] in
theorem declared_append (part : Part) (l : List (Decl E G)) (d : Decl E G) :
    declared part (l ++ [d]) = (match declared part [d] with | some u => some u | none => declared part l) := by
  induction l with
  | nil =>
    simp only [List.nil_append]
    cases declared part [d] <;> rfl
  | cons a l ih =>
    have h1 : declared part (a :: (l ++ [d])) = (match declared part (l ++ [d]) with
        | some u => some u | none => declared part [a]) := rfl
    have h2 : declared part (a :: l) = (match declared part l with
        | some u => some u | none => declared part [a]) := rfl
    rw [List.cons_append, h1, ih, h2]
    cases declared part [d] <;> rfl

omit [CommGroup G] [DecidableEq G] in
theorem script_snoc (zero : E) (l : List (Decl E G)) (d : Decl E G) : script zero (l ++ [d]) = Decl.run (script zero l) d := by
  rw [script, List.foldl_append]
  rfl

omit [CommGroup G] [DecidableEq G] in
/-- The units after a script, and that no part is missing. -/
theorem script_units (zero : E) (l : List (Decl E G)) (hl : ∀ d ∈ l, d.single = true) :
    (script zero l).cost.pathUnits = declared .path l ∧
    ((script zero l).cost.units = declared .initial l ∨ (script zero l).cost.units = declared .terminal l) ∧
    ((script zero l).cost.units = none → declared .initial l = none ∧ declared .terminal l = none) ∧
    (script zero l).cost.initial.isSome ∧ (script zero l).cost.path.isSome ∧ (script zero l).cost.terminal.isSome := by
  induction l using List.reverseRecOn with
  | nil => exact ⟨rfl, Or.inl rfl, fun _ => ⟨rfl, rfl⟩, rfl, rfl, rfl⟩
  | append_singleton l d ih =>
    obtain ⟨h1, h2, h3, h4, h5, h6⟩ := ih fun d hd => hl d (by simp [hd])
    have hd := hl d (by simp)
    simp only [declared_append, script_snoc]
    cases d with
    | initialCost e u => exact ⟨h1, Or.inl rfl, by rintro ⟨⟩, rfl, h5, h6⟩
    | pathCost e u => exact ⟨rfl, h2, h3, h4, rfl, h6⟩
    | terminalCost e u => exact ⟨h1, Or.inr rfl, by rintro ⟨⟩, h4, h5, rfl⟩
    | setCost i m t u => simp [Decl.single] at hd

/-! ### Properties -/

/-- If the check passes, the multipliers, the Hamiltonian and the costates get the units that follow from every declared
unit, for scripts in which the initial and the terminal cost have the same unit.  Missing from the full property:
different units of the boundary costs are not detected (`C66_violated`), `set_cost` (`C66_violated_set_cost`). -/
theorem C66_consistent_partial (zero : E) (ds : List (Decl E G)) (hs : ∀ d ∈ ds, d.single = true) (ind : G)
    (hb : ∀ u v, declared .initial ds = some u → declared .terminal ds = some v → u = v) {p : Prob E G}
    (hp : (script zero ds).sympify ind = (p, none)) (part : Part) (u : G) (hu : declared part ds = some u)
    (nu0 nuf x : List G) :
    dualUnits nu0 nuf x ind p = .ok (nu0.map (total ind part u / ·), nuf.map (total ind part u / ·),
      total ind part u / ind, x.map (total ind part u / ·)) := by
  obtain ⟨h1, h2, h3, h4, h5, h6⟩ := script_units zero ds hs
  have key : p.cost.units = some (total ind part u) ∧ p.cost.initial = (script zero ds).cost.initial ∧
      p.cost.path = (script zero ds).cost.path ∧ p.cost.terminal = (script zero ds).cost.terminal ∧ p.sympified = true := by
    simp only [Prob.sympify, Cost.check] at hp
    cases hcu : (script zero ds).cost.units with
    | none =>
      obtain ⟨n1, n2⟩ := h3 hcu
      cases part with
      | initial => rw [n1] at hu; cases hu
      | terminal => rw [n2] at hu; cases hu
      | path =>
        rw [hu] at h1
        rw [hcu, h1] at hp
        cases hp
        exact ⟨rfl, rfl, rfl, rfl, rfl⟩
    | some v =>
      have hv : ∀ w, part ≠ .path → declared part ds = some w → w = v := by
        intro w hne hw
        rw [hcu] at h2
        cases part with
        | path => exact absurd rfl hne
        | initial =>
          rcases h2 with h2 | h2
          · rw [← h2] at hw; cases hw; rfl
          · exact hb w v hw h2.symm
        | terminal =>
          rcases h2 with h2 | h2
          · exact (hb v w h2.symm hw).symm
          · rw [← h2] at hw; cases hw; rfl
      cases hcm : (script zero ds).cost.pathUnits with
      | none =>
        rw [hcu, hcm] at hp
        cases hp
        rw [hcm] at h1
        cases part with
        | path => rw [← h1] at hu; cases hu
        | initial => exact ⟨by rw [hv u (by decide) hu]; rfl, rfl, rfl, rfl, rfl⟩
        | terminal => exact ⟨by rw [hv u (by decide) hu]; rfl, rfl, rfl, rfl, rfl⟩
      | some m =>
        rw [hcu, hcm] at hp
        simp only at hp
        split at hp
        · cases hp
        · next hc =>
          rw [not_not] at hc
          cases hp
          rw [hcm] at h1
          cases part with
          | path =>
            rw [← h1] at hu
            cases hu
            exact ⟨by rw [total, ← hc]; exact hcu, rfl, rfl, rfl, rfl⟩
          | initial => exact ⟨by rw [hv u (by decide) hu]; exact hcu, rfl, rfl, rfl, rfl⟩
          | terminal => exact ⟨by rw [hv u (by decide) hu]; exact hcu, rfl, rfl, rfl, rfl⟩
  obtain ⟨k1, k2, k3, k4, k5⟩ := key
  rw [← k2] at h4
  rw [← k3] at h5
  rw [← k4] at h6
  rw [dualUnits, k5, k1]
  simp [Option.isSome_iff_ne_none.1 h4, Option.isSome_iff_ne_none.1 h5, Option.isSome_iff_ne_none.1 h6]

/-- Likewise the path cost has the declared unit over that of the independent variable. -/
theorem C66_path_units (zero : E) (ds : List (Decl E G)) (hs : ∀ d ∈ ds, d.single = true) (ind : G)
    (hb : ∀ u v, declared .initial ds = some u → declared .terminal ds = some v → u = v) {p : Prob E G}
    (hp : (script zero ds).sympify ind = (p, none)) (part : Part) (u : G) (hu : declared part ds = some u) :
    p.cost.pathUnits = some (total ind part u / ind) := by
  obtain ⟨h1, h2, h3, -⟩ := script_units zero ds hs
  simp only [Prob.sympify, Cost.check] at hp
  cases hcu : (script zero ds).cost.units with
  | none =>
    obtain ⟨n1, n2⟩ := h3 hcu
    cases part with
    | initial => rw [n1] at hu; cases hu
    | terminal => rw [n2] at hu; cases hu
    | path =>
      rw [hu] at h1
      rw [hcu, h1] at hp
      cases hp
      simp [total]
  | some v =>
    have hv : part ≠ .path → u = v := by
      intro hne
      rw [hcu] at h2
      cases part with
      | path => exact absurd rfl hne
      | initial =>
        rcases h2 with h2 | h2
        · rw [← h2] at hu; cases hu; rfl
        · exact hb u v hu h2.symm
      | terminal =>
        rcases h2 with h2 | h2
        · exact (hb v u h2.symm hu).symm
        · rw [← h2] at hu; cases hu; rfl
    cases hcm : (script zero ds).cost.pathUnits with
    | none =>
      rw [hcu, hcm] at hp
      cases hp
      rw [hcm] at h1
      cases part with
      | path => rw [← h1] at hu; cases hu
      | initial => simp [hv (by decide), total]
      | terminal => simp [hv (by decide), total]
    | some m =>
      rw [hcu, hcm] at hp
      simp only at hp
      split at hp
      · cases hp
      · next hc =>
        rw [not_not] at hc
        cases hp
        rw [hcm] at h1
        cases part with
        | path =>
          rw [← h1] at hu
          cases hu
          simp [hcm, total]
        | initial => simp [hcm, hv (by decide), total, hc]
        | terminal => simp [hcm, hv (by decide), total, hc]

/-- Every part of the cost is the one declared last, before and after the check. -/
theorem C66_kept (zero : E) (ds : List (Decl E G)) (ind : G) :
    let c := ((script zero ds).sympify ind).1.cost
    c.initial = latest zero .initial ds ∧ c.path = latest zero .path ds ∧ c.terminal = latest zero .terminal ds := by
  have key : (script zero ds).cost.initial = latest zero .initial ds ∧ (script zero ds).cost.path = latest zero .path ds ∧
      (script zero ds).cost.terminal = latest zero .terminal ds := by
    induction ds using List.reverseRecOn with
    | nil => exact ⟨rfl, rfl, rfl⟩
    | append_singleton l d ih =>
      obtain ⟨h1, h2, h3⟩ := ih
      simp only [script_snoc, latest, List.reverse_append, List.reverse_cons, List.reverse_nil, List.nil_append,
        List.cons_append, List.findSome?_cons] at h1 h2 h3 ⊢
      cases d <;> simp [assigns, Decl.run, h1, h2, h3]
  have hc : ∀ c : Cost E G, (c.check ind).1.initial = c.initial ∧ (c.check ind).1.path = c.path ∧
      (c.check ind).1.terminal = c.terminal := by
    intro c
    rw [Cost.check]
    split
    · exact ⟨rfl, rfl, rfl⟩
    · exact ⟨rfl, rfl, rfl⟩
    · exact ⟨rfl, rfl, rfl⟩
    · split <;> exact ⟨rfl, rfl, rfl⟩
  obtain ⟨k1, k2, k3⟩ := hc (script zero ds).cost
  exact ⟨k1.trans key.1, k2.trans key.2.1, k3.trans key.2.2⟩

/-- A path cost that does not fit the boundary cost is reported. -/
theorem C66_reported (zero : E) (ds : List (Decl E G)) (hs : ∀ d ∈ ds, d.single = true) (ind m u : G)
    (hm : declared .path ds = some m) (hu : ∀ part, part ≠ .path → ∀ v, declared part ds = some v → v = u)
    (hex : declared .initial ds ≠ none ∨ declared .terminal ds ≠ none) (hne : u ≠ m * ind) :
    ((script zero ds).sympify ind).2 = some .runtimeWarning := by
  obtain ⟨h1, h2, h3, -⟩ := script_units zero ds hs
  cases hcu : (script zero ds).cost.units with
  | none =>
    obtain ⟨n1, n2⟩ := h3 hcu
    rcases hex with h | h
    · exact absurd n1 h
    · exact absurd n2 h
  | some v =>
    have hv : v = u := by
      rcases h2 with h2 | h2
      · exact hu .initial (by decide) v (by rw [← h2, hcu])
      · exact hu .terminal (by decide) v (by rw [← h2, hcu])
    rw [hm] at h1
    simp only [Prob.sympify, Cost.check, hcu, h1]
    rw [hv, if_pos hne]

/-- Violation: different units of the initial and the terminal cost pass the check, whatever they are; the later
declaration wins. -/
theorem C66_violated (zero a b c : E) (u v ind : G) :
    ∃ p, (script zero [.initialCost a u, .pathCost b (v / ind), .terminalCost c v]).sympify ind = (p, none) ∧
      p.cost.units = some v ∧ p.cost.initial = some a := by
  refine ⟨⟨⟨some a, some b, some c, some v, some (v / ind)⟩, true⟩, ?_, rfl, rfl⟩
  simp [script, Prob.sympify, Cost.check, Decl.run, Prob.new]

/-- Violation: a mismatch is reported only once.  The check changes the declared unit before it raises, and the problem
counts as sympified, so that it can be used as if nothing had happened. -/
theorem C66_violated_retry (p : Prob E G) (ind u m : G) (hu : p.cost.units = some u) (hm : p.cost.pathUnits = some m)
    (hne : u ≠ m * ind) : ∃ p', p.sympify ind = (p', some .runtimeWarning) ∧ p'.sympified = true ∧ p'.sympify ind = (p', none) := by
  refine ⟨{ cost := { p.cost with pathUnits := some (u / ind) }, sympified := true }, ?_, rfl, ?_⟩
  · simp only [Prob.sympify, Cost.check, hu, hm, if_pos hne]
  · simp [Prob.sympify, Cost.check, hu]

/-- Violation: a problem whose cost is set by `set_cost` with a part left out passes the check and cannot be dualised,
whatever the units. -/
theorem C66_violated_set_cost (p : Prob E G) (i m t : Option E) (u : Option G) (h : i = none ∨ m = none ∨ t = none)
    (ind : G) (nu0 nuf x : List G) (hx : x ≠ []) :
    ∃ q e, (Decl.run p (.setCost i m t u)).sympify ind = (q, none) ∧ dualUnits nu0 nuf x ind q = .error e := by
  cases u with
  | none => exact ⟨_, _, rfl, rfl⟩
  | some u =>
    refine ⟨⟨⟨i, m, t, some u, some (u / ind)⟩, true⟩, ?_⟩
    have : ∃ e, dualUnits nu0 nuf x ind ⟨⟨i, m, t, some u, some (u / ind)⟩, true⟩ = .error e := by
      simp only [dualUnits]
      rcases h with rfl | rfl | rfl
      · simp only [Option.isNone_none, hx, ne_eq, not_false_eq_true, and_true, if_true]
        split_ifs <;> exact ⟨_, rfl⟩
      · simp only [Option.isNone_none, if_true]
        split_ifs <;> exact ⟨_, rfl⟩
      · simp only [Option.isNone_none, if_true]
        split_ifs <;> exact ⟨_, rfl⟩
    obtain ⟨e, he⟩ := this
    exact ⟨e, rfl, he⟩

/-- Violation: a problem without a cost cannot be dualised. -/
theorem C66_violated_no_cost (zero : E) (ind : G) (nu0 nuf x : List G) :
    ∃ q, (script zero ([] : List (Decl E G))).sympify ind = (q, none) ∧ dualUnits nu0 nuf x ind q = .error .typeError :=
  ⟨_, rfl, rfl⟩

/-- Units of metres and seconds, as exponents. -/
def ms (m s : Int) : Multiplicative (Int × Int) := .ofAdd (m, s)

/-- A path cost in m/s, a terminal cost in m, time in s. -/
def demo : List (Decl Nat (Multiplicative (Int × Int))) := [.pathCost 1 (ms 1 (-1)), .terminalCost 2 (ms 1 0)]

example : ((script 0 demo).sympify (ms 0 1)).2 = none ∧ dualUnits [ms 1 0] [] [ms 1 0, ms 0 1] (ms 0 1) ((script 0 demo).sympify (ms 0 1)).1 =
    .ok ([ms 0 0], [], ms 1 (-1), [ms 0 0, ms 1 (-1)]) := by
  constructor
  · decide
  · have := C66_consistent_partial 0 demo (by decide) (ms 0 1) (by rintro u v ⟨⟩) (p := ((script 0 demo).sympify (ms 0 1)).1)
      rfl .terminal (ms 1 0) rfl [ms 1 0] [] [ms 1 0, ms 0 1]
    exact this

example : ((script 0 demo).sympify (ms 0 1)).1.cost.path = some 1 ∧ ((script 0 demo).sympify (ms 0 1)).1.cost.pathUnits = some (ms 1 (-1)) := by
  refine ⟨(C66_kept 0 demo _).2.1, ?_⟩
  exact C66_path_units 0 demo (by decide) (ms 0 1) (by rintro u v ⟨⟩) rfl .terminal (ms 1 0) rfl

/-- The same path cost with a terminal cost in seconds is reported. -/
example : ((script 0 [.pathCost 1 (ms 1 (-1)), Decl.terminalCost 2 (ms 0 1)]).sympify (ms 0 1)).2 = some .runtimeWarning := by decide

end Beluga.CostUnits
