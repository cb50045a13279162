import Verif.Guess.Layout
import Verif.Guess.Match

/-!
# C49 and C61: what the guess generator makes of the user's settings, and whether it can be used again
-/

set_option linter.unusedSectionVars false

namespace Beluga.Guess

open Beluga.Map

variable {K : Type} [Field K] [LinearOrder K] [IsStrictOrderedRing K]

/-! ### Specification -/

/-- The signed duration the user asked for. -/
def asked (o : Opts K) : K := if o.direction = "forward" then |o.timeIntegrate| else -|o.timeIntegrate|

/-- The costate values the user asked for: one value for all states, or one per state. -/
def askedCostates (o : Opts K) (n : Nat) : List K :=
  match o.costateGuess with
  | .float x => List.replicate n x
  | .int x => List.replicate n x
  | .seq l => l

/-- `s` is the user's guess at `T` equally spaced times from zero to the signed duration: the same state, costates,
quadratures and controls at every time. -/
structure IsAsked (o : Opts K) (T : Nat) (x u : List K) (s0 s : Sol K) : Prop where
  time : s.t.length = T ∧ ∀ i : Nat, i < T → s.t[i]? = some ((i : K) / ((T - 1 : Nat) : K) * asked o)
  states : s.y = .rows x.length (List.replicate T x)
  costates : s.dual = .rows (askedCostates o x.length).length (List.replicate T (askedCostates o x.length))
  quads : s.q = .rows o.quadGuess.length (List.replicate T o.quadGuess)
  controls : s.u = .rows u.length (List.replicate T u)
  const : s.const = s0.const

/-! ### Setting up -/

/-- `guess_generator` with an accepted direction and duration stores the options. -/
theorem guessGenerator_timed {mode : Mode} (hm : mode = .auto ∨ mode = .ones) {o : Opts K} {si : Option (Sol K)} {g : Gen K}
    (h : guessGenerator mode o si = .ok g) :
    (o.direction = "forward" ∨ o.direction = "reverse") ∧ o.timeIntegrate ≠ 0 ∧ g = { (fresh : Gen K) with
      mode := mode, direction := o.direction, timeIntegrate := |o.timeIntegrate|, start := o.start,
      quadGuess := o.quadGuess, costateGuess := some o.costateGuess, paramGuess := o.paramGuess,
      controlGuess := some o.controlGuess, useControlGuess := o.useControlGuess } := by
  have hc : construct (K := K) .auto {} none = .ok fresh := by
    simp [construct, Gen.setup, Gen.setupTimed]
  rw [guessGenerator, hc] at h
  simp only at h
  have hs : (fresh : Gen K).setup mode o si = ({ (fresh : Gen K) with mode := mode }).setupTimed o := by
    rcases hm with rfl | rfl <;> rfl
  rw [hs, Gen.setupTimed] at h
  by_cases hd : o.direction = "forward" ∨ o.direction = "reverse"
  · rw [if_pos hd] at h
    by_cases ht : o.timeIntegrate = 0
    · simp only [if_pos ht, outcome] at h; cases h
    · simp only [if_neg ht, outcome] at h
      cases h
      exact ⟨hd, ht, rfl⟩
  · simp only [if_neg hd, outcome] at h; cases h

/-- **C49 (rejection).**  `guess_generator` raises `ValueError` exactly for an unknown mode, an unknown direction or a
zero duration; nothing else is checked. -/
theorem C49_rejects (mode : Mode) (o : Opts K) (si : Option (Sol K)) :
    guessGenerator mode o si = .error .valueError ↔
      (∃ s, mode = .other s) ∨ ((mode = .auto ∨ mode = .ones) ∧
        ((o.direction ≠ "forward" ∧ o.direction ≠ "reverse") ∨ o.timeIntegrate = 0)) := by
  have hc : construct (K := K) .auto {} none = .ok fresh := by
    simp [construct, Gen.setup, Gen.setupTimed]
  rw [guessGenerator, hc]
  have timed : ∀ g : Gen K, outcome (g.setupTimed o) = .error .valueError ↔ (o.direction ≠ "forward" ∧ o.direction ≠ "reverse") ∨ o.timeIntegrate = 0 := by
    intro g
    rw [Gen.setupTimed]
    by_cases hd : o.direction = "forward" ∨ o.direction = "reverse"
    · rw [if_pos hd]
      by_cases ht : o.timeIntegrate = 0
      · simp [ht, outcome]
      · simp only [if_neg ht, outcome, reduceCtorEq, false_iff, not_or, not_and, not_not]
        exact ⟨fun h1 => hd.resolve_left h1, ht⟩
    · rw [if_neg hd]
      push Not at hd
      simp [hd, outcome]
  cases mode with
  | auto => simpa [Gen.setup] using timed _
  | ones => simpa [Gen.setup] using timed _
  | static => simp [Gen.setup, outcome]
  | other s => simp [Gen.setup, outcome]

theorem linspace_four (d : K) : linspace 0 d 4 = (List.range 4).map fun i : Nat => (i : K) / 3 * d := by
  rw [linspace_eq]
  apply List.map_congr_left
  intro i _
  rw [zero_add, sub_zero]
  norm_num
  ring

/-- The user's guess as a trajectory. -/
def askedSol (o : Opts K) (T : Nat) (x u t : List K) (s0 : Sol K) : Sol K := { s0 with
  t := t
  y := .rows x.length (List.replicate T x)
  dual := .rows (askedCostates o x.length).length (List.replicate T (askedCostates o x.length))
  q := .rows o.quadGuess.length (List.replicate T o.quadGuess)
  u := .rows u.length (List.replicate T u)
  dyn := List.replicate s0.dyn.length 1
  nondyn := List.replicate s0.nondyn.length 1 }

theorem seed_spec {mode : Mode} (hm : mode = .auto ∨ mode = .ones) {o : Opts K} {si : Option (Sol K)} {g : Gen K}
    (h : guessGenerator mode o si = .ok g) {x u : List K} (hx : o.start = some x) (hu : o.controlGuess = .seq u ∨ ∃ v, o.controlGuess = .float v ∧ u = [])
    (T : Nat) (t : List K) (s0 : Sol K) : g.tf = asked o ∧
      g.seed T t s0 = .ok (askedSol o T x u t s0) := by
  obtain ⟨hd, -, rfl⟩ := guessGenerator_timed hm h
  refine ⟨?_, ?_⟩
  · simp only [Gen.tf, asked]
    rcases hd with hd | hd <;> simp [hd]
  · rcases hu with hu | ⟨v, hu, rfl⟩ <;>
      simp only [Gen.seed, hx, hu, Gen.controls, Gen.costateRow, askedSol, askedCostates, copies] <;>
      cases o.costateGuess <;> simp [fresh]

/-- **C49, 'ones'.**  For a generator set up with an initial state and a sequence of control values, and any mapping
`f` into the boundary value problem: the guess is `f` of a trajectory with four equally spaced times from zero to the
signed duration and the supplied values at every time.  (What is missing from the full claim, and false: the
parameter guess is used, see `C49_param_guess_ignored`; scalar control guesses are used, see
`C49_violated_float_control`.) -/
theorem C49_ones_partial {o : Opts K} {si : Option (Sol K)} {g : Gen K} (h : guessGenerator .ones o si = .ok g)
    {x u : List K} (hx : o.start = some x) (hu : o.controlGuess = .seq u) (prop : Propagate K)
    (f : Sol K → Py (Sol K)) (s0 : Sol K) :
    ∃ s, IsAsked o 4 x u s0 s ∧ g.generate prop f s0 = f s := by
  obtain ⟨htf, hseed⟩ := seed_spec (Or.inr rfl) h hx (Or.inl hu) 4 (linspace 0 g.tf 4) s0
  have hmode : g.mode = .ones := by obtain ⟨-, -, rfl⟩ := guessGenerator_timed (Or.inr rfl) h; rfl
  refine ⟨askedSol o 4 x u (linspace 0 g.tf 4) s0, ⟨⟨by simp [askedSol], ?_⟩, rfl, rfl, rfl, rfl, rfl⟩, ?_⟩
  · intro i hi
    simp only [askedSol, htf, linspace_four]
    simp [hi]
  · simp only [Gen.generate, hmode, Gen.ones, hseed, Py.ok_bind]

/-- **C49, 'auto'.**  For a generator set up with an initial state and a sequence of control values: with `s'` the
image of the user's two-point guess under the mapping, the equations are integrated over the times of `s'` from its
first point with its parameters and constants, and the guess is that solution with those parameters and constants. -/
theorem C49_auto_partial {o : Opts K} {si : Option (Sol K)} {g : Gen K} (h : guessGenerator .auto o si = .ok g)
    {x u : List K} (hx : o.start = some x) (hu : o.controlGuess = .seq u) (prop : Propagate K)
    (f : Sol K → Py (Sol K)) (s0 : Sol K) :
    ∃ s, IsAsked o 2 x u s0 s ∧ ∀ s' y0 q0 z, f s = .ok s' → s'.y.rowList[0]? = some y0 →
      s'.q.rowList[0]? = some q0 → prop s'.t y0 q0 s'.dyn s'.const = .ok z →
        g.generate prop f s0 = .ok { z with dyn := s'.dyn, nondyn := s'.nondyn, const := s'.const } := by
  obtain ⟨htf, hseed⟩ := seed_spec (Or.inl rfl) h hx (Or.inl hu) 2 [0, g.tf] s0
  have hmode : g.mode = .auto := by obtain ⟨-, -, rfl⟩ := guessGenerator_timed (Or.inl rfl) h; rfl
  refine ⟨askedSol o 2 x u [0, g.tf] s0, ⟨⟨rfl, ?_⟩, rfl, rfl, rfl, rfl, rfl⟩, ?_⟩
  · intro i hi
    have : i = 0 ∨ i = 1 := by omega
    rcases this with rfl | rfl <;> simp [htf, askedSol]
  · intro s' y0 q0 z h1 h2 h3 h4
    simp only [Gen.generate, hmode, Gen.auto, hseed, Py.ok_bind, h1, Py.get_ok.2 h2, Py.get_ok.2 h3, h4]

/-! ### Through the indirect method -/

/-- **C49, layout.**  Through the indirect method (`n` states, `m` differential controls, no user parameters) a guess
'ones' with one control value per control and one costate per state has, in every row, the supplied state, the time,
the supplied controls, the supplied costates and a zero for the costate of time; the only parameter is the signed
duration; the normalised time runs from zero to one; the multipliers are one. -/
theorem C49_layout_partial (O : TrigOps K) {o : Opts K} {si : Option (Sol K)} {g : Gen K}
    (h : guessGenerator .ones o si = .ok g) {x u : List K} (hx : o.start = some x) (hu : o.controlGuess = .seq u)
    (hco : ∀ l, o.costateGuess = .seq l → l.length = x.length) (k nu c d : Nat) (cc : Sol K → K) (prop : Propagate K)
    (s0 : Sol K) (h0 : s0.dyn = [] ∧ s0.nondyn = [] ∧ s0.dualT = []) :
    ∃ s, g.generate prop (mapSol O (indirectChain x.length u.length k nu 0 c d cc)) s0 = .ok s ∧
      s.y = .rows (x.length + 1 + u.length + (x.length + 1)) ((List.range 4).map fun i : Nat =>
        x ++ [(i : K) / 3 * asked o] ++ u ++ askedCostates o x.length ++ [0]) ∧
      s.t = (List.range 4).map (fun i : Nat => (i : K) / 3) ∧ s.dyn = [asked o] ∧ s.nondyn = List.replicate nu 1 ∧
      s.const = s0.const := by
  obtain ⟨htf, hseed⟩ := seed_spec (Or.inr rfl) h hx (Or.inl hu) 4 (linspace 0 g.tf 4) s0
  have hmode : g.mode = .ones := by obtain ⟨-, -, rfl⟩ := guessGenerator_timed (Or.inr rfl) h; rfl
  simp only [Gen.generate, hmode, Gen.ones, hseed, Py.ok_bind]
  have hask : asked o ≠ 0 := by
    have := (guessGenerator_timed (Or.inr rfl) h).2.1
    unfold asked
    split
    · simpa using this
    · simpa using this
  have lco : (askedCostates o x.length).length = x.length := by
    unfold askedCostates
    cases hcg : o.costateGuess with
    | float z => simp
    | int z => simp
    | seq l => exact hco l hcg
  have rep : ∀ (α : Type) (z : α), List.replicate 4 z = (List.range 4).map fun _ => z := fun α z => rfl
  have hlin : linspace 0 g.tf 4 = (List.range 4).map fun i : Nat => (i : K) / 3 * asked o := by rw [htf, linspace_four]
  rw [chain_tab O (T := 4) (m' := u.length) (a := x.length) (b := x.length) cc _ (fun _ => x) (fun _ => u)
    (fun _ => askedCostates o x.length) (fun i : Nat => (i : K) / 3 * asked o) (fun _ => 0) (by norm_num) (Nat.le_refl _)
    (Nat.le_refl _) (Nat.le_refl _) (by rw [← rep]; rfl) (fun _ => rfl) (by rw [← rep]; simp only [askedSol, lco]) (by rw [← rep]; rfl)
    (fun _ => rfl) hlin (by
      simp only [dualTOf, askedSol, h0.2.2, if_true, hlin, List.map_map]; rfl), if_pos (Nat.zero_le _)]
  refine ⟨_, rfl, ?_, ?_, ?_, ?_, rfl⟩
  · simp only
    congr 1
    apply List.map_congr_left
    intro i _
    rw [npInsert_end]
    have e1 := insRow_end u u.length (x ++ [(i : K) / 3 * asked o]) rfl
    rw [List.length_append, List.length_singleton] at e1
    rw [e1]
    have e2 := npInsert_end (askedCostates o x.length) (0 : K)
    rw [lco] at e2
    rw [e2]
    simp only [List.append_assoc]
  · apply List.map_congr_left
    intro i _
    have h3 : (3 : K) ≠ 0 := by norm_num
    push_cast
    field_simp
    ring
  · have h3 : (3 : K) ≠ 0 := by norm_num
    simp [askedSol, h0.1, npInsert, h3]
  · simp [askedSol, h0.2.1]

/-- **C49 (static).**  A generator set up with a trajectory maps that trajectory, whatever the trajectory made by `solve`
contains (its constants are not used either). -/
theorem C49_static {o : Opts K} {s : Sol K} {g : Gen K} (h : guessGenerator .static o (some s) = .ok g)
    (prop : Propagate K) (f : Sol K → Py (Sol K)) (s0 : Sol K) :
    g.generate prop f s0 = f s ∧ g.mode = .static ∧ g.solinit = some s := by
  have h' : guessGenerator .static o (some s) = .ok { (fresh : Gen K) with mode := .static, solinit := some s } := by
    unfold guessGenerator
    obtain ⟨g0, hg0⟩ : ∃ g0 : Gen K, construct (K := K) .auto {} none = .ok g0 := ⟨fresh, by
      simp [construct, Gen.setup, Gen.setupTimed]⟩
    have : g0 = fresh := by
      unfold construct at hg0
      split at hg0
      · cases hg0
      · cases hg0; rfl
    subst this
    rw [hg0]
    rfl
  rw [h'] at h
  cases h
  exact ⟨rfl, rfl, rfl⟩

/-- **C49 is false for parameters.**  The parameter guess (and `use_control_guess`) are stored but never used: guesses
made from options that differ only there are the same, in every mode and for every mapping. -/
theorem C49_param_guess_ignored {mode : Mode} {o : Opts K} {si : Option (Sol K)} {g g' : Gen K} (pg : Option (List K)) (b : Bool)
    (h : guessGenerator mode o si = .ok g)
    (h' : guessGenerator mode { o with paramGuess := pg, useControlGuess := b } si = .ok g') (prop : Propagate K)
    (f : Sol K → Py (Sol K)) (s0 : Sol K) : g'.generate prop f s0 = g.generate prop f s0 := by
  cases mode with
  | auto =>
    obtain ⟨-, -, rfl⟩ := guessGenerator_timed (Or.inl rfl) h
    obtain ⟨-, -, rfl⟩ := guessGenerator_timed (Or.inl rfl) h'
    rfl
  | ones =>
    obtain ⟨-, -, rfl⟩ := guessGenerator_timed (Or.inr rfl) h
    obtain ⟨-, -, rfl⟩ := guessGenerator_timed (Or.inr rfl) h'
    rfl
  | static =>
    have hc : construct (K := K) .auto {} none = .ok fresh := by simp [construct, Gen.setup, Gen.setupTimed]
    simp only [guessGenerator, hc, Gen.setup, outcome] at h h'
    cases h; cases h'
    rfl
  | other s =>
    have hc : construct (K := K) .auto {} none = .ok fresh := by simp [construct, Gen.setup, Gen.setupTimed]
    simp only [guessGenerator, hc, Gen.setup, outcome] at h
    cases h

/-- **C49 is false for problems with parameters.**  If the problem has a parameter (so that the duration is inserted
behind it, `pIdx > 0`), no guess can be made in the modes 'auto' and 'ones', whatever `param_guess` is: the new
trajectory of `solve` has no parameters, and the mapping raises `IndexError`. -/
theorem C49_violated_parameters (O : TrigOps K) {mode : Mode} (hm : mode = .auto ∨ mode = .ones) {o : Opts K}
    {si : Option (Sol K)} {g : Gen K} (h : guessGenerator mode o si = .ok g) {x u : List K} (hx : o.start = some x)
    (hu : o.controlGuess = .seq u) (hco : ∀ l, o.costateGuess = .seq l → l.length = x.length) (k nu pIdx c d : Nat)
    (hp : 0 < pIdx) (cc : Sol K → K) (prop : Propagate K) (s0 : Sol K)
    (h0 : s0.dyn = [] ∧ s0.nondyn = [] ∧ s0.dualT = []) :
    g.generate prop (mapSol O (indirectChain x.length u.length k nu pIdx c d cc)) s0 = .error .indexError := by
  have lco : (askedCostates o x.length).length = x.length := by
    unfold askedCostates
    cases hcg : o.costateGuess with
    | float z => simp
    | int z => simp
    | seq l => exact hco l hcg
  have rep : ∀ (α : Type) (T : Nat) (z : α), List.replicate T z = (List.range T).map fun _ => z := fun α T z => by
    apply List.ext_getElem <;> simp
  have fails : ∀ (T : Nat) (t : List K), 0 < T → t.length = T → ∃ s, g.seed T t s0 = .ok s ∧
      mapSol O (indirectChain x.length u.length k nu pIdx c d cc) s = .error .indexError := by
    intro T t hT ht
    obtain ⟨-, hseed⟩ := seed_spec hm h hx (Or.inl hu) T t s0
    refine ⟨_, hseed, ?_⟩
    have htab : t = (List.range T).map fun i => t.getD i 0 := by
      have := tab_of_rows (0 : K) t
      rwa [ht] at this
    rw [chain_tab O (T := T) (m' := u.length) (a := x.length) (b := x.length) cc _ (fun _ => x) (fun _ => u)
      (fun _ => askedCostates o x.length) (fun i => t.getD i 0) (fun _ => 0) hT (Nat.le_refl _)
      (Nat.le_refl _) (Nat.le_refl _) (by rw [← rep]; rfl) (fun _ => rfl) (by rw [← rep]; simp only [askedSol, lco]) (by rw [← rep]; rfl)
      (fun _ => rfl) htab (by
        simp only [dualTOf, askedSol, h0.2.2, if_true]
        apply List.ext_getElem <;> simp [ht]), if_neg (by simp [askedSol, h0.1]; omega)]
  have hmode : g.mode = mode := by obtain ⟨-, -, rfl⟩ := guessGenerator_timed hm h; rfl
  rcases hm with rfl | rfl
  · obtain ⟨s, h1, h2⟩ := fails 2 [0, g.tf] (by norm_num) rfl
    simp only [Gen.generate, hmode, Gen.auto, h1, Py.ok_bind, h2]
    rfl
  · obtain ⟨s, h1, h2⟩ := fails 4 (linspace 0 g.tf 4) (by norm_num) (by simp [length_linspace])
    simp only [Gen.generate, hmode, Gen.ones, h1, Py.ok_bind, h2]

/-- **C49 is false for scalar control guesses.**  With a `float` control guess (the default is one) the guess 'ones'
has no control values at all: through the indirect method with `m` differential controls its rows are `m` entries
short and do not contain the value. -/
theorem C49_violated_float_control (O : TrigOps K) {o : Opts K} {si : Option (Sol K)} {g : Gen K}
    (h : guessGenerator .ones o si = .ok g) {x : List K} {v : K} (hx : o.start = some x) (hu : o.controlGuess = .float v)
    (hco : ∀ l, o.costateGuess = .seq l → l.length = x.length) (m k nu c d : Nat) (cc : Sol K → K)
    (prop : Propagate K) (s0 : Sol K) (h0 : s0.dyn = [] ∧ s0.nondyn = [] ∧ s0.dualT = []) :
    ∃ s, g.generate prop (mapSol O (indirectChain x.length m k nu 0 c d cc)) s0 = .ok s ∧
      s.y = .rows (x.length + 1 + (x.length + 1)) ((List.range 4).map fun i : Nat =>
        x ++ [(i : K) / 3 * asked o] ++ askedCostates o x.length ++ [0]) := by
  have lco : (askedCostates o x.length).length = x.length := by
    unfold askedCostates
    cases hcg : o.costateGuess with
    | float z => simp
    | int z => simp
    | seq l => exact hco l hcg
  have rep : ∀ (α : Type) (T : Nat) (z : α), List.replicate T z = (List.range T).map fun _ => z := fun α T z => by
    apply List.ext_getElem <;> simp
  obtain ⟨htf, hseed⟩ := seed_spec (u := []) (Or.inr rfl) h hx (Or.inr ⟨v, hu, rfl⟩) 4 (linspace 0 g.tf 4) s0
  have hmode : g.mode = .ones := by obtain ⟨-, -, rfl⟩ := guessGenerator_timed (Or.inr rfl) h; rfl
  simp only [Gen.generate, hmode, Gen.ones, hseed, Py.ok_bind]
  have hlin : linspace 0 g.tf 4 = (List.range 4).map fun i : Nat => (i : K) / 3 * asked o := by rw [htf, linspace_four]
  rw [chain_tab O (T := 4) (m' := 0) (a := x.length) (b := x.length) cc _ (fun _ => x) (fun _ => [])
    (fun _ => askedCostates o x.length) (fun i : Nat => (i : K) / 3 * asked o) (fun _ => 0) (by norm_num) (Nat.zero_le _)
    (Nat.le_refl _) (Nat.le_refl _) (by rw [← rep]; rfl) (fun _ => rfl) (by rw [← rep]; simp only [askedSol, lco])
    (by rw [← rep]; rfl) (fun _ => rfl) hlin (by
      simp only [dualTOf, askedSol, h0.2.2, if_true, hlin, List.map_map]; rfl), if_pos (Nat.zero_le _)]
  refine ⟨_, rfl, ?_⟩
  simp only
  congr 1
  apply List.map_congr_left
  intro i _
  rw [npInsert_end]
  have e2 := npInsert_end (askedCostates o x.length) (0 : K)
  rw [lco] at e2
  rw [e2]
  simp [insRow]

/-- **C49 is false for the constructor.**  Arguments given to `GuessGenerator(...)` directly are checked and then
discarded: the object is the same whatever they were. -/
theorem C49_violated_constructor {mode mode' : Mode} {o o' : Opts K} {si si' : Option (Sol K)} {g g' : Gen K}
    (h : construct mode o si = .ok g) (h' : construct mode' o' si' = .ok g') : g = g' := by
  unfold construct at h h'
  split at h
  · cases h
  · split at h'
    · cases h'
    · cases h; cases h'; rfl

/-! ### C61: using a generator again -/

/-- Mappers that leave their argument as it is. -/
def harmless (s : Sol K) : Mapper K → Bool
  | .identity => true
  | .algebraic _ _ => true
  | .dualize _ _ => s.nondyn.length != 0
  | _ => false

/-- **C61 (what holds).**  In the modes 'auto' and 'ones' a generator is not changed by making a guess.  In the mode
'static' it is not changed if every mapper before the time normalisation leaves trajectories alone.  (The full claim
is that no generator is ever changed; see `C61_violated`.) -/
theorem C61_partial {g g' : Gen K} {O : TrigOps K} {prop : Propagate K} {chain : List (Mapper K)} {s r : Sol K}
    (h : g.generateSt O prop chain s = .ok (r, g'))
    (hm : g.mode ≠ .static ∨ ∃ (s1 : Sol K) (pre post : List (Mapper K)) (i : Nat), g.solinit = some s1 ∧
      chain = pre ++ .normalizeTime i :: post ∧ ∀ m ∈ pre, harmless s1 m = true) : g' = g := by
  unfold Gen.generateSt at h
  obtain ⟨r1, h1, h2⟩ := Py.bind_ok.1 h
  rcases hm with hm | ⟨s1, pre, post, i, hs, rfl, hpre⟩
  · split at h2
    · next hst _ => exact absurd hst hm
    · cases h2; rfl
  · have key : ∀ pre : List (Mapper K), (∀ m ∈ pre, harmless s1 m = true) →
        inPlace O (pre ++ .normalizeTime i :: post) s1 = .ok s1 := by
      intro pre
      induction pre with
      | nil => intro _; rfl
      | cons m pre ih =>
        intro hp
        have hmm := hp m List.mem_cons_self
        have hih := ih fun q hq => hp q (List.mem_cons_of_mem _ hq)
        have hmap : m.map O s1 = .ok s1 := by
          cases m <;> simp [harmless] at hmm <;> simp [Mapper.map, hmm]
        cases m <;> simp [harmless] at hmm <;> simp only [List.cons_append, inPlace, hmap, Py.ok_bind, hih]
    rw [hs] at h2
    split at h2
    · next _ s0 _ hst heq =>
      cases heq
      rw [key pre hpre, Py.ok_bind] at h2
      cases h2
      cases g
      simp_all
    · cases h2; rfl

/-- **C61 is false for 'static' guesses.**  Through the indirect method (`n` states, `m` differential controls): the
first guess has the rows the problem needs, `2 n + 2 + m` entries each; the user's trajectory has been changed (its states
have `n + 1 + m` columns afterwards); and the next guess made by the same generator is two entries too wide. -/
theorem C61_violated (O : TrigOps K) {n m k nu pIdx c d : Nat} (cc : Sol K → K) (prop : Propagate K) (s0 : Sol K)
    {g : Gen K} (hg : g.mode = .static) {s : Sol K} (hs : g.solinit = some s) (hT : s.t ≠ [])
    (hy : s.y.Shape s.t.length n) (hd : s.dual.Shape s.t.length n) (hu : s.u.Shape s.t.length m)
    (hdt : s.dualT = [] ∨ s.dualT.length = s.t.length) (hp : pIdx ≤ s.dyn.length) :
    ∃ r1 g1 s1 r2 g2, g.generateSt O prop (indirectChain n m k nu pIdx c d cc) s0 = .ok (r1, g1) ∧
      r1.y.Shape s.t.length (2 * n + 2 + m) ∧ g1.solinit = some s1 ∧ s1.y.Shape s.t.length (n + 1 + m) ∧
      g1.generateSt O prop (indirectChain n m k nu pIdx c d cc) s0 = .ok (r2, g2) ∧
      r2.y.Shape s.t.length (2 * n + 2 + m + 2) := by
  set T := s.t.length with hTdef
  have hTpos : 0 < T := List.length_pos_iff.2 hT
  obtain ⟨ry, ey, ly, cy⟩ := hy
  obtain ⟨rd, ed, ld, cd⟩ := hd
  obtain ⟨ru, eu, lu, cu⟩ := hu
  have ldt : (dualTOf s).length = T := by
    unfold dualTOf
    split
    · simp [hTdef]
    · next h => exact hdt.resolve_left h
  -- functions that agree with the rows and have the right length everywhere
  have tab : ∀ (c : Nat) (r : List (List K)), r.length = T → (∀ x ∈ r, x.length = c) →
      ∃ f : Nat → List K, r = (List.range T).map f ∧ ∀ i, (f i).length = c := by
    intro c r hl hc
    refine ⟨fun i => r.getD i (List.replicate c 0), by rw [← hl]; exact tab_of_rows _ r, ?_⟩
    intro i
    by_cases hi : i < r.length
    · simp only [List.getD, List.getElem?_eq_getElem hi]
      exact hc _ (List.getElem_mem hi)
    · simp only [List.getD, List.getElem?_eq_none (show r.length ≤ i by omega)]
      simp
  obtain ⟨y, hy, fy⟩ := tab n ry ly cy
  obtain ⟨u, hu, fu⟩ := tab m ru lu cu
  obtain ⟨dl, hd, fd⟩ := tab n rd ld cd
  have ht : s.t = (List.range T).map fun i => s.t.getD i 0 := tab_of_rows _ _
  have hdt' : dualTOf s = (List.range T).map fun i => (dualTOf s).getD i 0 := by
    have := tab_of_rows (0 : K) (dualTOf s)
    rwa [ldt] at this
  rw [hy] at ey
  rw [hd] at ed
  rw [hu] at eu
  have c1 := chain_tab O (n := n) (m := m) (k := k) (nu := nu) (pIdx := pIdx) (c := c) (d := d) cc s y u dl _ _ hTpos (Nat.le_refl m)
    (Nat.le_refl n) (Nat.le_refl n) ey fy ed eu fu ht hdt'
  have p1 := head_tab O (n := n) (m := m) (k := k) (nu := nu) cc s y u dl _ _ (Nat.le_refl m)
    (Nat.le_refl n) (Nat.le_refl n) ey fy ed eu fu ht hdt'
  rw [if_pos hp] at c1
  obtain ⟨s1, hs1⟩ : ∃ s1, mapSol O (indirectHead n m k nu cc) s = .ok s1 := ⟨_, p1⟩
  rw [hs1] at p1
  injection p1 with p1
  have hdt1 : dualTOf s1 = (List.range T).map fun i => (dualTOf s).getD i 0 := by
    have : s1.dualT = (List.range T).map fun i => (dualTOf s).getD i 0 := by rw [p1]
    unfold dualTOf
    rw [if_neg (by rw [this]; simp; omega), this]
    rfl
  have ht1 : s1.t = (List.range T).map fun i => s.t.getD i 0 := by rw [p1]; exact ht
  have hn1 : s1.dyn = s.dyn := by rw [p1]
  have lins : ∀ (i : Nat) (x : K), (insRow (List.zip (List.range' (n + 1) m) (u i)) (npInsert (y i) n [x])).length = n + 1 + m := by
    intro i x
    rw [insRow_length, npInsert_length, fy]
    simp [fu]
  have c2 := chain_tab O (n := n) (m := m) (k := k) (nu := nu) (pIdx := pIdx) (c := c) (d := d) (m' := 0) (T := T)
    cc s1 _ _ _ _ _ hTpos (Nat.zero_le m)
    (show n ≤ n + 1 + m by omega) (show n ≤ n + 1 by omega) (by rw [p1]) (fun i => lins i _) (by rw [p1]) (by rw [p1])
    (fun _ => rfl) ht1 hdt1
  have p2 := head_tab O (n := n) (m := m) (k := k) (nu := nu) (m' := 0) (T := T)
    cc s1 _ _ _ _ _ (Nat.zero_le m)
    (show n ≤ n + 1 + m by omega) (show n ≤ n + 1 by omega) (by rw [p1]) (fun i => lins i _) (by rw [p1]) (by rw [p1])
    (fun _ => rfl) ht1 hdt1
  rw [if_pos (by rw [hn1]; exact hp)] at c2
  obtain ⟨r1, hr1, sh1⟩ : ∃ r1, mapSol O (indirectChain n m k nu pIdx c d cc) s = .ok r1 ∧
      r1.y.Shape T (2 * n + 2 + m) := by
    refine ⟨_, c1, _, by simp only; rw [show n + 1 + m + (n + 1) = 2 * n + 2 + m by omega], by simp, ?_⟩
    intro row hrow
    obtain ⟨i, -, rfl⟩ := List.mem_map.1 hrow
    rw [List.length_append, lins, npInsert_length, fd]
    omega
  obtain ⟨r2, hr2, sh2⟩ : ∃ r2, mapSol O (indirectChain n m k nu pIdx c d cc) s1 = .ok r2 ∧
      r2.y.Shape T (2 * n + 2 + m + 2) := by
    refine ⟨_, c2, _, by simp only; rw [show n + 1 + m + 1 + 0 + (n + 1 + 1) = 2 * n + 2 + m + 2 by omega], by simp, ?_⟩
    intro row hrow
    obtain ⟨i, -, rfl⟩ := List.mem_map.1 hrow
    simp only [List.length_append, insRow_length, npInsert_length, fy, fd, List.length_zip, List.length_range', fu]
    simp
    omega
  obtain ⟨s2, hs2⟩ : ∃ s2, mapSol O (indirectHead n m k nu cc) s1 = .ok s2 := ⟨_, p2⟩
  refine ⟨r1, { g with solinit := some s1 }, s1, r2, { g with solinit := some s2 }, ?_, sh1, rfl, ?_, ?_, sh2⟩
  rotate_left 2
  · simp only [Gen.generateSt, Gen.generate, Gen.static, hg, hr2, Py.ok_bind]
    rw [inPlace_indirect, hs2, Py.ok_bind]
  · simp only [Gen.generateSt, Gen.generate, Gen.static, hg, hs, hr1, Py.ok_bind]
    rw [inPlace_indirect, hs1, Py.ok_bind]
  · refine ⟨_, by rw [p1], by simp, ?_⟩
    intro row hrow
    obtain ⟨i, -, rfl⟩ := List.mem_map.1 hrow
    exact lins i _

/-! ### Concrete cases -/

/-- `guess_generator('ones', start=[1, 2], direction='reverse', time_integrate=3, costate_guess=[5, 6],
control_guess=[7])`. -/
def exOpts : Opts ℚ where
  start := some [1, 2]
  direction := "reverse"
  timeIntegrate := 3
  costateGuess := .seq [5, 6]
  controlGuess := .seq [7]

/-- A new `Trajectory` with one constant. -/
def exNew : Sol ℚ := { exTraj with t := [], y := .empty, const := [9] }

/-- The generator, or a fresh one. -/
def exGen (mode : Mode) (o : Opts ℚ) (si : Option (Sol ℚ)) : Gen ℚ :=
  match guessGenerator mode o si with | .ok g => g | .error _ => fresh

def exChain : List (Mapper ℚ) := indirectChain 2 1 0 1 0 1 1 fun _ => 0

example : (match (exGen .ones exOpts none).generate (fun _ _ _ _ _ => .error .runtimeError) (mapSol noTrig exChain) exNew with
    | .ok s => some (s.y.rowList, s.t, s.dyn, s.nondyn, s.const) | .error _ => none) =
    some ([[1, 2, 0, 7, 5, 6, 0], [1, 2, -1, 7, 5, 6, 0], [1, 2, -2, 7, 5, 6, 0], [1, 2, -3, 7, 5, 6, 0]],
      [0, 1 / 3, 2 / 3, 1], [-3], [1], [9]) := by decide +kernel

example : (match (exGen .ones { exOpts with controlGuess := .float 7 } none).generate
    (fun _ _ _ _ _ => .error .runtimeError) (mapSol noTrig exChain) exNew with
    | .ok s => some s.y.rowList | .error _ => none) =
    some [[1, 2, 0, 5, 6, 0], [1, 2, -1, 5, 6, 0], [1, 2, -2, 5, 6, 0], [1, 2, -3, 5, 6, 0]] := by decide +kernel

/-- A user trajectory with two states and one control. -/
def exUser : Sol ℚ := { exTraj with t := [0, 4], y := .rows 2 [[1, 2], [3, 4]], dual := .rows 2 [[5, 6], [5, 6]], u := .rows 1 [[7], [8]] }

/-- Two guesses from the same 'static' generator. -/
def exTwice : Py (List (List ℚ) × List (List ℚ)) := do
  let (r1, g1) ← (exGen .static {} (some exUser)).generateSt noTrig (fun _ _ _ _ _ => .error .runtimeError) exChain exNew
  let (r2, _) ← g1.generateSt noTrig (fun _ _ _ _ _ => .error .runtimeError) exChain exNew
  .ok (r1.y.rowList, r2.y.rowList)

example : exTwice = .ok ([[1, 2, 0, 7, 5, 6, 0], [3, 4, 4, 8, 5, 6, 0]],
    [[1, 2, 0, 0, 7, 5, 6, 0, 0], [3, 4, 4, 4, 8, 5, 6, 0, 0]]) := by decide +kernel

end Beluga.Guess
