import Verif.Builder.Model

/-! # Unique names (C33) -/

namespace Beluga.Build

/-- The invariant: names are pairwise different and registered. -/
structure Inv (b : Builder) : Prop where
  nodup : b.names.Nodup
  known : ∀ n ∈ b.names, n ∈ b.table

theorem mem_register {b : Builder} {n m : Name} : m ∈ (b.register n).table ↔ m ∈ b.table ∨ m = n := by
  unfold Builder.register
  dsimp only
  split
  · constructor
    · exact Or.inl
    · rintro (h | rfl) <;> assumption
  · simp

theorem inv_register {b : Builder} (h : Inv b) (n : Name) : Inv (b.register n) :=
  ⟨h.nodup, fun m hm => mem_register.2 (Or.inl (h.known m hm))⟩

theorem inv_add {b : Builder} (h : Inv b) (k : Kind) {n : Name} (hn : n ∉ b.table) : Inv (b.add k n) := by
  have hnames : (b.add k n).names = b.names ++ [n] := by simp [Builder.names, Builder.add, Builder.register]
  refine ⟨?_, ?_⟩
  · rw [hnames, List.nodup_append]
    refine ⟨h.nodup, by simp, ?_⟩
    intro a ha c hc
    rw [List.mem_singleton] at hc
    subst hc
    exact fun hh => hn (hh ▸ h.known a ha)
  · rw [hnames]
    intro m hm
    rcases List.mem_append.1 hm with hm | hm
    · exact mem_register.2 (Or.inl (h.known m hm))
    · exact mem_register.2 (Or.inr (by simpa using hm))

theorem inv_scale : ∀ (ns : List Name) {b : Builder}, Inv b → Inv (scaleLoop ns b).1
  | [], _, h => h
  | n :: ns, b, h => by
    rw [scaleLoop]
    split
    · exact h
    · next hn => exact inv_scale ns (inv_add h .unit hn)

theorem inv_exec {b : Builder} (h : Inv b) (c : Call) (hc : ∀ n, c = .constraintParameter n → n ∉ b.table) :
    Inv (exec c b).1 := by
  cases c with
  | independent n =>
    rw [exec]
    split
    · exact h
    · next hn =>
      refine ⟨?_, ?_⟩
      · have := h.nodup
        simp only [Builder.names, List.nodup_cons] at this ⊢
        exact ⟨fun hm => hn (h.known n (List.mem_cons_of_mem _ hm)), this.2⟩
      · intro m hm
        rcases List.mem_cons.1 hm with rfl | hm
        · exact mem_register.2 (Or.inr rfl)
        · exact mem_register.2 (Or.inl (h.known m (List.mem_cons_of_mem _ hm)))
  | declare k n =>
    rw [exec]
    split
    · exact h
    · next hn => exact inv_add h k hn
  | constraintParameter n => exact inv_add h _ (hc n rfl)
  | constant n ok =>
    rw [exec]
    split
    · exact h
    · next hn =>
      split
      · exact inv_add h _ hn
      · exact inv_register h n
  | table n ok =>
    rw [exec]
    split
    · exact h
    · next hn =>
      split
      · exact inv_add h _ hn
      · exact h
  | scale ns => exact inv_scale ns h
  | unnamed => exact h

theorem run_append (l l' : List Call) (b : Builder) : run (l ++ l') b = run l' (run l b) := by
  rw [run, List.foldl_append]
  rfl

/-- **C33.**  After any sequence of declarations, successful or not, no two components (and no component and the
independent variable) share a name, provided `constraint_parameter` is never called with a used name.
The full statement, without the proviso, is false (`C33_violated`). -/
theorem C33_unique_partial (calls : List Call)
    (hc : ∀ pre n post, calls = pre ++ .constraintParameter n :: post → n ∉ (run pre init).table) :
    (run calls init).names.Nodup := by
  suffices h : ∀ (calls pre : List Call), (∀ pre' n post, pre ++ calls = pre' ++ .constraintParameter n :: post →
      n ∉ (run pre' init).table) → Inv (run pre init) → Inv (run (pre ++ calls) init) by
    exact (h calls [] (by simpa using hc) ⟨by decide, by decide⟩).nodup
  intro calls
  induction calls with
  | nil => intro pre _ h; simpa using h
  | cons c calls ih =>
    intro pre hc h
    have := ih (pre ++ [c]) (by simpa using hc) (by
      rw [run_append]
      exact inv_exec h c fun n hn => hc pre n calls (by rw [hn]))
    simpa using this

/-- The name that a call with a single name declares. -/
def Call.name? : Call → Option Name
  | .independent n | .declare _ n | .constant n _ | .table n _ => some n
  | _ => none

/-- **C33.**  A declaration with a name that is in use raises and changes nothing; with an unused name and valid arguments
it succeeds and appends exactly this component (or replaces the independent variable). -/
theorem C33_clash (c : Call) (n : Name) (hc : c.name? = some n) (b : Builder) :
    (n ∈ b.table → exec c b = (b, some .runtimeWarning)) ∧
    (n ∉ b.table → (∀ m, c ≠ .constant m false) → (∀ m, c ≠ .table m false) →
      (exec c b).2 = none ∧ n ∈ (exec c b).1.names ∧
      ((∃ k, (exec c b).1.comps = b.comps ++ [(k, n)] ∧ (exec c b).1.ind = b.ind) ∨
        ((exec c b).1.ind = n ∧ (exec c b).1.comps = b.comps))) := by
  constructor
  · intro hn
    cases c <;> simp only [Call.name?, Option.some.injEq, reduceCtorEq] at hc <;> subst hc <;> rw [exec, if_pos hn]
  · intro hn h1 h2
    cases c with
    | independent m =>
      simp only [Call.name?, Option.some.injEq] at hc
      subst hc
      rw [exec, if_neg hn]
      exact ⟨rfl, List.mem_cons_self .., Or.inr ⟨rfl, rfl⟩⟩
    | declare k m =>
      simp only [Call.name?, Option.some.injEq] at hc
      subst hc
      rw [exec, if_neg hn]
      exact ⟨rfl, by simp [Builder.names, Builder.add], Or.inl ⟨k, rfl, rfl⟩⟩
    | constant m ok =>
      simp only [Call.name?, Option.some.injEq] at hc
      subst hc
      cases ok with
      | false => exact absurd rfl (h1 m)
      | true =>
        rw [exec, if_neg hn, if_pos rfl]
        exact ⟨rfl, by simp [Builder.names, Builder.add], Or.inl ⟨_, rfl, rfl⟩⟩
    | table m ok =>
      simp only [Call.name?, Option.some.injEq] at hc
      subst hc
      cases ok with
      | false => exact absurd rfl (h2 m)
      | true =>
        rw [exec, if_neg hn, if_pos rfl]
        exact ⟨rfl, by simp [Builder.names, Builder.add], Or.inl ⟨_, rfl, rfl⟩⟩
    | constraintParameter m => simp [Call.name?] at hc
    | scale ns => simp [Call.name?] at hc
    | unnamed => simp [Call.name?] at hc

/-- **C33 is violated.**  `constraint_parameter` does not check: whatever is declared already, the call succeeds and two
components share the name. -/
theorem C33_violated (b : Builder) (n : Name) (hn : n ∈ b.names) :
    (exec (.constraintParameter n) b).2 = none ∧ ¬ (exec (.constraintParameter n) b).1.names.Nodup := by
  refine ⟨rfl, fun h => ?_⟩
  have hnames : (exec (.constraintParameter n) b).1.names = b.names ++ [n] := by
    simp [exec, Builder.names, Builder.add, Builder.register]
  rw [hnames, List.nodup_append] at h
  exact h.2.2 n hn n (by simp) rfl

/-- **C33 is violated.**  `scale` with a clash is not all-or-nothing: the units before the clash stay declared. -/
theorem C33_violated_scale (pre post : List Name) (n : Name) (b : Builder) (hpre : pre.Nodup) (hf : ∀ m ∈ pre, m ∉ b.table)
    (hn : n ∈ b.table) :
    (exec (.scale (pre ++ n :: post)) b).2 = some .runtimeWarning ∧
      (exec (.scale (pre ++ n :: post)) b).1.comps = b.comps ++ pre.map fun m => (Kind.unit, m) := by
  rw [exec]
  induction pre generalizing b with
  | nil => rw [List.nil_append, scaleLoop, if_pos hn]; simp
  | cons m pre ih =>
    rw [List.cons_append, scaleLoop, if_neg (hf m (List.mem_cons_self ..))]
    have := ih (b.add .unit m) (List.nodup_cons.1 hpre).2 (fun x hx hm => by
      rcases mem_register.1 hm with h | rfl
      · exact hf x (List.mem_cons_of_mem _ hx) h
      · exact (List.nodup_cons.1 hpre).1 hx) (mem_register.2 (Or.inl hn))
    rw [this.1, this.2]
    simp [Builder.add]

/-- **C33 is violated.**  A constant with an invalid value raises but keeps its name occupied: the corrected declaration
is refused although no component has this name. -/
theorem C33_violated_constant (b : Builder) (h : Inv b) (n : Name) (hn : n ∉ b.table) :
    (exec (.constant n false) b).2 = some .valueError ∧ n ∉ (exec (.constant n false) b).1.names ∧
      (exec (.constant n true) (exec (.constant n false) b).1).2 = some .runtimeWarning := by
  have h1 : exec (.constant n false) b = (b.register n, some .valueError) := by
    rw [exec, if_neg hn, if_neg (by simp)]
  refine ⟨by rw [h1], ?_, ?_⟩
  · rw [h1]
    exact fun hm => hn (h.known n hm)
  · rw [h1, exec, if_pos (mem_register.2 (Or.inr rfl))]

/-- A typical script with one clash, which is refused. -/
def exScript : List Call := [.independent "t", .declare .state "x", .declare .state "v", .declare .control "u",
  .constant "g" true, .declare .quantity "x", .constraintParameter "nu", .scale ["m", "s"], .unnamed, .declare .state "_t"]

example : run exScript init = ⟨["_t", "t", "x", "v", "u", "g", "nu", "m", "s"], "t",
    [(.state, "x"), (.state, "v"), (.control, "u"), (.constant, "g"), (.constraintParameter, "nu"), (.unit, "m"), (.unit, "s")]⟩ := by
  decide +kernel

example : ¬ (run (exScript ++ [.constraintParameter "x"]) init).names.Nodup := by decide +kernel

example : (exec (.scale ["kg", "x", "K"]) (run exScript init)).1.comps = (run exScript init).comps ++ [(.unit, "kg")] := by
  decide +kernel

end Beluga.Build
