import Verif.Symbolic.Spec

/-!
# `recursive_sub` (C52)

`beluga/utils/helper_functions.py:27-35`.
-/

namespace Beluga.Sym

open Expr

set_option linter.unusedSectionVars false

/-- `expr.subs(replace)` for a dictionary whose keys are symbols: sympy sorts the entries and substitutes them one after
the other.  The list is the sorted one; the theorems hold for every order. -/
def subsDict (table : List (Name × Expr)) (e : Expr) : Expr := table.foldl (fun e kv => Expr.subs kv.1 kv.2 e) e

/-- The loop of `recursive_sub` with `n` iterations left (helper_functions.py:28-35). -/
def recursiveSubLoop (table : List (Name × Expr)) : Nat → Expr → Expr × Bool
  | 0, e => (e, false)
  | n + 1, e =>
    let e' := subsDict table e
    if e' = e then (e', true) else recursiveSubLoop table n e'

/-- `recursive_sub(expr, replace)` (helper_functions.py:27-35). -/
def recursiveSub (table : List (Name × Expr)) (e : Expr) : Expr × Bool :=
  recursiveSubLoop table (table.length + 1) e

/-! ### Proofs -/

section
variable {table : List (Name × Expr)}

/-- What a key that is left after a run over `L` comes from. -/
theorem subsDict_origin {R : Name → Name → Prop} (htrans : ∀ {a b c}, R a b → R b c → R a c) :
    ∀ {L : List (Name × Expr)} {e : Expr} {s : Name}, (∀ kv ∈ L, ∀ s ∈ free kv.2, s ∈ table.map Prod.fst → R kv.1 s) →
      (∀ kv ∈ L, kv.1 ∈ table.map Prod.fst) → s ∈ table.map Prod.fst → s ∈ free (subsDict L e) →
      (s ∈ free e ∧ s ∉ L.map Prod.fst) ∨ ∃ k ∈ free e, k ∈ table.map Prod.fst ∧ R k s
  | [], _, _, _, _, _, h => Or.inl ⟨h, by simp⟩
  | (x, new) :: L, e, s, hR, hk, hs, h => by
    have ih := subsDict_origin (R := R) htrans (L := L) (e := Expr.subs x new e) (s := s)
      (fun kv hkv => hR kv (List.mem_cons_of_mem _ hkv)) (fun kv hkv => hk kv (List.mem_cons_of_mem _ hkv)) hs h
    have hx := hR (x, new) (List.mem_cons_self ..)
    have hxk := hk (x, new) (List.mem_cons_self ..)
    rcases ih with ⟨h1, h2⟩ | ⟨k, h1, hk1, h2⟩
    · rcases mem_free_subs.1 h1 with ⟨h3, h4⟩ | ⟨h3, h4⟩
      · exact Or.inl ⟨h3, by simpa using ⟨h4, by simpa using h2⟩⟩
      · exact Or.inr ⟨x, h4, hxk, hx s h3 hs⟩
    · rcases mem_free_subs.1 h1 with ⟨h3, -⟩ | ⟨h3, h4⟩
      · exact Or.inr ⟨k, h3, hk1, h2⟩
      · exact Or.inr ⟨x, h4, hxk, htrans (hx k h3 hk1) h2⟩

theorem subsDict_of_no_key : ∀ {L : List (Name × Expr)} {e : Expr}, (∀ s ∈ free e, s ∉ L.map Prod.fst) →
    subsDict L e = e
  | [], _, _ => rfl
  | (x, new) :: L, e, h => by
    have : Expr.subs x new e = e := subs_of_not_mem fun hx => h x hx (by simp)
    show subsDict L (Expr.subs x new e) = e
    rw [this]
    exact subsDict_of_no_key fun s hs hL => h s hs (by simp only [List.map_cons, List.mem_cons]; exact Or.inr hL)

/-- The number of keys of smaller rank. -/
def below (table : List (Name × Expr)) (rank : Name → Nat) (s : Name) : Nat :=
  ((table.map Prod.fst).filter fun k => rank k < rank s).length

theorem filter_length_lt {α : Type} {p q : α → Bool} (hpq : ∀ a, p a = true → q a = true) :
    ∀ {l : List α} {a : α}, a ∈ l → p a = false → q a = true → (l.filter p).length < (l.filter q).length
  | b :: l, a, ha, hp, hq => by
    have hle : (l.filter p).length ≤ (l.filter q).length := by
      clear ha
      induction l with
      | nil => simp
      | cons c l ih =>
        simp only [List.filter_cons]
        by_cases hc : p c = true
        · simp [hc, hpq c hc, ih]
        · simp only [hc]
          by_cases hc' : q c = true
          · simp only [hc']; simp; omega
          · simp only [hc']; simpa using ih
    rcases List.mem_cons.1 ha with rfl | ha
    · simp [hp, hq]; omega
    · have ih := filter_length_lt hpq ha hp hq
      simp only [List.filter_cons]
      by_cases hc : p b = true
      · simp [hc, hpq b hc]; omega
      · simp only [hc]
        by_cases hc' : q b = true
        · simp only [hc']; simp; omega
        · simp only [hc']; simpa using ih

theorem below_lt {rank : Name → Nat} {s k : Name} (hs : s ∈ table.map Prod.fst) (h : rank s < rank k) :
    below table rank s < below table rank k := by
  apply filter_length_lt (a := s) _ hs
  · simp
  · simpa using h
  · intro a ha
    simp only [decide_eq_true_eq] at ha ⊢
    omega

theorem below_lt_length {rank : Name → Nat} {s : Name} (hs : s ∈ table.map Prod.fst) :
    below table rank s < table.length := by
  have := filter_length_lt (p := fun k => decide (rank k < rank s)) (q := fun _ => true) (by simp) hs (by simp) rfl
  simpa [below] using this

/-- In an acyclic table, one run lowers the highest key that is left. -/
theorem subsDict_below {rank : Name → Nat}
    (hr : ∀ kv ∈ table, ∀ s ∈ free kv.2, s ∈ table.map Prod.fst → rank s < rank kv.1) {e : Expr} {s : Name}
    (hs : s ∈ table.map Prod.fst) (h : s ∈ free (subsDict table e)) :
    ∃ k ∈ free e, k ∈ table.map Prod.fst ∧ below table rank s < below table rank k := by
  rcases subsDict_origin (table := table) (R := fun a b => rank b < rank a) (fun h1 h2 => lt_trans h2 h1) hr
    (fun kv hkv => List.mem_map.2 ⟨kv, hkv, rfl⟩) hs h with ⟨-, h2⟩ | ⟨k, h1, h2, h3⟩
  · exact absurd hs h2
  · exact ⟨k, h1, h2, below_lt hs h3⟩

theorem loop_acyclic {rank : Name → Nat}
    (hr : ∀ kv ∈ table, ∀ s ∈ free kv.2, s ∈ table.map Prod.fst → rank s < rank kv.1) :
    ∀ (n : Nat) {e : Expr}, (∀ s ∈ free e, s ∈ table.map Prod.fst → below table rank s < n) →
      (recursiveSubLoop table (n + 1) e).2 = true ∧
      ∀ s ∈ free (recursiveSubLoop table (n + 1) e).1, s ∉ table.map Prod.fst
  | n, e, h => by
    rw [recursiveSubLoop]
    by_cases he : subsDict table e = e
    · simp only [he, if_pos]
      refine ⟨trivial, ?_⟩
      -- a key of highest rank would have come from a higher one
      intro s hs hk
      have hup : ∀ (m : Nat) {s : Name}, s ∈ free e → s ∈ table.map Prod.fst → n - below table rank s ≤ m → False := by
        intro m
        induction m with
        | zero =>
          intro s hs hk hm
          have := h s hs hk
          omega
        | succ m ih =>
          intro s hs hk hm
          obtain ⟨k, hk1, hk2, hk3⟩ := subsDict_below hr hk (by rw [he]; exact hs)
          exact ih hk1 hk2 (by have := h k hk1 hk2; omega)
      exact hup _ hs hk (le_refl _)
    · simp only [if_neg he]
      cases n with
      | zero =>
        exact absurd (subsDict_of_no_key fun s hs hk => absurd (h s hs hk) (by omega)) he
      | succ n =>
        apply loop_acyclic hr n
        intro s hs hk
        obtain ⟨k, hk1, hk2, hk3⟩ := subsDict_below hr hk hs
        have := h k hk1 hk2
        omega

end

/-- For an acyclic table the result is free of the table's keys and reported as complete. -/
theorem C52_acyclic {table : List (Name × Expr)} (h : Acyclic table) (e : Expr) :
    (recursiveSub table e).2 = true ∧ ∀ s ∈ free (recursiveSub table e).1, s ∉ table.map Prod.fst := by
  obtain ⟨rank, hr⟩ := h
  exact loop_acyclic hr table.length fun s _ hk => below_lt_length hk

theorem loop_fixpoint (table : List (Name × Expr)) : ∀ (n : Nat) (e : Expr), (recursiveSubLoop table n e).2 = true →
    subsDict table (recursiveSubLoop table n e).1 = (recursiveSubLoop table n e).1
  | 0, _, h => by simp [recursiveSubLoop] at h
  | n + 1, e, h => by
    rw [recursiveSubLoop] at h ⊢
    by_cases he : subsDict table e = e
    · simp only [he, if_pos]
    · simp only [if_neg he] at h ⊢
      exact loop_fixpoint table n _ h

/-- Whatever the table: a result reported as complete is not changed by substituting once more, and the number of
substitutions is bounded by the size of the table. -/
theorem C52_fixpoint (table : List (Name × Expr)) (e : Expr) (h : (recursiveSub table e).2 = true) :
    subsDict table (recursiveSub table e).1 = (recursiveSub table e).1 ∧
    ∃ n ≤ table.length, (recursiveSub table e).1 = (subsDict table)^[n] e := by
  refine ⟨loop_fixpoint table _ e h, ?_⟩
  have hn : ∀ (n : Nat) (e : Expr), (recursiveSubLoop table (n + 1) e).2 = true →
      ∃ m ≤ n, (recursiveSubLoop table (n + 1) e).1 = (subsDict table)^[m] e := by
    intro n
    induction n with
    | zero =>
      intro e h
      rw [recursiveSubLoop] at h ⊢
      by_cases he : subsDict table e = e
      · exact ⟨0, le_refl _, by simp [he]⟩
      · simp [he, recursiveSubLoop] at h
    | succ n ih =>
      intro e h
      rw [recursiveSubLoop] at h ⊢
      by_cases he : subsDict table e = e
      · exact ⟨0, by omega, by simp [he]⟩
      · simp only [if_neg he] at h ⊢
        obtain ⟨m, hm, h'⟩ := ih _ h
        exact ⟨m + 1, by omega, by rw [h', Function.iterate_succ_apply]⟩
  exact hn table.length e h

/-- The value of the result is that of the expression, wherever every key has the value of its replacement. -/
theorem C52_value {K : Type _} [Field K] (I : Interp K) (ρ : Name → K) (table : List (Name × Expr)) (e : Expr)
    (h : ∀ kv ∈ table, ρ kv.1 = eval I ρ kv.2) : eval I ρ (recursiveSub table e).1 = eval I ρ e := by
  have hd : ∀ (L : List (Name × Expr)) (e : Expr), (∀ kv ∈ L, ρ kv.1 = eval I ρ kv.2) →
      eval I ρ (subsDict L e) = eval I ρ e := by
    intro L
    induction L with
    | nil => intro e _; rfl
    | cons kv L ih =>
      intro e h
      show eval I ρ (subsDict L (Expr.subs kv.1 kv.2 e)) = _
      rw [ih _ fun kv' h' => h kv' (List.mem_cons_of_mem _ h'), eval_subs_of_eq _ _ _ _ _ (h kv (List.mem_cons_self ..))]
  have hl : ∀ (n : Nat) (e : Expr), eval I ρ (recursiveSubLoop table n e).1 = eval I ρ e := by
    intro n
    induction n with
    | zero => intro e; rfl
    | succ n ih =>
      intro e
      rw [recursiveSubLoop]
      by_cases he : subsDict table e = e
      · simp [he]
      · simp only [if_neg he]
        rw [ih, hd table e h]
  exact hl _ e

/-- The other order of declaration needs three runs, the fourth finds nothing to do. -/
def exTable : List (Name × Expr) := [("c", sym "x" * sym "x"), ("b", sym "c" + 1), ("a", sym "b" * sym "c")]

example : Acyclic exTable := by
  refine ⟨fun s => if s = "a" then 3 else if s = "b" then 2 else 1, ?_⟩
  decide +kernel

example : recursiveSub exTable (sym "a") =
    ((sym "x" * sym "x" + 1) * (sym "x" * sym "x"), true) := by decide +kernel

/-- A cyclic table: reported as incomplete; a swap is reported as complete although both keys are still there. -/
example : (recursiveSub [("a", sym "a" + 1)] (sym "a")).2 = false := by decide +kernel

example : recursiveSub [("a", sym "b"), ("b", sym "a")] (sym "a") = (sym "a", true) := by decide +kernel

end Beluga.Sym
