import Mathlib.Analysis.Calculus.MeanValue
import Verif.Reduction.Model

/-! # Reduction by constants of motion (C68) -/

namespace Beluga.Sym

open Expr Set

/-! ### Specification -/

/-- All quantities with a rate. -/
def Prob.dyns (p : Prob) : List Dyn := p.states ++ p.costates ++ p.quads ++ p.coparameters

/-- All quantities that are constant along a solution. -/
def Prob.fixed (p : Prob) : List Name := p.parameters ++ p.constants ++ p.constraintParams ++ p.adjoints

/-- A curve in all symbols that solves the boundary value problem on `[a, b]`. -/
structure Solution (U : Name → Nat → ℝ → ℝ) (p : Prob) (a b : ℝ) (ρ : ℝ → Name → ℝ) : Prop where
  rates : ∀ d ∈ p.dyns, ∀ t ∈ Icc a b, HasDerivWithinAt (fun s => ρ s d.name) (eval (real U) (ρ t) d.eom) (Icc a b) t
  fixed : ∀ s ∈ p.fixed, ∀ t ∈ Icc a b, ρ t s = ρ a s
  initial : ∀ c ∈ p.initial, eval (real U) (ρ a) c.expr = 0
  terminal : ∀ c ∈ p.terminal, eval (real U) (ρ b) c.expr = 0

/-- All symbols of the boundary value problem. -/
def Prob.symbols (p : Prob) : List Name :=
  p.dyns.map Dyn.name ++ p.fixed ++ p.dyns.flatMap (fun d => d.eom.free) ++ (p.initial ++ p.terminal).flatMap fun c => c.expr.free

/-- The value of an expression does not depend on `x` and `l`. -/
def Unaffected (x l : Name) (e : Expr) : Prop :=
  ∀ (U : Name → Nat → ℝ → ℝ) (ρ ρ' : Name → ℝ), (∀ s, s ≠ x → s ≠ l → ρ s = ρ' s) → eval (real U) ρ e = eval (real U) ρ' e

/-- The situation in which a reduction makes sense: the `k`-th constant of motion is the costate `l` of the state `x`, no rate
depends on `x`, so that `l` is constant. -/
structure Cyclic (p : Prob) (k : Nat) (x l c : Name) (i : Nat) (fx fl : Expr) : Prop where
  com : p.coms[k]? = some (c, sym l)
  state : p.states[i]? = some ⟨x, fx⟩
  costate : p.costates[i]? = some ⟨l, fl⟩
  paired : p.costates.length = p.states.length
  names : (p.dyns.map Dyn.name ++ p.fixed).Nodup
  fresh : c ∉ p.symbols
  rate : Unaffected x l fx
  quads : ∀ d ∈ p.quads ++ p.coparameters, Unaffected x l d.eom
  conserved : ∀ U ρ, eval (real U) ρ fl = 0

/-- The name that the reduction makes up for the quadrature. -/
def Prob.newQuad (p : Prob) : Name := "_q_" ++ toString p.quads.length

/-- The full curve of a reduced one: `x` is the quadrature, its costate the new parameter. -/
noncomputable def liftCurve (x l q c : Name) (ρ : ℝ → Name → ℝ) (t : ℝ) (s : Name) : ℝ :=
  if s = x then ρ t q else if s = l then ρ t c else ρ t s

/-- The reduced curve of a full one. -/
noncomputable def dropCurve (x l q c : Name) (a : ℝ) (ρ : ℝ → Name → ℝ) (t : ℝ) (s : Name) : ℝ :=
  if s = q then ρ t x else if s = c then ρ a l else ρ t s

/-- What sympy does: it solves `l - c = 0` for `l`, recognises only zeros as zero, and solves the equation of the conjugate
coordinate (see `conjugate_value`) for `x`. -/
structure SolvesFor (T : Tools) (p : Prob) (x l c : Name) : Prop where
  zero : ∀ e, T.zero e = true → ∀ U ρ, eval (real U) ρ e = 0
  par : T.solve [sym l - sym c] [l] = [[(l, sym c)]]
  conj : T.solve [conjugate T (c, sym l) ((p.states ++ p.costates).map Dyn.name)
    (field (p.omega.getD []) ((p.states ++ p.costates).map Dyn.name) (sym l)) [(l, sym c)] - sym p.newQuad] [x] = [[(x, sym p.newQuad)]]

/-- The column of the form that belongs to the costate of the `i`-th state. -/
def UnitColumn (om : List (List Expr)) (n i : Nat) : Prop :=
  ∀ r < 2 * n, ∀ U ρ, eval (real U) ρ ((om.getD r []).getD (n + i) 0) = if r = i then 1 else 0

/-! ### Lemmas -/

theorem unaffected_of_free {x l : Name} {e : Expr} (h : x ∉ e.free ∧ l ∉ e.free) : Unaffected x l e := fun _ _ _ hρ =>
  eval_congr _ fun s hs => hρ s (by rintro rfl; exact h.1 hs) (by rintro rfl; exact h.2 hs)

theorem recursiveSub_single {a b : Name} (h : a ≠ b) (e : Expr) : (recursiveSub [(a, sym b)] e).1 = Expr.subs a (sym b) e := by
  have h2 : Expr.subs a (sym b) (Expr.subs a (sym b) e) = Expr.subs a (sym b) e := by
    apply subs_of_not_mem
    rw [mem_free_subs]
    rintro (⟨-, h1⟩ | ⟨h1, -⟩)
    · exact h1 rfl
    · simp only [free, List.mem_singleton] at h1
      exact h h1
  simp only [recursiveSub, recursiveSubLoop, List.length_singleton, subsDict, List.foldl_cons, List.foldl_nil, h2]
  split <;> simp

theorem eval_sub2 {x l q c : Name} (hlc : l ≠ c) (hxq : x ≠ q) (hcx : c ≠ x) (hxl : x ≠ l) (U : Name → Nat → ℝ → ℝ) (ρ : ℝ → Name → ℝ)
    (t : ℝ) (e : Expr) : eval (real U) (ρ t) (sub2 [(l, sym c)] [(x, sym q)] e) = eval (real U) (liftCurve x l q c ρ t) e := by
  rw [sub2, recursiveSub_single hlc, recursiveSub_single hxq, eval_subs, eval_subs]
  congr 1
  funext s
  simp only [eval, liftCurve, Function.update_apply]
  by_cases h1 : s = l
  · subst h1
    rw [if_pos rfl, if_neg hxl.symm, if_pos rfl, if_neg hcx]
  · rw [if_neg h1]
    by_cases h2 : s = x
    · rw [if_pos h2, if_pos h2]
    · rw [if_neg h2, if_neg h2, if_neg h1]

theorem eval_foldl_zipIdx {I : Interp ℝ} {ρ : Name → ℝ} {α : Type} (g : α × Nat → Expr) : ∀ (l : List α) (off : Nat) (acc : Expr),
    eval I ρ ((l.zipIdx off).foldl (fun acc a => acc + g a) acc) = eval I ρ acc + ((l.zipIdx off).map fun a => eval I ρ (g a)).sum
  | [], _, _ => by simp
  | a :: l, off, acc => by
    simp only [List.zipIdx_cons, List.foldl_cons, List.map_cons, List.sum_cons]
    rw [eval_foldl_zipIdx g l (off + 1), eval_add]
    ring

theorem eval_foldl {I : Interp ℝ} {ρ : Name → ℝ} {α : Type} (g : α → Expr) : ∀ (l : List α) (acc : Expr),
    eval I ρ (l.foldl (fun acc a => acc + g a) acc) = eval I ρ acc + (l.map fun a => eval I ρ (g a)).sum
  | [], _ => by simp
  | a :: l, acc => by
    simp only [List.foldl_cons, List.map_cons, List.sum_cons]
    rw [eval_foldl g l, eval_add]
    ring

/-- A sum in which only the entry at position `m` is not zero. -/
theorem sum_single_idx {α : Type} (g : α × Nat → ℝ) (m : Nat) : ∀ (l : List α) (off : Nat), (∀ a ∈ l.zipIdx off, a.2 ≠ m → g a = 0) →
    ((l.zipIdx off).map g).sum = if off ≤ m then (match l[m - off]? with | some a => g (a, m) | none => 0) else 0
  | [], off, _ => by simp
  | a :: l, off, h => by
    rw [List.zipIdx_cons, List.map_cons, List.sum_cons,
      sum_single_idx g m l (off + 1) fun b hb => h b (by rw [List.zipIdx_cons]; exact List.mem_cons_of_mem _ hb)]
    rcases lt_trichotomy off m with h1 | h1 | h1
    · rw [h (a, off) (by simp [List.zipIdx_cons]) (by simp; omega), if_pos (by omega), if_pos (by omega), zero_add]
      obtain ⟨d, rfl⟩ : ∃ d, m = off + 1 + d := ⟨m - (off + 1), by omega⟩
      rw [show off + 1 + d - (off + 1) = d by omega, show off + 1 + d - off = d + 1 by omega, List.getElem?_cons_succ]
    · subst h1
      simp
    · rw [h (a, off) (by simp [List.zipIdx_cons]) (by simp; omega), if_neg (by omega), if_neg (by omega), zero_add]

/-- The field of a costate is the unit vector of its state. -/
theorem eval_field {om : List (List Expr)} {names : List Name} {n i : Nat} {l : Name} (hn : names.length = 2 * n)
    (hl : names[n + i]? = some l) (hd : names.Nodup) (hc : UnitColumn om n i) (U : Name → Nat → ℝ → ℝ) (ρ : Name → ℝ) {r : Nat} (hr : r < 2 * n) :
    eval (real U) ρ ((field om names (sym l)).getD r 0) = if r = i then 1 else 0 := by
  have e1 : (field om names (sym l)).getD r 0 =
      names.zipIdx.foldl (fun acc nj => acc + (om.getD r []).getD nj.2 0 * (sym l).diff nj.1) 0 := by
    rw [field, List.getD_eq_getElem?_getD, List.getElem?_map, List.getElem?_range (by omega)]
    rfl
  rw [e1, eval_foldl_zipIdx (fun nj => (om.getD r []).getD nj.2 0 * (sym l).diff nj.1), eval_zero, zero_add,
    sum_single_idx _ (n + i)]
  · rw [if_pos (Nat.zero_le _), Nat.sub_zero, hl]
    simp only [diff, if_true, eval, Rat.cast_one, mul_one]
    exact hc r hr U ρ
  · intro a ha hne
    have ha2 : names[a.2]? = some a.1 := by
      rw [List.mem_zipIdx_iff_getElem?] at ha
      exact ha
    have : a.1 ≠ l := by
      rintro rfl
      obtain ⟨h1, h2⟩ := List.getElem?_eq_some_iff.1 ha2
      obtain ⟨h3, h4⟩ := List.getElem?_eq_some_iff.1 hl
      exact hne ((List.Nodup.getElem_inj_iff hd).1 (h2.trans h4.symm))
    simp only [diff, if_neg this.symm, eval, Rat.cast_zero, mul_zero]

/-- The equation that is solved for `x`: the conjugate coordinate of a costate is its state (where the constant is not zero; sympy
cancels it), if integration is right about zero and about integrands that do not contain the variable. -/
theorem conjugate_value {T : Tools} (hint0 : ∀ e y, (∀ U ρ, eval (real U) ρ e = 0) → ∀ U ρ, eval (real U) ρ (T.integrate e y) = 0)
    (hint1 : ∀ e a y, y ∉ free a → (∀ U ρ, eval (real U) ρ e = eval (real U) ρ a) →
      ∀ U ρ, eval (real U) ρ (T.integrate e y) = eval (real U) ρ a * ρ y)
    {om : List (List Expr)} {names : List Name} {n i : Nat} {x l c : Name} (hn : names.length = 2 * n) (hi : i < n)
    (hx : names[i]? = some x) (hl : names[n + i]? = some l) (hd : names.Nodup) (hcn : c ∉ names) (hc : UnitColumn om n i)
    (U : Name → Nat → ℝ → ℝ) (ρ : Name → ℝ) (h0 : ρ c ≠ 0) :
    eval (real U) ρ (conjugate T (c, sym l) names (field om names (sym l)) [(l, sym c)]) = ρ x := by
  have hlc : l ≠ c := by
    rintro rfl
    exact hcn (List.mem_of_getElem? hl)
  have hxc : x ≠ c := by
    rintro rfl
    exact hcn (List.mem_of_getElem? hx)
  have hxl : x ≠ l := by
    rintro rfl
    obtain ⟨h1, h2⟩ := List.getElem?_eq_some_iff.1 hx
    obtain ⟨h3, h4⟩ := List.getElem?_eq_some_iff.1 hl
    have := (List.Nodup.getElem_inj_iff hd).1 (h2.trans h4.symm)
    omega
  have hval : ∀ r, r < 2 * n → ∀ U ρ, eval (real U) ρ ((field om names (sym l)).getD r 0) = if r = i then 1 else 0 :=
    fun r hr U ρ => eval_field hn hl hd hc U ρ hr
  have hflen : (field om names (sym l)).length = 2 * n := by simp [field, hn]
  rw [conjugate, recursiveSub_single hlc, eval_subs, eval_foldl (fun nh : Name × Expr => T.integrate (sym l / sym c * nh.2) nh.1), eval_zero, zero_add]
  have hz : names.zip (field om names (sym l)) = names.zipIdx.map fun nj => (nj.1, (field om names (sym l)).getD nj.2 0) := by
    apply List.ext_getElem?
    intro r
    rw [List.getElem?_map, List.getElem?_zipIdx]
    by_cases hr : r < 2 * n
    · rw [List.getElem?_eq_getElem (by simp [hn, hflen, hr]), List.getElem?_eq_getElem (by omega)]
      simp [List.getD_eq_getElem?_getD, List.getElem?_eq_getElem (hflen ▸ hr : r < (field om names (sym l)).length)]
    · rw [List.getElem?_eq_none (by simp [hn, hflen]; omega), List.getElem?_eq_none (by omega)]
      rfl
  set σ := Function.update ρ l (eval (real U) ρ (sym c)) with hσ
  rw [hz, List.map_map, sum_single_idx _ i]
  · rw [if_pos (Nat.zero_le _), Nat.sub_zero, hx]
    simp only [Function.comp_apply]
    rw [hint1 _ (sym l / sym c) x (by
        change x ∉ free (mul (sym l) (inv (sym c)))
        simp [free, hxl, hxc]) (fun U ρ => by rw [eval_mul, hval i (by omega), if_pos rfl, mul_one]), eval_div]
    simp only [eval, hσ, Function.update_self, Function.update_of_ne hlc.symm, Function.update_of_ne hxl]
    rw [div_self h0, one_mul]
  · intro a ha hne
    simp only [Function.comp_apply]
    have ha2 : names[a.2]? = some a.1 := by
      rw [List.mem_zipIdx_iff_getElem?] at ha
      exact ha
    have hr : a.2 < 2 * n := hn ▸ (List.getElem?_eq_some_iff.1 ha2).1
    refine hint0 _ _ (fun U ρ => ?_) U σ
    rw [eval_mul, hval a.2 hr, if_neg hne, mul_zero]

section
variable {T : Tools} {p : Prob} {k i : Nat} {x l c : Name} {fx fl : Expr}

theorem Cyclic.idx_lt (h : Cyclic p k x l c i fx fl) : i < p.states.length := (List.getElem?_eq_some_iff.1 h.state).1

theorem Cyclic.name_x (h : Cyclic p k x l c i fx fl) : ((p.states ++ p.costates).map Dyn.name)[i]? = some x := by
  rw [List.getElem?_map, List.getElem?_append_left h.idx_lt, h.state]
  rfl

theorem Cyclic.name_l (h : Cyclic p k x l c i fx fl) : ((p.states ++ p.costates).map Dyn.name)[p.states.length + i]? = some l := by
  rw [List.getElem?_map, List.getElem?_append_right (by omega), Nat.add_sub_cancel_left, h.costate]
  rfl

theorem Cyclic.names_nodup (h : Cyclic p k x l c i fx fl) : ((p.states ++ p.costates).map Dyn.name).Nodup := by
  have := h.names
  simp only [Prob.dyns, List.map_append, List.append_assoc] at this ⊢
  rw [← List.append_assoc] at this
  exact (List.nodup_append.1 this).1

theorem Cyclic.length (h : Cyclic p k x l c i fx fl) : ((p.states ++ p.costates).map Dyn.name).length = 2 * p.states.length := by
  rw [List.length_map, List.length_append, h.paired]
  omega

theorem Cyclic.mem_x (h : Cyclic p k x l c i fx fl) : (⟨x, fx⟩ : Dyn) ∈ p.dyns := by
  simp only [Prob.dyns, List.mem_append]
  exact Or.inl (Or.inl (Or.inl (List.mem_of_getElem? h.state)))

theorem Cyclic.mem_l (h : Cyclic p k x l c i fx fl) : (⟨l, fl⟩ : Dyn) ∈ p.dyns := by
  simp only [Prob.dyns, List.mem_append]
  exact Or.inl (Or.inl (Or.inr (List.mem_of_getElem? h.costate)))

theorem Cyclic.ne_fixed (h : Cyclic p k x l c i fx fl) {d : Dyn} (hd : d ∈ p.dyns) : d.name ∉ p.fixed := fun hf =>
  (List.nodup_append.1 h.names).2.2 _ (List.mem_map_of_mem hd) _ hf rfl

theorem Cyclic.c_ne (h : Cyclic p k x l c i fx fl) {d : Dyn} (hd : d ∈ p.dyns) : c ≠ d.name := by
  rintro rfl
  apply h.fresh
  simp only [Prob.symbols, List.mem_append]
  exact Or.inl (Or.inl (Or.inl (List.mem_map_of_mem hd)))

theorem Cyclic.x_ne_l (h : Cyclic p k x l c i fx fl) : x ≠ l := by
  rintro rfl
  obtain ⟨h1, h2⟩ := List.getElem?_eq_some_iff.1 h.name_x
  obtain ⟨h3, h4⟩ := List.getElem?_eq_some_iff.1 h.name_l
  have := (List.Nodup.getElem_inj_iff h.names_nodup).1 (h2.trans h4.symm)
  have := h.idx_lt
  omega

/-- The kept part of a list of states. -/
def kept (f : Expr → Expr) (pi qi : Nat) (l : List Dyn) (off : Nat) : List Dyn :=
  ((l.zipIdx off).filter fun di => di.2 ≠ pi ∧ di.2 ≠ qi).map fun di => { di.1 with eom := f di.1.eom }

/-- The reduced problem. -/
def reduced (p : Prob) (k i : Nat) (x l c : Name) : Prob :=
  let f := sub2 [(l, sym c)] [(x, sym p.newQuad)]
  { p with
    parameters := p.parameters ++ [c]
    quads := p.quads ++ [⟨p.newQuad, (((p.states ++ p.costates)).zip (field (p.omega.getD []) ((p.states ++ p.costates).map Dyn.name) (sym l))).foldl
      (fun acc dh => acc + dh.1.eom * dh.2) 0⟩]
    states := kept f (p.states.length + i) i p.states 0
    costates := kept f (p.states.length + i) i p.costates p.states.length
    initial := p.initial.map (subCon f)
    terminal := p.terminal.map (subCon f)
    coms := (p.coms.zipIdx.filter fun ci => ci.2 ≠ k).map fun ci => (ci.1.1, f ci.1.2)
    omega := some (deleteTwo (p.omega.getD []) (p.states.length + i) i)
    chain := p.chain ++ [.mf] }

theorem mfReduce_eq (h : Cyclic p k x l c i fx fl) (hT : SolvesFor T p x l c) (hs : symplectic T p.omega = true)
    (hu : UnitColumn (p.omega.getD []) p.states.length i) :
    mfReduce T k p = if p.controlLaw = [] then .ok (reduced p k i x l c) else .error .attributeError := by
  have hlt := h.idx_lt
  have hatoms : ((sym l).free.dedup.filter fun s => decide (s ∉ p.parameters ++ p.constants)) = [l] := by
    have : l ∉ p.parameters ++ p.constants := fun hl => h.ne_fixed h.mem_l (by
      simp only [Prob.fixed, List.mem_append] at hl ⊢
      exact Or.inl (Or.inl hl))
    rw [free, List.Nodup.dedup (List.nodup_singleton l)]
    rw [List.filter_cons_of_pos (by simpa using this), List.filter_nil]
  have hidx : ((p.states ++ p.costates).map Dyn.name).idxOf l = p.states.length + i := by
    obtain ⟨h1, h2⟩ := List.getElem?_eq_some_iff.1 h.name_l
    rw [← h2]
    exact List.Nodup.idxOf_getElem h.names_nodup _ h1
  have hmem : l ∈ (p.states ++ p.costates).map Dyn.name := List.mem_of_getElem? h.name_l
  have hnu : noetherUnit T p.states.length (field (p.omega.getD []) ((p.states ++ p.costates).map Dyn.name) (sym l)) = .ok () := by
    set F := field (p.omega.getD []) ((p.states ++ p.costates).map Dyn.name) (sym l) with hF
    have hFi : T.zero (F.getD i 0) = false := by
      by_contra hz
      have := hT.zero _ (Bool.not_eq_false _ ▸ hz : T.zero (F.getD i 0) = true) (fun _ _ _ => 0) (fun _ => 0)
      rw [hF, eval_field h.length h.name_l h.names_nodup hu _ _ (by omega), if_pos rfl] at this
      exact one_ne_zero this
    have hlen : i < F.length := by
      rw [hF, field, List.length_map, List.length_range, h.length]
      omega
    rw [noetherUnit]
    cases hfi : F.findIdx? fun e => !T.zero e with
    | none =>
      rw [List.findIdx?_eq_none_iff] at hfi
      have := hfi (F.getD i 0) (by
        rw [List.getD_eq_getElem?_getD, List.getElem?_eq_getElem hlen]
        exact List.getElem_mem hlen)
      rw [hFi] at this
      exact absurd this (by simp)
    | some j =>
      have hj : j ≤ i := by
        by_contra hji
        rw [List.findIdx?_eq_some_iff_getElem] at hfi
        obtain ⟨h1, -, h3⟩ := hfi
        have := h3 i (by omega)
        rw [List.getD_eq_getElem?_getD, List.getElem?_eq_getElem hlen] at hFi
        simp only [Option.getD_some] at hFi
        rw [hFi] at this
        exact absurd this (by simp)
      simp only
      rw [if_pos (by omega)]
  have hli : lastIndex ((p.states ++ p.costates).map Dyn.name) [l] = p.states.length + i := by
    simp only [lastIndex, List.foldl_cons, List.foldl_nil]
    rw [if_pos hmem, hidx]
  rw [mfReduce, if_neg (by simp [hs]), h.com]
  simp only [hatoms, hT.par, List.map_cons, List.map_nil, hli, hnu]
  rw [if_neg (by simp)]
  simp only [Nat.le_add_right, if_true, Nat.add_sub_cancel_left, h.name_x]
  have hconj := hT.conj
  rw [Prob.newQuad] at hconj
  rw [hconj]
  by_cases hlaw : p.controlLaw = []
  · simp only [hlaw, ne_eq, not_true_eq_false, if_false, if_true]
    rw [List.filter_cons_of_pos (by simpa using hmem)]
    simp only [reduced, kept, Prob.newQuad, List.filter_nil, List.map_cons, List.map_nil, ne_eq, hlaw]
  · simp only [hlaw, ne_eq, not_false_eq_true, if_false, if_true]

/-- Membership in the reduced lists. -/
theorem mem_kept {f : Expr → Expr} {pi qi : Nat} {L : List Dyn} {off : Nat} {d : Dyn} :
    d ∈ kept f pi qi L off ↔ ∃ r e, L[r]? = some e ∧ off + r ≠ pi ∧ off + r ≠ qi ∧ d = { e with eom := f e.eom } := by
  simp only [kept, List.mem_map, List.mem_filter, decide_eq_true_eq, Prod.exists]
  constructor
  · rintro ⟨e, m, ⟨h1, h2⟩, rfl⟩
    rw [List.mem_zipIdx_iff_le_and_getElem?_sub] at h1
    exact ⟨m - off, e, h1.2, by rw [Nat.add_sub_cancel' h1.1]; exact h2.1, by rw [Nat.add_sub_cancel' h1.1]; exact h2.2, rfl⟩
  · rintro ⟨r, e, h1, h2, h3, rfl⟩
    refine ⟨e, off + r, ⟨?_, h2, h3⟩, rfl⟩
    rw [List.mem_zipIdx_iff_le_and_getElem?_sub]
    exact ⟨by simp, by simpa using h1⟩

end

end Beluga.Sym
