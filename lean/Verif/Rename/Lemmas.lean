import Verif.Rename.Spec

/-! # Renaming commutes with the functors -/

namespace Beluga.Rename

open Beluga.Sym Beluga.Sym.Expr

variable {r : Name → Name}

@[simp] theorem ren_add (a b : Expr) : ren r (a + b) = ren r a + ren r b := rfl
@[simp] theorem ren_mul (a b : Expr) : ren r (a * b) = ren r a * ren r b := rfl
@[simp] theorem ren_neg (a : Expr) : ren r (-a) = -ren r a := rfl
@[simp] theorem ren_sub (a b : Expr) : ren r (a - b) = ren r a - ren r b := rfl
@[simp] theorem ren_div (a b : Expr) : ren r (a / b) = ren r a / ren r b := rfl
@[simp] theorem ren_zero : ren r (0 : Expr) = 0 := rfl
@[simp] theorem ren_one : ren r (1 : Expr) = 1 := rfl
@[simp] theorem ren_two : ren r (2 : Expr) = 2 := rfl
@[simp] theorem ren_num (q : ℚ) : ren r (num q) = num q := rfl
@[simp] theorem ren_pi : ren r pi = pi := rfl
@[simp] theorem ren_sym (s : Name) : ren r (sym s) = sym (r s) := rfl
@[simp] theorem ren_fn (f : Fn) (a : Expr) : ren r (fn f a) = fn f (ren r a) := rfl

theorem ren_inj (hr : Function.Injective r) : ∀ {a b : Expr}, ren r a = ren r b → a = b
  | num _, b, h => by cases b <;> simp_all [ren]
  | pi, b, h => by cases b <;> simp_all [ren]
  | sym s, b, h => by
    cases b <;> simp only [ren, reduceCtorEq, sym.injEq] at h
    rw [hr h]
  | add a a', b, h => by
    cases b <;> simp only [ren, reduceCtorEq, add.injEq] at h
    rw [ren_inj hr h.1, ren_inj hr h.2]
  | mul a a', b, h => by
    cases b <;> simp only [ren, reduceCtorEq, mul.injEq] at h
    rw [ren_inj hr h.1, ren_inj hr h.2]
  | inv a, b, h => by
    cases b <;> simp only [ren, reduceCtorEq, inv.injEq] at h
    rw [ren_inj hr h]
  | pow a _, b, h => by
    cases b <;> simp only [ren, reduceCtorEq, pow.injEq] at h
    rw [ren_inj hr h.1, h.2]
  | fn _ a, b, h => by
    cases b <;> simp only [ren, reduceCtorEq, fn.injEq] at h
    rw [ren_inj hr h.2, h.1]

theorem ren_eq_sym (hr : Function.Injective r) {a : Expr} {u : Name} : ren r a = sym (r u) ↔ a = sym u :=
  ⟨fun h => ren_inj hr h, fun h => by rw [h]; rfl⟩

theorem free_ren : ∀ e : Expr, (ren r e).free = e.free.map r
  | num _ => rfl
  | pi => rfl
  | sym _ => rfl
  | add a b => by simp [ren, free, free_ren a, free_ren b]
  | mul a b => by simp [ren, free, free_ren a, free_ren b]
  | inv a => free_ren a
  | pow a _ => free_ren a
  | fn _ a => free_ren a

theorem mem_map_iff (hr : Function.Injective r) {x : Name} {l : List Name} : r x ∈ l.map r ↔ x ∈ l := by
  simp only [List.mem_map]
  exact ⟨fun ⟨y, hy, e⟩ => hr e ▸ hy, fun h => ⟨x, h, rfl⟩⟩

theorem subs_ren (hr : Function.Injective r) (x : Name) (new : Expr) :
    ∀ e : Expr, subs (r x) (ren r new) (ren r e) = ren r (subs x new e)
  | num _ => rfl
  | pi => rfl
  | sym s => by
    by_cases h : s = x
    · simp [ren, subs, h]
    · simp [ren, subs, h, hr.ne h]
  | add a b => by simp only [ren, subs, subs_ren hr x new a, subs_ren hr x new b]
  | mul a b => by simp only [ren, subs, subs_ren hr x new a, subs_ren hr x new b]
  | inv a => by simp only [ren, subs, subs_ren hr x new a]
  | pow a _ => by simp only [ren, subs, subs_ren hr x new a]
  | fn _ a => by simp only [ren, subs, subs_ren hr x new a]

theorem dfn_ren (f : Fn) (a : Expr) : dfn f (ren r a) = ren r (dfn f a) := by cases f <;> rfl

theorem diff_ren (hr : Function.Injective r) (x : Name) : ∀ e : Expr, (ren r e).diff (r x) = ren r (e.diff x)
  | num _ => rfl
  | pi => rfl
  | sym s => by
    by_cases h : s = x
    · simp [ren, diff, h]
    · simp [ren, diff, h, hr.ne h]
  | add a b => by simp only [ren, diff, diff_ren hr x a, diff_ren hr x b]
  | mul a b => by simp only [ren, diff, diff_ren hr x a, diff_ren hr x b]
  | inv a => by simp only [ren, diff, diff_ren hr x a]
  | pow a _ => by simp only [ren, diff, diff_ren hr x a]
  | fn _ a => by simp only [ren, diff, diff_ren hr x a, dfn_ren]

theorem eval_ren {K : Type _} [Field K] (I : Interp K) (ρ : Name → K) : ∀ e : Expr, eval I ρ (ren r e) = eval I (fun s => ρ (r s)) e
  | num _ => rfl
  | pi => rfl
  | sym _ => rfl
  | add a b => by simp only [ren, eval, eval_ren I ρ a, eval_ren I ρ b]
  | mul a b => by simp only [ren, eval, eval_ren I ρ a, eval_ren I ρ b]
  | inv a => by simp only [ren, eval, eval_ren I ρ a]
  | pow a _ => by simp only [ren, eval, eval_ren I ρ a]
  | fn _ a => by simp only [ren, eval, eval_ren I ρ a]

/-! ### Components -/

section
variable (hr : Function.Injective r) (x : Name) (e : Expr)
include hr

theorem dyn_subs_ren (d : Dyn) : (renD r d).subs (r x) (ren r e) = renD r (d.subs x e) := by
  simp [renD, Dyn.subs, subs_ren hr]

theorem con_subs_ren (c : Con) : (renC r c).subs (r x) (ren r e) = renC r (c.subs x e) := by
  cases c with
  | mk ex lo hi a m => cases lo <;> cases hi <;> simp [renC, Con.subs, subs_ren hr]

theorem quantity_subs_ren (q : Quantity) : (renQ r q).subs (r x) (ren r e) = renQ r (q.subs x e) := by
  simp [renQ, Quantity.subs, subs_ren hr, free_ren]

theorem switch_subs_ren (s : Switch) : (renW r s).subs (r x) (ren r e) = renW r (s.subs x e) := by
  simp [renW, Switch.subs, subs_ren hr]

theorem subsAll_ren (p : Prob) : (renP r p).subsAll (r x) (ren r e) = renP r (p.subsAll x e) := by
  simp only [renP, Prob.subsAll, List.map_map]
  congr 1 <;> first
    | exact List.map_congr_left fun d _ => dyn_subs_ren hr x e d
    | exact List.map_congr_left fun d _ => con_subs_ren hr x e d
    | exact List.map_congr_left fun d _ => quantity_subs_ren hr x e d
    | exact List.map_congr_left fun d _ => switch_subs_ren hr x e d
    | exact subs_ren hr x e _
    | skip
  · cases p.hamiltonian <;> simp [subs_ren hr]
  · refine List.map_congr_left fun d _ => ?_
    simp only [Function.comp, List.map_map]
    exact List.map_congr_left fun y _ => subs_ren hr x e y
  · exact List.map_congr_left fun c _ => by simp [subs_ren hr]
  · exact List.map_congr_left fun c _ => by simp [subs_ren hr]

end

theorem rashsMult_ren (tol : Expr) (conds : List Expr) :
    rashsMult (ren r tol) (conds.map (ren r)) = ren r (rashsMult tol conds) := by
  have : ∀ (conds : List Expr) (acc : Expr),
      (conds.map (ren r)).foldl (fun acc c => acc + 1 / (1 + fn .exp (c / ren r tol))) (ren r acc) =
        ren r (conds.foldl (fun acc c => acc + 1 / (1 + fn .exp (c / tol))) acc) := by
    intro conds
    induction conds with
    | nil => intro acc; rfl
    | cons c cs ih => intro acc; exact ih (acc + 1 / (1 + fn .exp (c / tol)))
  exact this conds 0

theorem rashsFunc_ren (tol : Expr) (fs : List Expr) (cs : List (List Expr)) :
    rashsFunc (ren r tol) (fs.map (ren r)) (cs.map (List.map (ren r))) = ren r (rashsFunc tol fs cs) := by
  have : ∀ (l : List (Expr × List Expr)) (acc : Expr),
      (l.map fun fc => (ren r fc.1, fc.2.map (ren r))).foldl (fun acc fc => acc + rashsMult (ren r tol) fc.2 * fc.1) (ren r acc) =
        ren r (l.foldl (fun acc fc => acc + rashsMult tol fc.2 * fc.1) acc) := by
    intro l
    induction l with
    | nil => intro acc; rfl
    | cons c cs ih =>
      intro acc
      simp only [List.map_cons, List.foldl_cons, rashsMult_ren]
      exact ih (acc + rashsMult tol c.2 * c.1)
  rw [rashsFunc, List.zip_map]
  exact this (fs.zip cs) 0

theorem sympify_ren (p : Prob) : (renP r p).sympify = p.sympify.map (renP r) := by
  simp only [Prob.sympify, renP, List.length_map]
  by_cases h : p.states.length < 1
  · rw [if_pos h, if_pos h]; rfl
  · rw [if_neg h, if_neg h]
    simp only [Except.map, renP, List.map_map]
    congr 2
    · exact List.map_congr_left fun q _ => by simp [Quantity.sympify, renQ, free_ren]
    · exact List.map_congr_left fun s _ => by simp [Switch.sympify, renW, rashsFunc_ren]

/-! ### Quantities -/

theorem mergeRow_ren (hr : Function.Injective r) (i : Nat) (qs : List Quantity) :
    ∀ j, mergeRow i (qs.map (renQ r)) j = (mergeRow i qs j).map (renQ r)
  | 0 => rfl
  | j + 1 => by
    simp only [mergeRow, mergeRow_ren hr i qs j, List.getElem?_map]
    cases (mergeRow i qs j)[i]? with
    | none => rfl
    | some qi =>
      cases (mergeRow i qs j)[j]? with
      | none => rfl
      | some qj =>
        simp only [Option.map_some, renQ, mem_map_iff hr]
        by_cases h : qi.name ∈ qj.cached
        · rw [if_pos h, if_pos h, List.map_set]
          congr 1
          exact quantity_subs_ren hr qi.name qi.expr qj
        · rw [if_neg h, if_neg h]

theorem mergeRows_ren (hr : Function.Injective r) (n : Nat) (qs : List Quantity) :
    ∀ i, mergeRows n (qs.map (renQ r)) i = (mergeRows n qs i).map (renQ r)
  | 0 => rfl
  | i + 1 => by simp only [mergeRows, mergeRows_ren hr n qs i, mergeRow_ren hr]

theorem elimLoop_ren (hr : Function.Injective r) (p : Prob) : ∀ k, elimLoop (renP r p) k = renP r (elimLoop p k)
  | 0 => rfl
  | k + 1 => by
    simp only [elimLoop, elimLoop_ren hr p k]
    have : (renP r (elimLoop p k)).quantities[k]? = (elimLoop p k).quantities[k]?.map (renQ r) := by
      simp [renP]
    rw [this]
    cases (elimLoop p k).quantities[k]? with
    | none => rfl
    | some q => exact subsAll_ren hr q.name q.expr _

theorem applyQuantities_ren (hr : Function.Injective r) (p : Prob) :
    applyQuantities (renP r p) = (applyQuantities p).map (renP r) := by
  have e : ({ renP r p with quantities := mergeRows (renP r p).quantities.length (renP r p).quantities (renP r p).quantities.length } : Prob) =
      renP r { p with quantities := mergeRows p.quantities.length p.quantities p.quantities.length } := by
    simp only [renP, List.length_map, mergeRows_ren hr]
  have hn : (renP r p).quantities.length = p.quantities.length := by simp [renP]
  by_cases h : p.sympified
  · rw [applyQuantities, applyQuantities, if_neg (by simp [renP, h]), if_neg (by simp [h])]
    refine congrArg Except.ok ((congrArg₂ elimLoop e hn).trans (elimLoop_ren hr _ _))
  · rw [applyQuantities, applyQuantities, if_pos (by simp [renP, h]), if_pos (by simp [h])]
    rfl

theorem preprocess_ren (hr : Function.Injective r) (p : Prob) : preprocess (renP r p) = (preprocess p).map (renP r) := by
  simp only [preprocess, sympify_ren]
  cases p.sympify with
  | error e => rfl
  | ok p1 => exact applyQuantities_ren hr p1

/-! ### Switches -/

theorem rashsLoop_ren (hr : Function.Injective r) (p : Prob) : ∀ k, rashsLoop (renP r p) k = renP r (rashsLoop p k)
  | 0 => rfl
  | k + 1 => by
    simp only [rashsLoop, rashsLoop_ren hr p k]
    have : (renP r (rashsLoop p k)).switches[k]? = (rashsLoop p k).switches[k]?.map (renW r) := by
      simp [renP]
    rw [this]
    cases (rashsLoop p k).switches[k]? with
    | none => rfl
    | some q => exact subsAll_ren hr q.name q.symFunc _

theorem rashs_ren (hr : Function.Injective r) (p : Prob) : rashs (renP r p) = (rashs p).map (renP r) := by
  simp only [rashs, rashsLoop_ren hr]
  have : (renP r p).switches.length = p.switches.length := by simp [renP]
  rw [this]
  have h' : (renP r p).sympified = p.sympified := rfl
  rw [h']
  cases p.sympified <;> simp [Except.map]

end Beluga.Rename
