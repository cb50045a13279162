import Mathlib.Data.Rat.Defs
import Mathlib.Data.Rat.Cast.Defs
import Mathlib.Algebra.Field.Basic
import Mathlib.Algebra.Field.Rat
import Mathlib.Algebra.BigOperators.Group.List.Basic
import Mathlib.Algebra.BigOperators.Ring.List
import Mathlib.Analysis.SpecialFunctions.Sqrt
import Mathlib.Analysis.SpecialFunctions.ExpDeriv
import Mathlib.Analysis.SpecialFunctions.Log.Deriv
import Mathlib.Analysis.SpecialFunctions.Trigonometric.Deriv
import Mathlib.Analysis.SpecialFunctions.Trigonometric.ArctanDeriv
import Mathlib.Analysis.Calculus.Deriv.Inv
import Mathlib.Analysis.Calculus.Deriv.Pow
import Mathlib.Analysis.Calculus.Deriv.Mul
import Mathlib.Analysis.Calculus.Deriv.Comp

/-!
# Expressions

The part of sympy's expression language that beluga manipulates: numbers, symbols, sums, products, reciprocals,
powers, elementary functions, and user functions/tables of one argument (with their derivatives, which beluga names
separately, `custom_functions.py:105-125`, `tables.py:72-147`).

sympy rewrites expressions automatically (`x + 0` becomes `x`, ...); the model does not, so its theorems speak about
the *value* of an expression and about the symbols that occur in it.
-/

namespace Beluga.Sym

/-- Symbols are identified by their name (`sympy.Symbol(name)`, components_structures.py:46). -/
abbrev Name := String

/-- Unary functions; `user n k` is the `k`-th derivative of the user function or table `n`. -/
inductive Fn where
  | sin | cos | exp | log | sqrt | atan
  | user (n : Name) (k : Nat)
  deriving DecidableEq

/-- Expressions. -/
inductive Expr where
  | num (q : ℚ)
  | pi
  | sym (s : Name)
  | add (a b : Expr)
  | mul (a b : Expr)
  | inv (a : Expr)
  | pow (a : Expr) (n : Nat)
  | fn (f : Fn) (a : Expr)
  deriving DecidableEq

namespace Expr

instance : Add Expr := ⟨add⟩
instance : Mul Expr := ⟨mul⟩
instance : Neg Expr := ⟨fun a => mul (num (-1)) a⟩
instance : Sub Expr := ⟨fun a b => add a (mul (num (-1)) b)⟩
instance : Div Expr := ⟨fun a b => mul a (inv b)⟩
instance : OfNat Expr n := ⟨num n⟩

/-- Meaning of the constant and of the functions. -/
structure Interp (K : Type _) where
  pi : K
  fn : Fn → K → K

/-- Value of an expression. -/
def eval {K : Type _} [Field K] (I : Interp K) (ρ : Name → K) : Expr → K
  | num q => (q : K)
  | pi => I.pi
  | sym s => ρ s
  | add a b => eval I ρ a + eval I ρ b
  | mul a b => eval I ρ a * eval I ρ b
  | inv a => (eval I ρ a)⁻¹
  | pow a n => eval I ρ a ^ n
  | fn f a => I.fn f (eval I ρ a)

/-- `expr.free_symbols`: the symbols that occur. -/
def free : Expr → List Name
  | num _ => []
  | pi => []
  | sym s => [s]
  | add a b => free a ++ free b
  | mul a b => free a ++ free b
  | inv a => free a
  | pow a _ => free a
  | fn _ a => free a

/-- `expr.subs(x, new)` for a symbol `x`. -/
def subs (x : Name) (new : Expr) : Expr → Expr
  | num q => num q
  | pi => pi
  | sym s => if s = x then new else sym s
  | add a b => add (subs x new a) (subs x new b)
  | mul a b => mul (subs x new a) (subs x new b)
  | inv a => inv (subs x new a)
  | pow a n => pow (subs x new a) n
  | fn f a => fn f (subs x new a)

/-- Derivative of a unary function, as an expression of its argument. -/
def dfn (f : Fn) (a : Expr) : Expr :=
  match f with
  | .sin => fn .cos a
  | .cos => -fn .sin a
  | .exp => fn .exp a
  | .log => inv a
  | .sqrt => inv (num 2 * fn .sqrt a)
  | .atan => inv (num 1 + pow a 2)
  | .user n k => fn (.user n (k + 1)) a

/-- `expr.diff(x)`. -/
def diff (x : Name) : Expr → Expr
  | num _ => num 0
  | pi => num 0
  | sym s => if s = x then num 1 else num 0
  | add a b => add (diff x a) (diff x b)
  | mul a b => add (mul (diff x a) b) (mul a (diff x b))
  | inv a => mul (num (-1)) (mul (diff x a) (pow (inv a) 2))
  | pow a n => mul (mul (num n) (pow a (n - 1))) (diff x a)
  | fn f a => mul (dfn f a) (diff x a)

section
variable {K : Type _} [Field K] (I : Interp K) (ρ : Name → K)

@[simp] theorem eval_add (a b : Expr) : eval I ρ (a + b) = eval I ρ a + eval I ρ b := rfl
@[simp] theorem eval_mul (a b : Expr) : eval I ρ (a * b) = eval I ρ a * eval I ρ b := rfl

end

section
variable {K : Type _} [Field K] (I : Interp K) (ρ : Name → K)

@[simp] theorem eval_neg (a : Expr) : eval I ρ (-a) = -eval I ρ a := by
  change ((-1 : ℚ) : K) * eval I ρ a = _
  simp

@[simp] theorem eval_sub (a b : Expr) : eval I ρ (a - b) = eval I ρ a - eval I ρ b := by
  change eval I ρ a + ((-1 : ℚ) : K) * eval I ρ b = _
  simp [sub_eq_add_neg]

@[simp] theorem eval_div (a b : Expr) : eval I ρ (a / b) = eval I ρ a / eval I ρ b := by
  change eval I ρ a * (eval I ρ b)⁻¹ = _
  rw [div_eq_mul_inv]

@[simp] theorem eval_zero : eval I ρ (0 : Expr) = 0 := by
  change ((0 : ℚ) : K) = _
  simp

@[simp] theorem eval_one : eval I ρ (1 : Expr) = 1 := by
  change ((1 : ℚ) : K) = _
  simp

@[simp] theorem eval_two : eval I ρ (2 : Expr) = 2 := by
  change ((2 : ℚ) : K) = _
  simp

theorem eval_ofNat (n : Nat) : eval I ρ (OfNat.ofNat n : Expr) = (n : K) := by
  change ((n : ℚ) : K) = _
  simp

end

/-! ### Symbols and substitution -/

theorem eval_congr {K : Type _} [Field K] (I : Interp K) {ρ σ : Name → K} :
    ∀ {e : Expr}, (∀ s ∈ free e, ρ s = σ s) → eval I ρ e = eval I σ e
  | num _, _ => rfl
  | pi, _ => rfl
  | sym s, h => h s (by simp [free])
  | add a b, h => by
    simp only [eval]
    rw [eval_congr I fun s hs => h s (by simp [free, hs]), eval_congr I fun s hs => h s (by simp [free, hs])]
  | mul a b, h => by
    simp only [eval]
    rw [eval_congr I fun s hs => h s (by simp [free, hs]), eval_congr I fun s hs => h s (by simp [free, hs])]
  | inv a, h => by simp only [eval]; rw [eval_congr (e := a) I fun s hs => h s hs]
  | pow a n, h => by simp only [eval]; rw [eval_congr (e := a) I fun s hs => h s hs]
  | fn f a, h => by simp only [eval]; rw [eval_congr (e := a) I fun s hs => h s hs]

/-- Substituting an expression is giving the symbol the expression's value. -/
theorem eval_subs {K : Type _} [Field K] (I : Interp K) (ρ : Name → K) (x : Name) (new : Expr) :
    ∀ e : Expr, eval I ρ (subs x new e) = eval I (Function.update ρ x (eval I ρ new)) e
  | num _ => rfl
  | pi => rfl
  | sym s => by
    simp only [subs, eval]
    by_cases h : s = x
    · subst h; simp
    · rw [if_neg h, Function.update_of_ne h]; rfl
  | add a b => by simp only [subs, eval, eval_subs I ρ x new a, eval_subs I ρ x new b]
  | mul a b => by simp only [subs, eval, eval_subs I ρ x new a, eval_subs I ρ x new b]
  | inv a => by simp only [subs, eval, eval_subs I ρ x new a]
  | pow a n => by simp only [subs, eval, eval_subs I ρ x new a]
  | fn f a => by simp only [subs, eval, eval_subs I ρ x new a]

/-- In an environment where the symbol already has that value, substitution changes nothing. -/
theorem eval_subs_of_eq {K : Type _} [Field K] (I : Interp K) (ρ : Name → K) (x : Name) (new e : Expr)
    (h : ρ x = eval I ρ new) : eval I ρ (subs x new e) = eval I ρ e := by
  rw [eval_subs, ← h, Function.update_eq_self]

theorem mem_free_subs {x : Name} {new : Expr} {s : Name} :
    ∀ {e : Expr}, s ∈ free (subs x new e) ↔ (s ∈ free e ∧ s ≠ x) ∨ (s ∈ free new ∧ x ∈ free e)
  | num _ => by simp [subs, free]
  | pi => by simp [subs, free]
  | sym y => by
    simp only [subs]
    by_cases h : y = x
    · subst h; simp [free]
    · simp only [if_neg h, free, List.mem_singleton]
      constructor
      · rintro rfl; exact Or.inl ⟨rfl, h⟩
      · rintro (⟨h1, -⟩ | ⟨-, h1⟩)
        · exact h1
        · exact absurd h1.symm h
  | add a b => by
    simp only [subs, free, List.mem_append, mem_free_subs (e := a), mem_free_subs (e := b)]; tauto
  | mul a b => by
    simp only [subs, free, List.mem_append, mem_free_subs (e := a), mem_free_subs (e := b)]; tauto
  | inv a => by simp only [subs, free, mem_free_subs (e := a)]
  | pow a n => by simp only [subs, free, mem_free_subs (e := a)]
  | fn f a => by simp only [subs, free, mem_free_subs (e := a)]

theorem subs_of_not_mem {x : Name} {new : Expr} : ∀ {e : Expr}, x ∉ free e → subs x new e = e
  | num _, _ => rfl
  | pi, _ => rfl
  | sym s, h => by
    simp only [free, List.mem_singleton] at h
    simp only [subs, if_neg (fun e => h (Eq.symm e))]
  | add a b, h => by
    simp only [free, List.mem_append, not_or] at h
    simp only [subs, subs_of_not_mem h.1, subs_of_not_mem h.2]
  | mul a b, h => by
    simp only [free, List.mem_append, not_or] at h
    simp only [subs, subs_of_not_mem h.1, subs_of_not_mem h.2]
  | inv a, h => by simp only [subs, subs_of_not_mem (e := a) h]
  | pow a n, h => by simp only [subs, subs_of_not_mem (e := a) h]
  | fn f a, h => by simp only [subs, subs_of_not_mem (e := a) h]

/-! ### Derivatives -/

theorem mem_free_dfn {f : Fn} {a : Expr} {s : Name} (h : s ∈ free (dfn f a)) : s ∈ free a := by
  cases f with
  | sin => exact h
  | cos => exact h
  | exp => exact h
  | log => exact h
  | sqrt => exact h
  | atan => exact h
  | user n k => exact h

theorem mem_free_diff {x s : Name} : ∀ {e : Expr}, s ∈ free (diff x e) → s ∈ free e
  | num _, h => by simp [diff, free] at h
  | pi, h => by simp [diff, free] at h
  | sym y, h => by
    simp only [diff] at h
    split at h <;> simp [free] at h
  | add a b, h => by
    simp only [diff, free, List.mem_append] at h ⊢
    exact h.imp mem_free_diff mem_free_diff
  | mul a b, h => by
    simp only [diff, free, List.mem_append] at h ⊢
    rcases h with (h | h) | (h | h)
    · exact Or.inl (mem_free_diff h)
    · exact Or.inr h
    · exact Or.inl h
    · exact Or.inr (mem_free_diff h)
  | inv a, h => by
    simp only [diff, free, List.mem_append, List.not_mem_nil, false_or] at h ⊢
    rcases h with h | h
    · exact mem_free_diff h
    · exact h
  | pow a n, h => by
    simp only [diff, free, List.mem_append, List.not_mem_nil, false_or] at h ⊢
    rcases h with h | h
    · exact h
    · exact mem_free_diff h
  | fn f a, h => by
    simp only [diff, free, List.mem_append] at h ⊢
    rcases h with h | h
    · exact mem_free_dfn h
    · exact mem_free_diff h

theorem eval_diff_of_not_mem {K : Type _} [Field K] (I : Interp K) (ρ : Name → K) {x : Name} :
    ∀ {e : Expr}, x ∉ free e → eval I ρ (diff x e) = 0
  | num _, _ => by simp [diff, eval]
  | pi, _ => by simp [diff, eval]
  | sym s, h => by
    simp only [free, List.mem_singleton] at h
    simp only [diff, if_neg (fun e => h (Eq.symm e)), eval, Rat.cast_zero]
  | add a b, h => by
    simp only [free, List.mem_append, not_or] at h
    simp only [diff, eval, eval_diff_of_not_mem I ρ h.1, eval_diff_of_not_mem I ρ h.2, add_zero]
  | mul a b, h => by
    simp only [free, List.mem_append, not_or] at h
    simp only [diff, eval, eval_diff_of_not_mem I ρ h.1, eval_diff_of_not_mem I ρ h.2, zero_mul, mul_zero, add_zero]
  | inv a, h => by simp only [diff, eval, eval_diff_of_not_mem (e := a) I ρ h, zero_mul, mul_zero]
  | pow a n, h => by simp only [diff, eval, eval_diff_of_not_mem (e := a) I ρ h, mul_zero]
  | fn f a, h => by simp only [diff, eval, eval_diff_of_not_mem (e := a) I ρ h, mul_zero]

/-- The usual meaning over the reals, for a given meaning `U` of the user functions and their derivatives. -/
noncomputable def real (U : Name → Nat → ℝ → ℝ) : Interp ℝ where
  pi := Real.pi
  fn
    | .sin => Real.sin
    | .cos => Real.cos
    | .exp => Real.exp
    | .log => Real.log
    | .sqrt => Real.sqrt
    | .atan => Real.arctan
    | .user n k => U n k

/-- The value at which the argument of a function has to be for its derivative to exist. -/
def SmoothFn (U : Name → Nat → ℝ → ℝ) (f : Fn) (v : ℝ) : Prop :=
  match f with
  | .sin | .cos | .exp | .atan => True
  | .log | .sqrt => v ≠ 0
  | .user n k => HasDerivAt (U n k) (U n (k + 1) v) v

/-- Every sub-expression is differentiable at this point: no division by zero, no logarithm or root of zero. -/
def Smooth (U : Name → Nat → ℝ → ℝ) (ρ : Name → ℝ) : Expr → Prop
  | num _ | pi | sym _ => True
  | add a b | mul a b => Smooth U ρ a ∧ Smooth U ρ b
  | inv a => Smooth U ρ a ∧ eval (real U) ρ a ≠ 0
  | pow a _ => Smooth U ρ a
  | fn f a => Smooth U ρ a ∧ SmoothFn U f (eval (real U) ρ a)

theorem hasDerivAt_fn {U : Name → Nat → ℝ → ℝ} {f : Fn} {ρ : Name → ℝ} {a : Expr}
    (h : SmoothFn U f (eval (real U) ρ a)) :
    HasDerivAt ((real U).fn f) (eval (real U) ρ (dfn f a)) (eval (real U) ρ a) := by
  cases f with
  | sin => exact Real.hasDerivAt_sin _
  | cos =>
    have := Real.hasDerivAt_cos (eval (real U) ρ a)
    have e : eval (real U) ρ (dfn .cos a) = -Real.sin (eval (real U) ρ a) := by
      simp only [dfn, eval_neg]; rfl
    rw [e]; exact this
  | exp => exact Real.hasDerivAt_exp _
  | log => exact Real.hasDerivAt_log h
  | sqrt =>
    have := Real.hasDerivAt_sqrt h
    have e : eval (real U) ρ (dfn .sqrt a) = 1 / (2 * Real.sqrt (eval (real U) ρ a)) := by
      simp only [dfn, eval, real, one_div]
      norm_num
    rw [e]; exact this
  | atan =>
    have := Real.hasDerivAt_arctan (eval (real U) ρ a)
    have e : eval (real U) ρ (dfn .atan a) = 1 / (1 + (eval (real U) ρ a) ^ 2) := by
      simp only [dfn, eval, one_div]
      norm_num
    rw [e]; exact this
  | user n k => exact h

/-- The chain rule along a curve: if every symbol that occurs moves with velocity `v s`, the value of the expression
moves with the sum of partial derivatives times velocities.  `L` is any list of distinct symbols containing all the
moving ones. -/
theorem hasDerivAt_eval {U : Name → Nat → ℝ → ℝ} {ρ : ℝ → Name → ℝ} {v : Name → ℝ} {t : ℝ} {L : List Name}
    (hL : L.Nodup) : ∀ {e : Expr}, (∀ s ∈ free e, HasDerivAt (fun τ => ρ τ s) (v s) t) →
      (∀ s ∈ free e, s ∈ L ∨ v s = 0) → Smooth U (ρ t) e →
      HasDerivAt (fun τ => eval (real U) (ρ τ) e) ((L.map fun s => eval (real U) (ρ t) (diff s e) * v s).sum) t
  | num q, _, _, _ => by
    have : (L.map fun s => eval (real U) (ρ t) (diff s (num q)) * v s).sum = 0 := by
      apply List.sum_eq_zero
      intro x hx
      obtain ⟨s, -, rfl⟩ := List.mem_map.1 hx
      simp [diff, eval]
    rw [this]
    exact hasDerivAt_const t _
  | pi, _, _, _ => by
    have : (L.map fun s => eval (real U) (ρ t) (diff s pi) * v s).sum = 0 := by
      apply List.sum_eq_zero
      intro x hx
      obtain ⟨s, -, rfl⟩ := List.mem_map.1 hx
      simp [diff, eval]
    rw [this]
    exact hasDerivAt_const t _
  | sym y, h1, h2, _ => by
    have hv : (L.map fun s => eval (real U) (ρ t) (diff s (sym y)) * v s).sum = v y := by
      have e : (L.map fun s => eval (real U) (ρ t) (diff s (sym y)) * v s) = L.map fun s => if s = y then v y else 0 := by
        apply List.map_congr_left
        intro s _
        simp only [diff]
        by_cases hs : y = s
        · subst hs; simp [eval]
        · rw [if_neg hs, if_neg (fun e => hs e.symm)]; simp [eval]
      rw [e]
      by_cases hy : y ∈ L
      · clear e h1 h2
        induction L with
        | nil => simp at hy
        | cons a L ih =>
          rw [List.nodup_cons] at hL
          simp only [List.map_cons, List.sum_cons]
          by_cases ha : a = y
          · subst ha
            have : (L.map fun s => if s = a then v a else 0).sum = 0 := by
              apply List.sum_eq_zero
              intro x hx
              obtain ⟨s, hs, rfl⟩ := List.mem_map.1 hx
              rw [if_neg]
              rintro rfl
              exact hL.1 hs
            rw [this, if_pos rfl, add_zero]
          · rw [if_neg ha, zero_add]
            exact ih hL.2 (by simpa [Ne.symm ha] using hy)
      · have h0 : v y = 0 := (h2 y (by simp [free])).resolve_left hy
        rw [h0]
        apply List.sum_eq_zero
        intro x hx
        obtain ⟨s, -, rfl⟩ := List.mem_map.1 hx
        simp
    rw [hv]
    exact h1 y (by simp [free])
  | add a b, h1, h2, h3 => by
    have ha := hasDerivAt_eval hL (e := a) (fun s hs => h1 s (by simp [free, hs])) (fun s hs => h2 s (by simp [free, hs])) h3.1
    have hb := hasDerivAt_eval hL (e := b) (fun s hs => h1 s (by simp [free, hs])) (fun s hs => h2 s (by simp [free, hs])) h3.2
    have := ha.add hb
    refine (show HasDerivAt (fun τ => eval (real U) (ρ τ) (add a b)) _ t from this).congr_deriv ?_
    symm
    rw [← List.sum_map_add]
    congr 1
    apply List.map_congr_left
    intro s _
    simp only [diff, eval]
    ring
  | mul a b, h1, h2, h3 => by
    have ha := hasDerivAt_eval hL (e := a) (fun s hs => h1 s (by simp [free, hs])) (fun s hs => h2 s (by simp [free, hs])) h3.1
    have hb := hasDerivAt_eval hL (e := b) (fun s hs => h1 s (by simp [free, hs])) (fun s hs => h2 s (by simp [free, hs])) h3.2
    have := ha.mul hb
    refine (show HasDerivAt (fun τ => eval (real U) (ρ τ) (mul a b)) _ t from this).congr_deriv ?_
    symm
    rw [← List.sum_map_mul_right, ← List.sum_map_mul_left, ← List.sum_map_add]
    congr 1
    apply List.map_congr_left
    intro s _
    simp only [diff, eval]
    ring
  | inv a, h1, h2, h3 => by
    have ha := hasDerivAt_eval hL (e := a) h1 h2 h3.1
    have := ha.inv h3.2
    refine (show HasDerivAt (fun τ => eval (real U) (ρ τ) (inv a)) _ t from this).congr_deriv ?_
    symm
    rw [neg_div, div_eq_mul_inv, ← List.sum_map_mul_right, ← neg_one_mul, ← List.sum_map_mul_left]
    congr 1
    apply List.map_congr_left
    intro s _
    simp only [diff, eval]
    push_cast
    rw [inv_pow]
    ring
  | pow a n, h1, h2, h3 => by
    have ha := hasDerivAt_eval hL (e := a) h1 h2 h3
    have := ha.pow n
    refine (show HasDerivAt (fun τ => eval (real U) (ρ τ) (pow a n)) _ t from this).congr_deriv ?_
    symm
    rw [← List.sum_map_mul_left]
    congr 1
    apply List.map_congr_left
    intro s _
    simp only [diff, eval]
    push_cast
    ring
  | fn f a, h1, h2, h3 => by
    have ha := hasDerivAt_eval hL (e := a) h1 h2 h3.1
    have := (hasDerivAt_fn h3.2).comp t ha
    refine (show HasDerivAt (fun τ => eval (real U) (ρ τ) (fn f a)) _ t from this).congr_deriv ?_
    symm
    rw [← List.sum_map_mul_left]
    congr 1
    apply List.map_congr_left
    intro s _
    simp only [diff, eval]
    ring

/-- `diff` is the partial derivative. -/
theorem hasDerivAt_update {U : Name → Nat → ℝ → ℝ} {ρ : Name → ℝ} {x : Name} {e : Expr} (h : Smooth U ρ e) :
    HasDerivAt (fun z => eval (real U) (Function.update ρ x z) e) (eval (real U) ρ (diff x e)) (ρ x) := by
  have h0 : Function.update ρ x (ρ x) = ρ := Function.update_eq_self _ _
  have := hasDerivAt_eval (U := U) (ρ := fun z => Function.update ρ x z) (v := fun s => if s = x then 1 else 0)
    (t := ρ x) (L := [x]) (by simp) (e := e)
    (by
      intro s _
      by_cases hs : s = x
      · subst hs
        simp only [Function.update_self, if_true]
        exact hasDerivAt_id' _
      · simp only [Function.update_of_ne hs, if_neg hs]
        exact hasDerivAt_const _ _)
    (by
      intro s _
      by_cases hs : s = x
      · exact Or.inl (by simp [hs])
      · exact Or.inr (by simp [hs]))
    (by rw [h0]; exact h)
  simpa [h0] using this

end Expr

end Beluga.Sym
