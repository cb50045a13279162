import Verif.Numeric.Units

/-!
# Autoscaling and user functions or tables with units (C18)

`Problem.custom_function` and `Problem.table` take the units of the result and of the arguments
(symbolic_problem.py:150-162), store them (components_structures.py:199-209), and always pass `dim_consistent=True`; no
code reads the stored units.  Scaling acts on solutions (numeric/data_classes/NumericProblem.py:399-418); the equations
of the scaled problem are computed by the same compiled functions, with the table as it is given.
-/

namespace Beluga.Num

open Beluga.Sym Beluga.Sym.Expr

variable {U : Name → Nat → ℝ → ℝ} {Γ : Name → Expr}

/-! ### Specification -/

/-- Dimensional analysis with declared units for user functions: `F n` are the units of the argument and of the result of
the function `n`. -/
inductive DimF (U : Name → Nat → ℝ → ℝ) (Γ : Name → Expr) (F : Name → Expr × Expr) : Expr → Expr → Prop
  | num (q : ℚ) : DimF U Γ F (num q) 1
  | pi : DimF U Γ F pi 1
  | zero {d : Expr} : IsUnit U d → DimF U Γ F 0 d
  | sym (s : Name) : DimF U Γ F (sym s) (Γ s)
  | add {a b d : Expr} : DimF U Γ F a d → DimF U Γ F b d → DimF U Γ F (a + b) d
  | mul {a b d d' : Expr} : DimF U Γ F a d → DimF U Γ F b d' → DimF U Γ F (a * b) (d * d')
  | inv {a d : Expr} : DimF U Γ F a d → DimF U Γ F (inv a) (inv d)
  | pow {a d : Expr} (n : Nat) : DimF U Γ F a d → DimF U Γ F (pow a n) (pow d n)
  | sqrt {a d : Expr} : DimF U Γ F a d → DimF U Γ F (fn .sqrt a) (fn .sqrt d)
  | fn {a : Expr} (f : Fn) : (∀ n k, f ≠ .user n k) → DimF U Γ F a 1 → DimF U Γ F (fn f a) 1
  | user {a : Expr} (n : Name) (k : Nat) : DimF U Γ F a (F n).1 →
      DimF U Γ F (fn (.user n k) a) ((F n).2 / pow (F n).1 k)
  | conv {a d d' : Expr} : DimF U Γ F a d → SameUnit U d d' → DimF U Γ F a d'

/-- A function is the same in the scaled units: dividing its argument by the size of the argument's unit divides its
`k`-th derivative by the size of the result's unit over the `k`-th power of the argument's. -/
def Invariant (U : Name → Nat → ℝ → ℝ) (F : Name → Expr × Expr) (φ : Name → ℝ) : Prop :=
  ∀ n k x, U n k (x / eval (real U) φ (F n).1) = U n k x / (eval (real U) φ (F n).2 / eval (real U) φ (F n).1 ^ k)

/-! ### C18 -/

/-- **C18, with user functions.**  An expression of unit `d` evaluated at the scaled point has the value at the original
point divided by the size of `d`, provided the user functions and tables are the same in scaled units.  (Then the
consequences of `C18_expression` hold as well.) -/
theorem C18_tables {F : Name → Expr × Expr} {φ : Name → ℝ} (hφ : Sizes U Γ φ) (hF : ∀ n, IsUnit U (F n).1 ∧ IsUnit U (F n).2)
    (hU : Invariant U F φ) (ρ : Name → ℝ) {e d : Expr} (h : DimF U Γ F e d) :
    0 < eval (real U) φ d ∧ eval (real U) (scaled U Γ φ ρ) e = eval (real U) ρ e / eval (real U) φ d := by
  induction h with
  | num q => rw [eval_one', div_one]; exact ⟨one_pos, rfl⟩
  | pi => rw [eval_one', div_one]; exact ⟨one_pos, rfl⟩
  | zero hd => exact ⟨hd φ hφ.pos, by rw [eval_zero', eval_zero', zero_div]⟩
  | sym s => exact ⟨hφ.unit s φ hφ.pos, rfl⟩
  | add _ _ iha ihb =>
    refine ⟨iha.1, ?_⟩
    rw [eval_add, eval_add, iha.2, ihb.2, add_div]
  | mul _ _ iha ihb =>
    refine ⟨mul_pos iha.1 ihb.1, ?_⟩
    rw [eval_mul, eval_mul, eval_mul, iha.2, ihb.2, div_mul_div_comm]
  | inv _ ih =>
    refine ⟨inv_pos.2 ih.1, ?_⟩
    simp only [eval]
    rw [ih.2, inv_div_inv, inv_div]
  | pow n _ ih =>
    refine ⟨pow_pos ih.1 n, ?_⟩
    simp only [eval]
    rw [ih.2, div_pow]
  | sqrt _ ih =>
    refine ⟨Real.sqrt_pos.2 ih.1, ?_⟩
    change Real.sqrt _ = Real.sqrt _ / Real.sqrt _
    rw [ih.2, Real.sqrt_div' _ ih.1.le]
  | fn f _ _ ih =>
    refine ⟨ih.1, ?_⟩
    rw [eval_one', div_one] at ih ⊢
    simp only [eval]
    rw [ih.2]
  | user n k _ ih =>
    rw [eval_div]
    refine ⟨div_pos ((hF n).2 φ hφ.pos) (pow_pos ((hF n).1 φ hφ.pos) k), ?_⟩
    change U n k _ = U n k _ / (_ / _ ^ k)
    rw [ih.2]
    exact hU n k _
  | conv _ hs ih =>
    rw [← hs φ hφ.pos]
    exact ih

/-- Units of the example: lengths, speeds, times. -/
def tabΓ (s : Name) : Expr := if s = "x" then sym "m" else if s = "t" then sym "s" else 1

/-- **C18, violated for tables.**  The equation `x' = tab(x)` is consistent with the declared units (metres to metres per
second).  The table is constant, one metre per second, and `x = t` is a solution.  With metres of size two, the scaled
curve is not a solution of the equations that the scaled problem is computed with. -/
theorem C18_violated_tables : ∃ (U : Name → Nat → ℝ → ℝ) (F : Name → Expr × Expr) (φ : Name → ℝ) (dyn : List Dyn) (ρ : ℝ → Name → ℝ),
    (∀ n, IsUnit U (F n).1 ∧ IsUnit U (F n).2) ∧ Sizes U tabΓ φ ∧ dyn ≠ [] ∧
    (∀ d ∈ dyn, DimF U tabΓ F d.eom (tabΓ d.name / tabΓ "t")) ∧ Follows U dyn 1 0 1 ρ ∧
    ¬ Follows U dyn 1 (0 / eval (real U) φ (tabΓ "t")) (1 / eval (real U) φ (tabΓ "t"))
      (fun τ => scaled U tabΓ φ (ρ (τ * eval (real U) φ (tabΓ "t")))) := by
  refine ⟨fun _ k _ => if k = 0 then 1 else 0, fun _ => (sym "m", sym "m" / sym "s"), fun s => if s = "m" then 2 else 1,
    [⟨"x", fn (.user "tab" 0) (sym "x")⟩], fun t _ => t, ?_, ⟨?_, ?_⟩, by simp, ?_, ?_, ?_⟩
  · exact fun n => ⟨fun φ hφ => hφ "m", fun φ hφ => mul_pos (hφ "m") (inv_pos.2 (hφ "s"))⟩
  · intro s
    split <;> norm_num
  · intro s φ hφ
    rw [tabΓ]
    split
    · exact hφ "m"
    · split
      · exact hφ "s"
      · rw [eval_one']; exact one_pos
  · intro d hd
    rw [List.mem_singleton] at hd
    subst hd
    refine .conv (.user "tab" 0 (.sym "x")) fun φ hφ => ?_
    have h1 : tabΓ "x" = sym "m" := by decide +kernel
    have h2 : tabΓ "t" = sym "s" := by decide +kernel
    simp only [h1, h2, eval_div, eval, pow_zero, div_one]
  · intro t _ d hd
    rw [List.mem_singleton] at hd
    subst hd
    change HasDerivAt (fun τ => τ) (1 * 1) t
    rw [mul_one]
    exact hasDerivAt_id t
  · intro h
    have h1 : tabΓ "x" = sym "m" := by decide +kernel
    have h2 : tabΓ "t" = sym "s" := by decide +kernel
    have ms : ("s" : String) ≠ "m" := by decide
    have h3 : ∀ U : Name → Nat → ℝ → ℝ, eval (real U) (fun s => if s = "m" then (2 : ℝ) else 1) (tabΓ "t") = 1 := by
      intro U
      rw [h2]
      simp [eval, ms]
    have := h 0 (by rw [h3]; simp) _ (List.mem_singleton_self _)
    have h4 : HasDerivAt (fun τ : ℝ => τ / 2) (1 * 1) 0 := by
      refine (this.congr_deriv rfl).congr_of_eventuallyEq (Filter.Eventually.of_forall fun τ => ?_)
      simp only [scaled, h1, h3, eval, if_true, mul_one]
    have h5 : HasDerivAt (fun τ : ℝ => τ / 2) (1 / 2) 0 := (hasDerivAt_id (0 : ℝ)).div_const 2
    have := h4.unique h5
    norm_num at this

/-- A table that is a power law with the right units is fine: `x ↦ x ^ 2`, from metres to square metres. -/
example (φ : Name → ℝ) (h : ∀ s, 0 < φ s) : Invariant
    (fun _ k x => if k = 0 then x ^ 2 else if k = 1 then 2 * x else if k = 2 then 2 else 0)
    (fun _ => (sym "m", sym "m" * sym "m")) φ := by
  intro n k x
  have hm := (h "m").ne'
  simp only [eval]
  rcases k with _ | _ | _ | k
  · simp; field_simp
  · simp; field_simp
  · simp; field_simp
  · simp

end Beluga.Num
