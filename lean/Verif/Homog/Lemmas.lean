import Verif.Homog.Model
import Verif.Numeric.Units

/-! # Dimensional analysis of derivatives, substitutions and linear systems -/

namespace Beluga.Homog

open Beluga.Sym Beluga.Sym.Expr Beluga.Num

variable {U : Name → Nat → ℝ → ℝ} {Γ : Name → Expr}

theorem isUnit_one : IsUnit U 1 := fun φ _ => by rw [eval_one']; exact one_pos

theorem IsUnit.mul {a b : Expr} (ha : IsUnit U a) (hb : IsUnit U b) : IsUnit U (a * b) :=
  fun φ h => mul_pos (ha φ h) (hb φ h)

theorem IsUnit.inv {a : Expr} (ha : IsUnit U a) : IsUnit U (inv a) := fun φ h => inv_pos.2 (ha φ h)

theorem IsUnit.div {a b : Expr} (ha : IsUnit U a) (hb : IsUnit U b) : IsUnit U (a / b) := IsUnit.mul ha (IsUnit.inv hb)

theorem SameUnit.refl (d : Expr) : SameUnit U d d := fun _ _ => rfl

/-- Only units are assigned. -/
theorem Dim.isUnit (hΓ : ∀ s, IsUnit U (Γ s)) {e d : Expr} (h : Dim U Γ e d) : IsUnit U d :=
  fun _ hφ => (dim_aux ⟨hφ, hΓ⟩ (fun _ => 0) h).1

theorem Dim.subs {x : Name} {new : Expr} (hn : Dim U Γ new (Γ x)) {e d : Expr} (h : Dim U Γ e d) :
    Dim U Γ (Expr.subs x new e) d := by
  induction h with
  | num q => exact .num q
  | pi => exact .pi
  | zero hd => exact .zero hd
  | sym s =>
    simp only [Expr.subs]
    split
    · next h => subst h; exact hn
    · exact .sym s
  | add _ _ iha ihb => exact .add iha ihb
  | mul _ _ iha ihb => exact .mul iha ihb
  | inv _ ih => exact .inv ih
  | pow n _ ih => exact .pow n ih
  | sqrt _ ih => exact .sqrt ih
  | fn f _ ih => exact .fn f ih
  | conv _ hs ih => exact .conv ih hs

theorem Dim.neg {e d : Expr} (h : Dim U Γ e d) : Dim U Γ (-e) d :=
  .conv (.mul (.num (-1)) h) fun φ _ => by rw [eval_mul, eval_one', one_mul]

theorem Dim.sub {a b d : Expr} (ha : Dim U Γ a d) (hb : Dim U Γ b d) : Dim U Γ (a - b) d := .add ha (Dim.neg hb)

theorem Dim.div {a b d d' : Expr} (ha : Dim U Γ a d) (hb : Dim U Γ b d') : Dim U Γ (a / b) (d / d') := .mul ha (.inv hb)

theorem Dim.diff (hΓ : ∀ s, IsUnit U (Γ s)) (x : Name) {e d : Expr} (h : Dim U Γ e d) :
    Dim U Γ (Expr.diff x e) (d / Γ x) := by
  have key : ∀ {a : Expr}, Dim U Γ a 1 → Dim U Γ (num 2 * fn .sqrt a) 1 := fun h =>
    .conv (.mul (.num 2) (.fn .sqrt h)) fun φ _ => by rw [eval_mul, eval_one', one_mul]
  have inv1 : ∀ {a : Expr}, Dim U Γ a 1 → Dim U Γ (Expr.inv a) 1 := fun h =>
    .conv (.inv h) fun φ _ => by
      change (eval (real U) φ 1)⁻¹ = _
      rw [eval_one', inv_one]
  induction h with
  | num q => exact .zero (IsUnit.div isUnit_one (hΓ x))
  | pi => exact .zero (IsUnit.div isUnit_one (hΓ x))
  | zero hd => exact .zero (IsUnit.div hd (hΓ x))
  | sym s =>
    simp only [Expr.diff]
    split
    · next h =>
      subst h
      refine .conv (.num 1) fun φ hφ => ?_
      rw [eval_one', eval_div, div_self (hΓ s φ hφ).ne']
    · exact .zero (IsUnit.div (hΓ s) (hΓ x))
  | add _ _ iha ihb => exact .add iha ihb
  | @mul a b d d' ha hb iha ihb =>
    refine .add (.conv (.mul iha hb) fun φ hφ => ?_) (.conv (.mul ha ihb) fun φ hφ => ?_)
    · simp only [eval_mul, eval_div]; ring
    · simp only [eval_mul, eval_div]; ring
  | @inv a d ha ih =>
    refine .conv (.mul (.num (-1)) (.mul ih (.pow 2 (.inv ha)))) fun φ hφ => ?_
    have h1 := (Dim.isUnit hΓ ha φ hφ).ne'
    have h2 := (hΓ x φ hφ).ne'
    simp only [eval_div, eval, Nat.cast_one, Rat.cast_one]
    field_simp
  | @pow a d n ha ih =>
    have h1 := Dim.isUnit hΓ ha
    cases n with
    | zero =>
      have hz : Dim U Γ (num ((0 : Nat) : ℚ)) (Expr.inv d) := by
        have : (num ((0 : Nat) : ℚ) : Expr) = 0 := by
          change num _ = num _
          simp
        rw [this]
        exact .zero (IsUnit.inv h1)
      refine .conv (.mul (.mul hz (.pow _ ha)) ih) fun φ hφ => ?_
      have h2 := (h1 φ hφ).ne'
      simp only [eval_div, eval]
      simp
      field_simp
    | succ n =>
      refine .conv (.mul (.mul (.num _) (.pow _ ha)) ih) fun φ hφ => ?_
      simp only [eval_div, eval, Nat.add_sub_cancel, Nat.cast_one, Rat.cast_one]
      ring
  | @sqrt a d ha ih =>
    refine .conv (.mul (.inv (.mul (.num 2) (.sqrt ha))) ih) fun φ hφ => ?_
    have h1 := Dim.isUnit hΓ ha φ hφ
    have h2 : Real.sqrt (eval (real U) φ d) ≠ 0 := (Real.sqrt_pos.2 h1).ne'
    have h3 : Real.sqrt (eval (real U) φ d) * Real.sqrt (eval (real U) φ d) = eval (real U) φ d := Real.mul_self_sqrt h1.le
    simp only [eval_div, eval, Nat.cast_one, Rat.cast_one]
    change (1 * Real.sqrt _)⁻¹ * _ = Real.sqrt _ / _
    rw [one_mul]
    have h4 := (hΓ x φ hφ).ne'
    field_simp
    rw [pow_two, h3]
  | @fn a f ha ih =>
    have hd : Dim U Γ (dfn f a) 1 := by
      cases f with
      | sin => exact .fn .cos ha
      | cos => exact Dim.neg (.fn .sin ha)
      | exp => exact .fn .exp ha
      | log => exact inv1 ha
      | sqrt => exact inv1 (key ha)
      | atan =>
        refine inv1 (.add (.num 1) (.conv (.pow 2 ha) fun φ _ => ?_))
        simp only [eval, Nat.cast_one, Rat.cast_one, one_pow]
      | user n k => exact .fn _ ha
    refine .conv (.mul hd ih) fun φ _ => ?_
    rw [eval_mul, eval_one', one_mul]
  | conv _ hs ih => exact .conv ih fun φ hφ => by rw [eval_div, eval_div, hs φ hφ]

theorem Dim.foldl_add {α : Type} {f : α → Expr} {d : Expr} : ∀ (l : List α) {acc : Expr}, Dim U Γ acc d →
    (∀ x ∈ l, Dim U Γ (f x) d) → Dim U Γ (l.foldl (fun acc x => acc + f x) acc) d
  | [], _, h, _ => h
  | x :: l, acc, h, hl => Dim.foldl_add l (acc := acc + f x) (.add h (hl x (by simp))) fun y hy => hl y (by simp [hy])

end Beluga.Homog
