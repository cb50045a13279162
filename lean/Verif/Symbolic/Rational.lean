import Verif.Symbolic.Oracle

/-!
# Values at rational points

For concrete cases: where all symbols have rational values, the value of an expression without functions is computed in the
rationals, and so is whether it is defined.
-/

namespace Beluga.Sym.Expr

/-- The rationals without functions. -/
def ratI : Interp ℚ := ⟨0, fun _ _ => 0⟩

/-- No functions, no division by zero at the point `r`. -/
def okQ (r : Name → ℚ) : Expr → Bool
  | num _ | sym _ => true
  | pi | fn _ _ => false
  | add a b | mul a b => okQ r a && okQ r b
  | inv a => okQ r a && decide (eval ratI r a ≠ 0)
  | pow a _ => okQ r a

theorem okQ_sound {U : Name → Nat → ℝ → ℝ} {r : Name → ℚ} {ρ : Name → ℝ} : ∀ {e : Expr}, okQ r e = true →
    (∀ s ∈ free e, ρ s = (r s : ℝ)) →
    eval (real U) ρ e = ((eval ratI r e : ℚ) : ℝ) ∧ Defined (real U) ρ e ∧ Smooth U ρ e
  | num q, _, _ => ⟨by simp [eval], trivial, trivial⟩
  | sym s, _, h => ⟨h s (by simp [free]), trivial, trivial⟩
  | add a b, hk, h => by
    rw [okQ, Bool.and_eq_true] at hk
    obtain ⟨a1, a2, a3⟩ := okQ_sound (U := U) hk.1 fun s hs => h s (by simp [free, hs])
    obtain ⟨b1, b2, b3⟩ := okQ_sound (U := U) hk.2 fun s hs => h s (by simp [free, hs])
    exact ⟨by simp [eval, a1, b1], ⟨a2, b2⟩, ⟨a3, b3⟩⟩
  | mul a b, hk, h => by
    rw [okQ, Bool.and_eq_true] at hk
    obtain ⟨a1, a2, a3⟩ := okQ_sound (U := U) hk.1 fun s hs => h s (by simp [free, hs])
    obtain ⟨b1, b2, b3⟩ := okQ_sound (U := U) hk.2 fun s hs => h s (by simp [free, hs])
    exact ⟨by simp [eval, a1, b1], ⟨a2, b2⟩, ⟨a3, b3⟩⟩
  | inv a, hk, h => by
    rw [okQ, Bool.and_eq_true, decide_eq_true_eq] at hk
    obtain ⟨a1, a2, a3⟩ := okQ_sound (U := U) hk.1 h
    have hne : eval (real U) ρ a ≠ 0 := by rw [a1]; exact_mod_cast hk.2
    exact ⟨by simp [eval, a1], ⟨a2, hne⟩, ⟨a3, hne⟩⟩
  | pow a n, hk, h => by
    rw [okQ] at hk
    obtain ⟨a1, a2, a3⟩ := okQ_sound (U := U) hk h
    exact ⟨by simp [eval, a1], a2, a3⟩

end Beluga.Sym.Expr
