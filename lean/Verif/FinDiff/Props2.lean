import Verif.FinDiff.Props
import Mathlib.Algebra.Order.Field.Basic

/-!
# Where the finite-difference formulas evaluate the function
-/

namespace Beluga.FinDiff

set_option linter.unusedSectionVars false

variable {K : Type} [Field K] [CharZero K] [DecidableEq K]

theorem product_mem {α : Type} {R : α → Prop} : ∀ {ls : List (List α)}, (∀ l ∈ ls, ∀ a ∈ l, R a) → ∀ p ∈ product ls, ∀ a ∈ p, R a
  | [], _, p, hp, a, ha => by
    rw [product, List.mem_singleton] at hp
    subst hp
    simp at ha
  | l :: ls, h, p, hp, a, ha => by
    rw [product, List.mem_flatMap] at hp
    obtain ⟨b, hb, hp⟩ := hp
    obtain ⟨p', hp', rfl⟩ := List.mem_map.1 hp
    rcases List.mem_cons.1 ha with rfl | ha
    · exact h l (List.mem_cons_self ..) _ hb
    · exact product_mem (fun l' hl' => h l' (List.mem_cons_of_mem _ hl')) p' hp' a ha

theorem forall₂_add {R : K → Prop} : ∀ {args s : List K}, s.length = args.length → (∀ h ∈ s, R h) →
    List.Forall₂ (fun a x => R (x - a)) args (List.zipWith (· + ·) args s)
  | [], [], _, _ => .nil
  | a :: args, h :: s, hl, hR => by
    refine .cons ?_ (forall₂_add (by simpa using hl) fun h' hh => hR h' (List.mem_cons_of_mem _ hh))
    rw [add_sub_cancel_left]
    exact hR h (List.mem_cons_self ..)
  | [], _ :: _, hl, _ => by simp at hl
  | _ :: _, [], hl, _ => by simp at hl

theorem forall₂_shift {R : K → Prop} {h : K} (hR : R h) : ∀ args : List K,
    List.Forall₂ (fun a x => R (x - a)) args (args.map (· + h))
  | [] => .nil
  | a :: args => .cons (by rw [add_sub_cancel_left]; exact hR) (forall₂_shift hR args)

theorem addStep_mem {R : K → Prop} {args s x : List K} (hR : ∀ h ∈ s, R h) (h : addStep args s = .ok x) :
    List.Forall₂ (fun a x => R (x - a)) args x := by
  unfold addStep at h
  split at h
  · next hl =>
    rw [← Except.ok.inj h]
    exact forall₂_add hl hR
  · split at h
    · rw [← Except.ok.inj h]
      exact forall₂_shift (hR _ (List.mem_cons_self ..)) args
    · cases h

theorem accumulate_congr {R : K → Prop} {f g : List K → K} {args : List K}
    (hfg : ∀ x, List.Forall₂ (fun a x => R (x - a)) args x → f x = g x) :
    ∀ {l : List (K × List K)}, (∀ p ∈ l, ∀ h ∈ p.2, R h) → accumulate f args l = accumulate g args l
  | [], _ => rfl
  | (c, s) :: rest, h => by
    rw [accumulate, accumulate, accumulate_congr hfg fun p hp => h p (List.mem_cons_of_mem _ hp)]
    cases hx : addStep args s with
    | error e => rfl
    | ok x => rw [Py.ok_bind, Py.ok_bind, hfg x (addStep_mem (h (c, s) (List.mem_cons_self ..)) hx)]

theorem mapM_mem {α β : Type} {f : α → Py β} {P : β → Prop} : ∀ {l : List α} {ys : List β}, l.mapM f = .ok ys →
    (∀ x ∈ l, ∀ y, f x = .ok y → P y) → ∀ y ∈ ys, P y
  | [], ys, h, _, y, hy => by
    rw [← Except.ok.inj h] at hy
    simp at hy
  | x :: l, ys, h, hP, y, hy => by
    rw [List.mapM_cons] at h
    obtain ⟨z, hz, h⟩ := Py.bind_ok.1 h
    obtain ⟨zs, hzs, h⟩ := Py.bind_ok.1 h
    rw [← Except.ok.inj h] at hy
    rcases List.mem_cons.1 hy with rfl | hy
    · exact hP x (List.mem_cons_self ..) _ hz
    · exact mapM_mem hzs (fun x hx => hP x (List.mem_cons_of_mem _ hx)) y hy

/-- The function is only evaluated at points whose offsets occur in the stencils. -/
theorem finDiff_congr {j : Jit} {R : K → Prop} {f g : List K → K} {argLen acc : Nat} {order : List Nat} {step : K} {s : Scheme}
    {args : List K} (hst : ∀ o ∈ order, ∀ st, stencil s acc step o = .ok st → ∀ q ∈ st, R q.2)
    (hfg : ∀ x, List.Forall₂ (fun a x => R (x - a)) args x → f x = g x) :
    finDiff j f argLen order step acc s args = finDiff j g argLen order step acc s args := by
  rw [finDiff, finDiff]
  by_cases ho : order.length > argLen
  · simp only [if_pos ho]
    rfl
  · simp only [if_neg ho]
    cases hu : j.user with
    | false => rfl
    | true =>
    simp only [not_true_eq_false, if_false]
    cases hd : j.derived with
    | false => rfl
    | true =>
    simp only [not_true_eq_false, if_false]
    cases hm : order.mapM (stencil s acc step) with
    | error e => rfl
    | ok st =>
      have hR := mapM_mem hm hst
      simp only [Py.ok_bind]
      split
      · cases st with
        | nil => rfl
        | cons p rest =>
          match args, hfg with
          | [], _ => rfl
          | [x], hfg =>
            dsimp only
            have : (p.map fun q => q.1 * f [x + q.2]) = p.map fun q => q.1 * g [x + q.2] := by
              refine List.map_congr_left fun q hq => ?_
              rw [hfg [x + q.2] (.cons (by rw [add_sub_cancel_left]; exact hR p (List.mem_cons_self ..) q hq) .nil)]
            rw [this]
          | _ :: _ :: _, _ => rfl
      · rw [zip_products, accumulate_congr hfg]
        intro p hp h hh
        obtain ⟨l, hl, rfl⟩ := List.mem_map.1 hp
        obtain ⟨q, hq, rfl⟩ := List.mem_map.1 hh
        exact product_mem hR l hl q hq

theorem stencil_mem {s : Scheme} {acc o : Nat} {step : K} {st : List (K × K)} (h : stencil s acc step o = .ok st)
    {R : K → Prop} (hR : ∀ g, grid s (o + acc) = .ok g → ∀ x ∈ g, R (step * x)) : ∀ q ∈ st, R q.2 := by
  rw [stencil] at h
  obtain ⟨g, hg, h⟩ := Py.bind_ok.1 h
  obtain ⟨c, hc, h⟩ := Py.bind_ok.1 h
  rw [← Except.ok.inj h]
  intro q hq
  obtain ⟨p, hp, rfl⟩ := List.mem_map.1 hq
  exact hR g hg p.2 (List.of_mem_zip (List.mem_of_mem_filter hp)).2

section
variable {K : Type} [Field K] [LinearOrder K] [IsStrictOrderedRing K]

/-- **C37** `f_diff` looks only forward: functions that agree at and above the point have the same derivative. -/
theorem C37_forward {j : Jit} {f g : List K → K} {args : List K} (h : ∀ x, List.Forall₂ (· ≤ ·) args x → f x = g x) (n : Nat)
    (order : List Nat) {step : K} (hs : 0 ≤ step) :
    numDiff j f n order .f_diff step args = numDiff j g n order .f_diff step args := by
  have hargs : f args = g args := h args (List.forall₂_same.2 fun _ _ => le_rfl)
  unfold numDiff
  split
  · rfl
  · rw [hargs]
  · dsimp only
    refine finDiff_congr (R := fun d => 0 ≤ d) (fun o _ st hst => stencil_mem (R := fun d => 0 ≤ d) hst fun gr hg x hx => ?_) fun x hx =>
      h x (hx.imp fun _ _ => sub_nonneg.1)
    rw [← Except.ok.inj hg] at hx
    obtain ⟨i, -, rfl⟩ := List.mem_map.1 hx
    positivity

/-- **C37** `b_diff` looks only backward. -/
theorem C37_backward {j : Jit} {f g : List K → K} {args : List K} (h : ∀ x, List.Forall₂ (· ≥ ·) args x → f x = g x) (n : Nat)
    (order : List Nat) {step : K} (hs : 0 ≤ step) :
    numDiff j f n order .b_diff step args = numDiff j g n order .b_diff step args := by
  have hargs : f args = g args := h args (List.forall₂_same.2 fun _ _ => le_rfl)
  unfold numDiff
  split
  · rfl
  · rw [hargs]
  · dsimp only
    refine finDiff_congr (R := fun d => d ≤ 0) (fun o _ st hst => stencil_mem (R := fun d => d ≤ 0) hst fun gr hg x hx => ?_) fun x hx =>
      h x (hx.imp fun _ _ => sub_nonpos.1)
    rw [← Except.ok.inj hg] at hx
    obtain ⟨i, hi, rfl⟩ := List.mem_map.1 hx
    have hi : (i : K) ≤ ((o + 1 : Nat) : K) - 1 := by
      have := List.mem_range.1 hi
      have h1 : i ≤ o := by omega
      have h2 : (i : K) ≤ (o : K) := by exact_mod_cast h1
      push_cast
      linarith
    refine mul_nonpos_of_nonneg_of_nonpos (by positivity) (by linarith)

/-- **C37** `c_diff` stays within half the number of points of the point, in units of the enlarged step. -/
theorem C37_central {j : Jit} {f g : List K → K} {args : List K} {n : Nat} {order : List Nat} {step r : K} (hs : 0 ≤ step)
    (hr : ∀ o ∈ order, step * 10 ^ order.sum * (((o : K) + 1) / 2) ≤ r)
    (h : ∀ x, List.Forall₂ (fun a b => |b - a| ≤ r) args x → f x = g x) (h0 : order ≠ []) :
    numDiff j f n order .c_diff step args = numDiff j g n order .c_diff step args := by
  have hr0 : 0 ≤ r := by
    obtain ⟨o, ho⟩ := List.exists_mem_of_ne_nil _ h0
    refine le_trans ?_ (hr o ho)
    positivity
  have hargs : f args = g args := h args (List.forall₂_same.2 fun _ _ => by rw [sub_self, abs_zero]; exact hr0)
  unfold numDiff
  split
  · rfl
  · rw [hargs]
  · dsimp only
    refine finDiff_congr (R := fun d => |d| ≤ r) (fun o ho st hst => stencil_mem (R := fun d => |d| ≤ r) hst fun gr hg x hx => ?_) h
    have hstep : 0 ≤ step * 10 ^ order.sum := by positivity
    have key : |x| ≤ ((o : K) + 1) / 2 := by
      rw [← Except.ok.inj hg] at hx
      obtain ⟨i, hi, rfl⟩ := List.mem_map.1 hx
      have hi := List.mem_range.1 hi
      have hn : ∃ num : Nat, num = (if (o + 1) % 2 = 0 then o + 1 + 1 else o + 1) ∧ num ≤ o + 2 ∧ 1 ≤ num :=
        ⟨_, rfl, by split <;> omega, by split <;> omega⟩
      obtain ⟨num, hnum, hle, h1⟩ := hn
      rw [← hnum] at hi ⊢
      have h2 : (i : K) ≤ (num : K) - 1 := by
        have : i + 1 ≤ num := hi
        have : ((i + 1 : Nat) : K) ≤ (num : K) := by exact_mod_cast this
        push_cast at this
        linarith
      have h3 : (num : K) ≤ (o : K) + 2 := by exact_mod_cast hle
      have h4 : (0 : K) ≤ (i : K) := Nat.cast_nonneg i
      rw [abs_le]
      constructor <;> linarith
    rw [abs_mul, abs_of_nonneg hstep]
    exact (mul_le_mul_of_nonneg_left key hstep).trans (hr o ho)

/-- `b_diff` does not see a change above the point, `c_diff` does. -/
example :
    let f : List Rat → Rat := fun x => if x.getD 0 0 ≤ 1 then x.getD 0 0 ^ 2 else 7
    let g : List Rat → Rat := fun x => x.getD 0 0 ^ 2
    numDiff ⟨true, true⟩ f 1 [1] .b_diff (1/10) [1] = numDiff ⟨true, true⟩ g 1 [1] .b_diff (1/10) [1] ∧
      numDiff ⟨true, true⟩ f 1 [1] .c_diff (1/10) [1] ≠ numDiff ⟨true, true⟩ g 1 [1] .c_diff (1/10) [1] := by decide +kernel

end

end Beluga.FinDiff
