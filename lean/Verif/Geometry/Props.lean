import Verif.Geometry.Model
import Mathlib.Algebra.BigOperators.Intervals
import Mathlib.Tactic.Ring
import Mathlib.Tactic.LinearCombination

/-! # C31: the symplectic check, and the exterior derivative -/

namespace Beluga.Geo

open Beluga.Sym Beluga.Sym.Expr

/-! ### The loops -/

theorem foldl_flag {α : Type} (bad : α → Bool) : ∀ (l : List α) (out : Bool),
    l.foldl (fun out a => if bad a then false else out) out = (out && l.all fun a => !bad a)
  | [], out => by simp
  | a :: l, out => by
    rw [List.foldl_cons, foldl_flag bad l, List.all_cons]
    cases bad a <;> simp

theorem isSymplectic_mat {R : Type} [Zero R] [Neg R] [DecidableEq R] (rows cols : Nat) (e : Nat → Nat → R) :
    isSymplectic (.mat rows cols e) = true ↔ rows % 2 = 0 ∧ rows = cols ∧
      (∀ i < rows, e i i = 0) ∧ ∀ i < rows, ∀ j < rows, i ≠ j → e i j = -(e j i) := by
  rw [isSymplectic]
  by_cases h : rows % 2 ≠ 0 ∨ rows ≠ cols
  · rw [if_pos h]
    constructor
    · intro hf; cases hf
    · rintro ⟨h1, h2, -⟩
      rcases h with h | h
      · exact absurd h1 h
      · exact absurd h2 h
  · rw [if_neg h]
    rw [not_or, not_not, not_not] at h
    obtain ⟨h1, rfl⟩ := h
    have inner : ∀ (i : Nat) (out : Bool), ((List.range rows).foldl (fun out j =>
        let out := if i = j then (if e i j ≠ 0 then false else out) else out
        if i ≠ j then (if e i j ≠ -(e j i) then false else out) else out) out) =
        (out && (List.range rows).all fun j => !decide ((i = j ∧ e i j ≠ 0) ∨ (i ≠ j ∧ e i j ≠ -(e j i)))) := by
      intro i out
      rw [← foldl_flag]
      congr 1
      funext out j
      by_cases hij : i = j
      · subst hij
        by_cases h0 : e i i = 0 <;> simp [h0]
      · by_cases h0 : e i j = -(e j i) <;> simp [hij, h0]
    have outer : ((List.range rows).foldl (fun out i => (List.range rows).foldl (fun out j =>
        let out := if i = j then (if e i j ≠ 0 then false else out) else out
        if i ≠ j then (if e i j ≠ -(e j i) then false else out) else out) out) true) =
        (List.range rows).all fun i => (List.range rows).all fun j =>
          !decide ((i = j ∧ e i j ≠ 0) ∨ (i ≠ j ∧ e i j ≠ -(e j i))) := by
      have : ∀ (l : List Nat) (out : Bool), (l.foldl (fun out i => (List.range rows).foldl (fun out j =>
          let out := if i = j then (if e i j ≠ 0 then false else out) else out
          if i ≠ j then (if e i j ≠ -(e j i) then false else out) else out) out) out) =
          (out && l.all fun i => (List.range rows).all fun j =>
            !decide ((i = j ∧ e i j ≠ 0) ∨ (i ≠ j ∧ e i j ≠ -(e j i)))) := by
        intro l
        induction l with
        | nil => intro out; simp
        | cons i l ih =>
          intro out
          rw [List.foldl_cons, ih, inner, List.all_cons, Bool.and_assoc]
      rw [this]; simp
    rw [outer]
    simp only [List.all_eq_true, List.mem_range, Bool.not_eq_true', decide_eq_false_iff_not, not_or, not_and, not_not]
    constructor
    · intro h
      exact ⟨h1, trivial, fun i hi => (h i hi i hi).1 rfl, fun i hi j hj hne => (h i hi j hj).2 hne⟩
    · rintro ⟨-, -, h2, h3⟩ i hi j hj
      exact ⟨fun hij => by subst hij; exact h2 i hi, h3 i hi j hj⟩

/-! ### C31 -/

/-- The matrix has trivial kernel. -/
def NonDegenerate {R : Type} [Ring R] (n : Nat) (e : Nat → Nat → R) : Prop :=
  ∀ v : Nat → R, (∀ i < n, ∑ j ∈ Finset.range n, e i j * v j = 0) → ∀ j < n, v j = 0

/-- Exactly the even-dimensional square matrices with zero diagonal that equal minus their transpose are accepted. -/
theorem C31_accepts {R : Type} [Ring R] [DecidableEq R] (form : Form R) :
    isSymplectic form = true ↔ ∃ n e, form = .mat (2 * n) (2 * n) e ∧ (∀ i < 2 * n, e i i = 0) ∧
      ∀ i < 2 * n, ∀ j < 2 * n, e i j = -(e j i) := by
  cases form with
  | none => simp [isSymplectic]
  | other r => simp [isSymplectic]
  | mat rows cols e =>
    rw [isSymplectic_mat]
    constructor
    · rintro ⟨h1, rfl, h2, h3⟩
      obtain ⟨n, rfl⟩ : ∃ n, rows = 2 * n := ⟨rows / 2, by omega⟩
      refine ⟨n, e, rfl, h2, fun i hi j hj => ?_⟩
      by_cases hij : i = j
      · subst hij; simp [h2 i hi]
      · exact h3 i hi j hj hij
    · rintro ⟨n, e', h, h2, h3⟩
      cases h
      exact ⟨by omega, rfl, h2, fun i hi j hj _ => h3 i hi j hj⟩

/-- The standard form of any number of state/costate pairs is accepted, and it is non-degenerate; unequal numbers are
refused. -/
theorem C31_standard (R : Type) [Ring R] [DecidableEq R] (n m : Nat) :
    (n ≠ m → standardForm R n m = .error .valueError) ∧
    ∃ e, standardForm R n n = .ok (.mat (2 * n) (2 * n) e) ∧ isSymplectic (.mat (2 * n) (2 * n) e) = true ∧
      NonDegenerate (2 * n) e := by
  refine ⟨fun h => by rw [standardForm, if_pos h], ?_⟩
  refine ⟨_, by rw [standardForm, if_neg (by simp)], ?_, ?_⟩
  · rw [isSymplectic_mat]
    refine ⟨by omega, rfl, fun i hi => ?_, fun i hi j hj hij => ?_⟩
    · by_cases h0 : n = 0
      · omega
      · rw [if_neg (by omega), if_neg (by omega)]
    · by_cases h1 : i = j + n
      · rw [if_pos h1, if_neg (by omega), if_pos h1]
      · by_cases h2 : j = i + n
        · rw [if_neg h1, if_pos h2, if_pos h2, neg_neg]
        · rw [if_neg h1, if_neg h2, if_neg h2, if_neg h1, neg_zero]
  · intro v hv j hj
    beta_reduce at hv
    by_cases h : j < n
    · have := hv (j + n) (by omega)
      rw [Finset.sum_eq_single_of_mem j (by simp; omega)] at this
      · simpa using this
      · intro k hk hne
        rw [Finset.mem_range] at hk
        rw [if_neg (by omega), if_neg (by omega), zero_mul]
    · have := hv (j - n) (by omega)
      rw [Finset.sum_eq_single_of_mem j (by simp; omega)] at this
      · rw [if_neg (by omega), if_pos (by omega), one_mul] at this
        exact this
      · intro k hk hne
        rw [Finset.mem_range] at hk
        rw [if_neg (by omega), if_neg (by omega), zero_mul]

/-- The last part of the property is false: in every even dimension the zero matrix is accepted, which is as degenerate
as can be. -/
theorem C31_violated (R : Type) [Ring R] [Nontrivial R] [DecidableEq R] (n : Nat) (hn : 0 < n) :
    isSymplectic (.mat (2 * n) (2 * n) fun _ _ => (0 : R)) = true ∧
    ¬NonDegenerate (2 * n) (fun _ _ => (0 : R)) := by
  refine ⟨(isSymplectic_mat ..).2 ⟨by omega, rfl, by simp, by simp⟩, fun h => ?_⟩
  have := h (fun _ => 1) (by simp) 0 (by omega)
  exact one_ne_zero this

example : isSymplectic (.mat 2 2 fun i j => ((i : ℤ) - j)) = true := by decide +kernel

example : isSymplectic (.mat 2 2 fun i j => ((i : ℤ) + j)) = false := by decide +kernel

example : isSymplectic (.mat 3 3 fun i j => ((i : ℤ) - j)) = false := by decide +kernel

/-! ### Second derivatives -/

/-- The second derivative of a unary function, as an expression of its argument. -/
theorem eval_diff_dfn {K : Type _} [Field K] (I : Interp K) (ρ : Name → K) (f : Fn) (a : Expr) :
    ∃ c : K, ∀ x, eval I ρ ((dfn f a).diff x) = c * eval I ρ (a.diff x) := by
  cases f with
  | sin => exact ⟨_, fun x => rfl⟩
  | cos =>
    refine ⟨-I.fn .cos (eval I ρ a), fun x => ?_⟩
    change ((0 : ℚ) : K) * _ + ((-1 : ℚ) : K) * (_ * _) = _
    simp [dfn, eval]
  | exp => exact ⟨_, fun x => rfl⟩
  | log =>
    refine ⟨-((eval I ρ a)⁻¹ ^ 2), fun x => ?_⟩
    simp only [dfn, diff, eval]
    push_cast
    ring
  | sqrt =>
    refine ⟨-(((2 : ℚ) : K) * (((((2 : ℚ) : K) * I.fn .sqrt (eval I ρ a))⁻¹) ^ 2 *
      (((2 : ℚ) : K) * I.fn .sqrt (eval I ρ a))⁻¹)), fun x => ?_⟩
    change eval I ρ (diff x (inv (mul (num 2) (fn .sqrt a)))) = _
    simp only [dfn, diff, eval]
    push_cast
    ring
  | atan =>
    refine ⟨-((((1 : ℚ) : K) + eval I ρ a ^ 2)⁻¹ ^ 2 * (((2 : ℕ) : ℚ) : K) * eval I ρ a), fun x => ?_⟩
    change eval I ρ (diff x (inv (add (num 1) (pow a 2)))) = _
    simp only [diff, eval]
    push_cast
    ring
  | user n k => exact ⟨_, fun x => rfl⟩

/-- Mixed partial derivatives agree. -/
theorem eval_diff_comm {K : Type _} [Field K] (I : Interp K) (ρ : Name → K) (x y : Name) :
    ∀ e : Expr, eval I ρ ((e.diff x).diff y) = eval I ρ ((e.diff y).diff x)
  | num _ => rfl
  | pi => rfl
  | sym s => by
    simp only [diff]
    split <;> split <;> rfl
  | add a b => by
    simp only [diff, eval, eval_diff_comm I ρ x y a, eval_diff_comm I ρ x y b]
  | mul a b => by
    simp only [diff, eval, eval_diff_comm I ρ x y a, eval_diff_comm I ρ x y b]
    ring
  | inv a => by
    simp only [diff, eval, eval_diff_comm I ρ x y a]
    ring
  | pow a n => by
    simp only [diff, eval, eval_diff_comm I ρ x y a]
    ring
  | fn f a => by
    obtain ⟨c, hc⟩ := eval_diff_dfn I ρ f a
    simp only [diff, eval, eval_diff_comm I ρ x y a, hc]
    ring

/-! ### The exterior derivative -/

/-- Value of the array after the loop has run over the pairs below `(i, j)`. -/
theorem exteriorStep_ok {f : List Expr} {basis : List Name} (h : f.length = basis.length) (df : Nat → Nat → Expr)
    {i j : Nat} (hi : i < basis.length) (hj : j < basis.length) :
    exteriorStep f basis df i j = .ok (
      if i = j then (fun a b => if a = i ∧ b = j then 0 else df a b)
      else if i < j then (fun a b =>
        if a = i ∧ b = j then df a b + (f.getD j 0).diff (basis.getD i "") + -((f.getD i 0).diff (basis.getD j ""))
        else if a = j ∧ b = i then df a b + -((f.getD j 0).diff (basis.getD i "")) + (f.getD i 0).diff (basis.getD j "")
        else df a b)
      else df) := by
  have hfi : i < f.length := by omega
  have hfj : j < f.length := by omega
  have g1 : ∀ {α : Type} (l : List α) (k : Nat) (d : α), k < l.length →
      exteriorStep.getIdx l k = .ok (l.getD k d) := by
    intro α l k d hk
    simp [exteriorStep.getIdx, List.getD, List.getElem?_eq_getElem hk]
  rw [exteriorStep]
  by_cases hij : i = j
  · subst hij
    simp
  · by_cases hlt : i < j
    · simp only [if_neg hij, if_pos hlt]
      rw [g1 f j 0 hfj, g1 f i 0 hfi, g1 basis i "" hi, g1 basis j "" hj]
      simp only [bind, Except.bind, addAt, if_pos (And.intro hi hfj), if_pos (And.intro hj hfi)]
      congr 1
      funext a b
      by_cases h1 : a = i ∧ b = j
      · have h2 : ¬(a = j ∧ b = i) := by omega
        simp [h1.1, h1.2, hij, Ne.symm hij]
      · by_cases h2 : a = j ∧ b = i
        · simp [h2.1, h2.2, hij, Ne.symm hij]
        · simp [h1, h2]
    · simp [if_neg hij, if_neg hlt]

theorem foldlM_range {σ : Type} {f : σ → Nat → Py σ} (P : Nat → σ → Prop) {s0 : σ} (h0 : P 0 s0) :
    ∀ n, (∀ k < n, ∀ s, P k s → ∃ s', f s k = .ok s' ∧ P (k + 1) s') →
      ∃ s, (List.range n).foldlM f s0 = .ok s ∧ P n s
  | 0, _ => ⟨s0, rfl, h0⟩
  | n + 1, h => by
    obtain ⟨s, hs, hP⟩ := foldlM_range P h0 n fun k hk => h k (by omega)
    obtain ⟨s', hs', hP'⟩ := h n (by omega) s hP
    refine ⟨s', ?_, hP'⟩
    rw [List.range_succ, List.foldlM_append, hs]
    simp [bind, Except.bind, hs', pure, Except.pure]

/-- The exterior derivative of a one-form: entry `(i, j)` is `∂ᵢ fⱼ − ∂ⱼ fᵢ`. -/
theorem C55_one_form {f : List Expr} {basis : List Name} (h : f.length = basis.length) :
    ∃ df, exteriorOne f basis = .ok df ∧ ∀ {K : Type} [Field K] (I : Interp K) (ρ : Name → K),
      ∀ i < basis.length, ∀ j < basis.length, eval I ρ (df i j) =
        eval I ρ ((f.getD j 0).diff (basis.getD i "")) - eval I ρ ((f.getD i 0).diff (basis.getD j "")) := by
  -- pairs `(p, q)` with `p < q` are visited in lexicographic order
  let done (i j p q : Nat) : Prop := p < i ∨ (p = i ∧ q < j)
  let Inv (i j : Nat) (df : Nat → Nat → Expr) : Prop := ∀ {K : Type} [Field K] (I : Interp K) (ρ : Name → K),
    ∀ a < basis.length, ∀ b < basis.length,
      (done i j (min a b) (max a b) → eval I ρ (df a b) =
        eval I ρ ((f.getD b 0).diff (basis.getD a "")) - eval I ρ ((f.getD a 0).diff (basis.getD b ""))) ∧
      (¬done i j (min a b) (max a b) → eval I ρ (df a b) = 0)
  have key := foldlM_range (f := fun df i => (List.range f.length).foldlM (fun df j => exteriorStep f basis df i j) df)
    (P := fun i df => Inv i 0 df) (s0 := fun _ _ => 0)
    (by
      intro K _ I ρ a _ b _
      refine ⟨fun hd => ?_, fun _ => eval_zero I ρ⟩
      rcases hd with hd | ⟨-, hd⟩ <;> omega)
    basis.length
    (by
      intro i hi df hI
      have inner := foldlM_range (f := fun df j => exteriorStep f basis df i j) (P := fun j df => Inv i j df) (s0 := df) hI
        f.length
        (by
          intro j hj df hI
          rw [h] at hj
          refine ⟨_, exteriorStep_ok h df hi hj, ?_⟩
          intro K _ I ρ a ha b hb
          obtain ⟨h1, h2⟩ := hI I ρ a ha b hb
          by_cases hij : i = j
          · subst hij
            rw [if_pos rfl]
            by_cases hab : a = i ∧ b = i
            · obtain ⟨rfl, rfl⟩ := hab
              simp
            · rw [if_neg hab]
              have e : done i (i + 1) (min a b) (max a b) ↔ done i i (min a b) (max a b) := by
                simp only [done]; omega
              rw [e]
              exact ⟨h1, h2⟩
          · rw [if_neg hij]
            by_cases hlt : i < j
            · rw [if_pos hlt]
              by_cases hab : a = i ∧ b = j
              · obtain ⟨rfl, rfl⟩ := hab
                have hz := h2 (by simp only [done]; omega)
                have hd : done a (b + 1) (min a b) (max a b) := by simp only [done]; omega
                refine ⟨fun _ => ?_, fun hn => absurd hd hn⟩
                simp only [true_and, if_true, eval_add, eval_neg, hz]
                ring
              · by_cases hba : a = j ∧ b = i
                · obtain ⟨rfl, rfl⟩ := hba
                  have hz := h2 (by simp only [done]; omega)
                  have hd : done b (a + 1) (min a b) (max a b) := by simp only [done]; omega
                  refine ⟨fun _ => ?_, fun hn => absurd hd hn⟩
                  simp only [if_neg hab, true_and, if_true, eval_add, eval_neg, hz]
                  ring
                · simp only [if_neg hab, if_neg hba]
                  have e : done i (j + 1) (min a b) (max a b) ↔ done i j (min a b) (max a b) := by
                    simp only [done]; omega
                  rw [e]
                  exact ⟨h1, h2⟩
            · rw [if_neg hlt]
              by_cases hd : done i (j + 1) (min a b) (max a b) ∧ ¬done i j (min a b) (max a b)
              · simp only [done] at hd; omega
              · have e : done i (j + 1) (min a b) (max a b) ↔ done i j (min a b) (max a b) := by
                  constructor
                  · intro h'; by_contra hc; exact hd ⟨h', hc⟩
                  · simp only [done]; omega
                rw [e]
                exact ⟨h1, h2⟩)
      obtain ⟨df', hdf, hI'⟩ := inner
      refine ⟨df', hdf, ?_⟩
      intro K _ I ρ a ha b hb
      obtain ⟨h1, h2⟩ := hI' I ρ a ha b hb
      have e : done (i + 1) 0 (min a b) (max a b) ↔ done i f.length (min a b) (max a b) := by
        simp only [done]; omega
      rw [e]
      exact ⟨h1, h2⟩)
  obtain ⟨df, hdf, hI⟩ := key
  refine ⟨df, hdf, fun I ρ i hi j hj => ?_⟩
  exact (hI I ρ i hi j hj).1 (by simp only [done]; omega)

/-- `d ∘ d = 0`: the exterior derivative of a differential vanishes. -/
theorem C55_dd_zero (f : Expr) (basis : List Name) :
    ∃ df, exteriorOne (exteriorZero f basis) basis = .ok df ∧ ∀ {K : Type} [Field K] (I : Interp K) (ρ : Name → K),
      ∀ i < basis.length, ∀ j < basis.length, eval I ρ (df i j) = 0 := by
  obtain ⟨df, h1, h2⟩ := C55_one_form (f := exteriorZero f basis) (basis := basis) (by simp [exteriorZero])
  refine ⟨df, h1, fun I ρ i hi j hj => ?_⟩
  have e : ∀ k < basis.length, (exteriorZero f basis).getD k 0 = f.diff (basis.getD k "") := by
    intro k hk
    simp [exteriorZero, List.getD, List.getElem?_eq_getElem hk]
  rw [h2 I ρ i hi j hj, e i hi, e j hj, eval_diff_comm, sub_self]

/-- The differential is the list of partial derivatives: along every curve the value changes by `Σ dfᵢ dxᵢ`. -/
theorem C55_differential {U : Name → Nat → ℝ → ℝ} {ρ : ℝ → Name → ℝ} {v : Name → ℝ} {t : ℝ} {basis : List Name}
    (hb : basis.Nodup) (f : Expr) (hv : ∀ s ∈ f.free, HasDerivAt (fun τ => ρ τ s) (v s) t)
    (hfree : ∀ s ∈ f.free, s ∈ basis ∨ v s = 0) (hs : Smooth U (ρ t) f) :
    HasDerivAt (fun τ => eval (real U) (ρ τ) f)
      (((exteriorZero f basis).zip basis).map fun db => eval (real U) (ρ t) db.1 * v db.2).sum t := by
  have := hasDerivAt_eval hb hv hfree hs
  refine this.congr_deriv ?_
  congr 1
  rw [exteriorZero, List.zip_map_left, List.map_map]
  have : ∀ l : List Name, (l.map fun s => eval (real U) (ρ t) (diff s f) * v s) =
      (l.zip l).map ((fun db : Expr × Name => eval (real U) (ρ t) db.1 * v db.2) ∘ Prod.map (fun b => f.diff b) id) := by
    intro l
    induction l with
    | nil => rfl
    | cons a l ih => simp [ih]
  exact this basis

example : (exteriorOne [sym "x" * sym "y", sym "x"] ["x", "y"]).map (fun df =>
    [0, 1].map fun i => [0, 1].map fun j => eval (⟨3, fun _ x => x⟩ : Interp ℚ) (fun s => if s = "x" then 5 else 7) (df i j)) =
    .ok [[0, -4], [4, 0]] := by decide +kernel

/-! ### The Poisson bracket -/

theorem eval_foldl_add {K : Type} [Field K] (I : Interp K) (ρ : Name → K) (g : Nat → Expr) : ∀ (n : Nat) (acc : Expr),
    eval I ρ ((List.range n).foldl (fun h j => h + g j) acc) = eval I ρ acc + ∑ j ∈ Finset.range n, eval I ρ (g j)
  | 0, acc => by simp
  | n + 1, acc => by
    rw [List.range_succ, List.foldl_append, List.foldl_cons, List.foldl_nil, eval_add, eval_foldl_add I ρ g n,
      Finset.sum_range_succ, add_assoc]

/-- For an antisymmetric form the bracket is antisymmetric: the rate of `f` along the field of `g` is minus the rate of
`g` along the field of `f`; in particular no quantity changes along its own field. -/
theorem C55_bracket {K : Type} [Field K] (I : Interp K) (ρ : Name → K) (omega : Nat → Nat → Expr) (f g : Expr)
    (basis : List Name) (h : ∀ i < basis.length, ∀ j < basis.length, eval I ρ (omega i j) = -eval I ρ (omega j i)) :
    ∑ i ∈ Finset.range basis.length, eval I ρ (f.diff (basis.getD i "")) * eval I ρ ((poisson omega g basis).getD i 0) =
      -∑ i ∈ Finset.range basis.length,
        eval I ρ (g.diff (basis.getD i "")) * eval I ρ ((poisson omega f basis).getD i 0) := by
  have e : ∀ (g : Expr) (i : Nat), i < basis.length → eval I ρ ((poisson omega g basis).getD i 0) =
      ∑ j ∈ Finset.range basis.length, eval I ρ (omega i j) * eval I ρ (g.diff (basis.getD j "")) := by
    intro g i hi
    have : (poisson omega g basis).getD i 0 = (List.range basis.length).foldl
        (fun h j => h + omega i j * g.diff (basis.getD j "")) 0 := by
      simp [poisson, List.getD, hi]
    rw [this, eval_foldl_add I ρ (fun j => omega i j * g.diff (basis.getD j "")), eval_zero, zero_add]
    rfl
  rw [Finset.sum_congr rfl fun i hi => by rw [e g i (Finset.mem_range.1 hi)],
    Finset.sum_congr (f := fun i => eval I ρ (g.diff (basis.getD i "")) * eval I ρ ((poisson omega f basis).getD i 0)) rfl
      fun i hi => by rw [e f i (Finset.mem_range.1 hi)]]
  simp only [Finset.mul_sum]
  rw [Finset.sum_comm, ← Finset.sum_neg_distrib]
  apply Finset.sum_congr rfl
  intro j hj
  rw [← Finset.sum_neg_distrib]
  apply Finset.sum_congr rfl
  intro i hi
  rw [h i (Finset.mem_range.1 hi) j (Finset.mem_range.1 hj)]
  ring

example : (poisson (fun i j => if i = j + 1 then num (-1) else if j = i + 1 then num 1 else num 0) (sym "q" * sym "p")
    ["q", "p"]).map (eval (⟨3, fun _ x => x⟩ : Interp ℚ) (fun s => if s = "q" then 5 else 7)) = [5, -7] := by
  decide +kernel

end Beluga.Geo
