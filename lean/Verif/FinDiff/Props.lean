import Verif.FinDiff.Lemmas
import Mathlib.Analysis.Calculus.Taylor
import Mathlib.Tactic.Linarith
import Mathlib.Tactic.ComputeDegree

/-!
# C37: finite differences

The stencils differentiate polynomials exactly, in one and in several arguments, and smooth functions with an error that
vanishes with the expected power of the step.
-/

namespace Beluga.FinDiff

open Polynomial

set_option linter.unusedSectionVars false

section
variable {K : Type} [Field K]

/-- **C37.**  The generated coefficients differentiate every polynomial of degree below the number of points exactly, for
every set of distinct points (in any order and with any spacing) and every order below the number of points. -/
theorem C37_stencil {g : List K} (h : g.Nodup) {order : Nat} (ho : order < g.length) :
    ∃ c, coeffs order g = .ok c ∧ c.length = g.length ∧
      ∀ P : K[X], P.natDegree < g.length →
        (List.zipWith (fun c x => c * P.eval x) c g).sum = (derivative^[order] P).eval 0 := by
  refine ⟨_, coeffs_ok h ho, by simp, fun P hP => ?_⟩
  have hinj : Set.InjOn (fun i => g.getD i 0) (Finset.range g.length : Set Nat) := by
    intro i hi j hj hij
    simp only [Finset.coe_range, Set.mem_Iio] at hi hj
    exact getD_inj h i hi j hj hij
  have hdeg : P.degree < (Finset.range g.length).card := by
    rw [Finset.card_range]
    exact lt_of_le_of_lt degree_le_natDegree (by exact_mod_cast hP)
  have hP2 := Lagrange.eq_interpolate hinj hdeg
  rw [← coeff_zero_eq_eval_zero, coeff_iterate_derivative, zero_add, Nat.descFactorial_self]
  conv_rhs => rw [hP2, Lagrange.interpolate_apply, finsetSum_coeff, nsmul_eq_mul, Finset.mul_sum]
  have hg : g = (List.range g.length).map fun i : Nat => g.getD i 0 := by
    refine List.ext_getElem (by simp) fun i h1 h2 => ?_
    simp [List.getD, List.getElem?_eq_getElem h1]
  conv_lhs => rw [hg]
  rw [List.length_map, List.length_range, List.zipWith_map, List.zipWith_self, Finset.sum_range, ← List.sum_ofFn]
  congr 1
  refine List.ext_getElem (by simp) fun i h1 h2 => ?_
  simp only [List.getElem_map, List.getElem_range, List.getElem_ofFn, coeff_C_mul, der, ← hg]
  ring

/-- Without enough points the request is refused. -/
theorem C37_refuses (g : List K) (order : Nat) (h : g.length ≤ order) : coeffs order g = .error .runtimeWarning := by
  rw [coeffs, if_pos h]

end

section
variable {K : Type} [Field K] [CharZero K] [DecidableEq K]

/-- The number of grid points of a scheme. -/
def points (s : Scheme) (num : Nat) : Nat :=
  match s with
  | .central => if num % 2 = 0 then num + 1 else num
  | _ => num

theorem nodup_shift (n : Nat) (a : K) : ((List.range n).map fun i : Nat => a + (i : K)).Nodup := by
  rw [List.nodup_map_iff_inj_on List.nodup_range]
  intro i _ j _ h
  exact_mod_cast add_left_cancel h

theorem grid_ok (s : Scheme) (hs : s ≠ .other) (num : Nat) :
    ∃ g : List K, grid s num = .ok g ∧ g.Nodup ∧ g.length = points s num := by
  cases s with
  | forward =>
    refine ⟨_, rfl, ?_, by simp [points]⟩
    have := nodup_shift num (0 : K)
    simpa using this
  | backward => exact ⟨_, rfl, nodup_shift _ _, by simp [points]⟩
  | central => exact ⟨_, rfl, nodup_shift _ _, by simp [points]⟩
  | other => exact absurd rfl hs

theorem le_points (s : Scheme) (num : Nat) : num ≤ points s num := by
  cases s <;> simp only [points] <;> (try split) <;> omega

theorem iterate_derivative_affine (P : K[X]) (a x : K) (k : Nat) :
    derivative^[k] (P.comp (C a * X + C x)) = C (a ^ k) * (derivative^[k] P).comp (C a * X + C x) := by
  induction k with
  | zero => simp
  | succ k ih =>
    rw [Function.iterate_succ_apply', ih, derivative_C_mul, derivative_comp, Function.iterate_succ_apply']
    simp only [derivative_add, derivative_mul, derivative_C, derivative_X, zero_mul, mul_one, zero_add, add_zero, pow_succ,
      C_mul]
    ring

theorem sum_filter_map {α : Type} (l : List α) (c : α → K) (F : α → K) :
    ((l.filter fun p => c p ≠ 0).map fun p => c p * F p).sum = (l.map fun p => c p * F p).sum := by
  induction l with
  | nil => rfl
  | cons a l ih =>
    by_cases h : c a = 0
    · rw [List.filter_cons_of_neg (by simpa using h), ih, List.map_cons, List.sum_cons, h, zero_mul, zero_add]
    · rw [List.filter_cons_of_pos (by simpa using h), List.map_cons, List.map_cons, List.sum_cons, List.sum_cons, ih]

/-- The sum over the stencil of one argument. -/
theorem stencil_ok {s : Scheme} (hs : s ≠ .other) {acc : Nat} (ha : 0 < acc) (step : K) (order : Nat) :
    ∃ st, stencil s acc step order = .ok st ∧
      ∀ P : K[X], P.natDegree < points s (order + acc) → ∀ x,
        (st.map fun q => q.1 * P.eval (x + q.2)).sum = step ^ order * (derivative^[order] P).eval x := by
  obtain ⟨g, hg, hnd, hl⟩ := grid_ok (K := K) s hs (order + acc)
  have ho : order < g.length := by
    rw [hl]; have := le_points s (order + acc); omega
  obtain ⟨c, hc, hcl, hex⟩ := C37_stencil hnd ho
  refine ⟨_, by rw [stencil, hg, Py.ok_bind, hc, Py.ok_bind], fun P hP x => ?_⟩
  rw [List.map_map]
  have e1 := sum_filter_map (c.zip g) Prod.fst (fun p => P.eval (x + step * p.2))
  have e2 : (((c.zip g).filter fun p => p.1 ≠ 0).map
      ((fun q : K × K => q.1 * P.eval (x + q.2)) ∘ fun p => (p.1, step * p.2))).sum =
      ((c.zip g).map fun p => p.1 * P.eval (x + step * p.2)).sum := e1
  rw [e2]
  have hQ := hex (P.comp (C step * X + C x)) (by
    refine lt_of_le_of_lt natDegree_comp_le ?_
    rw [hl]
    have : (C step * X + C x).natDegree ≤ 1 := by compute_degree
    calc P.natDegree * (C step * X + C x).natDegree ≤ P.natDegree * 1 := Nat.mul_le_mul_left _ this
      _ < _ := by rw [mul_one]; exact hP)
  rw [iterate_derivative_affine] at hQ
  simp only [eval_mul, eval_C, eval_comp, eval_add, eval_X, mul_zero, zero_add] at hQ
  rw [← hQ]
  congr 1
  rw [List.zip_eq_zipWith, List.map_zipWith]
  congr 1
  funext a b
  simp only [add_comm]

/-! ### Several arguments -/

theorem product_map {α β : Type} (f : α → β) : ∀ ls : List (List α), product (ls.map (List.map f)) = (product ls).map (List.map f)
  | [] => rfl
  | l :: ls => by
    rw [List.map_cons, product, product_map f ls, product, List.flatMap_map, List.map_flatMap]
    simp only [List.map_map]
    rfl

theorem product_length {α : Type} : ∀ {ls : List (List α)}, ∀ l ∈ product ls, l.length = ls.length
  | [], l, h => by simp only [product, List.mem_singleton] at h; rw [h]; rfl
  | m :: ls, l, h => by
    rw [product, List.mem_flatMap] at h
    obtain ⟨a, -, h⟩ := h
    obtain ⟨l', hl', rfl⟩ := List.mem_map.1 h
    rw [List.length_cons, List.length_cons, product_length l' hl']

theorem zip_products (st : List (List (K × K))) :
    ((product (st.map fun l => l.map Prod.fst)).map List.prod).zip (product (st.map fun l => l.map Prod.snd)) =
      (product st).map fun l => ((l.map Prod.fst).prod, l.map Prod.snd) := by
  have e1 := product_map (Prod.fst : K × K → K) st
  have e2 := product_map (Prod.snd : K × K → K) st
  rw [show (st.map fun l => l.map Prod.fst) = st.map (List.map Prod.fst) from rfl, e1,
    show (st.map fun l => l.map Prod.snd) = st.map (List.map Prod.snd) from rfl, e2, List.map_map, List.zip_map']
  rfl

theorem product_one {α : Type} (l : List α) : product [l] = l.map fun a => [a] := by
  rw [product]
  induction l with
  | nil => rfl
  | cons a l ih => rw [List.flatMap_cons, ih]; rfl

theorem addStep_ok {args step : List K} (h : step.length = args.length) :
    addStep args step = .ok (List.zipWith (· + ·) args step) := by
  unfold addStep
  rw [if_pos h]

theorem accumulate_ok (f : List K → K) (args : List K) : ∀ (l : List (List (K × K))), (∀ s ∈ l, s.length = args.length) →
    accumulate f args (l.map fun s => ((s.map Prod.fst).prod, s.map Prod.snd)) =
      .ok ((l.map fun s => (s.map Prod.fst).prod * f (List.zipWith (· + ·) args (s.map Prod.snd))).sum)
  | [], _ => rfl
  | s :: l, h => by
    rw [List.map_cons, accumulate, addStep_ok (by simpa using h s (List.mem_cons_self ..)), Py.ok_bind,
      accumulate_ok f args l fun t ht => h t (List.mem_cons_of_mem _ ht), Py.ok_bind, List.map_cons, List.sum_cons]

/-- The value of a product of polynomials, one for each argument. -/
noncomputable def term (ps : List K[X]) (xs : List K) : K := (List.zipWith (fun P x => P.eval x) ps xs).prod

theorem sum_flatMap' {α β : Type} (F : β → K) (g : α → List β) : ∀ l : List α,
    ((l.flatMap g).map F).sum = (l.map fun a => ((g a).map F).sum).sum
  | [] => rfl
  | a :: l => by rw [List.flatMap_cons, List.map_append, List.sum_append, sum_flatMap' F g l, List.map_cons, List.sum_cons]

theorem sum_map_mul_const {α : Type} (F : α → K) (c : K) : ∀ l : List α, (l.map fun a => F a * c).sum = (l.map F).sum * c
  | [] => by simp
  | a :: l => by rw [List.map_cons, List.sum_cons, sum_map_mul_const F c l, List.map_cons, List.sum_cons, add_mul]

theorem sum_map_const_mul {α : Type} (F : α → K) (c : K) : ∀ l : List α, (l.map fun a => c * F a).sum = c * (l.map F).sum
  | [] => by simp
  | a :: l => by rw [List.map_cons, List.sum_cons, sum_map_const_mul F c l, List.map_cons, List.sum_cons, mul_add]

theorem sum_map_add' {α : Type} (F G : α → K) : ∀ l : List α, (l.map fun a => F a + G a).sum = (l.map F).sum + (l.map G).sum
  | [] => by simp
  | a :: l => by
    rw [List.map_cons, List.sum_cons, sum_map_add' F G l, List.map_cons, List.sum_cons, List.map_cons, List.sum_cons]
    ring

/-- What one stencil has to satisfy. -/
def Exact (s : Scheme) (acc : Nat) (step : K) (order : Nat) (st : List (K × K)) : Prop :=
  ∀ P : K[X], P.natDegree < points s (order + acc) → ∀ x,
    (st.map fun q => q.1 * P.eval (x + q.2)).sum = step ^ order * (derivative^[order] P).eval x

/-- A tensor product of exact stencils is exact on products of polynomials. -/
theorem separate {s : Scheme} {acc : Nat} {step : K} : ∀ {order : List Nat} {st : List (List (K × K))} {ps : List K[X]}
    {args : List K}, List.Forall₂ (Exact s acc step) order st →
    List.Forall₂ (fun o (P : K[X]) => P.natDegree < points s (o + acc)) order ps → args.length = order.length →
    ((product st).map fun l => (l.map Prod.fst).prod * term ps (List.zipWith (· + ·) args (l.map Prod.snd))).sum =
      step ^ order.sum * term (List.zipWith (fun o P => derivative^[o] P) order ps) args
  | [], _, _, args, .nil, .nil, h => by
    obtain rfl : args = [] := by simpa using h
    simp [product, term]
  | o :: order, st :: sts, P :: ps, x :: args, .cons hq hqs, .cons hP hPs, h => by
    rw [product, sum_flatMap']
    have ih := separate hqs hPs (args := args) (by simpa using h)
    have e : ∀ q : K × K, (((product sts).map (q :: ·)).map fun l =>
        (l.map Prod.fst).prod * term (P :: ps) (List.zipWith (· + ·) (x :: args) (l.map Prod.snd))).sum =
        q.1 * P.eval (x + q.2) *
          (step ^ order.sum * term (List.zipWith (fun o P => derivative^[o] P) order ps) args) := by
      intro q
      rw [← ih, ← sum_map_const_mul, List.map_map]
      congr 1
      refine List.map_congr_left fun l _ => ?_
      simp only [Function.comp, List.map_cons, List.prod_cons, List.zipWith_cons_cons, term]
      ring
    simp only [e]
    have et : term (List.zipWith (fun o P => derivative^[o] P) (o :: order) (P :: ps)) (x :: args) =
        (derivative^[o] P).eval x * term (List.zipWith (fun o P => derivative^[o] P) order ps) args := by
      rw [term, List.zipWith_cons_cons, List.zipWith_cons_cons, List.prod_cons, term]
    rw [sum_map_mul_const, hq P hP x, et, List.sum_cons, pow_add]
    ring
  | o :: order, _ :: _, _ :: _, [], _, _, h => by simp at h

/-- **C37.**  A derivative of any orders, by a forward, backward or central scheme of any accuracy and with any step, is
exact on every sum of products of polynomials whose degrees are below the number of points used for the argument: the
value is the mixed partial derivative.  (`f` only has to agree with the polynomial on lists of the right length.) -/
theorem C37_partial_derivative {j : Jit} (hj : j.user = true ∧ j.derived = true) {s : Scheme} (hs : s ≠ .other) {acc : Nat} (ha : 0 < acc) {step : K} (hstep : step ≠ 0)
    {order : List Nat} {f : List K → K} {terms : List (List K[X])}
    (hf : ∀ xs : List K, xs.length = order.length → f xs = (terms.map fun ps => term ps xs).sum)
    (hdeg : ∀ ps ∈ terms, List.Forall₂ (fun o (P : K[X]) => P.natDegree < points s (o + acc)) order ps)
    {args : List K} (hargs : args.length = order.length) :
    finDiff j f order.length order step acc s args =
      .ok ((terms.map fun ps => term (List.zipWith (fun o P => derivative^[o] P) order ps) args).sum) := by
  obtain ⟨st, hst, hq⟩ := Py.mapM_forall₂ (f := stencil s acc step) (Q := Exact s acc step) (l := order)
    (fun o _ => stencil_ok hs ha step o)
  have hlen : st.length = order.length := hq.length_eq.symm
  have hpow : step ^ order.sum ≠ 0 := pow_ne_zero _ hstep
  have key : ((product st).map fun l => (l.map Prod.fst).prod * f (List.zipWith (· + ·) args (l.map Prod.snd))).sum =
      step ^ order.sum * (terms.map fun ps => term (List.zipWith (fun o P => derivative^[o] P) order ps) args).sum := by
    have e1 : ((product st).map fun l => (l.map Prod.fst).prod * f (List.zipWith (· + ·) args (l.map Prod.snd))) =
        (product st).map fun l => (l.map Prod.fst).prod *
          (terms.map fun ps => term ps (List.zipWith (· + ·) args (l.map Prod.snd))).sum := by
      refine List.map_congr_left fun l hl => ?_
      rw [hf _ (by rw [List.length_zipWith, List.length_map, product_length l hl, hlen, hargs, min_self])]
    rw [e1]
    clear e1 hf
    induction terms with
    | nil => simp
    | cons ps terms ih =>
      simp only [List.map_cons, List.sum_cons, mul_add]
      rw [sum_map_add', ih fun qs hqs => hdeg qs (List.mem_cons_of_mem _ hqs),
        separate hq (hdeg ps (List.mem_cons_self ..)) hargs]
  unfold finDiff
  rw [if_neg (lt_irrefl _), hj.1, hj.2]
  change (order.mapM (stencil s acc step) >>= _) = _
  rw [hst, Py.ok_bind]
  by_cases h1 : order.length = 1
  · rw [if_pos h1]
    rw [h1] at hlen hargs
    obtain ⟨p, rfl⟩ := List.length_eq_one_iff.1 hlen
    obtain ⟨x, rfl⟩ := List.length_eq_one_iff.1 hargs
    dsimp only
    rw [if_neg (by simp)]
    congr 1
    rw [div_eq_iff hpow, mul_comm _ (step ^ order.sum), ← key]
    congr 1
    rw [product_one, List.map_map]
    refine List.map_congr_left fun q _ => ?_
    simp
  · rw [if_neg h1, if_neg (by simp)]
    dsimp only
    rw [zip_products, accumulate_ok f args _ fun l hl => by rw [product_length l hl, hlen, hargs], Py.ok_bind, key]
    congr 1
    rw [mul_div_assoc, mul_comm, div_mul_cancel₀ _ hpow]

/-- **C37**, violation: if numba does not compile the user's function or the derivative, there is no derivative, but an
`AttributeError` from the call that should report it. -/
theorem C37_violated_jit {j : Jit} (hj : j.user = false ∨ j.derived = false) {s : Scheme} (hs : s ≠ .other) {acc : Nat} (ha : 0 < acc)
    (step : K) {order : List Nat} {argLen : Nat} (hne : order ≠ []) (hlen : order.length ≤ argLen) (f : List K → K) (args : List K) :
    finDiff j f argLen order step acc s args = .error .attributeError := by
  unfold finDiff
  rw [if_neg (by omega)]
  cases hu : j.user with
  | false => rfl
  | true =>
    have hd : j.derived = false := by simpa [hu] using hj
    obtain ⟨st, hst, hq⟩ := Py.mapM_forall₂ (f := stencil s acc step) (Q := Exact s acc step) (l := order)
      (fun o _ => stencil_ok hs ha step o)
    change (order.mapM (stencil s acc step) >>= _) = _
    rw [hst, Py.ok_bind, hd]
    by_cases h1 : argLen = 1
    · rw [if_pos h1]
      cases st with
      | nil => cases hq; exact absurd rfl hne
      | cons p st => rfl
    · rw [if_neg h1]
      rfl

/-- The scheme belonging to a method name. -/
def schemeOf : Method → Scheme
  | .f_diff => .forward
  | .b_diff => .backward
  | .c_diff => .central
  | .other => .other

/-- **C37.**  The derivatives that user functions get (`gen_num_diff`: step `step · 10 ^ total order`, one extra point) are
the mixed partial derivatives of every sum of products of polynomials of degree at most the order (one more for central
differences of odd order).  An order without derivatives gives the function itself. -/
theorem C37_num_diff_partial {j : Jit} (hj : j.user = true ∧ j.derived = true) {m : Method} (hm : m ≠ .other) {step : K} (hstep : step ≠ 0) {order : List Nat} (hne : order ≠ [])
    {f : List K → K} {terms : List (List K[X])}
    (hf : ∀ xs : List K, xs.length = order.length → f xs = (terms.map fun ps => term ps xs).sum)
    (hdeg : ∀ ps ∈ terms, List.Forall₂ (fun o (P : K[X]) => P.natDegree < points (schemeOf m) (o + 1)) order ps)
    {args : List K} (hargs : args.length = order.length) :
    numDiff j f order.length order m step args =
      .ok ((terms.map fun ps => term (List.zipWith (fun o P => derivative^[o] P) order ps) args).sum) := by
  have h10 : step * 10 ^ order.sum ≠ 0 := mul_ne_zero hstep (pow_ne_zero _ (by norm_num))
  unfold numDiff
  split
  · next h => exact absurd (List.max?_eq_none_iff.1 h) hne
  · next h =>
    congr 1
    rw [hf _ hargs]
    congr 1
    refine List.map_congr_left fun ps hps => ?_
    have hz : ∀ o ∈ order, o = 0 := fun o ho => Nat.le_zero.1 ((List.max?_eq_some_iff.1 h).2 o ho)
    have hl := (hdeg ps hps).length_eq
    clear hdeg h hne hf hargs h10 hps
    congr 1
    induction order generalizing ps with
    | nil => cases ps with
      | nil => rfl
      | cons => cases hl
    | cons o order ih => cases ps with
      | nil => cases hl
      | cons P ps =>
        rw [List.zipWith_cons_cons, hz o (List.mem_cons_self ..), Function.iterate_zero_apply]
        exact congrArg _ (ih ps (fun o ho => hz o (List.mem_cons_of_mem _ ho)) (by simpa using hl))
  · cases m with
    | f_diff => exact C37_partial_derivative hj (by decide) one_pos h10 hf hdeg hargs
    | b_diff => exact C37_partial_derivative hj (by decide) one_pos h10 hf hdeg hargs
    | c_diff => exact C37_partial_derivative hj (by decide) one_pos h10 hf hdeg hargs
    | other => exact absurd rfl hm

end

/-! ### Concrete cases -/

example : coeffs 2 ([-1, 0, 1] : List ℚ) = .ok [1, -2, 1] := by decide +kernel
example : coeffs 1 ([0, 1, 3] : List ℚ) = .ok [-4/3, 3/2, -1/6] := by decide +kernel
example : coeffs 2 ([0, 1] : List ℚ) = .error .runtimeWarning := by decide +kernel
example : stencil .central 1 (1/10 : ℚ) 1 = .ok [(-1/2, -1/10), (1/2, 1/10)] := by decide +kernel

/-- `∂²/∂x∂y (x² y² + 3 x) = 4 x y`. -/
example : numDiff ⟨true, true⟩ (fun a : List ℚ => a.getD 0 0 ^ 2 * a.getD 1 0 ^ 2 + 3 * a.getD 0 0) 2 [1, 1] .c_diff (1/1000000) [2, 5] =
    .ok 40 := by decide +kernel

/-- The same with numba, which does not compile the derivatives of functions of two arguments. -/
example : numDiff ⟨true, false⟩ (fun a : List ℚ => a.getD 0 0 ^ 2 * a.getD 1 0 ^ 2 + 3 * a.getD 0 0) 2 [1, 1] .c_diff (1/1000000) [2, 5] =
    .error .attributeError := by decide +kernel

/-- If fewer orders than arguments are given, the single step is broadcast: all arguments are moved together.  (The
derivatives of user functions always pass one order for each argument.) -/
example : finDiff ⟨true, true⟩ (fun a : List ℚ => 3 * a.getD 0 0 + 5 * a.getD 1 0) 2 [1] (1/10) 1 .central [2, 7] = .ok 8 ∧
    finDiff ⟨true, true⟩ (fun a : List ℚ => 3 * a.getD 0 0 + 5 * a.getD 1 0) 2 [1, 0] (1/10) 1 .central [2, 7] = .ok 3 ∧
    finDiff ⟨true, true⟩ (fun a : List ℚ => a.sum) 3 [1, 0] (1/10) 1 .central [2, 7, 1] = .error .valueError := by decide +kernel

/-! ### Smooth functions -/

theorem grid_bound (s : Scheme) (num : Nat) {g : List ℝ} (h : grid s num = .ok g) : ∀ x ∈ g, |x| ≤ points s num := by
  intro x hx
  cases s with
  | forward =>
    cases h
    obtain ⟨i, hi, rfl⟩ := List.mem_map.1 hx
    rw [List.mem_range] at hi
    have : (i : ℝ) ≤ num := by exact_mod_cast hi.le
    simpa [points, abs_of_nonneg] using this
  | backward =>
    cases h
    obtain ⟨i, hi, rfl⟩ := List.mem_map.1 hx
    rw [List.mem_range] at hi
    have h1 : (i : ℝ) + 1 ≤ num := by exact_mod_cast hi
    have h2 : (0 : ℝ) ≤ i := Nat.cast_nonneg i
    rw [abs_le]
    simp only [points]
    constructor <;> linarith
  | central =>
    simp only [grid] at h
    cases h
    obtain ⟨i, hi, rfl⟩ := List.mem_map.1 hx
    rw [List.mem_range] at hi
    simp only [points]
    generalize (if num % 2 = 0 then num + 1 else num) = n at *
    have h1 : (i : ℝ) + 1 ≤ n := by exact_mod_cast hi
    have h2 : (0 : ℝ) ≤ i := Nat.cast_nonneg i
    rw [abs_le]
    constructor <;> linarith
  | other => cases h

/-- The stencil is a fixed list of coefficients and positions, scaled by the step. -/
theorem stencil_split {s : Scheme} (hs : s ≠ .other) {acc : Nat} (ha : 0 < acc) (order : Nat) :
    ∃ l : List (ℝ × ℝ), (∀ p ∈ l, |p.2| ≤ points s (order + acc)) ∧
      ∀ step, stencil s acc step order = .ok (l.map fun p => (p.1, step * p.2)) := by
  obtain ⟨g, hg, hnd, hl⟩ := grid_ok (K := ℝ) s hs (order + acc)
  have ho : order < g.length := by
    rw [hl]; have := le_points s (order + acc); omega
  obtain ⟨c, hc, -, -⟩ := C37_stencil hnd ho
  refine ⟨(c.zip g).filter fun p => p.1 ≠ 0, fun p hp => ?_, fun step => by
    rw [stencil, hg, Py.ok_bind, hc, Py.ok_bind]⟩
  exact grid_bound s _ hg _ (List.of_mem_zip (List.mem_filter.1 hp).1).2

/-- The Taylor polynomial. -/
noncomputable def taylorPoly (f : ℝ → ℝ) (x : ℝ) (n : Nat) : ℝ[X] :=
  ∑ i ∈ Finset.range n, C (iteratedDeriv i f x / i.factorial) * (X - C x) ^ i

theorem taylorPoly_degree (f : ℝ → ℝ) (x : ℝ) {n : Nat} (hn : 0 < n) : (taylorPoly f x n).natDegree < n := by
  refine lt_of_le_of_lt (natDegree_sum_le_of_forall_le _ _ (n := n - 1) fun i hi => ?_) (by omega)
  rw [Finset.mem_range] at hi
  refine (natDegree_C_mul_le _ _).trans ((natDegree_pow_le).trans ?_)
  rw [natDegree_X_sub_C]
  omega

theorem taylorPoly_derivative (f : ℝ → ℝ) (x : ℝ) {n k : Nat} (hk : k < n) :
    (derivative^[k] (taylorPoly f x n)).eval x = iteratedDeriv k f x := by
  rw [taylorPoly, iterate_derivative_sum, eval_finsetSum, Finset.sum_eq_single k]
  · rw [iterate_derivative_C_mul, iterate_derivative_X_sub_pow, eval_mul, eval_C]
    simp only [eval_smul, Nat.sub_self, pow_zero, Nat.descFactorial_self]
    rw [nsmul_eq_mul, eval_one, mul_one, div_mul_cancel₀]
    exact_mod_cast k.factorial_ne_zero
  · intro i _ hik
    rw [iterate_derivative_C_mul, iterate_derivative_X_sub_pow, eval_mul]
    rcases Nat.lt_or_ge i k with h | h
    · rw [Nat.descFactorial_eq_zero_iff_lt.2 h]; simp
    · have : i - k ≠ 0 := by omega
      simp [this]
  · intro h; exact absurd (Finset.mem_range.2 hk) h

theorem taylorPoly_eval {f : ℝ → ℝ} {x q : ℝ} {n : Nat} (hq : q ≠ 0) (hf : ContDiff ℝ (n + 1 : Nat) f) :
    (taylorPoly f x (n + 1)).eval (x + q) = taylorWithinEval f n (Set.uIcc x (x + q)) x (x + q) := by
  have hne : x ≠ x + q := by intro h; exact hq (by linarith)
  rw [taylor_within_apply, taylorPoly, eval_finsetSum]
  refine Finset.sum_congr rfl fun i hi => ?_
  rw [Finset.mem_range] at hi
  rw [iteratedDerivWithin_eq_iteratedDeriv (uniqueDiffOn_uIcc hne)
    ((hf.of_le (by exact_mod_cast (by omega : i ≤ n + 1))).contDiffAt) Set.left_mem_uIcc]
  simp only [eval_mul, eval_C, eval_pow, eval_sub, eval_X, smul_eq_mul]
  field_simp

theorem taylor_bound {f : ℝ → ℝ} {x q M : ℝ} {n : Nat} (hf : ContDiff ℝ (n + 1 : Nat) f)
    (hM : ∀ y, |y - x| ≤ |q| → |iteratedDeriv (n + 1) f y| ≤ M) :
    |f (x + q) - (taylorPoly f x (n + 1)).eval (x + q)| ≤ M * |q| ^ (n + 1) / (n + 1).factorial := by
  by_cases hq : q = 0
  · subst hq
    have : (taylorPoly f x (n + 1)).eval x = f x := by
      have := taylorPoly_derivative f x (n := n + 1) (k := 0) (by omega)
      simpa using this
    simp [this]
  · have hne : x ≠ x + q := by intro h; exact hq (by linarith)
    obtain ⟨y, hy, h⟩ := taylor_mean_remainder_lagrange_iteratedDeriv (f := f) (n := n) hne
      (by exact_mod_cast hf.contDiffOn)
    rw [taylorPoly_eval hq hf, h, abs_div, abs_mul, abs_pow, add_sub_cancel_left, Nat.abs_cast]
    have hyq : |y - x| ≤ |q| := by
      have h1 := Set.uIoo_subset_uIcc_self hy
      rw [Set.mem_uIcc] at h1
      rcases h1 with ⟨h1, h2⟩ | ⟨h1, h2⟩
      · rw [abs_of_nonneg (by linarith), abs_of_nonneg (by linarith)]; linarith
      · rw [abs_of_nonpos (by linarith), abs_of_nonpos (by linarith)]; linarith
    gcongr
    exact hM y hyq

theorem abs_sum_le' {α : Type} (F G : α → ℝ) : ∀ l : List α, (∀ a ∈ l, |F a| ≤ G a) → |(l.map F).sum| ≤ (l.map G).sum
  | [], _ => by simp
  | a :: l, h => by
    rw [List.map_cons, List.sum_cons, List.map_cons, List.sum_cons]
    exact (abs_add_le _ _).trans (add_le_add (h a (List.mem_cons_self ..))
      (abs_sum_le' F G l fun b hb => h b (List.mem_cons_of_mem _ hb)))

/-- **C37.**  For a smooth function of one argument the error of the `k`-th derivative is at most a constant times a bound
on the derivative of order `n`, the number of points, times `|step| ^ (n - k)`, where `n - k` is at least the requested
accuracy.  The constant depends on the scheme only. -/
theorem C37_error {j : Jit} (hj : j.user = true ∧ j.derived = true) {s : Scheme} (hs : s ≠ .other) {acc : Nat} (ha : 0 < acc) (k : Nat) :
    acc ≤ points s (k + acc) - k ∧ ∃ A : ℝ, ∀ (f : ℝ → ℝ) (x step M : ℝ), step ≠ 0 →
      ContDiff ℝ (points s (k + acc)) f →
      (∀ y, |y - x| ≤ points s (k + acc) * |step| → |iteratedDeriv (points s (k + acc)) f y| ≤ M) →
      ∃ d, finDiff j (fun a => f (a.getD 0 0)) 1 [k] step acc s [x] = .ok d ∧
        |d - iteratedDeriv k f x| ≤ A * M * |step| ^ (points s (k + acc) - k) := by
  have hle := le_points s (k + acc)
  refine ⟨by omega, ?_⟩
  obtain ⟨l, hl, hst⟩ := stencil_split hs ha k
  obtain ⟨n, hn⟩ : ∃ n, points s (k + acc) = n + 1 := ⟨points s (k + acc) - 1, by omega⟩
  rw [hn] at hl ⊢
  refine ⟨(l.map fun p => (|p.1| * |p.2| ^ (n + 1) / ((n + 1).factorial : ℝ) : ℝ)).sum, fun f x step M h0 hf hM => ?_⟩
  obtain ⟨st', hst', hex⟩ := stencil_ok (K := ℝ) hs ha step k
  obtain rfl := Except.ok.inj ((hst step).symm.trans hst')
  have hP := hex (taylorPoly f x (n + 1)) (by rw [hn]; exact taylorPoly_degree f x (by omega)) x
  rw [taylorPoly_derivative f x (by omega), List.map_map] at hP
  refine ⟨(l.map fun p => p.1 * f (x + step * p.2)).sum / step ^ k, ?_, ?_⟩
  · unfold finDiff
    rw [if_neg (by simp), hj.1, hj.2]
    change (List.mapM (stencil s acc step) [k] >>= _) = _
    rw [List.mapM_cons, hst step, Py.ok_bind, List.mapM_nil]
    change Except.ok _ = _
    rw [List.map_map]
    simp
    rfl
  · have hs0 : 0 < |step| := abs_pos.2 h0
    have hsk : step ^ k ≠ 0 := pow_ne_zero _ h0
    have e : (l.map fun p => p.1 * f (x + step * p.2)).sum / step ^ k - iteratedDeriv k f x =
        (l.map fun p => p.1 * (f (x + step * p.2) - (taylorPoly f x (n + 1)).eval (x + step * p.2))).sum / step ^ k := by
      rw [eq_div_iff hsk, sub_mul, div_mul_cancel₀ _ hsk, mul_comm (iteratedDeriv k f x), ← hP]
      have : ∀ l : List (ℝ × ℝ), (l.map fun p => p.1 * f (x + step * p.2)).sum -
          (l.map ((fun q : ℝ × ℝ => q.1 * (taylorPoly f x (n + 1)).eval (x + q.2)) ∘ fun p => (p.1, step * p.2))).sum =
          (l.map fun p => p.1 * (f (x + step * p.2) - (taylorPoly f x (n + 1)).eval (x + step * p.2))).sum := by
        intro l
        induction l with
        | nil => simp
        | cons a l ih =>
          simp only [List.map_cons, List.sum_cons, ← ih, Function.comp]
          ring
      exact this l
    rw [e, abs_div, abs_pow, div_le_iff₀ (pow_pos hs0 k), mul_assoc, ← pow_add,
      show n + 1 - k + k = n + 1 by omega]
    refine (abs_sum_le' _ (fun p : ℝ × ℝ => |p.1| * |p.2| ^ (n + 1) / (n + 1).factorial * (M * |step| ^ (n + 1))) l
      fun p hp => ?_).trans (le_of_eq ?_)
    · rw [abs_mul]
      have := taylor_bound (q := step * p.2) (M := M) hf fun y hy => hM y (hy.trans (by
        rw [abs_mul, mul_comm]
        exact mul_le_mul_of_nonneg_right (hl p hp) hs0.le))
      calc |p.1| * |f (x + step * p.2) - (taylorPoly f x (n + 1)).eval (x + step * p.2)|
          ≤ |p.1| * (M * |step * p.2| ^ (n + 1) / (n + 1).factorial) := by gcongr
        _ = _ := by rw [abs_mul, mul_pow]; ring
    · rw [sum_map_mul_const, mul_assoc]

end Beluga.FinDiff
