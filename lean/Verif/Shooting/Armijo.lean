import Verif.Shooting.Model
import Verif.PyLemmas
import Mathlib.Algebra.Order.Field.Basic
import Mathlib.Tactic.NormNum

/-!
# The Armijo iteration
-/

namespace Beluga.Shoot

set_option linter.unusedSectionVars false

variable {K : Type} [Field K] [LinearOrder K] [IsStrictOrderedRing K]

/-- What is known after a line search that made `n` evaluations: `r` is the norm of the residual at the last one. -/
structure Tried (A : Armijo K) (x : List K) (r : Flt K) (step : List K) (n : Nat) : Prop where
  value : 0 < n → ∃ v, A.F (List.zipWith (· + ·) x step) = .ok v ∧ r = normF A.norm v

theorem lineSearch_tried {A : Armijo K} {o : Opts K} {x dy : List K} {err : K} :
    ∀ {fuel : Nat} {ll : K} {r : Flt K} {step : List K} {n : Nat} {r' : Flt K} {step' : List K} {n' : Nat},
      Tried A x r step n → lineSearch A o x dy err fuel ll r step n = .ok (some (r', step', n')) →
      Tried A x r' step' n' ∧ n ≤ n' ∧
        (r.ge ((1 - 1 / 10000 * ll) * err) = true → r.gt o.tol = true → 1 / 20 < ll → n < n')
  | fuel, ll, r, step, n, r', step', n', ht, h => by
    rw [lineSearch.eq_def] at h
    by_cases hc : (r.ge ((1 - 1 / 10000 * ll) * err) && r.gt o.tol && decide (1 / 20 < ll)) = true
    · simp only [if_pos hc] at h
      cases fuel with
      | zero => cases h
      | succ fuel =>
        dsimp only at h
        obtain ⟨v, hv, h⟩ := Py.bind_ok.1 h
        obtain ⟨h1, h2, -⟩ := lineSearch_tried (n := n + 1) ⟨fun _ => ⟨v, hv, rfl⟩⟩ h
        exact ⟨h1, by omega, fun _ _ _ => by omega⟩
    · simp only [if_neg hc] at h
      cases h
      refine ⟨ht, le_rfl, fun h1 h2 h3 => absurd ?_ hc⟩
      rw [h1, h2, decide_eq_true h3]
      rfl

/-- With `ll = 2⁻ᵏ` at most `5 - k` evaluations follow, for which fuel `5 - k` is enough. -/
theorem lineSearch_fuel {A : Armijo K} {o : Opts K} {x dy : List K} {err : K} :
    ∀ {fuel k : Nat} {r : Flt K} {step : List K} {n : Nat} {out : Option (Flt K × List K × Nat)}, 5 ≤ fuel + k → k ≤ 5 →
      lineSearch A o x dy err fuel ((1 / 2) ^ k) r step n = .ok out → ∃ r' step' n', out = some (r', step', n') ∧ n' ≤ n + (5 - k)
  | fuel, k, r, step, n, out, hf, hk, h => by
    rw [lineSearch.eq_def] at h
    by_cases hc : (r.ge ((1 - 1 / 10000 * (1 / 2) ^ k) * err) && r.gt o.tol && decide (1 / 20 < (1 / 2 : K) ^ k)) = true
    · simp only [if_pos hc] at h
      have hk5 : k < 5 := by
        rcases Nat.lt_or_ge k 5 with h5 | h5
        · exact h5
        · obtain rfl : k = 5 := by omega
          simp only [Bool.and_eq_true, decide_eq_true_eq] at hc
          have := hc.2
          norm_num at this
      cases fuel with
      | zero => omega
      | succ fuel =>
        dsimp only at h
        obtain ⟨v, hv, h⟩ := Py.bind_ok.1 h
        rw [← pow_succ] at h
        obtain ⟨r', s', n', e, hn⟩ := lineSearch_fuel (by omega) (by omega) h
        exact ⟨r', s', n', e, by omega⟩
    · simp only [if_neg hc] at h
      cases h
      exact ⟨_, _, _, rfl, by omega⟩

/-- What one pass of the loop does. -/
theorem pass_spec {A : Armijo K} {o : Opts K} {fuel : Nat} (hf : 5 ≤ fuel) {s : St K} {out : Option (St K)}
    (h : pass A o fuel s = .ok out) :
    ∃ s' n, out = some s' ∧ s'.nIter = s.nIter + 1 ∧ s'.evals = s.evals ++ [n] ∧ 1 ≤ n ∧ n ≤ 5 ∧
      s'.converged = s'.err.le o.tol ∧ ∃ v, A.F s'.x = .ok v ∧ s'.err = normF A.norm v := by
  rw [pass] at h
  obtain ⟨v, hv, h⟩ := Py.bind_ok.1 h
  by_cases hn : v.any Option.isNone = true
  · rw [if_pos hn] at h; cases h
  · rw [if_neg hn] at h
    obtain ⟨dy, hdy, h⟩ := Py.bind_ok.1 h
    obtain ⟨ls, hls, h⟩ := Py.bind_ok.1 h
    have h1 := hls
    rw [show (1 : K) = (1 / 2) ^ 0 by simp] at h1
    obtain ⟨r, step, n, rfl, hn5⟩ := lineSearch_fuel (by omega) (by omega) h1
    obtain ⟨h2, -, h3⟩ := lineSearch_tried ⟨fun h => absurd h (by omega)⟩ hls
    have h3 := h3 rfl rfl (by norm_num)
    cases h
    obtain ⟨w, hw, hr⟩ := h2.value h3
    exact ⟨_, n, rfl, rfl, rfl, by omega, by omega, rfl, w, hw, hr⟩

/-- The states of the loop, one pass after the other; the loop condition held before each pass. -/
inductive Passes (A : Armijo K) (o : Opts K) (fuel : Nat) : St K → St K → Prop where
  | refl (s : St K) : Passes A o fuel s s
  | step {s s' s'' : St K} (cond : goOn o s = true) (one : pass A o fuel s = .ok (some s')) (more : Passes A o fuel s' s'') :
      Passes A o fuel s s''

theorem armijo_passes {A : Armijo K} {o : Opts K} {ls : Nat} : ∀ {fuel : Nat} {s s' : St K},
    armijo A o ls fuel s = .ok (some s') → Passes A o ls s s' ∧ goOn o s' = false
  | fuel, s, s', h => by
    rw [armijo.eq_def] at h
    by_cases hc : goOn o s = true
    · simp only [if_pos hc] at h
      cases fuel with
      | zero => cases h
      | succ fuel =>
        dsimp only at h
        obtain ⟨out, ho, h⟩ := Py.bind_ok.1 h
        cases out with
        | none => cases h
        | some s1 =>
          obtain ⟨h1, h2⟩ := armijo_passes h
          exact ⟨.step hc ho h1, h2⟩
    · simp only [if_neg hc] at h
      cases h
      exact ⟨.refl s, by simpa using hc⟩

/-- An invariant of the states after at least one pass. -/
structure Sane (A : Armijo K) (o : Opts K) (s : St K) : Prop where
  iters : s.nIter ≤ o.maxIter + 1
  count : s.evals.length = s.nIter
  evals : ∀ n ∈ s.evals, 1 ≤ n ∧ n ≤ 5
  flag : s.converged = true → ∃ v, A.F s.x = .ok v ∧ (normF A.norm v).le o.tol = true
  last : 0 < s.nIter → s.converged = s.err.le o.tol ∧ ∃ v, A.F s.x = .ok v ∧ s.err = normF A.norm v

theorem passes_sane {A : Armijo K} {o : Opts K} {fuel : Nat} (hf : 5 ≤ fuel) {s s' : St K} (h : Passes A o fuel s s')
    (hs : Sane A o s) : Sane A o s' := by
  induction h with
  | refl _ => exact hs
  | @step s s1 s2 hc h1 h2 ih =>
    refine ih ?_
    obtain ⟨s1', n, e, hi, he, hn1, hn5, hcv, v, hv, hr⟩ := pass_spec hf h1
    cases e
    have hit : s.nIter ≤ o.maxIter := by
      simp only [goOn, Bool.and_eq_true, decide_eq_true_eq] at hc
      exact hc.1.2
    refine ⟨by omega, by rw [he, List.length_append, hs.count, hi]; rfl, ?_, ?_, fun _ => ⟨hcv, v, hv, hr⟩⟩
    · intro m hm
      rw [he, List.mem_append, List.mem_singleton] at hm
      rcases hm with hm | rfl
      · exact hs.evals m hm
      · exact ⟨hn1, hn5⟩
    · intro hconv
      exact ⟨v, hv, by rw [← hr, ← hcv]; exact hconv⟩

/-- The state before the loop. -/
def start (x : List K) : St K := ⟨x, .val (-1), 0, false, []⟩

theorem start_sane (A : Armijo K) (o : Opts K) (x : List K) : Sane A o (start x) :=
  ⟨Nat.zero_le _, rfl, by simp [start], by simp [start], by simp [start]⟩

/-- **C43** The Armijo iteration makes at most `max_iterations + 1` Newton updates, each with one to five evaluations of the
residual.  (The bound of the property is `max_iterations`, see `C43_violated`.) -/
theorem C43_bounded_partial {A : Armijo K} {o : Opts K} {x : List K} {fuel ls : Nat} (hls : 5 ≤ ls) {s : St K}
    (h : armijo A o ls fuel (start x) = .ok (some s)) :
    s.nIter ≤ o.maxIter + 1 ∧ s.evals.length = s.nIter ∧ ∀ n ∈ s.evals, 1 ≤ n ∧ n ≤ 5 := by
  have := passes_sane hls (armijo_passes h).1 (start_sane A o x)
  exact ⟨this.iters, this.count, this.evals⟩

/-- **C42** The flag of the Armijo iteration is only set if the residual at the unknowns it returns has no undefined (`NaN`)
entry and its norm is within the tolerance. -/
theorem C42_flag {A : Armijo K} {o : Opts K} {x : List K} {fuel ls : Nat} (hls : 5 ≤ ls) {s : St K}
    (h : armijo A o ls fuel (start x) = .ok (some s)) (hc : s.converged = true) :
    ∃ v : List K, A.F s.x = .ok (v.map some) ∧ A.norm v ≤ o.tol := by
  obtain ⟨v, hv, hle⟩ := (passes_sane hls (armijo_passes h).1 (start_sane A o x)).flag hc
  unfold normF at hle
  split at hle
  · cases hle
  · rename_i hn
    have hv' : v = (v.filterMap id).map some := by
      clear hv hle
      induction v with
      | nil => rfl
      | cons a v ih =>
        cases a with
        | none => simp at hn
        | some a =>
          have := ih (by simpa using hn)
          simpa using this
    exact ⟨v.filterMap id, by rw [← hv']; exact hv, by simpa [Flt.le] using hle⟩

theorem armijo_fuel {A : Armijo K} {o : Opts K} {ls : Nat} (hls : 5 ≤ ls) : ∀ {fuel : Nat} {s : St K} {out : Option (St K)},
    o.maxIter + 1 ≤ fuel + s.nIter → armijo A o ls fuel s = .ok out → out ≠ none
  | fuel, s, out, hf, h => by
    rw [armijo.eq_def] at h
    by_cases hc : goOn o s = true
    · simp only [if_pos hc] at h
      have hit : s.nIter ≤ o.maxIter := by
        simp only [goOn, Bool.and_eq_true, decide_eq_true_eq] at hc
        exact hc.1.2
      cases fuel with
      | zero => omega
      | succ fuel =>
        dsimp only at h
        obtain ⟨o1, ho, h⟩ := Py.bind_ok.1 h
        obtain ⟨s1, n, rfl, hi, -⟩ := pass_spec hls ho
        exact armijo_fuel hls (by omega) h
    · simp only [if_neg hc] at h
      cases h
      simp

/-- **C43** The iteration always ends, for every residual, norm and Newton direction: it returns or raises. -/
theorem C43_terminates (A : Armijo K) (o : Opts K) (x : List K) :
    armijo A o 5 (o.maxIter + 1) (start x) ≠ .ok none := fun h =>
  armijo_fuel (le_refl 5) (by simp) h rfl

/-- **C43** With an error of at least `max_error`, or an undefined one, no further pass starts. -/
theorem C43_stops {A : Armijo K} {o : Opts K} {ls fuel : Nat} {s : St K} (h : ∀ x, s.err = .val x → o.maxErr ≤ x) :
    armijo A o ls fuel s = .ok (some s) := by
  have h : s.err.lt o.maxErr = false := by
    cases he : s.err with
    | val x => simpa [Flt.lt] using h x he
    | inf => rfl
    | nan => rfl
  have : goOn o s = false := by simp [goOn, h]
  rw [armijo.eq_def]
  simp [this]

/-- **C43** An undefined residual at the start of a pass raises. -/
theorem C43_nan {A : Armijo K} {o : Opts K} {ls : Nat} {s : St K} {v : List (Option K)} (hv : A.F s.x = .ok v)
    (hn : none ∈ v) : pass A o ls s = .error .runtimeError := by
  rw [pass, hv, Py.ok_bind, if_pos]
  simpa using hn

theorem pass_const {A : Armijo K} {o : Opts K} {c : List K} (hF : ∀ x, A.F x = .ok (c.map some))
    (hN : ∀ x r, ∃ d, A.newton x r = .ok d) (s : St K) :
    ∃ out, pass A o 5 s = .ok out := by
  obtain ⟨d, hd⟩ := hN s.x ((c.map some).filterMap id)
  have hl : ∀ {fuel : Nat} {ll : K} {r : Flt K} {step : List K} {n : Nat},
      ∃ out, lineSearch A o s.x d (A.norm ((c.map some).filterMap id)) fuel ll r step n = .ok out := by
    intro fuel
    induction fuel with
    | zero =>
      intro ll r step n
      rw [lineSearch.eq_def]
      by_cases hc : (r.ge ((1 - 1 / 10000 * ll) * A.norm ((c.map some).filterMap id)) && r.gt o.tol &&
          decide (1 / 20 < ll)) = true
      · simp only [if_pos hc]; exact ⟨_, rfl⟩
      · simp only [if_neg hc]; exact ⟨_, rfl⟩
    | succ fuel ih =>
      intro ll r step n
      rw [lineSearch.eq_def]
      by_cases hc : (r.ge ((1 - 1 / 10000 * ll) * A.norm ((c.map some).filterMap id)) && r.gt o.tol &&
          decide (1 / 20 < ll)) = true
      · simp only [if_pos hc]
        rw [hF, Py.ok_bind]
        exact ih
      · simp only [if_neg hc]; exact ⟨_, rfl⟩
  obtain ⟨out, ho⟩ := hl (fuel := 5) (ll := 1) (r := .inf) (step := []) (n := 0)
  have h1 := ho
  rw [show (1 : K) = (1 / 2) ^ 0 by simp] at h1
  obtain ⟨r, step, n, rfl, -⟩ := lineSearch_fuel (by omega) (by omega) h1
  refine ⟨some ⟨List.zipWith (· + ·) s.x step, r, s.nIter + 1, r.le o.tol, s.evals ++ [n]⟩, ?_⟩
  rw [pass, hF, Py.ok_bind, if_neg (by simp)]
  dsimp only
  rw [hd, Py.ok_bind, ho]
  rfl

theorem const_armijo {A : Armijo K} {o : Opts K} {c : List K} (hF : ∀ x, A.F x = .ok (c.map some))
    (hN : ∀ x r, ∃ d, A.newton x r = .ok d) (htol : o.tol < A.norm c) (hmax : A.norm c < o.maxErr) :
    ∀ (k : Nat) (s : St K), s.nIter + k = o.maxIter + 1 → s.converged = false → s.err.lt o.maxErr = true →
      ∃ s', armijo A o 5 k s = .ok (some s') ∧ s'.nIter = o.maxIter + 1 ∧ s'.converged = false
  | 0, s, hk, hc, he => by
    refine ⟨s, ?_, by omega, hc⟩
    have hg : ¬goOn o s = true := by
      simp only [goOn, Bool.and_eq_true, decide_eq_true_eq]
      omega
    rw [armijo.eq_def]
    simp only [if_neg hg]
  | k + 1, s, hk, hc, he => by
    obtain ⟨out, ho⟩ := pass_const hF hN s (o := o)
    obtain ⟨s1, n, rfl, hi, -, -, -, hcv, v, hv, hr⟩ := pass_spec (le_refl 5) ho
    have hr' : s1.err = .val (A.norm c) := by
      rw [hF] at hv
      cases hv
      rw [hr, normF]
      simp
    obtain ⟨s2, h2, h3, h4⟩ := const_armijo hF hN htol hmax k s1 (by omega)
      (by rw [hcv, hr', Flt.le]; simpa using htol) (by rw [hr', Flt.lt]; simpa using hmax)
    refine ⟨s2, ?_, h3, h4⟩
    have hg : goOn o s = true := by
      simp only [goOn, Bool.and_eq_true, decide_eq_true_eq]
      exact ⟨⟨by simp [hc], by omega⟩, he⟩
    rw [armijo.eq_def]
    simp only [if_pos hg]
    rw [ho, Py.ok_bind]
    exact h2

/-- **C43, violated** Whatever `max_iterations` is, a residual that never becomes small makes the iteration perform
`max_iterations + 1` updates. -/
theorem C43_violated {A : Armijo K} {o : Opts K} {c : List K} (hF : ∀ x, A.F x = .ok (c.map some))
    (hN : ∀ x r, ∃ d, A.newton x r = .ok d) (htol : o.tol < A.norm c) (hmax : A.norm c < o.maxErr) (hm : -1 < o.maxErr)
    (x : List K) : ∃ s, armijo A o 5 (o.maxIter + 1) (start x) = .ok (some s) ∧ s.nIter = o.maxIter + 1 := by
  obtain ⟨s, h1, h2, -⟩ := const_armijo hF hN htol hmax (o.maxIter + 1) (start x) (by simp [start]) rfl
    (by simpa [start, Flt.lt] using hm)
  exact ⟨s, h1, h2⟩

/-- The largest absolute value. -/
def maxNorm (v : List Rat) : Rat := (v.map abs).foldr max 0

/-- A residual whose first component can be solved for and one that never vanishes. -/
def exA (c : Rat) : Armijo Rat := ⟨fun x => .ok [some (x.getD 0 0 ^ 2 - 4 + c)], maxNorm,
  fun x r => .ok [- r.getD 0 0 / (2 * x.getD 0 0)]⟩

/-- Convergence towards 2 in three updates with full steps. -/
def exRun : Py (Option (Nat × Bool × List Nat)) :=
  (armijo (exA 0) ⟨1 / 10000, 100, 10⟩ 5 11 (start [3])).map (Option.map fun s => (s.nIter, s.converged, s.evals))

example : exRun = .ok (some (3, true, [1, 1, 1])) := by decide +kernel

/-- A residual of one for every input, two allowed iterations, three updates with all evaluations used. -/
def exRun2 : Py (Option (Nat × Bool × List Nat)) :=
  (armijo (⟨fun _ => .ok [some 1], maxNorm, fun _ _ => .ok [1]⟩ : Armijo Rat) ⟨1 / 10000, 100, 2⟩ 5 11 (start [3])).map
    (Option.map fun s => (s.nIter, s.converged, s.evals))

example : exRun2 = .ok (some (3, false, [5, 5, 5])) := by decide +kernel

end Beluga.Shoot
