import Verif.Mappers.Lemmas
import Mathlib.Analysis.SpecialFunctions.Trigonometric.Inverse
import Mathlib.Tactic.Linarith

/-!
# Properties of the trigonometric control mapper (C22)

Over the real numbers, with `Real.sin` and `Real.arcsin`.
-/

set_option linter.unusedSectionVars false

namespace Beluga.Map

open Real

/-- The real sine and arcsine. -/
noncomputable def realTrig : TrigOps ℝ := ⟨Real.sin, Real.arcsin⟩

/-- The loop rewrites one entry of each row of `u` and leaves the rest. -/
theorem epsLoop_spec {K : Type _} [Field K] [LinearOrder K] (idx : Nat) (f : K → K → List K → K) :
    ∀ (ts : List K) (ys us us' : List (List K)), epsLoop idx f ts ys us = .ok us' →
      us'.length = us.length ∧
      ∀ (i : Nat) (t : K) (y u : List K), ts[i]? = some t → ys[i]? = some y → us[i]? = some u →
        ∃ x, u[idx]? = some x ∧ us'[i]? = some (u.set idx (f x t y))
  | [], ys, us, us', h => by
    simp only [epsLoop] at h; cases h
    exact ⟨rfl, by intro i t y u h; simp at h⟩
  | _ :: _, [], us, us', h => by
    cases us <;> (simp only [epsLoop] at h; cases h; exact ⟨rfl, by intro i t y u _ h; simp at h⟩)
  | _ :: _, _ :: _, [], us', h => by simp [epsLoop] at h
  | t :: ts, y :: ys, u :: us, us', h => by
    simp only [epsLoop, bind, Except.bind] at h
    cases hx : Py.get u idx with
    | error e => rw [hx] at h; cases h
    | ok x =>
      rw [hx] at h; simp only at h
      cases hr : epsLoop idx f ts ys us with
      | error e => rw [hr] at h; cases h
      | ok rest =>
        rw [hr] at h; cases h
        obtain ⟨h1, h2⟩ := epsLoop_spec idx f ts ys us rest hr
        refine ⟨by simp [h1], ?_⟩
        intro i t' y' u' e1 e2 e3
        cases i with
        | zero =>
          simp only [List.getElem?_cons_zero, Option.some.injEq] at e1 e2 e3
          subst e1 e2 e3
          refine ⟨x, ?_, rfl⟩
          unfold Py.get at hx
          split at hx
          · next e => cases hx; exact e
          · cases hx
        | succ i =>
          simp only [List.getElem?_cons_succ] at e1 e2 e3 ⊢
          exact h2 i t' y' u' e1 e2 e3

/-- The loop succeeds when there is a control row for every time point and the position exists in it. -/
theorem epsLoop_ok {K : Type _} [Field K] [LinearOrder K] (idx c : Nat) (f : K → K → List K → K) (hidx : idx < c) :
    ∀ (ts : List K) (ys us : List (List K)), ys.length = ts.length → us.length = ts.length →
      (∀ u ∈ us, u.length = c) → ∃ us', epsLoop idx f ts ys us = .ok us'
  | [], _, us, _, _, _ => ⟨us, by simp only [epsLoop]⟩
  | _ :: _, [], _, h, _, _ => by simp at h
  | _ :: _, _ :: _, [], _, h, _ => by simp at h
  | t :: ts, y :: ys, u :: us, h1, h2, h3 => by
    obtain ⟨rest, hr⟩ := epsLoop_ok idx c f hidx ts ys us (by simpa using h1) (by simpa using h2)
      (fun x hx => h3 x (by simp [hx]))
    have hl : u.length = c := h3 u (by simp)
    have : Py.get u idx = .ok (u[idx]'(by omega)) := by
      simp only [Py.get, List.getElem?_eq_getElem (show idx < u.length by omega)]
    exact ⟨_, by simp only [epsLoop, this, hr, bind, Except.bind]; rfl⟩

theorem epsBackward_mem {lo hi : ℝ} (h : lo ≤ hi) (x : ℝ) :
    lo ≤ epsBackward realTrig lo hi x ∧ epsBackward realTrig lo hi x ≤ hi := by
  have h1 := Real.neg_one_le_sin x
  have h2 := Real.sin_le_one x
  simp only [epsBackward, realTrig]
  constructor <;> nlinarith

theorem eps_round {lo hi u : ℝ} (h : lo < hi) (h1 : lo ≤ u) (h2 : u ≤ hi) :
    epsBackward realTrig lo hi (epsForward realTrig lo hi u) = (u + (hi + lo) / 2) / 2 := by
  have hd : 0 < hi - lo := by linarith
  simp only [epsBackward, epsForward, realTrig]
  rw [Real.sin_arcsin]
  · field_simp; ring
  · rw [le_div_iff₀ hd]; linarith
  · rw [div_le_iff₀ hd]; linarith

/-- Every control value reported to the user lies between the bounds evaluated at that point, whatever the internal
value was. -/
theorem C22_bounded (idx : Nat) (lo hi : ℝ → List ℝ → List ℝ → List ℝ → ℝ) (s s' : Sol ℝ)
    (h : (Mapper.epsTrig idx lo hi).inv realTrig s = .ok s')
    (hle : ∀ (i : Nat) (t : ℝ) (y : List ℝ), s.t[i]? = some t → s.y.rowList[i]? = some y →
      lo t y s.dyn s.const ≤ hi t y s.dyn s.const)
    (i : Nat) (t : ℝ) (y u : List ℝ) (ht : s.t[i]? = some t) (hy : s.y.rowList[i]? = some y)
    (hu : s'.u.rowList[i]? = some u) :
    ∃ x, u[idx]? = some x ∧ lo t y s.dyn s.const ≤ x ∧ x ≤ hi t y s.dyn s.const := by
  simp only [Mapper.inv, epsApply] at h
  cases hu0 : s.u with
  | empty =>
    rw [hu0] at h
    simp only at h
    split at h
    · next hc =>
      rcases hc with hc | hc
      · rw [hc] at ht; simp at ht
      · rw [hc] at hy; simp at hy
    · cases h
  | rows c r =>
    rw [hu0] at h
    simp only [bind, Except.bind] at h
    split at h
    · cases h
    · next r' hr =>
      cases h
      obtain ⟨h1, h2⟩ := epsLoop_spec _ _ _ _ _ _ hr
      simp only [Arr.rowList] at hu
      have hlt := (List.getElem?_eq_some_iff.1 hu).1
      have e3 : r[i]? = some (r[i]'(by omega)) := List.getElem?_eq_getElem _
      obtain ⟨x, e4, e5⟩ := h2 i t y _ ht hy e3
      rw [e5] at hu
      cases hu
      have hidx := (List.getElem?_eq_some_iff.1 e4).1
      refine ⟨_, List.getElem?_set_self hidx, ?_⟩
      exact epsBackward_mem (hle i t y ht hy) x

/-- No admissible control is excluded: every value between the bounds is the image of some internal value. -/
theorem C22_onto {lo hi u : ℝ} (h : lo < hi) (h1 : lo ≤ u) (h2 : u ≤ hi) :
    ∃ x, epsBackward realTrig lo hi x = u := by
  have hd : 0 < hi - lo := by linarith
  refine ⟨Real.arcsin ((2 * u - hi - lo) / (hi - lo)), ?_⟩
  simp only [epsBackward, realTrig]
  rw [Real.sin_arcsin]
  · field_simp; ring
  · rw [le_div_iff₀ hd]; linarith
  · rw [div_le_iff₀ hd]; linarith

/-- What a feasible guess comes back as: every value is pulled half way towards the middle of the interval, because
the forward map divides by the whole range where the inverse multiplies by half of it. -/
theorem C22_round_trip_partial (idx : Nat) (lo hi : ℝ → List ℝ → List ℝ → List ℝ → ℝ) (c : Nat) (s : Sol ℝ)
    (r : List (List ℝ)) (hr : s.u = .rows c r) (hc : ∀ u ∈ r, u.length = c) (hidx : idx < c)
    (hty : s.y.rowList.length = s.t.length) (htu : r.length = s.t.length)
    (hf : ∀ (i : Nat) (t : ℝ) (y u : List ℝ), s.t[i]? = some t → s.y.rowList[i]? = some y → r[i]? = some u →
      lo t y s.dyn s.const < hi t y s.dyn s.const ∧ lo t y s.dyn s.const ≤ u.getD idx 0 ∧
        u.getD idx 0 ≤ hi t y s.dyn s.const) :
    ∃ s1 s2, (Mapper.epsTrig idx lo hi).map realTrig s = .ok s1 ∧ (Mapper.epsTrig idx lo hi).inv realTrig s1 = .ok s2 ∧
      { s2 with u := s.u } = s ∧
      ∀ (i : Nat) (t : ℝ) (y u : List ℝ), s.t[i]? = some t → s.y.rowList[i]? = some y → r[i]? = some u →
        s2.u.rowList[i]? = some (u.set idx
          ((u.getD idx 0 + (hi t y s.dyn s.const + lo t y s.dyn s.const) / 2) / 2)) := by
  obtain ⟨r1, h1⟩ := epsLoop_ok idx c
    (fun x t y => epsForward realTrig (lo t y s.dyn s.const) (hi t y s.dyn s.const) x) hidx s.t s.y.rowList r hty htu hc
  obtain ⟨l1, g1⟩ := epsLoop_spec _ _ _ _ _ _ h1
  have hc1 : ∀ u ∈ r1, u.length = c := by
    intro u hu
    obtain ⟨i, hi'⟩ := List.getElem?_of_mem hu
    have hlt := (List.getElem?_eq_some_iff.1 hi').1
    obtain ⟨x, -, e⟩ := g1 i _ _ _ (List.getElem?_eq_getElem (show i < s.t.length by omega))
      (List.getElem?_eq_getElem (show i < s.y.rowList.length by omega))
      (List.getElem?_eq_getElem (show i < r.length by omega))
    rw [e] at hi'
    cases hi'
    rw [List.length_set]
    exact hc _ (List.getElem_mem _)
  obtain ⟨r2, h2⟩ := epsLoop_ok idx c
    (fun x t y => epsBackward realTrig (lo t y s.dyn s.const) (hi t y s.dyn s.const) x) hidx s.t s.y.rowList r1 hty
    (by omega) hc1
  obtain ⟨l2, g2⟩ := epsLoop_spec _ _ _ _ _ _ h2
  refine ⟨{ s with u := .rows c r1 }, { s with u := .rows c r2 }, ?_, ?_, rfl, ?_⟩
  · simp only [Mapper.map, epsApply, hr, h1, bind, Except.bind]
  · simp only [Mapper.inv, epsApply, h2, bind, Except.bind]
  · intro i t y u ht hy hu
    obtain ⟨x, e1, e2⟩ := g1 i t y u ht hy hu
    obtain ⟨x', e3, e4⟩ := g2 i t y _ ht hy e2
    have hx : u.getD idx 0 = x := by rw [List.getD_eq_getElem?_getD, e1]; rfl
    have hlt := (List.getElem?_eq_some_iff.1 e1).1
    rw [List.getElem?_set_self hlt] at e3
    cases e3
    obtain ⟨b1, b2, b3⟩ := hf i t y u ht hy hu
    rw [hx] at b2 b3
    simp only [Arr.rowList]
    rw [e4, List.set_set, eps_round b1 b2 b3, hx]

/-- So a feasible value comes back unchanged only if it is the middle of the interval. -/
theorem C22_violated {lo hi u : ℝ} (h : lo < hi) (h1 : lo ≤ u) (h2 : u ≤ hi) :
    epsBackward realTrig lo hi (epsForward realTrig lo hi u) = u ↔ u = (hi + lo) / 2 := by
  rw [eps_round h h1 h2]
  constructor <;> intro e <;> linarith

-- a control guess of 1 with bounds ±1 comes back as 1/2
example : epsBackward realTrig (-1) 1 (epsForward realTrig (-1) 1 1) = 1 / 2 := by
  rw [eps_round (by norm_num) (by norm_num) (by norm_num)]; norm_num

-- internal value π/2 is reported as the upper bound
example : epsBackward realTrig (-1) 1 (π / 2) = 1 := by
  simp [epsBackward, realTrig]

-- a whole trajectory with two time points and bounds ±1: (1, -1/2) comes back as (1/2, -1/4)
example : ∃ s1 s2, (Mapper.epsTrig 0 (fun _ _ _ _ => -1) (fun _ _ _ _ => 1)).map realTrig
      (⟨[0, 1], [], .rows 1 [[0], [0]], .empty, .empty, .rows 1 [[1], [-1/2]], .empty, [], [], [], true, none⟩ : Sol ℝ) = .ok s1 ∧
    (Mapper.epsTrig 0 (fun _ _ _ _ => -1) (fun _ _ _ _ => 1)).inv realTrig s1 = .ok s2 ∧
    s2.u.rowList[0]? = some [(1/2 : ℝ)] ∧ s2.u.rowList[1]? = some [(-1/4 : ℝ)] := by
  obtain ⟨s1, s2, h1, h2, -, h3⟩ := C22_round_trip_partial 0 (fun _ _ _ _ => -1) (fun _ _ _ _ => 1) 1
    (⟨[0, 1], [], .rows 1 [[0], [0]], .empty, .empty, .rows 1 [[1], [-1/2]], .empty, [], [], [], true, none⟩ : Sol ℝ)
    [[1], [-1/2]] rfl (by simp) (by norm_num) rfl rfl (by
      intro i t y u _ _ hu
      rcases i with _ | _ | i
      · simp only [List.getElem?_cons_zero, Option.some.injEq] at hu; subst hu; norm_num
      · simp only [List.getElem?_cons_succ, List.getElem?_cons_zero, Option.some.injEq] at hu; subst hu; norm_num
      · simp at hu)
  refine ⟨s1, s2, h1, h2, ?_, ?_⟩
  · rw [h3 0 0 [0] [1] rfl rfl rfl]; norm_num
  · rw [h3 1 1 [0] [-1/2] rfl rfl rfl]; norm_num

end Beluga.Map
