import Verif.Bvp.Spec
import Verif.Shooting.Lemmas
import Mathlib.Analysis.Calculus.Deriv.Add
import Mathlib.Analysis.Calculus.Deriv.Mul

/-!
# C46: the collocation solver's answer is the user's answer
-/

namespace Beluga.Bvp

open Beluga.Traj (Arr)
open Beluga.Shoot (Fn)

section
variable {K : Type} [Zero K]

/-- What `solve` does with a well-formed guess. -/
structure Run (bvp : Stacked K → Py (Answer K)) (A : Alg K) (nY nQ : Nat) (s r : Sol K) (prob : Stacked K)
    (ans : Answer K) : Prop where
  stack : stacked (dims A s).1 ⟨nY, nQ, s.dyn.length, s.nondyn.length⟩ s = .ok prob
  answer : bvp prob = .ok ans
  result : r = unstack ⟨nY, nQ, s.dyn.length, s.nondyn.length⟩ ans s

omit [Zero K] in
theorem dims_guess {A : Alg K} {nY nQ : Nat} {s : Sol K} (hg : Guess nY nQ s) :
    (dims A s).2 = .ok ⟨nY, nQ, s.dyn.length, s.nondyn.length⟩ := by
  obtain ⟨ys, hy, hne, -⟩ := hg.states
  rcases hg.quads with ⟨h0, hq⟩ | ⟨h0, ys', qs, hy', hq, hl, -⟩
  · simp [dims, hy, shape1, hq, h0]
  · have e : ys' = ys := by rw [hy] at hy'; injection hy' with _ h; exact h.symm
    subst e
    have : 0 < size s.q := by
      rw [hq, size, hl]
      exact Nat.mul_pos h0 (List.length_pos_iff.mpr hne)
    simp only [dims, hy, shape1, if_pos this]
    rw [hq]

omit [Zero K] in
theorem dims_alg {A : Alg K} {nY nQ : Nat} {s : Sol K} (hg : Guess nY nQ s) :
    (dims A s).1 = if nQ = 0 then { A with quad := some returnNil } else A := by
  obtain ⟨ys, hy, hne, -⟩ := hg.states
  rcases hg.quads with ⟨h0, hq⟩ | ⟨h0, ys', qs, hy', hq, hl, -⟩
  · simp [dims, hy, shape1, hq, h0]
  · have e : ys' = ys := by rw [hy] at hy'; injection hy' with _ h; exact h.symm
    subst e
    have : 0 < size s.q := by
      rw [hq, size, hl]
      exact Nat.mul_pos h0 (List.length_pos_iff.mpr hne)
    simp only [dims, hy, shape1, if_pos this]
    rw [hq, if_neg (by omega)]

theorem solve_run {bvp : Stacked K → Py (Answer K)} {A A' : Alg K} {h h' : Heap K} {ref ref' nY nQ : Nat} {s : Sol K}
    (hs : h[ref]? = some s) (hg : Guess nY nQ s) (hr : solve bvp A h ref = (A', h', .ok ref')) :
    ref' = h.length ∧ ∃ r prob ans, h' = h ++ [r] ∧ Run bvp A nY nQ s r prob ans := by
  unfold solve at hr
  rw [hs] at hr
  simp only [dims_guess hg] at hr
  generalize hst : stacked (dims A s).1 ⟨nY, nQ, s.dyn.length, s.nondyn.length⟩ s = x at hr
  cases x with
  | error e => simp at hr
  | ok prob =>
    simp only at hr
    generalize hb : bvp prob = x at hr
    cases x with
    | error e => simp at hr
    | ok ans =>
      simp only [Prod.mk.injEq, Except.ok.injEq] at hr
      obtain ⟨-, h2, h3⟩ := hr
      refine ⟨h3.symm, unstack ⟨nY, nQ, s.dyn.length, s.nondyn.length⟩ ans s, prob, ans, ?_, hst, hb, rfl⟩
      rw [← h2, List.set_append_right _ _ (le_refl _)]
      simp

/-- **C46** (guess kept).  Whatever happens in `solve`, every trajectory object that existed before is unchanged; a result is a
new object with the constants of the guess. -/
theorem C46_guess_kept (bvp : Stacked K → Py (Answer K)) (A : Alg K) (h : Heap K) (ref : Nat) :
    (∀ i < h.length, (solve bvp A h ref).2.1[i]? = h[i]?) ∧
    ∀ ref', (solve bvp A h ref).2.2 = .ok ref' → ref' = h.length ∧
      ∃ s r, h[ref]? = some s ∧ (solve bvp A h ref).2.1[ref']? = some r ∧ r.const = s.const := by
  unfold solve
  cases hs : h[ref]? with
  | none => exact ⟨fun _ _ => rfl, fun _ hh => by simp at hh⟩
  | some s =>
    have hk : ∀ i < h.length, (h ++ [s])[i]? = h[i]? := fun i hi => List.getElem?_append_left hi
    simp only
    cases (dims A s).2 with
    | error e => exact ⟨hk, fun _ hh => by simp at hh⟩
    | ok d =>
      simp only
      cases stacked (dims A s).1 d s with
      | error e => exact ⟨hk, fun _ hh => by simp at hh⟩
      | ok prob =>
        simp only
        cases bvp prob with
        | error e => exact ⟨hk, fun _ hh => by simp at hh⟩
        | ok ans =>
          refine ⟨fun i hi => ?_, fun ref' hh => ?_⟩
          · rw [List.getElem?_set_ne (by omega)]
            exact hk i hi
          · simp only [Except.ok.injEq] at hh
            subst hh
            refine ⟨rfl, s, unstack d ans s, rfl, ?_, rfl⟩
            simp

theorem stacked_ok {A : Alg K} {d : Dims} {s : Sol K} {prob : Stacked K} (h : stacked A d s = .ok prob) :
    prob.fn = stackFun A d s.const ∧ prob.bc = stackBc A d s.const ∧
      prob.fnJac = (A.derivJac.map fun J => stackFunJac J d s.const) ∧
      prob.bcJac = (A.bcJac.map fun J => stackBcJac J d s.const) ∧
      prob.x = s.t ∧ stackRows d s = .ok prob.y ∧ prob.p = s.dyn ++ s.nondyn := by
  unfold stacked at h
  obtain ⟨y, hy, h⟩ := Py.bind_ok.mp h
  simp only [Except.ok.injEq] at h
  subst h
  exact ⟨rfl, rfl, rfl, rfl, rfl, hy, rfl⟩

/-- The guess's rows next to each other. -/
theorem stacked_rows {A : Alg K} {nY nQ : Nat} {s : Sol K} {prob : Stacked K} (hg : Guess nY nQ s)
    (h : stacked A ⟨nY, nQ, s.dyn.length, s.nondyn.length⟩ s = .ok prob) :
    prob.y ≠ [] ∧ (∀ r ∈ prob.y, r.length = nY + nQ) ∧ prob.y.map (fun r => r.take nY) = matRows s.y ∧
      (0 < nQ → prob.y.map (fun r => (r.drop nY).take nQ) = matRows s.q) := by
  obtain ⟨ys, hy, hne, hlen⟩ := hg.states
  rcases hg.quads with ⟨h0, hq⟩ | ⟨h0, ys', qs, hy', hq, hl, hql⟩
  · subst h0
    have h := (stacked_ok h).2.2.2.2.2.1
    simp only [stackRows, lt_irrefl, if_false, Except.ok.injEq] at h
    rw [← h]
    refine ⟨by simpa [hy, matRows] using hne, by simpa [hy, matRows] using hlen, ?_, fun h => absurd h (lt_irrefl _)⟩
    simp only [hy, matRows]
    conv_rhs => rw [← List.map_id ys]
    exact List.map_congr_left fun r hr => by simp [hlen r hr]
  · have e : ys' = ys := by rw [hy] at hy'; injection hy' with _ h; exact h.symm
    subst e
    have h := (stacked_ok h).2.2.2.2.2.1
    simp only [stackRows, h0, if_true, hy, hq, matRows, hstack2, hl, Except.ok.injEq] at h
    rw [← h]
    simp only [hy, hq, matRows]
    clear hy hq hy' hg
    refine ⟨?_, ?_, ?_, fun _ => ?_⟩
    · cases ys' with
      | nil => exact absurd rfl hne
      | cons a l => cases qs with
        | nil => simp at hl
        | cons b m => simp
    · intro r hr
      obtain ⟨i, hi, rfl⟩ := List.getElem_of_mem hr
      simp only [List.getElem_zipWith, List.length_append]
      rw [hlen _ (List.getElem_mem _), hql _ (List.getElem_mem _)]
    · apply List.ext_getElem (by simp [hl])
      intro i h1 h2
      simp only [List.getElem_map, List.getElem_zipWith]
      rw [List.take_left' (hlen _ (List.getElem_mem _))]
    · apply List.ext_getElem (by simp [hl])
      intro i h1 h2
      simp only [List.getElem_map, List.getElem_zipWith]
      rw [List.drop_left' (hlen _ (List.getElem_mem _)), List.take_of_length_le (hql _ (List.getElem_mem _)).le]

/-- **C46** (boundary conditions).  If scipy keeps its promise, a trajectory marked as converged satisfies the *declared*
boundary conditions - with its own end points, quadratures, parameters, multipliers and the constants of the guess - to the
accuracy scipy promises. -/
theorem C46_boundary {small : List K → Prop} {bvp : Stacked K → Py (Answer K)} (hb : BvpSound small bvp)
    {A A' : Alg K} {bc : Fn K} (hbc : A.bc = some bc) {h h' : Heap K} {ref ref' nY nQ : Nat} {s r : Sol K}
    (hs : h[ref]? = some s) (hg : Guess nY nQ s) (hr : solve bvp A h ref = (A', h', .ok ref'))
    (hr' : h'[ref']? = some r) (hc : r.converged = true) :
    ∃ v, residuals bc r = .ok v ∧ small v := by
  obtain ⟨rfl, r', prob, ans, rfl, hrun⟩ := solve_run hs hg hr
  have : r' = r := by simpa using hr'
  subst this
  obtain ⟨hp, ha, hres⟩ := hrun
  subst hres
  obtain ⟨hne, hw, -, -⟩ := stacked_rows hg hp
  obtain ⟨v, hv, hsm⟩ := hb.solved prob ans ha hc
  refine ⟨v, ?_, hsm⟩
  have hnodes := hb.nodes prob ans ha
  have hwid := hb.width prob ans _ ha hne hw
  have hpb : prob.bc = stackBc (dims A s).1 ⟨nY, nQ, s.dyn.length, s.nondyn.length⟩ s.const ∧
      prob.p = s.dyn ++ s.nondyn :=
    ⟨(stacked_ok hp).2.1, (stacked_ok hp).2.2.2.2.2.2⟩
  have hbc' : (dims A s).1.bc = some bc := by rw [dims_alg hg]; split <;> exact hbc
  rw [hpb.1] at hv
  have hpos : 0 < ans.y.length := List.length_pos_iff.mpr hnodes.1
  have hmap : ∀ (f : List K → List K) (i : Nat), i < ans.y.length → (ans.y.map f).getD i [] = f (ans.y.getD i []) := by
    intro f i hi
    simp [List.getD, List.getElem?_map, List.getElem?_eq_getElem hi]
  have hlen : ∀ i, i < ans.y.length → (ans.y.getD i []).length = nY + nQ := by
    intro i hi
    simp only [List.getD, List.getElem?_eq_getElem hi, Option.getD_some]
    exact hwid _ (List.getElem_mem _)
  simp only [residuals, unstack, List.length_map]
  rw [hmap _ _ hpos, hmap _ _ (by omega), hmap _ _ hpos, hmap _ _ (by omega)]
  simp only [stackBc, callOpt, hbc'] at hv
  by_cases h0 : nQ = 0
  · subst h0
    simp only [if_true] at hv ⊢
    rw [List.take_of_length_le (by rw [hlen _ hpos]; simp), List.take_of_length_le (by rw [hlen _ (by omega)]; simp)]
    cases hP : ans.p <;> simpa [hP] using hv
  · simp only [if_neg h0] at hv ⊢
    cases hP : ans.p <;> simpa [hP] using hv

/-- **C46** (parameters).  The result has as many dynamical and non-dynamical parameters as the guess, and as many rows of
states and quadratures as times, of the declared widths. -/
theorem C46_shapes {small : List K → Prop} {bvp : Stacked K → Py (Answer K)} (hb : BvpSound small bvp)
    {A A' : Alg K} {h h' : Heap K} {ref ref' nY nQ : Nat} {s r : Sol K}
    (hs : h[ref]? = some s) (hg : Guess nY nQ s) (hr : solve bvp A h ref = (A', h', .ok ref'))
    (hr' : h'[ref']? = some r) :
    r.dyn.length = s.dyn.length ∧ r.nondyn.length = s.nondyn.length ∧ Guess nY nQ r ∧
      (matRows r.y).length = r.t.length := by
  obtain ⟨rfl, r', prob, ans, rfl, hrun⟩ := solve_run hs hg hr
  have : r' = r := by simpa using hr'
  subst this
  obtain ⟨hp, ha, hres⟩ := hrun
  subst hres
  obtain ⟨hne, hw, -, -⟩ := stacked_rows hg hp
  have hnodes := hb.nodes prob ans ha
  have hwid := hb.width prob ans _ ha hne hw
  have hpp : prob.p = s.dyn ++ s.nondyn := (stacked_ok hp).2.2.2.2.2.2
  refine ⟨?_, ?_, ⟨⟨_, rfl, by simpa using hnodes.1, ?_⟩, ?_⟩, ?_⟩
  · rcases hb.params prob ans ha with ⟨h1, h2⟩ | ⟨-, p, h2, h3⟩
    · rw [hpp] at h1
      simp only [List.append_eq_nil_iff] at h1
      simp [unstack, h2, h1.1]
    · simp [unstack, h2, h3, hpp]
  · rcases hb.params prob ans ha with ⟨h1, h2⟩ | ⟨-, p, h2, h3⟩
    · rw [hpp] at h1
      simp only [List.append_eq_nil_iff] at h1
      simp [unstack, h2, h1.2]
    · simp [unstack, h2, h3, hpp]
  · intro r hr
    obtain ⟨x, hx, rfl⟩ := List.mem_map.mp hr
    simp [hwid x hx]
  · by_cases h0 : nQ = 0
    · exact .inl ⟨h0, by simp [unstack, size, h0]⟩
    · refine .inr ⟨by omega, _, _, rfl, rfl, by simp, ?_⟩
      intro r hr
      obtain ⟨x, hx, rfl⟩ := List.mem_map.mp hr
      simp [hwid x hx]
  · simp [unstack, matRows, hnodes.2]

/-- **C46** (round trip).  If scipy returns what it was given, the user gets back times, states, quadratures, parameters and
multipliers of the guess. -/
theorem C46_roundtrip {A A' : Alg K} {h h' : Heap K} {ref ref' nY nQ : Nat} {s r : Sol K} {ok : Bool}
    {bvp : Stacked K → Py (Answer K)}
    (hb : ∀ prob, bvp prob = .ok ⟨prob.x, prob.y, if prob.p = [] then none else some prob.p, ok⟩)
    (hs : h[ref]? = some s) (hg : Guess nY nQ s) (hr : solve bvp A h ref = (A', h', .ok ref'))
    (hr' : h'[ref']? = some r) :
    r.t = s.t ∧ r.y = s.y ∧ matRows r.q = (if nQ = 0 then (matRows s.y).map fun _ => [] else matRows s.q) ∧
      r.dyn = s.dyn ∧ r.nondyn = s.nondyn ∧ r.const = s.const ∧ r.converged = ok := by
  obtain ⟨rfl, r', prob, ans, rfl, hrun⟩ := solve_run hs hg hr
  have : r' = r := by simpa using hr'
  subst this
  obtain ⟨hp, ha, hres⟩ := hrun
  subst hres
  obtain ⟨hne, hw, hrowy, hrowq⟩ := stacked_rows hg hp
  rw [hb] at ha
  simp only [Except.ok.injEq] at ha
  subst ha
  have hpx : prob.x = s.t ∧ prob.p = s.dyn ++ s.nondyn :=
    ⟨(stacked_ok hp).2.2.2.2.1, (stacked_ok hp).2.2.2.2.2.2⟩
  obtain ⟨ys, hy, -, -⟩ := hg.states
  refine ⟨hpx.1, ?_, ?_, ?_, ?_, rfl, rfl⟩
  · simp only [unstack]
    rw [hrowy, hy]
    rfl
  · simp only [unstack, matRows]
    by_cases h0 : nQ = 0
    · subst h0
      rw [if_pos rfl]
      change _ = (matRows s.y).map _
      rw [← hrowy, List.map_map]
      exact List.map_congr_left fun _ _ => by simp
    · rw [if_neg h0]
      exact hrowq (by omega)
  · simp only [unstack, hpx.2]
    by_cases h0 : s.dyn ++ s.nondyn = []
    · simp only [if_pos h0]
      exact (List.append_eq_nil_iff.mp h0).1.symm
    · simp only [if_neg h0]
      exact List.take_left
  · simp only [unstack, hpx.2]
    by_cases h0 : s.dyn ++ s.nondyn = []
    · simp only [if_pos h0]
      exact (List.append_eq_nil_iff.mp h0).2.symm
    · simp only [if_neg h0]
      rw [List.drop_left, List.take_length]

/-- **C46** (nodes).  The rates scipy sees at any nodes are the declared rates of the states, followed by those of the
quadratures, evaluated with the states alone, the dynamical parameters and the constants of the guess. -/
theorem C46_nodes {A : Alg K} {nY nQ : Nat} {s : Sol K} {prob : Stacked K} {f g : Fn K} (hf : A.deriv = some f)
    (hq : A.quad = some g) (hg : Guess nY nQ s)
    (hp : stacked (dims A s).1 ⟨nY, nQ, s.dyn.length, s.nondyn.length⟩ s = .ok prob)
    {zs rs : List (List K)} {p : Option (List K)} (h : prob.fn zs p = .ok rs) :
    List.Forall₂ (fun z r => ∃ a, f [z.take nY, (p.getD []).take s.dyn.length, s.const] = .ok a ∧
      ((nQ = 0 ∧ r = a) ∨ (0 < nQ ∧ ∃ b, g [z.take nY, (p.getD []).take s.dyn.length, s.const] = .ok b ∧ r = a ++ b))) zs rs := by
  have vst : ∀ {l m : List (List K)}, vstack l = .ok m → l = m := by
    intro l m hl
    cases l with
    | nil => simp [vstack] at hl
    | cons a l =>
      simp only [vstack] at hl
      split at hl
      · simpa using hl
      · simp at hl
  rw [(stacked_ok hp).1] at h
  have hA : (dims A s).1.deriv = some f := by rw [dims_alg hg]; split <;> exact hf
  by_cases h0 : nQ = 0
  · subst h0
    simp only [stackFun, if_true, callOpt, hA] at h
    obtain ⟨o, ho, h⟩ := Py.bind_ok.mp h
    have := vst h
    subst this
    exact (Shoot.mapM_ok_forall₂ ho).imp fun z r hz => ⟨r, hz, .inl ⟨rfl, rfl⟩⟩
  · have hQ : (dims A s).1.quad = some g := by rw [dims_alg hg, if_neg h0]; exact hq
    simp only [stackFun, if_neg h0, callOpt, hA, hQ] at h
    obtain ⟨o, ho, h⟩ := Py.bind_ok.mp h
    obtain ⟨o1, ho1, h⟩ := Py.bind_ok.mp h
    obtain ⟨w, hw, h⟩ := Py.bind_ok.mp h
    obtain ⟨o2, ho2, h⟩ := Py.bind_ok.mp h
    have e1 := vst ho1
    have e2 := vst ho2
    subst e1 e2
    simp only [hstack2] at h
    split at h
    · rename_i hl
      simp only [Except.ok.injEq] at h
      subst h
      have h1 := Shoot.mapM_ok_forall₂ ho
      have h2 := Shoot.mapM_ok_forall₂ hw
      clear * - h1 h2 hl h0
      induction h1 generalizing w with
      | nil => cases h2; exact .nil
      | cons hz _ ih =>
        cases h2 with
        | cons hz' h2 =>
          refine .cons ⟨_, hz, .inr ⟨by omega, _, hz', rfl⟩⟩ (ih _ (by simpa using hl) h2)
    · simp at h

end

/-- **C46** (equations).  A curve of stacked vectors follows the equations handed to scipy if and only if its states follow
the declared equations and its quadratures integrate the declared rates. -/
theorem C46_equations {A : Alg ℝ} {nY nQ : Nat} {s : Sol ℝ} {prob : Stacked ℝ} {f g : Fn ℝ} (hf : A.deriv = some f)
    (hq : A.quad = some g) (hfl : ∀ a r, f a = .ok r → r.length = nY) (hgl : ∀ a r, g a = .ok r → r.length = nQ)
    (hg : Guess nY nQ s) (hp : stacked (dims A s).1 ⟨nY, nQ, s.dyn.length, s.nondyn.length⟩ s = .ok prob)
    (p : Option (List ℝ)) {y q : ℝ → List ℝ} (hy : ∀ t, (y t).length = nY) (hql : ∀ t, (q t).length = nQ) :
    Flow (fun z => (prob.fn [z] p).map (fun r => r.getD 0 [])) (nY + nQ) (fun t => y t ++ q t) ↔
      Flow (fun v => f [v, (p.getD []).take s.dyn.length, s.const]) nY y ∧
        (0 < nQ → Integral (fun v => g [v, (p.getD []).take s.dyn.length, s.const]) nQ y q) := by
  have hA : (dims A s).1.deriv = some f := by rw [dims_alg hg]; split <;> exact hf
  have gl : ∀ (a b : List ℝ) i, a.length = nY → i < nY → (a ++ b).getD i 0 = a.getD i 0 := by
    intro a b i ha hi
    simp [List.getD, List.getElem?_append_left (show i < a.length by omega)]
  have gr : ∀ (a b : List ℝ) i, a.length = nY → (a ++ b).getD (nY + i) 0 = b.getD i 0 := by
    intro a b i ha
    simp [List.getD, List.getElem?_append_right (show a.length ≤ nY + i by omega), ha]
  constructor
  · intro h
    have key : ∀ t, ∃ a, f [y t, (p.getD []).take s.dyn.length, s.const] = .ok a ∧ ∃ r,
        (∀ i < nY + nQ, HasDerivAt (fun s => (y s ++ q s).getD i 0) (r.getD i 0) t) ∧
        ((nQ = 0 ∧ r = a) ∨ (0 < nQ ∧ ∃ b, g [y t, (p.getD []).take s.dyn.length, s.const] = .ok b ∧ r = a ++ b)) := by
      intro t
      obtain ⟨r, hr, -, hd⟩ := h t
      replace hr : (prob.fn [y t ++ q t] p).map (fun r => r.getD 0 []) = .ok r := hr
      generalize hx : prob.fn [y t ++ q t] p = x at hr
      cases x with
      | error e => simp [Except.map] at hr
      | ok rs =>
        have := C46_nodes hf hq hg hp hx
        cases this with
        | cons ha hn =>
          cases hn
          obtain ⟨a, ha, hab⟩ := ha
          rw [List.take_left' (hy t)] at ha
          simp only [Except.map, Except.ok.injEq, List.getD_cons_zero] at hr
          subst hr
          rw [List.take_left' (hy t)] at hab
          exact ⟨a, ha, _, hd, hab⟩
    refine ⟨fun t => ?_, fun h0 t => ?_⟩
    · obtain ⟨a, ha, r, hd, hab⟩ := key t
      have hal := hfl _ _ ha
      refine ⟨a, ha, hal, fun i hi => ?_⟩
      have := hd i (by omega)
      have e : r.getD i 0 = a.getD i 0 := by
        rcases hab with ⟨-, rfl⟩ | ⟨-, b, -, rfl⟩
        · rfl
        · exact gl _ _ _ hal hi
      rw [e] at this
      exact this.congr_of_eventuallyEq (Filter.Eventually.of_forall fun s => (gl _ _ _ (hy s) hi).symm)
    · obtain ⟨a, ha, r, hd, hab⟩ := key t
      have hal := hfl _ _ ha
      rcases hab with ⟨h1, -⟩ | ⟨-, b, hb, rfl⟩
      · omega
      · refine ⟨b, hb, hgl _ _ hb, fun i hi => ?_⟩
        have := hd (nY + i) (by omega)
        rw [gr _ _ _ hal] at this
        exact this.congr_of_eventuallyEq (Filter.Eventually.of_forall fun s => (gr _ _ _ (hy s)).symm)
  · rintro ⟨h1, h2⟩ t
    obtain ⟨a, ha, hal, hda⟩ := h1 t
    by_cases h0 : nQ = 0
    · subst h0
      refine ⟨a, ?_, by omega, fun i hi => ?_⟩
      · rw [(stacked_ok hp).1]
        simp only [stackFun, if_true, callOpt, hA, List.mapM_cons, List.mapM_nil, List.take_left' (hy t), ha]
        rfl
      · exact (hda i (by omega)).congr_of_eventuallyEq
          (Filter.Eventually.of_forall fun s => gl _ _ _ (hy s) (by omega))
    · have hQ : (dims A s).1.quad = some g := by rw [dims_alg hg, if_neg h0]; exact hq
      obtain ⟨b, hb, hbl, hdb⟩ := h2 (by omega) t
      refine ⟨a ++ b, ?_, by simp [hal, hbl], fun i hi => ?_⟩
      · rw [(stacked_ok hp).1]
        simp only [stackFun, if_neg h0, callOpt, hA, hQ, List.mapM_cons, List.mapM_nil, List.take_left' (hy t), ha, hb]
        rfl
      · by_cases hiy : i < nY
        · rw [gl _ _ _ hal hiy]
          exact (hda i hiy).congr_of_eventuallyEq (Filter.Eventually.of_forall fun s => gl _ _ _ (hy s) hiy)
        · obtain ⟨j, rfl⟩ : ∃ j, i = nY + j := ⟨i - nY, by omega⟩
          rw [gr _ _ _ hal]
          exact (hdb j (by omega)).congr_of_eventuallyEq (Filter.Eventually.of_forall fun s => gr _ _ _ (hy s))

/-! ## A concrete case -/

/-- A solver that accepts its guess if the boundary conditions hold exactly. -/
def checker (prob : Stacked Rat) : Py (Answer Rat) :=
  if prob.y = [] ∨ prob.y.length ≠ prob.x.length then .error .valueError
  else
    let p := if prob.p = [] then none else some prob.p
    let ok := match prob.bc (prob.y.getD 0 []) (prob.y.getD (prob.y.length - 1) []) p with
      | .ok r => r.all (· = 0)
      | .error _ => false
    .ok ⟨prob.x, prob.y, p, ok⟩

/-- It keeps scipy's promise. -/
theorem checker_sound : BvpSound (fun r : List Rat => ∀ x ∈ r, x = 0) checker := by
  have key : ∀ prob ans, checker prob = .ok ans → prob.y ≠ [] ∧ prob.y.length = prob.x.length ∧ ans.x = prob.x ∧
      ans.y = prob.y ∧ ans.p = (if prob.p = [] then none else some prob.p) ∧
      ans.success = (match prob.bc (prob.y.getD 0 []) (prob.y.getD (prob.y.length - 1) [])
        (if prob.p = [] then none else some prob.p) with
      | .ok r => r.all (· = 0)
      | .error _ => false) := by
    intro prob ans h
    unfold checker at h
    split at h
    · cases h
    · rename_i hc
      push Not at hc
      cases h
      exact ⟨hc.1, hc.2, rfl, rfl, rfl, rfl⟩
  refine ⟨fun prob ans h => ?_, fun prob ans w h _ hw => ?_, fun prob ans h => ?_, fun prob ans h hs => ?_⟩
  · obtain ⟨h1, h2, h3, h4, -⟩ := key _ _ h
    rw [h4, h3]
    exact ⟨h1, h2⟩
  · obtain ⟨-, -, -, h4, -⟩ := key _ _ h
    rw [h4]
    exact hw
  · obtain ⟨-, -, -, -, h5, -⟩ := key _ _ h
    by_cases hp : prob.p = []
    · exact .inl ⟨hp, by rw [h5, if_pos hp]⟩
    · exact .inr ⟨hp, _, by rw [h5, if_neg hp], rfl⟩
  · obtain ⟨-, -, -, h4, h5, h6⟩ := key _ _ h
    rw [h4, h5]
    rw [hs] at h6
    split at h6
    · rename_i r hr
      exact ⟨r, hr, by simpa using h6.symm⟩
    · cases h6

/-- Two states, one quadrature, one parameter, one multiplier, a constant. -/
def exSol : Sol Rat :=
  ⟨[0, 1], .mat 2 [[1, 2], [3, 4]], .mat 1 [[5], [6]], .vec [], .vec [], [7], [8], [9], false⟩

/-- Conditions that name every argument: satisfied by `exSol`. -/
def exBc : Fn Rat
  | [[a, b], [q], [c, d], [r], [p], [n], [k]] =>
    .ok [a - 1, b - 2, q - 5, c - 3, d - 4, r - 6, p - 7, n - 8, k - 9]
  | _ => .error .typeError

/-- The equations are not used by `checker`. -/
def exSpbvp : Alg Rat := ⟨none, none, some exBc, none, none⟩

/-- `solve` on the second of two trajectories. -/
def exSolve : Alg Rat × Heap Rat × Py Nat := solve checker exSpbvp [{ exSol with t := [] }, exSol] 1

/-- A third trajectory appears, converged, with times, parameters and multipliers. -/
example : exSolve.2.2.toOption = some 2 ∧ exSolve.2.1.map (fun s => s.converged) = [false, false, true] ∧
    exSolve.2.1.map (fun s => (s.t, s.dyn ++ s.nondyn)) = [([], [7, 8]), ([0, 1], [7, 8]), ([0, 1], [7, 8])] := by
  refine ⟨?_, ?_, ?_⟩ <;> decide +kernel

/-- The assumptions on a guess hold for it. -/
example : Guess 2 1 exSol :=
  ⟨⟨_, rfl, by simp, by simp⟩, .inr ⟨by norm_num, _, _, rfl, rfl, rfl, by simp⟩⟩

end Beluga.Bvp
