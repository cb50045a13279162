import Verif.Bvp.Props
import Verif.Traj.Props

/-!
# C59: analytical Jacobians handed to the collocation solver, and C60: evaluating its answer
-/

namespace Beluga.Bvp

open Beluga.Traj (Arr Curve)
open Beluga.Shoot (Fn)

theorem assign2_exact {K : Type} [Zero K] {n m : Nat} {rows : List (List K)} (h1 : rows.length = n)
    (h2 : ∀ r ∈ rows, r.length = m) : assign2 n m (.mat m rows) = .ok rows := by
  simp only [assign2, h1, true_or, and_self, if_true]
  congr 1
  conv_rhs => rw [← List.map_id rows]
  exact List.map_congr_left fun r hr => by simp [h2 r hr]

/-- **C59**, without quadratures.  If the user's function returns the partial derivatives of the declared equations (as
two-dimensional arrays), the arrays handed to scipy are the partial derivatives of the stacked equations at every node, with
respect to the stacked states and all parameters (multipliers included). -/
theorem C59_partial {A : Alg ℝ} {nY : Nat} {s : Sol ℝ} {prob : Stacked ℝ} {f : Fn ℝ} {J : DJac ℝ}
    (hf : A.deriv = some f) (hJ : A.derivJac = some J) (hg : Guess nY 0 s)
    (hp : stacked (dims A s).1 ⟨nY, 0, s.dyn.length, s.nondyn.length⟩ s = .ok prob)
    (hjac : ∀ v p, v.length = nY → p.length = s.dyn.length → ∃ dy dp,
      J [v, p, s.const] = .ok (.mat nY dy, .mat s.dyn.length dp) ∧ (∀ r ∈ dy, r.length = nY) ∧
      (∀ r ∈ dp, r.length = s.dyn.length) ∧ IsJac (fun v p => f [v, p, s.const]) nY v p dy dp)
    {zs : List (List ℝ)} (hz : zs ≠ []) (hzl : ∀ z ∈ zs, z.length = nY) {P : List ℝ}
    (hP : P.length = s.dyn.length + s.nondyn.length) :
    ∃ j, prob.fnJac = some j ∧ ∃ Dy Dp, j zs (some P) = .ok (Dy, if P = [] then none else some Dp) ∧
      Dy.length = zs.length ∧ Dp.length = zs.length ∧ ∀ i < zs.length,
        IsJac (fun z P => (prob.fn [z] (some P)).map (fun r => r.getD 0 [])) nY (zs.getD i []) P (Dy.getD i []) (Dp.getD i []) := by
  have hA : (dims A s).1.deriv = some f := by rw [dims_alg hg]; exact hf
  have hJ' : (dims A s).1.derivJac = some J := by rw [dims_alg hg]; exact hJ
  obtain ⟨hfn, -, hfj, -⟩ := stacked_ok hp
  rw [hJ'] at hfj
  refine ⟨_, hfj, ?_⟩
  set nP := s.dyn.length with hnP
  set nN := s.nondyn.length with hnN
  have hfn1 : ∀ (z Q : List ℝ), z.length = nY → (prob.fn [z] (some Q)).map (fun r => r.getD 0 []) = f [z, Q.take nP, s.const] := by
    intro z Q hz
    rw [hfn]
    simp only [stackFun, if_true, callOpt, hA, List.mapM_cons, List.mapM_nil, Option.getD_some,
      List.take_of_length_le hz.le]
    cases f [z, Q.take nP, s.const] <;> rfl
  -- one node
  have node : ∀ z ∈ zs, ∃ dy dp, (do
      let j ← J [z, P.take nP, s.const]
      let dy ← assign2 nY nY j.1
      let dp ← padParams ⟨nY, 0, nP, nN⟩ j.2
      let dp ← assign2 nY (nP + nN) dp
      (.ok (dy, dp) : Py _)) = .ok (dy, dp) ∧
      IsJac (fun z P => (prob.fn [z] (some P)).map (fun r => r.getD 0 [])) nY z P dy dp := by
    intro z hzm
    obtain ⟨dy, dp, h1, h2, h3, h4, h5, h6, h7⟩ := hjac z (P.take nP) (hzl z hzm) (by simp [hP])
    have hpadlen : ∀ r ∈ dp.map (fun r => r ++ List.replicate nN (0 : ℝ)), r.length = nP + nN := by
      intro r hr
      obtain ⟨x, hx, rfl⟩ := List.mem_map.mp hr
      simp [h3 x hx]
    refine ⟨dy, dp.map (fun r => r ++ List.replicate nN 0), ?_, h4, by simpa using h5, ?_, ?_⟩
    · rw [h1]
      simp only [Py.ok_bind, assign2_exact h4 h2, padParams, h5, if_true]
      rw [assign2_exact (by simpa using h5) hpadlen]
      rfl
    · intro i hi j hj
      have := h6 i hi j hj
      refine this.congr_of_eventuallyEq (Filter.Eventually.of_forall fun x => ?_)
      simp only [comp]
      rw [hfn1 _ _ (by simp [hzl z hzm])]
    · intro i hi j hj
      have hrow : (dp.map (fun r => r ++ List.replicate nN (0 : ℝ))).getD i [] = dp.getD i [] ++ List.replicate nN 0 := by
        simp [List.getD, List.getElem?_map, List.getElem?_eq_getElem (show i < dp.length by omega)]
      have hrl : (dp.getD i []).length = nP := by
        simp only [List.getD, List.getElem?_eq_getElem (show i < dp.length by omega), Option.getD_some]
        exact h3 _ (List.getElem_mem _)
      rw [hrow]
      by_cases hjp : j < nP
      · have := h7 i hi j (by simp; omega)
        have e1 : (dp.getD i [] ++ List.replicate nN 0).getD j 0 = (dp.getD i []).getD j 0 := by
          simp only [List.getD]
          rw [List.getElem?_append_left (show j < (dp[i]?.getD []).length by rw [← List.getD]; omega)]
        have e2 : (P.take nP).getD j 0 = P.getD j 0 := by
          simp [List.getD, hjp]
        rw [e1, ← e2]
        refine this.congr_of_eventuallyEq (Filter.Eventually.of_forall fun x => ?_)
        simp only [comp]
        rw [hfn1 _ _ (hzl z hzm), List.take_set]
      · have e1 : (dp.getD i [] ++ List.replicate nN 0).getD j 0 = 0 := by
          simp only [List.getD]
          rw [List.getElem?_append_right (show (dp[i]?.getD []).length ≤ j by rw [← List.getD]; omega)]
          rw [List.getElem?_replicate]
          split <;> rfl
        rw [e1]
        have e : (fun x => comp (fun z P => (prob.fn [z] (some P)).map (fun r => r.getD 0 [])) i z (P.set j x)) =
            fun _ => comp (fun z P => (prob.fn [z] (some P)).map (fun r => r.getD 0 [])) i z P := by
          funext x
          simp only [comp]
          rw [hfn1 _ _ (hzl z hzm), hfn1 _ _ (hzl z hzm)]
          have : (P.set j x).take nP = P.take nP := by
            rw [List.take_set, List.set_eq_of_length_le (by simp; omega)]
          rw [this]
        rw [e]
        exact hasDerivAt_const _ _
  -- all nodes
  have all : ∀ l : List (List ℝ), (∀ z ∈ l, z ∈ zs) → ∃ js, l.mapM (fun z => (do
      let j ← J [z, P.take nP, s.const]
      let dy ← assign2 nY nY j.1
      let dp ← padParams ⟨nY, 0, nP, nN⟩ j.2
      let dp ← assign2 nY (nP + nN) dp
      (.ok (dy, dp) : Py _))) = .ok js ∧
      List.Forall₂ (fun z j => IsJac (fun z P => (prob.fn [z] (some P)).map (fun r => r.getD 0 [])) nY z P j.1 j.2) l js := by
    intro l
    induction l with
    | nil => exact fun _ => ⟨[], rfl, .nil⟩
    | cons z l ih =>
      intro hl
      obtain ⟨js, hjs, hF⟩ := ih fun z hz => hl z (List.mem_cons_of_mem _ hz)
      obtain ⟨dy, dp, h1, h2⟩ := node z (hl z List.mem_cons_self)
      refine ⟨(dy, dp) :: js, ?_, .cons h2 hF⟩
      rw [List.mapM_cons, h1, hjs]
      rfl
  obtain ⟨js, hjs, hF⟩ := all zs fun _ h => h
  have hlen := hF.length_eq
  refine ⟨js.map (·.1), js.map (·.2), ?_, by simpa using hlen.symm, by simpa using hlen.symm, fun i hi => ?_⟩
  · cases zs with
    | nil => exact absurd rfl hz
    | cons z zs' =>
      simp only [stackFunJac, Option.getD_some]
      rw [hzl z List.mem_cons_self]
      rw [hjs]
      simp only [Py.ok_bind]
      have : (nP + nN = 0) ↔ P = [] := by rw [← hP]; exact List.length_eq_zero_iff
      simp only [this]
  · have := List.forall₂_iff_get.mp hF
    have h2 := this.2 i hi (by omega)
    simp only [List.get_eq_getElem] at h2
    simpa [List.getD, List.getElem?_map, List.getElem?_eq_getElem hi, List.getElem?_eq_getElem (show i < js.length by omega)] using h2

section
variable {K : Type} [Zero K]

/-- **C59** is violated with quadratures: for two or more states a Jacobian of the declared equations (one row and column
per state) does not fit into the array for the stacked states, so the solver raises `ValueError`. -/
theorem C59_raises {J : DJac K} {d : Dims} {const z : List K} {zs : List (List K)} {p : Option (List K)} (hY : 2 ≤ d.nY)
    (hQ : 0 < d.nQ) (hz : z.length = d.nY + d.nQ) {dy : List (List K)} {dp : Arr K} (hl : dy.length = d.nY)
    (hJ : J [z, (p.getD []).take d.nP, const] = .ok (.mat d.nY dy, dp)) :
    stackFunJac J d const (z :: zs) p = .error .valueError := by
  have : assign2 (d.nY + d.nQ) (d.nY + d.nQ) (.mat d.nY dy) = .error .valueError := by
    simp only [assign2]
    rw [if_neg]
    rintro ⟨h, -⟩
    omega
  simp only [stackFunJac, List.mapM_cons, hJ, hz, Py.ok_bind, this]
  rfl

/-- **C59** is violated with quadratures: for one state the single entry of the Jacobian is repeated in all places, those of
the quadratures included (no parameters). -/
theorem C59_violated {J : DJac K} {nQ : Nat} {const z : List K} {c : K} (hz : z.length = 1 + nQ)
    (hJ : J [z, [], const] = .ok (.mat 1 [[c]], .mat 0 [[]])) (hQ : 0 < nQ) :
    stackFunJac J ⟨1, nQ, 0, 0⟩ const [z] none =
      .ok ([List.replicate (1 + nQ) (List.replicate (1 + nQ) c)], none) := by
  have h1 : assign2 (1 + nQ) (1 + nQ) (.mat 1 [[c]]) = .ok (List.replicate (1 + nQ) (List.replicate (1 + nQ) c)) := by
    simp [assign2, show nQ ≠ 0 by omega]
  have h2 : padParams ⟨1, nQ, 0, 0⟩ (.mat 0 [([] : List K)]) = .ok (.mat 0 [[]]) := by
    simp [padParams]
  have h3 : assign2 (1 + nQ) (0 + 0) (.mat 0 [([] : List K)]) = .ok (List.replicate (1 + nQ) []) := by
    simp [assign2, show nQ ≠ 0 by omega]
  simp only [stackFunJac, List.mapM_cons, List.mapM_nil, hJ, hz, Py.ok_bind, h1, h2, h3, List.take_nil, Option.getD_none]
  rfl

omit [Zero K] in
/-- **C59** is violated for boundary conditions: the compiled Jacobian of a problem with quadratures is a tuple of five
arrays (NumericProblem.py:303-313), which raises. -/
theorem C59_bc_raises {J : BJac K} {d : Dims} {const ya yb : List K} {p : Option (List K)} {r : List (Arr K)} (hQ : 0 < d.nQ)
    (hJ : J [ya.take d.nY, (ya.drop d.nY).take d.nQ, yb.take d.nY, (yb.drop d.nY).take d.nQ, (p.getD []).take d.nP,
        ((p.getD []).drop d.nP).take d.nN, const] = .ok r) (hr : r.length = 5) :
    stackBcJac J d const ya yb p = .error .valueError := by
  obtain ⟨a, b, c, e, f, rfl⟩ : ∃ a b c e f, r = [a, b, c, e, f] := by
    match r, hr with
    | [a, b, c, e, f], _ => exact ⟨a, b, c, e, f, rfl⟩
  simp only [stackBcJac, if_pos hQ, hJ, Py.ok_bind]

omit [Zero K] in
/-- **C59** is violated for boundary conditions without parameters: scipy expects `dbc_dya, dbc_dyb` then ("dbc_dp ... should
not be returned"), but the function never returns two arrays. -/
theorem C59_bc_violated {J : BJac K} {d : Dims} {const ya yb : List K} {p : Option (List K)} {r : List (Arr K)}
    (h : stackBcJac J d const ya yb p = .ok r) : r.length = 3 := by
  have key : ∀ x : Py (List (Arr K)), (do
      let r ← x
      match r with
      | [a, b, c] => .ok [a, b, c]
      | _ => .error .valueError) = .ok r → r.length = 3 := by
    intro x hx
    obtain ⟨r', -, hx⟩ := Py.bind_ok.mp hx
    split at hx
    · simp only [Except.ok.injEq] at hx
      subst hx
      rfl
    · simp at hx
  unfold stackBcJac at h
  by_cases hQ : 0 < d.nQ
  · simp only [if_pos hQ] at h
    exact key _ h
  · simp only [if_neg hQ] at h
    exact key _ h

end

/-- An equation `y' = y` with a quadrature `q' = 1`, and its Jacobian. -/
def exAlg : Alg ℝ where
  deriv := some fun a => .ok (a.getD 0 [])
  quad := some fun _ => .ok [1]
  bc := none
  derivJac := some fun _ => .ok (.mat 1 [[1]], .mat 0 [[]])
  bcJac := none

/-- The array scipy gets for that equation is not the matrix of partial derivatives of the function it gets. -/
example : ∃ dy, stackFunJac (fun _ => .ok (.mat 1 [[1]], .mat 0 [[]])) ⟨1, 1, 0, 0⟩ [] [[2, 3]] none = .ok ([dy], none) ∧
    ¬IsJac (fun z P => (stackFun exAlg ⟨1, 1, 0, 0⟩ [] [z] (some P)).map (fun r => r.getD 0 [])) 2 [2, 3] [] dy [[], []] := by
  refine ⟨_, C59_violated (nQ := 1) (by simp) rfl (by norm_num), ?_⟩
  rintro ⟨-, -, h, -⟩
  have := h 1 (by norm_num) 1 (by norm_num)
  have e : (fun x : ℝ => comp (fun z P => (stackFun exAlg ⟨1, 1, 0, 0⟩ [] [z] (some P)).map (fun r => r.getD 0 [])) 1
      (([2, 3] : List ℝ).set 1 x) []) = fun _ => 1 := by
    funext x
    rfl
  rw [e] at this
  have h0 := (hasDerivAt_const ((([2, 3] : List ℝ)).getD 1 0) (1 : ℝ)).unique this
  norm_num [List.replicate] at h0

/-! ## C60 -/

section
variable {K : Type} [Field K] [LinearOrder K]

/-- The parts of a trajectory that are interpolated. -/
def Sol.curve (s : Sol K) : Curve K := ⟨s.t, s.y, s.q, s.u⟩

theorem interp1d_error {ts ys : List K} {x : K} {e : PyErr} (h : Traj.interp1d ts ys x = .error e) : e = .valueError := by
  unfold Traj.interp1d at h
  split at h
  · exact (Except.error.inj h).symm
  · simp only at h
    split at h
    · exact (Except.error.inj h).symm
    · exact absurd h (by simp)

theorem mapM_error {α β : Type} {f : α → Py β} (hf : ∀ a e, f a = .error e → e = PyErr.valueError) :
    ∀ {l : List α} {e : PyErr}, l.mapM f = .error e → e = .valueError
  | [], e, h => by simp [pure, Except.pure] at h
  | a :: l, e, h => by
    rw [List.mapM_cons] at h
    cases ha : f a with
    | error e' =>
      rw [ha] at h
      have : e' = e := by simpa [bind, Except.bind] using h
      exact this ▸ hf a e' ha
    | ok b =>
      rw [ha] at h
      cases hl : l.mapM f with
      | error e' =>
        rw [hl] at h
        have : e' = e := by simpa [bind, Except.bind] using h
        exact this ▸ mapM_error hf hl
      | ok m =>
        rw [hl] at h
        simp [bind, Except.bind, pure, Except.pure] at h

/-- **C60** is violated when the guess has controls: the solver keeps the control rows of the guess, so if scipy changes the
number of nodes the returned trajectory cannot be evaluated at any time. -/
theorem C60_violated {bvp : Stacked K → Py (Answer K)} {A A' : Alg K} {h h' : Heap K} {ref ref' nY nQ c : Nat} {s r : Sol K}
    {us : List (List K)} (hs : h[ref]? = some s) (hg : Guess nY nQ s) (hu : s.u = .mat (c + 1) us)
    (hr : solve bvp A h ref = (A', h', .ok ref')) (hr' : h'[ref']? = some r) (hne : r.t ≠ [])
    (hmesh : r.t.length ≠ us.length) (x : K) : Traj.call r.curve x = .error .valueError := by
  obtain ⟨rfl, r', prob, ans, rfl, hrun⟩ := solve_run hs hg hr
  have : r' = r := by simpa using hr'
  subst this
  have hru : r'.u = .mat (c + 1) us := by rw [hrun.result]; exact hu
  have hi : ∀ j, Traj.interp1d r'.t (Traj.col us j) x = .error .valueError := by
    intro j
    unfold Traj.interp1d
    rw [if_pos (by simpa [Traj.col] using hmesh)]
  have hcu : Traj.atOthers r'.t r'.u x = .error .valueError := by
    rw [hru, Traj.atOthers, List.range_succ_eq_map, List.mapM_cons, hi]
    rfl
  have hf : ∀ rows : List (List K), ∀ a e, Traj.interp1d r'.t (Traj.col rows a) x = .error e → e = .valueError :=
    fun rows a e he => interp1d_error he
  have hv : ∀ (l : List K) e, (do (.ok [← Traj.interp1d r'.t l x] : Py (List K))) = .error e → e = .valueError := by
    intro l e he
    cases hx : Traj.interp1d r'.t l x with
    | error e' =>
      rw [hx] at he
      have : e' = e := by simpa [bind, Except.bind] using he
      exact this ▸ interp1d_error hx
    | ok v => rw [hx] at he; simp [bind, Except.bind] at he
  have hl : ¬r'.t.length = 0 := by simpa using hne
  have hcall : Traj.call r'.curve x = (do
      let y ← Traj.atStates r'.t r'.y x
      let q ← Traj.atOthers r'.t r'.q x
      let u ← Traj.atOthers r'.t r'.u x
      .ok (y, q, u)) := if_neg hl
  rw [hcall]
  cases hy : Traj.atStates r'.t r'.y x with
  | error e =>
    have : e = .valueError := by
      unfold Traj.atStates at hy
      split at hy
      · exact hv _ _ hy
      · exact mapM_error (hf _) hy
    subst this
    rfl
  | ok y =>
    simp only [Py.ok_bind]
    cases hq : Traj.atOthers r'.t r'.q x with
    | error e =>
      have : e = .valueError := by
        unfold Traj.atOthers at hq
        split at hq
        · simp at hq
        · exact hv _ _ hq
        · exact mapM_error (hf _) hq
      subst this
      rfl
    | ok q =>
      simp only [Py.ok_bind]
      rw [hcu]
      rfl

variable [IsStrictOrderedRing K]

/-- **C60**, for a guess without controls or when the number of nodes is kept: the returned trajectory can be evaluated
everywhere between its first and last time. -/
theorem C60_partial {small : List K → Prop} {bvp : Stacked K → Py (Answer K)} (hb : BvpSound small bvp)
    {A A' : Alg K} {h h' : Heap K} {ref ref' nY nQ : Nat} {s r : Sol K} (hs : h[ref]? = some s) (hg : Guess nY nQ s)
    (hr : solve bvp A h ref = (A', h', .ok ref')) (hr' : h'[ref']? = some r) (hu : Traj.FitsOrEmpty r.t.length s.u)
    (hnd : r.t.Nodup) {x : K} (hlo : ∃ k < r.t.length, r.t.getD k 0 ≤ x) (hhi : ∃ k < r.t.length, x ≤ r.t.getD k 0) :
    ∃ v, Traj.call r.curve x = .ok v := by
  obtain ⟨-, -, hgr, hlen⟩ := C46_shapes hb hs hg hr hr'
  obtain ⟨rfl, r', prob, ans, rfl, hrun⟩ := solve_run hs hg hr
  have : r' = r := by simpa using hr'
  subst this
  have hru : r'.u = s.u := by rw [hrun.result]; rfl
  have hq : ∃ qs, r'.q = .mat nQ qs ∧ qs.length = r'.t.length ∧ ∀ q ∈ qs, q.length = nQ := by
    have hq' : r'.q = .mat nQ (ans.y.map fun row => (row.drop nY).take nQ) := by rw [hrun.result]; rfl
    have hy' : (matRows r'.y).length = ans.y.length := by rw [hrun.result]; simp [unstack, matRows]
    refine ⟨_, hq', by simp; omega, ?_⟩
    obtain ⟨hne, hw, -, -⟩ := stacked_rows hg hrun.stack
    have hwid := hb.width prob ans _ hrun.answer hne hw
    intro q hq
    obtain ⟨z, hz, rfl⟩ := List.mem_map.mp hq
    simp [hwid z hz]
  obtain ⟨ys, hy, -, hyl⟩ := hgr.states
  obtain ⟨qs, hq, hql, hqr⟩ := hq
  obtain ⟨i, j, θ, -, hcall⟩ := Traj.C39_between (g := r'.curve) hnd
    (by simp only [Sol.curve, hy, Traj.Fits]; exact ⟨by simpa [hy, matRows] using hlen, hyl⟩)
    (by right; simp only [Sol.curve, hq, Traj.Fits]; exact ⟨hql, hqr⟩)
    (by simp only [Sol.curve, hru]; exact hu) hlo hhi
  exact ⟨_, hcall⟩

end

end Beluga.Bvp
