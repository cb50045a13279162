import Verif.Shooting.Pack
import Verif.Shooting.Armijo
import Verif.Shooting.Spec

/-!
# Lemmas about arcs
-/

namespace Beluga.Shoot

set_option linter.unusedSectionVars false

open Beluga.Traj (Arr Curve Simpson getD_eq Fits FitsOrEmpty rowAt mix)

variable {K : Type} [Field K] [LinearOrder K] [IsStrictOrderedRing K]

theorem mapM_ok_forall₂ {α β : Type} {f : α → Py β} : ∀ {l : List α} {ys : List β}, l.mapM f = .ok ys →
    List.Forall₂ (fun a b => f a = .ok b) l ys
  | [], ys, h => by cases h; exact .nil
  | x :: l, ys, h => by
    rw [List.mapM_cons] at h
    obtain ⟨y, hy, h⟩ := Py.bind_ok.1 h
    obtain ⟨zs, hz, h⟩ := Py.bind_ok.1 h
    cases h
    exact .cons hy (mapM_ok_forall₂ hz)

theorem row_eq_rowAt (a : Arr K) (i : Nat) : row a i = rowAt a i := by cases a <;> rfl

/-! ### The arcs of the guess -/

theorem lin_getD (a b : K) {n i : Nat} (hi : i ≤ n) :
    (linspace a b (n + 1)).getD i 0 = a + (i : K) * ((b - a) / (n : K)) := by
  rw [List.getD_eq_getElem?_getD, linspace_getElem? _ _ _ _ (by omega)]
  simp

theorem junction_zero (sol : Curve K) (n : Nat) : junction sol n 0 = sol.t.getD 0 0 := by simp [junction]

theorem junction_last (sol : Curve K) {n : Nat} (hn : 0 < n) : junction sol n n = lastT sol.t := by
  rw [junction, mul_div_cancel₀ _ (by exact_mod_cast hn.ne')]
  ring

theorem Guess.lt {nO nQ : Nat} {sol : Curve K} (h : Guess nO nQ sol) : sol.t.getD 0 0 < lastT sol.t :=
  Traj.getD_lt h.times (by have := h.two; omega) (by have := h.two; omega)

theorem junction_lt {nO nQ : Nat} {sol : Curve K} (h : Guess nO nQ sol) {n : Nat} (hn : 0 < n) (i : Nat) :
    junction sol n i < junction sol n (i + 1) := by
  have h1 := h.lt
  have h2 : (0 : K) < (lastT sol.t - sol.t.getD 0 0) / (n : K) := div_pos (by linarith) (by exact_mod_cast hn)
  simp only [junction]
  push_cast
  linarith

theorem junction_mem {nO nQ : Nat} {sol : Curve K} (h : Guess nO nQ sol) {n i : Nat} (hn : 0 < n) (hi : i ≤ n) :
    sol.t.getD 0 0 ≤ junction sol n i ∧ junction sol n i ≤ lastT sol.t := by
  have h1 := h.lt
  have h2 : (0 : K) < (lastT sol.t - sol.t.getD 0 0) / (n : K) := div_pos (by linarith) (by exact_mod_cast hn)
  have h3 : (i : K) * ((lastT sol.t - sol.t.getD 0 0) / (n : K)) ≤ (n : K) * ((lastT sol.t - sol.t.getD 0 0) / (n : K)) :=
    mul_le_mul_of_nonneg_right (by exact_mod_cast hi) h2.le
  rw [mul_div_cancel₀ _ (by exact_mod_cast hn.ne')] at h3
  have h4 : (0 : K) ≤ (i : K) * ((lastT sol.t - sol.t.getD 0 0) / (n : K)) := mul_nonneg (by positivity) h2.le
  simp only [junction]
  constructor <;> linarith

/-- An arc of the guess, or one into which unknowns were written. -/
structure TwoPoint (a b : K) (nO nQ : Nat) (g : Curve K) : Prop where
  t : g.t = [a, b]
  y : ∃ r s, g.y = .mat nO [r, s] ∧ r.length = nO ∧ s.length = nO
  q : ∃ r s, g.q = .mat nQ [r, s] ∧ r.length = nQ ∧ s.length = nQ
  u : ∃ n r s, g.u = .mat n [r, s] ∧ r.length = n ∧ s.length = n

/-- The number of components of a part of a guess. -/
def width : Arr K → Nat
  | .vec [] => 0
  | .vec _ => 1
  | .mat c _ => c

theorem rowAt_width {n k : Nat} {a : Arr K} (h : FitsOrEmpty n a) (hk : k < n) : (rowAt a k).length = width a := by
  rcases h with rfl | h
  · rfl
  · cases a with
    | vec l =>
      have hl : l.length = n := h
      cases l with
      | nil => simp at hl; omega
      | cons x l => simp only [rowAt]; rw [List.getElem?_eq_getElem (by omega)]; rfl
    | mat c rows => exact Traj.rowAt_mat_length h hk

/-- The value of a guess at a time inside has the right numbers of components. -/
theorem Guess.call {nO nQ : Nat} {sol : Curve K} (h : Guess nO nQ sol) {x : K} (h1 : sol.t.getD 0 0 ≤ x) (h2 : x ≤ lastT sol.t) :
    ∃ y q u, Traj.call sol x = .ok (y, q, u) ∧ y.length = nO ∧ q.length = nQ ∧ u.length = width sol.u := by
  have h2' := h.two
  obtain ⟨rows, hy, hyf⟩ := h.y
  have hqf : FitsOrEmpty sol.t.length sol.q := by
    rcases h.q with ⟨-, hq⟩ | ⟨-, -, hq⟩
    · exact .inl hq
    · exact .inr hq
  have hqw : width sol.q = nQ := by
    rcases h.q with ⟨hq0, hq⟩ | ⟨rows, hq, -⟩
    · rw [hq, hq0]; rfl
    · rw [hq]; rfl
  obtain ⟨i, j, θ, hb, hc⟩ := Traj.C39_between (h.times.imp fun h => ne_of_lt h) hyf hqf h.u ⟨0, by omega, h1⟩
    ⟨sol.t.length - 1, by omega, h2⟩
  refine ⟨_, _, _, hc, ?_, ?_, ?_⟩
  · rw [mix, List.length_zipWith, rowAt_width (.inr hyf) hb.i_lt, rowAt_width (.inr hyf) hb.j_lt, hy, width, min_self]
  · rw [mix, List.length_zipWith, rowAt_width hqf hb.i_lt, rowAt_width hqf hb.j_lt, hqw, min_self]
  · rw [mix, List.length_zipWith, rowAt_width h.u hb.i_lt, rowAt_width h.u hb.j_lt, min_self]

/-- **C44** The guess is split into `n` arcs of equal length without gaps; each starts and ends with the values of the guess. -/
theorem C44_split {nO nQ : Nat} {sol : Curve K} (h : Guess nO nQ sol) {n : Nat} (hn : 0 < n) :
    ∃ gs, makeArcs sol n = .ok gs ∧ gs.length = n ∧ junction sol n 0 = sol.t.getD 0 0 ∧ junction sol n n = lastT sol.t ∧
      ∀ i < n, ∃ ya qa ua yb qb ub, Traj.call sol (junction sol n i) = .ok (ya, qa, ua) ∧
        Traj.call sol (junction sol n (i + 1)) = .ok (yb, qb, ub) ∧ ya.length = nO ∧ qa.length = nQ ∧
        gs[i]? = some ⟨[junction sol n i, junction sol n (i + 1)], .mat nO [ya, yb], .mat nQ [qa, qb],
          .mat ua.length [ua, ub]⟩ ∧ yb.length = nO ∧ qb.length = nQ ∧ ub.length = ua.length := by
  have hx : ∀ i, ∃ s : List K × List K × List K, i ≤ n → Traj.call sol (junction sol n i) = .ok s ∧ s.1.length = nO ∧
      s.2.1.length = nQ ∧ s.2.2.length = width sol.u := by
    intro i
    by_cases hi : i ≤ n
    · obtain ⟨h1, h2⟩ := junction_mem h hn hi
      obtain ⟨y, q, u, h3, h4, h5, h6⟩ := h.call h1 h2
      exact ⟨(y, q, u), fun _ => ⟨h3, h4, h5, h6⟩⟩
    · exact ⟨([], [], []), fun h => absurd h hi⟩
  choose s hs using hx
  have hm : makeArcs sol n = .ok ((List.range n).map fun i => ⟨[junction sol n i, junction sol n (i + 1)],
      .mat nO [(s i).1, (s (i + 1)).1], .mat nQ [(s i).2.1, (s (i + 1)).2.1],
      .mat (s i).2.2.length [(s i).2.2, (s (i + 1)).2.2]⟩) := by
    rw [makeArcs]
    refine Py.mapM_ok fun i hi => ?_
    have hi := List.mem_range.1 hi
    obtain ⟨h1, h2, h3, -⟩ := hs i (by omega)
    obtain ⟨h4, -⟩ := hs (i + 1) (by omega)
    rw [lin_getD _ _ (by omega : i ≤ n), lin_getD _ _ (by omega : i + 1 ≤ n)]
    change (Traj.call sol (junction sol n i) >>= fun a => Traj.call sol (junction sol n (i + 1)) >>= fun b => _) = _
    rw [h1, Py.ok_bind, h4, Py.ok_bind, h2, h3]
    rfl
  refine ⟨_, hm, by simp, junction_zero sol n, junction_last sol hn, fun i hi => ?_⟩
  obtain ⟨h1, h2, h3, h4⟩ := hs i (by omega)
  obtain ⟨h5, h6, h7, h8⟩ := hs (i + 1) (by omega)
  refine ⟨(s i).1, (s i).2.1, (s i).2.2, (s (i + 1)).1, (s (i + 1)).2.1, (s (i + 1)).2.2, h1, h5, h2, h3, ?_, h6, h7,
    by rw [h4, h8]⟩
  rw [List.getElem?_map, List.getElem?_range hi]
  rfl

/-- Arcs with two points each on the junctions. -/
structure Arcs (sol : Curve K) (n nO nQ : Nat) (gs : List (Curve K)) : Prop where
  length : gs.length = n
  arc : ∀ i < n, ∃ g, gs[i]? = some g ∧ TwoPoint (junction sol n i) (junction sol n (i + 1)) nO nQ g

theorem makeArcs_arcs {nO nQ : Nat} {sol : Curve K} (h : Guess nO nQ sol) {n : Nat} (hn : 0 < n) {gs : List (Curve K)}
    (hg : makeArcs sol n = .ok gs) : Arcs sol n nO nQ gs := by
  obtain ⟨gs', h1, h2, -, -, h3⟩ := C44_split h hn
  cases hg.symm.trans h1
  refine ⟨h2, fun i hi => ?_⟩
  obtain ⟨ya, qa, ua, yb, qb, ub, -, -, h4, h5, h6, h7, h8, h9⟩ := h3 i hi
  exact ⟨_, h6, rfl, ⟨_, _, rfl, h4, h7⟩, ⟨_, _, rfl, h5, h8⟩, ⟨_, _, _, rfl, rfl, h9⟩⟩

theorem setStarts_arcs {sol : Curve K} {n nO nQ nQ' : Nat} {gs : List (Curve K)} (h : Arcs sol n nO nQ gs) {ys : List (List K)}
    {q : List K} (hl : ys.length = n) (hy : ∀ y ∈ ys, y.length = nO) (hq : 0 < nQ' → q.length = nQ) :
    Arcs sol n nO nQ (setStarts gs ys q nQ') := by
  refine ⟨by rw [setStarts, List.length_zipWith, h.length, hl, min_self], fun i hi => ?_⟩
  obtain ⟨g, hg, h1⟩ := h.arc i hi
  have hyi : ys[i]? = some (ys[i]'(by omega)) := List.getElem?_eq_getElem _
  refine ⟨{ g with y := setFirst g.y (ys[i]'(by omega)), q := if 0 < nQ' then setFirst g.q q else g.q }, ?_, h1.t, ?_, ?_, h1.u⟩
  · rw [setStarts, List.getElem?_zipWith, hg, hyi]
  · obtain ⟨r, s, e, h2, h3⟩ := h1.y
    exact ⟨ys[i]'(by omega), s, by simp [e, setFirst], hy _ (List.getElem_mem _), h3⟩
  · obtain ⟨r, s, e, h2, h3⟩ := h1.q
    by_cases h0 : 0 < nQ'
    · exact ⟨q, s, by simp [e, setFirst, h0], hq h0, h3⟩
    · exact ⟨r, s, by simp [e, h0], h2, h3⟩

theorem unwrap_ok {xx : List K} {nO nQ nP nA : Nat} {w : List (List K) × List K × List K × List K}
    (h : unwrap xx nO nQ nP nA = .ok w) : w.1.length = nA ∧ ∀ y ∈ w.1, y.length = nO := by
  rw [unwrap] at h
  by_cases hl : xx.length < nO * nA
  · rw [if_pos hl] at h; cases h
  · rw [if_neg hl] at h
    cases h
    refine ⟨by simp, fun y hy => ?_⟩
    obtain ⟨i, hi, rfl⟩ := List.mem_map.1 hy
    have hi := List.mem_range.1 hi
    have : (i + 1) * nO ≤ nO * nA := by rw [Nat.mul_comm nO]; exact Nat.mul_le_mul_right _ (by omega)
    rw [Nat.succ_mul] at this
    simp only [List.length_take, List.length_drop]
    omega

/-! ### Propagation -/

theorem TwoPoint.call {a b : K} {nO nQ : Nat} {g : Curve K} (h : TwoPoint a b nO nQ g) (hab : a < b) :
    Traj.call g (g.t.getD 0 0) = .ok (row g.y 0, row g.q 0, row g.u 0) := by
  obtain ⟨r, s, e, h1, h2⟩ := h.y
  obtain ⟨r', s', e', h1', h2'⟩ := h.q
  obtain ⟨n, r'', s'', e'', h1'', h2''⟩ := h.u
  rw [row_eq_rowAt, row_eq_rowAt, row_eq_rowAt]
  refine Traj.C39_stamp ?_ ?_ (.inr ?_) (.inr ?_) (by rw [h.t]; simp)
  · rw [h.t]; simpa using hab.ne
  · rw [h.t, e]; exact ⟨rfl, by simp [h1, h2]⟩
  · rw [h.t, e']; exact ⟨rfl, by simp [h1', h2']⟩
  · rw [h.t, e'']; exact ⟨rfl, by simp [h1'', h2'']⟩

theorem reconstruct_shape {simp' : Simpson K} {quad : List K → Py (List K)} {g : Curve K} {q0 : List K} {out : List (List K)}
    (hpos : 0 < g.t.length) (h : Traj.reconstruct simp' quad g q0 = .ok out) :
    out.length = g.t.length ∧ out.getD 0 [] = q0 ∧ ∀ r ∈ out, r.length = q0.length := by
  rw [Traj.reconstruct] at h
  obtain ⟨dq, -, h⟩ := Py.bind_ok.1 h
  cases h
  refine ⟨by simp; omega, ?_, ?_⟩
  · rw [List.map_cons, List.getD_cons_zero]
    exact List.ext_getElem (by simp) fun k h1 h2 => by simp
  · intro r hr
    simp only [List.map_cons, List.mem_cons, List.map_map, List.mem_map] at hr
    rcases hr with rfl | ⟨ii, -, rfl⟩ <;> simp

/-- An arc propagated from `y0`, `q0` with `nQ` quadratures (`0`: none). -/
structure Shot (ivp : Ivp K) (rhs : List K → Py (List K)) (tspan y0 : List K) (nQ : Nat) (h : Curve K) : Prop where
  ivp : ivp rhs tspan y0 = .ok (h.t, rows h.y)
  y : h.y = .mat y0.length (rows h.y)
  q : if nQ = 0 then h.q = .vec [] else ∃ r, h.q = .mat nQ r ∧ r.length = h.t.length ∧ ∀ s ∈ r, s.length = nQ
  u : h.u = .vec []

/-- The number of quadratures that a propagation gives. -/
def effective (quad : Option (Fn K)) (n : Nat) : Nat := if quad.isSome then n else 0

theorem propagate_shot {ivp : Ivp K} (hI : IvpSound ivp) {simp' : Simpson K} {eom : Fn K} {quad : Option (Fn K)}
    {tspan y0 q0 : List K} {args : List (List K)} {h : Curve K} (hp : propagate ivp simp' eom quad tspan y0 q0 args = .ok h) :
    Shot ivp (fun y => eom (y :: args)) tspan y0 (effective quad q0.length) h ∧
      (quad.isSome → q0 ≠ [] → row h.q 0 = q0) := by
  rw [propagate] at hp
  obtain ⟨⟨ts, ys⟩, hi, hp⟩ := Py.bind_ok.1 hp
  cases quad with
  | none =>
    cases hp
    exact ⟨⟨hi, rfl, by simp [effective], rfl⟩, fun h => absurd h (by simp)⟩
  | some f =>
    dsimp only at hp
    by_cases h0 : q0.length ≠ 0
    · rw [if_pos h0] at hp
      obtain ⟨out, ho, hp⟩ := Py.bind_ok.1 hp
      cases hp
      obtain ⟨h1, h2, h3⟩ := reconstruct_shape (hI.pos hi) ho
      refine ⟨⟨hi, rfl, ?_, rfl⟩, fun _ _ => h2⟩
      rw [show effective (some f) q0.length = q0.length from rfl, if_neg h0]
      exact ⟨_, rfl, h1, h3⟩
    · rw [if_neg h0] at hp
      cases hp
      push Not at h0
      exact ⟨⟨hi, rfl, by simp [effective, h0], rfl⟩, fun _ h => absurd (List.length_eq_zero_iff.1 h0) h⟩

theorem Shot.qFits {ivp : Ivp K} (hI : IvpSound ivp) {rhs : List K → Py (List K)} {tspan y0 : List K} {nQ : Nat} {h : Curve K}
    (hs : Shot ivp rhs tspan y0 nQ h) (h0 : 0 < nQ) : QFits nQ h := by
  have := hs.q
  rw [if_neg (by omega)] at this
  obtain ⟨r, e, hl, hr⟩ := this
  exact ⟨⟨r, e, by rw [hl]; exact hI.pos hs.ivp, hr⟩⟩

theorem Shot.add {ivp : Ivp K} {rhs : List K → Py (List K)} {tspan y0 : List K} {nQ : Nat} {h : Curve K}
    (hs : Shot ivp rhs tspan y0 nQ h) (h0 : 0 < nQ) {d : List K} (hd : d.length = nQ) :
    Shot ivp rhs tspan y0 nQ { h with q := addRows d h.q } := by
  refine ⟨hs.ivp, hs.y, ?_, hs.u⟩
  have := hs.q
  rw [if_neg (by omega)] at this ⊢
  obtain ⟨r, e, hl, hr⟩ := this
  refine ⟨r.map fun r => List.zipWith (· + ·) r d, by rw [e]; rfl, by simpa using hl, fun s hs => ?_⟩
  obtain ⟨s', hs', rfl⟩ := List.mem_map.1 hs
  simp [hr s' hs', hd]

/-- What the propagated arcs look like. -/
structure Shots (E : Env K) (sol : Curve K) (n nO nQ : Nat) (p : List K) (out : List (Curve K)) : Prop where
  length : out.length = n
  shot : ∀ i < n, ∃ g y0, out[i]? = some g ∧ y0.length = nO ∧
    Shot E.ivp (fun y => E.eom [y, p, E.const]) [junction sol n i, junction sol n (i + 1)] y0 nQ g

/-- The arcs before the quadratures are made continuous. -/
theorem raw_shots {E : Env K} (hI : IvpSound E.ivp) (hser : E.parallel = false) {nO nQ n : Nat} {sol : Curve K}
    (hG : Guess nO nQ sol) (hn : 0 < n) {gs : List (Curve K)} (ha : Arcs sol n nO nQ gs) {p : List K}
    {starts : List (List K × List K × List K)} {new : List (Curve K)}
    (hs : (gs.mapM fun g => Traj.call g (g.t.getD 0 0)) = .ok starts)
    (hm : ((gs.zip starts).mapM fun gs => propagate E.ivp E.simp E.eom E.quad gs.1.t gs.2.1 gs.2.2.1 (extraArgs E gs.2.2.2 p)) =
      .ok new) :
    Shots E sol n nO (effective E.quad nQ) p new ∧
      ∀ i < n, ∃ g h, gs[i]? = some g ∧ new[i]? = some h ∧ row h.y 0 = row g.y 0 ∧
        (0 < effective E.quad nQ → row h.q 0 = row g.q 0) := by
  have h1 : starts = gs.map fun g => (row g.y 0, row g.q 0, row g.u 0) := by
    have : (gs.mapM fun g => Traj.call g (g.t.getD 0 0)) = .ok (gs.map fun g => (row g.y 0, row g.q 0, row g.u 0)) := by
      refine Py.mapM_ok fun g hg => ?_
      obtain ⟨i, hi, rfl⟩ := List.getElem_of_mem hg
      obtain ⟨g, hg, h2⟩ := ha.arc i (by rw [← ha.length]; exact hi)
      rw [List.getElem?_eq_getElem hi] at hg
      cases hg
      exact h2.call (junction_lt hG hn i)
    exact Except.ok.inj (hs.symm.trans this)
  subst h1
  have h2 := mapM_ok_forall₂ hm
  have hlen := h2.length_eq
  have hnl : new.length = n := by
    rw [← hlen, List.length_zip, List.length_map, min_self, ha.length]
  have key : ∀ i < n, ∃ g h, gs[i]? = some g ∧ new[i]? = some h ∧
      TwoPoint (junction sol n i) (junction sol n (i + 1)) nO nQ g ∧
      propagate E.ivp E.simp E.eom E.quad g.t (row g.y 0) (row g.q 0) [p, E.const] = .ok h := by
    intro i hi
    obtain ⟨g, hg, h3⟩ := ha.arc i hi
    have hgl : i < gs.length := by rw [ha.length]; exact hi
    rw [List.getElem?_eq_getElem hgl] at hg
    cases hg
    have h4 := List.Forall₂.get h2 (i := i) (by simpa using hgl) (by rw [hnl]; exact hi)
    refine ⟨_, _, List.getElem?_eq_getElem _, List.getElem?_eq_getElem (by rw [hnl]; exact hi), h3, ?_⟩
    simpa [extraArgs, hser] using h4
  constructor
  · refine ⟨hnl, fun i hi => ?_⟩
    obtain ⟨g, h, hg, hh, h3, h4⟩ := key i hi
    obtain ⟨h5, -⟩ := propagate_shot hI h4
    obtain ⟨r, s, e, h6, -⟩ := h3.y
    obtain ⟨r', s', e', h6', -⟩ := h3.q
    have e1 : (row g.q 0).length = nQ := by rw [e']; simpa [row] using h6'
    rw [e1, h3.t] at h5
    exact ⟨h, _, hh, by rw [e]; simpa [row] using h6, h5⟩
  · intro i hi
    obtain ⟨g, h, hg, hh, h3, h4⟩ := key i hi
    obtain ⟨h5, h6⟩ := propagate_shot hI h4
    refine ⟨g, h, hg, hh, ?_, fun h0 => ?_⟩
    · have := hI.state h5.ivp
      rw [h5.y]
      exact this
    · obtain ⟨r', s', e', h6', -⟩ := h3.q
      have e1 : (row g.q 0).length = nQ := by rw [e']; simpa [row] using h6'
      have hq : E.quad.isSome = true := by
        by_contra hq
        simp [effective, hq] at h0
      refine h6 hq fun hnil => ?_
      rw [hnil] at e1
      rw [effective, if_pos hq, ← e1] at h0
      exact absurd h0 (by simp)

/-- What `_make_gammas` returns. -/
theorem makeGammas_spec {E : Env K} (hI : IvpSound E.ivp) (hser : E.parallel = false) {nO nQ n : Nat} {sol : Curve K}
    (hG : Guess nO nQ sol) (hn : 0 < n) {gs : List (Curve K)} (ha : Arcs sol n nO nQ gs) {p : List K} {out : List (Curve K)}
    (h : makeGammas E gs p (effective E.quad nQ) = .ok out) :
    Shots E sol n nO (effective E.quad nQ) p out ∧
      (∀ i < n, ∃ g h, gs[i]? = some g ∧ out[i]? = some h ∧ row h.y 0 = row g.y 0 ∧
        (i = 0 → 0 < effective E.quad nQ → row h.q 0 = row g.q 0)) ∧
      (0 < effective E.quad nQ → ∀ i g h, out[i]? = some g → out[i + 1]? = some h → row h.q 0 = lastRow g.q) := by
  rw [makeGammas] at h
  obtain ⟨starts, hs, h⟩ := Py.bind_ok.1 h
  obtain ⟨new, hm, h⟩ := Py.bind_ok.1 h
  obtain ⟨h1, h2⟩ := raw_shots hI hser hG hn ha hs hm
  by_cases h0 : 0 < effective E.quad nQ
  swap
  · have : out = new := by
      match new, h with
      | [], h => cases h; rfl
      | [g], h => cases h; rfl
      | g :: g' :: rest, h =>
        dsimp only at h
        rw [if_neg h0] at h
        cases h
        rfl
    subst this
    refine ⟨h1, fun i hi => ?_, fun h => absurd h h0⟩
    obtain ⟨g, h, hg, hh, h3, h4⟩ := h2 i hi
    exact ⟨g, h, hg, hh, h3, fun _ => h4⟩
  match new, h with
  | [], h =>
    have := h1.length
    simp at this
    omega
  | [g], h =>
    cases h
    refine ⟨h1, fun i hi => ?_, fun _ i g' h' _ hh => by simp at hh⟩
    obtain ⟨g, h, hg, hh, h3, h4⟩ := h2 i hi
    exact ⟨g, h, hg, hh, h3, fun _ => h4⟩
  | g :: g' :: rest, h =>
    dsimp only at h
    rw [if_pos h0] at h
    cases h
    have hqf : ∀ k ∈ g :: g' :: rest, QFits (effective E.quad nQ) k := by
      intro k hk
      obtain ⟨i, hi, rfl⟩ := List.getElem_of_mem hk
      obtain ⟨k, y0, hk', -, h3⟩ := h1.shot i (by rw [← h1.length]; exact hi)
      rw [List.getElem?_eq_getElem hi] at hk'
      cases hk'
      exact h3.qFits hI h0
    obtain ⟨h3, h4⟩ := shiftQ_spec (n := effective E.quad nQ) (g' :: rest) (lastRow g.q)
      (fun k hk => hqf k (List.mem_cons_of_mem _ hk)) (lastRow_length (hqf g (List.mem_cons_self ..)))
    have hl := shiftQ_length (g' :: rest) (lastRow g.q)
    have hnl := h1.length
    have hget : ∀ i (hi : i < (g' :: rest).length), ∃ d : List K, d.length = effective E.quad nQ ∧
        (shiftQ (lastRow g.q) (g' :: rest))[i]? = some { (g' :: rest)[i] with q := addRows d (g' :: rest)[i].q } := by
      intro i hi
      obtain ⟨d, hd, e⟩ := List.Forall₂.get h4 (i := i) hi (by rw [hl]; exact hi)
      exact ⟨d, hd, by rw [List.getElem?_eq_getElem (by rw [hl]; exact hi)]; exact congrArg some e⟩
    refine ⟨⟨by rw [List.length_cons, hl, ← h1.length]; rfl, fun i hi => ?_⟩, fun i hi => ?_, fun _ i a b ha hb => ?_⟩
    · obtain ⟨k, y0, hk, hy, h5⟩ := h1.shot i hi
      cases i with
      | zero => exact ⟨k, y0, hk, hy, h5⟩
      | succ i =>
        have hil : i < (g' :: rest).length := by
          rw [← h1.length] at hi
          simpa using hi
        obtain ⟨d, hd, e⟩ := hget i hil
        rw [List.getElem?_cons_succ, List.getElem?_eq_getElem hil] at hk
        cases hk
        exact ⟨_, y0, by rw [List.getElem?_cons_succ]; exact e, hy, h5.add h0 hd⟩
    · obtain ⟨a, b, h5, h6, h7, h8⟩ := h2 i hi
      cases i with
      | zero => exact ⟨a, b, h5, h6, h7, fun _ => h8⟩
      | succ i =>
        have hil : i < (g' :: rest).length := by
          rw [← h1.length] at hi
          simpa using hi
        obtain ⟨d, hd, e⟩ := hget i hil
        rw [List.getElem?_cons_succ, List.getElem?_eq_getElem hil] at h6
        cases h6
        exact ⟨a, _, h5, (List.getElem?_cons_succ ..).trans e, h7, fun h => absurd h (by omega)⟩
    · rw [List.getElem?_cons_succ] at hb
      have hil : i < (g' :: rest).length := by
        rw [← hl]
        exact (List.getElem?_eq_some_iff.1 hb).1
      have h5 := h3 i hil
      rw [List.getD_eq_getElem?_getD, hb] at h5
      cases i with
      | zero =>
        cases ha
        exact h5
      | succ i =>
        rw [List.getElem?_cons_succ] at ha
        rw [if_neg (by omega), List.getD_eq_getElem?_getD, Nat.add_sub_cancel, ha] at h5
        exact h5

end Beluga.Shoot
