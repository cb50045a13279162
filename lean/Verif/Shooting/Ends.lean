import Verif.Shooting.Lemmas

/-!
# From the residual to the returned trajectory
-/

namespace Beluga.Shoot

set_option linter.unusedSectionVars false

open Beluga.Traj (Arr Curve Simpson getD_eq Fits FitsOrEmpty rowAt mix)

theorem stitch_first {α : Type} {l : List α} (ls : List (List α)) (h : 0 < l.length) (d : α) :
    0 < (stitch (l :: ls)).length ∧ (stitch (l :: ls)).getD 0 d = l.getD 0 d := by
  constructor
  · simp [stitch]; omega
  · rw [stitch, getD_eq (by simp; omega), getD_eq h, List.getElem_append_left h]

theorem stitch_lastD {α : Type} (d : α) : ∀ (ls : List (List α)) (l : List α), 0 < l.length → (∀ m ∈ ls, 2 ≤ m.length) →
    (stitch (l :: ls)).getD ((stitch (l :: ls)).length - 1) d =
      ((l :: ls).getD ls.length []).getD (((l :: ls).getD ls.length []).length - 1) d
  | [], l, _, _ => by simp [stitch]
  | m :: ls, l, h, hm => by
    have h2 := hm m (List.mem_cons_self ..)
    rw [stitch_cons_cons, stitch_lastD d ls (l ++ m.tail) (by simp; omega) fun k hk => hm k (List.mem_cons_of_mem _ hk)]
    cases ls with
    | cons k ls => simp
    | nil =>
      obtain ⟨a, m, rfl⟩ := List.exists_cons_of_length_pos (l := m) (by omega)
      simp only [List.length_cons] at h2
      simp only [List.length_nil, List.length_cons, List.getD_cons_zero, List.getD_cons_succ, List.tail_cons, List.length_append]
      rw [getD_eq (by simp; omega), getD_eq (by simp), List.getElem_append_right (by omega)]
      simp only [Nat.add_sub_cancel]
      obtain ⟨b, m, rfl⟩ := List.exists_cons_of_length_pos (l := m) (by omega)
      simp only [List.length_cons, List.getElem_cons_succ]
      congr 1
      omega

variable {K : Type} [Field K] [LinearOrder K] [IsStrictOrderedRing K]

theorem Guess.nStates {nO nQ : Nat} {sol : Curve K} (h : Guess nO nQ sol) : nStates sol = .ok nO := by
  obtain ⟨rows, e, hf⟩ := h.y
  rw [e] at hf
  have h1 : rows.length = sol.t.length := hf.1
  have h2 := h.two
  obtain ⟨r, rs, rfl⟩ := List.exists_cons_of_length_pos (l := rows) (by omega)
  rw [Shoot.nStates, e]

theorem Guess.nQuads {nO nQ : Nat} {sol : Curve K} (h : Guess nO nQ sol) (E : Env K) :
    nQuads E sol = .ok (effective E.quad nQ) := by
  cases hq : E.quad with
  | none => simp [Shoot.nQuads, hq, effective]
  | some f =>
    rw [show effective (some f) nQ = nQ from rfl]
    rcases h.q with ⟨h0, e⟩ | ⟨rows, e, hf⟩
    · rw [Shoot.nQuads, hq, e, h0]
    · rw [e] at hf
      have h1 : rows.length = sol.t.length := hf.1
      have h2 := h.two
      obtain ⟨r, rs, rfl⟩ := List.exists_cons_of_length_pos (l := rows) (by omega)
      rw [Shoot.nQuads, hq, e]
      cases nQ <;> rfl

/-- What shooting from any unknowns gives. -/
theorem shoot_spec {E : Env K} (hI : IvpSound E.ivp) (hser : E.parallel = false) {nO nQ n nP : Nat} {sol : Curve K}
    (hG : Guess nO nQ sol) (hn : 0 < n) {gs : List (Curve K)} (ha : Arcs sol n nO nQ gs) {xx p pn : List K} {out : List (Curve K)}
    (h : shoot E gs ⟨nO, effective E.quad nQ, nP, n⟩ xx = .ok (out, p, pn)) :
    Shots E sol n nO (effective E.quad nQ) p out ∧
      (0 < effective E.quad nQ → ∀ i g h, out[i]? = some g → out[i + 1]? = some h → row h.q 0 = lastRow g.q) ∧
      ∃ ys q, unwrap xx nO (effective E.quad nQ) nP n = .ok (ys, q, p, pn) ∧
        (∀ i < n, ∃ g, out[i]? = some g ∧ row g.y 0 = ys.getD i []) ∧
        (0 < effective E.quad nQ → ∃ g, out[0]? = some g ∧ row g.q 0 = q) := by
  rw [shoot] at h
  obtain ⟨⟨ys, q, p', pn'⟩, hw, h⟩ := Py.bind_ok.1 h
  dsimp only at h hw
  by_cases hq : q.length < effective E.quad nQ
  · rw [if_pos hq] at h; cases h
  rw [if_neg hq] at h
  obtain ⟨g, hg, h⟩ := Py.bind_ok.1 h
  cases h
  obtain ⟨h1, h2⟩ := unwrap_ok hw
  replace h1 : ys.length = n := h1
  have hql : 0 < effective E.quad nQ → q.length = nQ := by
    intro h0
    have e : effective E.quad nQ = nQ := by
      by_contra hne
      have : ¬E.quad.isSome = true := fun h => hne (by simp [effective, h])
      simp [effective, this] at h0
    rw [unwrap] at hw
    by_cases hl : xx.length < nO * n
    · rw [if_pos hl] at hw; cases hw
    · rw [if_neg hl] at hw
      cases hw
      rw [e] at hq ⊢
      have : (List.take nQ (List.drop (nO * n) xx)).length ≤ nQ := List.length_take_le _ _
      omega
  have hset := setStarts_arcs ha h1 h2 hql
  obtain ⟨h3, h4, h5⟩ := makeGammas_spec hI hser hG hn hset hg
  refine ⟨h3, h5, ys, q, hw, fun i hi => ?_, fun h0 => ?_⟩
  · obtain ⟨a, b, h6, h7, h8, -⟩ := h4 i hi
    refine ⟨b, h7, ?_⟩
    rw [h8]
    rw [setStarts, List.getElem?_zipWith] at h6
    obtain ⟨c, hc, h9⟩ := ha.arc i hi
    have hyi : ys[i]? = some (ys[i]'(by omega)) := List.getElem?_eq_getElem _
    rw [hc, hyi] at h6
    cases h6
    obtain ⟨r, s, e, -, -⟩ := h9.y
    rw [e, row_setFirst, getD_eq (by omega)]
  · obtain ⟨a, b, h6, h7, -, h8⟩ := h4 0 hn
    refine ⟨b, h7, ?_⟩
    rw [h8 rfl h0]
    rw [setStarts, List.getElem?_zipWith] at h6
    obtain ⟨c, hc, h9⟩ := ha.arc 0 hn
    have hyi : ys[0]? = some (ys[0]'(by omega)) := List.getElem?_eq_getElem _
    rw [hc, hyi] at h6
    cases h6
    obtain ⟨r, s, e, -, -⟩ := h9.q
    simp only [if_pos h0]
    rw [e, row_setFirst]

theorem jumps_mem : ∀ {arcs : List (Curve K)} {i : Nat} {g h : Curve K}, arcs[i]? = some g → arcs[i + 1]? = some h →
    List.zipWith (· - ·) (lastRow g.y) (row h.y 0) ∈ jumps arcs
  | [], i, g, h, hg, _ => by simp at hg
  | [a], i, g, h, _, hh => by simp at hh
  | a :: b :: rest, 0, g, h, hg, hh => by
    cases hg
    cases hh
    exact List.mem_cons_self ..
  | a :: b :: rest, i + 1, g, h, hg, hh => by
    rw [List.getElem?_cons_succ] at hg hh
    exact List.mem_cons_of_mem _ (jumps_mem hg hh)

/-- A propagated arc as a trajectory. -/
structure Flown (a b : K) (nO nQ : Nat) (g : Curve K) : Prop where
  times : g.t.Pairwise (· < ·)
  two : 2 ≤ g.t.length
  first : g.t.getD 0 0 = a
  last : lastT g.t = b
  y : g.y = .mat nO (rows g.y)
  ylen : (rows g.y).length = g.t.length
  ywidth : ∀ r ∈ rows g.y, r.length = nO
  q : if nQ = 0 then g.q = .vec [] else g.q = .mat nQ (rows g.q) ∧ (rows g.q).length = g.t.length ∧
    ∀ s ∈ rows g.q, s.length = nQ
  u : g.u = .vec []

theorem Shot.flown {ivp : Ivp K} (hI : IvpSound ivp) (hC : Complete ivp) {rhs : List K → Py (List K)} {a b : K} (hab : a < b)
    {y0 : List K} {nQ : Nat} {g : Curve K} (h : Shot ivp rhs [a, b] y0 nQ g) : Flown a b y0.length nQ g := by
  have h1 := hI.first h.ivp
  have h2 : lastT g.t = b := hC h.ivp
  have h3 := hI.pos h.ivp
  refine ⟨hI.sorted h.ivp hab, ?_, h1, h2, h.y, hI.length h.ivp, hI.width h.ivp, ?_, h.u⟩
  · by_contra hlt
    have e : g.t.length - 1 = 0 := by omega
    rw [lastT, e, h1] at h2
    exact absurd h2 (by simpa using hab.ne)
  · have := h.q
    by_cases h0 : nQ = 0
    · rw [if_pos h0] at this ⊢; exact this
    · rw [if_neg h0] at this ⊢
      obtain ⟨r, e, h4, h5⟩ := this
      rw [e]
      exact ⟨rfl, h4, h5⟩

theorem Flown.call {a b : K} {nO nQ : Nat} {g : Curve K} (h : Flown a b nO nQ g) {k : Nat} (hk : k < g.t.length) :
    Traj.call g (g.t.getD k 0) = .ok (row g.y k, row g.q k, row g.u k) := by
  rw [row_eq_rowAt, row_eq_rowAt, row_eq_rowAt]
  refine Traj.C39_stamp (h.times.imp fun h => ne_of_lt h) ?_ ?_ (.inl h.u) hk
  · rw [h.y]; exact ⟨h.ylen, h.ywidth⟩
  · have := h.q
    by_cases h0 : nQ = 0
    · rw [if_pos h0] at this; exact .inl this
    · rw [if_neg h0] at this
      refine .inr ?_
      rw [this.1]
      exact this.2

theorem Flown.lastRow_y {a b : K} {nO nQ : Nat} {g : Curve K} (h : Flown a b nO nQ g) :
    row g.y (g.t.length - 1) = lastRow g.y := by
  rw [h.y, row, lastRow, h.ylen]

theorem Flown.lastRow_q {a b : K} {nO nQ : Nat} {g : Curve K} (h : Flown a b nO nQ g) (h0 : nQ ≠ 0) :
    row g.q (g.t.length - 1) = lastRow g.q := by
  have := h.q
  rw [if_neg h0] at this
  rw [this.1, row, lastRow, this.2.1]

/-- The propagated arcs, all of them. -/
structure Flight (sol : Curve K) (n nO nQ : Nat) (arcs : List (Curve K)) : Prop where
  length : arcs.length = n
  arc : ∀ i < n, ∃ g, arcs[i]? = some g ∧ Flown (junction sol n i) (junction sol n (i + 1)) nO nQ g

theorem Shots.flight {E : Env K} (hI : IvpSound E.ivp) (hC : Complete E.ivp) {sol : Curve K} {n nO nQ nQ' : Nat}
    (hG : Guess nO nQ' sol) (hn : 0 < n) {p : List K} {arcs : List (Curve K)} (h : Shots E sol n nO nQ p arcs) :
    Flight sol n nO nQ arcs := by
  refine ⟨h.length, fun i hi => ?_⟩
  obtain ⟨g, y0, hg, hy, hs⟩ := h.shot i hi
  have := hs.flown hI hC (junction_lt hG hn i)
  rw [hy] at this
  exact ⟨g, hg, this⟩

/-- The residual in terms of first and last rows. -/
theorem bcMs_ok {bc : Fn K} {sol : Curve K} {n nO nQ : Nat} {arcs : List (Curve K)} (hf : Flight sol n nO nQ arcs) (hn : 0 < n)
    {g l : Curve K} (hg : arcs[0]? = some g) (hl : arcs[n - 1]? = some l) {p pn k v : List K}
    (h : bcMs bc arcs p pn k = .ok v) :
    ∃ b, v = (jumps arcs).flatten ++ b ∧
      (if nQ = 0 then bc [row g.y 0, lastRow l.y, p, pn, k]
        else bc [row g.y 0, row g.q 0, lastRow l.y, lastRow l.q, p, pn, k]) = .ok b := by
  have e1 : arcs.head? = some g := by rw [List.head?_eq_getElem?]; exact hg
  have e2 : arcs.getLast? = some l := by rw [List.getLast?_eq_getElem?, hf.length]; exact hl
  obtain ⟨g', hg', fg⟩ := hf.arc 0 hn
  obtain ⟨l', hl', fl⟩ := hf.arc (n - 1) (by omega)
  cases hg.symm.trans hg'
  cases hl.symm.trans hl'
  have hgt := fg.two
  have hlt := fl.two
  rw [bcMs, e1, e2] at h
  dsimp only at h
  rw [fg.call (k := 0) (by omega), Py.ok_bind, lastT, fl.call (k := l.t.length - 1) (by omega), Py.ok_bind] at h
  dsimp only at h
  by_cases h0 : nQ = 0
  · have hq := fg.q
    rw [if_pos h0] at hq
    rw [hq, if_neg (by simp [row])] at h
    obtain ⟨b, hb, h⟩ := Py.bind_ok.1 h
    cases h
    refine ⟨b, rfl, ?_⟩
    rw [if_pos h0]
    rw [fl.lastRow_y] at hb
    exact hb
  · have hq := fg.q
    rw [if_neg h0] at hq
    have hlen : (row g.q 0).length = nQ := by
      rw [hq.1, row, getD_eq (by rw [hq.2.1]; omega)]
      exact hq.2.2 _ (List.getElem_mem _)
    rw [hlen, if_pos (by omega), fl.lastRow_y, fl.lastRow_q h0] at h
    obtain ⟨b, hb, h⟩ := Py.bind_ok.1 h
    cases h
    refine ⟨b, rfl, ?_⟩
    rw [if_neg h0]
    exact hb

theorem map_getD {α β : Type} {l : List α} {f : α → β} {i : Nat} {a : α} (h : l[i]? = some a) (d : β) :
    (l.map f).getD i d = f a := by
  rw [List.getD_eq_getElem?_getD, List.getElem?_map, h]
  rfl

/-- First and last rows of a stitched list of rows. -/
theorem ends_stitch {n : Nat} {arcs : List (Curve K)} (hlen : arcs.length = n) (hn : 0 < n) {f : Curve K → List (List K)}
    (hf : ∀ a ∈ arcs, 2 ≤ (f a).length) {g l : Curve K} (hg : arcs[0]? = some g) (hl : arcs[n - 1]? = some l) :
    stitch (arcs.map f) ≠ [] ∧ (stitch (arcs.map f)).getD 0 [] = (f g).getD 0 [] ∧
      (stitch (arcs.map f)).getD ((stitch (arcs.map f)).length - 1) [] = (f l).getD ((f l).length - 1) [] := by
  obtain ⟨a, arcs, rfl⟩ := List.exists_cons_of_length_pos (l := arcs) (by omega)
  have hag : a = g := by simpa using hg
  subst hag
  have ha := hf a (List.mem_cons_self ..)
  obtain ⟨h1, h2⟩ := stitch_first (arcs.map f) (l := f a) (by omega) []
  have h3 := stitch_lastD [] (arcs.map f) (f a) (by omega) (by
    intro m hm
    obtain ⟨k, hk, rfl⟩ := List.mem_map.1 hm
    exact hf k (List.mem_cons_of_mem _ hk))
  rw [List.map_cons]
  refine ⟨by intro e; rw [e] at h1; simp at h1, h2, h3.trans ?_⟩
  have e : (f a :: arcs.map f).getD (arcs.map f).length [] = f l := by
    rw [← List.map_cons, List.length_map]
    refine map_getD ?_ _
    rw [← hl]
    congr 1
    simp at hlen
    omega
  rw [e]

theorem lastRow_final (a : Arr K) : lastRow a = final a := by
  cases a with
  | vec l =>
    rcases List.eq_nil_or_concat l with rfl | ⟨l', x, rfl⟩
    · rfl
    · simp [lastRow, final]
  | mat c r =>
    rcases List.eq_nil_or_concat r with rfl | ⟨l', x, rfl⟩
    · rfl
    · simp [lastRow, final]

theorem jumps_gaps : ∀ arcs : List (Curve K), (jumps arcs).flatten = gaps arcs
  | [] => rfl
  | [_] => rfl
  | g :: h :: rest => by rw [jumps, gaps, List.flatten_cons, jumps_gaps (h :: rest), lastRow_final]

/-- The residual is what the result leaves of continuity and boundary conditions. -/
theorem left_of_residual {E : Env K} (hI : IvpSound E.ivp) (hC : Complete E.ivp) (hser : E.parallel = false)
    {nO nQ n nP : Nat} {sol : Curve K} (hG : Guess nO nQ sol) (hn : 0 < n) {gs : List (Curve K)}
    (hgs : makeArcs sol n = .ok gs) {xx v : List K} {out : List (Curve K) × List K × List K} {r : Result K}
    (hs : shoot E gs ⟨nO, effective E.quad nQ, nP, n⟩ xx = .ok out)
    (hr : residual E gs ⟨nO, effective E.quad nQ, nP, n⟩ xx = .ok v)
    (ht : r.t = stitch (out.1.map fun a => a.t)) (hy : r.y = stitch (out.1.map fun a => rows a.y))
    (hq : r.q = stitch (out.1.map fun a => rows a.q)) (hp : r.p = out.2.1) (hpn : r.pn = out.2.2) :
    ∃ arcs b, MadeOf E sol n arcs r ∧ (∀ a ∈ arcs, (final a.y).length = nO ∧ (row a.y 0).length = nO) ∧
      E.bc (ends r E.const) = .ok b ∧ v = gaps arcs ++ b := by
  obtain ⟨arcs, p, pn⟩ := out
  dsimp only at ht hy hq hp hpn
  rw [residual, hs, Py.ok_bind] at hr
  dsimp only at hr
  obtain ⟨h1, -, -⟩ := shoot_spec hI hser hG hn (makeArcs_arcs hG hn hgs) hs
  have hf := h1.flight hI hC hG hn
  obtain ⟨g, hg, fg⟩ := hf.arc 0 hn
  obtain ⟨l, hl, fl⟩ := hf.arc (n - 1) (by omega)
  obtain ⟨b, rfl, hb⟩ := bcMs_ok hf hn hg hl hr
  have hall : ∀ a ∈ arcs, ∃ i, Flown (junction sol n i) (junction sol n (i + 1)) nO (effective E.quad nQ) a := by
    intro a ha
    obtain ⟨i, hi, rfl⟩ := List.getElem_of_mem ha
    obtain ⟨a', ha', fa⟩ := hf.arc i (by rw [← hf.length]; exact hi)
    rw [List.getElem?_eq_getElem hi] at ha'
    cases ha'
    exact ⟨i, fa⟩
  refine ⟨arcs, b, ⟨hf.length, fun i hi => ?_, ht, hy, hq⟩, fun a ha => ?_, ?_, by rw [jumps_gaps]⟩
  · obtain ⟨a, y0, ha, -, hs'⟩ := h1.shot i hi
    refine ⟨y0, a, ha, ?_⟩
    rw [hp]
    exact hs'.ivp
  · obtain ⟨i, fa⟩ := hall a ha
    have := fa.two
    rw [← lastRow_final, fa.y, lastRow, getD_eq (by rw [fa.ylen]; omega), row, getD_eq (by rw [fa.ylen]; omega)]
    exact ⟨fa.ywidth _ (List.getElem_mem _), fa.ywidth _ (List.getElem_mem _)⟩
  · obtain ⟨-, y1, y2⟩ := ends_stitch hf.length hn (f := fun a => rows a.y)
      (fun a ha => by obtain ⟨i, fa⟩ := hall a ha; rw [fa.ylen]; exact fa.two) hg hl
    rw [← hy] at y1 y2
    have ey1 : r.y.getD 0 [] = row g.y 0 := by rw [y1, fg.y]; rfl
    have ey2 : r.y.getD (r.y.length - 1) [] = lastRow l.y := by rw [y2, fl.y]; rfl
    by_cases h0 : effective E.quad nQ = 0
    · rw [if_pos h0] at hb
      have hrq : r.q = [] := by
        rw [hq, List.eq_nil_iff_forall_not_mem]
        intro s hs
        have hz : ∀ m ∈ arcs.map fun a => rows a.q, m = [] := by
          intro m hm
          obtain ⟨a, ha, rfl⟩ := List.mem_map.1 hm
          obtain ⟨i, fa⟩ := hall a ha
          have := fa.q
          rw [if_pos h0] at this
          rw [this]
          rfl
        generalize arcs.map (fun a => rows a.q) = ls at hz hs
        cases ls with
        | nil => simp [stitch] at hs
        | cons m ls =>
          simp only [stitch, List.mem_append, List.mem_flatMap] at hs
          rcases hs with hs | ⟨k, hk, hs⟩
          · rw [hz m (by simp)] at hs; simp at hs
          · rw [hz k (by simp [hk])] at hs; simp at hs
      rw [ends]
      rw [if_pos hrq, ey1, ey2, hp, hpn]
      exact hb
    · rw [if_neg h0] at hb
      obtain ⟨q0, q1, q2⟩ := ends_stitch hf.length hn (f := fun a => rows a.q)
        (fun a ha => by
          obtain ⟨i, fa⟩ := hall a ha
          have := fa.q
          rw [if_neg h0] at this
          rw [this.2.1]
          exact fa.two) hg hl
      rw [← hq] at q0 q1 q2
      have gq := fg.q
      have lq := fl.q
      rw [if_neg h0] at gq lq
      rw [ends]
      rw [if_neg q0, ey1, ey2, q1, q2, hp, hpn]
      rw [gq.1, lq.1] at hb
      exact hb

/-- A residual of at most `tol` means that the result satisfies everything up to `tol`. -/
theorem satisfied_of_residual {E : Env K} (hI : IvpSound E.ivp) (hC : Complete E.ivp) (hser : E.parallel = false)
    {nO nQ n nP : Nat} {sol : Curve K} (hG : Guess nO nQ sol) (hn : 0 < n) {gs : List (Curve K)}
    (hgs : makeArcs sol n = .ok gs) {xx v : List K} {tol : K} {out : List (Curve K) × List K × List K} {r : Result K}
    (hs : shoot E gs ⟨nO, effective E.quad nQ, nP, n⟩ xx = .ok out)
    (hr : residual E gs ⟨nO, effective E.quad nQ, nP, n⟩ xx = .ok v) (hv : ∀ a ∈ v, |a| ≤ tol)
    (ht : r.t = stitch (out.1.map fun a => a.t)) (hy : r.y = stitch (out.1.map fun a => rows a.y))
    (hq : r.q = stitch (out.1.map fun a => rows a.q)) (hp : r.p = out.2.1) (hpn : r.pn = out.2.2) :
    Satisfied E sol n tol r := by
  obtain ⟨arcs, b, h1, h2, h3, rfl⟩ := left_of_residual hI hC hser hG hn hgs hs hr ht hy hq hp hpn
  refine ⟨⟨b, h3, fun a ha => hv a (List.mem_append_right _ ha)⟩, arcs, h1, fun i a b' ha hb' j hj => ?_⟩
  have hm := jumps_mem ha hb'
  have hla := (h2 a (List.mem_of_getElem? ha)).1
  have hlb := (h2 b' (List.mem_of_getElem? hb')).2
  rw [lastRow_final] at hm
  rw [getD_eq (by omega), getD_eq hj]
  have hz : j < (List.zipWith (· - ·) (final a.y) (row b'.y 0)).length := by simp; omega
  have e : (final a.y)[j]'(by omega) - (row b'.y 0)[j] = (List.zipWith (· - ·) (final a.y) (row b'.y 0))[j] := by simp
  rw [e]
  exact hv _ (List.mem_append_left _ (by rw [← jumps_gaps]; exact List.mem_flatten.2 ⟨_, hm, List.getElem_mem hz⟩))

end Beluga.Shoot
