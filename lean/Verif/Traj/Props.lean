import Verif.Traj.Lemmas
import Mathlib.Data.Rat.Floor

/-!
# Properties of trajectories and quadratures
-/

namespace Beluga.Traj

set_option linter.unusedSectionVars false

variable {K : Type} [Field K] [LinearOrder K] [IsStrictOrderedRing K]

theorem rowAt_mat_length {c : Nat} {rows : List (List K)} {n k : Nat} (h : Fits n (.mat c rows)) (hk : k < n) :
    (rowAt (.mat c rows) k).length = c := by
  have hk' : k < rows.length := by rw [h.1]; exact hk
  simp only [rowAt]
  rw [getD_eq hk']
  exact h.2 _ (List.getElem_mem hk')

theorem col_getD {rows : List (List K)} {k j : Nat} (hk : k < rows.length) :
    (col rows j).getD k 0 = (rows.getD k []).getD j 0 := by
  rw [col, getD_eq (by simpa using hk), List.getElem_map, getD_eq hk]

theorem mix_getD {θ : K} {p q : List K} {j : Nat} (hp : j < p.length) (hq : j < q.length) :
    (1 - θ) * p.getD j 0 + θ * q.getD j 0 = (mix θ p q)[j]'(by simp [mix, hp, hq]) := by
  rw [getD_eq hp, getD_eq hq]
  simp [mix]

/-- All components of an array are interpolated with the same weights. -/
theorem atStates_ok {ts : List K} {x θ : K} {i j : Nat} (hb : Between ts x i j θ)
    (h : ∀ ys : List K, ys.length = ts.length → interp1d ts ys x = .ok ((1 - θ) * ys.getD i 0 + θ * ys.getD j 0))
    {a : Arr K} (ha : Fits ts.length a) : atStates ts a x = .ok (mix θ (rowAt a i) (rowAt a j)) := by
  have hi := hb.i_lt
  have hj := hb.j_lt
  cases a with
  | vec l =>
    have hl : l.length = ts.length := ha
    rw [atStates, h l hl]
    simp only [rowAt, mix]
    rw [getD_eq (by omega), getD_eq (by omega), List.getElem?_eq_getElem (by omega), List.getElem?_eq_getElem (by omega)]
    rfl
  | mat c rows =>
    have h1 := rowAt_mat_length ha hi
    have h2 := rowAt_mat_length ha hj
    rw [atStates]
    rw [Py.mapM_ok (g := fun k => (1 - θ) * (rowAt (.mat c rows) i).getD k 0 + θ * (rowAt (.mat c rows) j).getD k 0)]
    · congr 1
      refine List.ext_getElem (by simp [mix, h1, h2]) fun k hk1 hk2 => ?_
      have hk : k < c := by simpa using hk1
      simp only [List.getElem_map, List.getElem_range]
      exact mix_getD (by omega) (by omega)
    · intro k _
      rw [h _ (by rw [col, List.length_map]; exact ha.1), col_getD (by rw [ha.1]; exact hi), col_getD (by rw [ha.1]; exact hj)]
      rfl

theorem atOthers_ok {ts : List K} {x θ : K} {i j : Nat} (hb : Between ts x i j θ)
    (h : ∀ ys : List K, ys.length = ts.length → interp1d ts ys x = .ok ((1 - θ) * ys.getD i 0 + θ * ys.getD j 0))
    {a : Arr K} (ha : FitsOrEmpty ts.length a) : atOthers ts a x = .ok (mix θ (rowAt a i) (rowAt a j)) := by
  rcases ha with rfl | ha
  · rfl
  · have := atStates_ok hb h ha
    cases a with
    | vec l =>
      cases l with
      | nil =>
        have hl : 0 = ts.length := ha
        have := hb.i_lt
        omega
      | cons y l => exact this
    | mat c rows => exact this

/-- **C39** Between two stamps a trajectory is a convex combination of the two neighbouring points: time, states,
quadratures and controls all with the same weights. -/
theorem C39_between {g : Curve K} (hnd : g.t.Nodup) (hy : Fits g.t.length g.y) (hq : FitsOrEmpty g.t.length g.q)
    (hu : FitsOrEmpty g.t.length g.u) {x : K} (hlo : ∃ k < g.t.length, g.t.getD k 0 ≤ x)
    (hhi : ∃ k < g.t.length, x ≤ g.t.getD k 0) :
    ∃ i j θ, Between g.t x i j θ ∧
      call g x = .ok (mix θ (rowAt g.y i) (rowAt g.y j), mix θ (rowAt g.q i) (rowAt g.q j),
        mix θ (rowAt g.u i) (rowAt g.u j)) := by
  obtain ⟨i, j, θ, hb, h⟩ := interp1d_ok hnd hlo hhi
  refine ⟨i, j, θ, hb, ?_⟩
  have := hb.i_lt
  rw [call, if_neg (by omega), atStates_ok hb h hy, Py.ok_bind, atOthers_ok hb h hq, Py.ok_bind, atOthers_ok hb h hu,
    Py.ok_bind]

theorem mix_stamp {ts : List K} (hnd : ts.Nodup) {i j k : Nat} {θ : K} (hk : k < ts.length)
    (hb : Between ts (ts.getD k 0) i j θ) {a : Arr K} (ha : FitsOrEmpty ts.length a) :
    mix θ (rowAt a i) (rowAt a j) = rowAt a k := by
  have hi := hb.i_lt
  have hj := hb.j_lt
  rcases ha with rfl | ha
  · rfl
  · cases a with
    | vec l =>
      have hl : l.length = ts.length := ha
      have := between_stamp hnd hk hb fun m => l.getD m 0
      beta_reduce at this
      rw [getD_eq (by omega), getD_eq (by omega), getD_eq (by omega)] at this
      simp only [rowAt, mix]
      rw [List.getElem?_eq_getElem (by omega), List.getElem?_eq_getElem (by omega), List.getElem?_eq_getElem (by omega)]
      simpa using this
    | mat c rows =>
      have h1 := rowAt_mat_length ha hi
      have h2 := rowAt_mat_length ha hj
      have h3 := rowAt_mat_length ha hk
      refine List.ext_getElem (by simp [mix, h1, h2, h3]) fun m hm1 hm2 => ?_
      rw [← mix_getD (by omega) (by omega)]
      rw [between_stamp hnd hk hb fun n => (rowAt (.mat c rows) n).getD m 0, getD_eq hm2]

/-- **C39** At one of its time stamps a trajectory returns the stored point. -/
theorem C39_stamp {g : Curve K} (hnd : g.t.Nodup) (hy : Fits g.t.length g.y) (hq : FitsOrEmpty g.t.length g.q)
    (hu : FitsOrEmpty g.t.length g.u) {k : Nat} (hk : k < g.t.length) :
    call g (g.t.getD k 0) = .ok (rowAt g.y k, rowAt g.q k, rowAt g.u k) := by
  obtain ⟨i, j, θ, hb, h⟩ := C39_between hnd hy hq hu ⟨k, hk, le_rfl⟩ ⟨k, hk, le_rfl⟩
  rw [h, mix_stamp hnd hk hb (.inr hy), mix_stamp hnd hk hb hq, mix_stamp hnd hk hb hu]

/-- **C39** A time outside of the range raises, provided that there are states. -/
theorem C39_outside {g : Curve K} (hpos : 0 < g.t.length) (hc : ∀ rows, g.y ≠ .mat 0 rows) {x : K}
    (h : (∀ k < g.t.length, x < g.t.getD k 0) ∨ ∀ k < g.t.length, g.t.getD k 0 < x) :
    call g x = .error .valueError := by
  rw [call, if_neg (by omega)]
  have : atStates g.t g.y x = .error .valueError := by
    have hcy := hc
    clear hc
    cases hy : g.y with
    | vec l => rw [atStates, interp1d_outside hpos h]; rfl
    | mat c rows =>
      cases c with
      | zero => exact absurd hy (hcy rows)
      | succ c => rw [atStates, List.range_succ_eq_map, List.mapM_cons, interp1d_outside hpos h]; rfl
  rw [this]
  rfl

/-- **C39** An empty trajectory gives empty results. -/
theorem C39_empty {g : Curve K} (h : g.t = []) (x : K) : call g x = .ok ([], [], []) := by
  rw [call, if_pos (by rw [h]; rfl)]

/-- Two states, no quadrature, one control, the times out of order. -/
def exCurve : Curve Rat := ⟨[2, 0, 1], .mat 2 [[5, 6], [1, 2], [3, 8]], .vec [], .vec [7, 9, 8]⟩

/-- At a stamp, between stamps and outside. -/
example : call exCurve 1 = .ok ([3, 8], [], [8]) := by decide +kernel
example : call exCurve (3/2) = .ok ([4, 7], [], [15/2]) := by decide +kernel
example : call exCurve 3 = .error .valueError := by decide +kernel

/-- **C40** `reconstruct` gives one row per time; the first is the initial value and every later one is the initial value
plus the integral of the quadrature function along the points up to that time. -/
theorem C40_rows (simp : Simpson K) {quad : List K → Py (List K)} {g : Curve K} (hnd : g.t.Nodup) (hpos : 0 < g.t.length)
    (hy : Fits g.t.length g.y) (hq : FitsOrEmpty g.t.length g.q) (hu : FitsOrEmpty g.t.length g.u) (q0 : List K)
    {f : Nat → List K} (hf : ∀ k < g.t.length, quad (rowAt g.y k) = .ok (f k)) :
    ∃ rows, reconstruct simp quad g q0 = .ok rows ∧ rows.length = g.t.length ∧ rows.getD 0 [] = q0 ∧
      (∀ r ∈ rows, r.length = q0.length) ∧
      ∀ i, 0 < i → i < g.t.length → ∀ j < q0.length, (rows.getD i []).getD j 0 =
        q0.getD j 0 + simp ((List.range (i + 1)).map fun k => (f k).getD j 0) (g.t.take (i + 1)) := by
  have hdq : (g.t.mapM fun time => do
      let p ← call g time
      quad p.1) = .ok ((List.range g.t.length).map f) := by
    have e : g.t = (List.range g.t.length).map fun k => g.t.getD k 0 := by
      refine List.ext_getElem (by simp) fun k h1 h2 => ?_
      rw [List.getElem_map, List.getElem_range, getD_eq h1]
    have h2 : ∀ k ∈ List.range g.t.length, (do
        let p ← call g (g.t.getD k 0)
        quad p.1) = Except.ok (f k) := by
      intro k hk
      have hk := List.mem_range.1 hk
      rw [C39_stamp hnd hy hq hu hk, Py.ok_bind]
      exact hf k hk
    conv_lhs => rw [e]
    rw [List.mapM_map]
    exact Py.mapM_ok h2
  rw [reconstruct, hdq]
  refine ⟨_, rfl, ?_, ?_, ?_, ?_⟩
  · simp only [List.length_map, List.length_cons, List.length_range]
    omega
  · rw [List.map_cons, List.getD_cons_zero]
    refine List.ext_getElem (by simp) fun k h1 h2 => ?_
    simp
  · intro r hr
    simp only [List.map_cons, List.mem_cons, List.map_map, List.mem_map] at hr
    rcases hr with rfl | ⟨ii, -, rfl⟩
    · simp
    · simp
  · intro i hi hl j hj
    obtain ⟨ii, rfl⟩ : ∃ ii, i = ii + 1 := ⟨i - 1, by omega⟩
    rw [List.map_cons, List.getD_cons_succ, List.map_map, getD_eq (l := List.map _ _) (by simp; omega)]
    rw [List.getElem_map, List.getElem_range]
    simp only [Function.comp]
    rw [getD_eq (by simpa using hj), List.getElem_zipWith, List.getElem_map, List.getElem_range, getD_eq hj, add_comm]
    congr 2
    rw [col, ← List.map_take, List.map_map]
    congr 1
    rw [List.take_range, min_eq_left (by omega)]

/-- **C40** The rows for two initial values differ by the difference of the initial values. -/
theorem C40_initial (simp : Simpson K) {quad : List K → Py (List K)} {g : Curve K} {q0 q0' : List K}
    (hl : q0.length = q0'.length) {rows rows' : List (List K)} (h : reconstruct simp quad g q0 = .ok rows)
    (h' : reconstruct simp quad g q0' = .ok rows') :
    rows.length = rows'.length ∧ ∀ i < rows.length, ∀ j < q0.length,
      (rows.getD i []).getD j 0 - q0.getD j 0 = (rows'.getD i []).getD j 0 - q0'.getD j 0 := by
  rw [reconstruct] at h h'
  obtain ⟨dq, hd, h⟩ := Py.bind_ok.1 h
  obtain ⟨dq', hd', h'⟩ := Py.bind_ok.1 h'
  obtain rfl : dq = dq' := Except.ok.inj (hd.symm.trans hd')
  obtain rfl := Except.ok.inj h
  obtain rfl := Except.ok.inj h'
  refine ⟨by simp, fun i hi j hj => ?_⟩
  have hi' : i < g.t.length - 1 + 1 := by simpa using hi
  rw [getD_eq (l := List.map _ _) (by simpa using hi'), getD_eq (l := List.map _ (_ :: _)) (by simpa using hi'), List.getElem_map,
    List.getElem_map]
  cases i with
  | zero =>
    simp only [List.getElem_cons_zero]
    rw [getD_eq (l := List.zipWith _ _ q0) (by simpa using hj), getD_eq (l := List.zipWith _ _ q0') (by simp; omega), List.getElem_zipWith, List.getElem_zipWith, getD_eq hj,
      getD_eq (by omega)]
    simp
  | succ i =>
    simp only [List.getElem_cons_succ, List.getElem_map]
    rw [getD_eq (l := List.zipWith _ _ q0) (by simpa using hj), getD_eq (l := List.zipWith _ _ q0') (by simp; omega), List.getElem_zipWith, List.getElem_zipWith, getD_eq hj,
      getD_eq (by omega)]
    simp

/-- The trapezoidal rule stands in for Simpson's. -/
def exRule : Simpson Rat := fun v t =>
  ((List.range (t.length - 1)).map fun i => (t.getD (i + 1) 0 - t.getD i 0) * (v.getD i 0 + v.getD (i + 1) 0) / 2).sum

/-- Two quadratures along three points. -/
example : reconstruct exRule (fun y => .ok [y.getD 0 0, 2]) ⟨[0, 1, 3], .vec [1, 3, 5], .vec [], .vec []⟩ [10, 20] =
    .ok [[10, 20], [12, 22], [20, 26]] := by decide +kernel

variable [FloorRing K]

/-- **C41** The grid starts at the first requested time, ends at the last and contains exactly the stamps between. -/
theorem C41_grid {ts : List K} (hs : ts.Pairwise (· < ·)) {a b : K} (hpos : 0 < ts.length)
    (hlo : ts.getD 0 0 ≤ a) (hab : a < b) (hhi : b ≤ ts.getD (ts.length - 1) 0) :
    ∃ mid, quadGrid ts a b = .ok (a :: mid ++ [b]) ∧ (∀ t, t ∈ mid ↔ t ∈ ts ∧ a < t ∧ t < b) ∧
      (a :: mid ++ [b]).Pairwise (· < ·) := by
  refine ⟨_, quadGrid_eq hs hpos hlo hab hhi, fun t => by simp, ?_⟩
  rw [List.pairwise_append, List.pairwise_cons]
  refine ⟨⟨fun t ht => ?_, hs.sublist List.filter_sublist⟩, List.pairwise_singleton _ _, fun t ht s hs' => ?_⟩
  · have := (List.mem_filter.1 ht).2
    simp only [Bool.and_eq_true, decide_eq_true_eq] at this
    exact this.1
  · rw [List.mem_singleton] at hs'
    subst hs'
    rw [List.mem_cons] at ht
    rcases ht with rfl | ht
    · exact hab
    · have := (List.mem_filter.1 ht).2
      simp only [Bool.and_eq_true, decide_eq_true_eq] at this
      exact this.2

/-- **C41** A span that is not covered by the trajectory is refused. -/
theorem C41_refuses {ts : List K} (hpos : 0 < ts.length) {a b : K}
    (h : a < ts.getD 0 0 ∨ ts.getD (ts.length - 1) 0 < b) : quadGrid ts a b = .error .runtimeError := by
  cases ts with
  | nil => simp at hpos
  | cons t0 rest =>
    rw [quadGrid]
    by_cases h1 : a < t0
    · rw [if_pos h1]
    · rw [if_neg h1]
      rcases h with h | h
      · exact absurd h h1
      · rw [if_pos (by simpa using h)]

/-- **C41** The result is the integral over the grid plus the quadrature stored at the first requested time. -/
theorem C41_integral (simp : Simpson K) {nq : Nat} {quad : K → List K → Py (List K)} {g : Curve K}
    (hs : g.t.Pairwise (· < ·)) {a b : K} (hpos : 0 < g.t.length)
    (hlo : g.t.getD 0 0 ≤ a) (hab : a < b) (hhi : b ≤ g.t.getD (g.t.length - 1) 0)
    (hy : Fits g.t.length g.y) (hq : FitsOrEmpty g.t.length g.q) (hu : FitsOrEmpty g.t.length g.u)
    {f : K → List K}
    (hf : ∀ t y q u, a ≤ t → t ≤ b → call g t = .ok (y, q, u) → quad t y = .ok (f t)) :
    ∃ grid y0 q0 u0, quadGrid g.t a b = .ok grid ∧ call g a = .ok (y0, q0, u0) ∧
      ∃ r, integrateQuads simp nq quad a b g = .ok r ∧ (q0 = [] → r.length = nq) ∧
        ∀ j < nq, (q0 = [] ∨ j < q0.length) →
          r.getD j 0 = q0.getD j 0 + simp (grid.map fun t => (f t).getD j 0) grid := by
  obtain ⟨mid, hg, hm, hsort⟩ := C41_grid hs hpos hlo hab hhi
  have hnd : g.t.Nodup := hs.imp fun h => ne_of_lt h
  have hcall : ∀ t, a ≤ t → t ≤ b → ∃ p, call g t = .ok p := fun t h1 h2 => by
    obtain ⟨i, j, θ, -, h⟩ := C39_between hnd hy hq hu ⟨0, hpos, hlo.trans h1⟩ ⟨g.t.length - 1, by omega, h2.trans hhi⟩
    exact ⟨_, h⟩
  obtain ⟨⟨y0, q0, u0⟩, h0⟩ := hcall a le_rfl hab.le
  have hgrid : ∀ t ∈ a :: mid ++ [b], a ≤ t ∧ t ≤ b := by
    intro t ht
    simp only [List.mem_append, List.mem_cons, List.not_mem_nil, or_false] at ht
    rcases ht with (rfl | ht) | rfl
    · exact ⟨le_rfl, hab.le⟩
    · exact ⟨((hm t).1 ht).2.1.le, ((hm t).1 ht).2.2.le⟩
    · exact ⟨hab.le, le_rfl⟩
  refine ⟨_, y0, q0, u0, hg, h0, ?_⟩
  have hdq : ((a :: mid ++ [b]).mapM fun time => do
      let p ← call g time
      quad time p.1) = .ok ((a :: mid ++ [b]).map f) := by
    refine Py.mapM_ok fun t ht => ?_
    obtain ⟨h1, h2⟩ := hgrid t ht
    obtain ⟨⟨y, q, u⟩, h3⟩ := hcall t h1 h2
    rw [h3, Py.ok_bind]
    exact hf t y q u h1 h2 h3
  have hcol : ∀ j, col ((a :: mid ++ [b]).map f) j = (a :: mid ++ [b]).map fun t => (f t).getD j 0 := by
    intro j
    rw [col, List.map_map]
    rfl
  have hres : integrateQuads simp nq quad a b g = .ok (if q0.length = 0
      then (List.range nq).map fun j => simp (col ((a :: mid ++ [b]).map f) j) (a :: mid ++ [b])
      else List.zipWith (· + ·) ((List.range nq).map fun j => simp (col ((a :: mid ++ [b]).map f) j) (a :: mid ++ [b])) q0) := by
    rw [integrateQuads, hg, Py.ok_bind]
    dsimp only [List.cons_append]
    rw [h0, Py.ok_bind]
    rw [List.cons_append] at hdq
    rw [hdq, Py.ok_bind]
  refine ⟨_, hres, fun h => by rw [if_pos (by rw [h]; rfl)]; simp, fun j hj hq0 => ?_⟩
  rcases hq0 with rfl | hq0
  · rw [if_pos (by rfl), getD_eq (by simpa using hj), List.getElem_map, List.getElem_range, hcol]
    simp
  · rw [if_neg (by omega), getD_eq (by simp [hj, hq0]), List.getElem_zipWith, List.getElem_map, List.getElem_range, hcol,
      getD_eq hq0, add_comm]

/-- A span that starts at a stamp and ends between two, and one without stamps inside. -/
example : quadGrid ([0, 1, 2, 4] : List Rat) 1 3 = .ok [1, 2, 3] ∧ quadGrid ([0, 1, 2, 4] : List Rat) (5/2) 3 = .ok [5/2, 3] ∧
    quadGrid ([0, 1, 2, 4] : List Rat) 0 4 = .ok [0, 1, 2, 4] := by decide +kernel

/-- The degenerate span is not covered by the theorem: the point occurs once or twice, or not at all. -/
example : quadGrid ([0, 1, 2, 4] : List Rat) 1 1 = .ok [1] ∧ quadGrid ([0, 1, 2, 4] : List Rat) 3 3 = .ok [3, 3] ∧
    quadGrid ([1] : List Rat) 1 1 = .ok [] := by decide +kernel

/-- **C58** The fixed-step grid starts at the first and ends at the last time, increases, and no step exceeds the maximum. -/
theorem C58_grid {a b h : K} (hab : a < b) (hh : 0 < h) :
    ∃ T, fixedGrid a b h = .ok T ∧ 2 ≤ T.length ∧ T.getD 0 0 = a ∧ T.getD (T.length - 1) 0 = b ∧
      ∀ i, i + 1 < T.length → 0 < T.getD (i + 1) 0 - T.getD i 0 ∧ T.getD (i + 1) 0 - T.getD i 0 ≤ h := by
  have hp : 0 < (b - a) / h := div_pos (by linarith) hh
  have hc : 0 < ⌈(b - a) / h⌉ := Int.ceil_pos.2 hp
  obtain ⟨n, hn⟩ : ∃ n : Nat, ⌈(b - a) / h⌉ = ((n + 1 : Nat) : Int) := ⟨(⌈(b - a) / h⌉ - 1).toNat, by omega⟩
  obtain ⟨h1, h2⟩ := Int.ceil_eq_iff.1 hn
  rw [Int.cast_natCast, Nat.cast_succ, add_sub_cancel_right, lt_div_iff₀ hh] at h1
  rw [Int.cast_natCast, Nat.cast_succ, div_le_iff₀ hh] at h2
  have hT : fixedGrid a b h = .ok (((List.range (n + 1)).map fun i : Nat => a + (i : K) * h) ++ [b]) := by
    rw [fixedGrid, hn, Int.toNat_natCast]
    rw [List.getLast?_eq_getElem?, List.length_map, List.length_range, Nat.add_sub_cancel,
      List.getElem?_eq_getElem (by simp)]
    simp only [List.getElem_map, List.getElem_range]
    rw [if_pos (by intro e; linarith)]
  have hget : ∀ i < n + 1, (((List.range (n + 1)).map fun i : Nat => a + (i : K) * h) ++ [b]).getD i 0 = a + (i : K) * h := by
    intro i hi
    rw [getD_eq (by simp; omega), List.getElem_append_left (by simpa using hi), List.getElem_map, List.getElem_range]
  have hlast : (((List.range (n + 1)).map fun i : Nat => a + (i : K) * h) ++ [b]).getD (n + 1) 0 = b := by
    rw [getD_eq (by simp), List.getElem_append_right (by simp)]
    simp
  refine ⟨_, hT, by simp, ?_, ?_, fun i hi => ?_⟩
  · rw [hget 0 (by omega)]; simp
  · rw [show (((List.range (n + 1)).map fun i : Nat => a + (i : K) * h) ++ [b]).length - 1 = n + 1 by simp, hlast]
  · have hi' : i < n + 1 := by simpa using hi
    rw [hget i hi']
    rcases Nat.lt_or_ge (i + 1) (n + 1) with h3 | h3
    · rw [hget (i + 1) h3]
      push_cast
      constructor <;> linarith
    · obtain rfl : i = n := by omega
      rw [hlast]
      constructor <;> linarith

/-- **C58** An empty or backward span raises. -/
theorem C58_refuses {a b h : K} (hab : b ≤ a) (hh : 0 < h) : fixedGrid a b h = .error .indexError := by
  have hz : ⌈(b - a) / h⌉.toNat = 0 := by
    rw [Int.toNat_eq_zero, Int.ceil_le]
    push_cast
    exact div_nonpos_of_nonpos_of_nonneg (by linarith) hh.le
  rw [fixedGrid, hz]
  rfl

example : fixedGrid (0 : Rat) 1 (2/5) = .ok [0, 2/5, 4/5, 1] ∧ fixedGrid (0 : Rat) 1 (1/2) = .ok [0, 1/2, 1] := by
  decide +kernel

end Beluga.Traj
