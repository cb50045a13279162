import Verif.Shooting.Props

/-!
# A guess from which one Newton step reaches the tolerance is accepted (C42)
-/

namespace Beluga.Shoot

open Beluga.Traj (Arr Curve Simpson Fits FitsOrEmpty rowAt)

variable {K : Type} [Field K] [LinearOrder K] [IsStrictOrderedRing K]

/-- One arc, shot from the unknowns `y0 ++ p ++ pn`. -/
theorem shoot_one {E : Env K} (hser : E.parallel = false) (hq : E.quad = none) {a b : K} (hab : a < b) {nO nQ : Nat} {g : Curve K}
    (hg : TwoPoint a b nO nQ g) {y0 p pn ts : List K} {ys : List (List K)} (hy : y0.length = nO)
    (h : E.ivp (fun y => E.eom [y, p, E.const]) [a, b] y0 = .ok (ts, ys)) :
    shoot E [g] ⟨nO, 0, p.length, 1⟩ (y0 ++ p ++ pn) = .ok ([⟨ts, .mat nO ys, .vec [], .vec []⟩], p, pn) := by
  have hw : unwrap (y0 ++ p ++ pn) nO 0 p.length 1 = .ok ([y0], [], p, pn) := by
    rw [unwrap, if_neg (by simp [hy])]
    subst hy
    simp
  rw [shoot, hw, Py.ok_bind]
  dsimp only
  rw [if_neg (by simp)]
  obtain ⟨r, s, e, h1, h2⟩ := hg.y
  have hset : setStarts [g] [y0] ([] : List K) 0 = [{ g with y := .mat nO [y0, s] }] := by
    simp [setStarts, e, setFirst]
  have ht : TwoPoint a b nO nQ { g with y := .mat nO [y0, s] } := ⟨hg.t, ⟨y0, s, rfl, hy, h2⟩, hg.q, hg.u⟩
  rw [hset, makeGammas, List.mapM_cons, List.mapM_nil, ht.call hab]
  simp only [Py.ok_bind, pure, Except.pure, List.zip_cons_cons, List.zip_nil_right, List.mapM_cons, List.mapM_nil]
  rw [propagate, hq]
  have hr : row (.mat nO [y0, s]) 0 = y0 := rfl
  simp only [hg.t, hr, extraArgs, hser]
  rw [if_neg (by simp), h]
  simp only [Py.ok_bind, hy]

/-- The residual of one arc. -/
theorem residual_one {E : Env K} (hI : IvpSound E.ivp) (hC : Complete E.ivp) (hser : E.parallel = false) (hq : E.quad = none) {a b : K}
    (hab : a < b) {nO nQ : Nat} {g : Curve K} (hg : TwoPoint a b nO nQ g) {y0 p pn ts : List K} {ys : List (List K)} (hy : y0.length = nO)
    (h : E.ivp (fun y => E.eom [y, p, E.const]) [a, b] y0 = .ok (ts, ys)) :
    residual E [g] ⟨nO, 0, p.length, 1⟩ (y0 ++ p ++ pn) = E.bc [y0, ys.getD (ys.length - 1) [], p, pn, E.const] := by
  rw [residual, shoot_one hser hq hab hg hy h, Py.ok_bind]
  have hs : Shot E.ivp (fun y => E.eom [y, p, E.const]) [a, b] y0 0 ⟨ts, .mat nO ys, .vec [], .vec []⟩ :=
    ⟨h, by rw [hy]; rfl, by simp, rfl⟩
  have hf := hs.flown hI hC hab
  have h2 := hf.two
  rw [bcMs]
  dsimp only [List.head?_cons, List.getLast?_singleton]
  have c1 := hf.call (k := 0) (by omega)
  have c2 := hf.call (k := ts.length - 1) (by change ts.length - 1 < ts.length; change 2 ≤ ts.length at h2; omega)
  dsimp only at c1 c2
  rw [lastT, c1, Py.ok_bind, c2, Py.ok_bind]
  dsimp only
  have e1 : row (.mat nO ys) 0 = y0 := hI.state h
  have e2 : row (.mat nO ys) (ts.length - 1) = ys.getD (ys.length - 1) [] := by
    rw [row, hI.length h]
  rw [e1, e2, if_neg (by simp [row])]
  cases E.bc [y0, ys.getD (ys.length - 1) [], p, pn, E.const] <;> rfl

/-- **C42** One arc, no quadratures, the Armijo iteration: if the trajectory that is shot from the unknowns after the first Newton
step satisfies the boundary conditions up to the tolerance, then it is returned, and as converged. -/
theorem C42_accepts {E : Env K} (hI : IvpSound E.ivp) (hC : Complete E.ivp) (hser : E.parallel = false) (hq : E.quad = none)
    (S : Scipy K) (norm : List K → K) {newton : List K → List K → Py (List K)} {o : Opts K} (hmax : -1 < o.maxErr) {alg : String}
    (halg : alg.toLower = "armijo") {fuel : Nat} (hfuel : 5 ≤ fuel) {nO : Nat} {sol : Curve K} (hG : Guess nO 0 sol)
    {y0 p pn ts0 v0 dy y1 p1 pn1 ts v : List K} {ys0 ys : List (List K)} (h0 : row sol.y 0 = y0)
    (i0 : E.ivp (fun y => E.eom [y, p, E.const]) [sol.t.getD 0 0, lastT sol.t] y0 = .ok (ts0, ys0))
    (b0 : E.bc [y0, ys0.getD (ys0.length - 1) [], p, pn, E.const] = .ok v0) (hn : newton (y0 ++ p ++ pn) v0 = .ok dy)
    (hx : List.zipWith (· + ·) (y0 ++ p ++ pn) dy = y1 ++ p1 ++ pn1) (l1 : y1.length = nO) (l2 : p1.length = p.length)
    (i1 : E.ivp (fun y => E.eom [y, p1, E.const]) [sol.t.getD 0 0, lastT sol.t] y1 = .ok (ts, ys))
    (b1 : E.bc [y1, ys.getD (ys.length - 1) [], p1, pn1, E.const] = .ok v) (hle : norm v ≤ o.tol) :
    ∃ r, solve E S norm newton o alg fuel 1 sol p pn = .ok (some r) ∧ r.converged = true ∧ r.t = ts ∧ r.y = ys ∧ r.p = p1 ∧
      r.pn = pn1 := by
  have hlt := hG.lt
  obtain ⟨gs, hgs, hlen, hj0, hj1, harc⟩ := C44_split hG one_pos
  obtain ⟨ya, qa, ua, yb, qb, ub, c1, c2, w1, w2, hg0, w3, w4, w5⟩ := harc 0 one_pos
  obtain ⟨g, rfl⟩ := List.length_eq_one_iff.1 hlen
  simp only [List.getElem?_cons_zero, Option.some.injEq] at hg0
  rw [hj0, zero_add, hj1] at hg0
  have hg : TwoPoint (sol.t.getD 0 0) (lastT sol.t) nO 0 g := by
    rw [hg0]
    exact ⟨rfl, ⟨_, _, rfl, w1, w3⟩, ⟨_, _, rfl, w2, w4⟩, ⟨_, _, _, rfl, rfl, w5⟩⟩
  have hya : ya = y0 := by
    obtain ⟨rows, hr, hf⟩ := hG.y
    have hqf : FitsOrEmpty sol.t.length sol.q := by
      rcases hG.q with ⟨-, hq⟩ | ⟨-, -, hq⟩
      · exact .inl hq
      · exact .inr hq
    have := Traj.C39_stamp (hG.times.imp fun h => ne_of_lt h) hf hqf hG.u (k := 0) (by have := hG.two; omega)
    rw [hj0, this] at c1
    cases c1
    rw [← h0, row_eq_rowAt]
  have hqa : qa = [] := List.length_eq_zero_iff.1 w2
  have hw : wrap [g] p pn = .ok (y0 ++ p ++ pn) := by
    rw [wrap, hg0]
    simp [row, hya, hqa]
  have hy0 : y0.length = nO := by rw [← hya, w1]
  have r0 := residual_one hI hC hser hq hlt hg hy0 i0 (pn := pn)
  have r1 := residual_one hI hC hser hq hlt hg l1 i1 (pn := pn1)
  have s1 := shoot_one hser hq hlt hg l1 i1 (pn := pn1)
  rw [b0] at r0
  rw [l2, b1] at r1
  rw [l2] at s1
  obtain ⟨n1, n2⟩ := armijo_alg halg
  have hls : ∀ A : Armijo K, A.norm = norm → A.F (y1 ++ p1 ++ pn1) = .ok (v.map some) → ∀ err,
      lineSearch A o (y0 ++ p ++ pn) dy err fuel 1 .inf [] 0 = .ok (some (.val (norm v), dy, 1)) := by
    intro A hA hF err
    obtain ⟨m, rfl⟩ : ∃ m, fuel = m + 1 := ⟨fuel - 1, by omega⟩
    rw [lineSearch, if_pos (by simp [Flt.ge, Flt.gt]; norm_num)]
    dsimp only
    rw [show dy.map (fun x => (1 : K) * x) = dy by simp, hx, hF, Py.ok_bind, hA, normF_some, lineSearch.eq_def]
    dsimp only
    rw [if_neg (by simp [Flt.gt, hle])]
  have hp : ∀ A : Armijo K, A.norm = norm → A.newton = newton → A.F (y0 ++ p ++ pn) = .ok (v0.map some) →
      A.F (y1 ++ p1 ++ pn1) = .ok (v.map some) →
      pass A o fuel ⟨y0 ++ p ++ pn, .val (-1), 0, false, []⟩ = .ok (some ⟨y1 ++ p1 ++ pn1, .val (norm v), 1, true, [1]⟩) := by
    intro A hA hN hF hF1
    have hany : (v0.map some).any Option.isNone = false := by simp
    rw [pass, hF, Py.ok_bind, if_neg (by simp)]
    dsimp only
    rw [show (v0.map some).filterMap id = v0 by simp [List.filterMap_map], hN, hn, Py.ok_bind, hls A hA hF1, Py.ok_bind]
    dsimp only
    rw [hx]
    simp [Flt.le, hle]
  have ha : ∀ A : Armijo K, A.norm = norm → A.newton = newton → A.F (y0 ++ p ++ pn) = .ok (v0.map some) →
      A.F (y1 ++ p1 ++ pn1) = .ok (v.map some) →
      armijo A o fuel fuel ⟨y0 ++ p ++ pn, .val (-1), 0, false, []⟩ = .ok (some ⟨y1 ++ p1 ++ pn1, .val (norm v), 1, true, [1]⟩) := by
    intro A hA hN hF hF1
    have := hp A hA hN hF hF1
    obtain ⟨m, hm⟩ : ∃ m, fuel = m + 1 := ⟨fuel - 1, by omega⟩
    rw [hm] at this ⊢
    rw [armijo.eq_def]
    dsimp only
    rw [if_pos (by simp [goOn, Flt.lt, hmax]), this, Py.ok_bind]
    dsimp only
    rw [armijo.eq_def]
    dsimp only
    rw [if_neg (by simp [goOn])]
  have hf : findRoot S norm newton o alg fuel (residual E [g] ⟨nO, 0, p.length, 1⟩) (y0 ++ p ++ pn) =
      .ok (some ⟨y1 ++ p1 ++ pn1, .num (.val (norm v)), 1, true⟩) := by
    rw [findRoot, if_neg n1, if_neg n2, if_neg (by rw [halg]; decide), if_pos halg, ha _ rfl rfl (by dsimp only; rw [r0]; rfl)
      (by dsimp only; rw [r1]; rfl), Py.ok_bind]
    rfl
  have hm : ∃ m, message o ⟨y1 ++ p1 ++ pn1, .num (.val (norm v)), 1, true⟩ = .ok m := by
    simp only [message, errLt, errGt, Py.ok_bind]
    split
    · exact ⟨_, rfl⟩
    · split
      · exact ⟨_, rfl⟩
      · split <;> exact ⟨_, rfl⟩
  obtain ⟨m, hm⟩ := hm
  refine ⟨⟨ts, ys, [], p1, pn1, true, m, 1⟩, ?_, rfl, rfl, rfl, rfl, rfl⟩
  rw [solve, hG.nStates, Py.ok_bind, hG.nQuads, Py.ok_bind, hq, show effective (none : Option (Fn K)) 0 = 0 from rfl, hgs, Py.ok_bind, hw,
    Py.ok_bind, hf, Py.ok_bind]
  dsimp only
  rw [s1, Py.ok_bind, hm, Py.ok_bind]
  simp [stitch, rows]

/-- The guess starts at 3; the condition asks for the end 7 after two seconds at the speed 1; the Newton step is exact. -/
example : ∃ r, solve (exEnv (euler 1) (fun a => .ok [(a.getD 1 []).getD 0 0 - 7]) none) exScipy maxNorm
    (fun _ v => .ok [-v.getD 0 0, 0]) ⟨1 / 10000, 100, 10⟩ "Armijo" 5 1 exGuess [1] [] = .ok (some r) ∧ r.converged = true ∧
      r.t = [0, 2] ∧ r.y = [[5], [7]] ∧ r.p = [1] ∧ r.pn = [] :=
  C42_accepts (euler_sound one_pos) euler_complete rfl rfl exScipy maxNorm (by norm_num) (by decide +kernel) (by norm_num) exGuess_ok
    (y0 := [3]) (ts0 := [0, 2]) (ys0 := [[3], [5]]) (v0 := [-2]) (dy := [2, 0]) (y1 := [5]) (v := [0]) rfl (by decide +kernel)
    (by decide +kernel) (by decide +kernel) (by decide +kernel) rfl rfl (by decide +kernel) (by decide +kernel) (by decide +kernel)

end Beluga.Shoot
