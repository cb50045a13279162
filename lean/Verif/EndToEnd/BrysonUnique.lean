import Verif.EndToEnd.Bryson
import Verif.EndToEnd.Unique

/-!
# The Bryson-Denham example has one answer (C96)

For given constants, whatever method, control law, solver, guess, continuation and grid is used for
examples/Classic/BrysonDenham/BrysonDenham.py, exact solutions come back as samples of one curve.
-/

namespace Beluga.E2E

open Beluga.Sym Beluga.Sym.Expr Beluga.Num Beluga.Map Beluga.Opt Beluga.Rep

theorem bryson_whole : Whole bryson := by
  have : ∀ e ∈ allExprs bryson, ∀ s ∈ e.free, s ∈ declared bryson ++ bryson.quantities.map Quantity.name ++
      bryson.switches.map Switch.name := by
    decide +kernel
  exact fun e he s hs => this e he s hs

theorem bryson_strict (U : Name → Nat → ℝ → ℝ) {e l : ℝ} (he : 0 < e) (hl : 0 < l) {x z : ℝ → Env}
    (hx : ∀ t ∈ Set.Icc (0 : ℝ) 1, x t ∈ brysonSet e l) (hz : ∀ t ∈ Set.Icc (0 : ℝ) 1, z t ∈ brysonSet e l) :
    StrictlyConvex U id bryson (fun _ => brysonSet e l) 0 1 x z where
  convex := bryson_convex U he hl one_pos (fun t ht => by simpa [brysonSet, only, declared, bryson] using hx t ht)
    (fun t ht => by simpa [brysonSet, only, declared, bryson] using hz t ht)
  back := bryson_convex U he hl one_pos (fun t ht => by simpa [brysonSet, only, declared, bryson] using hz t ht)
    (fun t ht => by simpa [brysonSet, only, declared, bryson] using hx t ht)
  strict := by
    intro t _ σ _ τ _ h
    simp [bryson] at h
    simp only [bryson, eval, id, Pi.add_apply, Pi.smul_apply, smul_eq_mul]
    have := mul_self_pos.2 (sub_ne_zero.2 h)
    nlinarith
  steered := by
    constructor
    · intro σ _ τ _ hk h d hd
      obtain ⟨h1, h2⟩ := h { expr := sym "x" - sym "x_0" } (by simp [bryson]) rfl
      obtain ⟨h3, h4⟩ := h { expr := sym "v" - sym "v_0" } (by simp [bryson]) rfl
      simp only [eval_sub, eval, id] at h1 h2 h3 h4
      have k1 := hk "x_0" (by simp [bryson])
      have k2 := hk "v_0" (by simp [bryson])
      simp only [bryson, List.mem_cons, List.not_mem_nil, or_false] at hd
      rcases hd with rfl | rfl <;> dsimp only <;> linarith
    · refine ⟨1, ?_⟩
      intro t _ σ _ τ _ h d hd
      have k := h "u" (by simp [bryson])
      simp only [bryson, List.map_cons, List.map_nil, List.sum_cons, List.sum_nil]
      simp only [bryson, List.mem_cons, List.not_mem_nil, or_false] at hd
      rcases hd with rfl | rfl
      · simp only [eval, id]
        linarith [abs_nonneg (σ "x" - τ "x")]
      · simp only [eval, id]
        rw [k, sub_self, abs_zero]
        linarith [abs_nonneg (σ "x" - τ "x"), abs_nonneg (σ "v" - τ "v")]

/-- What one run on the example with the wall at distance `l` returns: it takes from 0 to 1 and stays off the wall. -/
theorem bryson_run {S : Sympy} (hL : LuSound S) {o : Opts} {p' q : Prob} (hm : o.momentumShift = true) (hd : o.method ≠ .other)
    (hS : o.controlMethod = .algebraic → SolveSound S) (h : indirect S o bryson = .ok p') (hq : primal S bryson = .ok q)
    {U : Name → Nat → ℝ → ℝ} {a b : ℝ} {y : ℝ → List ℝ} {pr k : List ℝ} {ρ : ℝ → Env} {s s' : Sol ℝ}
    (hr : MappedBack S o bryson p' q U a b y pr k ρ s s') {e l : ℝ} (hl : 0 < l) (hl2 : l ≤ 1 / 6) (he : 0 < e)
    (hk : s'.const = [0, 0, 1, -1, e, l]) :
    s'.t.head? = some 0 ∧ s'.t.getLast? = some 1 ∧ ∀ t ∈ Set.Icc (0 : ℝ) 1, ρ (a + t * (b - a)) ∈ brysonSet e l := by
  obtain ⟨-, B, -, hB, -⟩ := C73_returned_partial hL bryson_stated hm hd hS h
  obtain ⟨t₀, c, x, lam, ν₀, ν₁, c1, c2, c3, c4, c5, c6, c7, -, c9, c10⟩ := hr.curve hL bryson_stated hm hd hS h hq hB
    (bryson_completes U)
  have hlt : t₀ < t₀ + c * (b - a) := by nlinarith [mul_pos c1 (sub_pos.2 hr.lt)]
  have hcon := c3.constants t₀ (List.mem_of_mem_head? c5)
  rw [hk] at hcon
  simp only [bryson, List.map_cons, List.map_nil, List.cons.injEq, and_true] at hcon
  obtain ⟨k0, k1, k2, k3, k4, k5⟩ := hcon
  obtain ⟨r1, r2, r3, -, -⟩ := bryson_bounds hB hlt c2 c9 (c10 "u" (by simp [bryson])) k0 k2 k1 k3 (by rw [k5]; exact hl)
    (by rw [k5]; exact hl2) (by rw [k4]; exact he)
  rw [r2] at c2 c6 r3
  rw [r1] at c2 c5 r3 k4 k5
  rw [r1] at r2
  refine ⟨c5, c6, ?_⟩
  intro t ht
  have hx : ρ (a + t * (b - a)) = x t := by
    rw [c4.curve, r1]
    congr 2
    have := c1.ne'
    rw [sub_zero, eq_div_iff this]
    linear_combination t * r2
  rw [hx]
  have cst : ∀ s ∈ ["epsilon1", "x_max"], x t s = x 0 s := fun s hs =>
    c2.fixed s (by
      simp only [userOcp, bryson]
      revert s
      decide) t ht
  have := abs_lt.1 (r3 t ht)
  rw [k5] at this
  refine ⟨?_, ?_, this.1, this.2⟩
  · rw [cst "epsilon1" (by decide), k4]
  · rw [cst "x_max" (by decide), k5]

/-- All exact solutions of the Bryson-Denham example with the same wall and activator come back as samples of one curve.

Assumed: as in `C95_returned`. -/
theorem C96_bryson {S S2 : Sympy} (hL : LuSound S) (hL2 : LuSound S2) {o o2 : Opts} {p' p2' : Prob} (hm : o.momentumShift = true)
    (hm2 : o2.momentumShift = true) (hd : o.method ≠ .other) (hd2 : o2.method ≠ .other)
    (hS : o.controlMethod = .algebraic → SolveSound S) (hS2 : o2.controlMethod = .algebraic → SolveSound S2)
    (h : indirect S o bryson = .ok p') (h2 : indirect S2 o2 bryson = .ok p2') :
    ∃ q q2, primal S bryson = .ok q ∧ primal S2 bryson = .ok q2 ∧
      ∀ U a b y pr k ρ s s' a2 b2 y2 pr2 k2 ρ2 s2 s2',
      MappedBack S o bryson p' q U a b y pr k ρ s s' → MappedBack S2 o2 bryson p2' q2 U a2 b2 y2 pr2 k2 ρ2 s2 s2' →
      ∀ e l, 0 < l → l ≤ 1 / 6 → 0 < e → s'.const = [0, 0, 1, -1, e, l] → s2'.const = [0, 0, 1, -1, e, l] →
      ∃ X W, Sampled bryson X W s' ∧ Sampled bryson X W s2' := by
  obtain ⟨q, q2, hq, hq2, key⟩ := C96_returned_partial hL hL2 bryson_stated bryson_whole hm hm2 hd hd2 hS hS2 h h2
  refine ⟨q, q2, hq, hq2, ?_⟩
  intro U a b y pr k ρ s s' a2 b2 y2 pr2 k2 ρ2 s2 s2' hr hr2 e l hl hl2 he hk hk2
  obtain ⟨f1, f2, f3⟩ := bryson_run hL hm hd hS h hq hr hl hl2 he hk
  obtain ⟨g1, g2, g3⟩ := bryson_run hL2 hm2 hd2 hS2 h2 hq2 hr2 hl hl2 he hk2
  obtain ⟨t₀, t₁, x, x2, lam, lam2, k1, k2, -, -, -, k6, k7⟩ := key U id (bryson_completes U) _ _ _ _ _ _ _ _ _ _ _ _ _ _ _ _ hr hr2
    (by rw [f1, g1]) (by rw [f2, g2]) (by rw [hk, hk2])
  rw [f1] at k1
  rw [f2] at k2
  cases k1
  cases k2
  simp only [sub_zero, div_one] at k6
  exact (k7 _ (bryson_strict U he hl (fun t ht => by rw [(k6 t).1]; exact f3 t ht) fun t ht => by rw [(k6 t).2]; exact g3 t ht)).2

end Beluga.E2E
