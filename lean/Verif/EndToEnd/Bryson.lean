import Verif.EndToEnd.SoftStop
import Verif.EndToEnd.Respect

/-!
# The Bryson-Denham example: what the returned solution costs (C95)

The problem of examples/Classic/BrysonDenham/BrysonDenham.py: turn round before a wall with the least effort.  The constraint is
replaced by a penalty, so the returned solution is not the optimum; but it satisfies the constraint, and how much more than the optimum
it costs is bounded by the activator.
-/

namespace Beluga.E2E

open Beluga.Sym Beluga.Sym.Expr Beluga.Num Beluga.Map Beluga.Opt Beluga.Rep

/-- The problem (examples/Classic/BrysonDenham/BrysonDenham.py:7-38). -/
def bryson : Prob := {
  ind := "t"
  states := [⟨"x", sym "v"⟩, ⟨"v", sym "u"⟩]
  controls := ["u"]
  constants := ["x_0", "x_f", "v_0", "v_f", "epsilon1", "x_max"]
  costPath := pow (sym "u") 2
  initial := [{ expr := sym "x" - sym "x_0" }, { expr := sym "v" - sym "v_0" }, { expr := sym "t" }]
  terminal := [{ expr := sym "x" - sym "x_f" }, { expr := sym "v" - sym "v_f" }, { expr := sym "t" - 1 }]
  path := [
    { expr := sym "x", lower := some (-(sym "x_max")), upper := some (sym "x_max"), activator := some (sym "epsilon1"), method := .utm }] }

theorem bryson_stated : Stated bryson where
  costates := rfl
  coparameters := rfl
  parameters := rfl
  quads := rfl
  law := rfl
  acyclic := ⟨fun _ => 0, by decide⟩
  reg := ⟨rfl, by decide, by decide, by decide, by simp [bryson], by decide, by decide⟩
  inside := by decide
  ends := by decide
  bounds := by simp [bryson]
  flat := by simp [bryson]
  names := by decide
  trig := by decide +kernel
  plain := by decide +kernel
  free := by decide +kernel
  ind := by decide +kernel

theorem bryson_completes (U : Name → Nat → ℝ → ℝ) : Completes U bryson id where
  off := fun _ _ _ => rfl
  quantities := by simp [bryson]
  switches := by simp [bryson]
  trig := by simp [TrigEnv, bryson]

theorem eval_minus (U : Name → Nat → ℝ → ℝ) (σ : Env) (s : Name) : eval (real U) σ (-(sym s)) = -σ s := by
  simp [eval]

theorem bryson_path (U : Name → Nat → ℝ → ℝ) (B : ℝ → ℝ → ℝ → ℝ → ℝ) (σ : Env) : (userOcp U id B bryson).path σ =
    σ "u" ^ 2 + B (σ "epsilon1") (-(σ "x_max")) (σ "x_max") (σ "x") := by
  simp [userOcp, bryson, penalties, penalty, Con.twoSided, eval]

theorem bryson_cost (U : Name → Nat → ℝ → ℝ) (a b : ℝ) (x : ℝ → Env) : statedCost U id bryson a b x = ∫ t in a..b, x t "u" ^ 2 := by
  simp [statedCost, bryson, eval]

/-- The competitor that stops before the wall at `m`. -/
noncomputable def softStop (m : ℝ) (x : ℝ → Env) (t : ℝ) : Env := fun s =>
  if s = "x" then stopX m t else if s = "v" then stopV m t else if s = "u" then stopU m t else x t s

/-- Where the problem is convex. -/
def brysonSet (e l : ℝ) : Set Env := {σ | σ "epsilon1" = e ∧ σ "x_max" = l ∧ -l < σ "x" ∧ σ "x" < l}

theorem brysonSet_convex (e l : ℝ) : Convex ℝ (brysonSet e l) := by
  intro σ hσ τ hτ a b ha hb hab
  obtain ⟨h1, h2, h3, h4⟩ := hσ
  obtain ⟨k1, k2, k3, k4⟩ := hτ
  refine ⟨?_, ?_, ?_, ?_⟩ <;> simp only [Pi.add_apply, Pi.smul_apply, smul_eq_mul]
  · rw [h1, k1]
    linear_combination e * hab
  · rw [h2, k2]
    linear_combination l * hab
  · rcases ha.eq_or_lt with h | h
    · have : b = 1 := by linarith
      rw [← h, this]
      linarith
    · nlinarith [mul_le_mul_of_nonneg_left k3.le hb, mul_lt_mul_of_pos_left h3 h]
  · rcases ha.eq_or_lt with h | h
    · have : b = 1 := by linarith
      rw [← h, this]
      linarith
    · nlinarith [mul_le_mul_of_nonneg_left k4.le hb, mul_lt_mul_of_pos_left h4 h]

theorem affine_sym (U : Name → Nat → ℝ → ℝ) (D : Set Env) (s : Name) : AffineOn D fun σ => eval (real U) (id σ) (sym s) := by
  intro σ _ τ _ a b _ _ _
  simp [eval]

theorem affine_diff (U : Name → Nat → ℝ → ℝ) (D : Set Env) (s r : Name) :
    AffineOn D fun σ => eval (real U) (id σ) (sym s - sym r) := by
  intro σ _ τ _ a b _ _ _
  simp [eval]
  ring

theorem affine_one (U : Name → Nat → ℝ → ℝ) (D : Set Env) (s : Name) : AffineOn D fun σ => eval (real U) (id σ) (sym s - 1) := by
  intro σ _ τ _ a b _ _ hab
  simp [eval]
  linear_combination hab

theorem bryson_convex (U : Name → Nat → ℝ → ℝ) {e l b : ℝ} (he : 0 < e) (hl : 0 < l) {x z : ℝ → Env} (hab : 0 < b)
    (hx : ∀ t ∈ Set.Icc 0 b, x t ∈ brysonSet e l) (hz : ∀ t ∈ Set.Icc 0 b, z t ∈ brysonSet e l) :
    ConvexStated U id bryson (fun _ => brysonSet e l) 0 b x z := by
  have hC := brysonSet_convex e l
  have zero : ConvexOn ℝ (brysonSet e l) fun σ => eval (real U) (id σ) 0 := by
    simpa [eval] using convexOn_const (0 : ℝ) hC
  refine ⟨hab, ?_, ?_, ?_, ?_, ?_, fun t ht => ⟨hx t ht, hz t ht⟩, ?_⟩
  · intro t _ d hd
    simp only [bryson, List.mem_cons, List.not_mem_nil, or_false] at hd
    rcases hd with rfl | rfl <;> exact affine_sym U _ _
  · intro t _
    refine ⟨?_, ?_, ?_⟩
    · refine ⟨hC, fun σ _ τ _ a b ha hb hab => ?_⟩
      simp only [bryson, eval, id, Pi.add_apply, Pi.smul_apply, smul_eq_mul]
      have e1 : b = 1 - a := by linarith
      subst e1
      nlinarith [mul_nonneg (mul_nonneg ha hb) (sq_nonneg (σ "u" - τ "u"))]
    · intro c hc h2
      simp only [bryson, List.mem_singleton] at hc
      subst hc
      cases h2
    · intro c hc _
      simp only [bryson, List.mem_singleton] at hc
      subst hc
      refine ⟨rfl, affine_sym U _ _, e, -l, l, he, by linarith, ?_⟩
      rintro σ ⟨h1, h2, h3, h4⟩
      simp [eval, h1, h2, h3, h4]
  · refine ⟨zero, ?_, ?_⟩
    · intro c hc _
      simp only [bryson, List.mem_cons, List.not_mem_nil, or_false] at hc
      rcases hc with rfl | rfl | rfl
      · exact affine_diff U _ _ _
      · exact affine_diff U _ _ _
      · exact affine_sym U _ _
    · intro c hc h2
      simp only [bryson, List.mem_cons, List.not_mem_nil, or_false] at hc
      rcases hc with rfl | rfl | rfl <;> cases h2
  · refine ⟨zero, ?_, ?_⟩
    · intro c hc _
      simp only [bryson, List.mem_cons, List.not_mem_nil, or_false] at hc
      rcases hc with rfl | rfl | rfl
      · exact affine_diff U _ _ _
      · exact affine_diff U _ _ _
      · exact affine_one U _ _
    · intro c hc h2
      simp only [bryson, List.mem_cons, List.not_mem_nil, or_false] at hc
      rcases hc with rfl | rfl | rfl <;> cases h2
  · intro u hu σ v w hw
    have hu : u = "u" := by simpa [bryson] using hu
    subst hu
    simp only [bryson, parts, List.cons_append, List.nil_append, List.flatMap_cons, List.flatMap_nil, Option.toList, List.append_nil,
      List.mem_cons, List.not_mem_nil, or_false] at hw
    rcases hw with rfl | rfl | rfl | rfl | rfl | rfl | rfl | rfl <;> simp [eval]
  · intro t ht s hs
    obtain ⟨h1, h2, h3, h4⟩ := hx t ht
    have hs : s = "x" ∨ s = "v" ∨ s = "u" := by simpa [bryson] using hs
    rcases hs with rfl | rfl | rfl
    · filter_upwards [eventually_gt_nhds h3, eventually_lt_nhds h4] with v k1 k2
      simp [brysonSet, h1, h2, k1, k2]
    all_goals
      refine Filter.Eventually.of_forall fun v => ?_
      simp [brysonSet, h1, h2, h3, h4]

/-- What an extremal of the problem with the penalty costs. -/
theorem bryson_bounds {U : Name → Nat → ℝ → ℝ} {B : ℝ → ℝ → ℝ → ℝ → ℝ} (hB : Barriers B) {a b : ℝ} (hab : a < b) {x : ℝ → Env}
    {lam : ℝ → Name → ℝ} {ν₀ ν₁ : Nat → ℝ} (h : Extremal (userOcp U id B bryson) a b x lam ν₀ ν₁)
    (hpath : ContinuousOn (fun t => (userOcp U id B bryson).path (x t)) (Set.Icc a b))
    (hu : ContinuousOn (fun t => x t "u") (Set.Icc a b)) (k0 : x a "x_0" = 0) (k1 : x a "v_0" = 1) (k2 : x a "x_f" = 0)
    (k3 : x a "v_f" = -1) (hl : 0 < x a "x_max") (hl2 : x a "x_max" ≤ 1 / 6) (he : 0 < x a "epsilon1") :
    a = 0 ∧ b = 1 ∧ (∀ t ∈ Set.Icc a b, |x t "x"| < x a "x_max") ∧ 8 / (9 * x a "x_max") ≤ ∫ t in a..b, x t "u" ^ 2 ∧
      ∀ m, 0 < m → m < x a "x_max" →
        ∫ t in a..b, x t "u" ^ 2 ≤ 8 / (9 * m) + x a "epsilon1" * x a "x_max" / (x a "x_max" - m) := by
  have ca : a ∈ Set.Icc a b := ⟨le_refl _, hab.le⟩
  have cb : b ∈ Set.Icc a b := ⟨hab.le, le_refl _⟩
  have cst : ∀ s ∈ ["x_0", "x_f", "v_0", "v_f", "epsilon1", "x_max"], ∀ t ∈ Set.Icc a b, x t s = x a s := fun s hs =>
    h.fixed s (by simpa [userOcp, bryson] using hs)
  have h0 := h.initial
  have h1 := h.terminal
  simp only [userOcp, bryson, Con.twoSided, List.filter, Option.isSome, Bool.and_false, Bool.not_false, List.map_cons, List.map_nil,
    List.mem_cons, List.not_mem_nil, or_false, forall_eq_or_imp, forall_eq, id, eval_sub, eval] at h0 h1
  obtain ⟨ix, iv, it⟩ := h0
  obtain ⟨fx, fv, ft⟩ := h1
  have ea : a = 0 := by
    rw [← h.time a ca]
    exact it
  have eb : b = 1 := by
    rw [← h.time b cb]
    have ft := ft
    norm_num at ft
    change x b "t" = 1
    linarith
  rw [cst "x_f" (by decide) b cb] at fx
  rw [cst "v_f" (by decide) b cb] at fv
  obtain ⟨l, hle⟩ : ∃ l, l = x a "x_max" := ⟨_, rfl⟩
  obtain ⟨e, hee⟩ : ∃ e, e = x a "epsilon1" := ⟨_, rfl⟩
  rw [← hle] at hl hl2 ⊢
  rw [← hee] at he ⊢
  have m := h.motion
  simp only [userOcp, bryson, List.map_cons, List.map_nil, List.mem_cons, List.not_mem_nil, or_false, forall_eq_or_imp, forall_eq, id,
    eval] at m
  have cx : ContinuousOn (fun t => x t "x") (Set.Icc a b) := fun t ht => (m.1 t ht).continuousAt.continuousWithinAt
  have conc : ∀ s ∈ ["x_0", "x_f", "v_0", "v_f", "epsilon1", "x_max"], ContinuousOn (fun t => x t s) (Set.Icc a b) := fun s hs =>
    (continuousOn_const (c := x a s)).congr fun t ht => cst s hs t ht
  have fenced : Fenced U id bryson a b x := by
    refine ⟨?_, ?_⟩
    · simp only [bryson, eval, id]
      exact hu.pow 2
    · intro c hc _
      simp only [bryson, List.mem_singleton] at hc
      subst hc
      refine ⟨fun _ => cx, ⟨_, rfl, conc "epsilon1" (by decide), ?_⟩, _, _, rfl, rfl, ?_, conc "x_max" (by decide), ?_⟩
      · intro t ht
        change 0 < x t "epsilon1"
        rw [cst "epsilon1" (by decide) t ht, ← hee]
        exact he
      · simp only [eval_minus, id]
        exact (conc "x_max" (by decide)).neg
      · intro t ht
        simp only [id, eval_minus]
        simp only [eval]
        rw [cst "x_max" (by decide) t ht, ← hle]
        linarith
  have hold : ∀ t ∈ Set.Icc a b, -l < x t "x" ∧ x t "x" < l := by
    have k := fenced.respected bryson_stated (bryson_completes U) hB hpath ca (by
      intro c hc _
      simp only [bryson, List.mem_singleton] at hc
      subst hc
      have e0 : x a "x" = 0 := by linarith
      simp only [HoldsAt, Option.mem_def, Option.some.injEq, forall_eq', id, eval_minus]
      simp only [eval, e0, ← hle]
      exact ⟨fun _ => ⟨by linarith, hl⟩, by linarith, hl.le⟩)
    intro t ht
    have k2 := (k t ht _ (List.mem_singleton_self _) rfl).1 rfl _ rfl _ rfl
    simp only [id, eval_minus] at k2
    simp only [eval] at k2
    rwa [cst "x_max" (by decide) t ht, ← hle] at k2
  have inD : ∀ t ∈ Set.Icc a b, x t ∈ brysonSet e l := fun t ht =>
    ⟨by rw [cst "epsilon1" (by decide) t ht, hee], by rw [cst "x_max" (by decide) t ht, hle], hold t ht⟩
  subst ea eb
  refine ⟨rfl, rfl, fun t ht => abs_lt.2 (hold t ht), ?_, ?_⟩
  · exact effort_least hl hl2 m.1 m.2 hu (by linarith) (by linarith) (by linarith) (by linarith) fun t ht => (hold t ht).2.le
  · intro w hw hwl
    have zD : ∀ t ∈ Set.Icc (0 : ℝ) 1, softStop w x t ∈ brysonSet e l := by
      intro t ht
      have := stop_within hw ht.1 ht.2
      refine ⟨?_, ?_, ?_, ?_⟩
      · simpa [softStop] using (inD t ht).1
      · simpa [softStop] using (inD t ht).2.1
      · simp only [softStop, if_true]
        linarith
      · simp only [softStop, if_true]
        linarith
    have hD := bryson_convex U he hl one_pos inD zD
    obtain ⟨s1, s2, s3, s4⟩ := stop_ends hw (by linarith)
    have pen : ContinuousOn (fun t => B e (-l) l (stopX w t)) (Set.Icc 0 1) := by
      have : (fun t => B e (-l) l (stopX w t)) = fun t => e * (1 / Real.cos (Real.pi / 2 * (2 * stopX w t - l - -l) / (l - -l)) - 1) :=
        funext fun t => hB.secant _ _ _ _
      rw [this]
      have cX : Continuous (stopX w) := continuous_iff_continuousAt.2 fun t => (stop_motion hw t).1.continuousAt
      refine ContinuousOn.mul continuousOn_const (ContinuousOn.sub (ContinuousOn.div continuousOn_const
        (Continuous.continuousOn (by fun_prop)) ?_) continuousOn_const)
      intro t ht
      have := stop_within hw ht.1 ht.2
      have e1 : Real.pi / 2 * (2 * stopX w t - l - -l) / (l - -l) = Real.pi / 2 * (stopX w t / l) := by
        have := hl.ne'
        rw [show l - -l = 2 * l by ring]
        field_simp
        ring
      rw [e1]
      have b1 : stopX w t / l < 1 := by
        rw [div_lt_one hl]
        linarith
      have b2 : -1 < stopX w t / l := by
        rw [lt_div_iff₀ hl]
        linarith
      have hp := Real.pi_pos
      exact (Real.cos_pos_of_mem_Ioo ⟨by nlinarith, by nlinarith⟩).ne'
    have zpath : ContinuousOn (fun t => (userOcp U id B bryson).path (softStop w x t)) (Set.Icc 0 1) := by
      refine (((stop_continuous w).continuousOn.pow 2).add pen).congr fun t ht => ?_
      rw [bryson_path, (zD t ht).1, (zD t ht).2.1]
      simp [softStop]
    have adm : Admissible (userOcp U id B bryson) 0 1 x (softStop w x) := by
      refine ⟨?_, ?_, ?_, ?_, ?_, zpath.integrableOn_Icc⟩
      · intro t _ s hs
        have : s ≠ "x" ∧ s ≠ "v" ∧ s ≠ "u" := by
          simpa [Ocp.states, userOcp, bryson, epsControls, not_or] using hs
        simp [softStop, this.1, this.2.1, this.2.2]
      · intro r hr t _
        simp only [userOcp, bryson, List.map_cons, List.map_nil, List.mem_cons, List.not_mem_nil, or_false] at hr
        rcases hr with rfl | rfl
        · simpa [softStop] using (stop_motion hw t).1.continuousAt.continuousWithinAt
        · simpa [softStop] using (stop_motion hw t).2.continuousAt.continuousWithinAt
      · intro r hr t _
        simp only [userOcp, bryson, List.map_cons, List.map_nil, List.mem_cons, List.not_mem_nil, or_false] at hr
        rcases hr with rfl | rfl
        · simpa [softStop, eval] using (stop_motion hw t).1.hasDerivWithinAt
        · simpa [softStop, eval] using (stop_motion hw t).2.hasDerivWithinAt
      · intro c hc
        simp only [userOcp, bryson, Con.twoSided, List.filter, Option.isSome, Bool.and_false, Bool.not_false, List.map_cons,
          List.map_nil, List.mem_cons, List.not_mem_nil, or_false] at hc
        rcases hc with rfl | rfl | rfl
        · simp [eval, softStop, s1, k0]
        · simp [eval, softStop, s2, k1]
        · simpa [eval, softStop] using it
      · intro c hc
        simp only [userOcp, bryson, Con.twoSided, List.filter, Option.isSome, Bool.and_false, Bool.not_false, List.map_cons,
          List.map_nil, List.mem_cons, List.not_mem_nil, or_false] at hc
        have p1 : (1 : ℝ) ∈ Set.Icc (0 : ℝ) 1 := by simp
        rcases hc with rfl | rfl | rfl
        · simp [eval, softStop, s3, cst "x_f" (by decide) 1 p1, k2]
        · simp [eval, softStop, s4, cst "v_f" (by decide) 1 p1, k3]
        · simpa [eval, softStop] using ft
    have best := h.minimum zero_le_one (nodup_of_stated hD bryson_stated B) adm (hD.along bryson_stated hB lam ν₀ ν₁)
      hpath.integrableOn_Icc
    have roomy : Roomy U id bryson e ((l - w) / (2 * l)) 0 1 (softStop w x) := by
      refine ⟨he.le, div_pos (by linarith) (by linarith), ?_, ?_, ?_, ?_⟩
      · intro t ht c hc _
        simp only [bryson, List.mem_singleton] at hc
        subst hc
        have ht : t ∈ Set.Icc (0 : ℝ) 1 := ⟨ht.1.le, ht.2.le⟩
        have hs := stop_within hw ht.1 ht.2
        have e1 : (l - w) / (2 * l) * (l - -l) = l - w := by
          have := hl.ne'
          field_simp
          ring
        simp only [RoomAt, Option.mem_def, Option.some.injEq, forall_eq', id, eval_minus]
        simp only [eval, (zD t ht).1, (zD t ht).2.1, e1]
        simp only [softStop, if_true]
        exact ⟨le_refl _, by linarith, by linarith⟩
      · intro c hc h2
        simp only [bryson, List.mem_cons, List.not_mem_nil, or_false] at hc
        rcases hc with rfl | rfl | rfl <;> cases h2
      · intro c hc h2
        simp only [bryson, List.mem_cons, List.not_mem_nil, or_false] at hc
        rcases hc with rfl | rfl | rfl <;> cases h2
      · have : ContinuousOn (fun t => stopU w t ^ 2) (Set.Icc 0 1) := (stop_continuous w).continuousOn.pow 2
        simpa [bryson, eval, softStop] using this.integrableOn_Icc (μ := MeasureTheory.volume)
    have fin := (hD.stated hB roomy hpath.integrableOn_Icc (by
      simp only [bryson, eval, id]
      exact (hu.pow 2).integrableOn_Icc) zpath.integrableOn_Icc (err := 0)
      (by simpa using best)).2
    rw [bryson_cost, bryson_cost] at fin
    have e2 : ∫ t in (0 : ℝ)..1, softStop w x t "u" ^ 2 = 8 / (9 * w) := by
      rw [← stop_effort hw (by linarith)]
      simp [softStop]
    have e3 : burden bryson 0 1 = 1 := by
      simp [burden, bryson, Con.twoSided]
    have e4 : e / (2 * ((l - w) / (2 * l))) = e * l / (l - w) := by
      have := hl.ne'
      have : l - w ≠ 0 := by linarith
      field_simp
    rw [e2, e3, e4] at fin
    linarith

/-- A motion that solves the user's problem, in the user's words: it starts and stops at the wall's foot with unit speed within unit
time, and never passes the wall at `l` (the constraint as the user wrote it). -/
structure Turns (l : ℝ) (X V W : ℝ → ℝ) : Prop where
  position : ∀ t ∈ Set.Icc (0 : ℝ) 1, HasDerivAt X (V t) t
  velocity : ∀ t ∈ Set.Icc (0 : ℝ) 1, HasDerivAt V (W t) t
  effort : ContinuousOn W (Set.Icc 0 1)
  start : X 0 = 0 ∧ V 0 = 1
  stop : X 1 = 0 ∧ V 1 = -1
  wall : ∀ t ∈ Set.Icc (0 : ℝ) 1, |X t| ≤ l

/-- The optimal cost of the user's problem is 8/(9 l), for walls that matter throughout: no motion costs less, and one costs that. -/
theorem C95_optimum {l : ℝ} (hl : 0 < l) (hl2 : l ≤ 1 / 6) :
    (∀ X V W, Turns l X V W → 8 / (9 * l) ≤ ∫ t in (0 : ℝ)..1, W t ^ 2) ∧
      ∃ X V W, Turns l X V W ∧ ∫ t in (0 : ℝ)..1, W t ^ 2 = 8 / (9 * l) := by
  refine ⟨fun X V W h => effort_least hl hl2 h.position h.velocity h.effort h.start.1 h.start.2 h.stop.1 h.stop.2
    fun t ht => (abs_le.1 (h.wall t ht)).2, stopX l, stopV l, stopU l, ?_, stop_effort hl (by linarith)⟩
  obtain ⟨s1, s2, s3, s4⟩ := stop_ends hl (by linarith)
  exact ⟨fun t _ => (stop_motion hl t).1, fun t _ => (stop_motion hl t).2, (stop_continuous l).continuousOn, ⟨s1, s2⟩, ⟨s3, s4⟩,
    fun t ht => abs_le.2 (stop_within hl ht.1 ht.2)⟩

/-- Whatever beluga returns for the Bryson-Denham problem, with the activator `e` and the wall at `l`: if the numerical solution solves
the boundary value problem, the returned tables are samples of a motion that never touches the wall and whose cost exceeds the
optimal cost 8/(9 l) by an amount that vanishes with the activator: at most 8/(9 m) - 8/(9 l) + e l/(l - m) for every m below l. -/
theorem C95_returned {S : Sympy} (hL : LuSound S) {o : Opts} {p' : Prob} (hm : o.momentumShift = true) (hd : o.method ≠ .other)
    (hS : o.controlMethod = .algebraic → SolveSound S) (h : indirect S o bryson = .ok p') :
    ∃ q, primal S bryson = .ok q ∧ ∀ U (O : TrigOps ℝ) rule, O.sin = Real.sin →
      ∀ a b y pr pc k ρ, a < b → NumSol U p' a b y pr pc k → Reads U p' a b y pr pc k ρ → Regular S U q p' a b ρ →
      (∀ x ∈ pr, 0 < x) → ContinuousOn (fun τ => ρ τ "u") (Set.Icc a b) →
      ∀ l e, ρ a "x_max" = l → ρ a "epsilon1" = e → 0 < l → l ≤ 1 / 6 → 0 < e →
      ρ a "x_0" = 0 → ρ a "v_0" = 1 → ρ a "x_f" = 0 → ρ a "v_f" = -1 →
      ∀ s s' : Sol ℝ, s.t ≠ [] → (∀ τ ∈ s.t, τ ∈ Set.Icc a b) → s.y = .rows p'.states.length (s.t.map y) → s.dyn = pr →
        s.const = k → invIndirect S O rule (real U) o bryson s = .ok s' →
      ∃ X V W : ℝ → ℝ, Turns l X V W ∧ (∀ t ∈ Set.Icc (0 : ℝ) 1, |X t| < l) ∧
        s'.t = s.t.map (fun τ => (τ - a) / (b - a)) ∧
        s'.y = .rows 2 (s'.t.map fun t => [X t, V t]) ∧ s'.u = .rows 1 (s'.t.map fun t => [W t]) ∧
        ∀ m, 0 < m → m < l → ∫ t in (0 : ℝ)..1, W t ^ 2 ≤ 8 / (9 * m) + e * l / (l - m) := by
  obtain ⟨q, B, hq, hB, H⟩ := C73_returned_partial hL bryson_stated hm hd hS h
  refine ⟨q, hq, ?_⟩
  intro U O rule hO a b y pr pc k ρ hab hnum hread hreg hpr hu l e hle hee hl hl2 hepos k0 k1 k2 k3 s s' hne hgrid hy hdyn hconst hinv
  obtain ⟨t₀, c, x, lam, ν₀, ν₁, hc0, he, ht, hret, -, -, -, -, hdr⟩ := H U id (bryson_completes U) O rule hO a b y pr pc k ρ hab.le
    hnum hread hreg hpr s s' hne hgrid hy hdyn hconst hinv
  have start : x t₀ = ρ a := by rw [hdr.curve]; simp
  have hlt : t₀ < t₀ + c * (b - a) := by nlinarith [mul_pos hc0 (sub_pos.2 hab)]
  have inside : ∀ t ∈ Set.Icc t₀ (t₀ + c * (b - a)), a + (t - t₀) / c ∈ Set.Icc a b := by
    intro t ht
    constructor
    · have := div_nonneg (sub_nonneg.2 ht.1) hc0.le
      linarith
    · have : (t - t₀) / c ≤ b - a := by
        rw [div_le_iff₀ hc0]
        linarith [ht.2, mul_comm c (b - a)]
      linarith
  have hux : ContinuousOn (fun t => x t "u") (Set.Icc t₀ (t₀ + c * (b - a))) := by
    have e1 : (fun t => x t "u") = fun t => ρ (a + (t - t₀) / c) "u" := by
      funext t
      rw [hdr.curve]
    rw [e1]
    exact hu.comp (f := fun t => a + (t - t₀) / c) (Continuous.continuousOn (by fun_prop)) inside
  obtain ⟨r1, r2, r3, -, r5⟩ := bryson_bounds hB hlt he
    (hdr.continuous hc0 (path_continuous hL bryson_stated hm hd h hq hB (bryson_completes U) hread hreg hnum.strays)) hux
    (by rw [start]; exact k0) (by rw [start]; exact k1) (by rw [start]; exact k2) (by rw [start]; exact k3)
    (by rw [start, hle]; exact hl) (by rw [start, hle]; exact hl2) (by rw [start, hee]; exact hepos)
  rw [start, hle] at r3 r5
  rw [hee] at r5
  have h0 := he.initial
  have h1 := he.terminal
  simp only [userOcp, bryson, Con.twoSided, List.filter, Option.isSome, Bool.and_false, Bool.not_false, List.map_cons, List.map_nil,
    List.mem_cons, List.not_mem_nil, or_false, forall_eq_or_imp, forall_eq, id, eval_sub, eval] at h0 h1
  have cst : ∀ s ∈ ["x_f", "v_f"], x (t₀ + c * (b - a)) s = ρ a s := fun s hs => by
    rw [← start]
    refine he.fixed s ?_ _ ⟨hlt.le, le_refl _⟩
    simp only [userOcp, bryson]
    revert s
    decide
  rw [cst "x_f" (by decide), cst "v_f" (by decide), k2, k3] at h1
  rw [start, k0, k1, ← start] at h0
  have m := he.motion
  simp only [userOcp, bryson, List.map_cons, List.map_nil, List.mem_cons, List.not_mem_nil, or_false, forall_eq_or_imp, forall_eq, id,
    eval] at m
  have hc : c = 1 / (b - a) := by
    rw [eq_div_iff (by linarith)]
    linarith
  rw [r2] at hux m r3 r5 h1
  rw [r1] at hux m r3 r5 h0
  refine ⟨fun t => x t "x", fun t => x t "v", fun t => x t "u", ⟨m.1, m.2, hux, ⟨by linarith [h0.1], by linarith [h0.2.1]⟩,
    ⟨by linarith [h1.1], by linarith [h1.2.1]⟩, fun t ht => (r3 t ht).le⟩, r3, ?_, hret.states, hret.controls, r5⟩
  rw [ht, r1, hc]
  refine List.map_congr_left fun τ _ => ?_
  ring

/-- With the values of the example (x_max = 0.1 and an activator of 1e-6, examples/Classic/BrysonDenham/BrysonDenham.py:20-25,58-72)
the bound says that the returned motion costs at most 0.07 percent more than the optimum 80/9. -/
example {E : ℝ} (h : ∀ m : ℝ, 0 < m → m < 1 / 10 → E ≤ 8 / (9 * m) + 1 / 10 ^ 6 * (1 / 10) / (1 / 10 - m)) :
    E ≤ 80 / 9 * 1.0007 := by
  have := h (3332 / 33333) (by norm_num) (by norm_num)
  refine this.trans ?_
  norm_num

end Beluga.E2E
