import Verif.EndToEnd.Pass
import Verif.Shooting.Accept

/-!
# A run of the solver (C75)
-/

namespace Beluga.E2E

open Beluga.Sym Beluga.Sym.Expr Beluga.Num Beluga.Map Beluga.Opt Beluga.Rep
open Beluga.Shoot (Ivp IvpSound Complete NormSound Guess lastT Scipy Result)
open Beluga.Traj (Curve Simpson)

/-- One step of Euler's method to the end of the span. -/
noncomputable def step : Ivp ℝ := fun rhs ts y0 => do
  let f ← rhs y0
  .ok ([ts.getD 0 0, lastT ts], [y0, (List.range y0.length).map fun j => y0.getD j 0 + (lastT ts - ts.getD 0 0) * f.getD j 0])

theorem step_ok {rhs : List ℝ → Py (List ℝ)} {ts y0 : List ℝ} {out : List ℝ × List (List ℝ)} (h : step rhs ts y0 = .ok out) :
    ∃ f, rhs y0 = .ok f ∧ out = ([ts.getD 0 0, lastT ts], [y0, (List.range y0.length).map fun j =>
      y0.getD j 0 + (lastT ts - ts.getD 0 0) * f.getD j 0]) := by
  rw [step] at h
  obtain ⟨f, hf, h⟩ := bind_ok h
  exact ⟨f, hf, (Except.ok.inj h).symm⟩

theorem step_sound : IvpSound step where
  raises := by intro rhs ts y0 e h; rw [step, h]; rfl
  sorted := by
    intro rhs ts y0 a b h hlt
    obtain ⟨f, hf, e⟩ := step_ok h
    cases e
    simpa using hlt
  length := by intro rhs ts y0 a b h; obtain ⟨f, hf, e⟩ := step_ok h; cases e; rfl
  pos := by intro rhs ts y0 a b h; obtain ⟨f, hf, e⟩ := step_ok h; cases e; simp
  first := by intro rhs ts y0 a b h; obtain ⟨f, hf, e⟩ := step_ok h; cases e; rfl
  state := by intro rhs ts y0 a b h; obtain ⟨f, hf, e⟩ := step_ok h; cases e; rfl
  width := by
    intro rhs ts y0 a b h r hr
    obtain ⟨f, hf, e⟩ := step_ok h
    cases e
    simp only [List.mem_cons, List.not_mem_nil, or_false] at hr
    rcases hr with rfl | rfl <;> simp

theorem step_complete : Complete step := by
  intro rhs ts y0 a b h
  obtain ⟨f, hf, e⟩ := step_ok h
  cases e
  rfl

/-- The rates of the example along `fastRow`. -/
theorem fastRates (U : Name → Nat → ℝ → ℝ) {t : ℝ} (ht : t ∈ Set.Icc (0 : ℝ) 1) :
    derivFunc (real U) exP' (fastRow t) [1] [0] = .ok [101 / 100, 1, 0, 0] := by
  obtain ⟨v, hv, -⟩ := (fastNum U).rates t ht
  rw [hv, atPoint_val (fastRead U) ht hv, exP'_states, exh]
  simp [eval, diff, fast]

/-- A guess with another costate, so that the first trajectory ends at 1/2. -/
noncomputable def slow : Curve ℝ := ⟨[0, 1], .mat 4 [[0, 0, -1, 0], [1, 1, -1, 0]], .vec [], .vec []⟩

theorem slow_ok : Guess 4 0 slow where
  times := by simp [slow]
  two := by simp [slow]
  y := ⟨_, rfl, rfl, by simp⟩
  q := .inl ⟨rfl, rfl⟩
  u := .inl rfl

noncomputable def euclid (v : List ℝ) : ℝ := Real.sqrt (v.map (· ^ 2)).sum

theorem euclid_le {v : List ℝ} (hv : v.length = 8) (h : ∀ x ∈ v, |x| ≤ 1 / 40) : euclid v ≤ 1 / 10 := by
  have : (v.map (· ^ 2)).sum ≤ (v.length : ℝ) * (1 / 40 : ℝ) ^ 2 := by
    clear hv
    induction v with
    | nil => simp
    | cons x v ih =>
      have h1 : x ^ 2 ≤ (1 / 40) ^ 2 := sq_le_sq' (abs_le.1 (h x (by simp))).1 (abs_le.1 (h x (by simp))).2
      have h2 := ih fun y hy => h y (List.mem_cons_of_mem _ hy)
      simp only [List.map_cons, List.sum_cons, List.length_cons, Nat.cast_add, Nat.cast_one]
      linarith
  rw [hv] at this
  rw [euclid, Real.sqrt_le_left (by norm_num)]
  refine this.trans ?_
  norm_num

theorem bcFn_five {U : Name → Nat → ℝ → ℝ} {p : Prob} (hq : p.quads = []) (y0 yf pr pc k : List ℝ) :
    bcFn U p [y0, yf, pr, pc, k] = bcFunc (real U) p y0 [] yf [] pr pc k := by
  simp [bcFn, hq]

/-- Newton's step: the costate of the line. -/
noncomputable def exNewton (_ _ : List ℝ) : Py (List ℝ) := .ok [0, 0, -(51 / 50), 0, 0, 0, 0, 0]

/-- With the tolerance 1/10 the solver accepts the line after one step. -/
theorem slowRun (U : Name → Nat → ℝ → ℝ) (simp : Simpson ℝ) (Sc : Scipy ℝ) :
    ∃ r, Shoot.solve (shootEnv step simp U exP' [0]) Sc euclid exNewton ⟨1 / 10, 100, 10⟩ "Armijo" 5 1 slow [1]
        [101 / 50, 0, -(101 / 50)] = .ok (some r) ∧ r.converged = true ∧ r.t = [0, 1] ∧ r.y = [fastRow 0, fastRow 1] ∧ r.p = [1] ∧
      r.pn = [101 / 50, 0, -(101 / 50)] := by
  obtain ⟨f0, hf0⟩ : ∃ f, derivFunc (real U) exP' [0, 0, -1, 0] [1] [0] = .ok f := by
    refine ok_of ?_
    rfl
  obtain ⟨b, hb, hle⟩ := (fastNum U).boundary
  have hlen : (bcFunc (real U) exP' (fastRow 0) [] (fastRow 1) [] [1] [101 / 50, 0, -(101 / 50)] [0]).map List.length = .ok 8 := rfl
  rw [hb] at hlen
  have hlen : b.length = 8 := Except.ok.inj hlen
  have hq : quadFn U exP' = none := by rw [quadFn, quadFunc, exP'_rest.2.2.1]; rfl
  have hlast : lastT slow.t = 1 := rfl
  have hi0 : step (fun y => derivFunc (real U) exP' y [1] [0]) [0, 1] [0, 0, -1, 0] =
      .ok ([0, 1], [[0, 0, -1, 0], (List.range 4).map fun j => ([0, 0, -1, 0] : List ℝ).getD j 0 + (1 - 0) * f0.getD j 0]) := by
    rw [step, hf0]
    rfl
  obtain ⟨v0, hv0⟩ : ∃ v, bcFunc (real U) exP' [0, 0, -1, 0] [] ((List.range 4).map fun j => ([0, 0, -1, 0] : List ℝ).getD j 0 +
      (1 - 0) * f0.getD j 0) [] [1] [101 / 50, 0, -(101 / 50)] [0] = .ok v := by
    refine ok_of ?_
    rfl
  have hi1 : step (fun y => derivFunc (real U) exP' y [1] [0]) [0, 1] (fastRow 0) = .ok ([0, 1], [fastRow 0, fastRow 1]) := by
    rw [step, fastRates U (by norm_num)]
    change Except.ok _ = Except.ok _
    simp [fastRow, List.range, List.range.loop, lastT]
  exact Shoot.C42_accepts (E := shootEnv step simp U exP' [0]) step_sound step_complete rfl hq Sc euclid (by norm_num)
    (by decide +kernel) (le_refl _) slow_ok (y0 := [0, 0, -1, 0]) rfl hi0
    ((bcFn_five exP'_rest.2.2.1 ..).trans hv0) rfl (y1 := fastRow 0) (by simp [fastRow]; norm_num) rfl rfl hi1
    ((bcFn_five exP'_rest.2.2.1 ..).trans hb) (euclid_le hlen hle)

/-- From the result of this run the user gets samples of an extremal up to 1/10. -/
example (U : Name → Nat → ℝ → ℝ) (O : TrigOps ℝ) (hO : O.sin = Real.sin) (simp : Simpson ℝ) (Sc : Scipy ℝ) :
    ∃ r s', Shoot.solve (shootEnv step simp U exP' [0]) Sc euclid exNewton ⟨1 / 10, 100, 10⟩ "Armijo" 5 1 slow [1]
        [101 / 50, 0, -(101 / 50)] = .ok (some r) ∧ r.converged = true ∧
      invIndirect exS O trapezoids (real U) exO exP { exSol with t := r.t, y := .rows 4 r.y, dyn := r.p } = .ok s' ∧
      ∃ B x lam ν₀ ν₁, NearExtremal (userOcp U exQ B exP) (1 / 10) 0 0 1 x lam ν₀ ν₁ ∧ Returned exQ exP x lam s' := by
  obtain ⟨r, hr, hc, h1, h2, h3, h4⟩ := slowRun U simp Sc
  obtain ⟨s', hs'⟩ : ∃ s', invIndirect exS O trapezoids (real U) exO exP
      { exSol with t := [0, 1], y := .rows 4 [fastRow 0, fastRow 1], dyn := [1] } = .ok s' := by
    refine ok_of ?_
    rfl
  have ht : s'.t = [0, 1] := by
    have : invIndirect exS O trapezoids (real U) exO exP
      { exSol with t := [0, 1], y := .rows 4 [fastRow 0, fastRow 1], dyn := [1] } = .ok s' := hs'
    cases this
    rfl
  refine ⟨r, s', hr, hc, by rw [h1, h2, h3]; exact hs', ?_⟩
  obtain ⟨q, B, hq, hB, h⟩ := C75_shooting_partial (luSound_cramer exS rfl) exP_stated (o := exO) rfl (by decide)
    (fun _ => exS_sound) exP'_ok
  rw [exq_ok] at hq
  cases hq
  obtain ⟨t₀, c, x, lam, ν₀, ν₁, hc, hext, ht', hret, -⟩ := h U exQ (exQ_completes U) O trapezoids hO step simp Sc euclid exNewton
    ⟨1 / 10, 100, 10⟩ "Armijo" 5 4 0 slow [1] [101 / 50, 0, -(101 / 50)] [0] r step_sound step_complete Shoot.euclid_sound
    (by decide +kernel) (le_refl _) (by norm_num) slow_ok hr hc (by rw [h3]; simp) fastRow (by rw [h1, h2]; rfl)
    (by rw [h3]; exact (fastNum U).rates) fast (by rw [h3, h4]; exact fastRead U) (fastRegular U)
    { exSol with t := [0, 1], y := .rows 4 [fastRow 0, fastRow 1], dyn := [1] } s' h1.symm (by rw [h2]; rfl) h3.symm rfl hs'
  have hlast : lastT slow.t = 1 := rfl
  have hfirst : slow.t.getD 0 0 = 0 := rfl
  have ht0 : t₀ = 0 ∧ c = 1 := by
    rw [ht, h1, hfirst] at ht'
    simp at ht'
    exact ⟨ht'.1.symm, by linarith [ht'.1, ht'.2]⟩
  obtain ⟨rfl, rfl⟩ := ht0
  rw [hlast, hfirst] at hext
  exact ⟨B, x, lam, ν₀, ν₁, by simpa [exO] using hext, hret⟩

end Beluga.E2E
