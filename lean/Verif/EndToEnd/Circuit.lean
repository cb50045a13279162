import Verif.EndToEnd.BrysonUnique

/-!
# The one-loop circuit example: optimal up to the activator, and unique (C100)

The problem of examples/ElectricityAndMagnetism/OneLoopCircuit/OneLoopCircuit.py: reverse the current in a circuit with a resistance and an
inductance by a bounded voltage.  The bounds are replaced by a penalty; the voltages that come back stay within the bounds, cost at most a
multiple of the activator more than others, and do not depend on the method, the guess or the grid.
-/

namespace Beluga.E2E

open Beluga.Sym Beluga.Sym.Expr Beluga.Num Beluga.Map Beluga.Opt Beluga.Rep

/-- The problem (examples/ElectricityAndMagnetism/OneLoopCircuit/OneLoopCircuit.py:15-46). -/
def circuit : Prob := {
  ind := "t"
  states := [⟨"i", -(sym "Rc") / sym "L" * sym "i" + sym "u" / sym "L"⟩]
  controls := ["u"]
  constants := ["u_min", "u_max", "i_0", "Rc", "L", "lu", "lq", "eps1"]
  costPath := sym "lu" * pow (sym "u") 2 / 2 + sym "lq" * pow (sym "i" - sym "i_0") 2 / 2
  initial := [{ expr := sym "i" + sym "i_0" }, { expr := sym "t" }]
  terminal := [{ expr := sym "i" - sym "i_0" }, { expr := sym "t" - 1 }]
  path := [
    { expr := sym "u", lower := some (sym "u_min"), upper := some (sym "u_max"), activator := some (sym "eps1"), method := .utm }] }

/-! ### Specification -/

/-- A voltage `W` between `m` and `M` that takes the current `I` in a circuit with resistance `R` and inductance `L` from `-i₀` to `i₀` in
unit time. -/
structure Charges (R L i₀ m M : ℝ) (I W : ℝ → ℝ) : Prop where
  start : I 0 = -i₀
  stop : I 1 = i₀
  continuous : ContinuousOn I (Set.Icc 0 1)
  law : ∀ t ∈ Set.Ioo (0 : ℝ) 1, HasDerivWithinAt I (-R / L * I t + W t / L) (Set.Ioi t) t
  measurable : MeasureTheory.AEStronglyMeasurable W (MeasureTheory.volume.restrict (Set.Icc 0 1))
  bounds : ∀ t ∈ Set.Icc (0 : ℝ) 1, m ≤ W t ∧ W t ≤ M

/-- The stated cost. -/
noncomputable def outlay (α β i₀ : ℝ) (I W : ℝ → ℝ) : ℝ := ∫ t in (0 : ℝ)..1, (α * W t ^ 2 / 2 + β * (I t - i₀) ^ 2 / 2)

/-! ### Lemmas -/

theorem circuit_stated : Stated circuit where
  costates := rfl
  coparameters := rfl
  parameters := rfl
  quads := rfl
  law := rfl
  acyclic := ⟨fun _ => 0, by decide⟩
  reg := ⟨rfl, by decide, by decide, by decide, by simp [circuit], by decide, by decide⟩
  inside := by decide
  ends := by decide
  bounds := by simp [circuit]
  flat := by simp [circuit]
  names := by decide
  trig := by decide +kernel
  plain := by decide +kernel
  free := by decide +kernel
  ind := by decide +kernel

theorem circuit_completes (U : Name → Nat → ℝ → ℝ) : Completes U circuit id where
  off := fun _ _ _ => rfl
  quantities := by simp [circuit]
  switches := by simp [circuit]
  trig := by simp [TrigEnv, circuit]

theorem circuit_whole : Whole circuit := by
  have : ∀ e ∈ allExprs circuit, ∀ s ∈ e.free, s ∈ declared circuit ++ circuit.quantities.map Quantity.name ++
      circuit.switches.map Switch.name := by
    decide +kernel
  exact fun e he s hs => this e he s hs

theorem circuit_rate (U : Name → Nat → ℝ → ℝ) (σ : Env) : eval (real U) σ (-(sym "Rc") / sym "L" * sym "i" + sym "u" / sym "L") =
    -σ "Rc" / σ "L" * σ "i" + σ "u" / σ "L" := by
  simp [eval]

theorem circuit_integrand (U : Name → Nat → ℝ → ℝ) (σ : Env) : eval (real U) σ circuit.costPath =
    σ "lu" * σ "u" ^ 2 / 2 + σ "lq" * (σ "i" - σ "i_0") ^ 2 / 2 := by
  simp [circuit, eval]

theorem circuit_path (U : Name → Nat → ℝ → ℝ) (B : ℝ → ℝ → ℝ → ℝ → ℝ) (σ : Env) : (userOcp U id B circuit).path σ =
    (σ "lu" * σ "u" ^ 2 / 2 + σ "lq" * (σ "i" - σ "i_0") ^ 2 / 2) + B (σ "eps1") (σ "u_min") (σ "u_max") (σ "u") := by
  rw [← circuit_integrand U]
  simp [userOcp, circuit, penalties, penalty, Con.twoSided, eval]

/-- Where the problem is convex: the constants are `K`, and the voltage is between the bounds. -/
def circuitSet (K : Env) : Set Env := {σ | (∀ s ∈ circuit.constants, σ s = K s) ∧ K "u_min" < σ "u" ∧ σ "u" < K "u_max"}

theorem circuitSet_convex (K : Env) : Convex ℝ (circuitSet K) := by
  intro σ hσ τ hτ a b ha hb hab
  obtain ⟨h1, h3, h4⟩ := hσ
  obtain ⟨k1, k3, k4⟩ := hτ
  refine ⟨?_, ?_, ?_⟩ <;> simp only [Pi.add_apply, Pi.smul_apply, smul_eq_mul]
  · intro s hs
    rw [h1 s hs, k1 s hs]
    linear_combination K s * hab
  · have e : K "u_min" = a * K "u_min" + b * K "u_min" := by linear_combination (-K "u_min") * hab
    rcases ha.eq_or_lt with h | h
    · have : b = 1 := by linarith
      rw [← h, this]
      linarith
    · nlinarith [mul_le_mul_of_nonneg_left k3.le hb, mul_lt_mul_of_pos_left h3 h]
  · have e : K "u_max" = a * K "u_max" + b * K "u_max" := by linear_combination (-K "u_max") * hab
    rcases ha.eq_or_lt with h | h
    · have : b = 1 := by linarith
      rw [← h, this]
      linarith
    · nlinarith [mul_le_mul_of_nonneg_left k4.le hb, mul_lt_mul_of_pos_left h4 h]

theorem circuit_convex (U : Name → Nat → ℝ → ℝ) {K : Env} (he : 0 < K "eps1") (hl : K "u_min" < K "u_max") (hα : 0 < K "lu")
    (hβ : 0 ≤ K "lq") {b : ℝ} {x z : ℝ → Env} (hab : 0 < b) (hx : ∀ t ∈ Set.Icc 0 b, x t ∈ circuitSet K)
    (hz : ∀ t ∈ Set.Icc 0 b, z t ∈ circuitSet K) : ConvexStated U id circuit (fun _ => circuitSet K) 0 b x z := by
  have hC := circuitSet_convex K
  have zero : ConvexOn ℝ (circuitSet K) fun σ => eval (real U) (id σ) 0 := by
    simpa [eval] using convexOn_const (0 : ℝ) hC
  have con : ∀ σ ∈ circuitSet K, σ "Rc" = K "Rc" ∧ σ "L" = K "L" ∧ σ "lu" = K "lu" ∧ σ "lq" = K "lq" ∧ σ "i_0" = K "i_0" ∧
      σ "eps1" = K "eps1" ∧ σ "u_min" = K "u_min" ∧ σ "u_max" = K "u_max" := by
    rintro σ ⟨h1, -⟩
    simp only [circuit, List.mem_cons, List.not_mem_nil, or_false, forall_eq_or_imp, forall_eq] at h1
    tauto
  refine ⟨hab, ?_, ?_, ?_, ?_, ?_, fun t ht => ⟨hx t ht, hz t ht⟩, ?_⟩
  · intro t _ d hd
    simp only [circuit, List.mem_singleton] at hd
    subst hd
    intro σ hσ τ hτ a b ha hb hab
    have hm := hC hσ hτ ha hb hab
    simp only [id, circuit_rate]
    rw [(con _ hm).1, (con _ hm).2.1, (con _ hσ).1, (con _ hσ).2.1, (con _ hτ).1, (con _ hτ).2.1]
    simp only [Pi.add_apply, Pi.smul_apply, smul_eq_mul]
    ring
  · intro t _
    refine ⟨?_, ?_, ?_⟩
    · refine ⟨hC, fun σ hσ τ hτ a b ha hb hab => ?_⟩
      have hm := hC hσ hτ ha hb hab
      simp only [id, circuit_integrand]
      rw [(con _ hm).2.2.1, (con _ hm).2.2.2.1, (con _ hm).2.2.2.2.1, (con _ hσ).2.2.1, (con _ hσ).2.2.2.1, (con _ hσ).2.2.2.2.1,
        (con _ hτ).2.2.1, (con _ hτ).2.2.2.1, (con _ hτ).2.2.2.2.1]
      simp only [Pi.add_apply, Pi.smul_apply, smul_eq_mul]
      have e1 : b = 1 - a := by linarith
      subst e1
      have p1 := mul_nonneg hα.le (mul_nonneg (mul_nonneg ha hb) (sq_nonneg (σ "u" - τ "u")))
      have p2 := mul_nonneg hβ (mul_nonneg (mul_nonneg ha hb) (sq_nonneg (σ "i" - τ "i")))
      nlinarith
    · intro c hc h2
      simp only [circuit, List.mem_singleton] at hc
      subst hc
      cases h2
    · intro c hc _
      simp only [circuit, List.mem_singleton] at hc
      subst hc
      refine ⟨rfl, affine_sym U _ _, K "eps1", K "u_min", K "u_max", he, hl, ?_⟩
      intro σ hσ
      obtain ⟨-, -, -, -, -, c1, c2, c3⟩ := con σ hσ
      obtain ⟨-, h3, h4⟩ := hσ
      simp [eval, c1, c2, c3, h3, h4]
  · refine ⟨zero, ?_, ?_⟩
    · intro c hc _
      simp only [circuit, List.mem_cons, List.not_mem_nil, or_false] at hc
      rcases hc with rfl | rfl
      · intro σ _ τ _ a b _ _ _
        simp [eval]
        ring
      · exact affine_sym U _ _
    · intro c hc h2
      simp only [circuit, List.mem_cons, List.not_mem_nil, or_false] at hc
      rcases hc with rfl | rfl <;> cases h2
  · refine ⟨zero, ?_, ?_⟩
    · intro c hc _
      simp only [circuit, List.mem_cons, List.not_mem_nil, or_false] at hc
      rcases hc with rfl | rfl
      · exact affine_diff U _ _ _
      · exact affine_one U _ _
    · intro c hc h2
      simp only [circuit, List.mem_cons, List.not_mem_nil, or_false] at hc
      rcases hc with rfl | rfl <;> cases h2
  · intro u hu σ v w hw
    have hu : u = "u" := by simpa [circuit] using hu
    subst hu
    simp only [circuit, parts, List.cons_append, List.nil_append, List.flatMap_cons, List.flatMap_nil, Option.toList, List.append_nil,
      List.mem_cons, List.not_mem_nil, or_false] at hw
    rcases hw with rfl | rfl | rfl | rfl | rfl | rfl <;> simp [eval]
  · intro t ht s hs
    obtain ⟨h1, h3, h4⟩ := hx t ht
    have keep : ∀ r v, r ∉ circuit.constants → ∀ s ∈ circuit.constants, Function.update (x t) r v s = K s := by
      intro r v hr s hs
      rw [Function.update_of_ne (by rintro rfl; exact hr hs)]
      exact h1 s hs
    have hs : s = "i" ∨ s = "u" := by simpa [circuit] using hs
    rcases hs with rfl | rfl
    · refine Filter.Eventually.of_forall fun v => ⟨keep "i" v (by decide), ?_, ?_⟩
      · rwa [Function.update_of_ne (by decide)]
      · rwa [Function.update_of_ne (by decide)]
    · filter_upwards [eventually_gt_nhds h3, eventually_lt_nhds h4] with v k1 k2
      exact ⟨keep "u" v (by decide), by rwa [Function.update_self], by rwa [Function.update_self]⟩

/-- The competitor with the current `J` and the voltage `Z`. -/
noncomputable def driven (J Z : ℝ → ℝ) (x : ℝ → Env) (t : ℝ) : Env := fun s =>
  if s = "i" then J t else if s = "u" then Z t else x t s

/-- What an extremal of the problem with the penalty costs, if its voltage is between the bounds at some time. -/
theorem circuit_bounds {U : Name → Nat → ℝ → ℝ} {B : ℝ → ℝ → ℝ → ℝ → ℝ} (hB : Barriers B) {a b : ℝ} (hab : a < b) {x : ℝ → Env}
    {lam : ℝ → Name → ℝ} {ν₀ ν₁ : Nat → ℝ} (h : Extremal (userOcp U id B circuit) a b x lam ν₀ ν₁)
    (hpath : ContinuousOn (fun t => (userOcp U id B circuit).path (x t)) (Set.Icc a b))
    (hu : ContinuousOn (fun t => x t "u") (Set.Icc a b)) {K : Env} (hK : ∀ s ∈ circuit.constants, x a s = K s) (he : 0 < K "eps1")
    (hl : K "u_min" < K "u_max") (hα : 0 < K "lu") (hβ : 0 ≤ K "lq") {s : ℝ} (hs : s ∈ Set.Icc a b)
    (hin : K "u_min" < x s "u" ∧ x s "u" < K "u_max") :
    a = 0 ∧ b = 1 ∧ (∀ t ∈ Set.Icc a b, x t ∈ circuitSet K) ∧
      Charges (K "Rc") (K "L") (K "i_0") (K "u_min") (K "u_max") (fun t => x t "i") (fun t => x t "u") ∧
      ∀ J Z μ, 0 < μ → Charges (K "Rc") (K "L") (K "i_0") (K "u_min") (K "u_max") J Z →
        (∀ t ∈ Set.Icc (0 : ℝ) 1, K "u_min" + μ * (K "u_max" - K "u_min") ≤ Z t ∧ Z t ≤ K "u_max" - μ * (K "u_max" - K "u_min")) →
        outlay (K "lu") (K "lq") (K "i_0") (fun t => x t "i") (fun t => x t "u") ≤
          outlay (K "lu") (K "lq") (K "i_0") J Z + K "eps1" / (2 * μ) := by
  have ca : a ∈ Set.Icc a b := ⟨le_refl _, hab.le⟩
  have cb : b ∈ Set.Icc a b := ⟨hab.le, le_refl _⟩
  have cst : ∀ s ∈ circuit.constants, ∀ t ∈ Set.Icc a b, x t s = K s := fun s hs t ht => by
    rw [h.fixed s (by simpa [userOcp] using hs) t ht, hK s hs]
  have h0 := h.initial
  have h1 := h.terminal
  simp only [userOcp, circuit, Con.twoSided, List.filter, Option.isSome, Bool.and_false, Bool.not_false, List.map_cons, List.map_nil,
    List.mem_cons, List.not_mem_nil, or_false, forall_eq_or_imp, forall_eq, id, eval_sub, eval] at h0 h1
  obtain ⟨ix, it⟩ := h0
  obtain ⟨fx, ft⟩ := h1
  have ea : a = 0 := by
    rw [← h.time a ca]
    exact it
  have eb : b = 1 := by
    rw [← h.time b cb]
    have ft := ft
    norm_num at ft
    change x b "t" = 1
    linarith
  have m := h.motion
  simp only [userOcp, circuit, List.map_cons, List.map_nil, List.mem_cons, List.not_mem_nil, or_false, forall_eq, id,
    circuit_rate] at m
  have cx : ContinuousOn (fun t => x t "i") (Set.Icc a b) := fun t ht => (m t ht).continuousAt.continuousWithinAt
  have conc : ∀ s ∈ circuit.constants, ContinuousOn (fun t => x t s) (Set.Icc a b) := fun s hs =>
    (continuousOn_const (c := K s)).congr fun t ht => cst s hs t ht
  have fenced : Fenced U id circuit a b x := by
    refine ⟨?_, ?_⟩
    · simp only [circuit_integrand, id]
      exact (((conc "lu" (by decide)).mul (hu.pow 2)).div_const 2).add
        (((conc "lq" (by decide)).mul ((cx.sub (conc "i_0" (by decide))).pow 2)).div_const 2)
    · intro c hc _
      simp only [circuit, List.mem_singleton] at hc
      subst hc
      refine ⟨fun _ => hu, ⟨_, rfl, conc "eps1" (by decide), ?_⟩, _, _, rfl, rfl, conc "u_min" (by decide), conc "u_max" (by decide), ?_⟩
      · intro t ht
        change 0 < x t "eps1"
        rw [cst "eps1" (by decide) t ht]
        exact he
      · intro t ht
        simp only [id, eval]
        rw [cst "u_max" (by decide) t ht, cst "u_min" (by decide) t ht]
        exact hl
  have hold : ∀ t ∈ Set.Icc a b, K "u_min" < x t "u" ∧ x t "u" < K "u_max" := by
    have k := fenced.respected circuit_stated (circuit_completes U) hB hpath hs (by
      intro c hc _
      simp only [circuit, List.mem_singleton] at hc
      subst hc
      simp only [HoldsAt, Option.mem_def, Option.some.injEq, forall_eq', id]
      simp only [eval, cst "u_max" (by decide) s hs, cst "u_min" (by decide) s hs]
      exact ⟨fun _ => hin, hin.1.le, hin.2.le⟩)
    intro t ht
    have k2 := (k t ht _ (List.mem_singleton_self _) rfl).1 rfl _ rfl _ rfl
    simp only [id, eval] at k2
    rwa [cst "u_max" (by decide) t ht, cst "u_min" (by decide) t ht] at k2
  have inD : ∀ t ∈ Set.Icc a b, x t ∈ circuitSet K := fun t ht => ⟨fun s hs => cst s hs t ht, hold t ht⟩
  rw [cst "i_0" (by decide) a ca] at ix
  rw [cst "i_0" (by decide) b cb] at fx
  subst ea eb
  have law : ∀ t ∈ Set.Icc (0 : ℝ) 1, HasDerivAt (fun t => x t "i") (-K "Rc" / K "L" * x t "i" + x t "u" / K "L") t := by
    intro t ht
    have := m t ht
    rwa [cst "Rc" (by decide) t ht, cst "L" (by decide) t ht] at this
  refine ⟨rfl, rfl, inD, ⟨by linarith, by linarith, cx, fun t ht => (law t ⟨ht.1.le, ht.2.le⟩).hasDerivWithinAt,
    hu.aestronglyMeasurable measurableSet_Icc, fun t ht => ⟨(hold t ht).1.le, (hold t ht).2.le⟩⟩, ?_⟩
  intro J Z μ hμ hJ room
  have wide : 0 < μ * (K "u_max" - K "u_min") := mul_pos hμ (sub_pos.2 hl)
  have zD : ∀ t ∈ Set.Icc (0 : ℝ) 1, driven J Z x t ∈ circuitSet K := by
    intro t ht
    obtain ⟨r1, r2⟩ := room t ht
    refine ⟨?_, ?_, ?_⟩
    · intro s hs
      have : s ≠ "i" ∧ s ≠ "u" := by
        revert s
        decide
      simp only [driven, this.1, this.2, if_false]
      exact cst s hs t ht
    · show K "u_min" < Z t
      linarith
    · show Z t < K "u_max"
      linarith
  have hD := circuit_convex U he hl hα hβ one_pos inD zD
  obtain ⟨N, hN⟩ : ∃ N, N = |K "u_min"| + |K "u_max"| := ⟨_, rfl⟩
  have small : ∀ t ∈ Set.Icc (0 : ℝ) 1, |Z t| ≤ N := by
    intro t ht
    obtain ⟨r1, r2⟩ := hJ.bounds t ht
    rw [hN, abs_le]
    constructor <;> linarith [neg_abs_le (K "u_min"), le_abs_self (K "u_max"), abs_nonneg (K "u_min"), abs_nonneg (K "u_max")]
  have z1 : MeasureTheory.IntegrableOn (fun t => K "lu" * Z t ^ 2 / 2) (Set.Icc 0 1) := by
    refine MeasureTheory.Integrable.of_bound (C := K "lu" * N ^ 2 / 2) ?_ ?_
    · exact ((hJ.measurable.pow 2).const_mul (K "lu")).mul_const (2 : ℝ)⁻¹
    · refine (MeasureTheory.ae_restrict_iff' measurableSet_Icc).2 (Filter.Eventually.of_forall fun t ht => ?_)
      have := sq_le_sq' (by linarith [neg_abs_le (Z t), small t ht]) ((le_abs_self _).trans (small t ht))
      rw [Real.norm_eq_abs, abs_of_nonneg (by positivity)]
      have := mul_le_mul_of_nonneg_left this hα.le
      linarith
  have z2 : MeasureTheory.IntegrableOn (fun t => K "lq" * (J t - K "i_0") ^ 2 / 2) (Set.Icc 0 1) :=
    ContinuousOn.integrableOn_Icc (((continuousOn_const.mul ((hJ.continuous.sub continuousOn_const).pow 2)).div_const 2))
  have z3 : MeasureTheory.IntegrableOn (fun t => B (K "eps1") (K "u_min") (K "u_max") (Z t)) (Set.Icc 0 1) := by
    refine MeasureTheory.Integrable.of_bound (C := K "eps1" / (2 * μ)) ?_ ?_
    · have e1 : (fun t => B (K "eps1") (K "u_min") (K "u_max") (Z t)) = fun t => (fun v => K "eps1" *
          (1 / Real.cos (Real.pi / 2 * (2 * v - K "u_max" - K "u_min") / (K "u_max" - K "u_min")) - 1)) (Z t) :=
        funext fun t => hB.secant _ _ _ _
      rw [e1]
      have mg : Measurable fun v : ℝ => K "eps1" *
          (1 / Real.cos (Real.pi / 2 * (2 * v - K "u_max" - K "u_min") / (K "u_max" - K "u_min")) - 1) := by fun_prop
      exact (mg.comp_aemeasurable hJ.measurable.aemeasurable).aestronglyMeasurable
    · refine (MeasureTheory.ae_restrict_iff' measurableSet_Icc).2 (Filter.Eventually.of_forall fun t ht => ?_)
      obtain ⟨r1, r2⟩ := room t ht
      rw [Real.norm_eq_abs, abs_of_nonneg ((hB.barrier _ _ _ he hl).nonneg _ (by linarith) (by linarith))]
      exact hB.bound _ _ _ _ _ he.le hl hμ r1 r2
  have same : ∀ s ∈ circuit.constants, ∀ t ∈ Set.Icc (0 : ℝ) 1, driven J Z x t s = K s := fun s hs t ht => (zD t ht).1 s hs
  have zpath : MeasureTheory.IntegrableOn (fun t => (userOcp U id B circuit).path (driven J Z x t)) (Set.Icc 0 1) := by
    refine ((z1.add z2).add z3).congr_fun (fun t ht => ?_) measurableSet_Icc
    rw [circuit_path, same "lu" (by decide) t ht, same "lq" (by decide) t ht, same "i_0" (by decide) t ht, same "eps1" (by decide) t ht,
      same "u_min" (by decide) t ht, same "u_max" (by decide) t ht]
    simp [driven]
  have adm : Admissible (userOcp U id B circuit) 0 1 x (driven J Z x) := by
    refine ⟨?_, ?_, ?_, ?_, ?_, zpath⟩
    · intro t _ s hs
      have : s ≠ "i" ∧ s ≠ "u" := by
        simpa [Ocp.states, userOcp, circuit, epsControls, not_or] using hs
      simp [driven, this.1, this.2]
    · intro r hr
      simp only [userOcp, circuit, List.map_cons, List.map_nil, List.mem_cons, List.not_mem_nil, or_false] at hr
      subst hr
      simpa [driven] using hJ.continuous
    · intro r hr t ht
      simp only [userOcp, circuit, List.map_cons, List.map_nil, List.mem_cons, List.not_mem_nil, or_false] at hr
      subst hr
      have hI : t ∈ Set.Icc (0 : ℝ) 1 := ⟨ht.1.le, ht.2.le⟩
      simp only [id, circuit_rate]
      rw [same "Rc" (by decide) t hI, same "L" (by decide) t hI]
      simpa [driven] using hJ.law t ht
    · intro c hc
      simp only [userOcp, circuit, Con.twoSided, List.filter, Option.isSome, Bool.and_false, Bool.not_false, List.map_cons,
        List.map_nil, List.mem_cons, List.not_mem_nil, or_false] at hc
      rcases hc with rfl | rfl
      · simp [eval, driven, hJ.start, cst "i_0" (by decide) 0 ca]
      · simpa [eval, driven] using it
    · intro c hc
      simp only [userOcp, circuit, Con.twoSided, List.filter, Option.isSome, Bool.and_false, Bool.not_false, List.map_cons,
        List.map_nil, List.mem_cons, List.not_mem_nil, or_false] at hc
      rcases hc with rfl | rfl
      · simp [eval, driven, hJ.stop, cst "i_0" (by decide) 1 cb]
      · simpa [eval, driven] using ft
  have best := h.minimum zero_le_one (nodup_of_stated hD circuit_stated B) adm (hD.along circuit_stated hB lam ν₀ ν₁)
    hpath.integrableOn_Icc
  have zcost : MeasureTheory.IntegrableOn (fun t => eval (real U) (id (driven J Z x t)) circuit.costPath) (Set.Icc 0 1) := by
    refine (z1.add z2).congr_fun (fun t ht => ?_) measurableSet_Icc
    simp only [id, circuit_integrand]
    rw [same "lu" (by decide) t ht, same "lq" (by decide) t ht, same "i_0" (by decide) t ht]
    simp [driven]
  have roomy : Roomy U id circuit (K "eps1") μ 0 1 (driven J Z x) := by
    refine ⟨he.le, hμ, ?_, ?_, ?_, zcost⟩
    · intro t ht c hc _
      simp only [circuit, List.mem_singleton] at hc
      subst hc
      have ht : t ∈ Set.Icc (0 : ℝ) 1 := ⟨ht.1.le, ht.2.le⟩
      simp only [RoomAt, Option.mem_def, Option.some.injEq, forall_eq', id]
      simp only [eval, same "eps1" (by decide) t ht, same "u_min" (by decide) t ht, same "u_max" (by decide) t ht]
      exact ⟨le_refl _, room t ht⟩
    · intro c hc h2
      simp only [circuit, List.mem_cons, List.not_mem_nil, or_false] at hc
      rcases hc with rfl | rfl <;> cases h2
    · intro c hc h2
      simp only [circuit, List.mem_cons, List.not_mem_nil, or_false] at hc
      rcases hc with rfl | rfl <;> cases h2
  have res := (hD.stated hB roomy hpath.integrableOn_Icc fenced.cost.integrableOn_Icc zpath (err := 0) (by simpa using best)).2
  have cost : ∀ z : ℝ → Env, (∀ s ∈ circuit.constants, ∀ t ∈ Set.Icc (0 : ℝ) 1, z t s = K s) →
      statedCost U id circuit 0 1 z = outlay (K "lu") (K "lq") (K "i_0") (fun t => z t "i") (fun t => z t "u") := by
    intro z hz
    have e : statedCost U id circuit 0 1 z = ∫ t in (0 : ℝ)..1, eval (real U) (z t) circuit.costPath := by
      simp [statedCost, circuit, eval]
    rw [e, outlay]
    refine intervalIntegral.integral_congr fun t ht => ?_
    rw [Set.uIcc_of_le zero_le_one] at ht
    rw [circuit_integrand, hz "lu" (by decide) t ht, hz "lq" (by decide) t ht, hz "i_0" (by decide) t ht]
  rw [cost x cst, cost _ same] at res
  have e3 : burden circuit 0 1 = 1 := by
    simp [burden, circuit, Con.twoSided]
  rw [e3, mul_one, add_zero] at res
  simpa [driven] using res

/-- What one run on the example returns, in the words of `circuit_bounds`. -/
theorem circuit_run {S : Sympy} (hL : LuSound S) {o : Opts} {p' q : Prob} (hm : o.momentumShift = true) (hd : o.method ≠ .other)
    (hS : o.controlMethod = .algebraic → SolveSound S) (h : indirect S o circuit = .ok p') (hq : primal S circuit = .ok q)
    {U : Name → Nat → ℝ → ℝ} {a b : ℝ} {y : ℝ → List ℝ} {pr k : List ℝ} {ρ : ℝ → Env} {s s' : Sol ℝ}
    (hr : MappedBack S o circuit p' q U a b y pr k ρ s s') {m M i₀ R L α β e : ℝ} (hk : s'.const = [m, M, i₀, R, L, α, β, e]) (hl : m < M)
    (hα : 0 < α) (hβ : 0 ≤ β) (he : 0 < e) (hin : ∀ n l, s'.u = .rows n l → ∃ row ∈ l, ∃ v ∈ row, m < v ∧ v < M) :
    s'.t.head? = some 0 ∧ s'.t.getLast? = some 1 ∧ ∃ K : Env, circuit.constants.map K = [m, M, i₀, R, L, α, β, e] ∧
      (∀ t ∈ Set.Icc (0 : ℝ) 1, ρ (a + t * (b - a)) ∈ circuitSet K) ∧
      ∃ I W, Charges R L i₀ m M I W ∧ (∀ t ∈ Set.Icc (0 : ℝ) 1, m < W t ∧ W t < M) ∧ s'.y = .rows 1 (s'.t.map fun t => [I t]) ∧
        s'.u = .rows 1 (s'.t.map fun t => [W t]) ∧ ∀ J Z μ, 0 < μ → Charges R L i₀ m M J Z →
          (∀ t ∈ Set.Icc (0 : ℝ) 1, m + μ * (M - m) ≤ Z t ∧ Z t ≤ M - μ * (M - m)) →
          outlay α β i₀ I W ≤ outlay α β i₀ J Z + e / (2 * μ) := by
  obtain ⟨-, B, -, hB, -⟩ := C73_returned_partial hL circuit_stated hm hd hS h
  obtain ⟨t₀, c, x, lam, ν₀, ν₁, c1, c2, c3, c4, c5, c6, c7, -, c9, c10⟩ := hr.curve hL circuit_stated hm hd hS h hq hB
    (circuit_completes U)
  have hlt : t₀ < t₀ + c * (b - a) := by nlinarith [mul_pos c1 (sub_pos.2 hr.lt)]
  have hcon := c3.constants t₀ (List.mem_of_mem_head? c5)
  rw [hk] at hcon
  have hval := hcon
  simp only [circuit, List.map_cons, List.map_nil, List.cons.injEq, and_true] at hval
  obtain ⟨k1, k2, k3, k4, k5, k6, k7, k8⟩ := hval
  obtain ⟨row, hrow, v, hv, v1, v2⟩ := hin _ _ c3.controls
  obtain ⟨τ, hτ, rfl⟩ := List.mem_map.1 hrow
  have hv : v = x τ "u" := by simpa [circuit] using hv
  subst hv
  obtain ⟨r1, r2, r3, r4, r5⟩ := circuit_bounds hB hlt c2 c9 (c10 "u" (by simp [circuit])) (K := x t₀) (fun _ _ => rfl)
    (by rw [k8]; exact he) (by rw [k1, k2]; exact hl) (by rw [k6]; exact hα) (by rw [k7]; exact hβ) (c7 τ hτ)
    (by rw [k1, k2]; exact ⟨v1, v2⟩)
  rw [k1, k2, k3, k4, k5] at r4
  rw [k1, k2, k3, k4, k5, k6, k7, k8] at r5
  rw [r2] at c6 r3
  rw [r1] at c5 r2
  refine ⟨c5, c6, x t₀, hcon, ?_, fun t => x t "i", fun t => x t "u", r4, ?_, c3.states, c3.controls, r5⟩
  · intro t ht
    have hx : ρ (a + t * (b - a)) = x t := by
      rw [c4.curve, r1]
      congr 2
      have := c1.ne'
      rw [sub_zero, eq_div_iff this]
      linear_combination t * r2
    rw [hx]
    exact r3 t (by rw [r1]; exact ht)
  · intro t ht
    have := (r3 t (by rw [r1]; exact ht)).2
    rwa [k1, k2] at this

theorem circuit_strict (U : Name → Nat → ℝ → ℝ) {K : Env} (he : 0 < K "eps1") (hl : K "u_min" < K "u_max") (hα : 0 < K "lu")
    (hβ : 0 ≤ K "lq") {x z : ℝ → Env} (hx : ∀ t ∈ Set.Icc (0 : ℝ) 1, x t ∈ circuitSet K)
    (hz : ∀ t ∈ Set.Icc (0 : ℝ) 1, z t ∈ circuitSet K) : StrictlyConvex U id circuit (fun _ => circuitSet K) 0 1 x z := by
  have only' : ∀ {w : ℝ → Env}, (∀ t ∈ Set.Icc (0 : ℝ) 1, w t ∈ circuitSet K) →
      ∀ t ∈ Set.Icc (0 : ℝ) 1, only (declared circuit) (w t) ∈ circuitSet K := by
    intro w hw t ht
    obtain ⟨h1, h2, h3⟩ := hw t ht
    refine ⟨fun s hs => ?_, ?_, ?_⟩
    · rw [← h1 s hs]
      have : s ∈ declared circuit := List.mem_cons_of_mem _ (List.mem_append_right _ hs)
      simp [only, this]
    · simpa [only, declared, circuit] using h2
    · simpa [only, declared, circuit] using h3
  have con : ∀ σ ∈ circuitSet K, σ "Rc" = K "Rc" ∧ σ "L" = K "L" ∧ σ "lu" = K "lu" ∧ σ "lq" = K "lq" ∧ σ "i_0" = K "i_0" := by
    rintro σ ⟨h1, -⟩
    simp only [circuit, List.mem_cons, List.not_mem_nil, or_false, forall_eq_or_imp, forall_eq] at h1
    tauto
  refine ⟨circuit_convex U he hl hα hβ one_pos (only' hx) (only' hz), circuit_convex U he hl hα hβ one_pos (only' hz) (only' hx), ?_, ?_, ?_⟩
  · intro t _ σ hσ τ hτ h
    have hu : σ "u" ≠ τ "u" := by simpa [circuit] using h
    have hm := circuitSet_convex K hσ hτ (show (0 : ℝ) ≤ 1 / 2 by norm_num) (show (0 : ℝ) ≤ 1 / 2 by norm_num) (by norm_num)
    simp only [id, circuit_integrand]
    obtain ⟨-, -, a1, a2, a3⟩ := con _ hm
    obtain ⟨-, -, b1, b2, b3⟩ := con _ hσ
    obtain ⟨-, -, d1, d2, d3⟩ := con _ hτ
    rw [a1, a2, a3, b1, b2, b3, d1, d2, d3]
    simp only [Pi.add_apply, Pi.smul_apply, smul_eq_mul]
    have p1 := mul_pos hα (mul_self_pos.2 (sub_ne_zero.2 hu))
    have p2 := mul_nonneg hβ (mul_self_nonneg (σ "i" - τ "i"))
    nlinarith
  · intro σ hσ τ hτ _ h d hd
    obtain ⟨h1, h2⟩ := h { expr := sym "i" + sym "i_0" } (by simp [circuit]) rfl
    simp only [eval, id] at h1 h2
    simp only [circuit, List.mem_singleton] at hd
    subst hd
    dsimp only
    have := (con _ hσ).2.2.2.2
    have := (con _ hτ).2.2.2.2
    linarith
  · refine ⟨|K "Rc" / K "L"|, ?_⟩
    intro t _ σ hσ τ hτ h d hd
    have k := h "u" (by simp [circuit])
    simp only [circuit, List.mem_singleton] at hd
    subst hd
    simp only [circuit, List.map_cons, List.map_nil, List.sum_cons, List.sum_nil, add_zero]
    simp only [id, circuit_rate]
    rw [(con _ hσ).1, (con _ hσ).2.1, (con _ hτ).1, (con _ hτ).2.1, k, ← abs_mul, ← abs_neg]
    refine le_of_eq ?_
    congr 1
    ring

/-! ### Properties -/

/-- Whatever beluga returns for the one-loop circuit, for all values of the constants: if the numerical solution solves the boundary value
problem and one of the returned voltages lies between the bounds, the returned tables are samples of a current and a voltage that obey the
law of the circuit, reverse the current and never touch the bounds; and their cost exceeds that of no other voltage by more than the
activator divided by twice the fraction of the interval that the other one keeps away from the bounds. -/
theorem C100_returned {S : Sympy} (hL : LuSound S) {o : Opts} {p' : Prob} (hm : o.momentumShift = true) (hd : o.method ≠ .other)
    (hS : o.controlMethod = .algebraic → SolveSound S) (h : indirect S o circuit = .ok p') :
    ∃ q, primal S circuit = .ok q ∧ ∀ U a b y pr k ρ s s', MappedBack S o circuit p' q U a b y pr k ρ s s' →
      ∀ m M i₀ R L α β e, s'.const = [m, M, i₀, R, L, α, β, e] → m < M → 0 < α → 0 ≤ β → 0 < e →
      (∀ n l, s'.u = .rows n l → ∃ row ∈ l, ∃ v ∈ row, m < v ∧ v < M) →
      ∃ I W, Charges R L i₀ m M I W ∧ (∀ t ∈ Set.Icc (0 : ℝ) 1, m < W t ∧ W t < M) ∧ s'.t.head? = some 0 ∧ s'.t.getLast? = some 1 ∧
        s'.y = .rows 1 (s'.t.map fun t => [I t]) ∧ s'.u = .rows 1 (s'.t.map fun t => [W t]) ∧
        ∀ J Z μ, 0 < μ → Charges R L i₀ m M J Z → (∀ t ∈ Set.Icc (0 : ℝ) 1, m + μ * (M - m) ≤ Z t ∧ Z t ≤ M - μ * (M - m)) →
          outlay α β i₀ I W ≤ outlay α β i₀ J Z + e / (2 * μ) := by
  obtain ⟨q, -, hq, -, -⟩ := C73_returned_partial hL circuit_stated hm hd hS h
  refine ⟨q, hq, ?_⟩
  intro U a b y pr k ρ s s' hr m M i₀ R L α β e hk hl hα hβ he hin
  obtain ⟨t0, t1, -, -, -, I, W, k1, k2, k3, k4, k5⟩ := circuit_run hL hm hd hS h hq hr hk hl hα hβ he hin
  exact ⟨I, W, k1, k2, t0, t1, k3, k4, k5⟩

/-- All exact solutions of the one-loop circuit example with the same constants, of which one voltage lies between the bounds, come back as
samples of one curve. -/
theorem C100_unique {S S2 : Sympy} (hL : LuSound S) (hL2 : LuSound S2) {o o2 : Opts} {p' p2' : Prob} (hm : o.momentumShift = true)
    (hm2 : o2.momentumShift = true) (hd : o.method ≠ .other) (hd2 : o2.method ≠ .other)
    (hS : o.controlMethod = .algebraic → SolveSound S) (hS2 : o2.controlMethod = .algebraic → SolveSound S2)
    (h : indirect S o circuit = .ok p') (h2 : indirect S2 o2 circuit = .ok p2') :
    ∃ q q2, primal S circuit = .ok q ∧ primal S2 circuit = .ok q2 ∧
      ∀ U a b y pr k ρ s s' a2 b2 y2 pr2 k2 ρ2 s2 s2',
      MappedBack S o circuit p' q U a b y pr k ρ s s' → MappedBack S2 o2 circuit p2' q2 U a2 b2 y2 pr2 k2 ρ2 s2 s2' →
      ∀ m M i₀ R L α β e, s'.const = [m, M, i₀, R, L, α, β, e] → s2'.const = [m, M, i₀, R, L, α, β, e] → m < M → 0 < α → 0 ≤ β → 0 < e →
      (∀ n l, s'.u = .rows n l → ∃ row ∈ l, ∃ v ∈ row, m < v ∧ v < M) → (∀ n l, s2'.u = .rows n l → ∃ row ∈ l, ∃ v ∈ row, m < v ∧ v < M) →
      ∃ X W, Sampled circuit X W s' ∧ Sampled circuit X W s2' := by
  obtain ⟨q, q2, hq, hq2, key⟩ := C96_returned_partial hL hL2 circuit_stated circuit_whole hm hm2 hd hd2 hS hS2 h h2
  refine ⟨q, q2, hq, hq2, ?_⟩
  intro U a b y pr k ρ s s' a2 b2 y2 pr2 k2 ρ2 s2 s2' hr hr2 m M i₀ R L α β e hk hk2 hl hα hβ he hin hin2
  obtain ⟨f1, f2, K, hK, f3, -⟩ := circuit_run hL hm hd hS h hq hr hk hl hα hβ he hin
  obtain ⟨g1, g2, K2, hK2, g3, -⟩ := circuit_run hL2 hm2 hd2 hS2 h2 hq2 hr2 hk2 hl hα hβ he hin2
  obtain ⟨t₀, t₁, x, x2, lam, lam2, k1, k2, -, -, -, k6, k7⟩ := key U id (circuit_completes U) _ _ _ _ _ _ _ _ _ _ _ _ _ _ _ _ hr hr2
    (by rw [f1, g1]) (by rw [f2, g2]) (by rw [hk, hk2])
  rw [f1] at k1
  rw [f2] at k2
  cases k1
  cases k2
  simp only [sub_zero, div_one] at k6
  have same : circuitSet K2 = circuitSet K := by
    have e : ∀ s ∈ circuit.constants, K2 s = K s := List.map_inj_left.1 (hK2.trans hK.symm)
    ext σ
    simp only [circuitSet, Set.mem_ofPred_eq]
    rw [e "u_min" (by decide), e "u_max" (by decide)]
    refine and_congr_left fun _ => forall₂_congr fun s hs => ?_
    rw [e s hs]
  rw [same] at g3
  simp only [circuit, List.map_cons, List.map_nil, List.cons.injEq, and_true] at hK
  obtain ⟨e1, e2, e3, e4, e5, e6, e7, e8⟩ := hK
  exact (k7 _ (circuit_strict U (K := K) (by rw [e8]; exact he) (by rw [e1, e2]; exact hl) (by rw [e6]; exact hα) (by rw [e7]; exact hβ)
    (fun t ht => by rw [(k6 t).1]; exact f3 t ht) fun t ht => by rw [(k6 t).2]; exact g3 t ht)).2

/-- With the resistance, the inductance and the bounds of the example and `i_0 = 1`
(examples/ElectricityAndMagnetism/OneLoopCircuit/OneLoopCircuit.py:10-34) there is a constant voltage that reverses the current and keeps a
quarter of the interval away from the bounds; so the cost of the returned one is at most twice the activator higher. -/
theorem circuit_steady : ∃ J Z, Charges 145 3.5 1 (-300) 300 J Z ∧ ∀ t ∈ Set.Icc (0 : ℝ) 1, -300 + 1 / 4 * (300 - -300) ≤ Z t ∧ Z t ≤ 300 - 1 / 4 * (300 - -300) := by
  obtain ⟨q, hq⟩ : ∃ q, q = Real.exp (-145 / 3.5) := ⟨_, rfl⟩
  have q0 : 0 < q := by rw [hq]; exact Real.exp_pos _
  have q1 : q ≤ 1 / 59 := by
    have h1 := Real.quadratic_le_exp_of_nonneg (show (0 : ℝ) ≤ 145 / 3.5 by norm_num)
    rw [hq, neg_div, Real.exp_neg, ← one_div]
    refine one_div_le_one_div_of_le (by norm_num) (le_trans ?_ h1)
    norm_num
  obtain ⟨w, hw⟩ : ∃ w, w = 145 * (1 + q) / (1 - q) := ⟨_, rfl⟩
  have w0 : 0 ≤ w := by
    rw [hw]
    exact div_nonneg (by linarith) (by linarith)
  have w1 : w ≤ 150 := by
    rw [hw, div_le_iff₀ (by linarith)]
    linarith
  have d : ∀ t : ℝ, HasDerivAt (fun t => w / 145 + (-1 - w / 145) * Real.exp (-145 / 3.5 * t))
      (-145 / 3.5 * (w / 145 + (-1 - w / 145) * Real.exp (-145 / 3.5 * t)) + w / 3.5) t := by
    intro t
    have := (((((hasDerivAt_id t).const_mul (-145 / 3.5)).exp).const_mul (-1 - w / 145)).const_add (w / 145))
    refine this.congr_deriv ?_
    simp only [id]
    ring
  refine ⟨fun t => w / 145 + (-1 - w / 145) * Real.exp (-145 / 3.5 * t), fun _ => w, ⟨?_, ?_, ?_, fun t _ => (d t).hasDerivWithinAt,
    MeasureTheory.aestronglyMeasurable_const, fun _ _ => ⟨by linarith, by linarith⟩⟩, fun _ _ => ⟨by linarith, by linarith⟩⟩
  · simp
  · simp only [mul_one]
    rw [← hq, hw]
    have : 1 - q ≠ 0 := by linarith
    field_simp
    ring
  · exact fun t _ => (d t).continuousAt.continuousWithinAt

end Beluga.E2E
