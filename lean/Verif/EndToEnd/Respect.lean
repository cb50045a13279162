import Verif.EndToEnd.Hard

/-!
# Constraints on the path are not crossed

The penalty that replaces a two-sided constraint on the path grows beyond all bounds at its bounds.  So a solution along which the cost
is defined, and which satisfies the constraints at one of its points, satisfies them everywhere.  But the penalty is periodic: beyond the
bounds it is finite again, and a solution that lies outside of the bounds is as good for the solvers as one inside.
-/

namespace Beluga.E2E

open Beluga.Sym Beluga.Sym.Expr Beluga.Num Beluga.Map Beluga.Opt Beluga.Rep
open Beluga.Shoot (lastT)

/-! ### Specification -/

/-- At a time all two-sided constraints on the path hold, those with the method 'utm' strictly. -/
def PathHolds (U : Name → Nat → ℝ → ℝ) (Q : Env → Env) (p : Prob) (x : ℝ → Env) (t : ℝ) : Prop :=
  ∀ c ∈ p.path, c.twoSided = true → (c.method = .utm → HoldsAt U Q (x t) c) ∧
    ∀ lo ∈ c.lower, ∀ hi ∈ c.upper, eval (real U) (Q (x t)) lo ≤ eval (real U) (Q (x t)) c.expr ∧
      eval (real U) (Q (x t)) c.expr ≤ eval (real U) (Q (x t)) hi

/-- Between `a` and `b`, the two-sided constraints on the path have a positive activator and a lower bound below the upper one, and these,
like the stated running cost and what is bounded with the method 'utm', change continuously. -/
structure Fenced (U : Name → Nat → ℝ → ℝ) (Q : Env → Env) (p : Prob) (a b : ℝ) (x : ℝ → Env) : Prop where
  cost : ContinuousOn (fun t => eval (real U) (Q (x t)) p.costPath) (Set.Icc a b)
  bounds : ∀ c ∈ p.path, c.twoSided = true →
    (c.method = .utm → ContinuousOn (fun t => eval (real U) (Q (x t)) c.expr) (Set.Icc a b)) ∧
    (∃ e, c.activator = some e ∧ ContinuousOn (fun t => eval (real U) (Q (x t)) e) (Set.Icc a b) ∧
      ∀ t ∈ Set.Icc a b, 0 < eval (real U) (Q (x t)) e) ∧
    ∃ lo hi, c.lower = some lo ∧ c.upper = some hi ∧ ContinuousOn (fun t => eval (real U) (Q (x t)) lo) (Set.Icc a b) ∧
      ContinuousOn (fun t => eval (real U) (Q (x t)) hi) (Set.Icc a b) ∧
      ∀ t ∈ Set.Icc a b, eval (real U) (Q (x t)) lo < eval (real U) (Q (x t)) hi

/-! ### Lemmas -/

/-- Where a barrier is at most `M`, there is a distance from the bounds. -/
theorem _root_.Beluga.Sym.IsBarrier.gap {lo hi : ℝ} {B : ℝ → ℝ} (h : IsBarrier lo hi B) (M : ℝ) :
    ∃ l u, lo < l ∧ u < hi ∧ ∀ v, lo < v → v < hi → B v ≤ M → l ≤ v ∧ v ≤ u := by
  have h1 := h.top.eventually (Filter.eventually_gt_atTop M)
  have h2 := h.bottom.eventually (Filter.eventually_gt_atTop M)
  obtain ⟨u, hu, hu'⟩ := mem_nhdsLT_iff_exists_Ioo_subset.1 h1
  obtain ⟨l, hl, hl'⟩ := mem_nhdsGT_iff_exists_Ioo_subset.1 h2
  refine ⟨l, u, hl, hu, fun v h3 h4 h5 => ⟨?_, ?_⟩⟩
  · by_contra hc
    have : M < B v := hl' ⟨h3, not_le.1 hc⟩
    linarith
  · by_contra hc
    have : M < B v := hu' ⟨not_le.1 hc, h4⟩
    linarith

/-- Continuous functions that start between their bounds stay there, if the sum of barriers stays bounded. -/
theorem stay {α : Type} (l : List α) (lo hi : α → ℝ) (W : α → ℝ → ℝ) (g : α → ℝ → ℝ) {a b M : ℝ}
    (hW : ∀ c ∈ l, IsBarrier (lo c) (hi c) (W c)) (hg : ∀ c ∈ l, ContinuousOn (g c) (Set.Icc a b))
    (hM : ∀ t ∈ Set.Icc a b, (∀ c ∈ l, lo c < g c t ∧ g c t < hi c) → (l.map fun c => W c (g c t)).sum ≤ M) (h : ∀ c ∈ l, lo c < g c a ∧ g c a < hi c) :
    ∀ t ∈ Set.Icc a b, ∀ c ∈ l, lo c < g c t ∧ g c t < hi c := by
  have hgap : ∀ c, ∃ l' u, c ∈ l → lo c < l' ∧ u < hi c ∧ ∀ v, lo c < v → v < hi c → W c v ≤ M → l' ≤ v ∧ v ≤ u := by
    intro c
    by_cases hc : c ∈ l
    · obtain ⟨l', u, h⟩ := (hW c hc).gap M
      exact ⟨l', u, fun _ => h⟩
    · exact ⟨0, 0, fun h => absurd h hc⟩
  choose lw up hgap using hgap
  have heq : {t | ∀ c ∈ l, lo c < g c t ∧ g c t < hi c} ∩ Set.Icc a b =
      Set.Icc a b ∩ ⋂ c, ⋂ (_ : c ∈ l), (Set.Icc a b ∩ g c ⁻¹' Set.Icc (lw c) (up c)) := by
    ext t
    simp only [Set.mem_inter_iff, Set.mem_ofPred_eq, Set.mem_iInter, Set.mem_preimage]
    constructor
    · rintro ⟨h1, h2⟩
      refine ⟨h2, fun c hc => ⟨h2, ?_⟩⟩
      have h3 := hM t h2 h1
      have h4 : W c (g c t) ≤ (l.map fun c => W c (g c t)).sum := by
        refine List.single_le_sum ?_ _ (List.mem_map_of_mem hc)
        intro y hy
        obtain ⟨d, hd, rfl⟩ := List.mem_map.1 hy
        exact (hW d hd).nonneg _ (h1 d hd).1 (h1 d hd).2
      exact (hgap c hc).2.2 _ (h1 c hc).1 (h1 c hc).2 (h4.trans h3)
    · rintro ⟨h2, h1⟩
      refine ⟨fun c hc => ?_, h2⟩
      have h3 := (h1 c hc).2
      exact ⟨(hgap c hc).1.trans_le h3.1, h3.2.trans_lt (hgap c hc).2.1⟩
  have hclosed : IsClosed ({t | ∀ c ∈ l, lo c < g c t ∧ g c t < hi c} ∩ Set.Icc a b) := by
    rw [heq]
    refine isClosed_Icc.inter (isClosed_iInter fun c => isClosed_iInter fun hc => ?_)
    exact (hg c hc).preimage_isClosed_of_isClosed isClosed_Icc isClosed_Icc
  have := hclosed.Icc_subset_of_forall_mem_nhdsWithin (by simpa using h) (fun t ht => ?_)
  · exact fun t ht => this ht
  · have hall : ∀ᶠ τ in nhdsWithin t (Set.Ioi t), ∀ c ∈ {c | c ∈ l}, lo c < g c τ ∧ g c τ < hi c := by
      rw [Filter.eventually_all_finite (List.finite_toSet l)]
      intro c hc
      have h1 : Filter.Tendsto (g c) (nhdsWithin t (Set.Ioi t)) (nhds (g c t)) :=
        ((hg c hc) t ⟨ht.2.1, ht.2.2.le⟩).mono_left (nhdsWithin_le_of_mem (Icc_mem_nhdsGT_of_mem ht.2))
      have h2 := ht.1 c hc
      exact h1.eventually (Ioo_mem_nhds h2.1 h2.2)
    exact hall

/-- The same from any point on, in both directions. -/
theorem stay_both {α : Type} (l : List α) (lo hi : α → ℝ) (W : α → ℝ → ℝ) (g : α → ℝ → ℝ) {a b M s : ℝ} (hs : s ∈ Set.Icc a b)
    (hW : ∀ c ∈ l, IsBarrier (lo c) (hi c) (W c)) (hg : ∀ c ∈ l, ContinuousOn (g c) (Set.Icc a b))
    (hM : ∀ t ∈ Set.Icc a b, (∀ c ∈ l, lo c < g c t ∧ g c t < hi c) → (l.map fun c => W c (g c t)).sum ≤ M) (h : ∀ c ∈ l, lo c < g c s ∧ g c s < hi c) :
    ∀ t ∈ Set.Icc a b, ∀ c ∈ l, lo c < g c t ∧ g c t < hi c := by
  intro t ht
  rcases le_total s t with hst | hst
  · exact stay l lo hi W g (a := s) (b := b) hW (fun c hc => (hg c hc).mono (Set.Icc_subset_Icc_left hs.1))
      (fun τ hτ => hM τ ⟨hs.1.trans hτ.1, hτ.2⟩) h t ⟨hst, ht.2⟩
  · have := stay l lo hi W (fun c τ => g c (-τ)) (a := -s) (b := -a) (M := M) hW (fun c hc =>
      (hg c hc).comp continuous_neg.continuousOn fun τ hτ => ⟨by linarith [hτ.2], by linarith [hτ.1, hs.2]⟩)
      (fun τ hτ => hM (-τ) ⟨by linarith [hτ.2], by linarith [hτ.1, hs.2]⟩) (by simpa using h) (-t) ⟨by linarith, by linarith [ht.1]⟩
    simpa using this

/-- Where a value lies between its bounds, on the scale from -1 to 1. -/
theorem scaled_between {lo hi v : ℝ} (h : lo < hi) :
    (-1 < (2 * v - hi - lo) / (hi - lo) ∧ (2 * v - hi - lo) / (hi - lo) < 1) ↔ lo < v ∧ v < hi := by
  have h0 : 0 < hi - lo := sub_pos.2 h
  rw [lt_div_iff₀ h0, div_lt_iff₀ h0]
  constructor <;> rintro ⟨h1, h2⟩ <;> constructor <;> linarith

/-- The penalty depends on the position between the bounds only. -/
theorem _root_.Beluga.Sym.Barriers.scaled {B : ℝ → ℝ → ℝ → ℝ → ℝ} (hB : Barriers B) (κ lo hi v : ℝ) :
    B κ lo hi v = B κ (-1) 1 ((2 * v - hi - lo) / (hi - lo)) := by
  rw [hB.secant, hB.secant]
  congr 4
  ring

theorem sum_filter {α : Type} (P : α → Bool) (A m : α → ℝ) : ∀ l : List α,
    (l.map fun c => if P c then A c else m c).sum = ((l.filter P).map A).sum + ((l.filter fun c => !P c).map m).sum
  | [] => by simp
  | c :: l => by
    rw [List.map_cons, List.sum_cons, sum_filter P A m l, List.filter_cons, List.filter_cons]
    cases P c <;> simp <;> ring

/-- Whatever the new control is, the bounded one lies between the bounds. -/
theorem sin_between {lo hi s v : ℝ} (h : lo < hi) (hv : v = (hi - lo) / 2 * Real.sin s + (hi + lo) / 2) : lo ≤ v ∧ v ≤ hi := by
  have h1 := Real.neg_one_le_sin s
  have h2 := Real.sin_le_one s
  subst hv
  constructor <;> nlinarith

theorem Fenced.respected {U : Name → Nat → ℝ → ℝ} {Q : Env → Env} {p : Prob} {B : ℝ → ℝ → ℝ → ℝ → ℝ} {a b : ℝ} {x : ℝ → Env}
    (hF : Fenced U Q p a b x) (hp : Stated p) (hQ : Completes U p Q) (hB : Barriers B)
    (hx : ContinuousOn (fun t => (userOcp U Q B p).path (x t)) (Set.Icc a b)) {s : ℝ}
    (hs : s ∈ Set.Icc a b) (h : PathHolds U Q p x s) : ∀ t ∈ Set.Icc a b, PathHolds U Q p x t := by
  set L := p.path.filter Con.twoSided with hLd
  set P : Con → Bool := fun c => c.method = .utm with hP
  have hdata : ∀ c : Con, ∃ (κ : ℝ) (g : ℝ → ℝ), c ∈ L → c.method = .utm → 0 < κ ∧ ContinuousOn g (Set.Icc a b) ∧
      ∀ t ∈ Set.Icc a b, (-1 < g t ∧ g t < 1 → B κ (-1) 1 (g t) ≤ penalty B U (Q (x t)) c) ∧
      (HoldsAt U Q (x t) c ↔ -1 < g t ∧ g t < 1) := by
    intro c
    by_cases hc : c ∈ L ∧ c.method = .utm
    · obtain ⟨hc, hm⟩ := hc
      obtain ⟨h1, h2⟩ := List.mem_filter.1 hc
      obtain ⟨hcont, ⟨ea, e1, e2, e3⟩, el, eh, e4, e5, e6, e7, e8⟩ := hF.bounds c h1 h2
      obtain ⟨τ, hτ, hmin⟩ := isCompact_Icc.exists_isMinOn ⟨s, hs⟩ e2
      refine ⟨eval (real U) (Q (x τ)) ea, fun t => (2 * eval (real U) (Q (x t)) c.expr - eval (real U) (Q (x t)) eh -
        eval (real U) (Q (x t)) el) / (eval (real U) (Q (x t)) eh - eval (real U) (Q (x t)) el), fun _ _ =>
          ⟨e3 τ hτ, ?_, fun t ht => ⟨?_, ?_⟩⟩⟩
      · exact (((continuousOn_const.mul (hcont hm)).sub e7).sub e6).div (e7.sub e6) fun t ht => (sub_pos.2 (e8 t ht)).ne'
      · intro hin
        rw [penalty, hm, e1, e4, e5]
        simp only
        rw [hB.scaled (eval (real U) (Q (x t)) ea), hB.linear, hB.linear (eval (real U) (Q (x t)) ea)]
        refine mul_le_mul_of_nonneg_right (hmin ht) ?_
        exact (hB.barrier 1 (-1) 1 one_pos (by norm_num)).nonneg _ hin.1 hin.2
      · rw [scaled_between (e8 t ht), HoldsAt, e4, e5]
        simp only [Option.mem_def, Option.some.injEq, forall_eq']
    · exact ⟨0, fun _ => 0, fun h1 h2 => absurd ⟨h1, h2⟩ hc⟩
  choose κ g hdata using hdata
  have htrig : ∀ c ∈ L, c.method ≠ .utm → ∃ u e lo hi, c.method = .epstrig ∧ c.expr = sym u ∧ c.activator = some e ∧ c.lower = some lo ∧
      c.upper = some hi := by
    intro c hc hm
    obtain ⟨h1, h2⟩ := List.mem_filter.1 hc
    have hk := hp.reg.known c h1 h2
    have he : c.method = .epstrig := by
      cases hcm : c.method with
      | utm => exact absurd hcm hm
      | epstrig => rfl
      | other => exact absurd hcm hk
    obtain ⟨u, e, lo, hi, k1, -, -, k2, k3, k4, -⟩ := hp.reg.eps c h1 he
    exact ⟨u, e, lo, hi, he, k1, k2, k3, k4⟩
  have hlow : ∀ c : Con, ∃ m : ℝ, c ∈ L → c.method ≠ .utm → ∀ t ∈ Set.Icc a b, m ≤ penalty B U (Q (x t)) c := by
    intro c
    by_cases hc : c ∈ L ∧ c.method ≠ .utm
    · obtain ⟨hc, hm⟩ := hc
      obtain ⟨h1, h2⟩ := List.mem_filter.1 hc
      obtain ⟨u, e, lo, hi, he, k1, k2, k3, k4⟩ := htrig c hc hm
      obtain ⟨-, ⟨ea, e1, e2, e3⟩, -⟩ := hF.bounds c h1 h2
      obtain ⟨K, hK⟩ := isCompact_Icc.bddAbove_image e2
      refine ⟨-K, fun _ _ t ht => ?_⟩
      have e4 : eval (real U) (Q (x t)) ea ≤ K := hK ⟨t, ht, rfl⟩
      have e5 := e3 t ht
      rw [penalty, he, e1, k3, k4]
      simp only
      rw [k1]
      simp only
      have := Real.cos_le_one (Q (x t) (trigName u))
      nlinarith
    · exact ⟨0, fun h1 h2 => absurd ⟨h1, h2⟩ hc⟩
  choose m' hlow using hlow
  obtain ⟨M, hM⟩ := isCompact_Icc.bddAbove_image hx
  obtain ⟨m, hm⟩ := isCompact_Icc.bddBelow_image hF.cost
  have hutm : ∀ c, c ∈ L.filter P ↔ c ∈ L ∧ c.method = .utm := by intro c; simp [hP]
  have key := stay_both (L.filter P) (fun _ => -1) (fun _ => 1) (fun c => B (κ c) (-1) 1) g
    (M := M - m - ((L.filter fun c => !P c).map m').sum) hs
    (fun c hc => hB.barrier _ _ _ (hdata c ((hutm c).1 hc).1 ((hutm c).1 hc).2).1 (by norm_num))
    (fun c hc => (hdata c ((hutm c).1 hc).1 ((hutm c).1 hc).2).2.1) (by
      intro t ht hin
      have h1 : (userOcp U Q B p).path (x t) ≤ M := hM ⟨t, ht, rfl⟩
      have h2 : m ≤ eval (real U) (Q (x t)) p.costPath := hm ⟨t, ht, rfl⟩
      have h3 : (userOcp U Q B p).path (x t) = eval (real U) (Q (x t)) p.costPath + penalties B U (Q (x t)) p.path := rfl
      have h4 : (L.map fun c => if P c then B (κ c) (-1) 1 (g c t) else m' c).sum ≤ penalties B U (Q (x t)) p.path := by
        rw [penalties]
        refine List.sum_le_sum fun c hc => ?_
        by_cases hcm : c.method = .utm
        · rw [if_pos (by simpa [hP] using hcm)]
          exact ((hdata c hc hcm).2.2 t ht).1 (hin c ((hutm c).2 ⟨hc, hcm⟩))
        · rw [if_neg (by simpa [hP] using hcm)]
          exact hlow c hc hcm t ht
      rw [sum_filter] at h4
      linarith)
    (fun c hc => ((hdata c ((hutm c).1 hc).1 ((hutm c).1 hc).2).2.2 s hs).2.1
      ((h c (List.mem_filter.1 ((hutm c).1 hc).1).1 (List.mem_filter.1 ((hutm c).1 hc).1).2).1 ((hutm c).1 hc).2))
  intro t ht c hc h2
  have hcf : c ∈ L := List.mem_filter.2 ⟨hc, h2⟩
  by_cases hcm : c.method = .utm
  · have h3 := ((hdata c hcf hcm).2.2 t ht).2.2 (key t ht c ((hutm c).2 ⟨hcf, hcm⟩))
    exact ⟨fun _ => h3, fun lo hlo hi hhi => ⟨(h3 lo hlo hi hhi).1.le, (h3 lo hlo hi hhi).2.le⟩⟩
  · obtain ⟨u, e, lo, hi, he, k1, k2, k3, k4⟩ := htrig c hcf hcm
    obtain ⟨-, -, el, eh, e4, e5, -, -, e8⟩ := hF.bounds c hc h2
    refine ⟨fun h => absurd h hcm, fun lo' hlo hi' hhi => ?_⟩
    have e1 : el = lo' := Option.some.inj (e4.symm.trans hlo)
    have e2 : eh = hi' := Option.some.inj (e5.symm.trans hhi)
    have h8 := e8 t ht
    rw [e1, e2] at h8
    rw [k1]
    exact sin_between h8 (hQ.trig (x t) c hc u lo' hi' he k1 hlo hhi)

/-! ### The property -/

/-- The tables that the user gets for an exact solution of the compiled boundary value problem are samples of a trajectory that, if it
satisfies the two-sided constraints on the path at one time, satisfies them at all times.

Missing from the full property: what is missing from `C73_returned_partial`; that the constraints hold anywhere at all
(`C86_violated`). -/
theorem C86_respected_partial {S : Sympy} (hL : LuSound S) {o : Opts} {p p' : Prob} (hp : Stated p)
    (hm : o.momentumShift = true) (hd : o.method ≠ .other) (hS : o.controlMethod = .algebraic → SolveSound S)
    (h : indirect S o p = .ok p') :
    ∃ q B, primal S p = .ok q ∧ Barriers B ∧
      ∀ U Q, Completes U p Q → ∀ (O : TrigOps ℝ) rule, O.sin = Real.sin →
      ∀ a b y pr pc k ρ, a ≤ b → NumSol U p' a b y pr pc k → Reads U p' a b y pr pc k ρ → Regular S U q p' a b ρ →
        (∀ x ∈ pr, 0 < x) →
      ∀ s s' : Sol ℝ, s.t ≠ [] → (∀ τ ∈ s.t, τ ∈ Set.Icc a b) → s.y = .rows p'.states.length (s.t.map y) → s.dyn = pr →
        s.const = k → invIndirect S O rule (real U) o p s = .ok s' →
      ∃ t₀ c x lam ν₀ ν₁, 0 < c ∧ Extremal (userOcp U Q B p) t₀ (t₀ + c * (b - a)) x lam ν₀ ν₁ ∧
        s'.t = s.t.map (fun τ => t₀ + c * (τ - a)) ∧ Returned Q p x lam s' ∧ Drawn ρ a t₀ c x lam ν₀ ν₁ ∧
        (Fenced U Q p t₀ (t₀ + c * (b - a)) x → ∀ t₁ ∈ Set.Icc t₀ (t₀ + c * (b - a)), PathHolds U Q p x t₁ →
          ∀ t ∈ Set.Icc t₀ (t₀ + c * (b - a)), PathHolds U Q p x t) := by
  obtain ⟨q, B, hq, hB, key⟩ := C73_returned_partial hL hp hm hd hS h
  refine ⟨q, B, hq, hB, ?_⟩
  intro U Q hQ O rule hO a b y pr pc k ρ hab hnum hread hreg hpr s s' hne hgrid hy hdyn hconst hinv
  obtain ⟨t₀, c, x, lam, ν₀, ν₁, g1, g2, g3, g4, -, -, -, -, g5⟩ := key U Q hQ O rule hO a b y pr pc k ρ hab hnum hread hreg hpr s s' hne hgrid hy
    hdyn hconst hinv
  refine ⟨t₀, c, x, lam, ν₀, ν₁, g1, g2, g3, g4, g5, fun hF t₁ ht₁ h1 => ?_⟩
  exact hF.respected hp hQ hB (g5.continuous g1 (path_continuous hL hp hm hd h hq hB hQ hread hreg hnum.strays)) ht₁ h1

/-- Behind `solve`, for rows that deviate from an exact solution: the trajectory whose samples the user gets, if it satisfies the
two-sided constraints on the path at one time, satisfies them at all times, however large the tolerance is.

Missing from the full property: what is missing from `C86_respected_partial` and `C81_solve_partial`. -/
theorem C86_solve_partial {c : Config} (hL : LuSound c.sympy) (hS : c.opts.controlMethod = .algebraic → SolveSound c.sympy)
    (hm : c.opts.momentumShift = true) (hR : c.solver.Ok) (hO : c.trig.sin = Real.sin) (hun : c.units = none)
    {w : Solve.World Prob Bvp (Sol ℝ)} {a : Solve.Args Prob Bvp (Sol ℝ)} {p : Prob} (hp : Stated p) (ha : a.ocp = some p)
    (hb : a.bvp = none) (hmeth : a.method.toLower ∈ ["indirect", "traditional", "brysonho", "diffyg"])
    (hd : c.opts.method = if a.method.toLower = "diffyg" then .diffyg else .traditional)
    (hfit : ∀ b s, Handed (world c w) a p b s → Fit c.solver b.prob s) {out : List (List (Sol ℝ))}
    (h : (Solve.solve (world c w) a).1 = .ok out) :
    ∃ b s q B calls, Handed (world c w) a p b s ∧ indirect c.sympy c.opts p = .ok b.prob ∧ primal c.sympy p = .ok q ∧
      Barriers B ∧ Warm s calls.flatten ∧
      List.Forall₂ (List.Forall₂ fun (x : Sol ℝ × Sol ℝ) s' =>
        solvePass c.solver c.functions b.prob none x.1 = .ok (some x.2) ∧
        invIndirect c.sympy c.trig c.rule (real c.functions) c.opts p x.2 = .ok s' ∧ s'.const = x.1.const ∧
        s'.converged = x.2.converged ∧
        (s'.converged = true → (∀ d ∈ x.2.dyn, 0 < d) → ∀ Q, Completes c.functions p Q →
          ∀ y, x.2.y = .rows b.prob.states.length (x.2.t.map y) → ∀ t₁ t₂, t₁ = x.1.t.getD 0 0 → t₂ = lastT x.1.t →
          ∀ δ M N V η, 0 ≤ δ → 0 ≤ N → η = (if c.opts.controlMethod = .algebraic then 0 else c.solver.tol + δ * N * (t₂ - t₁)) →
            Strays c.functions b.prob δ t₁ t₂ y x.2.dyn s'.const →
          ∀ ρ, Reads c.functions b.prob t₁ t₂ y x.2.dyn x.2.nondyn s'.const ρ → Regular c.sympy c.functions q b.prob t₁ t₂ ρ →
            Sized c.functions q M N V t₁ t₂ ρ →
          ∃ t₀ e z lam ν₀ ν₁, 0 < e ∧
            s'.t = x.2.t.map (fun τ => t₀ + e * (τ - t₁)) ∧ Returned Q p z lam s' ∧ Drawn ρ t₁ t₀ e z lam ν₀ ν₁ ∧
            (Fenced c.functions Q p t₀ (t₀ + e * (t₂ - t₁)) z → ∀ t ∈ Set.Icc t₀ (t₀ + e * (t₂ - t₁)), PathHolds c.functions Q p z t →
              ∀ t' ∈ Set.Icc t₀ (t₀ + e * (t₂ - t₁)), PathHolds c.functions Q p z t'))) calls out := by
  obtain ⟨b, s, q, B, calls, h1, h2, h3, hB, h4, h5⟩ := C82_solve_partial hL hS hm hR hO hun hp ha hb hmeth hd hfit h
  refine ⟨b, s, q, B, calls, h1, h2, h3, hB, h4, h5.imp fun l l' hll => hll.imp fun x s' hx => ?_⟩
  obtain ⟨k1, k2, k3, k4, k5⟩ := hx
  refine ⟨k1, k2, k3, k4, ?_⟩
  intro hc hpos Q hQ y hy t₁ t₂ ht₁ ht₂ δ M N V η hδ hN hη hst ρ hread hreg hz
  obtain ⟨t₀, e, z, lam, ν₀, ν₁, m1, -, m3, m4, m5, -⟩ := k5 hc hpos Q hQ y hy t₁ t₂ ht₁ ht₂ δ M N V η hδ hN hη hst ρ hread hreg hz
  exact ⟨t₀, e, z, lam, ν₀, ν₁, m1, m3, m4, m5, fun hF t ht => hF.respected hp hQ hB
    (m5.continuous m1 (path_continuous hL hp hm (known_method hd) h2 h3 hB hQ hread hreg hst)) ht⟩

/-- The same with autoscaling, the default, for a dimensionally consistent problem.

Missing from the full property: what is missing from `C82_solve_autoscaled_partial`. -/
theorem C86_solve_autoscaled_partial {c : Config} (hL : LuSound c.sympy)
    (hS : c.opts.controlMethod = .algebraic → SolveSound c.sympy)
    (hm : c.opts.momentumShift = true) (hR : c.solver.Ok) (hO : c.trig.sin = Real.sin) {un : Units} (hun : c.units = some un)
    {w : Solve.World Prob Bvp (Sol ℝ)} {a : Solve.Args Prob Bvp (Sol ℝ)} {p : Prob} (hp : Stated p) (hH : p.hamiltonian = none)
    (ha : a.ocp = some p) (hb : a.bvp = none) (hmeth : a.method.toLower ∈ ["indirect", "traditional", "brysonho", "diffyg"])
    (hd : c.opts.method = if a.method.toLower = "diffyg" then .diffyg else .traditional)
    (hfit : ∀ b s, Handed (world c w) a p b s → Fit c.solver b.prob s) {out : List (List (Sol ℝ))}
    (h : (Solve.solve (world c w) a).1 = .ok out) :
    ∃ b s q B calls, Handed (world c w) a p b s ∧ indirect c.sympy c.opts p = .ok b.prob ∧ primal c.sympy p = .ok q ∧
      Barriers B ∧ Warm s calls.flatten ∧
      ∀ Γ T T', Dimensional c.functions Γ c.sympy c.opts p b.prob T T' →
        (∀ l ∈ calls, ∀ x ∈ l, WellScaled c.functions Γ b.prob un x.1) →
      List.Forall₂ (List.Forall₂ fun (x : Sol ℝ × Sol ℝ) s' =>
        solvePass c.solver c.functions b.prob (some un) x.1 = .ok (some x.2) ∧
        invIndirect c.sympy c.trig c.rule (real c.functions) c.opts p x.2 = .ok s' ∧ s'.const = x.1.const ∧
        s'.converged = x.2.converged ∧
        ∀ φ D, Sizes c.functions Γ φ → Factored c.functions Γ φ b.prob un x.1 → Largest c.functions φ T' D →
        (s'.converged = true → (∀ d ∈ x.2.dyn, 0 < d) → ∀ Q, Completes c.functions p Q →
          ∀ y, x.2.y = .rows b.prob.states.length (x.2.t.map y) → ∀ t₁ t₂ ε, t₁ = x.1.t.getD 0 0 → t₂ = lastT x.1.t →
            ε = c.solver.tol * D →
          ∀ δ M N V η, 0 ≤ δ → 0 ≤ N → η = (if c.opts.controlMethod = .algebraic then 0 else ε + δ * N * (t₂ - t₁)) →
            Strays c.functions b.prob δ t₁ t₂ y x.2.dyn s'.const →
          ∀ ρ, Reads c.functions b.prob t₁ t₂ y x.2.dyn x.2.nondyn s'.const ρ → Regular c.sympy c.functions q b.prob t₁ t₂ ρ →
            Sized c.functions q M N V t₁ t₂ ρ →
          ∃ t₀ e z lam ν₀ ν₁, 0 < e ∧
            s'.t = x.2.t.map (fun τ => t₀ + e * (τ - t₁)) ∧ Returned Q p z lam s' ∧ Drawn ρ t₁ t₀ e z lam ν₀ ν₁ ∧
            (Fenced c.functions Q p t₀ (t₀ + e * (t₂ - t₁)) z → ∀ t ∈ Set.Icc t₀ (t₀ + e * (t₂ - t₁)), PathHolds c.functions Q p z t →
              ∀ t' ∈ Set.Icc t₀ (t₀ + e * (t₂ - t₁)), PathHolds c.functions Q p z t'))) calls out := by
  obtain ⟨b, s, q, B, calls, h1, h2, h3, hB, h4, h5⟩ := C82_solve_autoscaled_partial hL hS hm hR hO hun hp hH ha hb hmeth hd hfit h
  refine ⟨b, s, q, B, calls, h1, h2, h3, hB, h4, fun Γ T T' hdim hgood =>
    (h5 Γ T T' hdim hgood).imp fun l l' hll => hll.imp fun x s' hx => ?_⟩
  obtain ⟨k1, k2, k3, k4, k5⟩ := hx
  refine ⟨k1, k2, k3, k4, ?_⟩
  intro φ D hφ hF hD hc hpos Q hQ y hy t₁ t₂ ε ht₁ ht₂ hε δ M N V η hδ hN hη hst ρ hread hreg hz
  obtain ⟨t₀, e, z, lam, ν₀, ν₁, m1, -, m3, m4, m5, -⟩ := k5 φ D hφ hF hD hc hpos Q hQ y hy t₁ t₂ ε ht₁ ht₂ hε δ M N V η hδ hN hη hst ρ
    hread hreg hz
  exact ⟨t₀, e, z, lam, ν₀, ν₁, m1, m3, m4, m5, fun hF t ht => hF.respected hp hQ hB
    (m5.continuous m1 (path_continuous hL hp hm (known_method hd) h2 h3 hB hQ hread hreg hst)) ht⟩

end Beluga.E2E
