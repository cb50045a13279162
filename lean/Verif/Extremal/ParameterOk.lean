import Verif.Extremal.FixedPipe
import Verif.Extremal.Parameter

/-! # Problems with parameters to be optimised: where the generated boundary value problem is right (C64) -/

namespace Beluga.Opt

open Beluga.Sym Beluga.Sym.Expr

/-! ### Specification -/

/-- The costs and conditions at both ends do not depend on the symbols in `ps`. -/
def Ocp.EndsWithout (O : Ocp) (ps : List Name) : Prop :=
  ∀ n ∈ ps, ∀ f ∈ O.costInitial :: O.costTerminal :: (O.initial ++ O.terminal), ∀ (σ : Env) (v : ℝ), f (Function.update σ n v) = f σ

/-! ### Lemmas -/

theorem ham_withParameters (O : Ocp) (ps : List Name) (lam : Name → ℝ) : (O.withParameters ps).ham lam = O.ham lam := by
  funext σ
  rw [Ocp.ham, Ocp.ham]
  have : ((ps.map fun n => (n, fun _ : Env => (0 : ℝ))).map fun r => lam r.1 * r.2 σ).sum = 0 := by
    refine List.sum_eq_zero fun y hy => ?_
    simp only [List.map_map, List.mem_map, Function.comp_apply, mul_zero] at hy
    obtain ⟨_, -, rfl⟩ := hy
    rfl
  rw [show (O.withParameters ps).rates = O.rates ++ ps.map fun n => (n, fun _ => 0) from rfl, List.map_append, List.sum_append,
    this, add_zero]
  rfl

theorem ham_lam {O : Ocp} {lam lam' : Name → ℝ} (h : ∀ r ∈ O.rates, lam r.1 = lam' r.1) : O.ham lam = O.ham lam' := by
  funext σ
  rw [Ocp.ham, Ocp.ham]
  congr 2
  exact List.map_congr_left fun r hr => by rw [h r hr]

theorem lagrange_without {n : Name} {cost : Env → ℝ} {cons : List (Env → ℝ)} {ν : Nat → ℝ}
    (h : ∀ f ∈ cost :: cons, ∀ (σ : Env) (v : ℝ), f (Function.update σ n v) = f σ) (σ : Env) (v : ℝ) :
    lagrange cost cons ν (Function.update σ n v) = lagrange cost cons ν σ := by
  rw [lagrange, lagrange, h cost (by simp)]
  congr 2
  refine List.map_congr_left fun c hc => ?_
  rw [h c.1 (List.mem_cons_of_mem _ (List.fst_mem_of_mem_zipIdx hc))]

theorem clean_fixQ {q : Prob} {ch : List MapTag} (h : Clean (fixParams q.parameters ch q))
    (hf : ∀ n ∈ q.parameters, lamName n ∉ (hexpr q).free) : Clean (fixQ ch q) := by
  refine ⟨⟨h.nodup, ⟨h.lam.nodup, h.lam.cost, h.lam.rates⟩, h.nu, h.ind⟩, h.sympified, h.costates, h.coparameters, rfl, h.law, ?_, ?_, h.delta_tau, h.lam_controls⟩
  · intro s hs
    refine ⟨?_, (h.free s hs).2⟩
    intro hh
    simp only [fixQ, List.map_map, List.mem_map, Function.comp_apply] at hh
    obtain ⟨n, hn, rfl⟩ := hh
    exact hf n hn hs
  · intro hh
    rcases List.mem_append.1 hh with hh | hh
    · exact h.delta (List.mem_append_left _ hh)
    · simp only [fixQ, List.map_map, List.mem_map, Function.comp_apply] at hh
      obtain ⟨n, hn, e⟩ := hh
      exact delta_ne_lam _ _ e.symm

/-- Every solution of the boundary value problem that `make_indirect_method` generates for a problem with parameters, read at the
user's time, satisfies the first-order necessary conditions of the user's problem in which the parameters are chosen as well, if the method is
'traditional' and the coparameters follow their rates, in either of two cases: the curve parameter runs as fast as time, as it does
without `NormalizeTime`, or the costs and conditions at both ends do not depend on the parameters.  The costate of a
parameter is the generated one times the duration.

Missing from the full property: with `NormalizeTime` and parameters at the ends it fails, see `C64_violated_parameters`; with the
method 'diffyg' it fails, see `C30_violated`; one-sided constraints; names that clash with generated ones. -/
theorem C64_parameters_partial {S : Sympy} (hL : LuSound S) {o : Opts} {p p' : Prob}
    (hp : Stated { p with parameters := [], constants := p.constants ++ p.parameters })
    (hm : o.momentumShift = true) (hd : o.method = .traditional) (hS : o.controlMethod = .algebraic → SolveSound S)
    (h : indirect S o p = .ok p') :
    ∃ q B, primal S p = .ok q ∧ Barriers B ∧
      ∀ U Q, Completes U p Q → ∀ a b ρ, a ≤ b → Solves U p' a b ρ → Follows U p'.quads 1 a b ρ → Regular S U q p' a b ρ →
        ∀ c, c = (if o.normalizeTime then ρ a ("_delta_" ++ p.ind) else 1) → 0 < c →
          c = 1 ∨ (userOcp U Q B p).EndsWithout p.parameters →
          Extremal ((userOcp U Q B p).withParameters p.parameters) (ρ a p.ind) (ρ a p.ind + c * (b - a))
            (fun s => ρ (a + (s - ρ a p.ind) / c))
            (fun s n => (if n ∈ p.parameters then c else 1) * ρ (a + (s - ρ a p.ind) / c) ("_lam_" ++ n))
            (fun i => ρ a ("_nu_0_" ++ toString i)) (fun i => ρ a ("_nu_f_" ++ toString i)) := by
  obtain ⟨q, ctl, hq, hctl, h⟩ := indirect_split hm h
  obtain ⟨epar, ch, hq0⟩ := blind_primal S p q p.parameters p.chain hq
  have hq0 : primal S { p with parameters := [], constants := p.constants ++ p.parameters } = .ok (fixParams p.parameters ch q) := hq0
  obtain ⟨p3, f, f2, f3, hf⟩ := front hp hq0
  obtain ⟨B, hB, hocp⟩ := hf.ocp
  rw [hd] at h hctl
  obtain ⟨⟨p0, hp0, k1, k2, k3, k4, k5, k6, k7, k8⟩, g1, g2⟩ := within_pipe (q := q) hf.sympified hf.empty.1 hf.empty.2.1 hf.empty.2.2.2.1
    (hctl.imp And.left And.left) h ch
  refine ⟨q, B, hq, hB, fun U Q hQ a b ρ hab hs hqf hr c hc hpos hends => ?_⟩
  have hpl : ∀ n ∈ p.parameters, Plain p n := fun n hn => hp.plain n (by simp [hn])
  have hnames := hp.names
  simp only [List.nodup_append, List.mem_append] at hnames
  have hst : ∀ n ∈ p.parameters, n ∉ q.states.map Dyn.name := by
    intro n hn hh
    have : q.states.map Dyn.name = p.states.map Dyn.name ++ [p.ind] := hf.names
    rw [this] at hh
    exact hnames.1.1.2.2 n (Or.inl (by simpa only [List.mem_append] using hh)) n (Or.inr hn) rfl
  have hco : ∀ n ∈ p.parameters, n ∉ q.controls := by
    intro n hn hh
    exact (hf.control_mem hp hh).2 (by simp [hn])
  have hlamfree : ∀ n ∈ q.parameters, lamName n ∉ (hexpr q).free := by
    intro n hn hh
    rw [epar] at hn
    have hno : ∀ {s : Name}, Plain p s → s ≠ lamName n := fun hs e => hs.1 (Or.inl ⟨_, e⟩)
    rcases free_hexpr hh with hh | ⟨d, hd, e | hh⟩
    · exact hno (hf.cost_good q.costPath (by simp [fixParams]) _ hh).1 rfl
    · exact hst n hn (by rw [lam_inj e]; exact List.mem_map_of_mem hd)
    · exact hno (hf.eom_good d hd _ hh).1 rfl
  have hclq : Clean (fixQ ch q) := clean_fixQ (by rw [epar]; exact hf.clean hp) hlamfree
  have hs0 : NearlySolves U p0 0 a b ρ := by
    refine ⟨by rw [k1]; exact hs.follows, ?_, ?_, ?_, ?_⟩
    · rw [k1, k2, k4, k6]; exact hs.fixed
    · rw [k2, k3]; exact hs.law
    · exact nearly_zero.2 fun c hc => hs.initial c (k7 c hc)
    · exact nearly_zero.2 fun c hc => hs.terminal c (k8 c hc)
  have hr0 : Regular S U (fixQ ch q) p0 a b ρ := by
    refine ⟨hr.rates, hr.start, hr.stop, hr.ham, by rw [k1]; exact hr.defined, by rw [k3]; exact hr.law, by rw [k2]; exact hr.controls, ?_⟩
    intro om ho
    rw [k5] at ho
    cases ho
  have hname : "_delta" ++ q.ind = "_delta_" ++ p.ind := by
    have : q.ind = "_" ++ p.ind := hf.ind
    rw [this, ← String.append_assoc]
    rfl
  have hcp : c = pace o.normalizeTime q.ind a ρ := by
    rw [hc, pace, hname]
  obtain ⟨h1, h2⟩ := pipeline (U := U) hL hclq (m := .traditional) (by decide) (ctl := ctl) (norm := o.normalizeTime) (jac := false)
    (hctl.imp (fun hh => ⟨hh.1, hS hh.2⟩) And.left) (fun _ => ⟨_, _, hf.states⟩) hp0 hab (η := 0) (Or.inr rfl) (le_refl _) hs0 hr0 (by
      intro hn
      rw [hn] at hc
      simp only [if_true] at hc
      change 0 < ρ a ("_delta" ++ q.ind)
      rw [hname, ← hc]
      exact hpos)
  have h1 : DualNear U (fixQ ch q) 0 0 c a b ρ := by rw [hcp]; exact h1
  have h1' : DualNear U (fixParams p.parameters ch q) 0 0 c a b ρ :=
    ⟨h1.pos, h1.motion, h1.adjoint, h1.last, h1.controls, h1.stationary, h1.initial, h1.terminal⟩
  have hfixed : ∀ s, (∀ n, s ≠ lamName n) → s ∉ q.states.map Dyn.name → s ∉ q.controls → s ≠ q.ind → s ≠ "_tau" → Moves a b ρ 0 s := by
    intro s n0 n1 n2 n3 n4
    refine h2 s ?_ ?_ n3 n4
    · simp only [List.mem_append, not_or]
      refine ⟨⟨⟨n1, ?_⟩, n2⟩, ?_⟩
      · intro hh
        obtain ⟨d, -, e⟩ := List.mem_map.1 hh
        exact n0 _ e.symm
      · intro hh
        simp only [fixQ, List.map_map, List.mem_map, Function.comp_apply] at hh
        obtain ⟨n, -, e⟩ := hh
        exact n0 _ e.symm
    · intro hh
      obtain ⟨d, -, e⟩ := List.mem_map.1 hh
      exact n0 _ e.symm
  have hfree : ∀ s ∈ (hexpr q).free, s ∉ q.states.map Dyn.name ++ q.states.map (fun s => lamName s.name) ++ q.controls →
      Moves a b ρ 0 s := by
    intro s hsf hsn
    simp only [List.mem_append, not_or] at hsn
    obtain ⟨c1, c2, c3⟩ := hclq.free s hsf
    refine h2 s ?_ ?_ c2 c3
    · simp only [List.mem_append, not_or]
      exact ⟨⟨⟨hsn.1.1, hsn.1.2⟩, hsn.2⟩, c1⟩
    · intro hx
      obtain ⟨u, hu, rfl⟩ := List.mem_map.1 hx
      exact (hclq.lam_controls u hu).1 hsf
  have hE := nearExtremal_zero.1 (hf.extremal_of hp hab h1' hfixed hfree hr.rates hr.start hr.stop)
  have hQ' : Completes U { p with parameters := [], constants := p.constants ++ p.parameters } Q :=
    ⟨hQ.off, hQ.quantities, hQ.switches, hQ.trig⟩
  have hO := hocp U Q hQ'
  rw [hO] at hE
  set O := userOcp U Q B { p with parameters := [], constants := p.constants ++ p.parameters } with hOdef
  have hmv : ∀ n ∈ p.parameters, Moves a b ρ 0 n := by
    intro n hn
    have hP := hpl n hn
    refine hfixed n (fun m e => hP.1 (Or.inl ⟨_, e⟩)) (hst n hn) (hco n hn) ?_ ?_
    · rw [show q.ind = "_" ++ p.ind from hf.ind]
      exact hP.2
    · exact fun e => hP.1 (Or.inr (Or.inr (Or.inr (Or.inr e))))
  have hlam : ∀ s : ℝ, ∀ r ∈ O.rates, (if r.1 ∈ p.parameters then c else 1) * ρ (a + (s - ρ a p.ind) / c) ("_lam_" ++ r.1) =
      ρ (a + (s - ρ a p.ind) / c) ("_lam_" ++ r.1) := by
    intro s r hr
    rw [if_neg, one_mul]
    intro hn
    refine hst _ hn ?_
    have : q.states.map Dyn.name = p.states.map Dyn.name ++ [p.ind] := hf.names
    rw [this]
    obtain ⟨d, hd, rfl⟩ := List.mem_map.1 hr
    exact List.mem_append_left _ (List.mem_map.2 ⟨d, hd, rfl⟩)
  have hham : ∀ s : ℝ, ((userOcp U Q B p).withParameters p.parameters).ham
      (fun n => (if n ∈ p.parameters then c else 1) * ρ (a + (s - ρ a p.ind) / c) ("_lam_" ++ n)) =
      O.ham fun n => ρ (a + (s - ρ a p.ind) / c) ("_lam_" ++ n) := by
    intro s
    rw [ham_withParameters]
    have e : ∀ l, (userOcp U Q B p).ham l = O.ham l := fun l => rfl
    rw [e]
    exact ham_lam (hlam s)
  have hin : ∀ s ∈ Set.Icc (ρ a p.ind) (ρ a p.ind + c * (b - a)), a + (s - ρ a p.ind) / c ∈ Set.Icc a b := by
    intro s hs
    constructor
    · have := div_nonneg (sub_nonneg.2 hs.1) hpos.le
      linarith
    · have : (s - ρ a p.ind) / c ≤ b - a := by
        rw [div_le_iff₀ hpos]
        linarith [hs.2]
      linarith
  have hea : a + (ρ a p.ind - ρ a p.ind) / c = a := by simp
  have heb : a + (ρ a p.ind + c * (b - a) - ρ a p.ind) / c = b := by field_simp; ring
  have hre : ∀ (n : Name) (v s : ℝ), HasDerivAt (fun τ => ρ τ n) v (a + (s - ρ a p.ind) / c) →
      HasDerivAt (fun s => ρ (a + (s - ρ a p.ind) / c) n) (v * (1 / c)) s := by
    intro n v s hd
    have h1 : HasDerivAt (fun s : ℝ => a + (s - ρ a p.ind) / c) (1 / c) s :=
      (((hasDerivAt_id' s).sub_const _).div_const c).const_add a
    exact HasDerivAt.comp s hd h1
  have hcase : ∀ {r : Name × (Env → ℝ)}, r ∈ ((userOcp U Q B p).withParameters p.parameters).rates →
      r ∈ O.rates ∨ ∃ n ∈ p.parameters, r = (n, fun _ => 0) := by
    intro r hr
    rcases List.mem_append.1 hr with hr | hr
    · exact Or.inl hr
    · obtain ⟨n, hn, rfl⟩ := List.mem_map.1 hr
      exact Or.inr ⟨n, hn, rfl⟩
  have hscale : ∀ n ∈ p.parameters, ∀ (cost : Env → ℝ) (cons : List (Env → ℝ)) (ν : Nat → ℝ) (σ : Env) (D : ℝ),
      (∀ g ∈ cost :: cons, g ∈ O.costInitial :: O.costTerminal :: (O.initial ++ O.terminal)) →
      HasPartial (lagrange cost cons ν) n D σ → D * c = D := by
    intro n hn cost cons ν σ D hsub hD
    rcases hends with hc1 | hw
    · rw [hc1, mul_one]
    · rw [HasPartial] at hD
      have h0 : D = 0 := by
        refine hD.unique ((hasDerivAt_const (σ n) (lagrange cost cons ν σ)).congr_of_eventuallyEq (.of_forall fun v => ?_))
        exact lagrange_without (fun g hg σ v => hw n hn g (hsub g hg) σ v) σ v
      rw [h0, zero_mul]
  have hs0' : ∀ n ∈ p.parameters, HasPartial (lagrange O.costInitial O.initial fun i => ρ a ("_nu_0_" ++ toString i)) n
      (-(c * ρ a ("_lam_" ++ n))) (ρ a) := by
    intro n hn
    have e1 := hasPartial_end "_nu_0_" hr.start.1 hr.start.2 n
    have e2 := lagrange_partial (fun i e => (hpl n hn).1 (Or.inr (Or.inl ⟨_, e⟩))) e1
    have e3 := hs.initial _ (g2 n (by rw [epar]; exact hn)).1
    have e4 : HasPartial (lagrange O.costInitial O.initial fun i => ρ a ("_nu_0_" ++ toString i)) n
        (eval (real U) (ρ a) ((phi0 q).diff n)) (ρ a) := by
      rw [← hO]
      exact e2
    have e5 := hscale n hn _ _ _ _ _ (by
      intro g hg
      simp only [List.mem_cons, List.mem_append] at hg ⊢
      tauto) e4
    rw [eval_add] at e3
    have e3 : ρ a ("_lam_" ++ n) + eval (real U) (ρ a) ((phi0 q).diff n) = 0 := e3
    rw [show -(c * ρ a ("_lam_" ++ n)) = eval (real U) (ρ a) ((phi0 q).diff n) by
      rw [← e5]; linear_combination (-c) * e3]
    exact e4
  have hsf' : ∀ n ∈ p.parameters, HasPartial (lagrange O.costTerminal O.terminal fun i => ρ a ("_nu_f_" ++ toString i)) n
      (c * ρ b ("_lam_" ++ n)) (ρ b) := by
    intro n hn
    have e1 := hasPartial_end "_nu_f_" hr.stop.1 hr.stop.2 n
    have e2 := lagrange_partial (fun i e => (hpl n hn).1 (Or.inr (Or.inr (Or.inl ⟨_, e⟩)))) e1
    have e3 := hs.terminal _ (g2 n (by rw [epar]; exact hn)).2
    have e4 : HasPartial (lagrange O.costTerminal O.terminal fun i => ρ a ("_nu_f_" ++ toString i)) n
        (eval (real U) (ρ b) ((phif q).diff n)) (ρ b) := by
      have hnu : (fun i : Nat => ρ a ("_nu_f_" ++ toString i)) = fun i : Nat => ρ b ("_nu_f_" ++ toString i) := by
        funext i
        exact (moves_const (hf.nu_moves hp hfixed i) b ⟨hab, le_refl _⟩).symm
      rw [← hO, hnu]
      exact e2
    have e5 := hscale n hn _ _ _ _ _ (by
      intro g hg
      simp only [List.mem_cons, List.mem_append] at hg ⊢
      tauto) e4
    rw [eval_sub] at e3
    have e3 : ρ b ("_lam_" ++ n) - eval (real U) (ρ b) ((phif q).diff n) = 0 := e3
    rw [show c * ρ b ("_lam_" ++ n) = eval (real U) (ρ b) ((phif q).diff n) by
      rw [← e5]; linear_combination c * e3]
    exact e4
  refine ⟨hE.time, ?_, ?_, ?_, ?_, hE.initial, hE.terminal, ?_, ?_, ?_, ?_⟩
  · intro s hs
    exact hE.fixed s (List.mem_append_left _ hs)
  · intro r hr s hs
    rcases hcase hr with hr | ⟨n, hn, rfl⟩
    · exact hE.motion r hr s hs
    · simpa using hre n _ s (hmv n hn _ (hin s hs))
  · intro r hr' s hs
    rw [hham]
    rcases hcase hr' with hr' | ⟨n, hn, rfl⟩
    · obtain ⟨d, e1, e2⟩ := hE.adjoint r hr' s hs
      refine ⟨d, e1, ?_⟩
      simp only [hlam _ r hr']
      exact e2
    · have e1 := ham_partial (q := fixParams p.parameters ch q) (U := U) (σ := ρ (a + (s - ρ a p.ind) / c)) (x := n)
        (fixed := p.constants ++ p.parameters) hf.states
        (fun d _ e => (hpl n hn).1 (Or.inl ⟨_, e⟩)) (hasPartial_H (hr.rates _ (hin s hs)) n)
      refine ⟨_, by rw [← hO]; exact e1, ?_⟩
      have e2 := hqf _ (hin s hs) ⟨lamName n, -((hexpr q).diff n)⟩ (by
        rw [g1, epar]
        exact List.mem_map.2 ⟨n, hn, rfl⟩)
      have e3 := (hre _ _ s e2).const_mul c
      simp only [if_pos hn]
      refine e3.congr_deriv ?_
      rw [eval_neg]
      field_simp
  · intro u hu s hs
    rw [hham]
    exact hE.stationary u hu s hs
  · intro r hr'
    rcases hcase hr' with hr' | ⟨n, hn, rfl⟩
    · simp only [hlam _ r hr']
      exact hE.start r hr'
    · simp only [if_pos hn, hea]
      exact hs0' n hn
  · intro r hr'
    rcases hcase hr' with hr' | ⟨n, hn, rfl⟩
    · simp only [hlam _ r hr']
      exact hE.stop r hr'
    · simp only [if_pos hn, heb]
      exact hsf' n hn
  · rw [hham]
    exact hE.start_time
  · rw [hham]
    exact hE.stop_time

end Beluga.Opt
