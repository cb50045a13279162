import Verif.Extremal.Core
import Verif.Symbolic.Props5

/-! # The boundary value problem of the symplectic method -/

namespace Beluga.Opt

open Beluga.Sym Beluga.Sym.Expr

variable {U : Name → Nat → ℝ → ℝ}

/-- Curves that follow the equations of `Dualize` and `DifferentialControlLaw` with the method 'diffyg' follow the equations
of motion and the adjoint equations; the partial derivatives of the Hamiltonian by the controls are constant, and the
costate of the time takes up the change of the Hamiltonian that comes from the controls. -/
theorem diffyg_dual {S : Sympy} (hS : LuSound S) {p pd p' : Prob} (hs : p.sympified = true)
    (hc : p.costates = []) (hcp : p.coparameters = []) (hp : p.parameters = []) {init : List Dyn} {tn : Name}
    (hlast : p.states = init ++ [⟨tn, 1⟩]) (hfr : LamFresh p)
    (h1 : dualize S .diffyg p = .ok pd) (h2 : differentialControl S .diffyg pd = .ok p')
    (hlu : ∀ u ∈ p.controls, lamName u ∉ (hexpr p).free)
    (hn : (p.states.map Dyn.name ++ p.states.map (fun s => lamName s.name) ++ p.controls).Nodup)
    {c a b : ℝ} {ρ : ℝ → Name → ℝ}
    (hconst : ∀ s ∈ (hexpr p).free, s ∉ p.states.map Dyn.name ++ p.states.map (fun s => lamName s.name) ++ p.controls →
      Moves a b ρ 0 s)
    (hsm : ∀ t ∈ Set.Icc a b, ∀ u ∈ p.controls, Smooth U (ρ t) ((hexpr p).diff u))
    (hdef : ∀ t ∈ Set.Icc a b, (∀ d ∈ p'.states ++ p'.costates, Defined (real U) (ρ t) d.eom) ∧
      (∀ om, p'.omega = some om → ∀ row ∈ om, ∀ e ∈ row, Defined (real U) (ρ t) e) ∧
      ∀ d ∈ pd.costates, Defined (real U) (ρ t) d.eom)
    (hf : Follows U (p'.states ++ p'.costates) c a b ρ) :
    Follows U p.states c a b ρ ∧
    Follows U (p.states.dropLast.map fun s => ⟨lamName s.name, -((hexpr p).diff s.name)⟩) c a b ρ ∧
    (∀ t ∈ Set.Icc a b, HasDerivAt (fun τ => ρ τ (lamName tn)) (-(c * eval (real U) (ρ t) ((hexpr p).diff tn)) -
      (p.controls.map fun u => eval (real U) (ρ b) ((hexpr p).diff u) * deriv (fun τ => ρ τ u) t).sum) t) ∧
    (∀ u ∈ p.controls, ∀ t ∈ Set.Icc a b, ∃ v, HasDerivAt (fun τ => ρ τ u) v t) ∧
    ∀ u ∈ p.controls, ∀ t ∈ Set.Icc a b,
      eval (real U) (ρ t) ((hexpr p).diff u) = eval (real U) (ρ b) ((hexpr p).diff u) := by
  obtain ⟨qd, h3, hpq, hco⟩ := C30_dualize_partial hS hs hc hcp hp h1
  have hqd := dualize_traditional S p hs hc hcp
  rw [h3] at hqd
  simp only [Except.ok.injEq] at hqd
  obtain ⟨chi, udp, hchil, hupl, hnames, heoms, hini, hter, ⟨om, hom, hmem⟩, hludp, hval⟩ :=
    diffyg_values hS hs hc hcp hp h1 h2 ⟨init, tn, hlast⟩ hfr hlu
  have qco : qd.costates = (p.states.map Dyn.name).map fun x =>
      ⟨lamName x, -((hamiltonianOf p.costPath p.states).diff x)⟩ := by rw [hqd]
  have hn' : (p.states.map Dyn.name ++ (p.states.map Dyn.name).map lamName ++ p.controls).Nodup := by
    rw [List.map_map]; exact hn
  have hconst' : ∀ s ∈ (hexpr p).free, s ∉ p.states.map Dyn.name ++ (p.states.map Dyn.name).map lamName ++ p.controls →
      Moves a b ρ 0 s := by
    rw [List.map_map]; exact hconst
  clear hn hconst
  simp only [hexpr] at hconst' hsm ⊢
  generalize hHg : hamiltonianOf p.costPath p.states = H at *
  generalize hX : p.states.map Dyn.name = X at *
  have hXl : X.length = p.states.length := by rw [← hX]; simp
  obtain ⟨-, hsolp⟩ := udot_solves hS hludp
  have hnmp := ctlStates_names hupl
  -- names
  have hnl : ((X ++ p.controls) ++ (X.map lamName ++ p.controls.map lamName)).length =
      2 * (p.states.length + p.controls.length) := by simp [hXl]; omega
  have b1 : ∀ i < p.states.length, ((X ++ p.controls) ++ (X.map lamName ++ p.controls.map lamName)).getD i "" =
      X.getD i "" := by
    intro i hi
    rw [getD_append_left' _ _ _ _ (by simp [hXl]; omega), getD_append_left' _ _ _ _ (by omega)]
  have b2 : ∀ j < p.controls.length, ((X ++ p.controls) ++ (X.map lamName ++ p.controls.map lamName)).getD
      (p.states.length + j) "" = p.controls.getD j "" := by
    intro j hj
    rw [getD_append_left' _ _ _ _ (by simp [hXl]; omega), getD_append_right' _ _ _ _ _ hXl]
  have b3 : ∀ i, ((X ++ p.controls) ++ (X.map lamName ++ p.controls.map lamName)).getD
      (i + (p.states.length + p.controls.length)) "" = (X.map lamName ++ p.controls.map lamName).getD i "" := by
    intro i
    rw [Nat.add_comm i, getD_append_right' _ _ _ _ _ (by simp [hXl])]
  have b4 : ∀ i < p.states.length, (X.map lamName ++ p.controls.map lamName).getD i "" = lamName (X.getD i "") := by
    intro i hi
    rw [getD_append_left' _ _ _ _ (by simp [hXl]; omega)]
    have : i < X.length := by omega
    simp [List.getD, List.getElem?_eq_getElem this]
  have bl : ∀ i < p.states.length, (X.map lamName).getD i "" = lamName (X.getD i "") := by
    intro i hi
    have : i < X.length := by omega
    simp [List.getD, List.getElem?_eq_getElem this]
  have hFP : ∀ t ∈ Set.Icc a b,
      (∀ i < p.states.length, DerivAt c ρ t (X.getD i "") (eval (real U) (ρ t) (chi.getD i 0))) ∧
      (∀ j < p.controls.length, DerivAt c ρ t (p.controls.getD j "")
        (eval (real U) (ρ t) (chi.getD (p.states.length + j) 0))) ∧
      (∀ i < p.states.length, DerivAt c ρ t (lamName (X.getD i ""))
        (eval (real U) (ρ t) (chi.getD (i + (p.states.length + p.controls.length)) 0))) := by
    rw [follows_iff hnames heoms, hnl] at hf
    intro t ht
    obtain ⟨k1, k2, k3, k4⟩ := lt_of_range (hf t ht)
    refine ⟨fun i hi => ?_, fun j hj => ?_, fun i hi => ?_⟩
    · have := k1 i hi; rwa [b1 i hi] at this
    · have := k2 j hj; rwa [b2 j hj] at this
    · have := k3 i hi; rwa [b3, b4 i hi] at this
  -- definedness
  have hdchi : ∀ t ∈ Set.Icc a b, ∀ e ∈ chi, Defined (real U) (ρ t) e := by
    intro t ht e he
    rw [← heoms] at he
    obtain ⟨d, hd, rfl⟩ := List.mem_map.1 he
    exact (hdef t ht).1 d hd
  have hdudp : ∀ t ∈ Set.Icc a b, ∀ e ∈ udp, Defined (real U) (ρ t) e := by
    intro t ht e he
    obtain ⟨j, hj, rfl⟩ := List.mem_iff_getElem.1 he
    obtain ⟨row, hrow, hin⟩ := hmem j (by omega)
    have e1 : udp.getD j 0 = udp[j] := by simp [List.getD, List.getElem?_eq_getElem hj]
    rw [e1] at hin
    exact (hdef t ht).2.1 om hom row hrow _ hin
  have hpdc : ∀ t ∈ Set.Icc a b, ∀ i < p.states.length, eval (real U) (ρ t) ((pd.costates.map Dyn.eom).getD i 0) =
      -eval (real U) (ρ t) (H.diff (X.getD i "")) := by
    intro t ht i hi
    have hcl := hco.length_eq
    rw [qco, List.length_map, hXl] at hcl
    have hic : i < pd.costates.length := by omega
    have hi2 : i < X.length := by omega
    have := (List.forall₂_iff_get.1 hco).2 i hic (by rw [qco]; simpa using hi2)
    have h5 := this.2 (real U) (ρ t) ((hdef t ht).2.2 _ (List.get_mem _ _))
    simp only [List.getD, List.getElem?_map, List.getElem?_eq_getElem hic, List.getElem?_eq_getElem hi2, Option.map_some,
      Option.getD_some]
    simp only [List.get_eq_getElem] at h5
    rw [h5]
    simp [qco]
  have hpdn : pd.costates.map Dyn.name = X.map lamName := by
    rw [(diffyg_rates hS hs hc hcp h1).1, ← hX, List.map_map]; rfl
  -- the linear system
  have hP : ∀ t ∈ Set.Icc a b, ∀ u ∈ p.controls,
      ∑ i ∈ Finset.range p.states.length, eval (real U) (ρ t) ((H.diff u).diff (X.getD i "")) *
          eval (real U) (ρ t) ((p.states.map Dyn.eom).getD i 0) +
        ∑ i ∈ Finset.range p.states.length, eval (real U) (ρ t) ((H.diff u).diff (lamName (X.getD i ""))) *
          -eval (real U) (ρ t) (H.diff (X.getD i "")) +
        ∑ j ∈ Finset.range p.controls.length, eval (real U) (ρ t) ((H.diff u).diff (p.controls.getD j "")) *
          eval (real U) (ρ t) (udp.getD j 0) = 0 := by
    intro t ht u hu
    have := hsolp (real U) (ρ t) (hdudp t ht) _ (List.mem_map_of_mem (f := fun u => H.diff u) hu)
    rw [List.map_append, List.sum_append,
      sum_dyn _ hX rfl (fun s e => eval (real U) (ρ t) ((H.diff u).diff s) * eval (real U) (ρ t) e),
      sum_dyn _ hpdn rfl (fun s e => eval (real U) (ρ t) ((H.diff u).diff s) * eval (real U) (ρ t) e),
      sum_dyn _ hnmp (zip_eoms hupl) (fun s e => eval (real U) (ρ t) ((H.diff u).diff s) * eval (real U) (ρ t) e),
      List.length_map, hXl] at this
    rw [← this]
    congr 2
    apply Finset.sum_congr rfl
    intro i hi
    rw [Finset.mem_range] at hi
    rw [bl i hi, hpdc t ht i hi]
  have hidx : ∀ (l : List Name) (s : Name), s ∈ l → ∃ i < l.length, l.getD i "" = s := by
    intro l s hs
    obtain ⟨i, hi, rfl⟩ := List.mem_iff_getElem.1 hs
    exact ⟨i, hi, by simp [List.getD, List.getElem?_eq_getElem hi]⟩
  have hXn : p.states.length - 1 < p.states.length ∧ X.getD (p.states.length - 1) "" = tn := by
    have : p.states.length - 1 = (init.map Dyn.name).length + 0 := by simp [hlast]
    refine ⟨by simp [hlast], ?_⟩
    rw [this, ← hX, hlast, List.map_append, getD_append_right' _ _ _ _ _ rfl]
    simp
  have hglast : ∀ t, ∀ u ∈ p.controls, eval (real U) (ρ t) ((H.diff u).diff (lamName (X.getD (p.states.length - 1) ""))) = 0 := by
    intro t u hu
    rw [hXn.2, ← hHg]
    apply g_last _ _ hfr hlast
    rintro s hs rfl
    rw [List.nodup_append] at hn'
    exact hn'.2.2 (lamName s.name) (by
      simp only [List.mem_append]
      right
      exact List.mem_map_of_mem (by rw [← hX]; exact List.mem_map_of_mem hs)) (lamName s.name) hu rfl
  have hg : ∀ u ∈ p.controls, ∀ t ∈ Set.Icc a b, eval (real U) (ρ t) (H.diff u) = eval (real U) (ρ b) (H.diff u) := by
    intro u hu
    have h0 : ∀ t ∈ Set.Icc a b, HasDerivAt (fun τ => eval (real U) (ρ τ) (H.diff u)) 0 t := by
      intro t ht
      obtain ⟨f1, f2, f3⟩ := hFP t ht
      obtain ⟨v1, v2, v3, -, -⟩ := hval U (ρ t) (hdchi t ht)
      have hder : ∀ s ∈ X ++ X.map lamName ++ p.controls, ∃ v, HasDerivAt (fun τ => ρ τ s) v t := by
        intro s hs
        simp only [List.mem_append] at hs
        rcases hs with (hs | hs) | hs
        · obtain ⟨i, hi, rfl⟩ := hidx _ _ hs
          exact ⟨_, f1 i (by omega)⟩
        · obtain ⟨x, hx, rfl⟩ := List.mem_map.1 hs
          obtain ⟨i, hi, rfl⟩ := hidx _ _ hx
          exact ⟨_, f3 i (by omega)⟩
        · obtain ⟨i, hi, rfl⟩ := hidx _ _ hs
          exact ⟨_, f2 i hi⟩
      have hc0 : ∀ s ∈ (H.diff u).free, s ∉ X ++ X.map lamName ++ p.controls → HasDerivAt (fun τ => ρ τ s) 0 t := by
        intro s hs hns
        exact hconst' s (mem_free_diff hs) hns t ht
      have hd := hasDerivAt_eval (U := U) (ρ := ρ) (v := fun s => _root_.deriv (fun τ => ρ τ s) t) (t := t) hn'
        (e := H.diff u)
        (by
          intro s hs
          by_cases hm : s ∈ X ++ X.map lamName ++ p.controls
          · obtain ⟨v, hv⟩ := hder s hm
            rw [hv.deriv]; exact hv
          · have := hc0 s hs hm
            rw [this.deriv]; exact this)
        (by
          intro s hs
          by_cases hm : s ∈ X ++ X.map lamName ++ p.controls
          · exact Or.inl hm
          · exact Or.inr (hc0 s hs hm).deriv)
        (hsm t ht u hu)
      refine hd.congr_deriv ?_
      rw [List.map_append, List.map_append, List.sum_append, List.sum_append, List.map_map,
        list_sum_range "" X, list_sum_range "" X, list_sum_range "" p.controls, hXl]
      have k := hP t ht u hu
      have s1 : ∑ i ∈ Finset.range p.states.length, eval (real U) (ρ t) ((H.diff u).diff (X.getD i "")) *
          _root_.deriv (fun τ => ρ τ (X.getD i "")) t = c * ∑ i ∈ Finset.range p.states.length,
            eval (real U) (ρ t) ((H.diff u).diff (X.getD i "")) *
              eval (real U) (ρ t) ((p.states.map Dyn.eom).getD i 0) := by
        rw [Finset.mul_sum]
        apply Finset.sum_congr rfl
        intro i hi
        rw [Finset.mem_range] at hi
        have hfi : HasDerivAt (fun τ => ρ τ (X.getD i "")) _ t := f1 i hi
        rw [hfi.deriv, v1 i hi]
        ring
      have s2 : ∑ i ∈ Finset.range p.states.length, ((fun s => eval (real U) (ρ t) ((H.diff u).diff s) *
          _root_.deriv (fun τ => ρ τ s) t) ∘ lamName) (X.getD i "") = c * ∑ i ∈ Finset.range p.states.length,
            eval (real U) (ρ t) ((H.diff u).diff (lamName (X.getD i ""))) *
              -eval (real U) (ρ t) (H.diff (X.getD i "")) := by
        rw [Finset.mul_sum]
        apply Finset.sum_congr rfl
        intro i hi
        rw [Finset.mem_range] at hi
        have hfi : HasDerivAt (fun τ => ρ τ (lamName (X.getD i ""))) _ t := f3 i hi
        simp only [Function.comp_apply]
        rw [hfi.deriv]
        by_cases hin : i = p.states.length - 1
        · rw [hin, hglast t u hu]; ring
        · rw [v3 i hi hin]; ring
      have s3 : ∑ j ∈ Finset.range p.controls.length, eval (real U) (ρ t) ((H.diff u).diff (p.controls.getD j "")) *
          _root_.deriv (fun τ => ρ τ (p.controls.getD j "")) t = c * ∑ j ∈ Finset.range p.controls.length,
            eval (real U) (ρ t) ((H.diff u).diff (p.controls.getD j "")) *
              eval (real U) (ρ t) (udp.getD j 0) := by
        rw [Finset.mul_sum]
        apply Finset.sum_congr rfl
        intro i hi
        rw [Finset.mem_range] at hi
        have hfi : HasDerivAt (fun τ => ρ τ (p.controls.getD i "")) _ t := f2 i hi
        rw [hfi.deriv, v2 i hi]
        ring
      rw [s1, s2, s3]
      linear_combination c * k
    exact eq_end_of_deriv_zero h0
  have hmemc : ∀ j < p.controls.length, p.controls.getD j "" ∈ p.controls := by
    intro j hj
    rw [List.getD, List.getElem?_eq_getElem hj]; exact List.getElem_mem hj
  refine ⟨?_, ?_, ?_, ?_, hg⟩
  · rw [follows_iff hX rfl]
    intro t ht i hi
    rw [hXl] at hi
    obtain ⟨v1, -⟩ := hval U (ρ t) (hdchi t ht)
    rw [← v1 i hi]
    exact (hFP t ht).1 i hi
  · intro t ht d hd
    obtain ⟨s, hs, rfl⟩ := List.mem_map.1 hd
    obtain ⟨i, hi, rfl⟩ := List.mem_iff_getElem.1 hs
    rw [List.length_dropLast] at hi
    have hi' : i < p.states.length := by omega
    obtain ⟨-, -, v3, -⟩ := hval U (ρ t) (hdchi t ht)
    have := (hFP t ht).2.2 i hi'
    rw [v3 i hi' (by omega)] at this
    have e : X.getD i "" = (p.states.dropLast[i]'(by simpa using hi)).name := by
      rw [← hX, List.getElem_dropLast]
      simp [List.getD, List.getElem?_eq_getElem hi']
    rw [e] at this
    rw [eval_neg]
    exact this
  · intro t ht
    obtain ⟨-, v2, -, v4, -⟩ := hval U (ρ t) (hdchi t ht)
    obtain ⟨-, f2, f3⟩ := hFP t ht
    have := f3 _ hXn.1
    rw [v4, hXn.2] at this
    refine HasDerivAt.congr_deriv this ?_
    rw [list_sum_range "" p.controls, mul_sub, mul_neg, Finset.mul_sum]
    congr 1
    apply Finset.sum_congr rfl
    intro j hj
    rw [Finset.mem_range] at hj
    have hfi : HasDerivAt (fun τ => ρ τ (p.controls.getD j "")) _ t := f2 j hj
    rw [hfi.deriv, v2 j hj, hg _ (hmemc j hj) t ht]
    ring
  · intro u hu t ht
    obtain ⟨j, hj, rfl⟩ := hidx _ _ hu
    exact ⟨_, (hFP t ht).2.1 j hj⟩

/-- The other way round: stationary solutions of the dual problem, with controls that follow the generated rates and
vanishing costates of the controls, follow the equations of the method 'diffyg'. -/
theorem diffyg_back {S : Sympy} (hS : LuSound S) {p pd p' : Prob} (hs : p.sympified = true)
    (hc : p.costates = []) (hcp : p.coparameters = []) (hp : p.parameters = []) {init : List Dyn} {tn : Name}
    (hlast : p.states = init ++ [⟨tn, 1⟩]) (hfr : LamFresh p)
    (h1 : dualize S .diffyg p = .ok pd) (h2 : differentialControl S .diffyg pd = .ok p')
    (hlu : ∀ u ∈ p.controls, lamName u ∉ (hexpr p).free)
    {c a b : ℝ} {ρ : ℝ → Name → ℝ}
    (hdef : ∀ t ∈ Set.Icc a b, ∀ d ∈ p'.states ++ p'.costates, Defined (real U) (ρ t) d.eom)
    (hmo : Follows U p.states c a b ρ)
    (had : Follows U (p.states.map fun s => ⟨lamName s.name, -((hexpr p).diff s.name)⟩) c a b ρ)
    (hct : ∀ udot, S.lu (ctlMatrix (hexpr p) p.controls) (ctlRhs (hexpr p) p.controls (p.states ++ pd.costates)) = .ok udot →
      Follows U (ctlStates p.controls udot) c a b ρ)
    (hg : ∀ u ∈ p.controls, ∀ t ∈ Set.Icc a b, eval (real U) (ρ t) ((hexpr p).diff u) = 0)
    (hla : ∀ u ∈ p.controls, Moves a b ρ 0 (lamName u)) :
    Follows U (p'.states ++ p'.costates) c a b ρ := by
  obtain ⟨chi, udp, hchil, hupl, hnames, heoms, -, -, -, hludp, hval⟩ :=
    diffyg_values hS hs hc hcp hp h1 h2 ⟨init, tn, hlast⟩ hfr hlu
  have hct := hct udp hludp
  have hnmp := ctlStates_names hupl
  have had' : Follows U ((p.states.map Dyn.name).map fun x => ⟨lamName x, -((hexpr p).diff x)⟩) c a b ρ := by
    rw [List.map_map]; exact had
  simp only [hexpr] at had' hg
  generalize hHg : hamiltonianOf p.costPath p.states = H at *
  generalize hX : p.states.map Dyn.name = X at *
  have hXl : X.length = p.states.length := by rw [← hX]; simp
  have hnl : ((X ++ p.controls) ++ (X.map lamName ++ p.controls.map lamName)).length =
      2 * (p.states.length + p.controls.length) := by simp [hXl]; omega
  have b1 : ∀ i < p.states.length, ((X ++ p.controls) ++ (X.map lamName ++ p.controls.map lamName)).getD i "" =
      X.getD i "" := by
    intro i hi
    rw [getD_append_left' _ _ _ _ (by simp [hXl]; omega), getD_append_left' _ _ _ _ (by omega)]
  have b2 : ∀ j < p.controls.length, ((X ++ p.controls) ++ (X.map lamName ++ p.controls.map lamName)).getD
      (p.states.length + j) "" = p.controls.getD j "" := by
    intro j hj
    rw [getD_append_left' _ _ _ _ (by simp [hXl]; omega), getD_append_right' _ _ _ _ _ hXl]
  have b3 : ∀ i, ((X ++ p.controls) ++ (X.map lamName ++ p.controls.map lamName)).getD
      (i + (p.states.length + p.controls.length)) "" = (X.map lamName ++ p.controls.map lamName).getD i "" := by
    intro i
    rw [Nat.add_comm i, getD_append_right' _ _ _ _ _ (by simp [hXl])]
  have b4 : ∀ i < p.states.length, (X.map lamName ++ p.controls.map lamName).getD i "" = lamName (X.getD i "") := by
    intro i hi
    rw [getD_append_left' _ _ _ _ (by simp [hXl]; omega)]
    have : i < X.length := by omega
    simp [List.getD, List.getElem?_eq_getElem this]
  have b5 : ∀ j < p.controls.length, (X.map lamName ++ p.controls.map lamName).getD (p.states.length + j) "" =
      lamName (p.controls.getD j "") := by
    intro j hj
    rw [getD_append_right' _ _ _ _ _ (by simp [hXl])]
    simp [List.getD, List.getElem?_eq_getElem hj]
  have hdchi : ∀ t ∈ Set.Icc a b, ∀ e ∈ chi, Defined (real U) (ρ t) e := by
    intro t ht e he
    rw [← heoms] at he
    obtain ⟨d, hd, rfl⟩ := List.mem_map.1 he
    exact hdef t ht d hd
  have hmemc : ∀ j < p.controls.length, p.controls.getD j "" ∈ p.controls := by
    intro j hj
    rw [List.getD, List.getElem?_eq_getElem hj]; exact List.getElem_mem hj
  rw [follows_iff hX rfl, hXl] at hmo
  rw [follows_iff hnmp (zip_eoms hupl)] at hct
  rw [follows_iff (names := X.map lamName) (eoms := X.map fun x => -(H.diff x)) (by simp [Function.comp_def])
    (by simp [Function.comp_def]), List.length_map, hXl] at had'
  rw [follows_iff hnames heoms, hnl]
  intro t ht
  obtain ⟨v1, v2, v3, v4, v5⟩ := hval U (ρ t) (hdchi t ht)
  have hlam : ∀ i < p.states.length, DerivAt c ρ t (lamName (X.getD i "")) (-eval (real U) (ρ t) (H.diff (X.getD i ""))) := by
    intro i hi
    have hi2 : i < X.length := by omega
    have := had' t ht i hi
    rw [show (X.map lamName).getD i "" = lamName (X.getD i "") by simp [List.getD, List.getElem?_eq_getElem hi2],
      show (X.map fun x => -(H.diff x)).getD i 0 = -(H.diff (X.getD i "")) by
        simp [List.getD, List.getElem?_eq_getElem hi2], eval_neg] at this
    exact this
  refine range_of_lt ?_ ?_ ?_ ?_
  · intro i hi
    rw [b1 i hi, v1 i hi]
    exact hmo t ht i hi
  · intro j hj
    rw [b2 j hj, v2 j hj]
    exact hct t ht j hj
  · intro i hi
    rw [b3, b4 i hi]
    by_cases hin : i = p.states.length - 1
    · have := hlam i hi
      rw [hin] at this ⊢
      rw [v4, Finset.sum_eq_zero, sub_zero]
      · exact this
      · intro j hj
        rw [Finset.mem_range] at hj
        rw [hg _ (hmemc j hj) t ht, mul_zero]
    · rw [v3 i hi hin]
      exact hlam i hi
  · intro j hj
    rw [b3, b5 j hj, v5 j hj, hg _ (hmemc j hj) t ht, neg_zero, DerivAt, mul_zero]
    exact hla _ (hmemc j hj) t ht

end Beluga.Opt
