import Verif.Extremal.Defect

/-! # The equations of the symplectic method with a defect -/

namespace Beluga.Opt

open Beluga.Sym Beluga.Sym.Expr

variable {U : Name → Nat → ℝ → ℝ}

/-- The variable has `c` times the rate `v` at `t` up to `δ`. -/
def NearAt (c δ : ℝ) (ρ : ℝ → Env) (t : ℝ) (s : Name) (v : ℝ) : Prop :=
  ∃ w, HasDerivAt (fun τ => ρ τ s) w t ∧ |w - c * v| ≤ δ

theorem shadows_iff {dyn : List Dyn} {names : List Name} {eoms : List Expr} {c δ a b : ℝ} {ρ : ℝ → Env}
    (h1 : dyn.map Dyn.name = names) (h2 : dyn.map Dyn.eom = eoms) :
    Shadows U dyn c δ a b ρ ↔ ∀ t ∈ Set.Icc a b, ∀ i < names.length,
      NearAt c δ ρ t (names.getD i "") (eval (real U) (ρ t) (eoms.getD i 0)) := by
  subst h1 h2
  have hg : ∀ i, (hi : i < dyn.length) → (dyn.map Dyn.name).getD i "" = dyn[i].name ∧
      (dyn.map Dyn.eom).getD i 0 = dyn[i].eom := by
    intro i hi
    simp [List.getD, List.getElem?_eq_getElem hi]
  constructor
  · intro h t ht i hi
    have hi' : i < dyn.length := by simpa using hi
    rw [(hg i hi').1, (hg i hi').2]
    exact h t ht _ (List.getElem_mem hi')
  · intro h t ht d hd
    obtain ⟨i, hi, rfl⟩ := List.mem_iff_getElem.1 hd
    have := h t ht i (by simpa using hi)
    rwa [(hg i hi).1, (hg i hi).2] at this

theorem abs_finset_sum_mul_le {n : Nat} {f g : Nat → ℝ} {δ : ℝ} (h : ∀ i < n, |g i| ≤ δ) :
    |∑ i ∈ Finset.range n, f i * g i| ≤ δ * ∑ i ∈ Finset.range n, |f i| := by
  rw [Finset.mul_sum]
  refine (Finset.abs_sum_le_sum_abs _ _).trans (Finset.sum_le_sum fun i hi => ?_)
  rw [abs_mul, mul_comm]
  exact mul_le_mul_of_nonneg_right (h i (Finset.mem_range.1 hi)) (abs_nonneg _)

/-- Curves that follow the equations of `Dualize` and `DifferentialControlLaw` with the method 'diffyg' up to `δ` follow the
equations of motion and the adjoint equations up to `δ`; the partial derivatives of the Hamiltonian by the controls change
slowly, and the costate of the time takes up the change of the Hamiltonian that comes from the rates of the controls. -/
theorem diffyg_shadow {S : Sympy} (hS : LuSound S) {p pd p' : Prob} (hs : p.sympified = true)
    (hc : p.costates = []) (hcp : p.coparameters = []) (hp : p.parameters = []) {init : List Dyn} {tn : Name}
    (hlast : p.states = init ++ [⟨tn, 1⟩]) (hfr : LamFresh p)
    (h1 : dualize S .diffyg p = .ok pd) (h2 : differentialControl S .diffyg pd = .ok p')
    (hlu : ∀ u ∈ p.controls, lamName u ∉ (hexpr p).free)
    (hn : (p.states.map Dyn.name ++ p.states.map (fun s => lamName s.name) ++ p.controls).Nodup)
    {c δ N a b : ℝ} {ρ : ℝ → Env} (hδ : 0 ≤ δ)
    (hconst : ∀ s ∈ (hexpr p).free, s ∉ p.states.map Dyn.name ++ p.states.map (fun s => lamName s.name) ++ p.controls →
      Moves a b ρ 0 s)
    (hsm : ∀ t ∈ Set.Icc a b, ∀ u ∈ p.controls, Smooth U (ρ t) ((hexpr p).diff u))
    (hdef : ∀ t ∈ Set.Icc a b, (∀ d ∈ p'.states ++ p'.costates, Defined (real U) (ρ t) d.eom) ∧
      (∀ om, p'.omega = some om → ∀ row ∈ om, ∀ e ∈ row, Defined (real U) (ρ t) e) ∧
      ∀ d ∈ pd.costates, Defined (real U) (ρ t) d.eom)
    (hN : ∀ t ∈ Set.Icc a b, ∀ u ∈ p.controls, ((p.states.map Dyn.name ++ p.states.map (fun s => lamName s.name) ++
      p.controls).map fun x => |eval (real U) (ρ t) (((hexpr p).diff u).diff x)|).sum ≤ N)
    (hps : p'.states.length = p.states.length + p.controls.length) (hf : Shadows U (p'.states ++ p'.costates) c δ a b ρ) :
    Shadows U p.states c δ a b ρ ∧
    Shadows U (p.states.dropLast.map fun s => ⟨lamName s.name, -((hexpr p).diff s.name)⟩) c δ a b ρ ∧
    (∀ t ∈ Set.Icc a b, ∃ v, HasDerivAt (fun τ => ρ τ (lamName tn)) v t ∧ ∃ r : Name → ℝ,
      (∀ u ∈ p.controls, |deriv (fun τ => ρ τ u) t - r u| ≤ δ) ∧
      |v + c * eval (real U) (ρ t) ((hexpr p).diff tn) +
        (p.controls.map fun u => eval (real U) (ρ t) ((hexpr p).diff u) * r u).sum| ≤ δ) ∧
    (∀ u ∈ p.controls, ∀ t ∈ Set.Icc a b, DifferentiableAt ℝ (fun τ => ρ τ u) t) ∧
    (∀ u ∈ p.controls, ∀ t ∈ Set.Icc a b,
      |eval (real U) (ρ b) ((hexpr p).diff u) - eval (real U) (ρ t) ((hexpr p).diff u)| ≤ δ * N * (b - t)) ∧
    ∃ d ∈ p'.states, d.name = tn ∧ ∀ (U : Name → Nat → ℝ → ℝ) (σ : Env),
      (∀ e ∈ p'.states ++ p'.costates, Defined (real U) σ e.eom) → eval (real U) σ d.eom = 1 := by
  obtain ⟨qd, h3, hpq, hco⟩ := C30_dualize_partial hS hs hc hcp hp h1
  have hqd := dualize_traditional S p hs hc hcp
  rw [h3] at hqd
  simp only [Except.ok.injEq] at hqd
  obtain ⟨chi, udp, hchil, hupl, hnames, heoms, hini, hter, ⟨om, hom, hmem⟩, hludp, hval⟩ :=
    diffyg_values hS hs hc hcp hp h1 h2 ⟨init, tn, hlast⟩ hfr hlu
  have qco : qd.costates = (p.states.map Dyn.name).map fun x =>
      ⟨lamName x, -((hamiltonianOf p.costPath p.states).diff x)⟩ := by rw [hqd]
  have hn' : (p.states.map Dyn.name ++ (p.states.map Dyn.name).map lamName ++ p.controls).Nodup := by
    rw [List.map_map]; exact hn
  have hconst' : ∀ s ∈ (hexpr p).free, s ∉ p.states.map Dyn.name ++ (p.states.map Dyn.name).map lamName ++ p.controls →
      Moves a b ρ 0 s := by
    rw [List.map_map]; exact hconst
  have hN' : ∀ t ∈ Set.Icc a b, ∀ u ∈ p.controls, ((p.states.map Dyn.name ++ (p.states.map Dyn.name).map lamName ++
      p.controls).map fun x => |eval (real U) (ρ t) (((hexpr p).diff u).diff x)|).sum ≤ N := by
    rw [List.map_map]; exact hN
  have hcu : p.controls.Nodup := (List.nodup_append.1 hn).2.1
  clear hn hconst hN
  simp only [hexpr] at hconst' hsm hN' ⊢
  generalize hHg : hamiltonianOf p.costPath p.states = H at *
  generalize hX : p.states.map Dyn.name = X at *
  have hXl : X.length = p.states.length := by rw [← hX]; simp
  obtain ⟨-, hsolp⟩ := udot_solves hS hludp
  have hnmp := ctlStates_names hupl
  -- names
  have hnl : ((X ++ p.controls) ++ (X.map lamName ++ p.controls.map lamName)).length =
      2 * (p.states.length + p.controls.length) := by simp [hXl]; omega
  have b1 : ∀ i < p.states.length, ((X ++ p.controls) ++ (X.map lamName ++ p.controls.map lamName)).getD i "" =
      X.getD i "" := by
    intro i hi
    rw [getD_append_left' _ _ _ _ (by simp [hXl]; omega), getD_append_left' _ _ _ _ (by omega)]
  have b2 : ∀ j < p.controls.length, ((X ++ p.controls) ++ (X.map lamName ++ p.controls.map lamName)).getD
      (p.states.length + j) "" = p.controls.getD j "" := by
    intro j hj
    rw [getD_append_left' _ _ _ _ (by simp [hXl]; omega), getD_append_right' _ _ _ _ _ hXl]
  have b3 : ∀ i, ((X ++ p.controls) ++ (X.map lamName ++ p.controls.map lamName)).getD
      (i + (p.states.length + p.controls.length)) "" = (X.map lamName ++ p.controls.map lamName).getD i "" := by
    intro i
    rw [Nat.add_comm i, getD_append_right' _ _ _ _ _ (by simp [hXl])]
  have b4 : ∀ i < p.states.length, (X.map lamName ++ p.controls.map lamName).getD i "" = lamName (X.getD i "") := by
    intro i hi
    rw [getD_append_left' _ _ _ _ (by simp [hXl]; omega)]
    have : i < X.length := by omega
    simp [List.getD, List.getElem?_eq_getElem this]
  have bl : ∀ i < p.states.length, (X.map lamName).getD i "" = lamName (X.getD i "") := by
    intro i hi
    have : i < X.length := by omega
    simp [List.getD, List.getElem?_eq_getElem this]
  have hFP : ∀ t ∈ Set.Icc a b,
      (∀ i < p.states.length, NearAt c δ ρ t (X.getD i "") (eval (real U) (ρ t) (chi.getD i 0))) ∧
      (∀ j < p.controls.length, NearAt c δ ρ t (p.controls.getD j "")
        (eval (real U) (ρ t) (chi.getD (p.states.length + j) 0))) ∧
      (∀ i < p.states.length, NearAt c δ ρ t (lamName (X.getD i ""))
        (eval (real U) (ρ t) (chi.getD (i + (p.states.length + p.controls.length)) 0))) := by
    rw [shadows_iff hnames heoms, hnl] at hf
    intro t ht
    refine ⟨fun i hi => ?_, fun j hj => ?_, fun i hi => ?_⟩
    · have := hf t ht i (by omega); rwa [b1 i hi] at this
    · have := hf t ht (p.states.length + j) (by omega); rwa [b2 j hj] at this
    · have := hf t ht (i + (p.states.length + p.controls.length)) (by omega); rwa [b3, b4 i hi] at this
  -- definedness
  have hdchi : ∀ t ∈ Set.Icc a b, ∀ e ∈ chi, Defined (real U) (ρ t) e := by
    intro t ht e he
    rw [← heoms] at he
    obtain ⟨d, hd, rfl⟩ := List.mem_map.1 he
    exact (hdef t ht).1 d hd
  have hdudp : ∀ t ∈ Set.Icc a b, ∀ e ∈ udp, Defined (real U) (ρ t) e := by
    intro t ht e he
    obtain ⟨j, hj, rfl⟩ := List.mem_iff_getElem.1 he
    obtain ⟨row, hrow, hin⟩ := hmem j (by omega)
    have e1 : udp.getD j 0 = udp[j] := by simp [List.getD, List.getElem?_eq_getElem hj]
    rw [e1] at hin
    exact (hdef t ht).2.1 om hom row hrow _ hin
  have hpdc : ∀ t ∈ Set.Icc a b, ∀ i < p.states.length, eval (real U) (ρ t) ((pd.costates.map Dyn.eom).getD i 0) =
      -eval (real U) (ρ t) (H.diff (X.getD i "")) := by
    intro t ht i hi
    have hcl := hco.length_eq
    rw [qco, List.length_map, hXl] at hcl
    have hic : i < pd.costates.length := by omega
    have hi2 : i < X.length := by omega
    have := (List.forall₂_iff_get.1 hco).2 i hic (by rw [qco]; simpa using hi2)
    have h5 := this.2 (real U) (ρ t) ((hdef t ht).2.2 _ (List.get_mem _ _))
    simp only [List.getD, List.getElem?_map, List.getElem?_eq_getElem hic, List.getElem?_eq_getElem hi2, Option.map_some,
      Option.getD_some]
    simp only [List.get_eq_getElem] at h5
    rw [h5]
    simp [qco]
  have hpdn : pd.costates.map Dyn.name = X.map lamName := by
    rw [(diffyg_rates hS hs hc hcp h1).1, ← hX, List.map_map]; rfl
  -- the linear system
  have hP : ∀ t ∈ Set.Icc a b, ∀ u ∈ p.controls,
      ∑ i ∈ Finset.range p.states.length, eval (real U) (ρ t) ((H.diff u).diff (X.getD i "")) *
          eval (real U) (ρ t) ((p.states.map Dyn.eom).getD i 0) +
        ∑ i ∈ Finset.range p.states.length, eval (real U) (ρ t) ((H.diff u).diff (lamName (X.getD i ""))) *
          -eval (real U) (ρ t) (H.diff (X.getD i "")) +
        ∑ j ∈ Finset.range p.controls.length, eval (real U) (ρ t) ((H.diff u).diff (p.controls.getD j "")) *
          eval (real U) (ρ t) (udp.getD j 0) = 0 := by
    intro t ht u hu
    have := hsolp (real U) (ρ t) (hdudp t ht) _ (List.mem_map_of_mem (f := fun u => H.diff u) hu)
    rw [List.map_append, List.sum_append,
      sum_dyn _ hX rfl (fun s e => eval (real U) (ρ t) ((H.diff u).diff s) * eval (real U) (ρ t) e),
      sum_dyn _ hpdn rfl (fun s e => eval (real U) (ρ t) ((H.diff u).diff s) * eval (real U) (ρ t) e),
      sum_dyn _ hnmp (zip_eoms hupl) (fun s e => eval (real U) (ρ t) ((H.diff u).diff s) * eval (real U) (ρ t) e),
      List.length_map, hXl] at this
    rw [← this]
    congr 2
    apply Finset.sum_congr rfl
    intro i hi
    rw [Finset.mem_range] at hi
    rw [bl i hi, hpdc t ht i hi]
  have hidx : ∀ (l : List Name) (s : Name), s ∈ l → ∃ i < l.length, l.getD i "" = s := by
    intro l s hs
    obtain ⟨i, hi, rfl⟩ := List.mem_iff_getElem.1 hs
    exact ⟨i, hi, by simp [List.getD, List.getElem?_eq_getElem hi]⟩
  have hXn : p.states.length - 1 < p.states.length ∧ X.getD (p.states.length - 1) "" = tn := by
    have : p.states.length - 1 = (init.map Dyn.name).length + 0 := by simp [hlast]
    refine ⟨by simp [hlast], ?_⟩
    rw [this, ← hX, hlast, List.map_append, getD_append_right' _ _ _ _ _ rfl]
    simp
  have hglast : ∀ t, ∀ u ∈ p.controls, eval (real U) (ρ t) ((H.diff u).diff (lamName (X.getD (p.states.length - 1) ""))) = 0 := by
    intro t u hu
    rw [hXn.2, ← hHg]
    apply g_last _ _ hfr hlast
    rintro s hs rfl
    rw [List.nodup_append] at hn'
    exact hn'.2.2 (lamName s.name) (by
      simp only [List.mem_append]
      right
      exact List.mem_map_of_mem (by rw [← hX]; exact List.mem_map_of_mem hs)) (lamName s.name) hu rfl
  have hmemc : ∀ j < p.controls.length, p.controls.getD j "" ∈ p.controls := by
    intro j hj
    rw [List.getD, List.getElem?_eq_getElem hj]; exact List.getElem_mem hj
  have hg : ∀ u ∈ p.controls, ∀ t ∈ Set.Icc a b, ∃ v, HasDerivAt (fun τ => eval (real U) (ρ τ) (H.diff u)) v t ∧ |v| ≤ δ * N := by
    intro u hu t ht
    obtain ⟨f1, f2, f3⟩ := hFP t ht
    obtain ⟨v1, v2, v3, -, -⟩ := hval U (ρ t) (hdchi t ht)
    have hder : ∀ s ∈ X ++ X.map lamName ++ p.controls, ∃ v, HasDerivAt (fun τ => ρ τ s) v t := by
      intro s hs
      simp only [List.mem_append] at hs
      rcases hs with (hs | hs) | hs
      · obtain ⟨i, hi, rfl⟩ := hidx _ _ hs
        obtain ⟨w, hw, -⟩ := f1 i (by omega)
        exact ⟨w, hw⟩
      · obtain ⟨x, hx, rfl⟩ := List.mem_map.1 hs
        obtain ⟨i, hi, rfl⟩ := hidx _ _ hx
        obtain ⟨w, hw, -⟩ := f3 i (by omega)
        exact ⟨w, hw⟩
      · obtain ⟨i, hi, rfl⟩ := hidx _ _ hs
        obtain ⟨w, hw, -⟩ := f2 i hi
        exact ⟨w, hw⟩
    have hc0 : ∀ s ∈ (H.diff u).free, s ∉ X ++ X.map lamName ++ p.controls → HasDerivAt (fun τ => ρ τ s) 0 t := by
      intro s hs hns
      exact hconst' s (mem_free_diff hs) hns t ht
    have hd := hasDerivAt_eval (U := U) (ρ := ρ) (v := fun s => _root_.deriv (fun τ => ρ τ s) t) (t := t) hn'
      (e := H.diff u)
      (by
        intro s hs
        by_cases hm : s ∈ X ++ X.map lamName ++ p.controls
        · obtain ⟨v, hv⟩ := hder s hm
          rw [hv.deriv]; exact hv
        · have := hc0 s hs hm
          rw [this.deriv]; exact this)
      (by
        intro s hs
        by_cases hm : s ∈ X ++ X.map lamName ++ p.controls
        · exact Or.inl hm
        · exact Or.inr (hc0 s hs hm).deriv)
      (hsm t ht u hu)
    refine ⟨_, hd, ?_⟩
    have hNu := hN' t ht u hu
    rw [List.map_append, List.map_append, List.sum_append, List.sum_append, List.map_map,
      list_sum_range "" X, list_sum_range "" X, list_sum_range "" p.controls, hXl] at hNu ⊢
    have k := hP t ht u hu
    have s1 := abs_finset_sum_mul_le (n := p.states.length) (f := fun i => eval (real U) (ρ t) ((H.diff u).diff (X.getD i "")))
      (g := fun i => _root_.deriv (fun τ => ρ τ (X.getD i "")) t - c * eval (real U) (ρ t) ((p.states.map Dyn.eom).getD i 0))
      (δ := δ) (by
        intro i hi
        obtain ⟨w, hw, hb⟩ := f1 i hi
        rw [hw.deriv, ← v1 i hi]
        exact hb)
    have s2 := abs_finset_sum_mul_le (n := p.states.length)
      (f := fun i => eval (real U) (ρ t) ((H.diff u).diff (lamName (X.getD i ""))))
      (g := fun i => if i = p.states.length - 1 then 0 else
        _root_.deriv (fun τ => ρ τ (lamName (X.getD i ""))) t - c * -eval (real U) (ρ t) (H.diff (X.getD i "")))
      (δ := δ) (by
        intro i hi
        split
        · rw [abs_zero]; exact hδ
        · next hin =>
          obtain ⟨w, hw, hb⟩ := f3 i hi
          rw [hw.deriv, ← v3 i hi hin]
          exact hb)
    have s3 := abs_finset_sum_mul_le (n := p.controls.length)
      (f := fun j => eval (real U) (ρ t) ((H.diff u).diff (p.controls.getD j "")))
      (g := fun j => _root_.deriv (fun τ => ρ τ (p.controls.getD j "")) t - c * eval (real U) (ρ t) (udp.getD j 0))
      (δ := δ) (by
        intro i hi
        obtain ⟨w, hw, hb⟩ := f2 i hi
        rw [hw.deriv, ← v2 i hi]
        exact hb)
    have e2 : ∑ i ∈ Finset.range p.states.length, eval (real U) (ρ t) ((H.diff u).diff (lamName (X.getD i ""))) *
        (if i = p.states.length - 1 then 0 else
          _root_.deriv (fun τ => ρ τ (lamName (X.getD i ""))) t - c * -eval (real U) (ρ t) (H.diff (X.getD i ""))) =
        ∑ i ∈ Finset.range p.states.length, eval (real U) (ρ t) ((H.diff u).diff (lamName (X.getD i ""))) *
          (_root_.deriv (fun τ => ρ τ (lamName (X.getD i ""))) t - c * -eval (real U) (ρ t) (H.diff (X.getD i ""))) := by
      apply Finset.sum_congr rfl
      intro i _
      by_cases hin : i = p.states.length - 1
      · rw [if_pos hin, hin, hglast t u hu]; ring
      · rw [if_neg hin]
    rw [e2] at s2
    simp only [mul_sub, Finset.sum_sub_distrib, mul_left_comm _ c, ← Finset.mul_sum] at s1 s2 s3
    simp only [Function.comp_apply] at hNu ⊢
    refine le_trans ?_ (mul_le_mul_of_nonneg_left hNu hδ)
    refine le_trans (le_of_eq ?_) ((abs_add_three _ _ _).trans (add_le_add (add_le_add s1 s2) s3) |>.trans (le_of_eq (by ring)))
    congr 1
    linear_combination c * k
  refine ⟨?_, ?_, ?_, ?_, fun u hu t ht => change_le (hg u hu) ht, ?_⟩
  · rw [shadows_iff hX rfl]
    intro t ht i hi
    rw [hXl] at hi
    obtain ⟨v1, -⟩ := hval U (ρ t) (hdchi t ht)
    rw [← v1 i hi]
    exact (hFP t ht).1 i hi
  · intro t ht d hd
    obtain ⟨s, hs, rfl⟩ := List.mem_map.1 hd
    obtain ⟨i, hi, rfl⟩ := List.mem_iff_getElem.1 hs
    rw [List.length_dropLast] at hi
    have hi' : i < p.states.length := by omega
    obtain ⟨-, -, v3, -⟩ := hval U (ρ t) (hdchi t ht)
    have := (hFP t ht).2.2 i hi'
    rw [v3 i hi' (by omega)] at this
    have e : X.getD i "" = (p.states.dropLast[i]'(by simpa using hi)).name := by
      rw [← hX, List.getElem_dropLast]
      simp [List.getD, List.getElem?_eq_getElem hi']
    rw [e] at this
    rw [eval_neg]
    exact this
  · intro t ht
    obtain ⟨-, v2, -, v4, -⟩ := hval U (ρ t) (hdchi t ht)
    obtain ⟨-, f2, f3⟩ := hFP t ht
    obtain ⟨w, hw, hb⟩ := f3 _ hXn.1
    rw [hXn.2] at hw
    refine ⟨w, hw, fun u => c * eval (real U) (ρ t) (udp.getD (p.controls.idxOf u) 0), ?_, ?_⟩
    · intro u hu
      obtain ⟨j, hj, rfl⟩ := hidx _ _ hu
      have e1 : p.controls.idxOf (p.controls.getD j "") = j := by
        rw [List.getD, List.getElem?_eq_getElem hj, Option.getD_some]
        exact hcu.idxOf_getElem j hj
      dsimp only
      rw [e1]
      obtain ⟨w', hw', hb'⟩ := f2 j hj
      rw [hw'.deriv, ← v2 j hj]
      exact hb'
    · rw [v4, hXn.2] at hb
      refine le_trans (le_of_eq ?_) hb
      congr 1
      have e : ∑ j ∈ Finset.range p.controls.length, eval (real U) (ρ t) (H.diff (p.controls.getD j "")) *
          (c * eval (real U) (ρ t) (udp.getD (p.controls.idxOf (p.controls.getD j "")) 0)) =
          c * ∑ j ∈ Finset.range p.controls.length,
            eval (real U) (ρ t) (udp.getD j 0) * eval (real U) (ρ t) (H.diff (p.controls.getD j "")) := by
        rw [Finset.mul_sum]
        apply Finset.sum_congr rfl
        intro j hj
        have hj := Finset.mem_range.1 hj
        have e1 : p.controls.idxOf (p.controls.getD j "") = j := by
          rw [List.getD, List.getElem?_eq_getElem hj, Option.getD_some]
          exact hcu.idxOf_getElem j hj
        rw [e1]; ring
      rw [list_sum_range "" p.controls, e]
      ring
  · intro u hu t ht
    obtain ⟨j, hj, rfl⟩ := hidx _ _ hu
    obtain ⟨w, hw, -⟩ := (hFP t ht).2.1 j hj
    exact hw.differentiableAt
  · have hi : p.states.length - 1 < p'.states.length := by have := hXn.1; omega
    have hi2 : p.states.length - 1 < (p'.states ++ p'.costates).length := by rw [List.length_append]; omega
    refine ⟨p'.states[p.states.length - 1], List.getElem_mem hi, ?_, fun U σ hd => ?_⟩
    · have e : (List.map Dyn.name (p'.states ++ p'.costates)).getD (p.states.length - 1) "" = tn := by
        rw [hnames, b1 _ hXn.1, hXn.2]
      rw [List.getD, List.getElem?_map, List.getElem?_eq_getElem hi2, List.getElem_append_left hi] at e
      exact e
    · have e : (List.map Dyn.eom (p'.states ++ p'.costates)).getD (p.states.length - 1) 0 =
          p'.states[p.states.length - 1].eom := by
        rw [List.getD, List.getElem?_map, List.getElem?_eq_getElem hi2, List.getElem_append_left hi]
        rfl
      have hdc : ∀ e ∈ chi, Defined (real U) σ e := by
        intro e he
        rw [← heoms] at he
        obtain ⟨d, hd', rfl⟩ := List.mem_map.1 he
        exact hd d hd'
      rw [← e, heoms, (hval U σ hdc).1 _ hXn.1, hlast]
      simp [List.getD]

end Beluga.Opt
