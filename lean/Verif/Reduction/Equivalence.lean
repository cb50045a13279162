import Verif.Reduction.Props

/-! # Reduction by constants of motion: equivalence and violations (C68) -/

namespace Beluga.Sym

open Expr Set

section
variable {T : Tools} {p : Prob} {k i : Nat} {x l c : Name} {fx fl : Expr}

theorem eval_lift_of_free {x l q c : Name} {U : Name → Nat → ℝ → ℝ} {ρ : ℝ → Name → ℝ} {t : ℝ} {e : Expr} (h : Unaffected x l e) :
    eval (real U) (liftCurve x l q c ρ t) e = eval (real U) (ρ t) e :=
  h U _ _ fun s hx hl => by rw [liftCurve, if_neg hx, if_neg hl]

/-- The rate of the new quadrature is the rate of the state. -/
theorem eval_rate (h : Cyclic p k x l c i fx fl) (hu : UnitColumn (p.omega.getD []) p.states.length i) (U : Name → Nat → ℝ → ℝ)
    (ρ : Name → ℝ) :
    eval (real U) ρ (((p.states ++ p.costates).zip (field (p.omega.getD []) ((p.states ++ p.costates).map Dyn.name) (sym l))).foldl
      (fun acc dh => acc + dh.1.eom * dh.2) 0) = eval (real U) ρ fx := by
  set F := field (p.omega.getD []) ((p.states ++ p.costates).map Dyn.name) (sym l) with hF
  have hFlen : F.length = (p.states ++ p.costates).length := by
    rw [hF, field, List.length_map, List.length_range, List.length_map]
  have hlen : (p.states ++ p.costates).length = 2 * p.states.length := by
    have := h.length
    rwa [List.length_map] at this
  have hz : (p.states ++ p.costates).zip F = (p.states ++ p.costates).zipIdx.map fun dj => (dj.1, F.getD dj.2 0) := by
    apply List.ext_getElem?
    intro r
    rw [List.getElem?_map, List.getElem?_zipIdx]
    by_cases hr : r < (p.states ++ p.costates).length
    · rw [List.getElem?_eq_getElem (by rw [List.length_zip, hFlen]; omega), List.getElem?_eq_getElem hr]
      simp only [List.getElem_zip, Option.map_some, List.getD_eq_getElem?_getD, Nat.zero_add]
      rw [List.getElem?_eq_getElem (by omega), Option.getD_some]
    · rw [List.getElem?_eq_none (by rw [List.length_zip, hFlen]; omega), List.getElem?_eq_none (by omega)]
      rfl
  rw [eval_foldl (fun dh : Dyn × Expr => dh.1.eom * dh.2), eval_zero, zero_add, hz, List.map_map, sum_single_idx _ i]
  · rw [if_pos (Nat.zero_le _), Nat.sub_zero, List.getElem?_append_left h.idx_lt, h.state]
    simp only [Function.comp_apply, eval_mul]
    rw [hF, eval_field h.length h.name_l h.names_nodup hu U ρ (by have := h.idx_lt; omega), if_pos rfl, mul_one]
  · intro a ha hne
    have hr : a.2 < 2 * p.states.length := by
      rw [List.mem_zipIdx_iff_getElem?] at ha
      exact hlen ▸ (List.getElem?_eq_some_iff.1 ha).1
    simp only [Function.comp_apply, eval_mul]
    rw [hF, eval_field h.length h.name_l h.names_nodup hu U ρ hr, if_neg hne, mul_zero]

theorem Cyclic.cases (h : Cyclic p k x l c i fx fl) {d : Dyn} (hd : d ∈ p.states ++ p.costates) :
    d = ⟨x, fx⟩ ∨ d = ⟨l, fl⟩ ∨ (d.name ≠ x ∧ d.name ≠ l ∧
      ∀ f, (⟨d.name, f d.eom⟩ : Dyn) ∈ kept f (p.states.length + i) i p.states 0 ++ kept f (p.states.length + i) i p.costates p.states.length) := by
  obtain ⟨r, hr, hdr⟩ := List.getElem_of_mem hd
  have hn : ((p.states ++ p.costates).map Dyn.name)[r]? = some d.name := by
    rw [List.getElem?_map, List.getElem?_eq_getElem hr, hdr]
    rfl
  have inj : ∀ {r s : Nat} {n : Name}, ((p.states ++ p.costates).map Dyn.name)[r]? = some n →
      ((p.states ++ p.costates).map Dyn.name)[s]? = some n → r = s := by
    intro r s n h1 h2
    obtain ⟨h3, h4⟩ := List.getElem?_eq_some_iff.1 h1
    obtain ⟨h5, h6⟩ := List.getElem?_eq_some_iff.1 h2
    exact (List.Nodup.getElem_inj_iff h.names_nodup).1 (h4.trans h6.symm)
  have hdr' : (p.states ++ p.costates)[r]? = some d := by rw [List.getElem?_eq_getElem hr, hdr]
  have hi := h.idx_lt
  by_cases h1 : r = i
  · subst h1
    rw [List.getElem?_append_left hi, h.state] at hdr'
    exact Or.inl (Option.some.inj hdr').symm
  · by_cases h2 : r = p.states.length + i
    · subst h2
      rw [List.getElem?_append_right (by omega), Nat.add_sub_cancel_left, h.costate] at hdr'
      exact Or.inr (Or.inl (Option.some.inj hdr').symm)
    · refine Or.inr (Or.inr ⟨?_, ?_, fun f => ?_⟩)
      · intro e
        rw [e] at hn
        exact h1 (inj hn h.name_x)
      · intro e
        rw [e] at hn
        exact h2 (inj hn h.name_l)
      · rw [List.mem_append, mem_kept, mem_kept]
        by_cases h3 : r < p.states.length
        · rw [List.getElem?_append_left h3] at hdr'
          exact Or.inl ⟨r, d, hdr', by omega, by omega, rfl⟩
        · rw [List.getElem?_append_right (by omega)] at hdr'
          exact Or.inr ⟨r - p.states.length, d, hdr', by omega, by omega, rfl⟩

/-- Every kept state or costate stems from one of the problem. -/
theorem Cyclic.of_kept (h : Cyclic p k x l c i fx fl) {f : Expr → Expr} {d : Dyn}
    (hd : d ∈ kept f (p.states.length + i) i p.states 0 ++ kept f (p.states.length + i) i p.costates p.states.length) :
    ∃ e ∈ p.states ++ p.costates, d = ⟨e.name, f e.eom⟩ ∧ e.name ≠ x ∧ e.name ≠ l := by
  have inj : ∀ {r s : Nat} {n : Name}, ((p.states ++ p.costates).map Dyn.name)[r]? = some n →
      ((p.states ++ p.costates).map Dyn.name)[s]? = some n → r = s := by
    intro r s n h1 h2
    obtain ⟨h3, h4⟩ := List.getElem?_eq_some_iff.1 h1
    obtain ⟨h5, h6⟩ := List.getElem?_eq_some_iff.1 h2
    exact (List.Nodup.getElem_inj_iff h.names_nodup).1 (h4.trans h6.symm)
  have key : ∀ r e, (p.states ++ p.costates)[r]? = some e → r ≠ p.states.length + i → r ≠ i → d = ⟨e.name, f e.eom⟩ →
      ∃ e ∈ p.states ++ p.costates, d = ⟨e.name, f e.eom⟩ ∧ e.name ≠ x ∧ e.name ≠ l := by
    intro r e h1 h2 h3 h4
    have hn : ((p.states ++ p.costates).map Dyn.name)[r]? = some e.name := by rw [List.getElem?_map, h1]; rfl
    refine ⟨e, List.mem_of_getElem? h1, h4, fun e1 => ?_, fun e1 => ?_⟩
    · rw [e1] at hn
      exact h3 (inj hn h.name_x)
    · rw [e1] at hn
      exact h2 (inj hn h.name_l)
  rw [List.mem_append, mem_kept, mem_kept] at hd
  rcases hd with ⟨r, e, h1, h2, h3, h4⟩ | ⟨r, e, h1, h2, h3, h4⟩
  · exact key r e (by rw [List.getElem?_append_left (List.getElem?_eq_some_iff.1 h1).1]; exact h1) (by omega) (by omega) h4
  · exact key (p.states.length + r) e (by rw [List.getElem?_append_right (by omega), Nat.add_sub_cancel_left]; exact h1) (by omega) (by omega) h4

theorem Cyclic.quad_names (h : Cyclic p k x l c i fx fl) {d : Dyn} (hd : d ∈ p.quads ++ p.coparameters) : d.name ≠ x ∧ d.name ≠ l := by
  have hn := (List.nodup_append.1 h.names).1
  have hd' : p.dyns = (p.states ++ p.costates) ++ (p.quads ++ p.coparameters) := by simp [Prob.dyns]
  rw [hd', List.map_append] at hn
  have := (List.nodup_append.1 hn).2.2
  constructor
  · intro e
    exact this x (List.mem_of_getElem? h.name_x) _ (List.mem_map_of_mem hd) e.symm
  · intro e
    exact this l (List.mem_of_getElem? h.name_l) _ (List.mem_map_of_mem hd) e.symm

theorem kept_none (f : Expr → Expr) (pi qi : Nat) : ∀ (L : List Dyn) (off : Nat), (∀ r < L.length, off + r ≠ pi ∧ off + r ≠ qi) →
    (kept f pi qi L off).length = L.length
  | [], _, _ => rfl
  | d :: L, off, h => by
    have ih := kept_none f pi qi L (off + 1) fun r hr => by
      have := h (r + 1) (by simp; omega)
      omega
    rw [kept] at ih ⊢
    rw [List.zipIdx_cons, List.filter_cons_of_pos (by simpa using h 0 (by simp)), List.map_cons, List.length_cons, ih, List.length_cons]

theorem kept_length (f : Expr → Expr) (pi qi : Nat) : ∀ (m : Nat) (L : List Dyn) (off : Nat), m < L.length → (off + m = pi ∨ off + m = qi) →
    (∀ r < L.length, r ≠ m → off + r ≠ pi ∧ off + r ≠ qi) → (kept f pi qi L off).length + 1 = L.length
  | _, [], _, hm, _, _ => by simp at hm
  | 0, d :: L, off, _, h, h' => by
    have ih := kept_none f pi qi L (off + 1) fun r hr => by
      have := h' (r + 1) (by simp; omega) (by omega)
      omega
    rw [kept] at ih ⊢
    rw [List.zipIdx_cons, List.filter_cons_of_neg (by simp; omega), ih, List.length_cons]
  | m + 1, d :: L, off, hm, h, h' => by
    have ih := kept_length f pi qi m L (off + 1) (by simpa using hm) (by omega) fun r hr hne => by
      have := h' (r + 1) (by simp; omega) (by omega)
      omega
    rw [kept] at ih ⊢
    rw [List.zipIdx_cons, List.filter_cons_of_pos (by simpa using h' 0 (by simp) (by omega)), List.map_cons, List.length_cons, ih, List.length_cons]

/-- The equations of the reduced problem. -/
theorem reduced_dyns (d : Dyn) : d ∈ (reduced p k i x l c).dyns ↔
    d ∈ kept (sub2 [(l, sym c)] [(x, sym p.newQuad)]) (p.states.length + i) i p.states 0 ++
      kept (sub2 [(l, sym c)] [(x, sym p.newQuad)]) (p.states.length + i) i p.costates p.states.length ∨
    d ∈ p.quads ++ p.coparameters ∨ d ∈ [(⟨p.newQuad, ((p.states ++ p.costates).zip (field (p.omega.getD [])
      ((p.states ++ p.costates).map Dyn.name) (sym l))).foldl (fun acc dh => acc + dh.1.eom * dh.2) 0⟩ : Dyn)] := by
  simp only [Prob.dyns, reduced, List.mem_append]
  tauto

/-- Every solution of the reduced problem gives a solution of the full one, and the other way round, if the new name of the
quadrature is not in use. -/
theorem C68_equivalent_partial (h : Cyclic p k x l c i fx fl) (hT : SolvesFor T p x l c) (hs : symplectic T p.omega = true)
    (hu : UnitColumn (p.omega.getD []) p.states.length i) (hlaw : p.controlLaw = []) (hq : p.newQuad ∉ p.symbols) (hcq : c ≠ p.newQuad)
    (U : Name → Nat → ℝ → ℝ) {a b : ℝ} (hab : a ≤ b) :
    ∃ p', mfReduce T k p = .ok p' ∧
      (∀ ρ, Solution U p' a b ρ → Solution U p a b (liftCurve x l p.newQuad c ρ)) ∧
      (∀ ρ, Solution U p a b ρ → Solution U p' a b (dropCurve x l p.newQuad c a ρ)) := by
  refine ⟨_, by rw [mfReduce_eq h hT hs hu, if_pos hlaw], ?_, ?_⟩
  all_goals
    have hxc : c ≠ x := h.c_ne h.mem_x
    have hlc : c ≠ l := h.c_ne h.mem_l
    have hxl := h.x_ne_l
    have hqd : ∀ d ∈ p.dyns, p.newQuad ≠ d.name := by
      intro d hd e
      apply hq
      rw [e]
      simp only [Prob.symbols, List.mem_append]
      exact Or.inl (Or.inl (Or.inl (List.mem_map_of_mem hd)))
    have hxq : x ≠ p.newQuad := (hqd _ h.mem_x).symm
    have hlq : l ≠ p.newQuad := (hqd _ h.mem_l).symm
  · intro ρ hρ
    have hcpar : c ∈ (reduced p k i x l c).fixed := by simp [Prob.fixed, reduced]
    refine ⟨fun d hd t ht => ?_, fun s hs t ht => ?_, fun e he => ?_, fun e he => ?_⟩
    · have hd' : d ∈ (p.states ++ p.costates) ∨ d ∈ p.quads ++ p.coparameters := by
        simp only [Prob.dyns, List.mem_append] at hd ⊢
        tauto
      rcases hd' with hd' | hd'
      · rcases h.cases hd' with rfl | rfl | ⟨h1, h2, h3⟩
        · have hr := hρ.rates ⟨p.newQuad, _⟩ ((reduced_dyns _).2 (Or.inr (Or.inr (List.mem_singleton_self _)))) t ht
          rw [eval_rate h hu] at hr
          rw [eval_lift_of_free h.rate]
          refine hr.congr_of_mem (fun s _ => ?_) ht
          simp [liftCurve]
        · rw [h.conserved]
          refine (hasDerivWithinAt_const t (Icc a b) (ρ a c)).congr_of_mem (fun s hs => ?_) ht
          have := hρ.fixed c hcpar s hs
          simp [liftCurve, hxl.symm, this]
        · have hr := hρ.rates _ ((reduced_dyns _).2 (Or.inl (h3 _))) t ht
          rw [eval_sub2 hlc.symm hxq hxc hxl] at hr
          refine hr.congr_of_mem (fun s _ => ?_) ht
          simp [liftCurve, h1, h2]
      · have hr := hρ.rates d ((reduced_dyns _).2 (Or.inr (Or.inl hd'))) t ht
        obtain ⟨h1, h2⟩ := h.quad_names hd'
        rw [eval_lift_of_free (h.quads d hd')]
        refine hr.congr_of_mem (fun s _ => ?_) ht
        simp [liftCurve, h1, h2]
    · have h1 : s ≠ x := by rintro rfl; exact h.ne_fixed h.mem_x hs
      have h2 : s ≠ l := by rintro rfl; exact h.ne_fixed h.mem_l hs
      have := hρ.fixed s (by
        simp only [Prob.fixed, reduced, List.mem_append] at hs ⊢
        tauto) t ht
      simpa [liftCurve, h1, h2] using this
    · have := hρ.initial (subCon _ e) (List.mem_map_of_mem he)
      rw [subCon] at this
      rwa [eval_sub2 hlc.symm hxq hxc hxl] at this
    · have := hρ.terminal (subCon _ e) (List.mem_map_of_mem he)
      rw [subCon] at this
      rwa [eval_sub2 hlc.symm hxq hxc hxl] at this
  · intro ρ hρ
    have hconst : ∀ t ∈ Icc a b, ρ t l = ρ a l := by
      have hd : ∀ t ∈ Icc a b, HasDerivWithinAt (fun s => ρ s l) 0 (Icc a b) t := by
        intro t ht
        have := hρ.rates _ h.mem_l t ht
        rwa [h.conserved] at this
      refine constant_of_has_deriv_right_zero (f := fun s => ρ s l) (fun t ht => (hd t ht).continuousWithinAt) fun t ht => ?_
      have := hd t (Ico_subset_Icc_self ht)
      exact this.mono_of_mem_nhdsWithin (Icc_mem_nhdsGE_of_mem ht)
    have hback : ∀ t ∈ Icc a b, ∀ e : Expr, p.newQuad ∉ e.free → c ∉ e.free →
        eval (real U) (liftCurve x l p.newQuad c (dropCurve x l p.newQuad c a ρ) t) e = eval (real U) (ρ t) e := by
      intro t ht e h1 h2
      refine eval_congr _ fun s hs => ?_
      have h3 : s ≠ p.newQuad := by rintro rfl; exact h1 hs
      have h4 : s ≠ c := by rintro rfl; exact h2 hs
      by_cases h5 : s = x
      · simp [liftCurve, dropCurve, h5]
      · by_cases h6 : s = l
        · simp [liftCurve, dropCurve, h6, hxl.symm, hcq, hconst t ht]
        · simp [liftCurve, dropCurve, h3, h4, h5, h6]
    have hdrop : ∀ t, ∀ e : Expr, p.newQuad ∉ e.free → c ∉ e.free →
        eval (real U) (dropCurve x l p.newQuad c a ρ t) e = eval (real U) (ρ t) e := by
      intro t e h1 h2
      refine eval_congr _ fun s hs => ?_
      have h3 : s ≠ p.newQuad := by rintro rfl; exact h1 hs
      have h4 : s ≠ c := by rintro rfl; exact h2 hs
      simp [dropCurve, h3, h4]
    have hnot : ∀ d ∈ p.dyns, p.newQuad ∉ d.eom.free ∧ c ∉ d.eom.free := by
      intro d hd
      constructor <;> intro hf
      · apply hq
        simp only [Prob.symbols, List.mem_append, List.mem_flatMap]
        exact Or.inl (Or.inr ⟨d, hd, hf⟩)
      · apply h.fresh
        simp only [Prob.symbols, List.mem_append, List.mem_flatMap]
        exact Or.inl (Or.inr ⟨d, hd, hf⟩)
    have hnotc : ∀ e ∈ p.initial ++ p.terminal, p.newQuad ∉ e.expr.free ∧ c ∉ e.expr.free := by
      intro e he
      constructor <;> intro hf
      · apply hq
        rw [Prob.symbols]
        exact List.mem_append_right _ (List.mem_flatMap.2 ⟨e, he, hf⟩)
      · apply h.fresh
        rw [Prob.symbols]
        exact List.mem_append_right _ (List.mem_flatMap.2 ⟨e, he, hf⟩)
    refine ⟨fun d hd t ht => ?_, fun s hs t ht => ?_, fun e he => ?_, fun e he => ?_⟩
    · rcases (reduced_dyns d).1 hd with hd | hd | hd
      · obtain ⟨e, he, rfl, h1, h2⟩ := h.of_kept hd
        have he' : e ∈ p.dyns := by
          simp only [Prob.dyns, List.mem_append] at he ⊢
          tauto
        have hr := hρ.rates e he' t ht
        simp only
        rw [eval_sub2 hlc.symm hxq hxc hxl, hback t ht _ (hnot e he').1 (hnot e he').2]
        refine hr.congr_of_mem (fun s _ => ?_) ht
        simp [dropCurve, (hqd e he').symm, (h.c_ne he').symm]
      · have hd' : d ∈ p.dyns := by
          simp only [Prob.dyns, List.mem_append] at hd ⊢
          tauto
        rw [hdrop t _ (hnot d hd').1 (hnot d hd').2]
        refine (hρ.rates d hd' t ht).congr_of_mem (fun s _ => ?_) ht
        simp [dropCurve, (hqd d hd').symm, (h.c_ne hd').symm]
      · rw [List.mem_singleton] at hd
        subst hd
        simp only
        rw [eval_rate h hu, hdrop t _ (hnot _ h.mem_x).1 (hnot _ h.mem_x).2]
        refine (hρ.rates _ h.mem_x t ht).congr_of_mem (fun s _ => ?_) ht
        simp [dropCurve]
    · have hs' : s ∈ p.fixed ∨ s = c := by
        simp only [Prob.fixed, reduced, List.mem_append, List.mem_singleton] at hs ⊢
        tauto
      rcases hs' with hs' | rfl
      · have h1 : s ≠ p.newQuad := by
          rintro rfl
          apply hq
          simp only [Prob.symbols, List.mem_append]
          exact Or.inl (Or.inl (Or.inr hs'))
        have h2 : s ≠ c := by
          rintro rfl
          apply h.fresh
          simp only [Prob.symbols, List.mem_append]
          exact Or.inl (Or.inl (Or.inr hs'))
        simpa [dropCurve, h1, h2] using hρ.fixed s hs' t ht
      · simp [dropCurve, hcq]
    · obtain ⟨e0, he0, rfl⟩ := List.mem_map.1 he
      have := hnotc e0 (List.mem_append_left _ he0)
      rw [subCon, eval_sub2 hlc.symm hxq hxc hxl, hback a (left_mem_Icc.2 hab) _ this.1 this.2]
      exact hρ.initial e0 he0
    · obtain ⟨e0, he0, rfl⟩ := List.mem_map.1 he
      have := hnotc e0 (List.mem_append_right _ he0)
      rw [subCon, eval_sub2 hlc.symm hxq hxc hxl, hback b (right_mem_Icc.2 hab) _ this.1 this.2]
      exact hρ.terminal e0 he0

/-- The reduced problem has one state, one costate less, one quadrature and one parameter more, and as many conditions. -/
theorem C68_size (h : Cyclic p k x l c i fx fl) (hT : SolvesFor T p x l c) (hs : symplectic T p.omega = true)
    (hu : UnitColumn (p.omega.getD []) p.states.length i) (hlaw : p.controlLaw = []) :
    ∃ p', mfReduce T k p = .ok p' ∧ p'.states.length + 1 = p.states.length ∧ p'.costates.length + 1 = p.costates.length ∧
      p'.quads.length = p.quads.length + 1 ∧ p'.parameters.length = p.parameters.length + 1 ∧
      p'.initial.length = p.initial.length ∧ p'.terminal.length = p.terminal.length := by
  refine ⟨_, by rw [mfReduce_eq h hT hs hu, if_pos hlaw], ?_, ?_, by simp [reduced], by simp [reduced], by simp [reduced], by simp [reduced]⟩
  · have := kept_length (sub2 [(l, sym c)] [(x, sym p.newQuad)]) (p.states.length + i) i i p.states 0 h.idx_lt (by omega) (fun r hr _ => by omega)
    exact this
  · have := kept_length (sub2 [(l, sym c)] [(x, sym p.newQuad)]) (p.states.length + i) i i p.costates p.states.length
      (h.paired ▸ h.idx_lt) (by omega) (fun r hr _ => by have := h.idx_lt; omega)
    exact this

/-- The coordinate that replaces the removed state is this state, wherever the constant of motion is not zero, if integration
is right about zero and about integrands without the variable. -/
theorem C68_conjugate (h : Cyclic p k x l c i fx fl)
    (hint0 : ∀ e y, (∀ U ρ, eval (real U) ρ e = 0) → ∀ U ρ, eval (real U) ρ (T.integrate e y) = 0)
    (hint1 : ∀ e a y, y ∉ free a → (∀ U ρ, eval (real U) ρ e = eval (real U) ρ a) →
      ∀ U ρ, eval (real U) ρ (T.integrate e y) = eval (real U) ρ a * ρ y)
    (hu : UnitColumn (p.omega.getD []) p.states.length i) (U : Name → Nat → ℝ → ℝ) (ρ : Name → ℝ) (h0 : ρ c ≠ 0) :
    eval (real U) ρ (conjugate T (c, sym l) ((p.states ++ p.costates).map Dyn.name)
      (field (p.omega.getD []) ((p.states ++ p.costates).map Dyn.name) (sym l)) [(l, sym c)]) = ρ x := by
  refine conjugate_value hint0 hint1 (n := p.states.length) ?_ h.idx_lt h.name_x h.name_l h.names_nodup ?_ hu U ρ h0
  · simp [h.paired]; omega
  · intro hc
    obtain ⟨d, hd, e⟩ := List.mem_map.1 hc
    exact h.c_ne (d := d) (by simp only [Prob.dyns, List.mem_append] at hd ⊢; tauto) e.symm

/-- Where a row or column of the reduced form was before. -/
def skipTwo (i j r : Nat) : Nat := if r < i then r else if r + 1 < j then r + 1 else r + 2

theorem getD_eraseIdx {α : Type} (l : List α) (j r : Nat) (d : α) :
    (l.eraseIdx j).getD r d = l.getD (if r < j then r else r + 1) d := by
  rw [List.getD_eq_getElem?_getD, List.getD_eq_getElem?_getD, List.getElem?_eraseIdx]
  split <;> rfl

theorem getD_deleteTwo (om : List (List Expr)) {i j : Nat} (hij : i < j) (r s : Nat) :
    ((deleteTwo om j i).getD r []).getD s 0 = ((om.getD (skipTwo i j r) []).getD (skipTwo i j s) 0) := by
  have hm : ∀ (m : List (List Expr)) q r s, ((m.map fun row => row.eraseIdx q).getD r []).getD s 0 =
      (m.getD r []).getD (if s < q then s else s + 1) 0 := by
    intro m q r s
    rw [← getD_eraseIdx, List.getD_eq_getElem?_getD (l := m.map _), List.getElem?_map, List.getD_eq_getElem?_getD (l := m)]
    cases m[r]? <;> simp
  have hk : ∀ r, (if (if r < i then r else r + 1) < j then (if r < i then r else r + 1) else (if r < i then r else r + 1) + 1) =
      skipTwo i j r := by
    intro r
    unfold skipTwo
    split <;> split <;> omega
  rw [deleteTwo, if_pos hij, hm, getD_eraseIdx, hm, getD_eraseIdx, hk, hk]

/-- The reduced form consists of the other rows and columns, and the other constants of motion are kept in order. -/
theorem C68_form (h : Cyclic p k x l c i fx fl) (hT : SolvesFor T p x l c) (hs : symplectic T p.omega = true)
    (hu : UnitColumn (p.omega.getD []) p.states.length i) (hlaw : p.controlLaw = []) :
    ∃ p' om', mfReduce T k p = .ok p' ∧ p'.omega = some om' ∧ (∀ r s, (om'.getD r []).getD s 0 =
        ((p.omega.getD []).getD (skipTwo i (p.states.length + i) r) []).getD (skipTwo i (p.states.length + i) s) 0) ∧
      p'.coms.map Prod.fst = (p.coms.map Prod.fst).eraseIdx k := by
  refine ⟨_, _, by rw [mfReduce_eq h hT hs hu, if_pos hlaw], rfl, ?_, ?_⟩
  · have := h.idx_lt
    exact fun r s => getD_deleteTwo _ (by omega) r s
  · simp only [reduced, List.map_map]
    have key : ∀ (l : List (Name × Expr)) (g : Expr → Expr) off, k + off = k + off →
        ((l.zipIdx off).filter fun ci => ci.2 ≠ k + off).map (Prod.fst ∘ fun ci : (Name × Expr) × Nat => (ci.1.1, g ci.1.2)) =
          (l.map Prod.fst).eraseIdx k := by
      clear * -
      intro l g off _
      induction l generalizing off k with
      | nil => simp
      | cons a l ih =>
        cases k with
        | zero =>
          have : (l.zipIdx (off + 1)).filter (fun ci => decide (ci.2 ≠ 0 + off)) = l.zipIdx (off + 1) := by
            rw [List.filter_eq_self]
            intro ci hci
            have := List.le_snd_of_mem_zipIdx hci
            simp; omega
          rw [List.zipIdx_cons, List.filter_cons_of_neg (by simp), this]
          apply List.ext_getElem?
          intro r
          simp [List.getElem?_zipIdx, Function.comp_def]
        | succ k =>
          have := ih (k := k) (off + 1)
          rw [show k + (off + 1) = k + 1 + off by omega] at this
          rw [List.zipIdx_cons, List.filter_cons_of_pos (by simp), List.map_cons, this rfl]
          simp
    exact key p.coms _ 0 rfl

/-- Without a form nothing is reduced; a constant of motion that does not exist is reported. -/
theorem C68_refused (T : Tools) (k : Nat) (p : Prob) :
    (p.omega = none → mfReduce T k p = .ok p) ∧
    (symplectic T p.omega = true → p.coms.length ≤ k → mfReduce T k p = .error .indexError) := by
  constructor
  · intro h
    rw [mfReduce, h]
    simp [symplectic]
  · intro h hk
    rw [mfReduce, if_neg (by simp [h]), List.getElem?_eq_none hk]

/-- Violation: with the algebraic control law, which stores a list of tuples, the reduction fails. -/
theorem C68_violated_algebraic (h : Cyclic p k x l c i fx fl) (hT : SolvesFor T p x l c) (hs : symplectic T p.omega = true)
    (hu : UnitColumn (p.omega.getD []) p.states.length i) (hlaw : p.controlLaw ≠ []) : mfReduce T k p = .error .attributeError := by
  rw [mfReduce_eq h hT hs hu, if_neg hlaw]

end

/-- The forms that `Dualize` and `DifferentialControlLaw` build have the required column, for every state that is not a control. -/
theorem C68_forms (n m kt i : Nat) (udot : List Expr) (hkt : kt < n) (hi : i + m < n) :
    UnitColumn (standardForm n) n i ∧ UnitColumn (controlForm n m kt udot) n i := by
  constructor <;> intro r hr U ρ
  · rw [standardForm, List.getD_eq_getElem?_getD, List.getD_eq_getElem?_getD, List.getElem?_map, List.getElem?_range hr]
    simp only [Option.map_some, Option.getD_some]
    rw [List.getElem?_map, List.getElem?_range (by omega)]
    simp only [Option.map_some, Option.getD_some]
    rw [if_neg (by omega)]
    by_cases h : r = i
    · rw [if_pos (by omega), if_pos h]; simp [eval]
    · rw [if_neg (by omega), if_neg h]; simp [eval]
  · rw [controlForm, List.getD_eq_getElem?_getD, List.getD_eq_getElem?_getD, List.getElem?_map, List.getElem?_range hr]
    simp only [Option.map_some, Option.getD_some]
    rw [List.getElem?_map, List.getElem?_range (by omega)]
    simp only [Option.map_some, Option.getD_some]
    rw [if_neg (by omega), if_neg (by omega), if_neg (by omega)]
    by_cases h : r = i
    · rw [if_pos (by omega), if_pos h]; simp [eval]
    · rw [if_neg (by omega), if_neg h]; simp [eval]

/-! ### Concrete cases -/

/-- Folding of numbers. -/
def numOf : Expr → Option ℚ
  | num q => some q
  | add a b => match numOf a, numOf b with
    | some x, some y => some (x + y)
    | _, _ => none
  | mul a b => match numOf a, numOf b with
    | some x, some y => some (x * y)
    | some x, none => if x = 0 then some 0 else none
    | none, some y => if y = 0 then some 0 else none
    | none, none => none
  | _ => none

theorem numOf_sound (U : Name → Nat → ℝ → ℝ) (ρ : Name → ℝ) : ∀ {e : Expr} {q : ℚ}, numOf e = some q → eval (real U) ρ e = q
  | num q, r, h => by simp only [numOf, Option.some.injEq] at h; rw [← h]; rfl
  | add a b, r, h => by
    simp only [numOf] at h
    split at h
    · next x y hx hy =>
      cases h
      simp only [eval]
      rw [numOf_sound U ρ hx, numOf_sound U ρ hy]
      push_cast
      rfl
    · cases h
  | mul a b, r, h => by
    simp only [numOf] at h
    split at h
    · next x y hx hy =>
      cases h
      simp only [eval]
      rw [numOf_sound U ρ hx, numOf_sound U ρ hy]
      push_cast
      rfl
    · next x hx hy =>
      split at h
      · next h0 =>
        cases h
        simp only [eval]
        rw [numOf_sound U ρ hx, h0]
        simp
      · cases h
    · next y hx hy =>
      split at h
      · next h0 =>
        cases h
        simp only [eval]
        rw [numOf_sound U ρ hy, h0]
        simp
      · cases h
    · cases h
  | Expr.pi, _, h => by simp [numOf] at h
  | sym _, _, h => by simp [numOf] at h
  | inv _, _, h => by simp [numOf] at h
  | pow _ _, _, h => by simp [numOf] at h
  | fn _ _, _, h => by simp [numOf] at h

/-- A sympy that gives the answers `ps` and `qs` to the two questions. -/
def answers (l x : Name) (ps qs : List (Name × Expr)) : Tools where
  solve := fun _ syms => if l ∈ syms then [ps] else if x ∈ syms then [qs] else []
  lu := fun _ b => .ok b
  integrate := fun e y => e * sym y
  zero := fun e => numOf e = some 0

/-- `x' = v`, `v' = w`, with constant costate of `x`. -/
def cyclicEx : Prob where
  states := [⟨"x", sym "v"⟩, ⟨"v", sym "_lam_v"⟩]
  costates := [⟨"_lam_x", num 0⟩, ⟨"_lam_v", -sym "_lam_x"⟩]
  initial := [⟨sym "x", none, none, none, .utm⟩, ⟨sym "v", none, none, none, .utm⟩]
  terminal := [⟨sym "x" - num 1, none, none, none, .utm⟩, ⟨sym "_lam_x" + sym "_lam_v", none, none, none, .utm⟩]
  coms := [("hamiltonian", sym "_lam_x" * sym "v"), ("com_0", sym "_lam_x")]
  omega := some (standardForm 2)
  sympified := true
  dualized := true

/-- sympy's answers for `cyclicEx`. -/
def cyclicTools : Tools := answers "_lam_x" "x" [("_lam_x", sym "com_0")] [("x", sym "_q_0")]

theorem cyclicEx_ok : Cyclic cyclicEx 1 "x" "_lam_x" "com_0" 0 (sym "v") (num 0) ∧ SolvesFor cyclicTools cyclicEx "x" "_lam_x" "com_0" ∧
    symplectic cyclicTools cyclicEx.omega = true := by
  refine ⟨⟨rfl, rfl, rfl, rfl, by decide, by decide, unaffected_of_free (by decide), by simp [cyclicEx], fun U ρ => by simp [eval]⟩, ⟨?_, by decide, by decide⟩, by decide +kernel⟩
  intro e he U ρ
  have := numOf_sound U ρ (of_decide_eq_true he)
  simpa using this

example (U : Name → Nat → ℝ → ℝ) : ∃ p', mfReduce cyclicTools 1 cyclicEx = .ok p' ∧
    (∀ ρ, Solution U p' 0 1 ρ → Solution U cyclicEx 0 1 (liftCurve "x" "_lam_x" "_q_0" "com_0" ρ)) ∧
    (∀ ρ, Solution U cyclicEx 0 1 ρ → Solution U p' 0 1 (dropCurve "x" "_lam_x" "_q_0" "com_0" 0 ρ)) :=
  C68_equivalent_partial cyclicEx_ok.1 cyclicEx_ok.2.1 cyclicEx_ok.2.2 (C68_forms 2 0 0 0 [] (by omega) (by omega)).1 rfl (by decide) (by decide) U
    zero_le_one

example : ∃ p' om', mfReduce cyclicTools 1 cyclicEx = .ok p' ∧ p'.omega = some om' ∧
    (om'.getD 0 []).getD 1 0 = ((standardForm 2).getD 1 []).getD 3 0 ∧ p'.coms.map Prod.fst = ["hamiltonian"] := by
  obtain ⟨p', om', h1, h2, h3, h4⟩ := C68_form cyclicEx_ok.1 cyclicEx_ok.2.1 cyclicEx_ok.2.2
    (C68_forms 2 0 0 0 [] (by omega) (by omega)).1 rfl
  exact ⟨p', om', h1, h2, h3 0 1, h4⟩

example : mfReduce cyclicTools 2 cyclicEx = .error .indexError :=
  (C68_refused cyclicTools 2 cyclicEx).2 cyclicEx_ok.2.2 (by decide)

/-- `x' = y' = x - y`: invariant under moving `x` and `y` together, with the constant of motion `_lam_x + _lam_y`. -/
def diagonalEx : Prob where
  states := [⟨"x", sym "x" - sym "y"⟩, ⟨"y", sym "x" - sym "y"⟩]
  costates := [⟨"_lam_x", -sym "_lam_x" - sym "_lam_y"⟩, ⟨"_lam_y", sym "_lam_x" + sym "_lam_y"⟩]
  initial := [⟨sym "x", none, none, none, .utm⟩, ⟨sym "y", none, none, none, .utm⟩]
  terminal := [⟨sym "x" - num 1, none, none, none, .utm⟩, ⟨sym "_lam_y", none, none, none, .utm⟩]
  coms := [("hamiltonian", (sym "_lam_x" + sym "_lam_y") * (sym "x" - sym "y")), ("com_0", sym "_lam_x" + sym "_lam_y")]
  omega := some (standardForm 2)
  sympified := true
  dualized := true

/-- sympy's answers for `diagonalEx`. -/
def diagonalTools : Tools :=
  answers "_lam_x" "x" [("_lam_x", sym "com_0" - sym "_lam_y")] [("x", sym "_q_0" - sym "y")]

/-- The value of the last quadrature's rate, over the rationals. -/
def lastRate (ρ : Name → ℚ) : Py Prob → Option ℚ
  | .ok p => p.quads.getLast?.map fun d => eval ⟨0, fun _ v => v⟩ ρ d.eom
  | .error _ => none

/-- The names that the numerical part can pass to the equations of a problem. -/
def available : Py Prob → List Name
  | .ok p => p.states.map Dyn.name ++ p.costates.map Dyn.name ++ p.quads.map Dyn.name ++ p.parameters ++ p.constants
  | .error _ => []

/-- Violation: for a symmetry that moves two states, the rate of the new quadrature contains the removed state: it is not the
expression of the reduced problem's variables that it should be. -/
theorem C68_violated_rate : "x" ∉ available (mfReduce diagonalTools 1 diagonalEx) ∧
    lastRate (fun s => if s = "x" then 1 else 0) (mfReduce diagonalTools 1 diagonalEx) = some 2 ∧
    lastRate (fun _ => 0) (mfReduce diagonalTools 1 diagonalEx) = some 0 := by
  refine ⟨by decide +kernel, by decide +kernel, by decide +kernel⟩

end Beluga.Sym
