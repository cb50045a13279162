import Verif.Extremal.Sufficient

/-!
# Two extremals of a convex problem

If two extremals of a convex problem over the same time have the same constants, the Hamiltonian is not strictly convex between them,
at any time.  Nothing here mentions how problems are generated or solved.
-/

namespace Beluga.Opt

open Beluga.Sym

/-- `σ` where the symbols are in `N`, and 0 elsewhere. -/
noncomputable def only (N : List Name) (σ : Env) : Env := fun s => if s ∈ N then σ s else 0

/-- `F` depends on the symbols in `N` only. -/
def DependsOn (N : List Name) (F : Env → ℝ) : Prop := ∀ σ τ : Env, (∀ s ∈ N, σ s = τ s) → F σ = F τ

/-- The problem contains no symbols but those in `N`. -/
structure Ocp.Closed (O : Ocp) (N : List Name) : Prop where
  names : ∀ s ∈ O.ind :: (O.states ++ O.controls ++ O.fixed), s ∈ N
  rates : ∀ r ∈ O.rates, DependsOn N r.2
  path : DependsOn N O.path
  costInitial : DependsOn N O.costInitial
  costTerminal : DependsOn N O.costTerminal
  initial : ∀ c ∈ O.initial, DependsOn N c
  terminal : ∀ c ∈ O.terminal, DependsOn N c

theorem only_of {N : List Name} {σ : Env} {s : Name} (hs : s ∈ N) : only N σ s = σ s := if_pos hs

theorem DependsOn.only {N : List Name} {F : Env → ℝ} (h : DependsOn N F) (σ : Env) : F (only N σ) = F σ :=
  h _ _ fun _ hs => only_of hs

theorem DependsOn.partial_ {N : List Name} {F : Env → ℝ} (h : DependsOn N F) {r : Name} (hr : r ∈ N) {d : ℝ} {σ : Env}
    (hd : HasPartial F r d σ) : HasPartial F r d (Opt.only N σ) := by
  rw [HasPartial] at hd ⊢
  rw [only_of hr]
  refine hd.congr_of_eventuallyEq (Filter.Eventually.of_forall fun v => h _ _ fun s hs => ?_)
  by_cases e : s = r
  · subst e
    simp
  · rw [Function.update_of_ne e, Function.update_of_ne e, only_of hs]

theorem dependsOn_sum {α : Type} {N : List Name} {l : List α} {f : α → Env → ℝ} (h : ∀ c ∈ l, DependsOn N (f c)) :
    DependsOn N fun σ => (l.map fun c => f c σ).sum := by
  intro σ τ hστ
  exact congrArg List.sum (List.map_congr_left fun c hc => h c hc σ τ hστ)

theorem Ocp.Closed.ham {O : Ocp} {N : List Name} (h : O.Closed N) (lam : Name → ℝ) : DependsOn N (O.ham lam) := by
  intro σ τ hστ
  rw [Ocp.ham, Ocp.ham, h.path σ τ hστ]
  congr 1
  exact dependsOn_sum (f := fun (r : Name × (Env → ℝ)) σ => lam r.1 * r.2 σ) (fun r hr σ τ hστ => by dsimp only; rw [h.rates r hr σ τ hστ]) σ τ hστ

theorem dependsOn_lagrange {N : List Name} {cost : Env → ℝ} {cons : List (Env → ℝ)} (h1 : DependsOn N cost)
    (h2 : ∀ c ∈ cons, DependsOn N c) (ν : Nat → ℝ) : DependsOn N (lagrange cost cons ν) := by
  intro σ τ hστ
  rw [lagrange, lagrange, h1 σ τ hστ]
  congr 1
  exact dependsOn_sum (f := fun (c : (Env → ℝ) × Nat) σ => ν c.2 * c.1 σ)
    (fun c hc σ τ hστ => by dsimp only; rw [h2 c.1 (List.fst_mem_of_mem_zipIdx hc) σ τ hστ]) σ τ hστ

/-- What is not part of the problem does not matter. -/
theorem Extremal.only {O : Ocp} {N : List Name} (hO : O.Closed N) {a b : ℝ} {x : ℝ → Env} {lam : ℝ → Name → ℝ} {ν₀ ν₁ : Nat → ℝ}
    (h : Extremal O a b x lam ν₀ ν₁) : Extremal O a b (fun t => Opt.only N (x t)) lam ν₀ ν₁ := by
  have hN := hO.names
  have hr : ∀ r ∈ O.rates, r.1 ∈ N := fun r hr =>
    hN _ (List.mem_cons_of_mem _ (List.mem_append_left _ (List.mem_append_left _ (List.mem_map_of_mem hr))))
  have hu : ∀ u ∈ O.controls, u ∈ N := fun u hu => hN _ (List.mem_cons_of_mem _ (List.mem_append_left _ (List.mem_append_right _ hu)))
  have hf : ∀ u ∈ O.fixed, u ∈ N := fun u hu => hN _ (List.mem_cons_of_mem _ (List.mem_append_right _ hu))
  have hi : O.ind ∈ N := hN _ List.mem_cons_self
  have l0 := dependsOn_lagrange hO.costInitial hO.initial ν₀
  have l1 := dependsOn_lagrange hO.costTerminal hO.terminal ν₁
  refine ⟨?_, ?_, ?_, ?_, ?_, ?_, ?_, ?_, ?_, ?_, ?_⟩
  · intro t ht
    rw [only_of hi]
    exact h.time t ht
  · intro s hs t ht
    rw [only_of (hf s hs), only_of (hf s hs)]
    exact h.fixed s hs t ht
  · intro r hrr t ht
    rw [(hO.rates r hrr).only]
    simp only [only_of (hr r hrr)]
    exact h.motion r hrr t ht
  · intro r hrr t ht
    obtain ⟨d, h1, h2⟩ := h.adjoint r hrr t ht
    exact ⟨d, (hO.ham _).partial_ (hr r hrr) h1, h2⟩
  · intro u huu t ht
    exact (hO.ham _).partial_ (hu u huu) (h.stationary u huu t ht)
  · intro c hc
    rw [(hO.initial c hc).only]
    exact h.initial c hc
  · intro c hc
    rw [(hO.terminal c hc).only]
    exact h.terminal c hc
  · exact fun r hrr => l0.partial_ (hr r hrr) (h.start r hrr)
  · exact fun r hrr => l1.partial_ (hr r hrr) (h.stop r hrr)
  · rw [(hO.ham _).only]
    exact l0.partial_ hi h.start_time
  · rw [(hO.ham _).only]
    exact l1.partial_ hi h.stop_time

/-- An extremal is an admissible trajectory. -/
theorem Extremal.admissible {O : Ocp} {a b : ℝ} {x z : ℝ → Env} {mu : ℝ → Name → ℝ} {ν₀ ν₁ : Nat → ℝ}
    (h : Extremal O a b z mu ν₀ ν₁) (ho : ∀ t ∈ Set.Icc a b, ∀ s ∉ O.states ++ O.controls, z t s = x t s)
    (hp : ContinuousOn (fun t => O.path (z t)) (Set.Icc a b)) : Admissible O a b x z where
  others := ho
  continuous := fun r hr t ht => (h.motion r hr t ht).continuousAt.continuousWithinAt
  motion := fun r hr t ht => (h.motion r hr t ⟨ht.1.le, ht.2.le⟩).hasDerivWithinAt
  initial := h.initial
  terminal := h.terminal
  cost := hp.integrableOn_Icc

/-- Between two extremals of a convex problem over the same time the Hamiltonian is not strictly convex. -/
theorem Extremal.tight {O : Ocp} {a b : ℝ} {x z : ℝ → Env} {lam mu : ℝ → Name → ℝ} {ν₀ ν₁ κ₀ κ₁ : Nat → ℝ} (hab : a < b)
    (hn : (O.states ++ O.controls).Nodup) (hx : Extremal O a b x lam ν₀ ν₁) (hz : Extremal O a b z mu κ₀ κ₁)
    (ho : ∀ t ∈ Set.Icc a b, ∀ s ∉ O.states ++ O.controls, z t s = x t s) (hc : ConvexAlong O a b lam ν₀ ν₁ x z)
    (hc' : ConvexAlong O a b mu κ₀ κ₁ z x) (px : ContinuousOn (fun t => O.path (x t)) (Set.Icc a b))
    (pz : ContinuousOn (fun t => O.path (z t)) (Set.Icc a b)) {t : ℝ} (ht : t ∈ Set.Ioo a b) :
    (1 / 2) * O.ham (lam t) (x t) + (1 / 2) * O.ham (lam t) (z t) ≤ O.ham (lam t) ((1 / 2 : ℝ) • x t + (1 / 2 : ℝ) • z t) := by
  have adm := hz.admissible ho pz
  have adm' := hx.admissible (fun t ht s hs => (ho t ht s hs).symm) px
  have le' := hz.minimum hab.le hn adm' hc' pz.integrableOn_Icc
  -- the ends
  have hleft := end_bound (l := lam a) hn hc.initial (ho a ⟨le_refl _, hab.le⟩) (fun u hu σ v => (hc.ends u hu σ v).1) (ε := 0)
    (fun r hr => ⟨_, hx.start r hr, by simp⟩) (fun c hc => by rw [hx.initial c hc, abs_zero]) hz.initial
  have hright := end_bound (l := fun s => -lam b s) hn hc.terminal (ho b ⟨hab.le, le_refl _⟩)
    (fun u hu σ v => (hc.ends u hu σ v).2) (ε := 0) (fun r hr => ⟨_, hx.stop r hr, by simp⟩)
    (fun c hc => by rw [hx.terminal c hc, abs_zero]) hz.terminal
  have hdiff : ContinuousOn (fun t => O.path (z t) - O.path (x t)) (Set.Icc a b) := pz.sub px
  let S : ℝ → ℝ := fun t => (O.rates.map fun r => lam t r.1 * (z t r.1 - x t r.1)).sum
  let G : ℝ → ℝ := fun t => (∫ τ in a..t, (O.path (z τ) - O.path (x τ))) + S t
  have sums : ∀ f : Name → ℝ, (O.states.map f).sum = (O.rates.map fun r => f r.1).sum := by
    intro f
    rw [Ocp.states, List.map_map]
    rfl
  -- the partial derivatives
  have hB : ∀ t ∈ Set.Icc a b, ∀ s ∈ O.states, ∃ d, HasPartial (O.ham (lam t)) s d (x t) ∧ HasDerivAt (fun τ => lam τ s) (-d) t := by
    intro t ht s hs
    obtain ⟨r, hr, rfl⟩ := List.mem_map.1 hs
    exact hx.adjoint r hr t ht
  choose! d hd hw using hB
  have full : ∀ t ∈ Set.Icc a b, ∀ r ∈ O.states ++ O.controls, HasPartial (O.ham (lam t)) r (if r ∈ O.states then d t r else 0) (x t) := by
    intro t ht r hr
    by_cases hs : r ∈ O.states
    · rw [if_pos hs]
      exact hd t ht r hs
    · rw [if_neg hs]
      exact hx.stationary r ((List.mem_append.1 hr).resolve_left hs) t ht
  have reduce : ∀ t, ∀ w : Name → ℝ, ((O.states ++ O.controls).map fun r => (if r ∈ O.states then d t r else 0) * w r).sum =
      (O.rates.map fun r => d t r.1 * w r.1).sum := by
    intro t w
    rw [List.map_append, List.sum_append]
    have e1 : (O.states.map fun s => (if s ∈ O.states then d t s else 0) * w s) = O.states.map fun s => d t s * w s :=
      List.map_congr_left fun s hs => by rw [if_pos hs]
    have e2 : (O.controls.map fun s => (if s ∈ O.states then d t s else 0) * w s).sum = 0 := by
      refine List.sum_eq_zero fun y hy => ?_
      obtain ⟨u, hu, rfl⟩ := List.mem_map.1 hy
      have : u ∉ O.states := fun hs => (List.nodup_append.1 hn).2.2 u hs u hu rfl
      rw [if_neg this, zero_mul]
    rw [e1, e2, add_zero, sums fun s => d t s * w s]
  let g : ℝ → ℝ := fun t => O.ham (lam t) (z t) - O.ham (lam t) (x t) - (O.rates.map fun r => d t r.1 * (z t r.1 - x t r.1)).sum
  have hgnn : ∀ t ∈ Set.Ioo a b, 0 ≤ g t := by
    intro t ht
    have ht' : t ∈ Set.Icc a b := ⟨ht.1.le, ht.2.le⟩
    have := (hc.ham t ht).above hn (ho t ht') (full t ht')
    rw [reduce t fun r => z t r - x t r] at this
    change 0 ≤ _ - _ - _
    linarith
  have hS : ∀ t ∈ Set.Icc a b, HasDerivAt S (O.rates.map fun r => -d t r.1 * (z t r.1 - x t r.1) + lam t r.1 * (r.2 (z t) - r.2 (x t))).sum t := by
    intro t ht
    rw [← hasDerivWithinAt_univ]
    refine hasDeriv_list_sum fun r hr => ?_
    exact ((hw t ht r.1 (List.mem_map_of_mem hr)).mul ((hz.motion r hr t ht).sub (hx.motion r hr t ht))).hasDerivWithinAt
  have hG : ∀ t ∈ Set.Ioo a b, HasDerivAt G (g t) t := by
    intro t ht
    have hI : HasDerivAt (fun t => ∫ τ in a..t, (O.path (z τ) - O.path (x τ))) (O.path (z t) - O.path (x t)) t := by
      refine intervalIntegral.integral_hasDerivAt_right ?_ ?_ ?_
      · refine (hdiff.mono ?_).intervalIntegrable
        rw [Set.uIcc_of_le ht.1.le]
        exact Set.Icc_subset_Icc_right ht.2.le
      · exact (hdiff.mono Set.Ioo_subset_Icc_self).stronglyMeasurableAtFilter isOpen_Ioo t ht
      · exact hdiff.continuousAt (Icc_mem_nhds ht.1 ht.2)
    refine (hI.add (hS t ⟨ht.1.le, ht.2.le⟩)).congr_deriv ?_
    change _ = O.ham (lam t) (z t) - O.ham (lam t) (x t) - _
    simp only [Ocp.ham]
    generalize O.rates = l
    have : ∀ A B : ℝ, A + (l.map fun r => -d t r.1 * (z t r.1 - x t r.1) + lam t r.1 * (r.2 (z t) - r.2 (x t))).sum - B =
        A + (l.map fun r => lam t r.1 * r.2 (z t)).sum - (B + (l.map fun r => lam t r.1 * r.2 (x t)).sum) -
          (l.map fun r => d t r.1 * (z t r.1 - x t r.1)).sum := by
      intro A B
      induction l with
      | nil => simp
      | cons r l ih =>
        simp only [List.map_cons, List.sum_cons]
        linear_combination ih
    linear_combination this (O.path (z t)) (O.path (x t))
  have hGc : ContinuousOn G (Set.Icc a b) := by
    refine ContinuousOn.add ?_ fun t ht => (hS t ht).continuousAt.continuousWithinAt
    have := intervalIntegral.continuousOn_primitive_interval (a := a) (b := b) (μ := MeasureTheory.volume)
      (f := fun τ => O.path (z τ) - O.path (x τ)) (by
        rw [Set.uIcc_of_le hab.le]
        exact hdiff.integrableOn_Icc)
    rwa [Set.uIcc_of_le hab.le] at this
  have hmono : MonotoneOn G (Set.Icc a b) := by
    refine monotoneOn_of_deriv_nonneg (convex_Icc a b) hGc ?_ ?_
    · rw [interior_Icc]
      exact fun t ht => (hG t ht).differentiableAt.differentiableWithinAt
    · rw [interior_Icc]
      intro t ht
      rw [(hG t ht).deriv]
      exact hgnn t ht
  -- nothing is gained
  have hends : G b ≤ G a := by
    have i1 : IntervalIntegrable (fun t => O.path (z t)) MeasureTheory.volume a b := by
      refine ContinuousOn.intervalIntegrable ?_
      rwa [Set.uIcc_of_le hab.le]
    have i2 : IntervalIntegrable (fun t => O.path (x t)) MeasureTheory.volume a b := by
      refine ContinuousOn.intervalIntegrable ?_
      rwa [Set.uIcc_of_le hab.le]
    have hsa : S a = (O.states.map fun s => lam a s * (z a s - x a s)).sum := by rw [sums fun s => lam a s * (z a s - x a s)]
    have hsb : S b = -(O.states.map fun s => -lam b s * (z b s - x b s)).sum := by
      rw [sums fun s => -lam b s * (z b s - x b s)]
      change (O.rates.map _).sum = _
      generalize O.rates = l
      induction l with
      | nil => simp
      | cons r l ih =>
        simp only [List.map_cons, List.sum_cons, ih]
        ring
    change (∫ τ in a..b, (O.path (z τ) - O.path (x τ))) + S b ≤ (∫ τ in a..a, (O.path (z τ) - O.path (x τ))) + S a
    rw [intervalIntegral.integral_same, intervalIntegral.integral_sub i1 i2, hsa, hsb]
    rw [Ocp.cost, Ocp.cost] at le'
    linarith
  have hconst : ∀ s ∈ Set.Icc a b, G s = G a := by
    intro s hs
    have ha : a ∈ Set.Icc a b := ⟨le_refl _, hab.le⟩
    have hb : b ∈ Set.Icc a b := ⟨hab.le, le_refl _⟩
    exact le_antisymm ((hmono hs hb hs.2).trans hends) (hmono ha hs hs.1)
  have hzero : g t = 0 := by
    have h1 : HasDerivAt G 0 t := (hasDerivAt_const t (G a)).congr_of_eventuallyEq (by
      filter_upwards [Icc_mem_nhds ht.1 ht.2] with s hs
      exact hconst s hs)
    exact (hG t ht).unique h1
  have ht' : t ∈ Set.Icc a b := ⟨ht.1.le, ht.2.le⟩
  -- the middle
  obtain ⟨D, hD, k1, k2, k3⟩ := hc.ham t ht
  have mid : (1 / 2 : ℝ) • x t + (1 / 2 : ℝ) • z t ∈ D := hD.1 k1 k2 (by norm_num) (by norm_num) (by norm_num)
  have above := ConvexTo.above (τ := (1 / 2 : ℝ) • x t + (1 / 2 : ℝ) • z t) ⟨D, hD, k1, mid, k3⟩ hn (by
    intro s hs
    simp only [Pi.add_apply, Pi.smul_apply, smul_eq_mul]
    rw [ho t ht' s hs]
    ring) (full t ht')
  rw [reduce t fun r => ((1 / 2 : ℝ) • x t + (1 / 2 : ℝ) • z t) r - x t r] at above
  have half : (O.rates.map fun r => d t r.1 * (((1 / 2 : ℝ) • x t + (1 / 2 : ℝ) • z t) r.1 - x t r.1)).sum =
      (1 / 2) * (O.rates.map fun r => d t r.1 * (z t r.1 - x t r.1)).sum := by
    simp only [Pi.add_apply, Pi.smul_apply, smul_eq_mul]
    generalize O.rates = l
    induction l with
    | nil => simp
    | cons r l ih =>
      simp only [List.map_cons, List.sum_cons, ih]
      ring
  rw [half] at above
  have : O.ham (lam t) (z t) - O.ham (lam t) (x t) - (O.rates.map fun r => d t r.1 * (z t r.1 - x t r.1)).sum = 0 := hzero
  linarith

end Beluga.Opt
