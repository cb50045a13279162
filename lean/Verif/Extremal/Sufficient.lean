import Verif.Extremal.Defect
import Mathlib.Analysis.Convex.Jensen
import Mathlib.MeasureTheory.Integral.IntervalIntegral.FundThmCalculus

/-!
# Extremals of convex problems are minima

The sufficiency theorem of Mangasarian: if the Hamiltonian is convex in the states and the controls, for the costates of the
extremal, and the boundary costs with the boundary conditions attached are convex, then no other trajectory over the same time
interval has lower cost.  With errors in the conditions the cost is at most as much higher as the errors allow.
-/

namespace Beluga.Opt

open Beluga.Sym

/-! ### Specification -/

/-- The cost of a trajectory. -/
noncomputable def Ocp.cost (O : Ocp) (a b : ℝ) (x : ℝ → Env) : ℝ :=
  O.costInitial (x a) + (∫ t in a..b, O.path (x t)) + O.costTerminal (x b)

/-- The names of the states. -/
def Ocp.states (O : Ocp) : List Name := O.rates.map (·.1)

/-- The trajectory `z` over `[a, b]` is admissible: it follows the equations of motion (the controls may jump), satisfies the boundary
conditions and has a cost; apart from the states and the controls it agrees with `x`. -/
structure Admissible (O : Ocp) (a b : ℝ) (x z : ℝ → Env) : Prop where
  others : ∀ t ∈ Set.Icc a b, ∀ s ∉ O.states ++ O.controls, z t s = x t s
  continuous : ∀ r ∈ O.rates, ContinuousOn (fun τ => z τ r.1) (Set.Icc a b)
  motion : ∀ r ∈ O.rates, ∀ t ∈ Set.Ioo a b, HasDerivWithinAt (fun τ => z τ r.1) (r.2 (z t)) (Set.Ioi t) t
  initial : ∀ c ∈ O.initial, c (z a) = 0
  terminal : ∀ c ∈ O.terminal, c (z b) = 0
  cost : MeasureTheory.IntegrableOn (fun t => O.path (z t)) (Set.Icc a b)

/-- `F` is convex on a set that contains `σ` and `τ`, and with `σ` small changes of each of the variables `V`. -/
def ConvexTo (F : Env → ℝ) (V : List Name) (σ τ : Env) : Prop :=
  ∃ D : Set Env, ConvexOn ℝ D F ∧ σ ∈ D ∧ τ ∈ D ∧ ∀ r ∈ V, ∀ᶠ v in nhds (σ r), Function.update σ r v ∈ D

/-- The conditions of Mangasarian: the Hamiltonian is convex in the states and controls, the boundary costs with the boundary
conditions attached are convex in them and do not depend on the controls. -/
structure ConvexAlong (O : Ocp) (a b : ℝ) (lam : ℝ → Name → ℝ) (ν₀ ν₁ : Nat → ℝ) (x z : ℝ → Env) : Prop where
  ham : ∀ t ∈ Set.Ioo a b, ConvexTo (O.ham (lam t)) (O.states ++ O.controls) (x t) (z t)
  initial : ConvexTo (lagrange O.costInitial O.initial ν₀) (O.states ++ O.controls) (x a) (z a)
  terminal : ConvexTo (lagrange O.costTerminal O.terminal ν₁) (O.states ++ O.controls) (x b) (z b)
  ends : ∀ u ∈ O.controls, ∀ σ v, lagrange O.costInitial O.initial ν₀ (Function.update σ u v) = lagrange O.costInitial O.initial ν₀ σ ∧
    lagrange O.costTerminal O.terminal ν₁ (Function.update σ u v) = lagrange O.costTerminal O.terminal ν₁ σ

/-! ### Lemmas -/

/-- A convex function lies above the plane given by its partial derivatives. -/
theorem ConvexTo.above {F : Env → ℝ} {V : List Name} {σ τ : Env} (h : ConvexTo F V σ τ) (hn : V.Nodup)
    (hτ : ∀ s ∉ V, τ s = σ s) {d : Name → ℝ} (hd : ∀ r ∈ V, HasPartial F r (d r) σ) :
    (V.map fun r => d r * (τ r - σ r)).sum ≤ F τ - F σ := by
  obtain ⟨D, hD, hσ, hτD, hopen⟩ := h
  rw [← List.sum_toFinset _ hn]
  set W := V.toFinset with hW
  rcases W.eq_empty_or_nonempty with h0 | h0
  · have : τ = σ := by
      funext s
      refine hτ s fun hs => ?_
      have : s ∈ W := by rw [hW]; simpa using hs
      simp [h0] at this
    rw [h0, this]
    simp
  have hn0 : (0 : ℝ) < W.card := by exact_mod_cast h0.card_pos
  obtain ⟨n, hcard⟩ : ∃ n : ℝ, n = W.card := ⟨_, rfl⟩
  rw [← hcard] at hn0
  -- the points in the directions of the coordinates
  let pt : Name → ℝ → Env := fun r t => Function.update σ r (σ r - n * t * (τ r - σ r))
  have hlin : ∀ r, HasDerivAt (fun t : ℝ => σ r - n * t * (τ r - σ r)) (-(n * (τ r - σ r))) 0 := by
    intro r
    have h1 : HasDerivAt (fun t : ℝ => n * t * (τ r - σ r)) (n * (τ r - σ r)) 0 := by
      have := ((hasDerivAt_id (0 : ℝ)).const_mul n).mul_const (τ r - σ r)
      simpa using this
    simpa using h1.const_sub (σ r)
  have hin : ∀ᶠ t in nhds (0 : ℝ), ∀ r ∈ W, pt r t ∈ D := by
    rw [Filter.eventually_all_finset]
    intro r hr
    have hc := (hlin r).continuousAt
    have : Filter.Tendsto (fun t : ℝ => σ r - n * t * (τ r - σ r)) (nhds 0) (nhds (σ r)) := by
      have := hc.tendsto
      simpa using this
    exact this.eventually (hopen r (by simpa [hW] using hr))
  have hφ : HasDerivAt (fun t => ∑ r ∈ W, (1 / n) * (F σ - F (pt r t))) (∑ r ∈ W, d r * (τ r - σ r)) 0 := by
    refine HasDerivAt.fun_sum fun r hr => ?_
    have h1 := hd r (by simpa [hW] using hr)
    have h2 : HasDerivAt (fun z => F (Function.update σ r z)) (d r) (σ r - n * 0 * (τ r - σ r)) := by
      have e : σ r - n * 0 * (τ r - σ r) = σ r := by ring
      rw [e]
      exact h1
    have h3 := HasDerivAt.comp (0 : ℝ) h2 (hlin r)
    have h3 : HasDerivAt (fun t => F (pt r t)) (d r * -(n * (τ r - σ r))) 0 := h3
    have h4 := (h3.const_sub (F σ)).const_mul (1 / n)
    refine h4.congr_deriv ?_
    field_simp
  have hbound : ∀ᶠ t in nhdsWithin (0 : ℝ) (Set.Ioi 0), (∑ r ∈ W, (1 / n) * (F σ - F (pt r t))) / t ≤ F τ - F σ := by
    filter_upwards [nhdsWithin_le_nhds hin, self_mem_nhdsWithin] with t ht hpos
    have hpos : 0 < t := hpos
    have hmean : (∑ r ∈ W, (1 / n) • pt r t) = fun s => σ s - t * (τ s - σ s) := by
      funext s
      rw [Finset.sum_apply]
      by_cases hs : s ∈ W
      · rw [← Finset.add_sum_erase _ _ hs]
        have e1 : ∀ r ∈ W.erase s, ((1 / n) • pt r t) s = (1 / n) * σ s := by
          intro r hr
          have : s ≠ r := fun e => (Finset.mem_erase.1 hr).1 e.symm
          simp [pt, Function.update_of_ne this]
        rw [Finset.sum_congr rfl e1, Finset.sum_const, Finset.card_erase_of_mem hs]
        have e2 : ((1 / n) • pt s t) s = (1 / n) * (σ s - n * t * (τ s - σ s)) := by simp [pt]
        rw [e2, nsmul_eq_mul, Nat.cast_sub h0.card_pos, ← hcard]
        field_simp
        push_cast
        ring
      · have e1 : ∀ r ∈ W, ((1 / n) • pt r t) s = (1 / n) * σ s := by
          intro r hr
          have : s ≠ r := fun e => hs (e ▸ hr)
          simp [pt, Function.update_of_ne this]
        rw [Finset.sum_congr rfl e1, Finset.sum_const, nsmul_eq_mul, ← hcard, hτ s (by simpa [hW] using hs)]
        field_simp
        ring
    have hw : ∑ _r ∈ W, (1 / n) = (1 : ℝ) := by
      rw [Finset.sum_const, nsmul_eq_mul, ← hcard]
      field_simp
    have hjensen := hD.map_sum_le (t := W) (w := fun _ => 1 / n) (p := fun r => pt r t) (fun _ _ => by positivity) hw ht
    have hmem := hD.1.sum_mem (t := W) (w := fun _ => 1 / n) (z := fun r => pt r t) (fun _ _ => by positivity) hw ht
    rw [hmean] at hjensen hmem
    have hpt : (1 / (1 + t)) • (fun s => σ s - t * (τ s - σ s)) + (t / (1 + t)) • τ = σ := by
      funext s
      simp only [Pi.add_apply, Pi.smul_apply, smul_eq_mul]
      field_simp
      ring
    have h2 := hD.2 hmem hτD (by positivity : 0 ≤ 1 / (1 + t)) (by positivity : 0 ≤ t / (1 + t)) (by field_simp)
    rw [hpt] at h2
    simp only [smul_eq_mul] at h2 hjensen
    have h3 : (1 + t) * F σ ≤ F (fun s => σ s - t * (τ s - σ s)) + t * F τ := by
      have := mul_le_mul_of_nonneg_left h2 (by positivity : (0 : ℝ) ≤ 1 + t)
      refine this.trans (le_of_eq ?_)
      field_simp
    have h4 : (∑ r ∈ W, (1 / n) * (F σ - F (pt r t))) = F σ - ∑ r ∈ W, (1 / n) * F (pt r t) := by
      simp only [mul_sub, Finset.sum_sub_distrib]
      rw [← Finset.sum_mul, hw, one_mul]
    rw [div_le_iff₀ hpos, h4]
    nlinarith
  have hlim := hφ.tendsto_slope_zero_right
  refine le_of_tendsto hlim ?_
  filter_upwards [hbound] with t ht
  have e0 : (∑ r ∈ W, (1 / n) * (F σ - F (pt r 0))) = 0 := by
    refine Finset.sum_eq_zero fun r _ => ?_
    have : pt r 0 = σ := by simp [pt]
    rw [this]
    ring
  rw [zero_add, e0, sub_zero, smul_eq_mul, ← div_eq_inv_mul]
  exact ht

theorem sum_zero_of {l : List (Env → ℝ)} {ν : Nat → ℝ} {σ : Env} (h : ∀ c ∈ l, c σ = 0) (k : Nat) :
    ((l.zipIdx k).map fun c => ν c.2 * c.1 σ).sum = 0 := by
  induction l generalizing k with
  | nil => rfl
  | cons c l ih =>
    rw [List.zipIdx_cons, List.map_cons, List.sum_cons, ih fun c hc => h c (by simp [hc])]
    simp [h c (by simp)]

theorem abs_sum_zip_le {l : List (Env → ℝ)} {ν : Nat → ℝ} {σ : Env} {ε : ℝ} (h : ∀ c ∈ l, |c σ| ≤ ε) (k : Nat) :
    |((l.zipIdx k).map fun c => ν c.2 * c.1 σ).sum| ≤ ε * ((l.zipIdx k).map fun c => |ν c.2|).sum := by
  induction l generalizing k with
  | nil => simp
  | cons c l ih =>
    rw [List.zipIdx_cons, List.map_cons, List.sum_cons, List.map_cons, List.sum_cons, mul_add]
    refine (abs_add_le _ _).trans (add_le_add ?_ (ih (fun c hc => h c (by simp [hc])) _))
    rw [abs_mul, mul_comm]
    exact mul_le_mul_of_nonneg_right (h c (by simp)) (abs_nonneg _)

theorem sum_map_le {α : Type} {l : List α} {f g : α → ℝ} (h : ∀ a ∈ l, f a ≤ g a) : (l.map f).sum ≤ (l.map g).sum :=
  List.sum_le_sum h

/-- An exact extremal is one up to no errors. -/
theorem Extremal.defect {O : Ocp} {a b : ℝ} {x : ℝ → Env} {lam : ℝ → Name → ℝ} {ν₀ ν₁ : Nat → ℝ}
    (h : Extremal O a b x lam ν₀ ν₁) : DefectExtremal O 0 0 0 0 a b x lam ν₀ ν₁ where
  time := h.time
  fixed := h.fixed
  motion := fun r hr t ht => ⟨_, h.motion r hr t ht, by simp⟩
  adjoint := fun r hr t ht => by
    obtain ⟨d, h1, h2⟩ := h.adjoint r hr t ht
    exact ⟨d, _, h1, h2, by simp⟩
  stationary := fun u hu t ht => ⟨0, by simp, h.stationary u hu t ht⟩
  initial := fun c hc => by rw [h.initial c hc, abs_zero]
  terminal := fun c hc => by rw [h.terminal c hc, abs_zero]
  start := fun r hr => ⟨_, h.start r hr, by simp⟩
  stop := fun r hr => ⟨_, h.stop r hr, by simp⟩
  start_time := ⟨_, h.start_time, by simp⟩
  stop_time := ⟨_, h.stop_time, by simp⟩

/-- The terms of an estimate. -/
theorem split_sum {α : Type} (l : List α) (d w y : α → ℝ) {δ : ℝ} (h : ∀ r ∈ l, |w r + d r| ≤ δ) :
    -(l.map fun r => w r * y r).sum - δ * (l.map fun r => |y r|).sum ≤ (l.map fun r => d r * y r).sum := by
  induction l with
  | nil => simp
  | cons r l ih =>
    have h1 := ih fun r hr => h r (by simp [hr])
    have h2 := mul_le_mul_of_nonneg_right (h r (by simp)) (abs_nonneg (y r))
    rw [← abs_mul] at h2
    have h3 := (abs_le.1 h2).1
    simp only [List.map_cons, List.sum_cons]
    nlinarith

theorem hasDeriv_list_sum {α : Type} {l : List α} {f : α → ℝ → ℝ} {f' : α → ℝ} {s : Set ℝ} {t : ℝ}
    (h : ∀ a ∈ l, HasDerivWithinAt (f a) (f' a) s t) :
    HasDerivWithinAt (fun τ => (l.map fun a => f a τ).sum) (l.map f').sum s t := by
  induction l with
  | nil => simpa using hasDerivWithinAt_const t s (0 : ℝ)
  | cons a l ih =>
    simp only [List.map_cons, List.sum_cons]
    exact (h a (by simp)).add (ih fun b hb => h b (by simp [hb]))

theorem continuous_list_sum {α : Type} {l : List α} {f : α → ℝ → ℝ} {s : Set ℝ} (h : ∀ a ∈ l, ContinuousOn (f a) s) :
    ContinuousOn (fun τ => (l.map fun a => f a τ).sum) s := by
  induction l with
  | nil => simpa using continuousOn_const
  | cons a l ih =>
    simp only [List.map_cons, List.sum_cons]
    exact (h a (by simp)).add (ih fun b hb => h b (by simp [hb]))

/-- One end of the trajectories. -/
theorem end_bound {O : Ocp} {cost : Env → ℝ} {cons : List (Env → ℝ)} {ν : Nat → ℝ} {σ τ : Env} {ε : ℝ} {l : Name → ℝ}
    (hn : (O.states ++ O.controls).Nodup) (hc : ConvexTo (lagrange cost cons ν) (O.states ++ O.controls) σ τ)
    (ho : ∀ s ∉ O.states ++ O.controls, τ s = σ s)
    (hu : ∀ u ∈ O.controls, ∀ σ v, lagrange cost cons ν (Function.update σ u v) = lagrange cost cons ν σ)
    (hd : ∀ r ∈ O.rates, ∃ d, HasPartial (lagrange cost cons ν) r.1 d σ ∧ |d + l r.1| ≤ ε)
    (hσ : ∀ c ∈ cons, |c σ| ≤ ε) (hτ : ∀ c ∈ cons, c τ = 0) :
    cost σ - (O.states.map fun s => l s * (τ s - σ s)).sum -
      ε * ((O.states.map fun s => |τ s - σ s|).sum + (cons.zipIdx.map fun c => |ν c.2|).sum) ≤ cost τ := by
  have hd' : ∀ s ∈ O.states, ∃ d, HasPartial (lagrange cost cons ν) s d σ ∧ |l s + d| ≤ ε := by
    intro s hs
    obtain ⟨r, hr, rfl⟩ := List.mem_map.1 hs
    obtain ⟨d, h1, h2⟩ := hd r hr
    exact ⟨d, h1, by rwa [add_comm]⟩
  choose! d h1 h2 using hd'
  have habove := hc.above hn ho (d := fun s => if s ∈ O.states then d s else 0) (by
    intro r hr
    by_cases hs : r ∈ O.states
    · rw [if_pos hs]
      exact h1 r hs
    · rw [if_neg hs]
      have hr' : r ∈ O.controls := (List.mem_append.1 hr).resolve_left hs
      have : (fun z => lagrange cost cons ν (Function.update σ r z)) = fun _ => lagrange cost cons ν σ := by
        funext z
        exact hu r hr' σ z
      rw [HasPartial, this]
      exact hasDerivAt_const _ _)
  rw [List.map_append, List.sum_append] at habove
  have e1 : (O.states.map fun s => (if s ∈ O.states then d s else 0) * (τ s - σ s)) = O.states.map fun s => d s * (τ s - σ s) := by
    refine List.map_congr_left fun s hs => ?_
    rw [if_pos hs]
  have e2 : (O.controls.map fun s => (if s ∈ O.states then d s else 0) * (τ s - σ s)).sum = 0 := by
    refine List.sum_eq_zero fun y hy => ?_
    obtain ⟨u, hu, rfl⟩ := List.mem_map.1 hy
    have : u ∉ O.states := fun hs => (List.nodup_append.1 hn).2.2 u hs u hu rfl
    rw [if_neg this, zero_mul]
  rw [e1, e2, add_zero] at habove
  have h3 := split_sum O.states d l (fun s => τ s - σ s) h2
  have h4 := abs_sum_zip_le (ν := ν) hσ 0
  have h5 := (abs_le.1 h4).1
  simp only [lagrange] at habove
  rw [sum_zero_of hτ 0] at habove
  linarith

/-! ### The theorem -/

/-- A trajectory that satisfies the first-order necessary conditions of a convex problem up to errors costs at most as much more than
any admissible trajectory over the same time as the errors allow. -/
theorem DefectExtremal.suboptimal {O : Ocp} {ε η δ κ a b : ℝ} {x z : ℝ → Env} {lam : ℝ → Name → ℝ} {ν₀ ν₁ : Nat → ℝ} (hab : a ≤ b)
    (hn : (O.states ++ O.controls).Nodup) (h : DefectExtremal O ε η δ κ a b x lam ν₀ ν₁) (hz : Admissible O a b x z)
    (hc : ConvexAlong O a b lam ν₀ ν₁ x z) (hx : MeasureTheory.IntegrableOn (fun t => O.path (x t)) (Set.Icc a b)) {E E' : ℝ}
    (hE : ∀ t ∈ Set.Ioo a b, δ * ((O.states.map fun s => |z t s - x t s|).sum + (O.states.map fun s => |lam t s|).sum) +
      η * (O.controls.map fun u => |z t u - x t u|).sum ≤ E)
    (hE' : ε * ((O.states.map fun s => |z a s - x a s|).sum + (O.states.map fun s => |z b s - x b s|).sum +
      (O.initial.zipIdx.map fun c => |ν₀ c.2|).sum + (O.terminal.zipIdx.map fun c => |ν₁ c.2|).sum) ≤ E') :
    O.cost a b x ≤ O.cost a b z + E * (b - a) + E' := by
  -- the ends
  have hleft := end_bound (l := lam a) hn hc.initial (hz.others a ⟨le_refl _, hab⟩) (fun u hu σ v => (hc.ends u hu σ v).1) h.start
    h.initial hz.initial
  have hright := end_bound (l := fun s => -lam b s) hn hc.terminal (hz.others b ⟨hab, le_refl _⟩)
    (fun u hu σ v => (hc.ends u hu σ v).2) (fun r hr => by
      obtain ⟨d, h1, h2⟩ := h.stop r hr
      exact ⟨d, h1, by rwa [← sub_eq_add_neg]⟩) h.terminal hz.terminal
  -- the path
  have hmo : ∀ s ∈ O.states, ∃ r ∈ O.rates, r.1 = s := fun s hs => by
    obtain ⟨r, hr, e⟩ := List.mem_map.1 hs
    exact ⟨r, hr, e⟩
  let g : ℝ → ℝ := fun t => (O.rates.map fun r => -(lam t r.1 * (z t r.1 - x t r.1))).sum
  let φ : ℝ → ℝ := fun t => O.path (z t) - O.path (x t) + E
  have hgc : ContinuousOn g (Set.Icc a b) := by
    refine continuous_list_sum fun r hr => ?_
    have c1 : ContinuousOn (fun t => lam t r.1) (Set.Icc a b) := fun t ht => by
      obtain ⟨d, v, -, h2, -⟩ := h.adjoint r hr t ht
      exact h2.continuousAt.continuousWithinAt
    have c2 : ContinuousOn (fun t => x t r.1) (Set.Icc a b) := fun t ht => by
      obtain ⟨v, h2, -⟩ := h.motion r hr t ht
      exact h2.continuousAt.continuousWithinAt
    exact (c1.mul ((hz.continuous r hr).sub c2)).neg
  have hder : ∀ t ∈ Set.Ioo a b, ∃ g', HasDerivWithinAt g g' (Set.Ioi t) t ∧ g' ≤ φ t := by
    intro t ht
    have ht' : t ∈ Set.Icc a b := ⟨ht.1.le, ht.2.le⟩
    have hA : ∀ r ∈ O.rates, ∃ v, HasDerivAt (fun τ => x τ r.1) v t ∧ |v - r.2 (x t)| ≤ δ := fun r hr => h.motion r hr t ht'
    choose! v hv hvb using hA
    have hB : ∀ s ∈ O.states, ∃ d w, HasPartial (O.ham (lam t)) s d (x t) ∧ HasDerivAt (fun τ => lam τ s) w t ∧ |w + d| ≤ δ := by
      intro s hs
      obtain ⟨r, hr, rfl⟩ := hmo s hs
      exact h.adjoint r hr t ht'
    choose! d w hd hw hdw using hB
    have hC : ∀ u ∈ O.controls, ∃ r, |r| ≤ η ∧ HasPartial (O.ham (lam t)) u r (x t) := fun u hu => h.stationary u hu t ht'
    choose! e he hep using hC
    refine ⟨(O.rates.map fun r => -(w r.1 * (z t r.1 - x t r.1) + lam t r.1 * (r.2 (z t) - v r))).sum, ?_, ?_⟩
    · refine hasDeriv_list_sum fun r hr => ?_
      have hs : r.1 ∈ O.states := List.mem_map_of_mem hr
      exact ((hw r.1 hs).hasDerivWithinAt.mul ((hz.motion r hr t ht).sub (hv r hr).hasDerivWithinAt)).neg
    · have habove := (hc.ham t ht).above hn (hz.others t ht') (d := fun s => if s ∈ O.states then d s else e s) (by
        intro r hr
        by_cases hs : r ∈ O.states
        · rw [if_pos hs]
          exact hd r hs
        · rw [if_neg hs]
          exact hep r ((List.mem_append.1 hr).resolve_left hs))
      rw [List.map_append, List.sum_append] at habove
      have e1 : (O.states.map fun s => (if s ∈ O.states then d s else e s) * (z t s - x t s)) =
          O.states.map fun s => d s * (z t s - x t s) := by
        refine List.map_congr_left fun s hs => ?_
        rw [if_pos hs]
      have e2 : (O.controls.map fun s => (if s ∈ O.states then d s else e s) * (z t s - x t s)) =
          O.controls.map fun s => (z t s - x t s) * e s := by
        refine List.map_congr_left fun u hu => ?_
        have : u ∉ O.states := fun hs => (List.nodup_append.1 hn).2.2 u hs u hu rfl
        rw [if_neg this, mul_comm]
      rw [e1, e2] at habove
      have h3 := split_sum O.states d w (fun s => z t s - x t s) hdw
      have h4 := (abs_le.1 (abs_sum_mul_le (l := O.controls) (f := fun s => z t s - x t s) (g := e) he)).1
      have h5 := (abs_le.1 (abs_sum_mul_le (l := O.rates) (f := fun r => lam t r.1) (g := fun r => v r - r.2 (x t)) hvb)).2
      have h6 := hE t ht
      have s1 : ∀ f : Name → ℝ, (O.states.map f).sum = (O.rates.map fun r => f r.1).sum := by
        intro f
        rw [Ocp.states, List.map_map]
        rfl
      simp only [Ocp.ham] at habove
      rw [s1 (fun s => d s * (z t s - x t s))] at h3 habove
      rw [s1 (fun s => w s * (z t s - x t s))] at h3
      rw [s1 (fun s => |lam t s|)] at h6
      have e3 : (O.rates.map fun r => -(w r.1 * (z t r.1 - x t r.1) + lam t r.1 * (r.2 (z t) - v r))).sum =
          -(O.rates.map fun r => w r.1 * (z t r.1 - x t r.1)).sum - (O.rates.map fun r => lam t r.1 * r.2 (z t)).sum +
            (O.rates.map fun r => lam t r.1 * r.2 (x t)).sum + (O.rates.map fun r => lam t r.1 * (v r - r.2 (x t))).sum := by
        generalize O.rates = l
        induction l with
        | nil => simp
        | cons r l ih =>
          simp only [List.map_cons, List.sum_cons, ih]
          ring
      rw [e3]
      change _ ≤ O.path (z t) - O.path (x t) + E
      linarith
  choose! g' hg' hle using hder
  have hint : MeasureTheory.IntegrableOn φ (Set.Icc a b) :=
    (hz.cost.sub hx).add (MeasureTheory.integrableOn_const (by simp))
  have hmain := intervalIntegral.sub_le_integral_of_hasDeriv_right_of_le hab hgc hg' hint hle
  have i1 : IntervalIntegrable (fun t => O.path (z t)) MeasureTheory.volume a b :=
    (intervalIntegrable_iff_integrableOn_Icc_of_le hab).2 hz.cost
  have i2 : IntervalIntegrable (fun t => O.path (x t)) MeasureTheory.volume a b :=
    (intervalIntegrable_iff_integrableOn_Icc_of_le hab).2 hx
  have hsplit : (∫ t in a..b, φ t) = (∫ t in a..b, O.path (z t)) - (∫ t in a..b, O.path (x t)) + E * (b - a) := by
    have := intervalIntegral.integral_add (i1.sub i2) (intervalIntegrable_const (c := E) (a := a) (b := b) (μ := MeasureTheory.volume))
    rw [intervalIntegral.integral_sub i1 i2, intervalIntegral.integral_const, smul_eq_mul] at this
    rw [mul_comm E]
    exact this
  rw [hsplit] at hmain
  have hga : ∀ t, g t = -(O.states.map fun s => lam t s * (z t s - x t s)).sum := by
    intro t
    change (O.rates.map fun r => -(lam t r.1 * (z t r.1 - x t r.1))).sum = _
    rw [Ocp.states, List.map_map]
    generalize O.rates = l
    induction l with
    | nil => simp
    | cons r l ih =>
      simp only [List.map_cons, List.sum_cons, ih, Function.comp]
      ring
  rw [hga, hga] at hmain
  have e4 : (O.states.map fun s => -lam b s * (z b s - x b s)).sum = -(O.states.map fun s => lam b s * (z b s - x b s)).sum := by
    generalize O.states = l
    induction l with
    | nil => simp
    | cons r l ih =>
      simp only [List.map_cons, List.sum_cons, ih]
      ring
  rw [e4] at hright
  rw [Ocp.cost, Ocp.cost]
  linarith

/-- An extremal of a convex problem costs no more than any admissible trajectory over the same time. -/
theorem Extremal.minimum {O : Ocp} {a b : ℝ} {x z : ℝ → Env} {lam : ℝ → Name → ℝ} {ν₀ ν₁ : Nat → ℝ} (hab : a ≤ b)
    (hn : (O.states ++ O.controls).Nodup) (h : Extremal O a b x lam ν₀ ν₁) (hz : Admissible O a b x z)
    (hc : ConvexAlong O a b lam ν₀ ν₁ x z) (hx : MeasureTheory.IntegrableOn (fun t => O.path (x t)) (Set.Icc a b)) :
    O.cost a b x ≤ O.cost a b z := by
  have := h.defect.suboptimal hab hn hz hc hx (E := 0) (E' := 0) (by simp) (by simp)
  simpa using this

end Beluga.Opt
