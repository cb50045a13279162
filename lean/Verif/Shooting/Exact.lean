import Verif.Shooting.Linear
import Mathlib.Analysis.ODE.ExistUnique
import Mathlib.Analysis.SpecialFunctions.Exponential
import Mathlib.Analysis.Calculus.Deriv.Prod

/-!
# Exact integration of linear differential equations (C88)
-/

namespace Beluga.Shoot

open Beluga.Traj (Arr Curve mix getD_eq)

/-- The integration of linear differential equations is exact: the last state is the one that the solution has at the end of the span. -/
def ExactIvp (ivp : Ivp ℝ) : Prop :=
  ∀ n rhs, Affine [n] n (fun x => rhs (x.getD 0 [])) → ∀ a b y0, a < b → y0.length = n →
    ∃ ts ys, ivp rhs [a, b] y0 = .ok (ts, ys) ∧ ∃ η : ℝ → List ℝ, (∀ t, (η t).length = n) ∧ η a = y0 ∧
      ys.getD (ys.length - 1) [] = η b ∧
      ∀ t ∈ Set.Icc a b, ∃ v, rhs (η t) = .ok v ∧
        ∀ j < n, HasDerivWithinAt (fun τ => (η τ).getD j 0) (v.getD j 0) (Set.Icc a b) t

theorem list_eq_of_getD {n : Nat} {x y : List ℝ} (hx : x.length = n) (hy : y.length = n) (h : ∀ j < n, x.getD j 0 = y.getD j 0) : x = y := by
  refine List.ext_getElem (by omega) fun j h1 h2 => ?_
  rw [← getD_eq h1 0, ← getD_eq h2 0]
  exact h j (by omega)

/-- Solutions of a linear differential equation are determined by their start. -/
theorem linear_unique {n : Nat} {rhs : List ℝ → Py (List ℝ)} (hA : Aff n n rhs) {a b : ℝ} (hab : a ≤ b) {η ζ : ℝ → List ℝ}
    (hη : ∀ t, (η t).length = n) (hζ : ∀ t, (ζ t).length = n) (h0 : η a = ζ a)
    (dη : ∀ t ∈ Set.Icc a b, ∃ v, rhs (η t) = .ok v ∧
      ∀ j < n, HasDerivWithinAt (fun τ => (η τ).getD j 0) (v.getD j 0) (Set.Icc a b) t)
    (dζ : ∀ t ∈ Set.Icc a b, ∃ v, rhs (ζ t) = .ok v ∧
      ∀ j < n, HasDerivWithinAt (fun τ => (ζ τ).getD j 0) (v.getD j 0) (Set.Icc a b) t) : η b = ζ b := by
  have hx' : ∀ x : List ℝ, ∃ v : List ℝ, v.length = n ∧ (x.length = n → rhs x = .ok v) := by
    intro x
    by_cases h : x.length = n
    · obtain ⟨v, h1, h2⟩ := hA.total x h
      exact ⟨v, h2, fun _ => h1⟩
    · exact ⟨List.replicate n 0, by simp, fun h' => absurd h' h⟩
  choose G hG1 hG2 using hx'
  have hxo : ∀ f : Fin n → ℝ, (List.ofFn f).length = n := fun f => by simp
  let V : (Fin n → ℝ) → Fin n → ℝ := fun y i => (G (List.ofFn y)).getD i 0
  let c : Fin n → Fin n → ℝ := fun i j => (V (Function.update 0 j 1) i - V 0 i)
  have hV : ∀ y i, V y i = V 0 i + ∑ j, c i j * y j := by
    intro y i
    have hφ : ∀ θ (f g : Fin n → ℝ), V (fun k => (1 - θ) * f k + θ * g k) i = (1 - θ) * V f i + θ * V g i := by
      intro θ f g
      have h1 := hA.line θ _ _ _ _ (hxo f) (hxo g) (hG2 _ (hxo f)) (hG2 _ (hxo g))
      have e : mix θ (List.ofFn f) (List.ofFn g) = List.ofFn fun k => (1 - θ) * f k + θ * g k := by
        refine List.ext_getElem (by simp [mix]) fun k h1 h2 => ?_
        simp [mix]
      rw [e, hG2 _ (hxo _)] at h1
      change (G _).getD i 0 = _
      rw [Except.ok.inj h1, mix_getD (by rw [hG1, hG1])]
    have := line_sum (φ := fun y => V y i) hφ 0 y (fun _ => 1) fun _ => one_ne_zero
    simpa [c] using this
  have hLip : LipschitzWith (∑ i, ∑ j, ‖c i j‖₊) V := by
    refine LipschitzWith.of_dist_le_mul fun y z => ?_
    rw [dist_pi_le_iff (by positivity)]
    intro i
    rw [Real.dist_eq, hV y, hV z]
    have e : V 0 i + ∑ j, c i j * y j - (V 0 i + ∑ j, c i j * z j) = ∑ j, c i j * (y j - z j) := by
      rw [add_sub_add_left_eq_sub, ← Finset.sum_sub_distrib]
      exact Finset.sum_congr rfl fun j _ => by ring
    rw [e]
    calc |∑ j, c i j * (y j - z j)| ≤ ∑ j, |c i j * (y j - z j)| := Finset.abs_sum_le_sum_abs _ _
      _ ≤ ∑ j, |c i j| * dist y z := Finset.sum_le_sum fun j _ => by
          rw [abs_mul]
          exact mul_le_mul_of_nonneg_left (by rw [← Real.dist_eq]; exact dist_le_pi_dist y z j) (abs_nonneg _)
      _ = (∑ j, |c i j|) * dist y z := by rw [Finset.sum_mul]
      _ ≤ (∑ i, ∑ j, |c i j|) * dist y z := by
          refine mul_le_mul_of_nonneg_right ?_ dist_nonneg
          exact Finset.single_le_sum (f := fun i => ∑ j, |c i j|) (fun i _ => Finset.sum_nonneg fun j _ => abs_nonneg _) (Finset.mem_univ i)
      _ = _ := by simp
  have hder : ∀ η : ℝ → List ℝ, (∀ t, (η t).length = n) → (∀ t ∈ Set.Icc a b, ∃ v, rhs (η t) = .ok v ∧
      ∀ j < n, HasDerivWithinAt (fun τ => (η τ).getD j 0) (v.getD j 0) (Set.Icc a b) t) →
      ∀ t ∈ Set.Icc a b, HasDerivWithinAt (fun τ (j : Fin n) => (η τ).getD j 0) (V fun j => (η t).getD j 0) (Set.Icc a b) t := by
    intro η hη dη t ht
    rw [hasDerivWithinAt_pi]
    intro j
    obtain ⟨v, hv, hd⟩ := dη t ht
    have e : (List.ofFn fun j : Fin n => (η t).getD j 0) = η t := by
      refine List.ext_getElem (by simp [hη]) fun k h1 h2 => ?_
      rw [List.getElem_ofFn, getD_eq h2]
    have e2 : V (fun j => (η t).getD j 0) j = v.getD j 0 := by
      change (G (List.ofFn _)).getD j 0 = _
      rw [e, Except.ok.inj ((hG2 _ (hη t)).symm.trans hv)]
    rw [e2]
    exact hd j j.2
  have h1 := hder η hη dη
  have h2 := hder ζ hζ dζ
  have key := ODE_solution_unique (v := fun _ => V) (f := fun τ (j : Fin n) => (η τ).getD j 0) (g := fun τ (j : Fin n) => (ζ τ).getD j 0)
    (fun _ => hLip) (fun t ht => (h1 t ht).continuousWithinAt)
    (fun t ht => (h1 t (Set.Ico_subset_Icc_self ht)).mono_of_mem_nhdsWithin (Icc_mem_nhdsGE_of_mem ht))
    (fun t ht => (h2 t ht).continuousWithinAt)
    (fun t ht => (h2 t (Set.Ico_subset_Icc_self ht)).mono_of_mem_nhdsWithin (Icc_mem_nhdsGE_of_mem ht)) (by rw [h0])
    (Set.right_mem_Icc.2 hab)
  exact list_eq_of_getD (hη b) (hζ b) fun j hj => congrFun key ⟨j, hj⟩

theorem one_arg {n : Nat} {x : List (List ℝ)} (h : x.map List.length = [n]) : ∃ y, x = [y] ∧ y.length = n := by
  match x, h with
  | [y], h => exact ⟨y, rfl, by simpa using h⟩

/-- **C88** An exact integrator has linear flows: it satisfies the hypothesis of `C88_linear_partial`. -/
theorem C88_exact {ivp : Ivp ℝ} (h : ExactIvp ivp) : LinearIvp ivp := by
  intro nO nP f hf a b hab
  have hA : ∀ p : List ℝ, p.length = nP → Aff nO nO fun y => f [y, p] := by
    intro p hp
    refine ⟨fun x hx => hf.total [x, p] (by simp [hx, hp]), fun θ x y v w hx hy hv hw => ?_⟩
    have := affine_two hf hx hy hp hp hv hw θ
    have e : mix θ p p = p := by
      refine List.ext_getElem (by simp [mix]) fun k h1 h2 => ?_
      simp only [mix, List.getElem_zipWith]
      ring
    rwa [e] at this
  have hE : ∀ y p : List ℝ, y.length = nO → p.length = nP → ∃ η : ℝ → List ℝ, (∀ t, (η t).length = nO) ∧ η a = y ∧
      endOf ivp f a b [y, p] = .ok (η b) ∧ ∀ t ∈ Set.Icc a b, ∃ v, f [η t, p] = .ok v ∧
        ∀ j < nO, HasDerivWithinAt (fun τ => (η τ).getD j 0) (v.getD j 0) (Set.Icc a b) t := by
    intro y p hy hp
    obtain ⟨ts, ys, h1, η, h2, h3, h4, h5⟩ := h nO (fun y => f [y, p]) (by
      refine ⟨fun x hx => ?_, fun θ x x' v w hx hx' hv hw => ?_⟩
      · obtain ⟨z, rfl, hz⟩ := one_arg hx
        exact (hA p hp).total z hz
      · obtain ⟨z, rfl, hz⟩ := one_arg hx
        obtain ⟨z', rfl, hz'⟩ := one_arg hx'
        exact (hA p hp).line θ z z' v w hz hz' hv hw) a b y hab hy
    refine ⟨η, h2, h3, ?_, h5⟩
    simp only [endOf, h1, Py.ok_bind, h4]
  constructor
  · intro x hx
    obtain ⟨y, p, rfl, hy, hp⟩ := two_args hx
    obtain ⟨η, h1, -, h3, -⟩ := hE y p hy hp
    exact ⟨_, h3, h1 b⟩
  · intro θ x x' v w hx hx' hv hw
    obtain ⟨y, p, rfl, hy, hp⟩ := two_args hx
    obtain ⟨y', p', rfl, hy', hp'⟩ := two_args hx'
    obtain ⟨η, h1, h2, h3, h4⟩ := hE y p hy hp
    obtain ⟨η', h1', h2', h3', h4'⟩ := hE y' p' hy' hp'
    cases h3.symm.trans hv
    cases h3'.symm.trans hw
    have hpm : (mix θ p p').length = nP := mix_length_eq hp hp'
    obtain ⟨ζ, k1, k2, k3, k4⟩ := hE (mix θ y y') (mix θ p p') (mix_length_eq hy hy') hpm
    change endOf ivp f a b [mix θ y y', mix θ p p'] = _
    rw [k3]
    congr 1
    refine linear_unique (hA _ hpm) hab.le k1 (ζ := fun t => mix θ (η t) (η' t)) (fun t => mix_length_eq (h1 t) (h1' t))
      (by rw [k2, h2, h2']) k4 fun t ht => ?_
    obtain ⟨v, hv, hd⟩ := h4 t ht
    obtain ⟨v', hv', hd'⟩ := h4' t ht
    have l1 : v.length = nO := by
      obtain ⟨u, hu, hl⟩ := (hA p hp).total _ (h1 t)
      rw [Except.ok.inj (hv.symm.trans hu), hl]
    have l2 : v'.length = nO := by
      obtain ⟨u, hu, hl⟩ := (hA p' hp').total _ (h1' t)
      rw [Except.ok.inj (hv'.symm.trans hu), hl]
    refine ⟨mix θ v v', affine_two hf (h1 t) (h1' t) hp hp' hv hv' θ, fun j hj => ?_⟩
    have := ((hd j hj).const_mul (1 - θ)).add ((hd' j hj).const_mul θ)
    rw [mix_getD (by omega)]
    refine this.congr (fun τ _ => ?_) ?_
    · rw [mix_getD (by rw [h1, h1'])]; rfl
    · rw [mix_getD (by rw [h1, h1'])]; rfl

/-! ### There is an exact integrator -/

/-- A linear function in coordinates. -/
theorem Aff.matrix {n m : Nat} {F : List ℝ → Py (List ℝ)} (hF : Aff n m F) :
    ∃ (v0 : Nat → ℝ) (c : Nat → Nat → ℝ), ∀ x v : List ℝ, x.length = n → F x = .ok v →
      ∀ i < m, v.getD i 0 = v0 i + ∑ j ∈ Finset.range n, c i j * x.getD j 0 := by
  obtain ⟨v, hv, -⟩ := hF.total (List.replicate n 0) (by simp)
  obtain ⟨J, -, -, -, h⟩ := hF.jacobian (h := fun _ => 1) (fun _ => one_ne_zero) (by simp) hv
  refine ⟨fun i => v.getD i 0, fun i j => (J.getD j []).getD i 0, fun x w hx hw i hi => h x w hx ?_ i hi⟩
  have e : List.zipWith (· + ·) (List.replicate n (0 : ℝ)) x = x := by
    refine List.ext_getElem (by simp [hx]) fun k h1 h2 => ?_
    simp
  rw [e, hw]

theorem linear_exists {n : Nat} {rhs : List ℝ → Py (List ℝ)} (hA : Aff n n rhs) (a : ℝ) {y0 : List ℝ} (hy : y0.length = n) :
    ∃ η : ℝ → List ℝ, (∀ t, (η t).length = n) ∧ η a = y0 ∧
      ∀ t, ∃ v, rhs (η t) = .ok v ∧ ∀ j < n, HasDerivAt (fun τ => (η τ).getD j 0) (v.getD j 0) t := by
  obtain ⟨v0, c, hc⟩ := hA.matrix
  let A : ((Fin n → ℝ) × ℝ) →ₗ[ℝ] ((Fin n → ℝ) × ℝ) :=
    { toFun := fun u => (fun i => ∑ j : Fin n, c i j * u.1 j + u.2 * v0 i, 0)
      map_add' := by
        intro u w
        ext i
        · simp only [Prod.fst_add, Pi.add_apply, Prod.snd_add, mul_add, Finset.sum_add_distrib]
          ring
        · simp
      map_smul' := by
        intro r u
        ext i
        · simp only [Prod.smul_fst, Pi.smul_apply, smul_eq_mul, Prod.smul_snd, RingHom.id_apply, mul_add, Finset.mul_sum]
          congr 1
          · exact Finset.sum_congr rfl fun j _ => by ring
          · ring
        · simp }
  let B : ((Fin n → ℝ) × ℝ) →L[ℝ] ((Fin n → ℝ) × ℝ) := LinearMap.toContinuousLinearMap A
  let z0 : (Fin n → ℝ) × ℝ := (fun i => y0.getD i 0, 1)
  let u : ℝ → (Fin n → ℝ) × ℝ := fun t => NormedSpace.exp ((t - a) • B) z0
  have hu : ∀ t, HasDerivAt u (A (u t)) t := by
    intro t
    have h1 := (hasDerivAt_exp_smul_const' (𝕂 := ℝ) B (t - a)).comp_sub_const t a
    have h2 := h1.clm_apply (hasDerivAt_const t z0)
    have e : (B * NormedSpace.exp ((t - a) • B)) z0 + (NormedSpace.exp ((t - a) • B)) 0 = A (u t) := by
      rw [map_zero, add_zero]
      rfl
    rw [e] at h2
    exact h2
  have h1 : ∀ t, (u t).2 = 1 := by
    have hd : ∀ t, HasDerivAt (fun t => (u t).2) 0 t := fun t => (hu t).snd
    intro t
    have := is_const_of_deriv_eq_zero (fun t => (hd t).differentiableAt) (fun t => (hd t).deriv) t a
    rw [this]
    simp [u, z0]
  refine ⟨fun t => List.ofFn (u t).1, fun t => by simp, ?_, fun t => ?_⟩
  · refine List.ext_getElem (by simp [hy]) fun k h1 h2 => ?_
    rw [List.getElem_ofFn, ← getD_eq h2 0]
    simp [u, z0]
  · obtain ⟨v, hv, hvl⟩ := hA.total (List.ofFn (u t).1) (by simp)
    refine ⟨v, hv, fun j hj => ?_⟩
    have e : ∀ (τ : ℝ) (k : Nat) (hk : k < n), (List.ofFn (u τ).1).getD k 0 = (u τ).1 ⟨k, hk⟩ := by
      intro τ k hk
      rw [getD_eq (by simpa using hk), List.getElem_ofFn]
    have h2 := (hasDerivAt_pi.1 (hu t).fst) ⟨j, hj⟩
    have e2 : v.getD j 0 = (A (u t)).1 ⟨j, hj⟩ := by
      rw [hc _ v (by simp) hv j hj, Finset.sum_range]
      change _ = ∑ k : Fin n, c j k * (u t).1 k + (u t).2 * v0 j
      rw [h1 t, one_mul, add_comm]
      congr 1
      exact Finset.sum_congr rfl fun k _ => by rw [e t k k.2]
    rw [e2]
    have e3 : (fun τ => (List.ofFn (u τ).1).getD j 0) = fun τ => (u τ).1 ⟨j, hj⟩ := funext fun τ => e τ j hj
    rw [e3]
    exact h2

open Classical in
/-- An exact integrator of linear equations. -/
noncomputable def exactIvp : Ivp ℝ := fun rhs ts y0 =>
  match rhs y0 with
  | .error e => .error e
  | .ok _ =>
    if h : Aff y0.length y0.length rhs then
      .ok ([ts.getD 0 0, lastT ts], [y0, (linear_exists h (ts.getD 0 0) rfl).choose (lastT ts)])
    else .ok ([ts.getD 0 0, lastT ts], [y0, y0])

theorem exactIvp_ok {rhs : List ℝ → Py (List ℝ)} {ts y0 : List ℝ} {out : List ℝ × List (List ℝ)} (h : exactIvp rhs ts y0 = .ok out) :
    ∃ y1 : List ℝ, y1.length = y0.length ∧ out = ([ts.getD 0 0, lastT ts], [y0, y1]) := by
  rw [exactIvp] at h
  split at h
  · cases h
  · split at h
    · rename_i hA
      exact ⟨_, (linear_exists hA (ts.getD 0 0) rfl).choose_spec.1 _, (Except.ok.inj h).symm⟩
    · exact ⟨_, rfl, (Except.ok.inj h).symm⟩

theorem exactIvp_sound : IvpSound exactIvp where
  raises := by intro rhs ts y0 e h; rw [exactIvp, h]
  sorted := by
    intro rhs ts y0 a b h hlt
    obtain ⟨y1, h1, e⟩ := exactIvp_ok h
    cases e
    simpa using hlt
  length := by intro rhs ts y0 a b h; obtain ⟨y1, h1, e⟩ := exactIvp_ok h; cases e; rfl
  pos := by intro rhs ts y0 a b h; obtain ⟨y1, h1, e⟩ := exactIvp_ok h; cases e; simp
  first := by intro rhs ts y0 a b h; obtain ⟨y1, h1, e⟩ := exactIvp_ok h; cases e; rfl
  state := by intro rhs ts y0 a b h; obtain ⟨y1, h1, e⟩ := exactIvp_ok h; cases e; rfl
  width := by
    intro rhs ts y0 a b h r hr
    obtain ⟨y1, h1, e⟩ := exactIvp_ok h
    cases e
    simp only [List.mem_cons, List.not_mem_nil, or_false] at hr
    rcases hr with rfl | rfl
    · rfl
    · exact h1

theorem exactIvp_complete : Complete exactIvp := by
  intro rhs ts y0 a b h
  obtain ⟨y1, h1, e⟩ := exactIvp_ok h
  cases e
  rfl

theorem exactIvp_exact : ExactIvp exactIvp := by
  intro n rhs hR a b y0 hab hy
  subst hy
  have hA : Aff y0.length y0.length rhs :=
    ⟨fun x hx => hR.total [x] (by simp [hx]), fun θ x y v w hx hy hv hw => hR.line θ [x] [y] v w (by simp [hx]) (by simp [hy]) hv hw⟩
  obtain ⟨v, hv, -⟩ := hA.total y0 rfl
  have h := (linear_exists hA a rfl).choose_spec
  refine ⟨[a, b], [y0, (linear_exists hA a rfl).choose b], ?_, _, h.1, h.2.1, rfl, fun t _ => ?_⟩
  · rw [exactIvp, hv]
    dsimp only
    rw [dif_pos hA]
    rfl
  · obtain ⟨v, h1, h2⟩ := h.2.2 t
    exact ⟨v, h1, fun j hj => (h2 j hj).hasDerivWithinAt⟩

/-- The hypotheses of `C88_linear_partial` on the integration can be satisfied by an exact one. -/
example : ∃ ivp : Ivp ℝ, IvpSound ivp ∧ Complete ivp ∧ LinearIvp ivp :=
  ⟨exactIvp, exactIvp_sound, exactIvp_complete, C88_exact exactIvp_exact⟩

end Beluga.Shoot
