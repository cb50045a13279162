import Verif.Continuation.Straight
import Mathlib.Algebra.BigOperators.Fin
import Mathlib.Logic.Equiv.Fin.Basic

/-! The product strategies: the schedule is fixed by `init`, the counter is the number of solves. -/

set_option linter.unusedSectionVars false

namespace Beluga.Cont

variable {K : Type _} {α : Type _} [Field K] [LinearOrder K]

theorem productNext_cases {s s' : Strat K α} {g : Traj K α} (h : s.productNext = .ok (g, s')) :
    ∃ d ign, Strat.baseNext { s with divisionCtr := d } ign = .ok (g, s') := by
  simp only [Strat.productNext, Py.bind_ok] at h
  obtain ⟨b, -, h⟩ := h
  split at h
  · exact ⟨_, _, h⟩
  · split at h
    · cases h
    · exact ⟨s.divisionCtr, true, h⟩

/-- In a product step the schedule never changes, the counter counts the solves, and the `i`-th guess has every
declared constant at entry `i` of its schedule. -/
theorem exec_product {L : LogOps K} {s0 s1 : Strat K α} {sol0 : Traj K α} {names : List String}
    (hs : Starts L s0 sol0 names s1) (hkind : s0.kind = .product ∨ s0.kind = .sparse)
    {tr : List (Traj K α × Traj K α)} {s : Strat K α} (h : Exec L s1 tr s) :
    s.vars = s1.vars ∧ s.numCases = s1.numCases ∧ s.ctr = tr.length ∧
    ∀ (i : Nat) (p : Traj K α × Traj K α), tr[i]? = some p → i < s1.numCases ∧
      ∀ nv ∈ s1.vars, ∀ j : Nat, names[j]? = some nv.1 → p.1.const[j]? = nv.2.steps[i]? := by
  induction h with
  | start =>
    exact ⟨rfl, rfl, by simpa using (init_ok hs.init).2.2.2.2.1.trans hs.ctr, by simp⟩
  | @step tr s s' g sol he hn hsol ih =>
    obtain ⟨hv, hnc, hctr, hall⟩ := ih
    have hf := (exec_frame hs he).1
    rw [next_product (by rw [hf.kind]; exact hkind)] at hn
    obtain ⟨d, ign, hb⟩ := productNext_cases hn
    obtain ⟨last, i0, g0, hl, hlt, happ, -, -, -, hs', -⟩ := baseNext_ok hb
    simp only at hl hlt happ
    subst hs'
    refine ⟨by simpa [Strat.addGamma] using hv, by simpa [Strat.addGamma] using hnc,
      by simp [Strat.addGamma, hctr], ?_⟩
    intro i p hp
    by_cases hi : i < tr.length
    · rw [List.getElem?_append_left hi] at hp
      exact hall i p hp
    · rw [List.getElem?_append_right (by omega)] at hp
      have hi' : i = tr.length := by
        by_contra hne
        rw [List.getElem?_eq_none (by simp; omega)] at hp
        cases hp
      subst hi'
      simp at hp
      subst hp
      refine ⟨by omega, ?_⟩
      intro nv hnv j hj
      have hk := hf.keys hs
      rw [hf.cn, hctr] at happ
      have hsp := applyVars_spec hs.names_nodup hk happ
      rw [hv] at hsp hk
      exact (hsp.2 j nv.1 hj).1 nv.2 (lookup_eq_of_mem hk (by simpa using hnv))

/-- A product step goes on whatever the solver answers, except that a failing first case raises. -/
theorem next_product_total {L : LogOps K} {s0 s1 : Strat K α} {sol0 : Traj K α} {names : List String}
    (hs : Starts L s0 sol0 names s1) (hkind : s0.kind = .product ∨ s0.kind = .sparse)
    (hnames : ∀ nv ∈ s1.vars, nv.1 ∈ names) (hsteps : ∀ nv ∈ s1.vars, s1.numCases ≤ nv.2.steps.length)
    {tr : List (Traj K α × Traj K α)} {s : Strat K α} (h : Exec L s1 tr s)
    (hfirst : ∀ p, tr = [p] → p.2.converged = true) :
    (tr.length < s1.numCases → ∃ g s', s.next L = .ok (g, s')) ∧
    (tr.length = s1.numCases → s.next L = .error .stopIteration) := by
  obtain ⟨hv, hnc, hctr, -⟩ := exec_product hs hkind h
  have hf := (exec_frame hs h).1
  rw [next_product (by rw [hf.kind]; exact hkind)]
  have hgl : ∃ last, s.gammas.getLast? = some last := by
    rw [hf.gammas, List.getLast?_cons]; exact ⟨_, rfl⟩
  obtain ⟨last, hl⟩ := hgl
  have hlen : s.constNames.length ≤ last.const.length := by
    have := (hf.unch last (List.mem_of_getLast? hl)).1
    rw [this, hf.cn, hs.names_len]
  have hred : ∃ d ign, s.productNext = Strat.baseNext { s with divisionCtr := d } ign ∧
      (ign = false → s.gammas.length = 1 ∨ last.converged = true) := by
    unfold Strat.productNext
    by_cases h0 : s.ctr = 0
    · refine ⟨0, false, by simp [h0, bind, Except.bind], fun _ => Or.inl ?_⟩
      have : tr = [] := by rw [hctr] at h0; simpa using h0
      subst this
      rw [hf.gammas]; rfl
    · have hlc : s.lastConverged = .ok last.converged := by simp [Strat.lastConverged, hl]
      cases hc : last.converged with
      | true =>
        exact ⟨0, false, by simp [h0, hlc, hc, bind, Except.bind], fun _ => Or.inr rfl⟩
      | false =>
        have h1 : s.ctr ≠ 1 := by
          intro h1
          rw [hctr] at h1
          obtain ⟨p, rfl⟩ := List.length_eq_one_iff.1 h1
          have := hfirst p rfl
          rcases hf.last hl with ⟨h2, -⟩ | ⟨pre, q, h2, rfl⟩
          · cases h2
          · have h3 : pre = [] ∧ p = q := by
              cases pre with
              | nil => simpa using h2
              | cons a l => simp at h2
            rw [h3.2] at this
            rw [this] at hc; cases hc
        exact ⟨s.divisionCtr, true, by simp [h0, h1, hlc, hc, bind, Except.bind], by simp⟩
  obtain ⟨d, ign, hd, hign⟩ := hred
  rw [hd]
  constructor
  · intro hlt
    obtain ⟨g, hg⟩ := baseNext_total (s := { s with divisionCtr := d }) (ign := ign) hl hign
      (by simp only; omega) (by simp only [hf.cn, hv]; exact hnames) hlen
      (by
        simp only [hv]
        intro nv hnv
        have := hsteps nv hnv
        omega)
    exact ⟨g, _, hg⟩
  · intro heq
    unfold Strat.baseNext
    simp only [hl]
    rw [if_neg, if_pos (by omega)]
    rintro ⟨h1, h2, h3⟩
    rcases hign h1 with h | h
    · exact h2 h
    · rw [h] at h3; cases h3

/-! ### schedules -/

theorem appendSteps_get {vars vars' : List (String × ContVar K)} {pt : List K}
    (h : appendSteps vars pt = .ok vars') :
    vars'.length = vars.length ∧ vars.length ≤ pt.length ∧
    ∀ (q : Nat) (nv : String × ContVar K), vars[q]? = some nv →
      vars'[q]? = some (nv.1, { nv.2 with steps := nv.2.steps ++ [pt.getD q 0] }) := by
  induction vars generalizing pt vars' with
  | nil =>
    simp only [appendSteps, Except.ok.injEq] at h; subst h; simp
  | cons p rest ih =>
    obtain ⟨m, w⟩ := p
    cases pt with
    | nil => simp [appendSteps] at h
    | cons x xs =>
      simp only [appendSteps, Py.bind_ok] at h
      obtain ⟨rest', hr, hfin⟩ := h
      cases hfin
      obtain ⟨h1, h2, h3⟩ := ih hr
      refine ⟨by simp [h1], by simpa using h2, ?_⟩
      intro q nv hq
      cases q with
      | zero => simp at hq; subst hq; simp
      | succ q => simp at hq; simpa using h3 q nv hq

theorem appendAll_get {vars vars' : List (String × ContVar K)} {pts : List (List K)}
    (h : appendAll vars pts = .ok vars') :
    vars'.length = vars.length ∧
    ∀ (q : Nat) (nv : String × ContVar K), vars[q]? = some nv →
      vars'[q]? = some (nv.1, { nv.2 with steps := nv.2.steps ++ pts.map fun pt => pt.getD q 0 }) := by
  induction pts generalizing vars with
  | nil => simp only [appendAll, Except.ok.injEq] at h; subst h; simp
  | cons pt pts ih =>
    simp only [appendAll, Py.bind_ok] at h
    obtain ⟨v1, h1, h2⟩ := h
    obtain ⟨a1, -, a3⟩ := appendSteps_get h1
    obtain ⟨b1, b2⟩ := ih h2
    refine ⟨b1.trans a1, ?_⟩
    intro q nv hq
    rw [b2 q _ (a3 q nv hq)]
    simp

theorem forall₂_get {β γ : Type _} {R : β → γ → Prop} {l : List β} {l' : List γ} (h : List.Forall₂ R l l')
    {q : Nat} {a : β} (ha : l[q]? = some a) : ∃ b, l'[q]? = some b ∧ R a b := by
  induction h generalizing q with
  | nil => simp at ha
  | cons hab _ ih =>
    cases q with
    | zero => simp at ha; subst ha; exact ⟨_, rfl, hab⟩
    | succ q => simp at ha; simpa using ih ha

theorem flatMap_getElem? {β γ : Type _} (l : List β) (f : β → List γ) (m : Nat) (hm : 0 < m)
    (hf : ∀ x ∈ l, (f x).length = m) (i : Nat) :
    (l.flatMap f)[i]? = (l[i / m]?).bind fun x => (f x)[i % m]? := by
  induction l generalizing i with
  | nil => simp
  | cons a l ih =>
    rw [List.flatMap_cons]
    have ha := hf a (by simp)
    by_cases hi : i < m
    · rw [List.getElem?_append_left (by omega), Nat.div_eq_of_lt hi, Nat.mod_eq_of_lt hi]
      simp
    · rw [List.getElem?_append_right (by omega), ha, ih (fun x hx => hf x (by simp [hx]))]
      have h1 : i / m = (i - m) / m + 1 := by
        rw [← Nat.add_div_right _ hm]; congr 1; omega
      have h2 : i % m = (i - m) % m := by
        rw [Nat.mod_eq_sub_mod (by omega)]
      rw [h1, h2]
      simp

theorem length_cartesian {β : Type _} (ls : List (List β)) (n : Nat) (h : ∀ l ∈ ls, l.length = n) :
    (cartesian ls).length = n ^ ls.length := by
  induction ls with
  | nil => simp [cartesian]
  | cons l ls ih =>
    rw [cartesian, List.length_flatMap]
    have : (l.map fun x => ((cartesian ls).map (x :: ·)).length) = l.map fun _ => n ^ ls.length := by
      apply List.map_congr_left
      intro x _
      rw [List.length_map, ih (fun l hl => h l (by simp [hl]))]
    rw [this]
    simp [h l (by simp), pow_succ, mul_comm]

/-- Entry `i` of the product: its coordinates are the digits of `i` to base `n`, the first being the most
significant. -/
theorem cartesian_getElem? {β : Type _} (ls : List (List β)) (n : Nat) (hn : 0 < n) (h : ∀ l ∈ ls, l.length = n)
    (i : Nat) (hi : i < n ^ ls.length) :
    ∃ pt, (cartesian ls)[i]? = some pt ∧ pt.length = ls.length ∧
      ∀ (q : Nat) (l : List β), ls[q]? = some l → pt[q]? = l[i / n ^ (ls.length - 1 - q) % n]? := by
  induction ls generalizing i with
  | nil =>
    have : i = 0 := by simpa using hi
    subst this
    exact ⟨[], by simp [cartesian], by simp, by simp⟩
  | cons l ls ih =>
    have hl : l.length = n := h l (by simp)
    have hls : ∀ l ∈ ls, l.length = n := fun l hl => h l (by simp [hl])
    have hm : 0 < n ^ ls.length := Nat.pow_pos hn
    have hi' : i < n * n ^ ls.length := by simpa [pow_succ, mul_comm] using hi
    have hdiv : i / n ^ ls.length < n := Nat.div_lt_of_lt_mul (by rw [mul_comm]; exact hi')
    obtain ⟨pt, h1, h2, h3⟩ := ih hls (i % n ^ ls.length) (Nat.mod_lt _ hm)
    obtain ⟨x, hx⟩ : ∃ x, l[i / n ^ ls.length]? = some x :=
      ⟨l[i / n ^ ls.length]'(by omega), List.getElem?_eq_getElem _⟩
    refine ⟨x :: pt, ?_, by simp [h2], ?_⟩
    · rw [cartesian, flatMap_getElem? _ _ _ hm (by
        intro y _; rw [List.length_map, length_cartesian ls n hls])]
      simp [hx, h1]
    · intro q l' hq
      cases q with
      | zero =>
        simp at hq
        subst hq
        simp only [List.getElem?_cons_zero, List.length_cons]
        rw [show ls.length + 1 - 1 - 0 = ls.length by omega, Nat.mod_eq_of_lt hdiv, hx]
      | succ q =>
        simp at hq
        have hql : q < ls.length := by
          by_contra hge
          rw [List.getElem?_eq_none (by omega)] at hq; cases hq
        simp only [List.getElem?_cons_succ, List.length_cons]
        rw [h3 q l' hq]
        have e1 : ls.length + 1 - 1 - (q + 1) = ls.length - 1 - q := by omega
        rw [e1]
        congr 1
        -- (i % n^k) / n^(k-1-q) % n = i / n^(k-1-q) % n
        have e2 : n ^ ls.length = n ^ (ls.length - 1 - q) * (n * n ^ q) := by
          rw [← pow_succ', ← pow_add]; congr 1; omega
        rw [e2, Nat.mod_mul_right_div_self]
        exact Nat.mod_mul_right_mod _ _ _

/-- What `ProductStrategy.init` produces. -/
theorem productInit_ok [IsStrictOrderedRing K] {s0 s1 : Strat K α} {sol : Traj K α} {names : List String}
    (h : s0.productInit sol names = .ok s1) :
    s1.numCases = s0.numSub ^ s0.vars.length ∧ s1.vars.length = s0.vars.length ∧
    ∀ (q : Nat) (nv : String × ContVar K), s0.vars[q]? = some nv →
      ∃ (j : Nat) (v : K) (nv' : String × ContVar K), names[j]? = some nv.1 ∧ sol.const[j]? = some v ∧
        s1.vars[q]? = some nv' ∧ nv'.1 = nv.1 ∧ nv'.2.target = nv.2.target ∧
        ∃ grid : List K, nv'.2.steps = nv.2.steps ++ grid ∧ grid.length = s0.numSub ^ s0.vars.length ∧
        ∀ i < s0.numSub ^ s0.vars.length, grid[i]? =
          some (v + ((i / s0.numSub ^ (s0.vars.length - 1 - q) % s0.numSub : Nat) : K) *
            ((nv.2.target - v) / ((s0.numSub - 1 : Nat) : K))) := by
  unfold Strat.productInit at h
  dsimp only at h
  split at h
  · cases h
  · simp only [Py.bind_ok] at h
    obtain ⟨vars1, hv1, vars2, hv2, hfin⟩ := h
    cases hfin
    have hv1 : valueVars names sol.const s0.vars = .ok vars1 := hv1
    have hF := valueVars_ok hv1
    have hlen1 := hF.length_eq
    have hall : ∀ l ∈ vars1.map fun nv => linspace nv.2.val nv.2.target s0.numSub, l.length = s0.numSub := by
      intro l hl
      obtain ⟨nv, -, rfl⟩ := List.mem_map.1 hl
      exact length_linspace _ _ _
    obtain ⟨hlen2, hget⟩ := appendAll_get hv2
    refine ⟨rfl, by rw [hlen2, ← hlen1], ?_⟩
    intro q nv hq
    obtain ⟨nv1, hq1, hn1, ht1, hs1, j, v, hj, hv, hval⟩ := forall₂_get hF hq
    refine ⟨j, v, _, hj, hv, hget q nv1 hq1, hn1, ht1, _, by rw [← hs1], ?_, ?_⟩
    · rw [List.length_map, length_cartesian _ s0.numSub hall, List.length_map, ← hlen1]
    · intro i hi
      have hql : q < s0.vars.length := by
        by_contra hge
        rw [List.getElem?_eq_none (by omega)] at hq; cases hq
      have hn : 0 < s0.numSub := by
        rcases Nat.eq_zero_or_pos s0.numSub with h0 | h0
        · rw [h0, zero_pow (by omega)] at hi; omega
        · exact h0
      set ls := vars1.map fun nv => linspace nv.2.val nv.2.target s0.numSub with hls
      have hlslen : ls.length = s0.vars.length := by rw [hls, List.length_map, ← hlen1]
      obtain ⟨pt, hp1, hp2, hp3⟩ := cartesian_getElem? ls s0.numSub hn hall i (by rw [hlslen]; exact hi)
      have hlq : ls[q]? = some (linspace v nv.2.target s0.numSub) := by
        rw [hls, List.getElem?_map, hq1]
        simp [ContVar.val, hval, ht1]
      have := hp3 q _ hlq
      rw [linspace_getElem? _ _ _ _ (Nat.mod_lt _ hn), hlslen] at this
      rw [List.getElem?_map, hp1]
      simp only [Option.map_some, List.getD_eq_getElem?_getD, this, Option.getD_some]

/-- Digits to base `n`, most significant first, as a bijection. -/
theorem exists_digit_equiv (n k : Nat) :
    ∃ e : Fin (n ^ k) ≃ (Fin k → Fin n), ∀ (i : Fin (n ^ k)) (q : Fin k),
      ((e i q : Fin n) : Nat) = (i : Nat) / n ^ (k - 1 - (q : Nat)) % n := by
  refine ⟨finFunctionFinEquiv.symm.trans (Equiv.arrowCongr Fin.revPerm (Equiv.refl _)), ?_⟩
  intro i q
  simp only [Equiv.trans_apply, Equiv.arrowCongr_apply, Function.comp, Equiv.refl_apply]
  rw [finFunctionFinEquiv_symm_apply_val]
  congr 2
  simp [Fin.revPerm]
  congr 1
  omega

end Beluga.Cont
