import Verif.Scope.Total
import Verif.EndToEnd.Back

/-! # Trajectories of the reduced problem can be mapped back -/

namespace Beluga.Scope

open Beluga.Sym Beluga.Sym.Expr Beluga.Num Beluga.Map Beluga.Opt Beluga.E2E

private theorem ok_bind' {α β : Type} (a : α) (f : α → Py β) : ((Except.ok a : Py α) >>= f) = f a := rfl

variable {K : Type}

/-- The sizes of a trajectory between two mappers, with `n` costates. -/
structure Base (p : Prob) (n : Nat) (s : Sol K) : Prop extends Fits p s where
  duals : s.dual.Shape s.t.length n

/-- With a table of controls. -/
structure Held (p : Prob) (n : Nat) (s : Sol K) : Prop extends Base p n s where
  controls : s.u.Shape s.t.length p.controls.length

/-- Problems of the same size. -/
structure Like (p q : Prob) : Prop where
  states : p.states.length = q.states.length
  controls : p.controls.length = q.controls.length
  quads : p.quads.length = q.quads.length
  parameters : p.parameters.length = q.parameters.length
  constants : p.constants.length = q.constants.length

theorem Base.like {p q : Prob} {n : Nat} {s : Sol K} (h : Base p n s) (e : Like p q) : Base q n s :=
  ⟨⟨h.times, e.states ▸ h.states, e.quads ▸ h.quads, e.parameters ▸ h.dyn, e.constants ▸ h.const⟩, h.duals⟩

theorem Held.like {p q : Prob} {n : Nat} {s : Sol K} (h : Held p n s) (e : Like p q) : Held q n s :=
  ⟨h.toBase.like e, e.controls ▸ h.controls⟩

/-! ### Arrays -/

theorem Shape.slice {a : Arr K} {T m n : Nat} (h : a.Shape T (m + n)) : ∃ b, a.slice m (m + n) = .ok b ∧ b.Shape T n := by
  obtain ⟨r, rfl, hT, hr⟩ := h
  refine ⟨_, rfl, ?_⟩
  have e : min (m + n) (m + n) - min m (m + n) = n := by omega
  rw [e]
  refine ⟨_, rfl, by simp [hT], ?_⟩
  intro x hx
  obtain ⟨y, hy, rfl⟩ := List.mem_map.1 hx
  simp [hr y hy]

theorem Shape.deleteSlice {a : Arr K} {T m n : Nat} (h : a.Shape T (m + n)) : ∃ b, a.deleteSlice m (m + n) = .ok b ∧ b.Shape T m := by
  obtain ⟨r, rfl, hT, hr⟩ := h
  refine ⟨_, rfl, ?_⟩
  have e : m + n - (min (m + n) (m + n) - min m (m + n)) = m := by omega
  rw [e]
  refine ⟨_, rfl, by simp [hT], ?_⟩
  intro x hx
  obtain ⟨y, hy, rfl⟩ := List.mem_map.1 hx
  simp [hr y hy]

theorem Shape.col [Zero K] {a : Arr K} {T n : Nat} (h : a.Shape T (n + 1)) : ∃ v, a.col n = .ok v ∧ v.length = T := by
  obtain ⟨r, rfl, hT, hr⟩ := h
  refine ⟨_, if_pos (Nat.lt_succ_self n), by simp [hT]⟩

theorem Shape.deleteCol {a : Arr K} {T n : Nat} (h : a.Shape T (n + 1)) : ∃ b, a.deleteCol n = .ok b ∧ b.Shape T n := by
  obtain ⟨r, rfl, hT, hr⟩ := h
  refine ⟨_, if_pos (Nat.lt_succ_self n), ?_⟩
  refine ⟨_, rfl, by simp [hT], ?_⟩
  intro x hx
  obtain ⟨y, hy, rfl⟩ := List.mem_map.1 hx
  rw [List.length_eraseIdx, hr y hy, if_pos (Nat.lt_succ_self n)]
  rfl

/-- The last `m` of `n + m` columns. -/
abbrev lastCols (n m : Nat) : List Nat := (List.range m).map (n + ·)

theorem lastCols_lt {n m : Nat} : ∀ i ∈ lastCols n m, i < n + m := by
  intro i hi
  obtain ⟨j, hj, rfl⟩ := List.mem_map.1 hi
  have := List.mem_range.1 hj
  omega

theorem Shape.pick [Zero K] {a : Arr K} {T n m : Nat} (h : a.Shape T (n + m)) :
    ∃ b, a.pick (lastCols n m) = .ok b ∧ b.Shape T m := by
  obtain ⟨r, rfl, hT, hr⟩ := h
  refine ⟨_, if_pos lastCols_lt, ?_⟩
  have e : (lastCols n m).length = m := by simp
  rw [e]
  refine ⟨_, rfl, by simp [hT], ?_⟩
  intro x hx
  obtain ⟨y, hy, rfl⟩ := List.mem_map.1 hx
  simp

theorem delete_length {α : Type} {n m : Nat} {x : List α} (h : x.length = n + m) : (Arr.deleteFrom (lastCols n m) 0 x).length = n := by
  have h1 : x = x.take n ++ x.drop n := (List.take_append_drop n x).symm
  have h2 : (x.take n).length = n := by simp [h]
  have h3 : (x.drop n).length = m := by simp [h]
  have := deleteFrom_tail (x.take n) (x.drop n)
  rw [h2, h3, ← h1] at this
  rw [this, h2]

theorem Shape.deleteCols {a : Arr K} {T n m : Nat} (h : a.Shape T (n + m)) :
    ∃ b, a.deleteCols (lastCols n m) = .ok b ∧ b.Shape T n := by
  obtain ⟨r, rfl, hT, hr⟩ := h
  refine ⟨_, if_pos lastCols_lt, ?_⟩
  rw [delete_length (by simp)]
  refine ⟨_, rfl, by simp [hT], ?_⟩
  intro x hx
  obtain ⟨y, hy, rfl⟩ := List.mem_map.1 hx
  exact delete_length (hr y hy)

/-! ### One mapper after the other -/

variable [Field K] [LinearOrder K] {S : Sympy} {O : TrigOps K} {rule : List K → List K → K} {I : Interp K}

theorem invSteps_append' : ∀ {l m : List Step} {p p1 : Prob} {s : Sol K}, runSteps S l p = .ok p1 →
    invSteps S O rule I (l ++ m) p s = (invSteps S O rule I m p1 s >>= invSteps S O rule I l p)
  | [], m, p, p1, s, h => by
    cases h
    rw [List.nil_append]
    cases invSteps S O rule I m p s <;> rfl
  | step :: l, m, p, p1, s, h => by
    rw [runSteps_cons] at h
    obtain ⟨p0, h1, h⟩ := bind_ok h
    rw [List.cons_append, invSteps, h1, ok_bind', invSteps_append' h]
    cases h2 : invSteps S O rule I m p1 s with
    | error e => rfl
    | ok s1 =>
      rw [ok_bind', ok_bind', invSteps, h1, ok_bind']

theorem invSteps_single {step : Step} {p p1 : Prob} {s : Sol K} (hp : step.run S p = .ok p1) {tags : List MapTag}
    (ht : p1.chain = p.chain ++ tags) : invSteps S O rule I [step] p s = invTags O rule I p p1 tags s := by
  rw [invSteps, hp, ok_bind', newTags, ht, List.drop_left' rfl]
  rfl

theorem back_squash {p p' : Prob} {s : Sol K} (h : squash p = .ok p') (hc : p.coparameters = []) (hs : Fits p' s) :
    ∃ s', invSteps S O rule I [.squash] p s = .ok s' ∧ Base p p.costates.length s' := by
  cases h
  rw [invSteps_single (S := S) (step := .squash) (p1 := _) rfl rfl]
  obtain ⟨h1, h2, h3, h4, h5⟩ := hs
  simp only [List.length_append, hc, List.append_nil] at h2 h3
  obtain ⟨d, hd, hd'⟩ := Shape.slice h2
  obtain ⟨y, hy, hy'⟩ := Shape.deleteSlice h2
  refine ⟨{ s with
      dual := d
      y := y
      nondyn := s.nondyn.take (p.constraintParams ++ p.adjoints).length ++
        s.nondyn.drop ((p.constraintParams ++ p.adjoints).length + p.adjoints.length) }, ?_, ⟨⟨h1, hy', h3, h4, h5⟩, hd'⟩⟩
  · rw [invTags, invTags, ok_bind', invTag, Mapper.inv, hd, ok_bind', hy, ok_bind']

theorem back_time {p p' : Prob} {n : Nat} {s : Sol K} (h : normalizeTime p = .ok p') (hs : Base p' n s) :
    ∃ s', invSteps S O rule I [.normalizeTime] p s = .ok s' ∧ Base p n s' := by
  have e := normalizeTime_ok h
  have hc : p'.chain = p.chain ++ [.normalizeTime p.parameters.length] := by rw [e]
  rw [invSteps_single (S := S) (step := .normalizeTime) (p1 := p') h hc]
  obtain ⟨⟨h1, h2, h3, h4, h5⟩, h6⟩ := hs
  have h4' : s.dyn.length = p.parameters.length + 1 := by rw [h4, e]; simp
  have hlt : p.parameters.length < s.dyn.length := by omega
  refine ⟨{ s with t := s.t.map fun t => t * s.dyn[p.parameters.length], dyn := s.dyn.eraseIdx p.parameters.length }, ?_, ?_⟩
  · rw [invTags, invTags, ok_bind', invTag, Mapper.inv, Py.get, List.getElem?_eq_getElem hlt]
    rfl
  · have e1 : p'.states.length = p.states.length := by rw [e]; simp
    have e2 : p'.quads = p.quads := by rw [e]
    have e3 : p'.constants = p.constants := by rw [e]
    rw [e1] at h2
    rw [e2] at h3
    rw [e3] at h5
    refine ⟨⟨by simpa using h1, by simpa using h2, by simpa using h3, ?_, h5⟩, by simpa using h6⟩
    rw [List.length_eraseIdx, if_pos hlt]
    omega

theorem mapperU_total {q : Prob} (hq : Scoped q) (hl : q.controlLaw ≠ []) {t : K} {y lam pr k : List K} (hy : y.length = q.states.length)
    (hlam : lam.length = q.costates.length) (hp : pr.length = q.parameters.length) (hk : k.length = q.constants.length) :
    ∃ u, mapperU I q t y lam pr k = .ok u ∧ u.length = q.controls.length := by
  obtain ⟨H, hH, hU⟩ := hq.ham
  have hs : Sizes [[q.ind], sts q, q.costates.map Dyn.name, q.parameters, q.constants] [[t], y, lam, pr, k] :=
    .cons rfl (.cons (by simp [sts, hy]) (.cons (by simp [hlam]) (.cons hp.symm (.cons hk.symm .nil))))
  have hf : ∀ e, Uses e (allNames q) → Uses e [[q.ind], sts q, q.costates.map Dyn.name, q.parameters, q.constants].flatten := by
    intro e he s h
    have := he s h
    simp only [allNames, List.mem_append, List.flatten_cons, List.flatten_nil, List.append_nil] at this ⊢
    tauto
  rw [mapperU]
  match hl' : q.controlLaw, hl with
  | [o], _ =>
    obtain ⟨v, hv, hlen⟩ := lambdifyL_total I hs (es := o) fun e he => hf e ((hq.law o (by simp [hl'])).2 e he)
    exact ⟨v, hv, by rw [hlen, (hq.law o (by simp [hl'])).1]⟩
  | o1 :: o2 :: rest, _ =>
    obtain ⟨us, hus, hlen⟩ := lambdifyM_total I hs (es := o1 :: o2 :: rest)
      fun o ho e he => hf e ((hq.law o (by rw [hl']; exact ho)).2 e he)
    have hul : ∀ u ∈ us, u.length = q.controls.length := by
      intro u hu
      obtain ⟨o, ho, h1⟩ := forall₂_right hlen u hu
      rw [h1, (hq.law o (by rw [hl']; exact ho)).1]
    obtain ⟨hs', hhs⟩ := mapM_total (f := fun u => (do
        let h ← lambdify I [[q.ind], sts q, q.costates.map Dyn.name, q.controls, q.parameters, q.constants] H
          [[t], y, lam, u, pr, k]
        .ok (u, h) : Py (List K × K))) (l := us) (by
      intro u hu
      obtain ⟨v, hv⟩ := lambdify_total I (args := [[q.ind], sts q, q.costates.map Dyn.name, q.controls, q.parameters, q.constants])
        (vals := [[t], y, lam, u, pr, k])
        (.cons rfl (.cons (by simp [sts, hy]) (.cons (by simp [hlam]) (.cons (hul u hu).symm (.cons hp.symm (.cons hk.symm .nil))))))
        (e := H) (by
          intro s h
          have := hU s h
          simp only [allNames, List.mem_append, List.flatten_cons, List.flatten_nil, List.append_nil] at this ⊢
          tauto)
      rw [hv]
      exact ⟨_, rfl⟩)
    have hne : hs' ≠ [] := by
      have h1 := mapM_length hhs
      have h2 := hlen.length_eq
      rintro rfl
      simp at h1 h2
      omega
    obtain ⟨w, hw, hsel⟩ := select_some (K := K) (fun uh : List K × K => some uh.2) hne
    refine ⟨w.1, ?_, ?_⟩
    · simp only [hus]
      change (match q.hamiltonian with
        | none => _
        | some H => _) = _
      rw [hH]
      dsimp only
      rw [hhs]
      change (match select _ hs' with
        | some uh => _
        | none => _) = _
      rw [hsel]
    · obtain ⟨u, hu, h1⟩ := forall₂_right (mapM_pairs hhs) w hw
      obtain ⟨h, -, h2⟩ := bind_ok h1
      cases h2
      exact hul u hu

theorem back_algebraic {p p' : Prob} {s : Sol K} (h : algebraicControl S p = .ok p') (hp : Scoped p') (hl : p'.controlLaw ≠ [])
    (hs : Base p' p'.costates.length s) :
    ∃ s', invSteps S O rule I [.algebraic] p s = .ok s' ∧ Held p p'.costates.length s' := by
  have e : p' = { p with dhdu := p'.dhdu, controlLaw := p'.controlLaw, chain := p.chain ++ [.algebraic] } := by
    rw [algebraicControl] at h
    split at h
    · cases h
    · split at h
      · cases h
      · obtain ⟨law, -, h⟩ := bind_ok h
        cases h
        rfl
  have hc : p'.chain = p.chain ++ [.algebraic] := by rw [e]
  rw [invSteps_single (S := S) (step := .algebraic) (p1 := p') h hc]
  obtain ⟨⟨h1, ⟨ry, h2, h2', h2''⟩, h3, h4, h5⟩, ⟨rd, h6, h6', h6''⟩⟩ := hs
  obtain ⟨r, hr⟩ := mapM_total (l := s.t.zip (s.y.rowList.zip s.dual.rowList))
    (f := fun x => mapperU I p' x.1 x.2.1 x.2.2 s.dyn s.const) (by
      rintro ⟨t, y, d⟩ hx
      have hm := List.of_mem_zip hx
      have hm' := List.of_mem_zip hm.2
      rw [h2, h6] at hm'
      obtain ⟨u, hu, -⟩ := mapperU_total (I := I) hp hl (t := t) (h2'' y hm'.1) (h6'' d hm'.2) h4 h5
      exact ⟨u, hu⟩)
  have hlen : r.length = s.t.length := by
    rw [mapM_length hr, h2, h6]
    simp [Arr.rowList, h2', h6']
  have hrow : ∀ u ∈ r, u.length = p'.controls.length := by
    intro u hu
    obtain ⟨⟨t, y, d⟩, hx, hv⟩ := forall₂_right (mapM_pairs hr) u hu
    have hm := List.of_mem_zip hx
    have hm' := List.of_mem_zip hm.2
    rw [h2, h6] at hm'
    obtain ⟨u', hu', hl'⟩ := mapperU_total (I := I) hp hl (t := t) (h2'' y hm'.1) (h6'' d hm'.2) h4 h5
    rw [hu'] at hv
    cases hv
    exact hl'
  have hne : r ≠ [] := by
    rintro rfl
    exact h1 (List.eq_nil_of_length_eq_zero hlen.symm)
  have hL : Like p' p := by rw [e]; exact ⟨rfl, rfl, rfl, rfl, rfl⟩
  refine ⟨{ s with u := .rows p'.controls.length r }, ?_, Held.like ⟨⟨⟨h1, ⟨ry, h2, h2', h2''⟩, h3, h4, h5⟩, ⟨rd, h6, h6', h6''⟩⟩,
    ⟨r, rfl, hlen, hrow⟩⟩ hL⟩
  rw [invTags, invTags, ok_bind', invTag, hr, ok_bind', if_neg hne]

theorem back_differential {m : Method} {p p' : Prob} {s : Sol K} (hS : Tidy S) (hp : Scoped p) (hn : p.costates.length = p.states.length)
    (h : differentialControl S m p = .ok p') (hs : Base p' p'.costates.length s) :
    ∃ s', invSteps S O rule I [.differential m] p s = .ok s' ∧ Held p p.costates.length s' := by
  cases m with
  | traditional =>
    obtain ⟨-, -, H, udot, hH, hlu, e⟩ := differential_traditional h
    obtain ⟨hlen, -⟩ := udot_free hS hp hH hlu
    have hcl : (ctlStates p.controls udot).length = p.controls.length := by rw [← List.length_map (f := Dyn.name), ctlStates_names hlen]
    have hc : p'.chain = p.chain ++ [.differential (lastCols p.states.length p.controls.length)] := by rw [e, hcl]
    rw [invSteps_single (S := S) (step := .differential .traditional) (p1 := p') h hc]
    have e1 : p'.states.length = p.states.length + p.controls.length := by rw [e]; simp [hcl]
    have e2 : p'.costates = p.costates := by rw [e]
    have e3 : p'.quads = p.quads := by rw [e]
    have e4 : p'.parameters = p.parameters := by rw [e]
    have e5 : p'.constants = p.constants := by rw [e]
    obtain ⟨⟨h1, h2, h3, h4, h5⟩, h6⟩ := hs
    rw [e1] at h2
    rw [e2] at h6
    rw [e3] at h3
    rw [e4] at h4
    rw [e5] at h5
    obtain ⟨u, hu, hu'⟩ := Shape.pick h2
    obtain ⟨y, hy, hy'⟩ := Shape.deleteCols h2
    refine ⟨{ s with u := u, y := y }, ?_, ⟨⟨⟨h1, hy', h3, h4, h5⟩, h6⟩, hu'⟩⟩
    rw [invTags, invTags, ok_bind', invTag, Mapper.inv, hu, ok_bind', hy, ok_bind']
  | diffyg =>
    obtain ⟨-, -, H, udot, chi, hH, hlu, hl2, -, e⟩ := differential_diffyg h
    obtain ⟨hlen, -⟩ := udot_free hS hp hH hlu
    have hcl : (ctlStates p.controls udot).length = p.controls.length := by rw [← List.length_map (f := Dyn.name), ctlStates_names hlen]
    have hc : p'.chain = p.chain ++ [.differentialDiffyG (lastCols p.states.length p.controls.length)] := by rw [e, hcl]
    rw [invSteps_single (S := S) (step := .differential .diffyg) (p1 := p') h hc]
    have hall : ∀ (ds : List Dyn) (es : List Expr), (setEoms ds es).length = ds.length := by
      intro ds es
      rw [← List.length_map (f := Dyn.name), setEoms_names, List.length_map]
    have e1 : p'.states.length = p.states.length + p.controls.length := by rw [e]; simp [hcl, hall]
    have e2 : p'.costates.length = p.costates.length + p.controls.length := by rw [e]; simp [hcl, hall]; omega
    have e3 : p'.quads = p.quads := by rw [e]
    have e4 : p'.parameters = p.parameters := by rw [e]
    have e5 : p'.constants = p.constants := by rw [e]
    obtain ⟨⟨h1, h2, h3, h4, h5⟩, h6⟩ := hs
    rw [e1] at h2
    rw [e2] at h6
    rw [e3] at h3
    rw [e4] at h4
    rw [e5] at h5
    obtain ⟨u, hu, hu'⟩ := Shape.pick h2
    obtain ⟨y, hy, hy'⟩ := Shape.deleteCols h2
    obtain ⟨d, hd, hd'⟩ := Shape.deleteCols h6
    rw [hn] at hd
    refine ⟨{ s with u := u, y := y, dual := d }, ?_, ⟨⟨⟨h1, hy', h3, h4, h5⟩, hd'⟩, hu'⟩⟩
    rw [invTags, invTags, ok_bind', invTag, Mapper.inv, hu, ok_bind', hy, ok_bind', hd, ok_bind']
  | other =>
    rw [differentialControl] at h
    split at h
    · cases h
    · split at h
      · cases h
      · obtain ⟨_, -, h⟩ := bind_ok h
        obtain ⟨_, -, h⟩ := bind_ok h
        obtain ⟨_, -, h⟩ := bind_ok h
        cases h

omit [Field K] [LinearOrder K] in
/-- A row of a table that has as many values as there are quadratures. -/
theorem quadRow_total {row : Arr K → Py (List K)} {a : Arr K} {T c : Nat} (h : Table a T c) (hT : 0 < T)
    (hrow : ∀ r : List (List K), r ≠ [] → ∃ x ∈ r, row (.rows c r) = .ok x) : ∃ v, Rep.quadRow row a = .ok v ∧ v.length = c := by
  rw [Rep.quadRow]
  by_cases hl : a.len > 0
  · rw [if_pos hl]
    rcases h with ⟨rfl, h⟩ | ⟨r, rfl, h1, h2⟩
    · omega
    · obtain ⟨x, hx, h3⟩ := hrow r (by rintro rfl; simp at h1; omega)
      exact ⟨x, h3, h2 x hx⟩
  · rw [if_neg hl]
    rcases h with ⟨rfl, h⟩ | ⟨r, rfl, h1, h2⟩
    · exact ⟨[], rfl, rfl⟩
    · simp only [Arr.len, Arr.rowList] at hl
      omega

omit [Field K] [LinearOrder K] in
theorem firstRow_total {c : Nat} (r : List (List K)) (h : r ≠ []) : ∃ x ∈ r, Rep.firstRow (.rows c r) = .ok x := by
  cases r with
  | nil => exact absurd rfl h
  | cons x r => exact ⟨x, by simp, rfl⟩

omit [Field K] [LinearOrder K] in
theorem lastRow_total {c : Nat} (r : List (List K)) (h : r ≠ []) : ∃ x ∈ r, Rep.lastRow (.rows c r) = .ok x := by
  refine ⟨r.getLast h, List.getLast_mem h, ?_⟩
  rw [Rep.lastRow, List.getLast?_eq_some_getLast h]

omit [LinearOrder K] in
theorem computeCost_total {q : Prob} (hq : Ready q) {n : Nat} {s : Sol K} (hs : Held q n s) :
    ∃ c, Rep.computeCost rule I q s.t s.y s.q s.u s.dyn s.const = .ok c := by
  obtain ⟨⟨⟨h1, ⟨ry, h2, h2', h2''⟩, h3, h4, h5⟩, -⟩, ⟨ru, h7, h7', h7''⟩⟩ := hs
  have hT : 0 < s.t.length := List.length_pos_iff.2 h1
  have hy : ry ≠ [] := by rintro rfl; simp at h2'; omega
  obtain ⟨y0, hy0, e0⟩ := firstRow_total (c := q.states.length) ry hy
  obtain ⟨yf, hyf, ef⟩ := lastRow_total (c := q.states.length) ry hy
  obtain ⟨q0, eq0, hq0⟩ := quadRow_total h3 hT firstRow_total
  obtain ⟨qf, eqf, hqf⟩ := quadRow_total h3 hT lastRow_total
  have hend : ∀ (y x : List K), y.length = q.states.length → x.length = q.quads.length → ∀ e ∈ costExprs q,
      ∃ v, lambdify I (Rep.bcArgs q) e [y, x, s.dyn, s.const] = .ok v := by
    intro y x hy hx e he
    refine lambdify_total I (.cons (by simp [sts, hy]) (.cons (by simp [qds, hx]) (.cons h4.symm (.cons h5.symm .nil)))) ?_
    intro n hn
    have := hq.costs e he n hn
    simp only [fixedNames, List.mem_append, List.flatten_cons, List.flatten_nil, List.append_nil] at this ⊢
    tauto
  obtain ⟨c0, ec0⟩ := hend y0 q0 (h2'' y0 hy0) hq0 q.costInitial (by simp [costExprs])
  obtain ⟨cf, ecf⟩ := hend yf qf (h2'' yf hyf) hqf q.costTerminal (by simp [costExprs])
  obtain ⟨path, hpath⟩ := mapM_total (l := ry.zip ru)
    (f := fun yu => lambdify I (Rep.dynArgs q) q.costPath [yu.1, yu.2, s.dyn, s.const]) (by
      rintro ⟨y, u⟩ hx
      have hm := List.of_mem_zip hx
      refine lambdify_total I (.cons (by simp [sts, h2'' y hm.1]) (.cons (h7'' u hm.2).symm (.cons h4.symm (.cons h5.symm .nil)))) ?_
      intro n hn
      have := hq.path q.costPath (by simp [pathExprs]) n hn
      simp only [fixedNames, List.mem_append, List.flatten_cons, List.flatten_nil, List.append_nil] at this ⊢
      tauto)
  have hlen : path.length = s.t.length := by rw [mapM_length hpath]; simp [h2', h7']
  refine ⟨c0 + cf + rule path s.t, ?_⟩
  rw [Rep.computeCost, h2, h7, e0, ok_bind', eq0, ok_bind', ec0, ok_bind', ef, ok_bind', eqf, ok_bind', ecf, ok_bind']
  simp only [Arr.rowList]
  rw [hpath, ok_bind', Rep.simpson, if_neg (not_not.2 hlen)]
  rfl

theorem back_dualize {m : Method} {p p' : Prob} {n : Nat} {s : Sol K} (hS : Tidy S) (hp : Ready p) (h : dualize S m p = .ok p')
    (hs : Held p' n s) : ∃ s', invSteps S O rule I [.dualize m] p s = .ok s' ∧ Held p n s' ∧ s'.cost.isSome := by
  obtain ⟨cos, cops, sy, om, cm, -, -, -, e⟩ := dualize_ok hS hp.start.1 hp.start.2.1 h
  have hc := congrArg Prob.chain e
  rw [invSteps_single (S := S) (step := .dualize m) (p1 := p') h hc]
  have hL : Like p' p := by rw [e]; exact ⟨rfl, rfl, rfl, rfl, rfl⟩
  have hs' := hs.like hL
  obtain ⟨c, hcost⟩ := computeCost_total (rule := rule) (I := I) hp hs'
  refine ⟨{ s with nondyn := [], cost := some c }, ?_, ⟨⟨⟨hs'.times, hs'.states, hs'.quads, hs'.dyn, hs'.const⟩, hs'.duals⟩, hs'.controls⟩, rfl⟩
  rw [invTags, invTags, ok_bind', invTag, hcost, ok_bind']

theorem back_rashs {P : Name → Prop} {D : List Name} {p q : Prob} {b : Bool} {n : Nat} {s : Sol K} (hm : Mid P [] D p)
    (hb : b = decide (p.switches.length > 0)) (h : runSteps S (if b then [.rashs] else []) p = .ok q)
    (hs : Held q n s) : invSteps S O rule I (if b then [.rashs] else []) p s = .ok s ∧ Held p n s := by
  have h' : runSteps S (if p.switches.length > 0 then [.rashs] else []) p = .ok q := by rw [hb] at h; simpa using h
  obtain ⟨f, hf, he⟩ := rashs_step hm.sympified (mid_acyclic hm) h'
  have hstates : q.states = p.states.map fun d => ⟨d.name, f d.eom⟩ := congrArg Prob.states hf
  have hquads : q.quads = p.quads.map fun d => ⟨d.name, f d.eom⟩ := congrArg Prob.quads hf
  have hparams : q.parameters = p.parameters := by have := congrArg Prob.parameters hf; exact this
  have hconsts : q.constants = p.constants := by have := congrArg Prob.constants hf; exact this
  have hcontrols : q.controls = p.controls := by have := congrArg Prob.controls hf; exact this
  have hL : Like q p := ⟨by rw [hstates, List.length_map], by rw [hcontrols], by rw [hquads, List.length_map], by rw [hparams], by rw [hconsts]⟩
  refine ⟨?_, hs.like hL⟩
  cases b with
  | false => rfl
  | true =>
    rw [if_pos rfl, runSteps_cons] at h
    obtain ⟨r, hr, h⟩ := bind_ok h
    cases h
    rw [if_pos rfl, invSteps_single (S := S) (step := .rashs) (p1 := q) (tags := []) hr (by rw [rashs_chain hr, List.append_nil])]
    rfl

omit [Field K] [LinearOrder K] in
theorem epsLoop_total {f : K → K → List K → Py K} {k c : Nat} (hk : k < c) : ∀ {ts : List K} {ys us : List (List K)},
    ys.length = ts.length → us.length = ts.length → (∀ u ∈ us, u.length = c) → (∀ x t, ∀ y ∈ ys, ∃ v, f x t y = .ok v) →
    ∃ r, E2E.epsLoop k f ts ys us = .ok r ∧ r.length = ts.length ∧ ∀ u ∈ r, u.length = c
  | [], ys, us, _, h2, _, _ => by
    cases us with
    | nil => exact ⟨[], rfl, rfl, by simp⟩
    | cons u us => cases h2
  | t :: ts, [], us, h1, _, _, _ => by cases h1
  | t :: ts, y :: ys, [], _, h2, _, _ => by cases h2
  | t :: ts, y :: ys, u :: us, h1, h2, h3, h4 => by
    have hu := h3 u (by simp)
    have hk' : k < u.length := by omega
    obtain ⟨v, hv⟩ := h4 u[k] t y (by simp)
    obtain ⟨r, hr, hl, hc⟩ := epsLoop_total hk (ts := ts) (ys := ys) (us := us) (by simpa using h1) (by simpa using h2)
      (fun w hw => h3 w (by simp [hw])) (fun x t y hy => h4 x t y (by simp [hy]))
    refine ⟨u.set k v :: r, ?_, by simp [hl], ?_⟩
    · rw [E2E.epsLoop, Py.get, List.getElem?_eq_getElem hk']
      simp only [ok_bind', hv, hr]
    · intro w hw
      rcases List.mem_cons.1 hw with rfl | hw
      · simpa using hu
      · exact hc w hw

theorem back_eps {P : Name → Prop} {D : List Name} {p p' : Prob} {n : Nat} {s : Sol K} (hm : Mid P [] D p) (h : epsTrig p = .ok p')
    (hs : Held p' n s) : ∃ s', invSteps S O rule I [.epsTrig] p s = .ok s' ∧ Held p n s' ∧ s'.cost = s.cost := by
  obtain ⟨i, c, k, u, a, lo, hi, hc, hme, he, hk, ha, hlo, hhi, e⟩ := epsTrig_inv h
  have hk' : k < p.controls.length := by
    by_contra hlt
    rw [List.getElem?_eq_none (not_lt.1 hlt)] at hk
    cases hk
  have hL : Like p' p := by
    rw [e]
    refine ⟨?_, ?_, ?_, rfl, rfl⟩ <;> simp [Prob.subsAll]
  have hchain : p'.chain = p.chain ++ [.epsTrig k lo hi p.ind (sts p) p.parameters p.constants] := by
    rw [e]
    simp [sts, Prob.subsAll, Dyn.subs, List.map_map, Function.comp_def]
  have hs' := hs.like hL
  rw [invSteps_single (S := S) (step := .epsTrig) (p1 := p') h hchain]
  obtain ⟨⟨⟨h1, ⟨ry, h2, h2', h2''⟩, h3, h4, h5⟩, h6⟩, ⟨ru, h7, h7', h7''⟩⟩ := hs'
  have hcm : c ∈ p.path := List.mem_of_getElem? hc
  have hfun : ∀ x t, ∀ y ∈ ry, ∃ v, epsFunc O I lo hi [[p.ind], sts p, p.parameters, p.constants] s.dyn s.const x t y = .ok v := by
    intro x t y hy
    have hsz : Sizes [[p.ind], sts p, p.parameters, p.constants] [[t], y, s.dyn, s.const] :=
      .cons rfl (.cons (by simp [sts, h2'' y hy]) (.cons h4.symm (.cons h5.symm .nil)))
    have hb : ∀ e, (∀ s ∈ e.free, s ∈ fixedNames p) → Uses e [[p.ind], sts p, p.parameters, p.constants].flatten := by
      intro e he s hs
      have := he s hs
      simp only [fixedNames, List.mem_append, List.flatten_cons, List.flatten_nil, List.append_nil] at this ⊢
      tauto
    obtain ⟨l, hl⟩ := lambdify_total I hsz (hb lo fun s hs => by simpa using hm.bounds c hcm hme lo (by simp [hlo]) s hs)
    obtain ⟨h, hh⟩ := lambdify_total I hsz (hb hi fun s hs => by simpa using hm.bounds c hcm hme hi (by simp [hhi]) s hs)
    refine ⟨epsBackward O l h x, ?_⟩
    rw [epsFunc, hl, ok_bind', hh, ok_bind']
  obtain ⟨r, hr, hlen, hrow⟩ := epsLoop_total (f := epsFunc O I lo hi [[p.ind], sts p, p.parameters, p.constants] s.dyn s.const) hk'
    (ts := s.t) h2' h7' h7'' hfun
  refine ⟨{ s with u := .rows p.controls.length r }, ?_, ⟨⟨⟨h1, ⟨ry, h2, h2', h2''⟩, h3, h4, h5⟩, h6⟩, ⟨r, rfl, hlen, hrow⟩⟩, rfl⟩
  rw [invTags, invTags, ok_bind', invTag, epsInv, h7, h2]
  simp only [Arr.rowList]
  rw [hr, ok_bind']

theorem back_utm {p p' : Prob} {n : Nat} {s : Sol K} (h : utm p = .ok p') (hs : Held p' n s) :
    invSteps S O rule I [.utm] p s = .ok s ∧ Held p n s := by
  have ⟨hc, hL⟩ : p'.chain = p.chain ++ [.identity] ∧ Like p' p := by
    rw [utm] at h
    split at h
    · cases h
    · split at h
      · cases h
      · split at h
        · cases h
        · split at h
          · split at h
            · cases h
              exact ⟨rfl, ⟨rfl, rfl, rfl, rfl, rfl⟩⟩
            · cases h
          · cases h
  rw [invSteps_single (S := S) (step := .utm) (p1 := p') h hc]
  exact ⟨rfl, hs.like hL⟩

theorem back_ineq {P : Name → Prop} {D : List Name} : ∀ {steps : List Step} {p p' : Prob} {n : Nat} {s : Sol K},
    (∀ st ∈ steps, st = .epsTrig ∨ st = .utm) → Mid P [] D p → runSteps S steps p = .ok p' → Held p' n s →
    ∃ s', invSteps S O rule I steps p s = .ok s' ∧ Held p n s' ∧ s'.cost = s.cost
  | [], p, p', n, s, _, _, h, hs => by
    cases h
    exact ⟨s, rfl, hs, rfl⟩
  | st :: steps, p, p', n, s, hst, hm, h, hs => by
    rw [runSteps_cons] at h
    obtain ⟨p1, h1, h⟩ := bind_ok h
    have hm1 : Mid P [] D p1 := by
      rcases hst st (by simp) with rfl | rfl
      · exact mid_eps hm h1
      · exact mid_utm hm h1
    obtain ⟨s1, e1, hs1, hc1⟩ := back_ineq (fun st' h' => hst st' (List.mem_cons_of_mem _ h')) hm1 h hs
    have hrun : runSteps S [st] p = .ok p1 := by rw [runSteps_cons, h1]; rfl
    have : invSteps S O rule I (st :: steps) p s = (invSteps S O rule I steps p1 s >>= invSteps S O rule I [st] p) :=
      invSteps_append' (l := [st]) hrun
    rw [this, e1, ok_bind']
    rcases hst st (by simp) with rfl | rfl
    · obtain ⟨s2, e2, hs2, hc2⟩ := back_eps (O := O) (rule := rule) (I := I) (S := S) hm h1 hs1
      exact ⟨s2, e2, hs2, hc2.trans hc1⟩
    · obtain ⟨e2, hs2⟩ := back_utm (O := O) (rule := rule) (I := I) (S := S) h1 hs1
      exact ⟨s1, e2, hs2, hc1⟩

theorem back_shift {p p' : Prob} {s : Sol K} (h : momentumShift p = .ok p') (hs : Held p' p'.states.length s) :
    ∃ s', invSteps S O rule I [.momentumShift] p s = .ok s' ∧ Held p p.states.length s' ∧ s'.cost = s.cost := by
  have hc : p'.chain = p.chain ++ [.momentumShift p.states.length] := by
    rw [momentumShift] at h
    split at h
    · cases h
    · cases h; simp
  have e := momentumShift_fields h
  have e1 : p'.states.length = p.states.length + 1 := by rw [e]; simp
  have e2 : p'.controls = p.controls := by rw [e]
  have e3 : p'.quads = p.quads := by rw [e]
  have e4 : p'.parameters = p.parameters := by rw [e]
  have e5 : p'.constants = p.constants := by rw [e]
  rw [invSteps_single (S := S) (step := .momentumShift) (p1 := p') h hc]
  obtain ⟨⟨⟨h1, h2, h3, h4, h5⟩, h6⟩, h7⟩ := hs
  rw [e1] at h2 h6
  rw [e2] at h7
  rw [e3] at h3
  rw [e4] at h4
  rw [e5] at h5
  obtain ⟨t, ht, htl⟩ := Shape.col h2
  obtain ⟨y, hy, hy'⟩ := Shape.deleteCol h2
  obtain ⟨dt, hdt, -⟩ := Shape.col h6
  obtain ⟨d, hd, hd'⟩ := Shape.deleteCol h6
  refine ⟨{ s with t := t, y := y, dualT := dt, dual := d }, ?_, ⟨⟨⟨?_, ?_, ?_, h4, h5⟩, ?_⟩, ?_⟩, rfl⟩
  · rw [invTags, invTags, ok_bind', invTag, Mapper.inv, ht, ok_bind', hy, ok_bind', hdt, ok_bind', hd, ok_bind']
  · rintro rfl
    exact h1 (List.eq_nil_of_length_eq_zero htl.symm)
  · exact htl ▸ hy'
  · exact htl ▸ h3
  · exact htl ▸ hd'
  · exact htl ▸ h7

end Beluga.Scope
