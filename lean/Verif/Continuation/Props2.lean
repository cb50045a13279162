import Verif.Continuation.Props
import Verif.Continuation.Sparse

/-!
# Properties C12–C16 (product strategies, reuse, chaining, registry)
-/

set_option linter.unusedSectionVars false

namespace Beluga.Cont

variable {K : Type _} {α : Type _} [Field K] [LinearOrder K] [IsStrictOrderedRing K]

/-! ## C12 -/

theorem nodup_getElem?_inj {β : Type _} {l : List β} (h : l.Nodup) {i j : Nat} {x : β} (hi : l[i]? = some x)
    (hj : l[j]? = some x) : i = j := by
  obtain ⟨h1, h2⟩ := List.getElem?_eq_some_iff.1 hi
  obtain ⟨h3, h4⟩ := List.getElem?_eq_some_iff.1 hj
  exact (h.getElem_inj_iff).1 (h2.trans h4.symm)

theorem init_product {L : LogOps K} {s0 s1 : Strat K α} {sol : Traj K α} {names : List String}
    (hkind : s0.kind = .product) (h : s0.init L sol names = .ok s1) : s0.productInit sol names = .ok s1 := by
  unfold Strat.init at h; split at h <;> simp_all

theorem init_sparse {L : LogOps K} {s0 s1 : Strat K α} {sol : Traj K α} {names : List String}
    (hkind : s0.kind = .sparse) (h : s0.init L sol names = .ok s1) : s0.sparseInit sol names = .ok s1 := by
  unfold Strat.init at h; split at h <;> simp_all

theorem exists_getElem?_of_lt {β : Type _} {l : List β} {q : Nat} (h : q < l.length) : ∃ x, l[q]? = some x :=
  ⟨_, List.getElem?_eq_getElem h⟩

/-- C12.  A productspace step with `k` declared constants and `n` subdivisions has `n^k` cases; a fixed bijection
`e` between case numbers and `k`-tuples of grid indices (case `0` being the all-zero tuple) gives the constants of
every guess: the `q`-th declared constant is at grid point `e i q` of its linear grid from start to target.  So
every grid point is visited exactly once.  The step continues whatever the solver answers after the first case, and
ends after exactly `n^k` cases. -/
theorem C12_productspace_grid {L : LogOps K} {s0 s1 : Strat K α} {sol0 : Traj K α} {names : List String}
    (hs : Starts L s0 sol0 names s1) (hkind : s0.kind = .product) (hfresh : ∀ nv ∈ s0.vars, nv.2.steps = []) :
    ∃ e : Fin (s0.numSub ^ s0.vars.length) ≃ (Fin s0.vars.length → Fin s0.numSub),
      (∀ (i : Fin (s0.numSub ^ s0.vars.length)) (q : Fin s0.vars.length), (i : Nat) = 0 → ((e i q : Fin _) : Nat) = 0) ∧
      (∀ (i : Fin (s0.numSub ^ s0.vars.length)) (q : Fin s0.vars.length),
        (i : Nat) + 1 = s0.numSub ^ s0.vars.length → ((e i q : Fin _) : Nat) + 1 = s0.numSub) ∧
      ∀ (tr : List (Traj K α × Traj K α)) (s : Strat K α), Exec L s1 tr s →
        tr.length ≤ s0.numSub ^ s0.vars.length ∧
        (∀ (i : Fin (s0.numSub ^ s0.vars.length)) (p : Traj K α × Traj K α), tr[(i : Nat)]? = some p →
          ∀ (q : Fin s0.vars.length) (nv : String × ContVar K) (j : Nat) (v : K),
            s0.vars[(q : Nat)]? = some nv → names[j]? = some nv.1 → sol0.const[j]? = some v →
            p.1.const[j]? = some (v + ((e i q : Nat) : K) * ((nv.2.target - v) / ((s0.numSub - 1 : Nat) : K)))) ∧
        ((∀ p, tr = [p] → p.2.converged = true) →
          (tr.length < s0.numSub ^ s0.vars.length → ∃ g s', s.next L = .ok (g, s')) ∧
          (tr.length = s0.numSub ^ s0.vars.length → s.next L = .error .stopIteration)) := by
  obtain ⟨e, he⟩ := exists_digit_equiv s0.numSub s0.vars.length
  obtain ⟨hnc, hlen, hget⟩ := productInit_ok (init_product hkind hs.init)
  refine ⟨e, ?_, ?_, ?_⟩
  · intro i q hi
    rw [he, hi]; simp
  · intro i q hi
    have hn : 0 < s0.numSub := Fin.pos (e i q)
    rw [he]
    have hq := q.2
    have e1 : s0.numSub ^ s0.vars.length =
        s0.numSub ^ (s0.vars.length - 1 - (q : Nat)) * s0.numSub ^ ((q : Nat) + 1) := by
      rw [← pow_add]; congr 1; omega
    have hp1 : 0 < s0.numSub ^ (s0.vars.length - 1 - (q : Nat)) := Nat.pow_pos hn
    have hp2 : 0 < s0.numSub ^ ((q : Nat) + 1) := Nat.pow_pos hn
    have hdiv : (i : Nat) / s0.numSub ^ (s0.vars.length - 1 - (q : Nat)) = s0.numSub ^ ((q : Nat) + 1) - 1 := by
      apply Nat.div_eq_of_lt_le
      · have hi := hi.trans e1
        rw [Nat.sub_mul, one_mul, mul_comm]
        omega
      · have hi := hi.trans e1
        rw [Nat.sub_add_cancel hp2, mul_comm]
        omega
    rw [hdiv]
    have e2 : s0.numSub ^ ((q : Nat) + 1) - 1 = (s0.numSub - 1) + s0.numSub * (s0.numSub ^ (q : Nat) - 1) := by
      have hp3 : 0 < s0.numSub ^ (q : Nat) := Nat.pow_pos hn
      rw [pow_succ', Nat.mul_sub, mul_one]
      have : s0.numSub ≤ s0.numSub * s0.numSub ^ (q : Nat) := Nat.le_mul_of_pos_right _ hp3
      omega
    rw [e2, Nat.add_mul_mod_self_left, Nat.mod_eq_of_lt (by omega)]
    omega
  · intro tr s h
    obtain ⟨hv, hnc', hctr, hall⟩ := exec_product hs (Or.inl hkind) h
    have hlenle : tr.length ≤ s0.numSub ^ s0.vars.length := by
      rcases Nat.eq_zero_or_pos tr.length with h0 | h0
      · omega
      · obtain ⟨p, hp⟩ := exists_getElem?_of_lt (l := tr) (q := tr.length - 1) (by omega)
        have := (hall _ p hp).1
        omega
    refine ⟨hlenle, ?_, ?_⟩
    · intro i p hp q nv j v hq hj hv0
      obtain ⟨j', v', nv', h1, h2, h3, h4, h5, grid, h6, h7, h8⟩ := hget q nv hq
      have hjj := nodup_getElem?_inj hs.names_nodup hj h1
      subst hjj
      rw [hv0] at h2
      cases h2
      rw [(hall i p hp).2 nv' (List.mem_of_getElem? h3) j (by rw [h4]; exact hj), h6,
        hfresh nv (List.mem_of_getElem? hq), List.nil_append, h8 i i.2, he]
    · intro hfirst
      rw [← hnc]
      apply next_product_total hs (Or.inl hkind) _ _ h hfirst
      · intro nv hnv
        obtain ⟨q, hq⟩ := List.getElem?_of_mem hnv
        have hql : q < s1.vars.length := by
          by_contra hge
          rw [List.getElem?_eq_none (by omega)] at hq; cases hq
        obtain ⟨nv0, hq0⟩ := exists_getElem?_of_lt (l := s0.vars) (q := q) (by omega)
        obtain ⟨j', v', nv', h1, -, h3, h4, -⟩ := hget q nv0 hq0
        rw [hq] at h3; cases h3
        rw [h4]; exact List.mem_of_getElem? h1
      · intro nv hnv
        obtain ⟨q, hq⟩ := List.getElem?_of_mem hnv
        have hql : q < s1.vars.length := by
          by_contra hge
          rw [List.getElem?_eq_none (by omega)] at hq; cases hq
        obtain ⟨nv0, hq0⟩ := exists_getElem?_of_lt (l := s0.vars) (q := q) (by omega)
        obtain ⟨j', v', nv', -, -, h3, -, -, grid, h6, h7, -⟩ := hget q nv0 hq0
        rw [hq] at h3; cases h3
        rw [h6, List.length_append, h7]; omega

example := C12_productspace_grid Wit.prod_starts rfl (by decide)

/-- The constants are the starting ones when every declared one is, and similarly for the targets. -/
theorem atTarget_of_declared {names : List String} {s0 : Strat K α} {start c : List K}
    (hu : Unchanged names s0.targets start c)
    (hd : ∀ (q : Nat) (nv : String × ContVar K) (j : Nat) (v : K), s0.vars[q]? = some nv → names[j]? = some nv.1 →
      start[j]? = some v → c[j]? = some nv.2.target) : AtTarget names s0.targets start c := by
  refine ⟨hu.1, fun j n v hn hv => ?_⟩
  cases ht : s0.targets.lookup n with
  | none => simpa using (hu.2 j n hn ht).trans hv
  | some w =>
    have := mem_of_lookup ht
    simp only [Strat.targets, List.mem_map] at this
    obtain ⟨nv, hnv, heq⟩ := this
    cases heq
    obtain ⟨q, hq⟩ := List.getElem?_of_mem hnv
    exact hd q nv j v hq hn hv

theorem start_of_declared {names : List String} {s0 : Strat K α} {start c : List K}
    (hlen : names.length = start.length) (hu : Unchanged names s0.targets start c)
    (hd : ∀ (q : Nat) (nv : String × ContVar K) (j : Nat) (v : K), s0.vars[q]? = some nv → names[j]? = some nv.1 →
      start[j]? = some v → c[j]? = some v) : c = start := by
  apply List.ext_getElem?
  intro j
  by_cases hj : j < start.length
  · obtain ⟨n, hn⟩ := exists_getElem?_of_lt (l := names) (q := j) (by omega)
    cases ht : s0.targets.lookup n with
    | none => exact hu.2 j n hn ht
    | some w =>
      have := mem_of_lookup ht
      simp only [Strat.targets, List.mem_map] at this
      obtain ⟨nv, hnv, heq⟩ := this
      cases heq
      obtain ⟨q, hq⟩ := List.getElem?_of_mem hnv
      obtain ⟨v, hv⟩ := exists_getElem?_of_lt hj
      rw [hv]; exact hd q nv j v hq hn hv
  · rw [List.getElem?_eq_none (by rw [hu.1]; omega), List.getElem?_eq_none (by omega)]

/-- C12, end points: the first case has the starting constants; with at least two subdivisions the last has every
target reached. -/
theorem C12_endpoints {L : LogOps K} {s0 s1 : Strat K α} {sol0 : Traj K α} {names : List String}
    (hs : Starts L s0 sol0 names s1) (hkind : s0.kind = .product) (hfresh : ∀ nv ∈ s0.vars, nv.2.steps = [])
    {tr : List (Traj K α × Traj K α)} {s : Strat K α} (h : Exec L s1 tr s) :
    (∀ p, tr[0]? = some p → p.1.const = sol0.const) ∧
    (2 ≤ s0.numSub → ∀ p, tr[s0.numSub ^ s0.vars.length - 1]? = some p →
      AtTarget names s0.targets sol0.const p.1.const) := by
  obtain ⟨e, he0, he1, hall⟩ := C12_productspace_grid hs hkind hfresh
  obtain ⟨hlen, hget, -⟩ := hall tr s h
  have hu := (exec_frame hs h).2
  have hpos : ∀ (i : Nat) (p : Traj K α × Traj K α), tr[i]? = some p → i < s0.numSub ^ s0.vars.length := by
    intro i p hp
    have : i < tr.length := by
      by_contra hge
      rw [List.getElem?_eq_none (by omega)] at hp; cases hp
    omega
  have hql : ∀ (q : Nat) (nv : String × ContVar K), s0.vars[q]? = some nv → q < s0.vars.length := by
    intro q nv hq
    by_contra hge
    rw [List.getElem?_eq_none (by omega)] at hq; cases hq
  constructor
  · intro p hp
    apply start_of_declared hs.names_len (hu p (List.mem_of_getElem? hp))
    intro q nv j v hq hj hv
    have := hget ⟨0, hpos 0 p hp⟩ p hp ⟨q, hql q nv hq⟩ nv j v hq hj hv
    rw [he0 _ _ rfl] at this
    simpa using this
  · intro h2 p hp
    apply atTarget_of_declared (hu p (List.mem_of_getElem? hp))
    intro q nv j v hq hj hv
    have hp' := hpos _ p hp
    have := hget ⟨_, hp'⟩ p hp ⟨q, hql q nv hq⟩ nv j v hq hj hv
    have h3 := he1 ⟨_, hp'⟩ ⟨q, hql q nv hq⟩ (by simp only; omega)
    have h4 : ((e ⟨_, hp'⟩ ⟨q, hql q nv hq⟩ : Fin _) : Nat) = s0.numSub - 1 := by omega
    rw [h4] at this
    rw [this, mul_div_cancel₀]
    · simp
    · exact_mod_cast (by omega : s0.numSub - 1 ≠ 0)

example := C12_endpoints Wit.prod_starts rfl (by decide) (Wit.run_exec Wit.prod Wit.fail2 10)

/-! ## C13 -/

/-- C13.  The cases of a sparse_product step are enumerated by a duplicate-free list `F` of index tuples, which are
exactly the tuples `SparseIdx` (on lines between major points); all major grid points are among them.  The first is
the starting point.  Every later case is one minor increment in one constant away from an *earlier* case.  The
number of cases equals the length of the list and the step runs through it whatever the solver answers after the
first case. -/
theorem C13_sparse_grid {L : LogOps K} {s0 s1 : Strat K α} {sol0 : Traj K α} {names : List String}
    (hs : Starts L s0 sol0 names s1) (hkind : s0.kind = .sparse) (hfresh : ∀ nv ∈ s0.vars, nv.2.steps = []) :
    ∃ F : List (Nat → Nat), F.Nodup ∧ F.head? = some 0 ∧ F.length = s1.numCases ∧
      (∀ f, f ∈ F ↔ SparseIdx (fun q => s0.major.getD q 1) (fun q => s0.minor.getD q 0 + 1) s0.vars.length f) ∧
      (∀ f, MajorIdx (fun q => s0.major.getD q 1) (fun q => s0.minor.getD q 0 + 1) s0.vars.length f → f ∈ F) ∧
      Linked F ∧
      ∀ (tr : List (Traj K α × Traj K α)) (s : Strat K α), Exec L s1 tr s →
        tr.length ≤ F.length ∧
        (∀ (i : Nat) (p : Traj K α × Traj K α), tr[i]? = some p → ∃ f, F[i]? = some f ∧
          ∀ (q : Nat) (nv : String × ContVar K) (j : Nat) (v : K), s0.vars[q]? = some nv → names[j]? = some nv.1 →
            sol0.const[j]? = some v →
            p.1.const[j]? = some (v + (f q : K) *
              ((nv.2.target - v) / (((s0.major.getD q 1 - 1) * (s0.minor.getD q 0 + 1) : Nat) : K)))) ∧
        ((∀ p, tr = [p] → p.2.converged = true) →
          (tr.length < F.length → ∃ g s', s.next L = .ok (g, s')) ∧
          (tr.length = F.length → s.next L = .error .stopIteration)) := by
  obtain ⟨F, hnd, hhead, hlink, hlenF, hmem, hlen, hget⟩ := sparseInit_ok (init_sparse hkind hs.init)
  refine ⟨F, hnd, hhead, hlenF, hmem, ?_, hlink, ?_⟩
  · intro f hf
    rw [hmem]
    exact ⟨hf.1, fun q hq => ⟨(hf.2 q hq).1, Or.inl (hf.2 q hq).2⟩⟩
  · intro tr s h
    obtain ⟨hv, hnc', hctr, hall⟩ := exec_product hs (Or.inr hkind) h
    have hlenle : tr.length ≤ F.length := by
      rcases Nat.eq_zero_or_pos tr.length with h0 | h0
      · omega
      · obtain ⟨p, hp⟩ := exists_getElem?_of_lt (l := tr) (q := tr.length - 1) (by omega)
        have := (hall _ p hp).1
        omega
    refine ⟨hlenle, ?_, ?_⟩
    · intro i p hp
      obtain ⟨h1, h2⟩ := hall i p hp
      obtain ⟨f, hf⟩ := exists_getElem?_of_lt (l := F) (q := i) (by omega)
      refine ⟨f, hf, ?_⟩
      intro q nv j v hq hj hv0
      obtain ⟨j', v', nv', a1, a2, a3, a4, a5, a6⟩ := hget q nv hq
      have hjj := nodup_getElem?_inj hs.names_nodup hj a1
      subst hjj
      rw [hv0] at a2
      cases a2
      rw [h2 nv' (List.mem_of_getElem? a3) j (by rw [a4]; exact hj), a6,
        hfresh nv (List.mem_of_getElem? hq), List.nil_append, List.getElem?_map, hf]
      rfl
    · intro hfirst
      rw [hlenF]
      have hback : ∀ nv ∈ s1.vars, ∃ (q : Nat) (nv0 : String × ContVar K), s1.vars[q]? = some nv ∧ s0.vars[q]? = some nv0 := by
        intro nv hnv
        obtain ⟨q, hq⟩ := List.getElem?_of_mem hnv
        have hql : q < s1.vars.length := by
          by_contra hge
          rw [List.getElem?_eq_none (by omega)] at hq; cases hq
        obtain ⟨nv0, hq0⟩ := exists_getElem?_of_lt (l := s0.vars) (q := q) (by omega)
        exact ⟨q, nv0, hq, hq0⟩
      apply next_product_total hs (Or.inr hkind) _ _ h hfirst
      · intro nv hnv
        obtain ⟨q, nv0, hq, hq0⟩ := hback nv hnv
        obtain ⟨j', v', nv', h1, -, h3, h4, -⟩ := hget q nv0 hq0
        rw [hq] at h3; cases h3
        rw [h4]; exact List.mem_of_getElem? h1
      · intro nv hnv
        obtain ⟨q, nv0, hq, hq0⟩ := hback nv hnv
        obtain ⟨j', v', nv', -, -, h3, -, -, h6⟩ := hget q nv0 hq0
        rw [hq] at h3; cases h3
        rw [h6, List.length_append, List.length_map]; omega

example := C13_sparse_grid Wit.sparse_starts rfl (by decide)

/-- C13: the first case has the starting constants. -/
theorem C13_first {L : LogOps K} {s0 s1 : Strat K α} {sol0 : Traj K α} {names : List String}
    (hs : Starts L s0 sol0 names s1) (hkind : s0.kind = .sparse) (hfresh : ∀ nv ∈ s0.vars, nv.2.steps = [])
    {tr : List (Traj K α × Traj K α)} {s : Strat K α} (h : Exec L s1 tr s) :
    ∀ p, tr[0]? = some p → p.1.const = sol0.const := by
  obtain ⟨F, -, hhead, -, -, -, -, hall⟩ := C13_sparse_grid hs hkind hfresh
  obtain ⟨-, hget, -⟩ := hall tr s h
  intro p hp
  apply start_of_declared hs.names_len ((exec_frame hs h).2 p (List.mem_of_getElem? hp))
  intro q nv j v hq hj hv
  obtain ⟨f, hf, hfv⟩ := hget 0 p hp
  have : f = 0 := by
    rw [List.head?_eq_getElem?, hf] at hhead
    exact Option.some.inj hhead
  subst this
  have := hfv q nv j v hq hj hv
  simpa using this

example := C13_first Wit.sparse_starts rfl (by decide) (Wit.run_exec Wit.sparse Wit.always 20)

/-! ## C14 -/

theorem manualInitVars_congr {L : LogOps K} {sp : Spacing} (hsp : sp ≠ .other) {n : Nat} {names : List String}
    {c : List K} {vars vars' : List (String × ContVar K)}
    (h : vars.map (fun nv => (nv.1, nv.2.target)) = vars'.map (fun nv => (nv.1, nv.2.target))) :
    manualInitVars L sp n names c vars = manualInitVars L sp n names c vars' := by
  induction vars generalizing vars' with
  | nil =>
    have : vars' = [] := by simpa using h.symm
    rw [this]
  | cons a l ih =>
    cases vars' with
    | nil => simp at h
    | cons b l' =>
      obtain ⟨n1, v1⟩ := a
      obtain ⟨n2, v2⟩ := b
      simp only [List.map_cons, List.cons.injEq, Prod.mk.injEq] at h
      obtain ⟨⟨rfl, ht⟩, hl⟩ := h
      simp only [manualInitVars, ih hl]
      have hst : ∀ x, manualSteps L sp v1 x n = manualSteps L sp v2 x n := by
        intro x
        cases sp <;> simp [manualSteps, ht] at hsp ⊢
      have hv : ∀ x, ({ v1 with value := some x, steps := manualSteps L sp v1 x n } : ContVar K) =
          { v2 with value := some x, steps := manualSteps L sp v2 x n } := by
        intro x
        rw [hst, ContVar.mk.injEq]
        exact ⟨ht, rfl, rfl⟩
      simp only [hv]

theorem exec_manual_state {L : LogOps K} {s0 s1 : Strat K α} {sol0 : Traj K α} {names : List String}
    (hs : Starts L s0 sol0 names s1) (hkind : s0.kind = .manual)
    {tr : List (Traj K α × Traj K α)} {s : Strat K α} (h : Exec L s1 tr s) :
    s = { s1 with ctr := s.ctr, gammas := s.gammas } := by
  induction h with
  | start => rfl
  | @step tr s s' g sol he hn hsol ih =>
    have hf := (exec_frame hs he).1
    rw [next_manual (by rw [hf.kind]; exact hkind)] at hn
    obtain ⟨_, _, _, _, _, _, _, _, _, hs', _⟩ := baseNext_ok hn
    rw [hs', Strat.addGamma]
    simp only
    rw [ih]

/-- C14 (partial: manual steps).  Initialising a manual step again after any run, from any solution, gives exactly
the same object as initialising the step as it was built, so all later behaviour is the same.  For the other
strategies the claim is false: `C14_violated_bisection`, `C14_violated_product`. -/
theorem C14_manual_reuse_partial {L : LogOps K} {s0 s1 : Strat K α} {sol0 : Traj K α} {names : List String}
    (hs : Starts L s0 sol0 names s1) (hkind : s0.kind = .manual) (hsp : s0.spacing ≠ .other)
    {tr : List (Traj K α × Traj K α)} {s : Strat K α} (h : Exec L s1 tr s) (sol' : Traj K α)
    (names' : List String) : s.reset.init L sol' names' = s0.reset.init L sol' names' := by
  have hf := (exec_frame hs h).1
  have hst := exec_manual_state hs hkind h
  have hinit := hs.init
  have e0 : ∀ t : Strat K α, t.kind = .manual → t.init L sol' names' = t.manualInit L sol' names' := by
    intro t ht
    unfold Strat.init; rw [ht]
  have e1 : s0.init L sol0 names = s0.manualInit L sol0 names := by
    unfold Strat.init; rw [hkind]
  rw [e1] at hinit
  simp only [Strat.manualInit, Py.bind_ok] at hinit
  obtain ⟨vars', hv, hs1⟩ := hinit
  cases hs1
  rw [e0 s.reset (by rw [← hkind, ← hf.kind]; rfl), e0 s0.reset (by rw [← hkind]; rfl)]
  have hvars : s.vars.map (fun nv => (nv.1, nv.2.target)) = s0.vars.map (fun nv => (nv.1, nv.2.target)) := hf.targets
  have hnum : s.numCases = s0.numCases := by rw [hst]; rfl
  have hmiv : manualInitVars L s.spacing s.numCases names' sol'.const s.vars =
      manualInitVars L s0.spacing s0.numCases names' sol'.const s0.vars := by
    rw [hf.spacing, hnum]; exact manualInitVars_congr hsp hvars
  simp only [Strat.manualInit, Strat.reset, hmiv]
  cases manualInitVars L s0.spacing s0.numCases names' sol'.const s0.vars with
  | error e => rfl
  | ok v =>
    simp only [bind, Except.bind, Strat.baseInit]
    rw [hst]
    rfl

example := C14_manual_reuse_partial Wit.man_starts rfl (by decide) (Wit.run_exec Wit.man Wit.fail2 10)

/-- C14 is violated by bisection: a step that was run once keeps the cases added by its subdivisions, so a second
run starts with `num_cases + (failures)·(num_divisions-1)` cases instead of `num_cases`. -/
theorem C14_violated_bisection {L : LogOps K} {s0 s1 : Strat K α} (hL : s0.spacing = .log → Lawful L)
    {sol0 : Traj K α} {names : List String} (hs : Starts L s0 sol0 names s1) (hkind : s0.kind = .bisection)
    (hsp : s0.spacing ≠ .other) (hnd : 1 ≤ s0.numDivisions)
    {tr : List (Traj K α × Traj K α)} {s : Strat K α} (h : Exec L s1 tr s) {sol' : Traj K α}
    {names' : List String} {t u : Strat K α} (ht : s.reset.init L sol' names' = .ok t)
    (hu : s0.reset.init L sol' names' = .ok u) :
    t.numCases = u.numCases + failures tr.dropLast * (s0.numDivisions - 1) := by
  obtain ⟨ts, hI⟩ := exec_sinv hs (Or.inr hkind) hsp (fun _ => ⟨hnd, fun h => (hL h).log_pow⟩) h
  have hf := (exec_frame hs h).1
  have e0 : ∀ w x : Strat K α, w.kind = .bisection → w.init L sol' names' = .ok x → x.numCases = w.numCases := by
    intro w x hw hx
    have : w.init L sol' names' = w.manualInit L sol' names' := by
      unfold Strat.init; split <;> simp_all
    rw [this] at hx
    simp only [Strat.manualInit, Py.bind_ok] at hx
    obtain ⟨_, _, hx⟩ := hx
    cases hx
    rfl
  rw [e0 s.reset t (by rw [← hkind, ← hf.kind]; rfl) ht, e0 s0.reset u (by rw [← hkind]; rfl) hu]
  have := hI.cases_
  rw [hf.nd] at this
  exact this

example {t u : Strat ℚ Nat} (ht : (Wit.run Wit.bis Wit.fail2 10).strat.reset.init Wit.idLog Wit.sol Wit.names = .ok t)
    (hu : Wit.bis.reset.init Wit.idLog Wit.sol Wit.names = .ok u) :=
  C14_violated_bisection (Wit.trivialLog rfl) Wit.bis_starts rfl (by decide) (by decide)
    (Wit.run_exec Wit.bis Wit.fail2 10) ht hu
example : (Wit.start (Wit.run Wit.bis Wit.fail2 10).strat.reset).numCases = 3 ∧ (Wit.start Wit.bis).numCases = 2 := by
  decide +kernel

/-- C14 is violated by productspace: the second run of a step repeats the schedule of the first run – the grid from
the *first* run's starting constants – whatever solution it is started from. -/
theorem C14_violated_product {L : LogOps K} {s0 s1 : Strat K α} {sol0 : Traj K α} {names : List String}
    (hs : Starts L s0 sol0 names s1) (hkind : s0.kind = .product)
    {tr : List (Traj K α × Traj K α)} {s : Strat K α} (h : Exec L s1 tr s)
    {sol' : Traj K α} {t : Strat K α} (hs' : Starts L s.reset sol' names t)
    {tr' : List (Traj K α × Traj K α)} {s' : Strat K α} (h' : Exec L t tr' s')
    (i : Nat) (p' p : Traj K α × Traj K α) (hp' : tr'[i]? = some p') (hp : tr[i]? = some p)
    (nv : String × ContVar K) (hnv : nv ∈ s0.vars) (j : Nat) (hj : names[j]? = some nv.1) :
    p'.1.const[j]? = p.1.const[j]? := by
  obtain ⟨hv, hnc, hctr, hall⟩ := exec_product hs (Or.inl hkind) h
  have hf := (exec_frame hs h).1
  have hkr : s.reset.kind = .product := by rw [← hkind, ← hf.kind]; rfl
  obtain ⟨hv', hnc', hctr', hall'⟩ := exec_product hs' (Or.inl hkr) h'
  obtain ⟨a1, a2, a3⟩ := productInit_ok (init_product hkind hs.init)
  obtain ⟨b1, b2, b3⟩ := productInit_ok (init_product hkr hs'.init)
  obtain ⟨q, hq⟩ := List.getElem?_of_mem hnv
  obtain ⟨j1, v1, nv1, c1, c2, c3, c4, c5, grid, c6, c7, c8⟩ := a3 q nv hq
  have hq1 : s.reset.vars[q]? = some nv1 := by
    have : s.reset.vars = s1.vars := hv
    rw [this]; exact c3
  obtain ⟨j2, v2, nv2, d1, d2, d3, d4, d5, grid2, d6, d7, d8⟩ := b3 q nv1 hq1
  obtain ⟨e1, e2⟩ := hall i p hp
  obtain ⟨f1, f2⟩ := hall' i p' hp'
  rw [e2 nv1 (List.mem_of_getElem? c3) j (by rw [c4]; exact hj),
    f2 nv2 (List.mem_of_getElem? d3) j (by rw [d4, c4]; exact hj), d6, List.getElem?_append_left]
  rw [c6, List.length_append, c7]
  omega

/-- The productspace step of the examples after one complete run … -/
def usedProd : Strat ℚ Nat := (Wit.run Wit.prod Wit.always 20).strat.reset
/-- … started again from a solution with other constants. -/
def usedProdStart : Strat ℚ Nat :=
  match usedProd.init Wit.idLog ⟨[2, 9], true, 0⟩ Wit.names with | .ok t => t | _ => usedProd
example : Starts Wit.idLog usedProd ⟨[2, 9], true, 0⟩ Wit.names usedProdStart :=
  ⟨by decide +kernel, by decide, by decide, by decide, by
    have h : (usedProd.init Wit.idLog ⟨[2, 9], true, 0⟩ Wit.names).toBool = true := by decide +kernel
    unfold usedProdStart
    revert h
    cases usedProd.init Wit.idLog ⟨[2, 9], true, 0⟩ Wit.names <;> simp [Except.toBool]⟩
example : Wit.show_ (stepLoop Wit.idLog (Wit.okc Wit.always) 20 usedProdStart 0 []) =
    Wit.show_ (Wit.run Wit.prod Wit.always 20) := by decide +kernel

/-! ## C15 -/

theorem stepLoop_ran {L : LogOps K} {solve : Nat → Traj K α → Py (Traj K α)} {s1 : Strat K α} (fuel : Nat)
    {s : Strat K α} {n0 n : Nat} {tr : List (Traj K α × Traj K α)} (hn : n = n0 + tr.length)
    (he : Ran L solve n0 s1 tr s) (hend : (stepLoop L solve fuel s n tr).ending = .ended) :
    Ran L solve n0 s1 (stepLoop L solve fuel s n tr).trace (stepLoop L solve fuel s n tr).strat ∧
    (stepLoop L solve fuel s n tr).strat.next L = .error .stopIteration ∧
    (stepLoop L solve fuel s n tr).calls = n0 + (stepLoop L solve fuel s n tr).trace.length := by
  induction fuel generalizing s n tr with
  | zero => simp [stepLoop] at hend
  | succ fuel ih =>
    unfold stepLoop at hend ⊢
    split
    · next h => exact ⟨he, h, hn⟩
    · next e h2 h1 => rw [h1] at hend; cases e <;> simp_all
    · next g s' h1 =>
      rw [h1] at hend
      simp only at hend
      split
      · next h2 => rw [h2] at hend; simp at hend
      · next sol h2 =>
        rw [h2] at hend
        simp only at hend
        exact ih (by simp; omega) (Ran.step he h1 (by rw [← hn]; exact h2)) hend

theorem runSteps_chain {L : LogOps K} {solve : Nat → Traj K α → Py (Traj K α)} {names : List String} (fuel : Nat)
    (ss : List (Strat K α)) (guess : Traj K α) (n : Nat) (acc sols : List (List (Traj K α)))
    (h : runSteps L solve names fuel ss guess n acc = .returned sols) :
    ∃ trs, Chain L solve names n guess ss trs ∧ sols = acc ++ trs.map fun tr => tr.map Prod.snd := by
  induction ss generalizing guess n acc with
  | nil => simp only [runSteps, SetRes.returned.injEq] at h; exact ⟨[], .nil, by simp [h]⟩
  | cons s rest ih =>
    unfold runSteps at h
    split at h
    · cases h
    · next s1 hinit =>
      dsimp only at h
      split at h
      · cases h
      · cases h
      · next hend =>
        obtain ⟨h1, h2, h3⟩ := stepLoop_ran fuel (n0 := n) (by simp) (Ran.start (L := L) (solve := solve)) hend
        obtain ⟨trs, hc, hsols⟩ := ih _ _ _ h
        refine ⟨_ :: trs, Chain.cons hinit h1 h2 (by rw [← h3]; exact hc), ?_⟩
        rw [hsols]; simp

theorem Chain.length_eq {L : LogOps K} {solve : Nat → Traj K α → Py (Traj K α)} {names : List String} {n : Nat}
    {g : Traj K α} {ss : List (Strat K α)} {trs : List (List (Traj K α × Traj K α))}
    (h : Chain L solve names n g ss trs) : trs.length = ss.length := by
  induction h with
  | nil => rfl
  | cons _ _ _ _ ih => simp [ih]

/-- C15.  Whatever the solver does: if the continuation set returns, the returned lists are, one per step and in
order, the solutions of a chain of runs in which each step starts from the last solution of the previous one and
the solver is called in order. -/
theorem C15_chained {L : LogOps K} {solve : Nat → Traj K α → Py (Traj K α)} {names : List String} (fuel : Nat)
    (ss : List (Strat K α)) (guess : Traj K α) (sols : List (List (Traj K α)))
    (h : runContinuationSet L solve names fuel (some ss) guess = .returned sols) :
    ∃ trs, Chain L solve names 0 guess ss trs ∧ sols = (trs.map fun tr => tr.map Prod.snd) ∧
      sols.length = ss.length := by
  obtain ⟨trs, hc, hs⟩ := runSteps_chain fuel ss guess 0 [] sols h
  refine ⟨trs, hc, by simpa using hs, ?_⟩
  have : trs.length = ss.length := by
    exact hc.length_eq
  rw [hs]; simp [this]

example : (match runContinuationSet Wit.idLog (Wit.okc Wit.fail2) Wit.names 20 (some [Wit.bis, Wit.man]) Wit.sol with
    | .returned l => l.map (fun s : List (Traj ℚ Nat) => s.map Traj.const)
    | _ => []) = [[[0, 5], [1, 7], [1/2, 6], [1, 7]], [[1, 7], [1, 7], [1, 7]]] := by decide +kernel

/-- C15, without steps: the guess is solved once; the result is that one solution. -/
theorem C15_no_steps {L : LogOps K} {solve : Nat → Traj K α → Py (Traj K α)} {names : List String} (fuel : Nat)
    (guess sol : Traj K α) (h : solve 0 guess = .ok sol) :
    runContinuationSet L solve names fuel none guess = .returned [[sol]] := by
  simp [runContinuationSet, h]

example := C15_no_steps (L := Wit.idLog) (names := Wit.names) 0 Wit.sol _ (rfl : Wit.okc Wit.always 0 Wit.sol = .ok _)

/-- A failing solver or strategy loses all solutions computed so far: the exception escapes. -/
theorem C15_exception_escapes {L : LogOps K} {solve : Nat → Traj K α → Py (Traj K α)} {names : List String}
    (fuel : Nat) (s : Strat K α) (rest : List (Strat K α)) (guess : Traj K α) (n : Nat)
    (acc : List (List (Traj K α))) (s1 : Strat K α) (e : PyErr) (hi : s.reset.init L guess names = .ok s1)
    (h : (stepLoop L solve fuel s1 n []).ending = .raised e) :
    runSteps L solve names fuel (s :: rest) guess n acc = .raised e := by
  unfold runSteps
  rw [hi]
  simp only [h]

example : runSteps Wit.idLog (Wit.okc Wit.fail2) Wit.names 20 [Wit.man] Wit.sol 0 [] = .raised .runtimeError :=
  C15_exception_escapes 20 Wit.man [] Wit.sol 0 [] (Wit.start Wit.man) .runtimeError rfl (by decide +kernel)

theorem Ran.exec {L : LogOps K} {solve : Nat → Traj K α → Py (Traj K α)} (hk : KeepsConst solve) {n : Nat}
    {s1 s : Strat K α} {tr : List (Traj K α × Traj K α)} (h : Ran L solve n s1 tr s) : Exec L s1 tr s := by
  induction h with
  | start => exact .start
  | step _ hn hsol ih => exact .step ih hn (hk _ _ _ hsol)

/-- C15 with C02: in a chain of manual or bisection steps (at least two cases each, linear spacing) every step's last
solution is converged and has that step's targets, all other constants being those of the step's start. -/
theorem C15_chain_targets {L : LogOps K} {solve : Nat → Traj K α → Py (Traj K α)} (hk : KeepsConst solve)
    {names : List String} (hnames : names.Nodup) {n : Nat} {guess : Traj K α} {s : Strat K α}
    {rest : List (Strat K α)} {tr : List (Traj K α × Traj K α)} {trs : List (List (Traj K α × Traj K α))}
    (hlen : names.length = guess.const.length) (hkeys : (s.vars.map Prod.fst).Nodup)
    (hkind : s.kind = .manual ∨ s.kind = .bisection) (hsp : s.spacing = .linear) (hN : 2 ≤ s.numCases)
    (hnd : s.kind = .bisection → 1 ≤ s.numDivisions)
    (h : Chain L solve names n guess (s :: rest) (tr :: trs)) :
    ∃ last, (tr.map Prod.snd).getLast? = some last ∧ last.converged = true ∧
      AtTarget names s.targets guess.const last.const ∧
      Chain L solve names (n + tr.length) last rest trs := by
  cases h with
  | cons hinit hran hstop hrest =>
    have hs : Starts L s.reset guess names _ := ⟨hkeys, rfl, hnames, hlen, hinit⟩
    have hsp' : s.reset.spacing = .linear := hsp
    obtain ⟨pre, p, h1, h2, h3, h4⟩ := C02_target_reached_partial (s0 := s.reset) (by simp [hsp']) hs hkind (by simp [hsp'])
      (by intro h; rw [hsp'] at h; cases h) hN hnd (hran.exec hk) hstop
    have hl : (tr.map Prod.snd).getLast? = some p.2 := by rw [h1]; simp
    refine ⟨p.2, hl, h2, ?_, ?_⟩
    · rw [h4]; exact h3
    · rw [hl] at hrest; exact hrest

example : ∃ trs, Chain Wit.idLog (Wit.okc Wit.fail2) Wit.names 0 Wit.sol [Wit.bis] trs := by
  have h := stepLoop_ran (L := Wit.idLog) (solve := Wit.okc Wit.fail2) 10 (n0 := 0) (n := 0) (tr := []) rfl
    (Ran.start (s1 := Wit.start Wit.bis)) (by decide +kernel)
  exact ⟨[_], Chain.cons rfl h.1 h.2.1 Chain.nil⟩

/-! ## C16 -/

/-- A step on which nothing has been set and that has not run: no targets, no solutions, no position. -/
structure Fresh (s : Strat K α) : Prop where
  vars : s.vars = []
  gammas : s.gammas = []
  ctr : s.ctr = 0
  divisions : s.divisionCtr = 0
  names : s.constNames = []
  spacing : s.spacing = .linear

/-- The steps that the documentation promises for the registered names. -/
def Promised (n : String) (s : Strat K α) : Prop :=
  n = "manual" ∧ s.kind = .manual ∧ s.numCases = 1 ∨
  n = "bisection" ∧ s.kind = .bisection ∧ s.numCases = 5 ∧ s.maxDivisions = 10 ∧ s.numDivisions = 2 ∨
  n = "productspace" ∧ s.kind = .product ∧ s.numSub = 1 ∨
  n = "sparse_product" ∧ s.kind = .sparse ∧ s.major = [1] ∧ s.minor = [0]

/-- C16.  `add_step` with one of the four registered names appends one fresh step of that kind, with the documented
defaults, and keeps the earlier ones; an object is appended unchanged; any other name raises `ValueError` (and the list is
not changed, since nothing is returned). -/
theorem C16_add_step (l : List (Strat K α)) :
    (∀ s, addStep l (.obj s) = .ok (l ++ [s])) ∧
    (∀ n ∈ ["manual", "bisection", "productspace", "sparse_product"],
      ∃ s, addStep l (.name n) = .ok (l ++ [s]) ∧ Fresh s ∧ Promised n s) ∧
    (∀ n, n ∉ ["manual", "bisection", "productspace", "sparse_product"] →
      addStep l (.name n) = .error .valueError) := by
  refine ⟨fun s => rfl, ?_, ?_⟩
  · intro n hn
    simp only [List.mem_cons, List.not_mem_nil, or_false] at hn
    rcases hn with rfl | rfl | rfl | rfl
    · exact ⟨_, rfl, ⟨rfl, rfl, rfl, rfl, rfl, rfl⟩, Or.inl ⟨rfl, rfl, rfl⟩⟩
    · exact ⟨_, rfl, ⟨rfl, rfl, rfl, rfl, rfl, rfl⟩, Or.inr (Or.inl ⟨rfl, rfl, rfl, rfl, rfl⟩)⟩
    · exact ⟨_, rfl, ⟨rfl, rfl, rfl, rfl, rfl, rfl⟩, Or.inr (Or.inr (Or.inl ⟨rfl, rfl, rfl⟩))⟩
    · exact ⟨_, rfl, ⟨rfl, rfl, rfl, rfl, rfl, rfl⟩, Or.inr (Or.inr (Or.inr ⟨rfl, rfl, rfl, rfl⟩))⟩
  · intro n hn
    simp only [List.mem_cons, List.not_mem_nil, or_false, not_or] at hn
    obtain ⟨h2, h1, h3, h4⟩ := hn
    have b1 : (n == "bisection") = false := by simpa using h1
    have b2 : (n == "manual") = false := by simpa using h2
    have b3 : (n == "productspace") = false := by simpa using h3
    have b4 : (n == "sparse_product") = false := by simpa using h4
    simp [addStep, strategyList, List.lookup, b1, b2, b3, b4]

example : ∃ s : Strat ℚ Nat, addStep [Wit.man] (.name "bisection") = .ok [Wit.man, s] := ⟨_, rfl⟩

end Beluga.Cont
