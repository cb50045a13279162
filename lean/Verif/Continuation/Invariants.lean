import Verif.Continuation.Lemmas
import Mathlib.Data.List.Pairwise
import Mathlib.Data.List.Chain

/-! Invariants of the continuation state machines over all executions. -/

set_option linter.unusedSectionVars false

namespace Beluga.Cont

variable {K : Type _} {α : Type _} [Field K] [LinearOrder K]

/-! ### frame -/

theorem Unchanged.refl (names : List String) (targets : List (String × K)) (start : List K) :
    Unchanged names targets start start := ⟨rfl, fun _ _ _ _ => rfl⟩

theorem targets_keys_nodup {s : Strat K α} (h : (s.vars.map Prod.fst).Nodup) :
    (s.targets.map Prod.fst).Nodup := by rw [targets_fst]; exact h

theorem unchanged_applyVars {names : List String} (hn : names.Nodup) {ctr : Nat}
    {vars : List (String × ContVar K)} (hk : (vars.map Prod.fst).Nodup) {start c c' : List K}
    (hc : Unchanged names (vars.map fun nv => (nv.1, nv.2.target)) start c)
    (h : applyVars names ctr vars c = .ok c') :
    Unchanged names (vars.map fun nv => (nv.1, nv.2.target)) start c' := by
  obtain ⟨hlen, hspec⟩ := applyVars_spec hn hk h
  refine ⟨hlen.trans hc.1, fun j n hj hnone => ?_⟩
  rw [← hc.2 j n hj hnone]
  apply (hspec j n hj).2
  rw [lookup_map_val (fun v : ContVar K => v.target)] at hnone
  simpa using hnone

/-- General facts about every execution of every strategy. -/
structure Frame (L : LogOps K) (s0 : Strat K α) (sol0 : Traj K α) (names : List String)
    (tr : List (Traj K α × Traj K α)) (s : Strat K α) : Prop where
  cn : s.constNames = names
  targets : s.targets = s0.targets
  kind : s.kind = s0.kind
  spacing : s.spacing = s0.spacing
  nd : s.numDivisions = s0.numDivisions
  md : s.maxDivisions = s0.maxDivisions
  gammas : s.gammas = { sol0 with converged := false } :: tr.map Prod.snd
  same : ∀ p ∈ tr, p.2.const = p.1.const
  unch : ∀ g ∈ s.gammas, Unchanged names s0.targets sol0.const g.const

theorem Frame.keys {L : LogOps K} {s0 s1 : Strat K α} {sol0 : Traj K α} {names : List String}
    {tr : List (Traj K α × Traj K α)} {s : Strat K α} (hs : Starts L s0 sol0 names s1)
    (h : Frame L s0 sol0 names tr s) : (s.vars.map Prod.fst).Nodup := by
  rw [← targets_fst, h.targets, targets_fst]; exact hs.keys

theorem Frame.last {L : LogOps K} {s0 : Strat K α} {sol0 : Traj K α} {names : List String}
    {tr : List (Traj K α × Traj K α)} {s : Strat K α}
    (h : Frame L s0 sol0 names tr s) {last : Traj K α} (hl : s.gammas.getLast? = some last) :
    (tr = [] ∧ last = { sol0 with converged := false }) ∨ ∃ pre p, tr = pre ++ [p] ∧ last = p.2 := by
  rw [h.gammas] at hl
  rcases List.eq_nil_or_concat tr with rfl | ⟨pre, p, rfl⟩
  · left; simp at hl; exact ⟨rfl, hl.symm⟩
  · right
    refine ⟨pre, p, by simp, ?_⟩
    simp [List.getLast?_cons] at hl
    exact hl.symm

theorem exec_frame {L : LogOps K} {s0 s1 : Strat K α} {sol0 : Traj K α} {names : List String}
    (hs : Starts L s0 sol0 names s1) {tr : List (Traj K α × Traj K α)} {s : Strat K α} (h : Exec L s1 tr s) :
    Frame L s0 sol0 names tr s ∧ ∀ p ∈ tr, Unchanged names s0.targets sol0.const p.1.const := by
  induction h with
  | start =>
    obtain ⟨h1, h2, h3, h4, h5, h6, h7, h8⟩ := init_ok hs.init
    refine ⟨⟨h2, h3, h4, h6, h7, h8, by simpa using h1, by simp, ?_⟩, by simp⟩
    intro g hg
    rw [h1] at hg
    simp at hg
    subst hg
    exact Unchanged.refl _ _ _
  | step he hn hsol ih =>
    rename_i tr s s' g sol
    obtain ⟨ih, ih2⟩ := ih
    obtain ⟨m, ign, hb, hg, hcn, htg, hkd, hsp, hnd, hmd, -⟩ := next_ok hn
    obtain ⟨last, i, g0, hl, hctr, happ, hmin, hgi, hgeq, hs', -⟩ := baseNext_ok hb
    have hkm : (m.vars.map Prod.fst).Nodup := by
      rw [← targets_fst, htg, targets_fst]; exact ih.keys hs
    have hu : Unchanged names s0.targets sol0.const g.const := by
      have hlu := ih.unch last (by rw [← hg]; exact List.mem_of_getLast? hl)
      have hT : m.vars.map (fun nv => (nv.1, nv.2.target)) = s0.targets := htg.trans ih.targets
      rw [← hT] at hlu ⊢
      rw [hcn, ih.cn] at happ
      exact unchanged_applyVars hs.names_nodup hkm hlu happ
    subst hs'
    refine ⟨⟨hcn.trans ih.cn, htg.trans ih.targets, hkd.trans ih.kind, hsp.trans ih.spacing, hnd.trans ih.nd,
      hmd.trans ih.md, ?_, ?_, ?_⟩, ?_⟩
    · simp only [Strat.addGamma, hg, ih.gammas]; simp
    · intro p hp
      rcases List.mem_append.1 hp with hp | hp
      · exact ih.same p hp
      · simp at hp; subst hp; exact hsol
    · intro g' hg'
      simp only [Strat.addGamma] at hg'
      rcases List.mem_append.1 hg' with hg' | hg'
      · rw [hg] at hg'; exact ih.unch g' hg'
      · simp at hg'; subst hg'; rw [hsol]; exact hu
    · intro p hp
      rcases List.mem_append.1 hp with hp | hp
      · exact ih2 p hp
      · simp at hp; subst hp; exact hu

/-! ### schedules -/

/-- Every variable's step list is the image of the common list `ts` of fractions. -/
def Sched (L : LogOps K) (sp : Spacing) (names : List String) (start : List K)
    (vars : List (String × ContVar K)) (ts : List K) : Prop :=
  ∀ nv ∈ vars, ∃ (j : Nat) (x : K), names[j]? = some nv.1 ∧ start[j]? = some x ∧
    nv.2.steps = ts.map (between L sp x nv.2.target)

theorem onPath_of_applyVars {L : LogOps K} {sp : Spacing} {names : List String} (hn : names.Nodup)
    {start : List K} {vars : List (String × ContVar K)} (hk : (vars.map Prod.fst).Nodup) {ts : List K}
    (hs : Sched L sp names start vars ts) {ctr : Nat} {τ : K} (hτ : ts[ctr]? = some τ) {c c' : List K}
    (hc : Unchanged names (vars.map fun nv => (nv.1, nv.2.target)) start c)
    (h : applyVars names ctr vars c = .ok c') :
    OnPath L sp names (vars.map fun nv => (nv.1, nv.2.target)) start τ c' := by
  obtain ⟨hlen, hspec⟩ := applyVars_spec hn hk h
  refine ⟨hlen.trans hc.1, fun j n v hj hv => ?_⟩
  rw [lookup_map_val (fun v : ContVar K => v.target)]
  cases hl : vars.lookup n with
  | none =>
    rw [(hspec j n hj).2 hl]
    simp only [Option.map_none]
    rw [hc.2 j n hj (by rw [lookup_map_val (fun v : ContVar K => v.target), hl]; rfl), hv]
  | some w =>
    rw [(hspec j n hj).1 w hl]
    simp only [Option.map_some]
    obtain ⟨j', x, hj', hx, hst⟩ := hs (n, w) (mem_of_lookup hl)
    have hjl : j < names.length := by rw [List.getElem?_eq_some_iff] at hj; exact hj.1
    have : j = j' := (List.getElem?_inj hjl hn).1 (by rw [hj, hj'])
    subst this
    rw [hv] at hx
    cases hx
    rw [hst]
    simp [hτ]

section ordered
variable [IsStrictOrderedRing K]

theorem between_lin (L : LogOps K) {sp : Spacing} (h : sp ≠ .log) (v w τ : K) :
    between L sp v w τ = v + τ * (w - v) := by
  cases sp <;> simp_all [between]

theorem manualSteps_between (L : LogOps K) {sp : Spacing} (hsp : sp ≠ .other) (v : ContVar K) (x : K) (n : Nat) :
    manualSteps L sp v x n = (linspace 0 1 n).map (between L sp x v.target) := by
  cases sp with
  | linear =>
    have := linspace_map_affine x (v.target - x) 0 1 n
    simp only [zero_mul, add_zero, one_mul, add_sub_cancel] at this
    simp only [manualSteps]
    rw [this]
    rfl
  | log =>
    simp only [manualSteps, logspace]
    have := linspace_map_affine (L.log10 x) (L.log10 v.target - L.log10 x) 0 1 n
    simp only [zero_mul, add_zero, one_mul, add_sub_cancel] at this
    rw [this, List.map_map]
    rfl
  | other => exact absurd rfl hsp

theorem newSteps_between {L : LogOps K} {sp : Spacing} (hL : sp = .log → ∀ x, L.log10 (L.pow10 x) = x)
    (hsp : sp ≠ .other)
    (x w a b : K) (nd : Nat) :
    newSteps L sp (between L sp x w a) (between L sp x w b) nd =
      .ok (((linspace a b (nd + 1)).tail.dropLast).map (between L sp x w)) := by
  cases sp with
  | linear =>
    simp only [newSteps, between]
    rw [linspace_map_affine, ← List.map_tail, ← List.map_dropLast]
    rfl
  | log =>
    simp only [newSteps, between, logspace, hL rfl]
    rw [linspace_map_affine, List.map_map, ← List.map_tail, ← List.map_dropLast]
    rfl
  | other => exact absurd rfl hsp

theorem npInsert_map {β γ : Type _} (f : β → γ) (l : List β) (i : Nat) (xs : List β) :
    npInsert (l.map f) i (xs.map f) = (npInsert l i xs).map f := by
  simp [npInsert, List.map_take, List.map_drop]

/-- Splitting of `linspace` into first, interior, last. -/
theorem linspace_split (a b : K) (m : Nat) (hm : 1 ≤ m) :
    linspace a b (m + 1) = a :: (linspace a b (m + 1)).tail.dropLast ++ [b] := by
  obtain ⟨k, rfl⟩ : ∃ k, m = k + 1 := ⟨m - 1, by omega⟩
  have h0 : linspace a b (k + 1 + 1) = a :: (linspace a b (k + 1 + 1)).tail := by
    rw [linspace_eq, List.range_succ_eq_map]
    simp
  have hlast : (linspace a b (k + 1 + 1)).getLast? = some b := by
    rw [List.getLast?_eq_getElem?, length_linspace]
    simp only [Nat.add_one_sub_one]
    rw [linspace_getElem? _ _ _ _ (by omega)]
    have : ((k : K) + 1) ≠ 0 := by positivity
    simp
    field_simp
    ring
  have htl : (linspace a b (k + 1 + 1)).tail.getLast? = some b := by
    rw [h0, List.getLast?_cons] at hlast
    have hlen : (linspace a b (k + 1 + 1)).tail ≠ [] := by
      intro h
      have := congrArg List.length h
      simp at this
    obtain ⟨l, y, hly⟩ := List.eq_nil_or_concat (linspace a b (k + 1 + 1)).tail |>.resolve_left hlen
    rw [hly] at hlast ⊢
    simpa using hlast
  have := List.dropLast_append_getLast? b (by simpa using htl)
  conv_lhs => rw [h0, ← this]
  simp

theorem linspace_sorted {a b : K} (hab : a < b) (n : Nat) : (linspace a b n).Pairwise (· < ·) := by
  rw [linspace_eq]
  rcases Nat.lt_or_ge n 2 with h | h
  · have : n = 0 ∨ n = 1 := by omega
    rcases this with rfl | rfl <;> simp
  · rw [List.pairwise_map]
    apply List.Pairwise.imp _ (List.pairwise_lt_range)
    intro i j hij
    have h1 : (0 : K) < ((n - 1 : Nat) : K) := by
      have : 0 < n - 1 := by omega
      exact_mod_cast this
    have h2 : 0 < (b - a) / ((n - 1 : Nat) : K) := div_pos (sub_pos.2 hab) h1
    have h3 : (i : K) < (j : K) := by exact_mod_cast hij
    have := mul_lt_mul_of_pos_right h3 h2
    linarith

/-- Interior points lie strictly between the ends. -/
theorem interior_between {a b : K} (hab : a < b) (m : Nat) (hm : 1 ≤ m) :
    (a :: (linspace a b (m + 1)).tail.dropLast ++ [b]).Pairwise (· < ·) := by
  rw [← linspace_split a b m hm]; exact linspace_sorted hab _

theorem npInsert_sorted {ts : List K} (hts : ts.Pairwise (· < ·)) {i : Nat} {a b : K} {new : List K}
    (ha : ts[i]? = some a) (hb : ts[i + 1]? = some b) (hnew : (a :: new ++ [b]).Pairwise (· < ·)) :
    (npInsert ts (i + 1) new).Pairwise (· < ·) := by
  have hil : i + 1 < ts.length := by rw [List.getElem?_eq_some_iff] at hb; exact hb.1
  have hsplit : ts = ts.take i ++ a :: b :: ts.drop (i + 2) := by
    conv_lhs => rw [← List.take_append_drop i ts]
    congr 1
    rw [List.drop_eq_getElem_cons (by omega), List.drop_eq_getElem_cons (by omega)]
    rw [List.getElem?_eq_getElem (by omega)] at ha hb
    simp only [Option.some.injEq] at ha hb
    rw [ha, hb]
  have hins : npInsert ts (i + 1) new = ts.take i ++ (a :: new ++ [b]) ++ ts.drop (i + 2) := by
    simp only [npInsert]
    have h1 : ts.take (i + 1) = ts.take i ++ [a] := by
      rw [List.take_add_one, ha]; rfl
    have h2 : ts.drop (i + 1) = b :: ts.drop (i + 2) := by
      rw [List.drop_eq_getElem_cons hil]
      rw [List.getElem?_eq_getElem hil] at hb
      simp only [Option.some.injEq] at hb
      rw [hb]
    rw [h1, h2]; simp
  rw [hins]
  rw [hsplit] at hts
  rw [List.pairwise_append] at hts
  obtain ⟨hp, hq, hpq⟩ := hts
  rw [List.pairwise_cons, List.pairwise_cons] at hq
  obtain ⟨haq, hbq, hq⟩ := hq
  have hmid : ∀ y ∈ a :: new ++ [b], a ≤ y ∧ y ≤ b := by
    intro y hy
    constructor
    · rcases List.mem_cons.1 hy with rfl | hy
      · exact le_refl _
      · exact le_of_lt ((List.pairwise_cons.1 hnew).1 y hy)
    · rw [List.mem_append] at hy
      rcases hy with hy | hy
      · exact le_of_lt ((List.pairwise_append.1 hnew).2.2 y hy b (by simp))
      · simp at hy; exact le_of_eq hy
  rw [List.pairwise_append, List.pairwise_append]
  refine ⟨⟨hp, hnew, ?_⟩, hq, ?_⟩
  · intro x hx y hy
    exact lt_of_lt_of_le (hpq x hx a (by simp)) (hmid y hy).1
  · intro x hx y hy
    rw [List.mem_append] at hx
    rcases hx with hx | hx
    · exact hpq x hx y (by simp [hy])
    · exact lt_of_le_of_lt (hmid x hx).2 (hbq y hy)

end ordered

end Beluga.Cont
