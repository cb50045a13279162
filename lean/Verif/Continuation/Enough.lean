import Verif.Continuation.Props

/-!
# C89: continuation with enough cases reaches its target

What continuation is for: a solver that converges whenever its guess is a solution for nearby constants is led to the
target by steps that are small enough, and bisection finds such steps by itself.
-/

set_option linter.unusedSectionVars false

namespace Beluga.Cont

variable {K : Type _} {α : Type _} [Field K] [LinearOrder K]

/-- The solver follows solutions over distances up to `δ` as long as the constants are in `R`.  `Good c d` says that
`d` is good enough a solution for the constants `c` to start from.  The solver never raises and keeps the constants, what
it reports as converged is good, and from a good guess for constants at a distance of at most `δ` it converges. -/
structure Tracks (solve : Nat → Traj K α → Py (Traj K α)) (R : List K → Prop) (Good : List K → α → Prop) (δ : K) :
    Prop where
  total : ∀ n g, ∃ sol, solve n g = .ok sol ∧ sol.const = g.const ∧ (sol.converged = true → Good sol.const sol.data)
  near : ∀ n g c sol, R c → R g.const → Good c g.data → dist1 c g.const ≤ δ → solve n g = .ok sol → sol.converged = true

theorem dist1_scale {k : K} [IsStrictOrderedRing K] {c c' s g : List K}
    (h1 : c.length = s.length) (h2 : c'.length = s.length) (h3 : g.length = s.length)
    (h : ∀ (j : Nat) (x x' y y' : K), c[j]? = some x → c'[j]? = some x' → s[j]? = some y → g[j]? = some y' →
      |x - x'| = k * |y - y'|) : dist1 c c' = k * dist1 s g := by
  induction s generalizing c c' g with
  | nil =>
    rw [List.length_nil, List.length_eq_zero_iff] at h1
    subst h1
    simp [dist1]
  | cons y s ih =>
    cases c with
    | nil => simp at h1
    | cons x c =>
      cases c' with
      | nil => simp at h2
      | cons x' c' =>
        cases g with
        | nil => simp at h3
        | cons y' g =>
          simp only [List.length_cons, Nat.add_right_cancel_iff] at h1 h2 h3
          simp only [dist1]
          rw [ih h1 h2 h3 (fun j a a' b b' ha ha' hb hb' => h (j + 1) a a' b b' (by simpa using ha) (by simpa using ha')
            (by simpa using hb) (by simpa using hb')), h 0 x x' y y' rfl rfl rfl rfl]
          ring

theorem dist1_nonneg [IsStrictOrderedRing K] : ∀ c c' : List K, 0 ≤ dist1 c c'
  | [], _ => by simp [dist1]
  | _ :: _, [] => by simp [dist1]
  | x :: xs, y :: ys => by
    simp only [dist1]
    have := dist1_nonneg xs ys
    have := abs_nonneg (x - y)
    linarith

section
variable [IsStrictOrderedRing K]

/-- Two points of a linear path are as far apart as the fractions say. -/
theorem dist1_path {L : LogOps K} {names : List String} {targets : List (String × K)} {start goal c c' : List K}
    {τ σ : K} (hlen : names.length = start.length) (hg : AtTarget names targets start goal)
    (hc : OnPath L .linear names targets start τ c) (hc' : OnPath L .linear names targets start σ c') :
    dist1 c c' = |σ - τ| * dist1 start goal := by
  apply dist1_scale hc.1 hc'.1 hg.1
  intro j x x' y y' hx hx' hy hy'
  have hj : j < names.length := by
    rw [hlen]; exact (List.getElem?_eq_some_iff.1 hy).1
  have hn : names[j]? = some names[j] := List.getElem?_eq_getElem hj
  have e1 := hc.2 j _ y hn hy
  have e2 := hc'.2 j _ y hn hy
  have e3 := hg.2 j _ y hn hy
  rw [hx] at e1; rw [hx'] at e2; rw [hy'] at e3
  simp only [Option.some.injEq] at e1 e2 e3
  cases hl : targets.lookup names[j] with
  | none =>
    rw [hl] at e1 e2 e3
    simp only [Option.getD_none] at e1 e2 e3
    subst e1 e2 e3; simp
  | some w =>
    rw [hl] at e1 e2 e3
    simp only [Option.getD_some, between] at e1 e2 e3
    subst e1 e2 e3
    rw [← abs_mul, abs_sub_comm, show y + σ * (y' - y) - (y + τ * (y' - y)) = -((σ - τ) * (y - y')) by ring, abs_neg]

theorem onPath_zero {L : LogOps K} {names : List String} {targets : List (String × K)} {start c : List K}
    (hlen : names.length = start.length) (h : OnPath L .linear names targets start 0 c) : c = start := by
  apply List.ext_getElem?
  intro j
  by_cases hj : j < start.length
  · have hn : names[j]? = some (names[j]'(by omega)) := List.getElem?_eq_getElem _
    have hs : start[j]? = some start[j] := List.getElem?_eq_getElem hj
    rw [h.2 j _ _ hn hs, hs]
    cases targets.lookup (names[j]'(by omega)) <;> simp [between]
  · rw [List.getElem?_eq_none (by rw [h.1]; omega), List.getElem?_eq_none (by omega)]

/-! ### gaps between neighbouring fractions -/

/-- All gaps between neighbours are between `lo` and `hi`. -/
def Gaps (lo hi : K) (ts : List K) : Prop := ts.IsChain fun a b => lo ≤ b - a ∧ b - a ≤ hi

theorem gaps_linspace (a b : K) (n : Nat) :
    (linspace a b n).IsChain fun x y => y - x = (b - a) / ((n - 1 : Nat) : K) := by
  rw [List.isChain_iff_getElem]
  intro i hi
  have hlen : (linspace a b n).length = n := by simp
  have h1 := linspace_getElem? a b n i (by omega)
  have h2 := linspace_getElem? a b n (i + 1) (by omega)
  rw [List.getElem?_eq_getElem (by omega), Option.some.injEq] at h1 h2
  rw [h1, h2]
  push_cast
  ring

theorem Gaps.get {lo hi : K} {ts : List K} (h : Gaps lo hi ts) {i : Nat} {a b : K} (ha : ts[i]? = some a)
    (hb : ts[i + 1]? = some b) : lo ≤ b - a ∧ b - a ≤ hi := by
  obtain ⟨hi', rfl⟩ := List.getElem?_eq_some_iff.1 hb
  obtain ⟨hi'', rfl⟩ := List.getElem?_eq_some_iff.1 ha
  exact (List.isChain_iff_getElem.1 h) i hi'

theorem Gaps.count {lo hi : K} {ts : List K} (h : Gaps lo hi ts) {x y : K} (hx : ts.head? = some x)
    (hy : ts.getLast? = some y) : ((ts.length - 1 : Nat) : K) * lo ≤ y - x := by
  induction ts generalizing x with
  | nil => cases hx
  | cons a t ih =>
    cases t with
    | nil =>
      simp only [List.head?_cons, List.getLast?_singleton, Option.some.injEq] at hx hy
      subst hx hy
      simp
    | cons b t =>
      simp only [List.head?_cons, Option.some.injEq] at hx
      subst hx
      have h' := List.isChain_cons_cons.1 h
      have := ih h'.2 rfl (by simpa using hy)
      have h1 := h'.1.1
      simp only [List.length_cons, Nat.add_one_sub_one] at this ⊢
      push_cast
      linarith

/-- Dividing one gap into equal parts. -/
theorem Gaps.bisect {lo hi : K} {ts : List K} (h : Gaps lo hi ts) {c nd : Nat} (hnd : 1 ≤ nd) {a b : K} (hc : 2 ≤ c)
    (ha : ts[c - 2]? = some a) (hb : ts[c - 1]? = some b) (hab : a < b) (hlo : lo ≤ (b - a) / (nd : K)) :
    Gaps lo hi (npInsert ts (c - 1) ((linspace a b (nd + 1)).tail.dropLast)) := by
  obtain ⟨hc1, rfl⟩ := List.getElem?_eq_some_iff.1 hb
  obtain ⟨hc2, rfl⟩ := List.getElem?_eq_some_iff.1 ha
  have hgap := h.get ha (by rw [show c - 2 + 1 = c - 1 by omega]; exact hb)
  have htake : ts.take (c - 1) = ts.take (c - 2) ++ [ts[c - 2]] := by
    rw [show c - 1 = c - 2 + 1 by omega, List.take_succ_eq_append_getElem hc2]
  have hdrop : ts.drop (c - 1) = ts[c - 1] :: ts.drop c := by
    rw [List.drop_eq_getElem_cons hc1, show c - 1 + 1 = c by omega]
  set a := ts[c - 2]
  set b := ts[c - 1]
  have hts : ts = ts.take (c - 2) ++ a :: b :: ts.drop c := by
    conv_lhs => rw [← List.take_append_drop (c - 1) ts]
    rw [htake, hdrop]; simp
  have h1 : Gaps lo hi (ts.take (c - 2) ++ a :: b :: ts.drop c) := by rw [← hts]; exact h
  unfold Gaps at h1 ⊢
  rw [List.isChain_split] at h1
  have h2 := List.isChain_cons_cons.1 h1.2
  have hnew : npInsert ts (c - 1) ((linspace a b (nd + 1)).tail.dropLast) =
      ts.take (c - 2) ++ a :: ((linspace a b (nd + 1)).tail.dropLast ++ b :: ts.drop c) := by
    unfold npInsert
    rw [htake, hdrop]; simp
  rw [hnew, List.isChain_split]
  refine ⟨h1.1, ?_⟩
  rw [← List.cons_append, List.isChain_split]
  refine ⟨?_, h2.2⟩
  rw [← linspace_split a b nd hnd]
  refine (gaps_linspace a b (nd + 1)).imp ?_
  intro x y hxy
  rw [hxy]
  have hn1 : (1 : K) ≤ (nd : K) := by exact_mod_cast hnd
  refine ⟨by simpa using hlo, ?_⟩
  simp only [Nat.add_one_sub_one]
  refine le_trans (div_le_self (by linarith) hn1) hgap.2

theorem npInsert_first {ts : List K} {c nd : Nat} (hnd : 2 ≤ nd) {a b : K} (hlen : c - 1 < ts.length) :
    (npInsert ts (c - 1) ((linspace a b (nd + 1)).tail.dropLast))[c - 1]? = some (a + (b - a) / (nd : K)) := by
  unfold npInsert
  rw [List.append_assoc, List.getElem?_append_right (by simp), List.length_take, Nat.min_eq_left (by omega), Nat.sub_self,
    List.getElem?_append_left (by simp; omega), List.getElem?_dropLast, if_pos (by simp; omega), List.getElem?_tail,
    linspace_getElem? _ _ _ _ (by omega)]
  simp

/-- What holds between two solves of a step, besides `SInv`: converged solutions are good, no gap is too small or too
large, and after a failure the last gap was too large for the solver and has been divided as often as solves failed. -/
structure TInv (Good : List K → α → Prop) (δ D lo : K) (N nd : Nat) (tr : List (Traj K α × Traj K α)) (s : Strat K α)
    (ts : List K) : Prop where
  good : ∀ p ∈ tr, p.2.converged = true → Good p.2.const p.2.data
  gaps : Gaps lo (1 / ((N - 1 : Nat) : K)) ts
  fail : ∀ pre p, tr = pre ++ [p] → p.2.converged = false → 2 ≤ s.ctr ∧ ∃ a b, ts[s.ctr - 2]? = some a ∧
    ts[s.ctr - 1]? = some b ∧ δ < (b - a) * D ∧ (b - a) * ((N - 1 : Nat) : K) * (nd : K) ^ (trailingFailures tr - 1) ≤ 1

/-- The fractions of a schedule lie between `0` and `1`. -/
theorem SInv.unit {L : LogOps K} {sp : Spacing} {names : List String} {targets : List (String × K)} {start : List K}
    {N M : Nat} (hM : 2 ≤ M) {tr : List (Traj K α × Traj K α)} {s : Strat K α} {ts : List K}
    (hI : SInv L sp names targets start (linspace (0 : K) 1 M).getLast? N tr s ts) :
    ts.head? = some 0 ∧ ts.getLast? = some 1 ∧ ∀ τ ∈ ts, 0 ≤ τ ∧ τ ≤ 1 := by
  have hlast := hI.last
  rw [linspace_last_one hM] at hlast
  have hne : ts ≠ [] := by rintro rfl; cases hlast
  obtain ⟨x, hx⟩ : ∃ x, ts.head? = some x := by
    cases ts with
    | nil => exact absurd rfl hne
    | cons a l => exact ⟨a, rfl⟩
  have hx0 := hI.head x hx
  subst hx0
  refine ⟨hx, hlast, fun τ hτ => ⟨?_, ?_⟩⟩
  · cases ts with
    | nil => cases hτ
    | cons a l =>
      simp at hx; subst hx
      rcases List.mem_cons.1 hτ with rfl | hm
      · exact le_rfl
      · exact (List.rel_of_pairwise_cons hI.sorted hm).le
  · obtain ⟨l, rfl⟩ := List.getLast?_eq_some_iff.1 hlast
    rcases List.mem_append.1 hτ with hm | hm
    · exact ((List.pairwise_append.1 hI.sorted).2.2 τ hm 1 (by simp)).le
    · simp at hm; exact hm.le

/-- A step whose schedule is fine enough for the solver: the distance to the goal is at most `δ` per case, where for
bisection the cases that it may insert in a row count. -/
structure FineEnough (s0 : Strat K α) (δ D : K) : Prop where
  linear : s0.spacing = .linear
  cases_ : 2 ≤ s0.numCases
  manual : s0.kind = .manual → D ≤ δ * ((s0.numCases - 1 : Nat) : K)
  bisection : s0.kind = .bisection → 2 ≤ s0.numDivisions ∧
    D ≤ δ * ((s0.numCases - 1 : Nat) : K) * (s0.numDivisions : K) ^ (s0.maxDivisions + 1)

section
variable {L : LogOps K} {s0 s1 : Strat K α} {sol0 : Traj K α} {names : List String}
  {solve : Nat → Traj K α → Py (Traj K α)} {R : List K → Prop} {Good : List K → α → Prop} {δ : K} {goal : List K} {M : Nat}

/-- The smallest gap that a division can leave. -/
theorem lo_le {δ D gap : K} {nd M : Nat} (hδ : 0 ≤ δ) (hgap : 0 < gap) (hnd : 1 ≤ nd) (hM : 0 < M) (hD : D * nd ≤ M * δ)
    (h : δ < gap * D) : 1 / (M : K) ≤ gap / (nd : K) := by
  have hn : (0 : K) < nd := by exact_mod_cast hnd
  have hm : (0 : K) < M := by exact_mod_cast hM
  have hD0 : 0 < D := by
    by_contra hcon
    have : gap * D ≤ 0 := mul_nonpos_of_nonneg_of_nonpos hgap.le (not_lt.1 hcon)
    linarith
  rw [div_le_div_iff₀ hm hn, one_mul]
  have h1 : D * nd < D * (gap * M) := by
    calc D * nd ≤ M * δ := hD
      _ < M * (gap * D) := by gcongr
      _ = D * (gap * M) := by ring
  exact (lt_of_mul_lt_mul_left h1 hD0.le).le

theorem tinv_step (hs : Starts L s0 sol0 names s1) (hkind : s0.kind = .manual ∨ s0.kind = .bisection)
    (hF : FineEnough s0 δ (dist1 sol0.const goal)) (hT : Tracks solve R Good δ) (hδ : 0 ≤ δ) (hδ' : δ < 9 * 10 ^ 99)
    (hg0 : Good sol0.const sol0.data) (hgoal : AtTarget names s0.targets sol0.const goal)
    (hR : ∀ τ c, 0 ≤ τ → τ ≤ 1 → OnPath L .linear names s0.targets sol0.const τ c → R c)
    (hM : s0.numCases - 1 ≤ M) (hMD : s0.kind = .bisection → dist1 sol0.const goal * s0.numDivisions ≤ M * δ)
    {tr : List (Traj K α × Traj K α)} {s s' : Strat K α} {ts : List K} {g sol : Traj K α} {n : Nat}
    (he : Exec L s1 tr s)
    (hI : SInv L s0.spacing names s0.targets sol0.const (linspace (0 : K) 1 s0.numCases).getLast? s0.numCases tr s ts)
    (hJ : TInv Good δ (dist1 sol0.const goal) (1 / (M : K)) s0.numCases s0.numDivisions tr s ts)
    (hn : s.next L = .ok (g, s')) (hsol : solve n g = .ok sol) :
    ∃ ts', SInv L s0.spacing names s0.targets sol0.const (linspace (0 : K) 1 s0.numCases).getLast? s0.numCases
        (tr ++ [(g, sol)]) (s'.addGamma sol) ts' ∧
      TInv Good δ (dist1 sol0.const goal) (1 / (M : K)) s0.numCases s0.numDivisions (tr ++ [(g, sol)])
        (s'.addGamma sol) ts' := by
  have hf := (exec_frame hs he).1
  have hN := hF.cases_
  have hsp : s0.spacing ≠ .other := by rw [hF.linear]; decide
  have hB : s0.kind = .bisection → 1 ≤ s0.numDivisions ∧ (s0.spacing = .log → ∀ x, L.log10 (L.pow10 x) = x) := fun hk =>
    ⟨by have := (hF.bisection hk).1; omega, fun h => by rw [hF.linear] at h; cases h⟩
  obtain ⟨ts', hI', hA, hC⟩ := SInv.step (sol := sol) hs hkind hsp hB hf hI hn
  have hconst : sol.const = g.const := by
    obtain ⟨sol', h1, h2, -⟩ := hT.total n g
    rw [hsol] at h1; cases h1; exact h2
  have he' := Exec.step he hn hconst
  have hf' := (exec_frame hs he').1
  obtain ⟨hhead, -, hunit⟩ := SInv.unit hN hI'
  have honR : ∀ p ∈ tr ++ [(g, sol)], R p.1.const := by
    intro p hp
    obtain ⟨τ, hτ, hon⟩ := hI'.mem p hp
    rw [hF.linear] at hon
    exact hR τ _ (hunit τ hτ).1 (hunit τ hτ).2 hon
  obtain ⟨i, q, hq, hgd, -, hq1, hq2⟩ := C05_nearest_guess_partial hs he hn
  have hnl := hs.names_len
  -- a failure only happens after a gap that is too large
  have hfail : sol.converged = false → 2 ≤ s'.ctr ∧ ∃ a b, ts'[s'.ctr - 2]? = some a ∧ ts'[s'.ctr - 1]? = some b ∧
      δ < (b - a) * dist1 sol0.const goal := by
    intro hsf
    obtain ⟨τ, hτ, hon⟩ := hI'.cur tr (g, sol) rfl
    rw [hF.linear] at hon
    simp only [Strat.addGamma] at hτ
    by_cases h2 : 2 ≤ s'.ctr
    · obtain ⟨a0, p, b0, q0, σ, heq, hpc, -, hσ, honp⟩ := hI'.prev h2
      obtain ⟨heq, -⟩ := List.append_inj' heq rfl
      rw [hF.linear] at honp
      simp only [Strat.addGamma] at hσ
      have hptr : p ∈ tr := by rw [heq]; simp
      refine ⟨h2, σ, τ, hσ, hτ, ?_⟩
      by_contra hcon
      have hlt : σ < τ := by
        obtain ⟨h3, rfl⟩ := List.getElem?_eq_some_iff.1 hσ
        obtain ⟨h4, rfl⟩ := List.getElem?_eq_some_iff.1 hτ
        exact List.pairwise_iff_getElem.1 hI'.sorted _ _ h3 h4 (by omega)
      have hd : dist1 p.2.const g.const ≤ δ := by
        rw [hf.same p hptr, dist1_path hnl hgoal honp hon, abs_of_pos (by linarith)]
        exact not_lt.1 hcon
      obtain ⟨hqc, hqd, -⟩ := hq1 ⟨p, hptr, hpc, lt_of_le_of_lt hd hδ'⟩
      have hqm : ∃ r ∈ tr, r.2 = q := by
        have := List.mem_of_getElem? hq
        rcases List.mem_cons.1 this with h | h
        · rw [h] at hqc; cases hqc
        · simpa using h
      obtain ⟨r, hr, rfl⟩ := hqm
      have := hT.near n g r.2.const sol (by rw [hf.same r hr]; exact honR r (List.mem_append_left _ hr))
        (honR (g, sol) (by simp)) (by rw [hgd]; exact hJ.good r hr hqc) (le_trans (hqd p hptr hpc) hd) hsol
      rw [hsf] at this; cases this
    · exfalso
      have htr : tr = [] := by
        by_contra hne
        obtain ⟨pre, p, rfl⟩ := (List.eq_nil_or_concat tr).resolve_left hne
        rw [List.concat_eq_append] at *
        cases hpc : p.2.converged with
        | true =>
          have := (hC (Or.inr ⟨pre, p, rfl, hpc⟩)).2
          have h0 : s.ctr ≠ 0 := fun h => hne (hI.ctr_zero.1 h)
          omega
        | false =>
          obtain ⟨h3, _, _, _, _, _, _, h4⟩ := hA ⟨pre, p, rfl, hpc⟩
          omega
      subst htr
      have h0 := hI.ctr_zero.2 rfl
      have h1 := (hC (Or.inl rfl)).2
      rw [h1, h0] at hτ
      have hτ0 : τ = 0 := by
        rw [List.head?_eq_getElem?] at hhead
        simp only [Nat.zero_add, Nat.sub_self] at hτ
        rw [hτ] at hhead
        exact Option.some.inj hhead
      subst hτ0
      have hgs := onPath_zero hnl hon
      have hi := hq2 (by simp)
      subst hi
      simp only [List.getElem?_cons_zero, Option.some.injEq] at hq
      subst hq
      have hRg := honR (g, sol) (by simp)
      have := hT.near n g sol0.const sol (by rw [← hgs]; exact hRg) hRg (by rw [hgd]; exact hg0) (by
        have h5 := dist1_path hnl hgoal hon hon
        rw [hgs, sub_self, abs_zero, zero_mul] at h5
        rw [hgs, h5]; exact hδ) hsol
      rw [hsf] at this; cases this
  have hN1 : (0 : K) < ((s0.numCases - 1 : Nat) : K) := by
    have : 0 < s0.numCases - 1 := by omega
    exact_mod_cast this
  have hM0 : 0 < M := by omega
  refine ⟨ts', hI', ?_, ?_, ?_⟩
  · intro p hp hpc
    rcases List.mem_append.1 hp with hp | hp
    · exact hJ.good p hp hpc
    · simp only [List.mem_singleton] at hp
      subst hp
      obtain ⟨sol', h1, h2, h3⟩ := hT.total n g
      rw [hsol] at h1; cases h1
      exact h3 hpc
  · rcases List.eq_nil_or_concat tr with htr | ⟨pre, p, htr⟩
    · rw [(hC (Or.inl htr)).1]; exact hJ.gaps
    · rw [List.concat_eq_append] at htr
      cases hpc : p.2.converged with
      | true => rw [(hC (Or.inr ⟨pre, p, htr, hpc⟩)).1]; exact hJ.gaps
      | false =>
        obtain ⟨h2, a, b, ha, hb, hab, hts, -⟩ := hA ⟨pre, p, htr, hpc⟩
        obtain ⟨-, a', b', ha', hb', hlt, -⟩ := hJ.fail pre p htr hpc
        rw [ha] at ha'; rw [hb] at hb'
        cases ha'; cases hb'
        rw [hts, hf.nd]
        have hk : s0.kind = .bisection := by
          rcases hkind with hk | hk
          · exfalso
            -- a manual step does not go on after a failure
            have hgap := hJ.gaps.get ha (by rw [show s.ctr - 2 + 1 = s.ctr - 1 by omega]; exact hb)
            have h3 : (b - a) * dist1 sol0.const goal ≤ δ := by
              calc (b - a) * dist1 sol0.const goal ≤ 1 / ((s0.numCases - 1 : Nat) : K) * (δ * ((s0.numCases - 1 : Nat) : K)) := by
                    apply mul_le_mul hgap.2 (hF.manual hk) (dist1_nonneg _ _) (by positivity)
                _ = δ := by field_simp
            linarith
          · exact hk
        have hnd := (hF.bisection hk).1
        exact hJ.gaps.bisect (by omega) h2 ha hb hab (lo_le hδ (by linarith) (by omega) hM0 (hMD hk) hlt)
  · intro pre0 p0 hp0 hp0c
    obtain ⟨-, hp0⟩ := List.append_inj' hp0 rfl
    cases hp0
    obtain ⟨h2, a, b, ha, hb, hlt⟩ := hfail hp0c
    refine ⟨h2, a, b, ha, hb, hlt, ?_⟩
    rw [trailingFailures_append_false _ _ hp0c, Nat.add_sub_cancel]
    have first : trailingFailures tr = 0 → ts' = ts → (b - a) * ((s0.numCases - 1 : Nat) : K) *
        (s0.numDivisions : K) ^ trailingFailures tr ≤ 1 := by
      intro h0 hts
      rw [h0, pow_zero, mul_one]
      rw [hts] at ha hb
      have := (hJ.gaps.get ha (by rw [show s'.ctr - 2 + 1 = s'.ctr - 1 by omega]; exact hb)).2
      rwa [le_div_iff₀ hN1] at this
    rcases List.eq_nil_or_concat tr with htr | ⟨pre, p, htr⟩
    · exact first (by rw [htr]; rfl) (hC (Or.inl htr)).1
    · rw [List.concat_eq_append] at htr
      cases hpc : p.2.converged with
      | true =>
        exact first (by rw [htr]; exact trailingFailures_append_true _ _ hpc) (hC (Or.inr ⟨pre, p, htr, hpc⟩)).1
      | false =>
        obtain ⟨h3, a1, b1, ha1, hb1, hab1, hts, hctr⟩ := hA ⟨pre, p, htr, hpc⟩
        obtain ⟨-, a', b', ha', hb', -, hpow⟩ := hJ.fail pre p htr hpc
        rw [ha1] at ha'; rw [hb1] at hb'
        cases ha'; cases hb'
        have hk : s0.kind = .bisection := by
          rcases next_cases hf (by rw [hf.kind]; exact hkind) hI.ctr_zero hn with ⟨d, -, -, h5⟩ | ⟨h5, -⟩
          · exfalso
            rcases h5 with h5 | ⟨pre', p', h5, h6⟩
            · rw [htr] at h5; simp at h5
            · rw [htr] at h5
              obtain ⟨-, h5⟩ := List.append_inj' h5 rfl
              simp only [List.cons.injEq, and_true] at h5
              rw [h5, h6] at hpc; cases hpc
          · rw [← hf.kind]; exact h5
        have hnd := (hF.bisection hk).1
        rw [hts, hctr, hf.nd] at ha hb
        have hlen : s.ctr - 1 < ts.length := (List.getElem?_eq_some_iff.1 hb1).1
        rw [npInsert_getElem?_lt _ _ _ _ (by omega) (by omega), ha1] at ha
        rw [npInsert_first hnd hlen] at hb
        simp only [Option.some.injEq] at ha hb
        subst ha hb
        have htf : trailingFailures tr = (trailingFailures tr - 1) + 1 := by
          have : 1 ≤ trailingFailures tr := by rw [htr, trailingFailures_append_false _ _ hpc]; omega
          omega
        rw [htf, pow_succ]
        have hnd0 : (s0.numDivisions : K) ≠ 0 := by
          have : s0.numDivisions ≠ 0 := by omega
          exact_mod_cast this
        calc (a1 + (b1 - a1) / (s0.numDivisions : K) - a1) * ((s0.numCases - 1 : Nat) : K) *
              ((s0.numDivisions : K) ^ (trailingFailures tr - 1) * (s0.numDivisions : K))
            = (b1 - a1) * ((s0.numCases - 1 : Nat) : K) * (s0.numDivisions : K) ^ (trailingFailures tr - 1) := by
              field_simp; ring
          _ ≤ 1 := hpow

/-- The number of solves is bounded, because the gaps are. -/
theorem solves_le (hs : Starts L s0 sol0 names s1) (hkind : s0.kind = .manual ∨ s0.kind = .bisection)
    (hF : FineEnough s0 δ (dist1 sol0.const goal)) (hM : s0.numCases - 1 ≤ M)
    {tr : List (Traj K α × Traj K α)} {s : Strat K α} {ts : List K} (he : Exec L s1 tr s)
    (hI : SInv L s0.spacing names s0.targets sol0.const (linspace (0 : K) 1 s0.numCases).getLast? s0.numCases tr s ts)
    (hJ : TInv Good δ (dist1 sol0.const goal) (1 / (M : K)) s0.numCases s0.numDivisions tr s ts) :
    tr.length ≤ 2 * M := by
  have hN := hF.cases_
  have hM0 : (0 : K) < M := by
    have : 0 < M := by omega
    exact_mod_cast this
  have hf := (exec_frame hs he).1
  obtain ⟨hh, hl, -⟩ := SInv.unit hN hI
  have h1 := hJ.gaps.count hh hl
  rw [hI.len, mul_one_div, div_le_iff₀ hM0, sub_zero, one_mul] at h1
  have h2 : s.numCases - 1 ≤ M := by exact_mod_cast h1
  have h3 := hI.cases_
  have h4 := hI.count
  have h5 := hI.ctr_le
  rcases hkind with hk | hk
  · -- no failure before the last solve
    have h6 : failures tr.dropLast = 0 := by
      unfold failures
      rw [List.length_eq_zero_iff, List.filter_eq_nil_iff]
      intro q hq
      simp [(C04_manual_stops hs hk he).1 q hq]
    omega
  · have hnd := (hF.bisection hk).1
    rw [hf.nd] at h3
    have h6 : failures tr.dropLast ≤ failures tr.dropLast * (s0.numDivisions - 1) :=
      Nat.le_mul_of_pos_right _ (by omega)
    omega

/-- The loop over a step whose schedule is fine enough. -/
theorem loop_enough (hs : Starts L s0 sol0 names s1) (hkind : s0.kind = .manual ∨ s0.kind = .bisection)
    (hF : FineEnough s0 δ (dist1 sol0.const goal)) (hT : Tracks solve R Good δ) (hδ : 0 ≤ δ) (hδ' : δ < 9 * 10 ^ 99)
    (hg0 : Good sol0.const sol0.data) (hgoal : AtTarget names s0.targets sol0.const goal)
    (hR : ∀ τ c, 0 ≤ τ → τ ≤ 1 → OnPath L .linear names s0.targets sol0.const τ c → R c)
    (hM : s0.numCases - 1 ≤ M) (hMD : s0.kind = .bisection → dist1 sol0.const goal * s0.numDivisions ≤ M * δ)
    (fuel : Nat) {tr : List (Traj K α × Traj K α)} {s : Strat K α} {ts : List K} {n : Nat}
    (he : Exec L s1 tr s)
    (hI : SInv L s0.spacing names s0.targets sol0.const (linspace (0 : K) 1 s0.numCases).getLast? s0.numCases tr s ts)
    (hJ : TInv Good δ (dist1 sol0.const goal) (1 / (M : K)) s0.numCases s0.numDivisions tr s ts)
    (hfuel : 2 * M + 1 ≤ tr.length + fuel) :
    (stepLoop L solve fuel s n tr).ending = .ended ∧ (stepLoop L solve fuel s n tr).trace.length ≤ 2 * M ∧
      Exec L s1 (stepLoop L solve fuel s n tr).trace (stepLoop L solve fuel s n tr).strat ∧
      (stepLoop L solve fuel s n tr).strat.next L = .error .stopIteration ∧
      ∀ p ∈ (stepLoop L solve fuel s n tr).trace, p.2.converged = true → Good p.2.const p.2.data := by
  have hN := hF.cases_
  have hM0 : (0 : K) < M := by
    have : 0 < M := by omega
    exact_mod_cast this
  induction fuel generalizing tr s n ts with
  | zero =>
    have := solves_le hs hkind hF hM he hI hJ
    omega
  | succ fuel ih =>
    have hf := (exec_frame hs he).1
    have hcount := solves_le hs hkind hF hM he hI hJ
    have hsp : s0.spacing ≠ .other := by rw [hF.linear]; decide
    have hnext : (∃ g s', s.next L = .ok (g, s')) ∨ s.next L = .error .stopIteration := by
      by_cases hc : tr = [] ∨ ∃ pre p, tr = pre ++ [p] ∧ p.2.converged = true
      · obtain ⟨h1, h2⟩ := next_total_converged hs hkind hf hI hc
        rcases Nat.lt_or_ge s.ctr s.numCases with h | h
        · exact Or.inl (h1 h)
        · exact Or.inr (h2 (le_antisymm hI.ctr_le h))
      · left
        rw [not_or] at hc
        obtain ⟨pre, p, htr⟩ := (List.eq_nil_or_concat tr).resolve_left hc.1
        rw [List.concat_eq_append] at htr
        have hpc : p.2.converged = false := by
          by_contra h
          exact hc.2 ⟨pre, p, htr, by simpa using h⟩
        obtain ⟨h2, a, b, ha, hb, hlt, hpow⟩ := hJ.fail pre p htr hpc
        have hgap := (hJ.gaps.get ha (by rw [show s.ctr - 2 + 1 = s.ctr - 1 by omega]; exact hb))
        have hN1 : (0 : K) < ((s0.numCases - 1 : Nat) : K) := by
          have : 0 < s0.numCases - 1 := by omega
          exact_mod_cast this
        have hba : 0 < b - a := lt_of_lt_of_le (by positivity) hgap.1
        rcases hkind with hk | hk
        · exfalso
          have h3 : (b - a) * dist1 sol0.const goal ≤ δ := by
            calc (b - a) * dist1 sol0.const goal
                ≤ 1 / ((s0.numCases - 1 : Nat) : K) * (δ * ((s0.numCases - 1 : Nat) : K)) := by
                  apply mul_le_mul hgap.2 (hF.manual hk) (dist1_nonneg _ _) (by positivity)
              _ = δ := by field_simp
          linarith
        · obtain ⟨hnd, hfine⟩ := hF.bisection hk
          rw [htr] at hf hI
          refine (next_failed hs hk hsp (by omega) (fun h => by rw [hF.linear] at h; cases h) hf hI hpc).2.2 h2 ?_
          rw [hf.md]
          have hk' : s.kind = .bisection := by rw [hf.kind]; exact hk
          have hdiv := hI.divs hk' (by rw [trailingFailures_append_false _ _ hpc]; omega)
          rw [← htr] at hdiv
          by_contra hcon
          -- more failures in a row than divisions that are needed
          have hexp : s0.maxDivisions + 1 ≤ trailingFailures tr - 1 := by omega
          have hnd1 : (1 : K) ≤ (s0.numDivisions : K) := by
            have : 1 ≤ s0.numDivisions := by omega
            exact_mod_cast this
          have hpw : (s0.numDivisions : K) ^ (s0.maxDivisions + 1) ≤ (s0.numDivisions : K) ^ (trailingFailures tr - 1) :=
            pow_le_pow_right₀ hnd1 hexp
          have h3 : (b - a) * dist1 sol0.const goal ≤ δ := by
            calc (b - a) * dist1 sol0.const goal
                ≤ (b - a) * (δ * ((s0.numCases - 1 : Nat) : K) * (s0.numDivisions : K) ^ (s0.maxDivisions + 1)) := by
                  apply mul_le_mul_of_nonneg_left hfine hba.le
              _ ≤ (b - a) * (δ * ((s0.numCases - 1 : Nat) : K) * (s0.numDivisions : K) ^ (trailingFailures tr - 1)) := by
                  apply mul_le_mul_of_nonneg_left _ hba.le
                  apply mul_le_mul_of_nonneg_left hpw (by positivity)
              _ = δ * ((b - a) * ((s0.numCases - 1 : Nat) : K) * (s0.numDivisions : K) ^ (trailingFailures tr - 1)) := by ring
              _ ≤ δ * 1 := mul_le_mul_of_nonneg_left hpow hδ
              _ = δ := mul_one _
          linarith
    rcases hnext with ⟨g, s', hn⟩ | hstop
    · obtain ⟨sol, hsol, hconst, -⟩ := hT.total n g
      obtain ⟨ts', hI', hJ'⟩ := tinv_step hs hkind hF hT hδ hδ' hg0 hgoal hR hM hMD he hI hJ hn hsol
      have he' := Exec.step he hn hconst
      unfold stepLoop
      rw [hn]
      simp only [hsol]
      exact ih he' hI' hJ' (by simp; omega)
    · unfold stepLoop
      rw [hstop]
      exact ⟨rfl, hcount, he, hstop, hJ.good⟩

theorem tinv_init (hs : Starts L s0 sol0 names s1) (hkind : s0.kind = .manual ∨ s0.kind = .bisection)
    (hsp : s0.spacing ≠ .other) (hN : 2 ≤ s0.numCases) (hM : s0.numCases - 1 ≤ M) {D : K} :
    SInv L s0.spacing names s0.targets sol0.const (linspace (0 : K) 1 s0.numCases).getLast? s0.numCases [] s1
        (linspace 0 1 s0.numCases) ∧
      TInv Good δ D (1 / (M : K)) s0.numCases s0.numDivisions [] s1 (linspace 0 1 s0.numCases) := by
  refine ⟨SInv.init hs hkind hsp, by simp, ?_, by simp⟩
  refine (gaps_linspace 0 1 s0.numCases).imp ?_
  intro a b hab
  rw [hab, sub_zero]
  refine ⟨?_, le_rfl⟩
  have h1 : (0 : K) < ((s0.numCases - 1 : Nat) : K) := by
    have : 0 < s0.numCases - 1 := by omega
    exact_mod_cast this
  exact one_div_le_one_div_of_le h1 (by exact_mod_cast hM)

/-- C89.  A manual or bisection step with linear spacing that is fine enough for a solver which follows solutions over
distances up to `δ`: started from a good solution, the loop ends normally after at most `2 M` solves, the last of which
converged with all constants at their targets.  For manual steps `num_cases - 1` cases must be at most `δ` apart; for
bisection it is enough that they are after `max_divisions + 1` divisions.  `M` is the number of cases that is needed at
most: the initial ones, or so many that all are closer than `δ / num_divisions`. -/
theorem C89_target (hs : Starts L s0 sol0 names s1) (hkind : s0.kind = .manual ∨ s0.kind = .bisection)
    (hgoal : AtTarget names s0.targets sol0.const goal)
    (hF : FineEnough s0 δ (dist1 sol0.const goal)) (hT : Tracks solve R Good δ) (hδ : 0 ≤ δ) (hδ' : δ < 9 * 10 ^ 99)
    (hg0 : Good sol0.const sol0.data)
    (hR : ∀ τ c, 0 ≤ τ → τ ≤ 1 → OnPath L .linear names s0.targets sol0.const τ c → R c)
    (hM : s0.numCases - 1 ≤ M) (hMD : s0.kind = .bisection → dist1 sol0.const goal * s0.numDivisions ≤ M * δ)
    (fuel n : Nat) (hfuel : 2 * M + 1 ≤ fuel) :
    ∃ pre p, (stepLoop L solve fuel s1 n []).ending = .ended ∧ (stepLoop L solve fuel s1 n []).trace = pre ++ [p] ∧
      (pre ++ [p]).length ≤ 2 * M ∧ p.2.converged = true ∧ p.2.const = goal ∧ Good goal p.2.data := by
  have hsp : s0.spacing ≠ .other := by rw [hF.linear]; decide
  obtain ⟨hI, hJ⟩ := tinv_init (Good := Good) (δ := δ) (D := dist1 sol0.const goal) hs hkind hsp hF.cases_ hM
  obtain ⟨h1, h2, h3, h4, h5⟩ := loop_enough hs hkind hF hT hδ hδ' hg0 hgoal hR hM hMD fuel (n := n) Exec.start hI hJ
    (by simpa using hfuel)
  obtain ⟨pre, p, h6, h7, h8, h9⟩ := C02_target_reached_partial (fun h => by rw [hF.linear] at h; cases h) hs hkind hsp
    (fun h => by rw [hF.linear] at h; cases h) hF.cases_ (fun hk => by have := (hF.bisection hk).1; omega) h3 h4
  have hconst : p.2.const = goal := by
    rw [h9]
    apply List.ext_getElem?
    intro j
    have hl := hs.names_len
    by_cases hj : j < sol0.const.length
    · have hn : names[j]? = some (names[j]'(by omega)) := List.getElem?_eq_getElem _
      have hv : sol0.const[j]? = some sol0.const[j] := List.getElem?_eq_getElem hj
      rw [h8.2 j _ _ hn hv, hgoal.2 j _ _ hn hv]
    · rw [List.getElem?_eq_none (by rw [h8.1]; omega), List.getElem?_eq_none (by rw [hgoal.1]; omega)]
  refine ⟨pre, p, h1, h6, by rw [← h6]; exact h2, h7, hconst, ?_⟩
  have := h5 p (by rw [h6]; simp) h7
  rwa [hconst] at this

end

/-! ### several steps -/

/-- A list of steps that are fine enough, each from the constants at which the one before it ends. -/
inductive Plan (L : LogOps K) (names : List String) (R : List K → Prop) (δ : K) (M : Nat) :
    List K → List (Strat K α) → List K → Prop where
  | nil (c : List K) : Plan L names R δ M c [] c
  | cons {c goal final : List K} {s : Strat K α} {rest : List (Strat K α)} :
      s.kind = .manual ∨ s.kind = .bisection → (s.vars.map Prod.fst).Nodup → (∀ n ∈ s.vars.map Prod.fst, n ∈ names) →
      AtTarget names s.targets c goal → FineEnough s δ (dist1 c goal) →
      (∀ τ c', 0 ≤ τ → τ ≤ 1 → OnPath L .linear names s.targets c τ c' → R c') →
      s.numCases - 1 ≤ M → (s.kind = .bisection → dist1 c goal * s.numDivisions ≤ M * δ) →
      Plan L names R δ M goal rest final → Plan L names R δ M c (s :: rest) final

theorem manualInitVars_total {L : LogOps K} {sp : Spacing} {n : Nat} {names : List String} {c : List K}
    (hlen : names.length = c.length) :
    ∀ vars : List (String × ContVar K), (∀ n ∈ vars.map Prod.fst, n ∈ names) →
      ∃ vars', manualInitVars L sp n names c vars = .ok vars'
  | [], _ => ⟨[], rfl⟩
  | (nm, v) :: rest, h => by
    obtain ⟨r, hr⟩ := manualInitVars_total (L := L) (sp := sp) (n := n) hlen rest (fun n hn => h n (by
      simp only [List.map_cons, List.mem_cons]; exact Or.inr hn))
    obtain ⟨j, hj⟩ := Py.index_of_mem (h nm (by simp))
    have hj' : j < c.length := by
      rw [← hlen]
      exact (List.getElem?_eq_some_iff.1 (Py.index_ok hj)).1
    have hx : Py.get c j = .ok c[j] := Py.get_ok.2 (List.getElem?_eq_getElem hj')
    exact ⟨_, by simp only [manualInitVars, hj, hx, hr, bind, Except.bind]; rfl⟩

/-- C89 for a list of steps: `run_continuation_set` returns, with one list of solutions per step, and ends with a
converged solution for the constants that are asked for last. -/
theorem C89_plan {L : LogOps K} {names : List String} {solve : Nat → Traj K α → Py (Traj K α)} {R : List K → Prop}
    {Good : List K → α → Prop} {δ : K} {M : Nat} (hnames : names.Nodup) (hT : Tracks solve R Good δ) (hδ : 0 ≤ δ)
    (hδ' : δ < 9 * 10 ^ 99) {ss : List (Strat K α)} {guess : Traj K α} {final : List K}
    (hplan : Plan L names R δ M guess.const ss final) (hlen : names.length = guess.const.length)
    (hg : Good guess.const guess.data) (fuel : Nat) (hfuel : 2 * M + 1 ≤ fuel) :
    ∃ sols, runContinuationSet L solve names fuel (some ss) guess = .returned sols ∧ sols.length = ss.length ∧
      (∀ l ∈ sols, l.length ≤ 2 * M) ∧
      (ss ≠ [] → ∃ pre l sol, sols = pre ++ [l ++ [sol]] ∧ sol.converged = true ∧ sol.const = final ∧ Good final sol.data) := by
  have main : ∀ (ss : List (Strat K α)) (guess : Traj K α) (n : Nat) (acc : List (List (Traj K α))),
      Plan L names R δ M guess.const ss final → names.length = guess.const.length → Good guess.const guess.data →
      ∃ sols, runSteps L solve names fuel ss guess n acc = .returned (acc ++ sols) ∧ sols.length = ss.length ∧
        (∀ l ∈ sols, l.length ≤ 2 * M) ∧
        (ss ≠ [] → ∃ pre l sol, sols = pre ++ [l ++ [sol]] ∧ sol.converged = true ∧ sol.const = final ∧
          Good final sol.data) := by
    intro ss
    induction ss with
    | nil =>
      intro guess n acc _ _ _
      exact ⟨[], by simp [runSteps], rfl, by simp, by simp⟩
    | cons s rest ih =>
      intro guess n acc hplan hlen hg
      cases hplan with
      | @cons _ goal _ _ _ hk hkeys hmem hgoal hF hR hM hMD hrest =>
        obtain ⟨vars', hv⟩ := manualInitVars_total (L := L) (sp := s.spacing) (n := s.numCases) hlen s.vars hmem
        obtain ⟨s1, hinit⟩ : ∃ s1, s.reset.init L guess names = .ok s1 := by
          rcases hk with hk | hk <;>
            simp [Strat.init, Strat.reset, hk, Strat.manualInit, hv, bind, Except.bind]
        have hs : Starts L s.reset guess names s1 := ⟨hkeys, rfl, hnames, hlen, hinit⟩
        obtain ⟨pre, p, h1, h2, h3, h4, h5, h6⟩ := C89_target (goal := goal) hs hk hgoal ⟨hF.1, hF.2, hF.3, hF.4⟩ hT hδ hδ'
          hg hR hM hMD fuel n hfuel
        obtain ⟨sols, h7, h8, h9, h10⟩ := ih p.2 (stepLoop L solve fuel s1 n []).calls
          (acc ++ [(stepLoop L solve fuel s1 n []).trace.map Prod.snd])
          (by rw [h5]; exact hrest) (by rw [h5, hgoal.1]; exact hlen) (by rw [h5]; exact h6)
        refine ⟨(stepLoop L solve fuel s1 n []).trace.map Prod.snd :: sols, ?_, by simp [h8], ?_, ?_⟩
        · unfold runSteps
          rw [hinit]
          simp only [h1]
          rw [show (((stepLoop L solve fuel s1 n []).trace.map Prod.snd).getLast?).getD guess = p.2 by rw [h2]; simp, h7]
          simp
        · intro l hl
          rcases List.mem_cons.1 hl with rfl | hl
          · rw [List.length_map, h2]; exact h3
          · exact h9 l hl
        · intro _
          by_cases hr : rest = []
          · subst hr
            cases hrest
            have hs0 : sols = [] := List.length_eq_zero_iff.1 h8
            subst hs0
            exact ⟨[], pre.map Prod.snd, p.2, by rw [h2]; simp, h4, h5, h6⟩
          · obtain ⟨pre', l, sol, h11, h12⟩ := h10 hr
            exact ⟨(stepLoop L solve fuel s1 n []).trace.map Prod.snd :: pre', l, sol, by rw [h11]; rfl, h12⟩
  obtain ⟨sols, h1, h2⟩ := main ss guess 0 [] hplan hlen hg
  exact ⟨sols, by simpa [runContinuationSet] using h1, h2⟩

end

/-! ### an example -/

namespace Wit

/-- A solver that finds the solution if its guess is one for constants at a distance of at most `1/4`; a solution is the
list of its constants. -/
def quarter : Nat → Traj ℚ (List ℚ) → Py (Traj ℚ (List ℚ)) := fun _ g =>
  if dist1 g.data g.const ≤ 1 / 4 then .ok { g with converged := true, data := g.const }
  else .ok { g with converged := false }

theorem quarter_tracks : Tracks quarter (fun _ => True) (fun c d => d = c) (1 / 4) := by
  constructor
  · intro n g
    unfold quarter
    by_cases h : dist1 g.data g.const ≤ 1 / 4
    · exact ⟨{ g with converged := true, data := g.const }, by rw [if_pos h], rfl, fun _ => rfl⟩
    · exact ⟨{ g with converged := false }, by rw [if_neg h], rfl, fun h => by cases h⟩
  · intro n g c sol _ _ hg hd hsol
    unfold quarter at hsol
    subst hg
    rw [if_pos hd] at hsol
    cases hsol; rfl

/-- Bisection of `a` from `0` to `1` with two cases, one division in a row, two parts. -/
def bisQ : Strat ℚ (List ℚ) := (Strat.newBisection 2 1 2).const "a" 1
/-- A manual step of `b` from `5` to `6` with five cases. -/
def manQ : Strat ℚ (List ℚ) := (Strat.newManual 5).const "b" 6

theorem planQ : Plan idLog names (fun _ => True) (1 / 4) 8 [0, 5] [bisQ, manQ] [1, 6] := by
  refine .cons (goal := [1, 5]) (Or.inr rfl) (by decide) (by decide) ?_ ?_ (fun _ _ _ _ _ => trivial) (by decide) ?_ ?_
  · refine ⟨rfl, fun j n v hn hv => ?_⟩
    match j with
    | 0 => cases hn; cases hv; decide
    | 1 => cases hn; cases hv; decide
    | j + 2 => simp at hv
  · exact ⟨rfl, by decide, by decide, fun _ => ⟨by decide, by decide +kernel⟩⟩
  · intro _; decide +kernel
  refine .cons (goal := [1, 6]) (Or.inl rfl) (by decide) (by decide) ?_ ?_ (fun _ _ _ _ _ => trivial) (by decide) ?_ (.nil _)
  · refine ⟨rfl, fun j n v hn hv => ?_⟩
    match j with
    | 0 => cases hn; cases hv; decide
    | 1 => cases hn; cases hv; decide
    | j + 2 => simp at hv
  · exact ⟨rfl, by decide, fun _ => by decide +kernel, fun h => by cases h⟩
  · intro h; cases h

end Wit

example := C89_plan (by decide) Wit.quarter_tracks (by norm_num) (by norm_num) Wit.planQ (guess := ⟨[0, 5], true, [0, 5]⟩)
  rfl rfl 17 (by decide)

/-- What the bisection of the example does. -/
example : (match runContinuationSet Wit.idLog Wit.quarter Wit.names 17 (some [Wit.bisQ]) ⟨[0, 5], true, [0, 5]⟩ with
    | .returned sols => sols.map fun l => l.map fun t => (t.const, t.converged)
    | _ => []) = [[([0, 5], true), ([1, 5], false), ([1 / 2, 5], false), ([1 / 4, 5], true), ([1 / 2, 5], true),
      ([1, 5], false), ([3 / 4, 5], true), ([1, 5], true)]] := by decide +kernel

end Beluga.Cont
