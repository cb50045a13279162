import Std.Data.String.ToNat
import Verif.Reduction.Equivalence
import Verif.Symbolic.Props6
import Verif.Symbolic.Props7

/-! # Repeated reduction (C68): `MishchenkoFomenko(1)**n` -/

namespace Beluga.Sym

open Expr Set

/-! ### Specification -/

/-- A state `x` with rate `fx`, its costate `l` with rate `fl`, both at position `i`, and the name `c` of the constant of motion. -/
structure CyclicPair where
  x : Name
  l : Name
  c : Name
  i : Nat
  fx : Expr
  fl : Expr

/-- All symbols of the form. -/
def Prob.formSymbols (p : Prob) : List Name := (p.omega.getD []).flatMap fun r => r.flatMap fun e => e.free

/-- The constants of motion after the first one are constant costates of different states; `rest` are further ones.  The rate of
a state may depend on pairs that are reduced earlier, but not on later ones. -/
structure CyclicList (p : Prob) (L : List CyclicPair) (rest : List (Name × Expr)) : Prop where
  coms : ∃ H, p.coms = H :: (L.map (fun s => (s.c, sym s.l)) ++ rest)
  state : ∀ s ∈ L, p.states[s.i]? = some ⟨s.x, s.fx⟩
  costate : ∀ s ∈ L, p.costates[s.i]? = some ⟨s.l, s.fl⟩
  paired : p.costates.length = p.states.length
  names : (p.dyns.map Dyn.name ++ p.fixed).Nodup
  distinct : (L.map CyclicPair.i).Nodup
  constants : (L.map CyclicPair.c).Nodup
  fresh : ∀ s ∈ L, s.c ∉ p.symbols ∧ s.c ∉ p.formSymbols
  quadNames : ∀ n, p.quads.length ≤ n → "_q_" ++ toString n ∉ p.symbols ∧ "_q_" ++ toString n ∉ p.formSymbols ∧
    "_q_" ++ toString n ∉ L.map CyclicPair.c
  rate : ∀ s ∈ L, Unaffected s.x s.l s.fx
  later : L.Pairwise fun s s' => Unaffected s'.x s'.l s.fx
  quads : ∀ s ∈ L, ∀ d ∈ p.quads ++ p.coparameters, Unaffected s.x s.l d.eom
  conserved : ∀ s ∈ L, ∀ U ρ, eval (real U) ρ s.fl = 0
  columns : ∀ s ∈ L, UnitColumn (p.omega.getD []) p.states.length s.i

/-- What sympy does: it recognises only zeros as zero, integrates zero and integrands without the variable rightly, and solves
equations that amount to `x = q` (where `c` is not zero; sympy cancels it) for `x`. -/
structure RightTools (T : Tools) : Prop where
  zero : ∀ e, T.zero e = true → ∀ U ρ, eval (real U) ρ e = 0
  int0 : ∀ e y, (∀ U ρ, eval (real U) ρ e = 0) → ∀ U ρ, eval (real U) ρ (T.integrate e y) = 0
  int1 : ∀ e a y, y ∉ free a → (∀ U ρ, eval (real U) ρ e = eval (real U) ρ a) →
    ∀ U ρ, eval (real U) ρ (T.integrate e y) = eval (real U) ρ a * ρ y
  solve : ∀ e x q c, x ≠ q → (∀ U (ρ : Name → ℝ), ρ c ≠ 0 → eval (real U) ρ e = ρ x - ρ q) → T.solve [e] [x] = [[(x, sym q)]]

/-- The full curve: every reduced state is its quadrature, its costate the parameter; `m` is the number of the first quadrature. -/
noncomputable def liftAll : Nat → List CyclicPair → (ℝ → Name → ℝ) → ℝ → Name → ℝ
  | _, [], ρ => ρ
  | m, s :: L, ρ => liftCurve s.x s.l ("_q_" ++ toString m) s.c (liftAll (m + 1) L ρ)

/-- The reduced curve. -/
noncomputable def dropAll (a : ℝ) : Nat → List CyclicPair → (ℝ → Name → ℝ) → ℝ → Name → ℝ
  | _, [], ρ => ρ
  | m, s :: L, ρ => dropAll a (m + 1) L (dropCurve s.x s.l ("_q_" ++ toString m) s.c a ρ)

/-! ### Lemmas -/

/-- The substitutions of one reduction. -/
def CyclicPair.sub (s : CyclicPair) (m : Nat) : Expr → Expr := sub2 [(s.l, sym s.c)] [(s.x, sym ("_q_" ++ toString m))]

/-- A pair after the pair at position `j` has been removed. -/
def CyclicPair.shift (j : Nat) (f : Expr → Expr) (s : CyclicPair) : CyclicPair :=
  { s with i := if s.i < j then s.i else s.i - 1, fx := f s.fx, fl := f s.fl }

theorem liftAll_shift (j : Nat) (f : Expr → Expr) (ρ : ℝ → Name → ℝ) : ∀ (m : Nat) (L : List CyclicPair),
    liftAll m (L.map (CyclicPair.shift j f)) ρ = liftAll m L ρ
  | _, [] => rfl
  | m, s :: L => by
    rw [List.map_cons, liftAll, liftAll, liftAll_shift j f ρ (m + 1) L]
    rfl

theorem dropAll_shift (a : ℝ) (j : Nat) (f : Expr → Expr) : ∀ (m : Nat) (L : List CyclicPair) (ρ : ℝ → Name → ℝ),
    dropAll a m (L.map (CyclicPair.shift j f)) ρ = dropAll a m L ρ
  | _, [], _ => rfl
  | m, s :: L, ρ => by
    rw [List.map_cons, dropAll, dropAll, dropAll_shift a j f (m + 1) L]
    rfl

theorem kept_all (f : Expr → Expr) (pi qi : Nat) : ∀ (L : List Dyn) (off : Nat), (∀ r < L.length, off + r ≠ pi ∧ off + r ≠ qi) →
    kept f pi qi L off = L.map fun d => { d with eom := f d.eom }
  | [], _, _ => rfl
  | d :: L, off, h => by
    have ih := kept_all f pi qi L (off + 1) fun r hr => by
      have := h (r + 1) (by simp; omega)
      omega
    rw [kept] at ih ⊢
    rw [List.zipIdx_cons, List.filter_cons_of_pos (by simpa using h 0 (by simp)), List.map_cons, ih, List.map_cons]

theorem kept_eq (f : Expr → Expr) (pi qi : Nat) : ∀ (m : Nat) (L : List Dyn) (off : Nat), m < L.length → (off + m = pi ∨ off + m = qi) →
    (∀ r < L.length, r ≠ m → off + r ≠ pi ∧ off + r ≠ qi) → kept f pi qi L off = (L.eraseIdx m).map fun d => { d with eom := f d.eom }
  | _, [], _, hm, _, _ => by simp at hm
  | 0, d :: L, off, _, h, h' => by
    have ih := kept_all f pi qi L (off + 1) fun r hr => by
      have := h' (r + 1) (by simp; omega) (by omega)
      omega
    rw [kept] at ih ⊢
    rw [List.zipIdx_cons, List.filter_cons_of_neg (by simp; omega), ih, List.eraseIdx_cons_zero]
  | m + 1, d :: L, off, hm, h, h' => by
    have ih := kept_eq f pi qi m L (off + 1) (by simpa using hm) (by omega) fun r hr hne => by
      have := h' (r + 1) (by simp; omega) (by omega)
      omega
    rw [kept] at ih ⊢
    rw [List.zipIdx_cons, List.filter_cons_of_pos (by simpa using h' 0 (by simp) (by omega)), List.map_cons, ih, List.eraseIdx_cons_succ,
      List.map_cons]

theorem free_sub {s : CyclicPair} {m : Nat} (hlc : s.l ≠ s.c) (hxq : s.x ≠ "_q_" ++ toString m) {e : Expr} {v : Name}
    (h : v ∈ (s.sub m e).free) : v ∈ e.free ∨ v = s.c ∨ v = "_q_" ++ toString m := by
  rw [CyclicPair.sub, sub2, recursiveSub_single hlc, recursiveSub_single hxq, mem_free_subs, mem_free_subs] at h
  simp only [free, List.mem_singleton] at h
  tauto

theorem sub_sym {s : CyclicPair} {m : Nat} (hlc : s.l ≠ s.c) (hxq : s.x ≠ "_q_" ++ toString m) {v : Name} (h1 : v ≠ s.l) (h2 : v ≠ s.x) :
    s.sub m (sym v) = sym v := by
  rw [CyclicPair.sub, sub2, recursiveSub_single hlc, recursiveSub_single hxq]
  simp [Expr.subs, h1, h2]

theorem eval_pairSub {s : CyclicPair} {m : Nat} (hlc : s.l ≠ s.c) (hxq : s.x ≠ "_q_" ++ toString m) (hcx : s.c ≠ s.x) (hxl : s.x ≠ s.l)
    (U : Name → Nat → ℝ → ℝ) (ρ : Name → ℝ) (e : Expr) : eval (real U) ρ (s.sub m e) =
      eval (real U) (liftCurve s.x s.l ("_q_" ++ toString m) s.c (fun _ => ρ) 0) e :=
  eval_sub2 hlc hxq hcx hxl U (fun _ => ρ) 0 e

theorem Unaffected.sub {s : CyclicPair} {m : Nat} (hlc : s.l ≠ s.c) (hxq : s.x ≠ "_q_" ++ toString m) (hcx : s.c ≠ s.x) (hxl : s.x ≠ s.l)
    {x l : Name} (h1 : s.c ≠ x) (h2 : s.c ≠ l) (h3 : "_q_" ++ toString m ≠ x) (h4 : "_q_" ++ toString m ≠ l) {e : Expr}
    (h : Unaffected x l e) : Unaffected x l (s.sub m e) := by
  intro U ρ ρ' hρ
  rw [eval_pairSub hlc hxq hcx hxl, eval_pairSub hlc hxq hcx hxl]
  refine h U _ _ fun v hx hl => ?_
  simp only [liftCurve]
  by_cases g1 : v = s.x
  · rw [if_pos g1, if_pos g1]
    exact hρ _ h3 h4
  · rw [if_neg g1, if_neg g1]
    by_cases g2 : v = s.l
    · rw [if_pos g2, if_pos g2]
      exact hρ _ h1 h2
    · rw [if_neg g2, if_neg g2]
      exact hρ v hx hl

theorem RightTools.solvesFor {T : Tools} (hT : RightTools T) {p : Prob} {k i : Nat} {x l c : Name} {fx fl : Expr}
    (h : Cyclic p k x l c i fx fl) (hu : UnitColumn (p.omega.getD []) p.states.length i) (hq : x ≠ p.newQuad) : SolvesFor T p x l c := by
  refine ⟨hT.zero, hT.solve _ l c c (h.c_ne h.mem_l).symm fun U ρ _ => by rw [eval_sub]; rfl, hT.solve _ x _ c hq fun U ρ h0 => ?_⟩
  rw [eval_sub, C68_conjugate h hT.int0 hT.int1 hu U ρ h0]
  rfl

/-- The first pair can be reduced. -/
theorem CyclicList.head {p : Prob} {s : CyclicPair} {L : List CyclicPair} {rest : List (Name × Expr)} (h : CyclicList p (s :: L) rest) :
    Cyclic p 1 s.x s.l s.c s.i s.fx s.fl := by
  have hs := List.mem_cons_self (a := s) (l := L)
  obtain ⟨H, hH⟩ := h.coms
  exact ⟨by rw [hH]; rfl, h.state s hs, h.costate s hs, h.paired, h.names, (h.fresh s hs).1, h.rate s hs, h.quads s hs, h.conserved s hs⟩

theorem field_free {om : List (List Expr)} {names : List Name} {l v : Name} {e : Expr} (he : e ∈ field om names (sym l)) (hv : v ∈ e.free) :
    v ∈ om.flatMap fun r => r.flatMap fun e => e.free := by
  simp only [field, List.mem_map, List.mem_range] at he
  obtain ⟨i, -, rfl⟩ := he
  have key : ∀ (L : List (Name × Nat)) (acc : Expr), v ∈ (L.foldl (fun acc nj => acc + (om.getD i []).getD nj.2 0 * (sym l).diff nj.1) acc).free →
      v ∈ acc.free ∨ ∃ j, v ∈ ((om.getD i []).getD j 0).free := by
    intro L
    induction L with
    | nil => intro acc h; exact Or.inl h
    | cons a L ih =>
      intro acc h
      rw [List.foldl_cons] at h
      rcases ih _ h with h | h
      · change v ∈ acc.free ++ (((om.getD i []).getD a.2 0).free ++ ((sym l).diff a.1).free) at h
        rw [List.mem_append, List.mem_append] at h
        rcases h with h | h | h
        · exact Or.inl h
        · exact Or.inr ⟨_, h⟩
        · exfalso
          simp only [diff] at h
          split at h <;> simp [free] at h
      · exact Or.inr h
  rcases key _ _ hv with h | ⟨j, h⟩
  · exact absurd h (by change v ∉ free (num 0); simp [free])
  · rw [List.getD_eq_getElem?_getD, List.getD_eq_getElem?_getD] at h
    cases hr : om[i]? with
    | none =>
      rw [hr] at h
      exact absurd h (by change v ∉ free (num 0); simp [free])
    | some r =>
      rw [hr, Option.getD_some] at h
      cases he : r[j]? with
      | none =>
        rw [he] at h
        exact absurd h (by change v ∉ free (num 0); simp [free])
      | some e =>
        rw [he, Option.getD_some] at h
        exact List.mem_flatMap.2 ⟨r, List.mem_of_getElem? hr, List.mem_flatMap.2 ⟨e, List.mem_of_getElem? he, h⟩⟩

/-- The symbols of the rate of the new quadrature. -/
theorem rate_free {D : List Dyn} {F : List Expr} {v : Name} : ∀ (Z : List (Dyn × Expr)) (acc : Expr), (∀ z ∈ Z, z.1 ∈ D ∧ z.2 ∈ F) →
    v ∈ (Z.foldl (fun acc dh => acc + dh.1.eom * dh.2) acc).free → v ∈ acc.free ∨ (∃ d ∈ D, v ∈ d.eom.free) ∨ ∃ e ∈ F, v ∈ e.free
  | [], _, _, h => Or.inl h
  | z :: Z, acc, hZ, h => by
    rw [List.foldl_cons] at h
    rcases rate_free Z _ (fun z hz => hZ z (List.mem_cons_of_mem _ hz)) h with h | h
    · change v ∈ acc.free ++ (z.1.eom.free ++ z.2.free) at h
      have hz := hZ z List.mem_cons_self
      rw [List.mem_append, List.mem_append] at h
      rcases h with h | h | h
      · exact Or.inl h
      · exact Or.inr (Or.inl ⟨_, hz.1, h⟩)
      · exact Or.inr (Or.inr ⟨_, hz.2, h⟩)
    · exact Or.inr h

theorem symplectic_iff {T : Tools} {om : List (List Expr)} : symplectic T (some om) = true ↔ om.length % 2 = 0 ∧
    (∀ r ∈ om, r.length = om.length) ∧ ∀ i < om.length, ∀ j < om.length,
      (if i = j then T.zero ((om.getD i []).getD i 0) else T.zero ((om.getD i []).getD j 0 + (om.getD j []).getD i 0)) = true := by
  simp only [symplectic, Bool.and_eq_true, decide_eq_true_eq, List.all_eq_true, List.mem_range, and_assoc]

theorem deleteTwo_length {om : List (List Expr)} {i j : Nat} (hij : i < j) (hj : j < om.length) (hsq : ∀ r ∈ om, r.length = om.length) :
    (deleteTwo om j i).length = om.length - 2 ∧ ∀ r ∈ deleteTwo om j i, r.length = om.length - 2 := by
  have h1 : ((om.eraseIdx j).map fun r => r.eraseIdx j).length = om.length - 1 := by
    rw [List.length_map, List.length_eraseIdx_of_lt hj]
  have h2 : ∀ r ∈ (om.eraseIdx j).map (fun r => r.eraseIdx j), r.length = om.length - 1 := by
    intro r hr
    obtain ⟨r0, hr0, rfl⟩ := List.mem_map.1 hr
    rw [List.length_eraseIdx_of_lt (by rw [hsq r0 (List.mem_of_mem_eraseIdx hr0)]; exact hj), hsq r0 (List.mem_of_mem_eraseIdx hr0)]
  rw [deleteTwo, if_pos hij]
  constructor
  · rw [List.length_map, List.length_eraseIdx_of_lt (lt_of_lt_of_eq (by omega : i < om.length - 1) h1.symm), h1]
    omega
  · intro r hr
    obtain ⟨r0, hr0, rfl⟩ := List.mem_map.1 hr
    rw [List.length_eraseIdx_of_lt (by rw [h2 r0 (List.mem_of_mem_eraseIdx hr0)]; omega), h2 r0 (List.mem_of_mem_eraseIdx hr0)]
    omega

/-- A form with the column of a pair is large enough. -/
theorem UnitColumn.lt {T : Tools} {om : List (List Expr)} {n i : Nat} (h : UnitColumn om n i) (hi : i < n) (hs : symplectic T (some om) = true) :
    n + i < om.length := by
  have h1 := h i (by omega) (fun _ _ _ => 0) (fun _ => 0)
  rw [if_pos rfl, List.getD_eq_getElem?_getD, List.getD_eq_getElem?_getD] at h1
  by_contra hlt
  cases hr : om[i]? with
  | none =>
    rw [hr] at h1
    simp at h1
  | some r =>
    rw [hr, Option.getD_some, List.getElem?_eq_none (by rw [(symplectic_iff.1 hs).2.1 r (List.mem_of_getElem? hr)]; omega)] at h1
    simp at h1

/-- The reduced form is symplectic. -/
theorem symplectic_deleteTwo {T : Tools} {om : List (List Expr)} {i j : Nat} (hij : i < j) (hj : j < om.length)
    (hs : symplectic T (some om) = true) : symplectic T (some (deleteTwo om j i)) = true := by
  rw [symplectic_iff] at hs ⊢
  obtain ⟨h1, h2, h3⟩ := hs
  obtain ⟨h4, h5⟩ := deleteTwo_length hij hj h2
  refine ⟨by omega, fun r hr => by rw [h4, h5 r hr], fun a ha b hb => ?_⟩
  rw [h4] at ha hb
  have := h3 (skipTwo i j a) (by unfold skipTwo; split <;> try split
                                 all_goals omega) (skipTwo i j b) (by unfold skipTwo; split <;> try split
                                                                      all_goals omega)
  rw [getD_deleteTwo om hij, getD_deleteTwo om hij, getD_deleteTwo om hij]
  by_cases hab : a = b
  · subst hab
    rw [if_pos rfl] at this ⊢
    exact this
  · rw [if_neg hab]
    rw [if_neg (by unfold skipTwo; split <;> split <;> (try split) <;> (try split) <;> omega)] at this
    exact this

/-- The other columns are kept. -/
theorem UnitColumn.shift {om : List (List Expr)} {n i j : Nat} (h : UnitColumn om n j) (hi : i < n) (hj : j < n) (hij : i ≠ j) :
    UnitColumn (deleteTwo om (n + i) i) (n - 1) (if j < i then j else j - 1) := by
  intro r hr U ρ
  rw [getD_deleteTwo om (by omega)]
  have e : skipTwo i (n + i) (n - 1 + if j < i then j else j - 1) = n + j := by
    unfold skipTwo
    split <;> split <;> (try split) <;> omega
  rw [e, h _ (by unfold skipTwo; split <;> (try split) <;> omega)]
  have : skipTwo i (n + i) r = j ↔ r = if j < i then j else j - 1 := by
    unfold skipTwo
    split <;> split <;> (try split) <;> omega
  simp only [this]

theorem coms_erased (g : Expr → Expr) (H : Name × Expr) (a : Name × Expr) (l : List (Name × Expr)) :
    (((H :: a :: l).zipIdx.filter fun ci => ci.2 ≠ 1).map fun ci : (Name × Expr) × Nat => (ci.1.1, g ci.1.2)) =
      (H.1, g H.2) :: l.map fun c => (c.1, g c.2) := by
  have : (l.zipIdx 2).filter (fun ci => decide (ci.2 ≠ 1)) = l.zipIdx 2 := by
    rw [List.filter_eq_self]
    intro ci hci
    have := List.le_snd_of_mem_zipIdx hci
    simp; omega
  rw [List.zipIdx_cons, List.zipIdx_cons, List.filter_cons_of_pos (by simp), List.filter_cons_of_neg (by simp), this, List.map_cons]
  congr 1
  apply List.ext_getElem?
  intro r
  simp [List.getElem?_zipIdx, Function.comp_def]

/-- What the reduction leaves of the other pairs. -/
theorem CyclicList.tail {p : Prob} {s : CyclicPair} {L : List CyclicPair} {rest : List (Name × Expr)} (h : CyclicList p (s :: L) rest)
    {T : Tools} (hs : symplectic T p.omega = true) :
    CyclicList (reduced p 1 s.i s.x s.l s.c) (L.map (CyclicPair.shift s.i (s.sub p.quads.length)))
      (rest.map fun c => (c.1, s.sub p.quads.length c.2)) ∧ symplectic T (reduced p 1 s.i s.x s.l s.c).omega = true := by
  have hc := h.head
  have hmem : ∀ t ∈ L, t ∈ s :: L := fun t ht => List.mem_cons_of_mem _ ht
  have hsmem := List.mem_cons_self (a := s) (l := L)
  set q := "_q_" ++ toString p.quads.length with hq
  have hqN := h.quadNames p.quads.length le_rfl
  have hqd : ∀ d ∈ p.dyns, q ≠ d.name := by
    intro d hd e
    apply hqN.1
    rw [← hq, e]
    simp only [Prob.symbols, List.mem_append]
    exact Or.inl (Or.inl (Or.inl (List.mem_map_of_mem hd)))
  have hcq : ∀ t ∈ s :: L, t.c ≠ q := fun t ht e => hqN.2.2 (List.mem_map.2 ⟨t, ht, e⟩)
  have hlc : s.l ≠ s.c := (hc.c_ne hc.mem_l).symm
  have hxq : s.x ≠ q := (hqd _ hc.mem_x).symm
  have hcx : s.c ≠ s.x := hc.c_ne hc.mem_x
  have hxl := hc.x_ne_l
  have hi : s.i < p.states.length := hc.idx_lt
  obtain ⟨om, hom⟩ : ∃ om, p.omega = some om := by
    cases ho : p.omega with
    | none => rw [ho] at hs; simp [symplectic] at hs
    | some om => exact ⟨om, rfl⟩
  have homD : p.omega.getD [] = om := by rw [hom]; rfl
  rw [hom] at hs
  have hcol : UnitColumn om p.states.length s.i := homD ▸ h.columns s hsmem
  have hlt : p.states.length + s.i < om.length := hcol.lt hi hs
  have mem_st : ∀ {d : Dyn}, d ∈ p.states ++ p.costates → d ∈ p.dyns := by
    intro d hd
    simp only [Prob.dyns, List.mem_append] at hd ⊢
    tauto
  have hst : (reduced p 1 s.i s.x s.l s.c).states = (p.states.eraseIdx s.i).map fun d => { d with eom := s.sub p.quads.length d.eom } :=
    kept_eq _ _ _ s.i p.states 0 hi (by omega) (fun r hr _ => by omega)
  have hco : (reduced p 1 s.i s.x s.l s.c).costates = (p.costates.eraseIdx s.i).map fun d => { d with eom := s.sub p.quads.length d.eom } :=
    kept_eq _ _ _ s.i p.costates p.states.length (h.paired ▸ hi) (by omega) (fun r hr _ => by omega)
  -- later pairs are other pairs
  have hne : ∀ t ∈ L, t.i ≠ s.i := by
    intro t ht e
    have := h.distinct
    rw [List.map_cons, List.nodup_cons] at this
    exact this.1 (e ▸ List.mem_map_of_mem ht)
  have inj : ∀ {r r' : Nat} {n : Name}, ((p.states ++ p.costates).map Dyn.name)[r]? = some n →
      ((p.states ++ p.costates).map Dyn.name)[r']? = some n → r = r' := by
    intro r r' n h1 h2
    obtain ⟨h3, h4⟩ := List.getElem?_eq_some_iff.1 h1
    obtain ⟨h5, h6⟩ := List.getElem?_eq_some_iff.1 h2
    exact (List.Nodup.getElem_inj_iff hc.names_nodup).1 (h4.trans h6.symm)
  have hti : ∀ t ∈ s :: L, t.i < p.states.length := fun t ht => (List.getElem?_eq_some_iff.1 (h.state t ht)).1
  have nx : ∀ t ∈ s :: L, ((p.states ++ p.costates).map Dyn.name)[t.i]? = some t.x := by
    intro t ht
    rw [List.getElem?_map, List.getElem?_append_left (hti t ht), h.state t ht]
    rfl
  have nl : ∀ t ∈ s :: L, ((p.states ++ p.costates).map Dyn.name)[p.states.length + t.i]? = some t.l := by
    intro t ht
    rw [List.getElem?_map, List.getElem?_append_right (by omega), Nat.add_sub_cancel_left, h.costate t ht]
    rfl
  have mx : ∀ t ∈ s :: L, (⟨t.x, t.fx⟩ : Dyn) ∈ p.dyns := fun t ht => mem_st (List.mem_append_left _ (List.mem_of_getElem? (h.state t ht)))
  have ml : ∀ t ∈ s :: L, (⟨t.l, t.fl⟩ : Dyn) ∈ p.dyns := fun t ht => mem_st (List.mem_append_right _ (List.mem_of_getElem? (h.costate t ht)))
  have tls : ∀ t ∈ L, t.l ≠ s.l := by
    intro t ht e
    have h1 := nl t (hmem t ht)
    rw [e] at h1
    exact hne t ht (by have := inj h1 (nl s hsmem); omega)
  have tlx : ∀ t ∈ L, t.l ≠ s.x := by
    intro t ht e
    have h1 := nl t (hmem t ht)
    rw [e] at h1
    have := inj h1 (nx s hsmem)
    omega
  have un : ∀ t ∈ L, ∀ e, Unaffected t.x t.l e → Unaffected t.x t.l (s.sub p.quads.length e) := by
    intro t ht e he
    exact he.sub hlc hxq hcx hxl (hc.c_ne (mx t (hmem t ht))) (hc.c_ne (ml t (hmem t ht))) (hqd _ (mx t (hmem t ht))) (hqd _ (ml t (hmem t ht)))
  -- symbols of the reduced problem
  have hsym : ∀ v ∈ (reduced p 1 s.i s.x s.l s.c).symbols, v ∈ p.symbols ∨ v ∈ p.formSymbols ∨ v = q ∨ v = s.c := by
    intro v hv
    have hfree : ∀ e : Expr, v ∈ (s.sub p.quads.length e).free → (v ∈ e.free → v ∈ p.symbols) →
        v ∈ p.symbols ∨ v ∈ p.formSymbols ∨ v = q ∨ v = s.c := by
      intro e h1 h2
      rcases free_sub hlc hxq h1 with h3 | h3 | h3
      · exact Or.inl (h2 h3)
      · exact Or.inr (Or.inr (Or.inr h3))
      · exact Or.inr (Or.inr (Or.inl h3))
    have hdn : ∀ d ∈ p.dyns, d.name ∈ p.symbols ∧ ∀ w ∈ d.eom.free, w ∈ p.symbols := by
      intro d hd
      simp only [Prob.symbols, List.mem_append, List.mem_flatMap]
      exact ⟨Or.inl (Or.inl (Or.inl (List.mem_map_of_mem hd))), fun w hw => Or.inl (Or.inr ⟨d, hd, hw⟩)⟩
    have hdyn : ∀ d ∈ (reduced p 1 s.i s.x s.l s.c).dyns, (d.name ∈ p.symbols ∨ d.name = q) ∧
        (v ∈ d.eom.free → v ∈ p.symbols ∨ v ∈ p.formSymbols ∨ v = q ∨ v = s.c) := by
      intro d hd
      rcases (reduced_dyns d).1 hd with hd | hd | hd
      · obtain ⟨e, he, rfl, -, -⟩ := hc.of_kept hd
        exact ⟨Or.inl (hdn e (mem_st he)).1, fun hw => hfree _ hw ((hdn e (mem_st he)).2 v)⟩
      · have hd' : d ∈ p.dyns := by
          simp only [Prob.dyns, List.mem_append] at hd ⊢
          tauto
        exact ⟨Or.inl (hdn d hd').1, fun hw => Or.inl ((hdn d hd').2 v hw)⟩
      · rw [List.mem_singleton] at hd
        subst hd
        refine ⟨Or.inr rfl, fun hw => ?_⟩
        rcases rate_free (D := p.states ++ p.costates) (F := field (p.omega.getD []) ((p.states ++ p.costates).map Dyn.name) (sym s.l)) _ _
          (fun z hz => List.of_mem_zip hz) hw with h1 | ⟨d, hd, h1⟩ | ⟨e, he, h1⟩
        · exact absurd h1 (by change v ∉ free (num 0); simp [free])
        · exact Or.inl ((hdn d (mem_st hd)).2 v h1)
        · exact Or.inr (Or.inl (field_free he h1))
    simp only [Prob.symbols, List.mem_append, List.mem_flatMap] at hv
    rcases hv with ((hv | hv) | ⟨d, hd, hv⟩) | ⟨e, he, hv⟩
    · obtain ⟨d, hd, rfl⟩ := List.mem_map.1 hv
      rcases (hdyn d hd).1 with h1 | h1
      · exact Or.inl h1
      · exact Or.inr (Or.inr (Or.inl h1))
    · have : v ∈ p.fixed ∨ v = s.c := by
        simp only [Prob.fixed, reduced, List.mem_append, List.mem_singleton] at hv ⊢
        tauto
      rcases this with h1 | h1
      · refine Or.inl ?_
        simp only [Prob.symbols, List.mem_append]
        exact Or.inl (Or.inl (Or.inr h1))
      · exact Or.inr (Or.inr (Or.inr h1))
    · exact (hdyn d hd).2 hv
    · have : ∃ e0 ∈ p.initial ++ p.terminal, e = subCon (s.sub p.quads.length) e0 := by
        rcases he with he | he
        · obtain ⟨e0, h0, rfl⟩ := List.mem_map.1 he
          exact ⟨e0, List.mem_append_left _ h0, rfl⟩
        · obtain ⟨e0, h0, rfl⟩ := List.mem_map.1 he
          exact ⟨e0, List.mem_append_right _ h0, rfl⟩
      obtain ⟨e0, h0, rfl⟩ := this
      refine hfree e0.expr hv fun hw => ?_
      rw [Prob.symbols]
      exact List.mem_append_right _ (List.mem_flatMap.2 ⟨e0, h0, hw⟩)
  have hform : ∀ v ∈ (reduced p 1 s.i s.x s.l s.c).formSymbols, v ∈ p.formSymbols := by
    intro v hv
    have he : (reduced p 1 s.i s.x s.l s.c).omega.getD [] = deleteTwo om (p.states.length + s.i) s.i := by rw [reduced, homD]; rfl
    rw [Prob.formSymbols, he, deleteTwo, if_pos (by omega)] at hv
    rw [Prob.formSymbols, homD]
    obtain ⟨r, hr, hv1⟩ := List.mem_flatMap.1 hv
    obtain ⟨e, he, hv2⟩ := List.mem_flatMap.1 hv1
    obtain ⟨r1, hr1, rfl⟩ := List.mem_map.1 hr
    obtain ⟨r2, hr2, rfl⟩ := List.mem_map.1 (List.mem_of_mem_eraseIdx hr1)
    exact List.mem_flatMap.2 ⟨r2, List.mem_of_mem_eraseIdx hr2, List.mem_flatMap.2
      ⟨e, List.mem_of_mem_eraseIdx (List.mem_of_mem_eraseIdx he), hv2⟩⟩
  have hidx : ∀ (M : List Dyn) (t : CyclicPair) (d : Dyn), t ∈ L → M[t.i]? = some d →
      ((M.eraseIdx s.i).map fun d => ({ d with eom := s.sub p.quads.length d.eom } : Dyn))[(t.shift s.i (s.sub p.quads.length)).i]? =
        some { d with eom := s.sub p.quads.length d.eom } := by
    intro M t d ht hd
    have := hne t ht
    by_cases hlt : t.i < s.i
    · have e : (t.shift s.i (s.sub p.quads.length)).i = t.i := if_pos hlt
      rw [e, List.getElem?_map, List.getElem?_eraseIdx, if_pos hlt, hd]
      rfl
    · have e : (t.shift s.i (s.sub p.quads.length)).i = t.i - 1 := if_neg hlt
      rw [e, List.getElem?_map, List.getElem?_eraseIdx, if_neg (by omega), show t.i - 1 + 1 = t.i by omega, hd]
      rfl
  refine ⟨⟨?_, ?_, ?_, ?_, ?_, ?_, ?_, ?_, ?_, ?_, ?_, ?_, ?_, ?_⟩, ?_⟩
  · obtain ⟨H, hH⟩ := h.coms
    refine ⟨(H.1, s.sub p.quads.length H.2), ?_⟩
    change ((p.coms.zipIdx.filter fun ci => ci.2 ≠ 1).map fun ci => (ci.1.1, s.sub p.quads.length ci.1.2)) = _
    rw [hH, List.map_cons, List.cons_append, coms_erased, List.map_append, List.map_map, List.map_map]
    congr 2
    refine List.map_congr_left fun t ht => ?_
    simp only [Function.comp_apply]
    rw [sub_sym hlc hxq (tls t ht) (tlx t ht)]
    rfl
  · intro t' ht'
    obtain ⟨t, ht, rfl⟩ := List.mem_map.1 ht'
    rw [hst, hidx _ t _ ht (h.state t (hmem t ht))]
    rfl
  · intro t' ht'
    obtain ⟨t, ht, rfl⟩ := List.mem_map.1 ht'
    rw [hco, hidx _ t _ ht (h.costate t (hmem t ht))]
    rfl
  · rw [hst, hco, List.length_map, List.length_map, List.length_eraseIdx_of_lt hi, List.length_eraseIdx_of_lt (h.paired ▸ hi), h.paired]
  · have hsub : (((p.states.eraseIdx s.i ++ p.costates.eraseIdx s.i ++ p.quads ++ p.coparameters).map Dyn.name) ++ p.fixed).Nodup := by
      refine h.names.sublist (List.Sublist.append_right (List.Sublist.map _ ?_) _)
      rw [Prob.dyns]
      exact (((List.eraseIdx_sublist _ _).append (List.eraseIdx_sublist _ _)).append_right _).append_right _
    have hin : ∀ v ∈ ((p.states.eraseIdx s.i ++ p.costates.eraseIdx s.i ++ p.quads ++ p.coparameters).map Dyn.name) ++ p.fixed, v ∈ p.symbols := by
      intro v hv
      simp only [Prob.symbols, List.mem_append] at hv ⊢
      rcases hv with hv | hv
      · obtain ⟨d, hd, rfl⟩ := List.mem_map.1 hv
        refine Or.inl (Or.inl (Or.inl (List.mem_map_of_mem ?_)))
        simp only [Prob.dyns, List.mem_append] at hd ⊢
        rcases hd with ((hd | hd) | hd) | hd
        · exact Or.inl (Or.inl (Or.inl (List.mem_of_mem_eraseIdx hd)))
        · exact Or.inl (Or.inl (Or.inr (List.mem_of_mem_eraseIdx hd)))
        · exact Or.inl (Or.inr hd)
        · exact Or.inr hd
      · exact Or.inl (Or.inl (Or.inr hv))
    have hnd : (q :: s.c :: (((p.states.eraseIdx s.i ++ p.costates.eraseIdx s.i ++ p.quads ++ p.coparameters).map Dyn.name) ++ p.fixed)).Nodup := by
      rw [List.nodup_cons, List.nodup_cons, List.mem_cons]
      refine ⟨?_, fun hm => (h.fresh s hsmem).1 (hin _ hm), hsub⟩
      rintro (e | hm)
      · exact hcq s hsmem e.symm
      · exact hqN.1 (hin _ hm)
    refine (List.Perm.nodup_iff ?_).1 hnd
    rw [List.perm_iff_count]
    intro v
    rw [Prob.dyns, hst, hco]
    simp only [reduced, Prob.fixed, Prob.newQuad, ← hq, List.map_append, List.map_map, Function.comp_def, List.count_cons, List.count_append,
      List.map_cons, List.map_nil, List.count_nil, show (fun x : Dyn => x.name) = Dyn.name from rfl]
    omega
  · have := (List.nodup_cons.1 (by simpa using h.distinct : (s.i :: L.map CyclicPair.i).Nodup))
    rw [List.map_map]
    refine List.Nodup.map_on ?_ (List.Nodup.of_map CyclicPair.i this.2)
    intro t ht t' ht' e
    have h1 := hne t ht
    have h2 := hne t' ht'
    have e' : t.i = t'.i := by
      simp only [Function.comp_apply, CyclicPair.shift] at e
      split at e <;> split at e <;> omega
    exact List.inj_on_of_nodup_map this.2 ht ht' e'
  · have := (List.nodup_cons.1 (by simpa using h.constants : (s.c :: L.map CyclicPair.c).Nodup)).2
    rw [List.map_map]
    exact this
  · intro t' ht'
    obtain ⟨t, ht, rfl⟩ := List.mem_map.1 ht'
    have hf := h.fresh t (hmem t ht)
    refine ⟨fun hm => ?_, fun hm => hf.2 (hform _ hm)⟩
    rcases hsym _ hm with h1 | h1 | h1 | h1
    · exact hf.1 h1
    · exact hf.2 h1
    · exact hcq t (hmem t ht) h1
    · have := (List.nodup_cons.1 (by simpa using h.constants : (s.c :: L.map CyclicPair.c).Nodup)).1
      exact this (List.mem_map.2 ⟨t, ht, h1⟩)
  · intro n hn
    have hn' : p.quads.length + 1 ≤ n := by
      simpa [reduced] using hn
    have hf := h.quadNames n (by omega)
    refine ⟨fun hm => ?_, fun hm => hf.2.1 (hform _ hm), fun hm => hf.2.2 ?_⟩
    · rcases hsym _ hm with h1 | h1 | h1 | h1
      · exact hf.1 h1
      · exact hf.2.1 h1
      · have := congrArg String.toList h1
        rw [hq, String.toList_append, String.toList_append] at this
        have := Nat.repr_injective (String.toList_injective (List.append_cancel_left this))
        omega
      · exact hf.2.2 (List.mem_map.2 ⟨s, hsmem, h1.symm⟩)
    · rw [List.map_map] at hm
      exact List.mem_cons_of_mem _ hm
  · intro t' ht'
    obtain ⟨t, ht, rfl⟩ := List.mem_map.1 ht'
    exact un t ht _ (h.rate t (hmem t ht))
  · rw [List.pairwise_map]
    refine ((List.pairwise_cons.1 h.later).2).imp_of_mem fun {t t'} ht ht' hu => ?_
    exact un t' ht' _ hu
  · intro t' ht' d hd
    obtain ⟨t, ht, rfl⟩ := List.mem_map.1 ht'
    have hd' : d ∈ p.quads ++ p.coparameters ∨ d.eom = ((p.states ++ p.costates).zip (field (p.omega.getD [])
        ((p.states ++ p.costates).map Dyn.name) (sym s.l))).foldl (fun acc dh => acc + dh.1.eom * dh.2) 0 := by
      simp only [reduced, List.mem_append, List.mem_singleton] at hd ⊢
      rcases hd with (hd | hd) | hd
      · exact Or.inl (Or.inl hd)
      · rw [hd]
        exact Or.inr rfl
      · exact Or.inl (Or.inr hd)
    rcases hd' with hd' | hd'
    · exact h.quads t (hmem t ht) d hd'
    · intro U ρ ρ' hρ
      rw [hd', eval_rate hc (h.columns s hsmem), eval_rate hc (h.columns s hsmem)]
      exact (List.pairwise_cons.1 h.later).1 t ht U ρ ρ' hρ
  · intro t' ht' U ρ
    obtain ⟨t, ht, rfl⟩ := List.mem_map.1 ht'
    change eval (real U) ρ (s.sub p.quads.length t.fl) = 0
    rw [eval_pairSub hlc hxq hcx hxl]
    exact h.conserved t (hmem t ht) U _
  · intro t' ht'
    obtain ⟨t, ht, rfl⟩ := List.mem_map.1 ht'
    have hl : (reduced p 1 s.i s.x s.l s.c).states.length = p.states.length - 1 := by
      rw [hst, List.length_map, List.length_eraseIdx_of_lt hi]
    have he : (reduced p 1 s.i s.x s.l s.c).omega.getD [] = deleteTwo om (p.states.length + s.i) s.i := by rw [reduced, homD]; rfl
    rw [hl, he]
    have hu := h.columns t (hmem t ht)
    rw [homD] at hu
    exact hu.shift hi (hti t (hmem t ht)) (hne t ht).symm
  · have he : (reduced p 1 s.i s.x s.l s.c).omega = some (deleteTwo om (p.states.length + s.i) s.i) := by rw [reduced, homD]
    rw [he]
    exact symplectic_deleteTwo (by omega) hlt hs

/-! ### Property -/

/-- `n` reductions by costates that are constant succeed; every solution of the reduced problem gives a solution of the full one, and
the other way round; there are `n` states and `n` costates less, `n` quadratures and `n` parameters more, and the first constant of
motion and those after the first `n + 1` are left. -/
theorem C68_repeated_partial {T : Tools} (hT : RightTools T) (U : Name → Nat → ℝ → ℝ) {a b : ℝ} (hab : a ≤ b) :
    ∀ (L : List CyclicPair) (p : Prob) (rest : List (Name × Expr)), CyclicList p L rest → symplectic T p.omega = true → p.controlLaw = [] →
    ∃ p', mfPow T L.length p = .ok p' ∧
      (∀ ρ, Solution U p' a b ρ → Solution U p a b (liftAll p.quads.length L ρ)) ∧
      (∀ ρ, Solution U p a b ρ → Solution U p' a b (dropAll a p.quads.length L ρ)) ∧
      p'.states.length + L.length = p.states.length ∧ p'.costates.length + L.length = p.costates.length ∧
      p'.quads.length = p.quads.length + L.length ∧ p'.parameters = p.parameters ++ L.map CyclicPair.c ∧
      p'.coms.map Prod.fst = (p.coms.map Prod.fst).take 1 ++ rest.map Prod.fst
  | [], p, rest, h, _, _ => by
    obtain ⟨H, hH⟩ := h.coms
    exact ⟨p, rfl, fun ρ hρ => hρ, fun ρ hρ => hρ, rfl, rfl, rfl, by simp, by rw [hH]; rfl⟩
  | s :: L, p, rest, h, hs, hlaw => by
    have hc := h.head
    have hu := h.columns s List.mem_cons_self
    have hqN := h.quadNames p.quads.length le_rfl
    have hxq : s.x ≠ p.newQuad := by
      intro e
      apply hqN.1
      change p.newQuad ∈ p.symbols
      rw [← e]
      simp only [Prob.symbols, List.mem_append]
      exact Or.inl (Or.inl (Or.inl (List.mem_map_of_mem hc.mem_x)))
    have hsf := hT.solvesFor hc hu hxq
    obtain ⟨p1, hp1, e1, e2⟩ := C68_equivalent_partial hc hsf hs hu hlaw hqN.1
      (fun e => hqN.2.2 (List.mem_map.2 ⟨s, List.mem_cons_self, e⟩)) U hab
    obtain ⟨p1', hp1', z1, z2, z3, -, -, -⟩ := C68_size hc hsf hs hu hlaw
    have hr : p1 = reduced p 1 s.i s.x s.l s.c := by
      rw [mfReduce_eq hc hsf hs hu, if_pos hlaw] at hp1
      exact (Except.ok.inj hp1).symm
    rw [hp1] at hp1'
    cases hp1'
    obtain ⟨t1, t2⟩ := h.tail hs
    rw [← hr] at t1 t2
    have hlaw1 : p1.controlLaw = [] := by rw [hr]; exact hlaw
    obtain ⟨p', h1, h2, h3, h4, h5, h6, h7, h8⟩ := C68_repeated_partial hT U hab _ p1 _ t1 t2 hlaw1
    rw [List.length_map] at h1 h4 h5 h6
    refine ⟨p', ?_, fun ρ hρ => ?_, fun ρ hρ => ?_, ?_, ?_, ?_, ?_, ?_⟩
    · rw [List.length_cons, mfPow, hp1]
      exact h1
    · have := h2 ρ hρ
      rw [liftAll_shift, z3] at this
      exact e1 _ this
    · have := h3 _ (e2 ρ hρ)
      rw [dropAll_shift, z3] at this
      exact this
    · rw [List.length_cons]; omega
    · rw [List.length_cons]; omega
    · rw [List.length_cons]; omega
    · rw [h7, hr, List.map_map]
      simp [reduced, Function.comp_def, CyclicPair.shift]
    · obtain ⟨H, hH⟩ := h.coms
      obtain ⟨H', hH'⟩ := t1.coms
      have : p1.coms.map Prod.fst = H.1 :: (L.map CyclicPair.c ++ rest.map Prod.fst) := by
        have : p1.coms = ((p.coms.zipIdx.filter fun ci => ci.2 ≠ 1).map fun ci => (ci.1.1, s.sub p.quads.length ci.1.2)) := by rw [hr]; rfl
        rw [this, hH, List.map_cons, List.cons_append, coms_erased]
        simp [Function.comp_def]
      rw [h8, this, hH]
      simp [Function.comp_def]
termination_by L => L.length
decreasing_by simp

/-- Whatever is reduced, the first constant of motion stays, and the others go from the second on. -/
theorem C68_removed (T : Tools) : ∀ (n : Nat) (p p' : Prob), mfPow T n p = .ok p' →
    ∃ m ≤ n, p'.coms.map Prod.fst = (p.coms.map Prod.fst).take 1 ++ (p.coms.map Prod.fst).drop (m + 1)
  | 0, p, p', h => by
    cases h
    exact ⟨0, le_rfl, (List.take_append_drop 1 _).symm⟩
  | n + 1, p, p', h => by
    rw [mfPow] at h
    obtain ⟨p1, h1, h2⟩ := bind_ok h
    obtain ⟨m, hm, h3⟩ := C68_removed T n p1 p' h2
    have key : p1 = p ∨ p1.coms.map Prod.fst = (p.coms.map Prod.fst).take 1 ++ (p.coms.map Prod.fst).drop 2 := by
      rw [mfReduce] at h1
      by_cases hs : symplectic T p.omega = true
      · rw [if_neg (by simp [hs])] at h1
        cases hc : p.coms[1]? with
        | none => rw [hc] at h1; cases h1
        | some com =>
          rw [hc] at h1
          simp only at h1
          obtain ⟨H, a, l, hl⟩ : ∃ H a l, p.coms = H :: a :: l := by
            match hp : p.coms with
            | [] => rw [hp] at hc; simp at hc
            | [_] => rw [hp] at hc; simp at hc
            | H :: a :: l => exact ⟨H, a, l, rfl⟩
          right
          split at h1
          · cases h1
          · cases h1
          · split at h1
            · cases h1
            · split at h1
              · cases h1
              · split at h1
                · cases h1
                · split at h1
                  · cases h1
                  · split at h1
                    · cases h1
                    · cases h1
                      rw [hl]
                      simp only
                      rw [coms_erased]
                      simp [Function.comp_def]
      · rw [if_pos (by simpa using hs)] at h1
        exact Or.inl (Except.ok.inj h1).symm
    rcases key with rfl | key
    · exact ⟨m, by omega, h3⟩
    · refine ⟨m + 1, by omega, ?_⟩
      rw [h3, key]
      generalize p.coms.map Prod.fst = c
      match c with
      | [] => simp
      | [a] => simp
      | a :: b :: c => simp

/-- The constants of motion after the dualization: first the user's, then the Hamiltonian, then those of the symmetries. -/
theorem dualize_coms_eq {S : Sympy} {p p' : Prob} (h : dualize S .diffyg p = .ok p') :
    ∃ stars : List (Name × Expr), stars.length = p.symmetries.length ∧
      p'.coms = p.coms ++ ("hamiltonian", hamiltonianOf p.costPath p.states) :: stars := by
  have hlen : ∀ (l : List (List Expr)) (r : List Expr) (F : List Expr → Py Expr), l.mapM F = .ok r → r.length = l.length := by
    intro l
    induction l with
    | nil => intro r F hr; cases hr; rfl
    | cons a l ih =>
      intro r F hr
      rw [List.mapM_cons] at hr
      obtain ⟨g, -, hr⟩ := bind_ok hr
      obtain ⟨r0, h0, hr⟩ := bind_ok hr
      cases hr
      rw [List.length_cons, List.length_cons, ih r0 F h0]
  rw [dualize] at h
  split at h
  · cases h
  · simp only at h
    split at h
    · cases h
    · obtain ⟨chi, -, h⟩ := bind_ok h
      obtain ⟨stars, hst, h⟩ := bind_ok h
      cases h
      refine ⟨stars.zipIdx.map fun gi => ("com_" ++ toString gi.2, gi.1), ?_, List.append_assoc _ _ _⟩
      rw [List.length_map, List.length_zipIdx, hlen _ _ _ hst, List.length_map]

/-- Without constants of motion of the user, the Hamiltonian is the one that is kept. -/
theorem C68_hamiltonian_kept {S : Sympy} {T : Tools} {p p1 p' : Prob} {n : Nat} (h : dualize S .diffyg p = .ok p1) (hp : p.coms = [])
    (hr : mfPow T n p1 = .ok p') : (p'.coms.map Prod.fst).head? = some "hamiltonian" := by
  obtain ⟨stars, -, he⟩ := dualize_coms_eq h
  obtain ⟨m, -, hm⟩ := C68_removed T n p1 p' hr
  rw [hm, he, hp]
  rfl

/-- Violation: if the user gives constants of motion, their first one is the one that is kept, and when all reductions take place,
the Hamiltonian is among the removed ones. -/
theorem C68_violated_user {S : Sympy} {T : Tools} {p p1 p' : Prob} {u : Name × Expr} {us : List (Name × Expr)}
    (h : dualize S .diffyg p = .ok p1) (hp : p.coms = u :: us) {n : Nat} (hr : mfPow T n p1 = .ok p') :
    (p'.coms.map Prod.fst).head? = some u.1 ∧
    (n = p.symmetries.length + p.coms.length → p'.coms.length + n = p1.coms.length → p'.coms.map Prod.fst = [u.1]) := by
  obtain ⟨stars, hl, he⟩ := dualize_coms_eq h
  obtain ⟨m, hmn, hm⟩ := C68_removed T n p1 p' hr
  have h1 : (p1.coms.map Prod.fst).length = p.coms.length + 1 + p.symmetries.length := by
    rw [List.length_map, he, List.length_append, List.length_cons, hl]
    omega
  have h2 : (p1.coms.map Prod.fst).take 1 = [u.1] := by
    rw [he, hp]
    rfl
  constructor
  · rw [hm, h2]
    rfl
  · intro hn hlen
    have h3 := congrArg List.length hm
    rw [List.length_map, h2, List.length_append, List.length_drop, h1] at h3
    rw [List.length_map] at h1
    simp only [List.length_singleton] at h3
    have : m = n := by omega
    subst this
    rw [hm, h2, List.drop_eq_nil_of_le (by rw [List.length_map, h1, hn]; omega), List.append_nil]

/-! ### Concrete cases -/

open Classical in
/-- A sympy as it should be. -/
noncomputable def rightTools : Tools where
  solve := fun es syms => match es, syms with
    | [e], [x] => if h : ∃ q, x ≠ q ∧ ∃ c, ∀ U (ρ : Name → ℝ), ρ c ≠ 0 → eval (real U) ρ e = ρ x - ρ q then [[(x, sym h.choose)]] else []
    | _, _ => []
  lu := fun _ b => .ok b
  integrate := fun e y => if h : ∃ a, y ∉ free a ∧ ∀ U ρ, eval (real U) ρ e = eval (real U) ρ a then h.choose * sym y else e
  zero := fun e => numOf e = some 0

open Classical in
theorem rightTools_right : RightTools rightTools := by
  refine ⟨fun e he U ρ => ?_, fun e y h U ρ => ?_, fun e a y ha h U ρ => ?_, fun e x q c hxq h => ?_⟩
  · have := numOf_sound U ρ (of_decide_eq_true he)
    simpa using this
  · have hex : ∃ a, y ∉ free a ∧ ∀ U ρ, eval (real U) ρ e = eval (real U) ρ a := ⟨num 0, by simp [free], fun U ρ => by rw [h U ρ]; simp [eval]⟩
    change eval (real U) ρ (if h : _ then _ else _) = 0
    rw [dif_pos hex, eval_mul, ← hex.choose_spec.2 U ρ, h U ρ, zero_mul]
  · have hex : ∃ a, y ∉ free a ∧ ∀ U ρ, eval (real U) ρ e = eval (real U) ρ a := ⟨a, ha, h⟩
    change eval (real U) ρ (if h : _ then _ else _) = _
    rw [dif_pos hex, eval_mul, ← hex.choose_spec.2 U ρ, h U ρ]
    rfl
  · have hex : ∃ q, x ≠ q ∧ ∃ c, ∀ U (ρ : Name → ℝ), ρ c ≠ 0 → eval (real U) ρ e = ρ x - ρ q := ⟨q, hxq, c, h⟩
    change (if h : _ then _ else _) = _
    rw [dif_pos hex]
    obtain ⟨h1, c', h2⟩ := hex.choose_spec
    set q' := hex.choose
    have : q' = q := by
      by_contra hne
      have e1 := h (fun _ _ _ => 0) (fun s => if s = q then 2 else 1) (by split <;> norm_num)
      have e2 := h2 (fun _ _ _ => 0) (fun s => if s = q then 2 else 1) (by split <;> norm_num)
      rw [e1] at e2
      simp only [if_pos, if_neg hne] at e2
      norm_num at e2
    rw [this]

/-- Two cyclic states: `x' = v + _lam_y`, `y' = v**2`, `v' = -_lam_v`; the rate of `y` has to do without the costate of `x`, but not the other
way round: `y` is reduced first. -/
def cyclicEx2 : Prob where
  states := [⟨"x", sym "v" + sym "_lam_y"⟩, ⟨"y", sym "v" * sym "v"⟩, ⟨"v", -sym "_lam_v"⟩]
  costates := [⟨"_lam_x", num 0⟩, ⟨"_lam_y", num 0⟩, ⟨"_lam_v", -sym "_lam_x" - num 2 * sym "_lam_y" * sym "v"⟩]
  initial := [⟨sym "x", none, none, none, .utm⟩, ⟨sym "y", none, none, none, .utm⟩, ⟨sym "v", none, none, none, .utm⟩]
  terminal := [⟨sym "x" - num 1, none, none, none, .utm⟩, ⟨sym "y" - num 2, none, none, none, .utm⟩, ⟨sym "_lam_v", none, none, none, .utm⟩]
  coms := [("hamiltonian", sym "_lam_x" * sym "v"), ("com_0", sym "_lam_y"), ("com_1", sym "_lam_x")]
  omega := some (standardForm 3)
  sympified := true
  dualized := true

/-- The pairs of `cyclicEx2`. -/
def cyclicPairs : List CyclicPair :=
  [⟨"y", "_lam_y", "com_0", 1, sym "v" * sym "v", num 0⟩, ⟨"x", "_lam_x", "com_1", 0, sym "v" + sym "_lam_y", num 0⟩]

theorem quadName_not_mem {n : Nat} {L : List Name} (h : ∀ s ∈ L, s.toList.take 3 ≠ ['_', 'q', '_']) : "_q_" ++ toString n ∉ L := by
  intro hm
  apply h _ hm
  rw [String.toList_append]
  rfl

theorem cyclicEx2_ok : CyclicList cyclicEx2 cyclicPairs [] ∧ symplectic rightTools cyclicEx2.omega = true := by
  constructor
  · have hcol := fun i hi => (C68_forms 3 0 0 i [] (by omega) hi).1
    refine ⟨⟨_, rfl⟩, by decide, by decide, rfl, by decide, by decide, by decide, by decide +kernel, fun n _ => ?_, ?_, ?_, ?_, ?_, ?_⟩
    · exact ⟨quadName_not_mem (by decide), quadName_not_mem (by decide +kernel), quadName_not_mem (by decide)⟩
    · intro s hs
      simp only [cyclicPairs, List.mem_cons, List.not_mem_nil, or_false] at hs
      rcases hs with rfl | rfl <;> exact unaffected_of_free (by decide)
    · simp only [cyclicPairs, List.pairwise_cons, List.mem_cons, List.not_mem_nil, or_false, forall_eq, List.Pairwise.nil, and_true]
      exact ⟨unaffected_of_free (by decide), by simp⟩
    · simp [cyclicEx2]
    · intro s hs U ρ
      simp only [cyclicPairs, List.mem_cons, List.not_mem_nil, or_false] at hs
      rcases hs with rfl | rfl <;> simp [eval]
    · intro s hs
      simp only [cyclicPairs, List.mem_cons, List.not_mem_nil, or_false] at hs
      rcases hs with rfl | rfl
      · exact hcol 1 (by omega)
      · exact hcol 0 (by omega)
  · change symplectic cyclicTools cyclicEx2.omega = true
    decide +kernel

/-- Both states are reduced: `y` becomes `_q_0`, `x` becomes `_q_1`; one state is left. -/
example (U : Name → Nat → ℝ → ℝ) : ∃ p', mfPow rightTools 2 cyclicEx2 = .ok p' ∧
    (∀ ρ, Solution U p' 0 1 ρ → Solution U cyclicEx2 0 1 (liftAll 0 cyclicPairs ρ)) ∧
    (∀ ρ, Solution U cyclicEx2 0 1 ρ → Solution U p' 0 1 (dropAll 0 0 cyclicPairs ρ)) ∧
    p'.states.length + 2 = 3 ∧ p'.parameters = ["com_0", "com_1"] ∧ p'.coms.map Prod.fst = ["hamiltonian"] := by
  obtain ⟨p', h1, h2, h3, h4, -, -, h5, h6⟩ := C68_repeated_partial rightTools_right U zero_le_one cyclicPairs cyclicEx2 [] cyclicEx2_ok.1
    cyclicEx2_ok.2 rfl
  exact ⟨p', h1, h2, h3, h4, h5, h6⟩

example (ρ : ℝ → Name → ℝ) : liftAll 0 cyclicPairs ρ 1 "x" = ρ 1 "_q_1" ∧ liftAll 0 cyclicPairs ρ 1 "_lam_y" = ρ 1 "com_0" ∧
    dropAll 0 0 cyclicPairs ρ 1 "_q_0" = ρ 1 "y" ∧ dropAll 0 0 cyclicPairs ρ 1 "com_1" = ρ 0 "_lam_x" := by
  have e0 : "_q_" ++ toString 0 = "_q_0" := by decide
  have e1 : "_q_" ++ toString (0 + 1) = "_q_1" := by decide
  simp only [liftAll, dropAll, cyclicPairs, liftCurve, dropCurve, e0, e1]
  simp

/-- The constants of motion before and after the reduction of `x' = u` with the user's constant of motion `_lam_x`: sympy solves
`u**2 + _lam_x*u = hamiltonian` for `_lam_x`. -/
def userComs : Py (List Name × List Name) := do
  let p1 ← dualize exSympyI .diffyg { exN with coms := [("momentum", sym "_lam_x")] }
  let p2 ← mfPow (answers "_lam_x" "x" [("_lam_x", (sym "hamiltonian" - sym "u" * sym "u") / sym "u")] [("x", sym "_q_0")]) 1 p1
  .ok (p1.coms.map Prod.fst, p2.coms.map Prod.fst)

/-- Not `momentum` is reduced, but the Hamiltonian. -/
example : userComs = .ok (["momentum", "hamiltonian"], ["momentum"]) := by decide +kernel

end Beluga.Sym
