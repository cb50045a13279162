import Verif.Continuation.Product

/-! The schedule of the sparse product strategy in terms of index tuples. -/

set_option linter.unusedSectionVars false

namespace Beluga.Cont

variable {K : Type _} {α : Type _} [Field K] [LinearOrder K] [IsStrictOrderedRing K]

theorem sparseSegment_eq (n mi : Nat) (p : List K) (lo D : K) (a : Nat) :
    sparseSegment n mi p (lo + (a : K) * D) (lo + ((a + 1 : Nat) : K) * D) =
      (List.range' (a * (mi + 1) + 1) (mi + 1)).map fun t : Nat => p.set n (lo + (t : K) * (D / ((mi + 1 : Nat) : K))) := by
  have hs : ((mi + 1 : Nat) : K) ≠ 0 := by exact_mod_cast Nat.succ_ne_zero mi
  unfold sparseSegment
  rw [List.range'_1_concat, List.map_append]
  congr 1
  · rw [← List.map_add_range' (a := a * (mi + 1)) (s := 1) (n := mi) (step := 1)]
    unfold linspaceOpen
    rw [List.map_map, ← List.map_tail, List.tail_range, List.map_map]
    simp only [Nat.add_sub_cancel]
    apply List.map_congr_left
    intro i _
    simp only [Function.comp]
    congr 1
    push_cast
    push_cast at hs
    field_simp
    ring
  · simp only [List.map_cons, List.map_nil]
    congr 2
    push_cast
    push_cast at hs
    field_simp
    ring

theorem sparseLine_eq (n mi : Nat) (p : List K) (lo D : K) (a m : Nat) :
    sparseLine n mi p ((List.range' a (m + 1)).map fun i : Nat => lo + (i : K) * D) =
      (List.range' (a * (mi + 1) + 1) (m * (mi + 1))).map fun t : Nat =>
        p.set n (lo + (t : K) * (D / ((mi + 1 : Nat) : K))) := by
  induction m generalizing a with
  | zero => simp [sparseLine]
  | succ m ih =>
    rw [List.range'_succ, List.map_cons, List.range'_succ, List.map_cons, sparseLine]
    have := ih (a + 1)
    rw [List.range'_succ, List.map_cons] at this
    rw [this, sparseSegment_eq, ← List.map_append]
    congr 1
    have e : (m + 1) * (mi + 1) = (mi + 1) + m * (mi + 1) := by ring
    rw [e, show (a + 1) * (mi + 1) + 1 = (a * (mi + 1) + 1) + (mi + 1) by ring]
    exact List.range'_append_1

/-- A line of the sparse schedule: all fine points after the first. -/
theorem sparseLine_linspace (n mi M : Nat) (p : List K) (lo hi : K) :
    sparseLine n mi p (linspace lo hi M) =
      (List.range' 1 ((M - 1) * (mi + 1))).map fun t : Nat =>
        p.set n (lo + (t : K) * ((hi - lo) / (((M - 1) * (mi + 1) : Nat) : K))) := by
  cases M with
  | zero => simp [linspace_eq, sparseLine]
  | succ M =>
    rw [linspace_eq, List.range_eq_range', sparseLine_eq]
    simp only [Nat.add_sub_cancel, zero_mul, zero_add]
    apply List.map_congr_left
    intro t _
    congr 3
    push_cast
    rw [div_div]

theorem series_tail (lo hi : K) (M s : Nat) (hs : 0 < s) :
    (linspace lo hi M).tail = (List.range' 1 (M - 1)).map fun a : Nat =>
      lo + ((a * s : Nat) : K) * ((hi - lo) / (((M - 1) * s : Nat) : K)) := by
  rw [linspace_eq, ← List.map_tail, List.tail_range]
  apply List.map_congr_left
  intro a _
  have : (s : K) ≠ 0 := by exact_mod_cast hs.ne'
  congr 1
  push_cast
  rcases eq_or_ne ((M - 1 : Nat) : K) 0 with h | h
  · simp [h]
  · field_simp

/-! ### index tuples -/

/-- The point with index tuple `f` on the fine grid of `k` constants. -/
def finePt (lower upper : List K) (M s : Nat → Nat) (k : Nat) (f : Nat → Nat) : List K :=
  (List.range k).map fun q : Nat =>
    lower.getD q 0 + (f q : K) * ((upper.getD q 0 - lower.getD q 0) / (((M q - 1) * s q : Nat) : K))

theorem finePt_set (lower upper : List K) (M s : Nat → Nat) (k : Nat) (f : Nat → Nat) (n t : Nat) :
    (finePt lower upper M s k f).set n
      (lower.getD n 0 + (t : K) * ((upper.getD n 0 - lower.getD n 0) / (((M n - 1) * s n : Nat) : K))) =
    finePt lower upper M s k (Function.update f n t) := by
  apply List.ext_getElem?
  intro i
  unfold finePt
  rw [List.getElem?_set]
  by_cases hi : n = i
  · subst hi
    by_cases hk : n < k
    · simp [hk]
    · simp [hk]
  · rw [if_neg hi]
    simp only [List.getElem?_map]
    by_cases hk : i < k
    · simp [hk, Function.update_of_ne (Ne.symm hi)]
    · simp [hk]

/-- Index form of the loop over the dimensions. -/
def idxDims (M s : Nat → Nat) : List Nat → List (Nat → Nat) → List (Nat → Nat) →
    List (Nat → Nat) × List (Nat → Nat)
  | [], F, C => (F, C)
  | n :: ns, F, C =>
    idxDims M s ns
      (F ++ C.flatMap fun c => (List.range' 1 ((M n - 1) * s n)).map fun t => Function.update c n t)
      (C ++ C.flatMap fun c => (List.range' 1 (M n - 1)).map fun a => Function.update c n (a * s n))

theorem sparseDims_eq {lower upper : List K} {major minor : List Nat} {M s : Nat → Nat} {k : Nat}
    (hM : ∀ q < k, ∀ m, major[q]? = some m → M q = m)
    (hs : ∀ q, 0 < s q) (hsm : ∀ q < k, ∀ m, minor[q]? = some m → s q = m + 1)
    (ns : List Nat) (hns : ∀ n ∈ ns, n < k) (F C : List (Nat → Nat)) {res : List (List K) × List (List K)}
    (h : sparseDims lower upper major minor ns (F.map (finePt lower upper M s k)) (C.map (finePt lower upper M s k))
      = .ok res) :
    res = ((idxDims M s ns F C).1.map (finePt lower upper M s k), (idxDims M s ns F C).2.map (finePt lower upper M s k)) := by
  induction ns generalizing F C with
  | nil => simp only [sparseDims, Except.ok.injEq] at h; rw [← h]; rfl
  | cons n ns ih =>
    simp only [sparseDims, Py.bind_ok] at h
    obtain ⟨lo, hlo, hi, hhi, m, hm, mi, hmi, h⟩ := h
    have hnk : n < k := hns n (by simp)
    rw [Py.get_ok] at hlo hhi hm
    have e1 : lower.getD n 0 = lo := by simp [List.getD_eq_getElem?_getD, hlo]
    have e2 : upper.getD n 0 = hi := by simp [List.getD_eq_getElem?_getD, hhi]
    have e3 : M n = m := hM n hnk m hm
    have hline : ∀ c, sparseLine n mi (finePt lower upper M s k c) (linspace lo hi m) =
        (List.range' 1 ((M n - 1) * s n)).map fun t => finePt lower upper M s k (Function.update c n t) := by
      intro c
      by_cases hsm1 : (linspace lo hi m).length ≤ 1
      · rw [length_linspace] at hsm1
        have : M n - 1 = 0 := by omega
        rw [this, sparseLine_linspace]
        have : m - 1 = 0 := by omega
        simp [this]
      · rw [if_neg hsm1, Py.get_ok] at hmi
        have e4 := hsm n hnk mi hmi
        rw [sparseLine_linspace, e4, e3]
        apply List.map_congr_left
        intro t _
        rw [← finePt_set, e1, e2, e3, e4]
    have hmaj : ∀ c, ((linspace lo hi m).tail.map fun x => (finePt lower upper M s k c).set n x) =
        (List.range' 1 (M n - 1)).map fun a => finePt lower upper M s k (Function.update c n (a * s n)) := by
      intro c
      rw [series_tail lo hi m (s n) (hs n), List.map_map, e3]
      apply List.map_congr_left
      intro a _
      rw [← finePt_set, e1, e2, e3]
      rfl
    apply ih (fun n hn => hns n (by simp [hn]))
    rw [← h]
    congr 1
    · rw [List.map_append, List.map_flatMap, List.flatMap_map]
      congr 1
      congr 1
      funext c
      rw [hline, List.map_map]; rfl
    · rw [List.map_append, List.map_flatMap, List.flatMap_map]
      congr 1
      congr 1
      funext c
      rw [hmaj, List.map_map]; rfl

structure IdxInv (M s : Nat → Nat) (r : Nat) (F C : List (Nat → Nat)) : Prop where
  memF : ∀ f, f ∈ F ↔ SparseIdx M s r f
  memC : ∀ f, f ∈ C ↔ MajorIdx M s r f
  nodupF : F.Nodup
  nodupC : C.Nodup
  head : F.head? = some 0
  linked : Linked F

theorem nodup_flatMap_update (C : List (Nat → Nat)) (r : Nat) (ts : List Nat) (hC : C.Nodup) (hts : ts.Nodup)
    (h0 : ∀ c ∈ C, c r = 0) : (C.flatMap fun c => ts.map fun t => Function.update c r t).Nodup := by
  rw [List.nodup_flatMap]
  constructor
  · intro c _
    apply hts.map
    intro a b hab
    have := congrFun hab r
    simpa using this
  · apply hC.imp_of_mem
    intro a b ha hb hab
    simp only [Function.onFun]
    intro f hfa hfb
    simp only [List.mem_map] at hfa hfb
    obtain ⟨t, -, rfl⟩ := hfa
    obtain ⟨t', -, ht'⟩ := hfb
    apply hab
    funext q
    by_cases hq : q = r
    · subst hq; rw [h0 a ha, h0 b hb]
    · have := congrFun ht' q
      simp only [Function.update_of_ne hq] at this
      exact this.symm

theorem Linked.append_lines {F C : List (Nat → Nat)} {r N : Nat} (h : Linked F) (hCF : ∀ c ∈ C, c ∈ F)
    (h0 : ∀ c ∈ C, c r = 0) :
    Linked (F ++ C.flatMap fun c => (List.range' 1 N).map fun t => Function.update c r t) := by
  intro i f hf hi
  by_cases hlt : i < F.length
  · rw [List.getElem?_append_left hlt] at hf
    obtain ⟨j, r', hj, hne', hg⟩ := h i f hf hi
    exact ⟨j, r', hj, hne', by rw [List.getElem?_append_left (by omega)]; exact hg⟩
  · rw [List.getElem?_append_right (by omega)] at hf
    have hN : 0 < N := by
      rcases Nat.eq_zero_or_pos N with h0 | h0
      · subst h0; simp at hf
      · exact h0
    have hlen : ∀ x ∈ C, ((List.range' 1 N).map fun t => Function.update x r t).length = N := by simp
    rw [flatMap_getElem? _ _ N hN hlen] at hf
    set i' := i - F.length with hi'
    obtain ⟨c, hc, hf⟩ := Option.bind_eq_some_iff.1 hf
    have hm : i' % N < N := Nat.mod_lt _ hN
    rw [List.getElem?_map, List.getElem?_range' hm] at hf
    simp only [Option.map_some, Option.some.injEq] at hf
    subst hf
    have hcC : c ∈ C := List.mem_of_getElem? hc
    rcases Nat.eq_zero_or_pos (i' % N) with hz | hpos
    · obtain ⟨j, hj⟩ := List.getElem?_of_mem (hCF c hcC)
      have hjl : j < F.length := by
        by_contra hge
        rw [List.getElem?_eq_none (by omega)] at hj; cases hj
      refine ⟨j, r, by omega, by simp, ?_⟩
      rw [List.getElem?_append_left hjl, hj, hz]
      congr 1
      funext q
      by_cases hq : q = r
      · subst hq; simp [h0 c hcC]
      · simp [Function.update_of_ne hq]
    · refine ⟨i - 1, r, by omega, by simp, ?_⟩
      have hi1 : i - 1 - F.length = i' - 1 := by omega
      have hdiv : (i' - 1) / N = i' / N := by
        have h1 := Nat.div_add_mod i' N
        have h2 : i' - 1 = (i' % N - 1) + N * (i' / N) := by omega
        rw [h2, Nat.add_mul_div_left _ _ hN, Nat.div_eq_of_lt (by omega), zero_add]
      have hmod : (i' - 1) % N = i' % N - 1 := by
        have h1 := Nat.div_add_mod i' N
        have h2 : i' - 1 = (i' % N - 1) + N * (i' / N) := by omega
        rw [h2, Nat.add_mul_mod_self_left, Nat.mod_eq_of_lt (by omega)]
      have hle := Nat.mod_le i' N
      rw [List.getElem?_append_right (by omega), hi1, flatMap_getElem? _ _ N hN hlen, hdiv, hc, hmod]
      simp only [Option.bind_some, List.getElem?_map]
      rw [List.getElem?_range' (by omega)]
      simp only [Option.map_some, Option.some.injEq, Function.update_self, Function.update_idem]
      congr 1
      omega

theorem IdxInv.step {M s : Nat → Nat} {r : Nat} {F C : List (Nat → Nat)} (hs : 0 < s r)
    (h : IdxInv M s r F C) :
    IdxInv M s (r + 1)
      (F ++ C.flatMap fun c => (List.range' 1 ((M r - 1) * s r)).map fun t => Function.update c r t)
      (C ++ C.flatMap fun c => (List.range' 1 (M r - 1)).map fun a => Function.update c r (a * s r)) := by
  have hC0 : ∀ c ∈ C, c r = 0 := fun c hc => ((h.memC c).1 hc).1 r le_rfl
  have hF0 : ∀ f ∈ F, f r = 0 := fun f hf => ((h.memF f).1 hf).1 r le_rfl
  have hCmap : ∀ c : Nat → Nat, ((List.range' 1 (M r - 1)).map fun a => Function.update c r (a * s r)) =
      ((List.range' 1 (M r - 1)).map fun a => a * s r).map fun t => Function.update c r t := by
    intro c; rw [List.map_map]; rfl
  constructor
  · intro f
    rw [List.mem_append, h.memF, List.mem_flatMap]
    constructor
    · rintro (hf | ⟨c, hc, hf⟩)
      · refine ⟨fun q hq => hf.1 q (by omega), fun q hq => ?_⟩
        rcases Nat.lt_succ_iff_lt_or_eq.1 hq with hlt | rfl
        · exact hf.2 q hlt
        · have := hf.1 q le_rfl
          simp [this]
      · rw [h.memC] at hc
        obtain ⟨t, ht, rfl⟩ := List.mem_map.1 hf
        rw [List.mem_range'_1] at ht
        refine ⟨fun q hq => ?_, fun q hq => ?_⟩
        · rw [Function.update_of_ne (by omega)]; exact hc.1 q (by omega)
        · rcases Nat.lt_succ_iff_lt_or_eq.1 hq with hlt | rfl
          · rw [Function.update_of_ne (by omega)]
            exact ⟨(hc.2 q hlt).1, Or.inl (hc.2 q hlt).2⟩
          · refine ⟨by simp; omega, Or.inr fun q' hq' => ?_⟩
            rw [Function.update_of_ne (by omega)]; exact hc.1 q' (by omega)
    · intro hf
      by_cases h0 : f r = 0
      · left
        refine ⟨fun q hq => ?_, fun q hq => hf.2 q (by omega)⟩
        rcases Nat.eq_or_lt_of_le hq with rfl | hlt
        · exact h0
        · exact hf.1 q hlt
      · right
        refine ⟨Function.update f r 0, ?_, ?_⟩
        · rw [h.memC]
          refine ⟨fun q hq => ?_, fun q hq => ?_⟩
          · rcases Nat.eq_or_lt_of_le hq with rfl | hlt
            · simp
            · rw [Function.update_of_ne (by omega)]; exact hf.1 q hlt
          · rw [Function.update_of_ne (by omega)]
            obtain ⟨h1, h2⟩ := hf.2 q (by omega)
            refine ⟨h1, h2.resolve_right fun h3 => h0 (h3 r hq)⟩
        · rw [List.mem_map]
          refine ⟨f r, ?_, by simp⟩
          rw [List.mem_range'_1]
          have := (hf.2 r (by omega)).1
          omega
  · intro f
    rw [List.mem_append, h.memC, List.mem_flatMap]
    constructor
    · rintro (hf | ⟨c, hc, hf⟩)
      · refine ⟨fun q hq => hf.1 q (by omega), fun q hq => ?_⟩
        rcases Nat.lt_succ_iff_lt_or_eq.1 hq with hlt | rfl
        · exact hf.2 q hlt
        · have := hf.1 q le_rfl
          simp [this]
      · rw [h.memC] at hc
        obtain ⟨t, ht, rfl⟩ := List.mem_map.1 hf
        rw [List.mem_range'_1] at ht
        refine ⟨fun q hq => ?_, fun q hq => ?_⟩
        · rw [Function.update_of_ne (by omega)]; exact hc.1 q (by omega)
        · rcases Nat.lt_succ_iff_lt_or_eq.1 hq with hlt | rfl
          · rw [Function.update_of_ne (by omega)]
            exact hc.2 q hlt
          · simp only [Function.update_self]
            exact ⟨Nat.mul_le_mul_right _ (by omega), Dvd.intro_left t rfl⟩
    · intro hf
      by_cases h0 : f r = 0
      · left
        refine ⟨fun q hq => ?_, fun q hq => hf.2 q (by omega)⟩
        rcases Nat.eq_or_lt_of_le hq with rfl | hlt
        · exact h0
        · exact hf.1 q hlt
      · right
        refine ⟨Function.update f r 0, ?_, ?_⟩
        · rw [h.memC]
          refine ⟨fun q hq => ?_, fun q hq => ?_⟩
          · rcases Nat.eq_or_lt_of_le hq with rfl | hlt
            · simp
            · rw [Function.update_of_ne (by omega)]; exact hf.1 q hlt
          · rw [Function.update_of_ne (by omega)]
            exact hf.2 q (by omega)
        · rw [List.mem_map]
          obtain ⟨h1, a, ha⟩ := hf.2 r (by omega)
          refine ⟨a, ?_, ?_⟩
          · rw [List.mem_range'_1]
            rw [ha] at h1 h0
            have h2 : a ≤ M r - 1 := by
              rw [mul_comm] at h1
              exact Nat.le_of_mul_le_mul_right h1 hs
            have h3 : a ≠ 0 := by rintro rfl; simp at h0
            omega
          · rw [mul_comm, ← ha]; simp
  · rw [List.nodup_append]
    refine ⟨h.nodupF, nodup_flatMap_update C r _ h.nodupC List.nodup_range' hC0, ?_⟩
    intro a ha b hb hab
    subst hab
    obtain ⟨c, -, hc⟩ := List.mem_flatMap.1 hb
    obtain ⟨t, ht, rfl⟩ := List.mem_map.1 hc
    have := hF0 _ ha
    rw [List.mem_range'_1] at ht
    simp at this
    omega
  · rw [List.nodup_append]
    refine ⟨h.nodupC, ?_, ?_⟩
    · simp only [hCmap]
      apply nodup_flatMap_update C r _ h.nodupC _ hC0
      refine List.Nodup.map (fun a b hab => ?_) List.nodup_range'
      exact Nat.eq_of_mul_eq_mul_right hs hab
    · intro a ha b hb hab
      subst hab
      obtain ⟨c, -, hc⟩ := List.mem_flatMap.1 hb
      obtain ⟨t, ht, rfl⟩ := List.mem_map.1 hc
      have := hC0 _ ha
      rw [List.mem_range'_1] at ht
      simp at this
      omega
  · have := h.head
    cases F with
    | nil => cases this
    | cons a l => simpa using this
  · refine h.linked.append_lines ?_ hC0
    · intro c hc
      rw [h.memF]
      rw [h.memC] at hc
      exact ⟨hc.1, fun q hq => ⟨(hc.2 q hq).1, Or.inl (hc.2 q hq).2⟩⟩

theorem idxDims_inv {M s : Nat → Nat} (hs : ∀ q, 0 < s q) (n r : Nat) {F C : List (Nat → Nat)}
    (h : IdxInv M s r F C) :
    IdxInv M s (r + n) (idxDims M s (List.range' r n) F C).1 (idxDims M s (List.range' r n) F C).2 := by
  induction n generalizing r F C with
  | zero => simpa [idxDims] using h
  | succ n ih =>
    rw [List.range'_succ, idxDims]
    have := ih (r + 1) (h.step (hs r))
    rw [show r + (n + 1) = r + 1 + n by omega]
    exact this

theorem idxInv_init (M s : Nat → Nat) : IdxInv M s 0 [0] [0] where
  memF := fun f => by
    constructor
    · intro h; simp at h; subst h; exact ⟨fun _ _ => rfl, fun q hq => absurd hq (by omega)⟩
    · intro h; simp; funext q; exact h.1 q (by omega)
  memC := fun f => by
    constructor
    · intro h; simp at h; subst h; exact ⟨fun _ _ => rfl, fun q hq => absurd hq (by omega)⟩
    · intro h; simp; funext q; exact h.1 q (by omega)
  nodupF := by simp
  nodupC := by simp
  head := rfl
  linked := by
    intro i f hf hi
    rw [List.getElem?_eq_none (by simp; omega)] at hf
    cases hf

/-- What `SparseProductStrategy.init` produces. -/
theorem sparseInit_ok {s0 s1 : Strat K α} {sol : Traj K α} {names : List String}
    (h : s0.sparseInit sol names = .ok s1) :
    ∃ F : List (Nat → Nat), F.Nodup ∧ F.head? = some 0 ∧ Linked F ∧ F.length = s1.numCases ∧
      (∀ f, f ∈ F ↔ SparseIdx (fun q => s0.major.getD q 1) (fun q => s0.minor.getD q 0 + 1) s0.vars.length f) ∧
      s1.vars.length = s0.vars.length ∧
      ∀ (q : Nat) (nv : String × ContVar K), s0.vars[q]? = some nv →
        ∃ (j : Nat) (v : K) (nv' : String × ContVar K), names[j]? = some nv.1 ∧ sol.const[j]? = some v ∧
          s1.vars[q]? = some nv' ∧ nv'.1 = nv.1 ∧ nv'.2.target = nv.2.target ∧
          nv'.2.steps = nv.2.steps ++ F.map fun f => v + (f q : K) *
            ((nv.2.target - v) / (((s0.major.getD q 1 - 1) * (s0.minor.getD q 0 + 1) : Nat) : K)) := by
  unfold Strat.sparseInit at h
  simp only [Py.bind_ok] at h
  obtain ⟨vars1, hv1, ⟨steps, cloud⟩, hd, h⟩ := h
  dsimp only at h
  split at h
  · cases h
  · simp only [Py.bind_ok] at h
    obtain ⟨vars2, hv2, hfin⟩ := h
    cases hfin
    have hv1 : valueVars names sol.const s0.vars = .ok vars1 := hv1
    have hF := valueVars_ok hv1
    have hlen1 := hF.length_eq
    obtain ⟨hlen2, hget⟩ := appendAll_get hv2
    set M : Nat → Nat := fun q => s0.major.getD q 1 with hM
    set sz : Nat → Nat := fun q => s0.minor.getD q 0 + 1 with hsz
    set lower := vars1.map fun nv => nv.2.val with hlower
    set upper := vars1.map fun nv => nv.2.target with hupper
    have hl0 : lower = finePt lower upper M sz vars1.length 0 := by
      apply List.ext_getElem?
      intro i
      unfold finePt
      by_cases hi : i < vars1.length
      · have : i < lower.length := by rw [hlower, List.length_map]; exact hi
        simp [hi, List.getD_eq_getElem?_getD, this]
      · rw [List.getElem?_eq_none (by rw [hlower, List.length_map]; omega), List.getElem?_eq_none (by simp; omega)]
    have hd' : sparseDims lower upper s0.major s0.minor (List.range vars1.length)
        ([0].map (finePt lower upper M sz vars1.length)) ([0].map (finePt lower upper M sz vars1.length))
        = .ok (steps, cloud) := by
      simp only [List.map_cons, List.map_nil, ← hl0]
      exact hd
    have hres := sparseDims_eq (lower := lower) (upper := upper) (major := s0.major) (minor := s0.minor) (M := M)
      (s := sz) (k := vars1.length)
      (fun q _ m hm => by simp [hM, List.getD_eq_getElem?_getD, hm]) (fun q => Nat.succ_pos _)
      (fun q _ m hm => by simp [hsz, List.getD_eq_getElem?_getD, hm])
      (List.range vars1.length) (fun n hn => List.mem_range.1 hn) [0] [0] hd'
    have hinv := idxDims_inv (M := M) (s := sz) (fun q => Nat.succ_pos _) vars1.length 0 (idxInv_init M sz)
    rw [← List.range_eq_range', zero_add] at hinv
    set Fi := (idxDims M sz (List.range vars1.length) [0] [0]).1 with hFi
    have hsteps : steps = Fi.map (finePt lower upper M sz vars1.length) := congrArg Prod.fst hres
    refine ⟨Fi, hinv.nodupF, hinv.head, hinv.linked, by simp [hsteps], ?_, by rw [hlen2, ← hlen1], ?_⟩
    · intro f
      rw [hinv.memF, hlen1]
    · intro q nv hq
      obtain ⟨nv1, hq1, hn1, ht1, hs1, j, v, hj, hv, hval⟩ := forall₂_get hF hq
      refine ⟨j, v, _, hj, hv, hget q nv1 hq1, hn1, ht1, ?_⟩
      simp only [hs1, hsteps, List.map_map]
      congr 1
      apply List.map_congr_left
      intro f _
      have hql : q < vars1.length := by
        by_contra hge
        rw [List.getElem?_eq_none (by omega)] at hq1; cases hq1
      have e1 : lower.getD q 0 = v := by
        simp [hlower, List.getD_eq_getElem?_getD, hq1, ContVar.val, hval]
      have e2 : upper.getD q 0 = nv.2.target := by
        simp [hupper, List.getD_eq_getElem?_getD, hq1, ht1]
      simp only [Function.comp, finePt, List.getD_eq_getElem?_getD, List.getElem?_map,
        List.getElem?_range hql, Option.map_some, Option.getD_some]
      rw [← List.getD_eq_getElem?_getD, ← List.getD_eq_getElem?_getD, e1, e2]
      simp only [hM, hsz, List.getD_eq_getElem?_getD]

end Beluga.Cont
