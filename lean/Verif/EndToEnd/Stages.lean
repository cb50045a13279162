import Verif.EndToEnd.Model
import Verif.EndToEnd.NumSol

/-! # What each mapper does to a table of values -/

namespace Beluga.E2E

open Beluga.Sym Beluga.Sym.Expr Beluga.Num Beluga.Map Beluga.Opt Beluga.Rep

/-- The table of the values of the symbols `ns` along `ρ` at the points `τs`. -/
def tab (ns : List Name) (ρ : ℝ → Env) (τs : List ℝ) : Arr ℝ := .rows ns.length (τs.map fun τ => ns.map (ρ τ))

theorem tab_congr {ns : List Name} {ρ ρ' : ℝ → Env} {τs : List ℝ} (h : ∀ τ ∈ τs, ∀ n ∈ ns, ρ τ n = ρ' τ n) :
    tab ns ρ τs = tab ns ρ' τs := by
  rw [tab, tab]
  congr 1
  exact List.map_congr_left fun τ hτ => List.map_congr_left fun n hn => h τ hτ n hn

theorem squash_inv {O : TrigOps ℝ} {ns ms : List Name} {ρ : ℝ → Env} {τs : List ℝ} {c d : Nat} {s s' : Sol ℝ}
    (hy : s.y = tab (ns ++ ms) ρ τs) (h : Mapper.inv O (.squash ns.length (ns.length + ms.length) c d) s = .ok s') :
    s' = { s with dual := tab ms ρ τs, y := tab ns ρ τs, nondyn := s.nondyn.take c ++ s.nondyn.drop d } := by
  rw [Mapper.inv] at h
  simp only [hy, tab, Arr.slice, Arr.deleteSlice, ok_bind', List.map_map] at h
  cases h
  simp only [tab, List.length_append, min_self, Nat.min_eq_left (Nat.le_add_right _ _), Nat.add_sub_cancel_left]
  have e1 : ∀ τ : ℝ, (((ns ++ ms).map (ρ τ)).take (ns.length + ms.length)).drop ns.length = ms.map (ρ τ) := by
    intro τ
    rw [List.take_of_length_le (by simp), List.map_append]
    exact List.drop_left' (by simp)
  have e2 : ∀ τ : ℝ, ((ns ++ ms).map (ρ τ)).take ns.length ++ ((ns ++ ms).map (ρ τ)).drop (ns.length + ms.length) = ns.map (ρ τ) := by
    intro τ
    rw [List.drop_of_length_le (by simp), List.append_nil, List.map_append]
    exact List.take_left' (by simp)
  simp only [Function.comp_def, e1, e2, Nat.add_sub_cancel]

theorem normalizeTime_inv {O : TrigOps ℝ} {x : ℝ} {s s' : Sol ℝ} (hd : s.dyn = [x])
    (h : Mapper.inv O (.normalizeTime 0) s = .ok s') : s' = { s with t := s.t.map fun t => t * x, dyn := [] } := by
  rw [Mapper.inv, hd] at h
  cases h
  rfl

theorem momentumShift_inv {O : TrigOps ℝ} {ns ls : List Name} {n l : Name} {ρ : ℝ → Env} {τs : List ℝ} {s s' : Sol ℝ}
    (hy : s.y = tab (ns ++ [n]) ρ τs) (hd : s.dual = tab (ls ++ [l]) ρ τs) (hl : ls.length = ns.length)
    (h : Mapper.inv O (.momentumShift ns.length) s = .ok s') :
    s' = { s with t := τs.map fun τ => ρ τ n, y := tab ns ρ τs, dualT := τs.map fun τ => ρ τ l, dual := tab ls ρ τs } := by
  have e1 : ∀ (ns : List Name) (n : Name) (τ : ℝ), ((ns ++ [n]).map (ρ τ)).getD ns.length 0 = ρ τ n := by
    intro ns n τ; simp [List.getD]
  have e2 : ∀ (ns : List Name) (n : Name) (τ : ℝ), ((ns ++ [n]).map (ρ τ)).eraseIdx ns.length = ns.map (ρ τ) := by
    intro ns n τ
    rw [List.map_append, List.eraseIdx_append_of_length_le (by simp)]
    simp
  have f1 : ∀ τ : ℝ, ((ls ++ [l]).map (ρ τ)).getD ns.length 0 = ρ τ l := by intro τ; rw [← hl]; exact e1 ls l τ
  have f2 : ∀ τ : ℝ, ((ls ++ [l]).map (ρ τ)).eraseIdx ns.length = ls.map (ρ τ) := by intro τ; rw [← hl]; exact e2 ls l τ
  have hlt : ns.length < ls.length + 1 := by omega
  rw [Mapper.inv] at h
  simp only [hy, hd, tab, Arr.col, Arr.deleteCol, List.length_append, List.length_singleton, List.map_map,
    if_pos (Nat.lt_succ_self _), if_pos hlt, ok_bind'] at h
  cases h
  simp only [tab, Function.comp_def, e1, e2, f1, f2, Nat.add_sub_cancel]

theorem deleteFrom_none {K : Type} {idxs : List Nat} : ∀ (l : List K) (off : Nat), (∀ i, off ≤ i → i < off + l.length → i ∉ idxs) →
    Arr.deleteFrom idxs off l = l
  | [], _, _ => rfl
  | x :: l, off, h => by
    rw [Arr.deleteFrom, if_neg (h off (le_refl _) (by simp)), deleteFrom_none l (off + 1)]
    intro i h1 h2
    exact h i (by omega) (by simp; omega)

theorem deleteFrom_all {K : Type} {idxs : List Nat} : ∀ (l : List K) (off : Nat), (∀ i, off ≤ i → i < off + l.length → i ∈ idxs) →
    Arr.deleteFrom idxs off l = []
  | [], _, _ => rfl
  | x :: l, off, h => by
    rw [Arr.deleteFrom, if_pos (h off (le_refl _) (by simp)), deleteFrom_all l (off + 1)]
    intro i h1 h2
    exact h i (by omega) (by simp; omega)

theorem deleteFrom_append {K : Type} {idxs : List Nat} : ∀ (l m : List K) (off : Nat),
    Arr.deleteFrom idxs off (l ++ m) = Arr.deleteFrom idxs off l ++ Arr.deleteFrom idxs (off + l.length) m
  | [], m, off => by simp [Arr.deleteFrom]
  | x :: l, m, off => by
    rw [List.cons_append, Arr.deleteFrom, Arr.deleteFrom, deleteFrom_append l m (off + 1)]
    have : off + 1 + l.length = off + (x :: l).length := by simp; omega
    rw [this]
    split <;> simp

/-- Deleting the last columns. -/
theorem deleteFrom_tail {K : Type} (l m : List K) :
    Arr.deleteFrom ((List.range m.length).map (l.length + ·)) 0 (l ++ m) = l := by
  rw [deleteFrom_append, deleteFrom_none, deleteFrom_all, List.append_nil]
  · intro i h1 h2
    exact List.mem_map.2 ⟨i - l.length, List.mem_range.2 (by omega), by omega⟩
  · intro i _ h2 hi
    obtain ⟨j, -, rfl⟩ := List.mem_map.1 hi
    omega

theorem differential_inv {O : TrigOps ℝ} {ns cs : List Name} {ρ : ℝ → Env} {τs : List ℝ} {s s' : Sol ℝ}
    (hy : s.y = tab (ns ++ cs) ρ τs)
    (h : Mapper.inv O (.differential ((List.range cs.length).map (ns.length + ·))) s = .ok s') :
    s' = { s with u := tab cs ρ τs, y := tab ns ρ τs } := by
  have hlt : ∀ i ∈ (List.range cs.length).map (ns.length + ·), i < ns.length + cs.length := by
    intro i hi
    obtain ⟨j, hj, rfl⟩ := List.mem_map.1 hi
    have := List.mem_range.1 hj
    omega
  rw [Mapper.inv] at h
  simp only [hy, tab, Arr.pick, Arr.deleteCols, List.length_append, if_pos hlt, ok_bind', List.map_map] at h
  cases h
  have e1 : ∀ τ : ℝ, (List.range cs.length).map ((fun i => ((ns ++ cs).map (ρ τ)).getD i 0) ∘ (ns.length + ·)) = cs.map (ρ τ) := by
    intro τ
    apply List.ext_getElem
    · simp
    · intro i h1 h2
      have h3 : i < cs.length := by simpa using h2
      simp [List.getD, h3]
  have e2 : ∀ τ : ℝ, Arr.deleteFrom ((List.range cs.length).map (ns.length + ·)) 0 ((ns ++ cs).map (ρ τ)) = ns.map (ρ τ) := by
    intro τ
    have := deleteFrom_tail (ns.map (ρ τ)) (cs.map (ρ τ))
    rw [List.length_map, List.length_map] at this
    rw [List.map_append, this]
  have e3 : (Arr.deleteFrom ((List.range cs.length).map (ns.length + ·)) 0 (List.range (ns.length + cs.length))).length = ns.length := by
    have := deleteFrom_tail (List.range ns.length) ((List.range cs.length).map (ns.length + ·))
    simp only [List.length_map, List.length_range] at this
    rw [List.range_add, this, List.length_range]
  simp only [tab, Function.comp_def] at e1 ⊢
  simp only [e1, e2, e3, List.length_map, List.length_range]

/-- With 'diffyg' the costates of the controls are dropped, too. -/
theorem differentialDiffyG_inv {O : TrigOps ℝ} {ns cs ms ls : List Name} {ρ : ℝ → Env} {τs : List ℝ} {s s' : Sol ℝ}
    (hy : s.y = tab (ns ++ cs) ρ τs) (hd : s.dual = tab (ms ++ ls) ρ τs) (hm : ms.length = ns.length) (hl : ls.length = cs.length)
    (h : Mapper.inv O (.differentialDiffyG ((List.range cs.length).map (ns.length + ·))) s = .ok s') :
    s' = { s with u := tab cs ρ τs, y := tab ns ρ τs, dual := tab ms ρ τs } := by
  rw [Mapper.inv] at h
  obtain ⟨u, h1, h⟩ := bind_ok h
  obtain ⟨y, h2, h⟩ := bind_ok h
  obtain ⟨d, h3, h⟩ := bind_ok h
  cases h
  have e1 := differential_inv (O := O) (s := s) (s' := { s with u := u, y := y }) hy (by
    rw [Mapper.inv, h1, ok_bind', h2, ok_bind'])
  obtain ⟨v, hv⟩ : ∃ v, (tab (ms ++ ls) ρ τs).pick ((List.range ls.length).map (ms.length + ·)) = .ok v := by
    rw [tab, Arr.pick, if_pos]
    · exact ⟨_, rfl⟩
    · intro i hi
      obtain ⟨j, hj, rfl⟩ := List.mem_map.1 hi
      have := List.mem_range.1 hj
      simp only [List.length_append]
      omega
  have e2 := differential_inv (O := O) (s := { s with y := s.dual }) (s' := { s with y := d, u := v }) hd (by
    rw [Mapper.inv]
    dsimp only
    rw [hd, hv, ok_bind', hl, hm, ← hd, h3, ok_bind'])
  have e3 : u = tab cs ρ τs := congrArg Sol.u e1
  have e4 : y = tab ns ρ τs := congrArg Sol.y e1
  have e5 : d = tab ms ρ τs := congrArg Sol.y e2
  rw [e3, e4, e5]

/-- The inverse of an 'epstrig' functor gives the bounded control its value. -/
theorem epsLoop_val {f : ℝ → ℝ → List ℝ → Py ℝ} {cs st : List Name} {k : Nat} {u v : Name} {T : ℝ → ℝ} {σ : ℝ → Env}
    (hk : cs[k]? = some u) : ∀ {τs : List ℝ} {r : List (List ℝ)},
    (∀ τ ∈ τs, ∀ w, f (σ τ v) (T τ) (st.map (σ τ)) = .ok w → w = σ τ u) →
    epsLoop k f (τs.map T) (τs.map fun τ => st.map (σ τ)) (τs.map fun τ => (cs.set k v).map (σ τ)) = .ok r →
    r = τs.map fun τ => cs.map (σ τ)
  | [], r, _, h => by cases h; rfl
  | τ :: τs, r, hf, h => by
    have hkl : k < cs.length := (List.getElem?_eq_some_iff.1 hk).1
    simp only [List.map_cons, epsLoop] at h
    obtain ⟨x, h1, h⟩ := bind_ok h
    obtain ⟨w, h2, h⟩ := bind_ok h
    obtain ⟨rest, h3, h⟩ := bind_ok h
    cases h
    have hx : x = σ τ v := by
      rw [Py.get, List.getElem?_map, List.getElem?_set_self hkl] at h1
      cases h1
      rfl
    subst hx
    rw [List.map_cons, epsLoop_val hk (fun τ' h' => hf τ' (by simp [h'])) h3, hf τ (by simp) w h2]
    congr 1
    rw [List.map_set, List.set_set]
    refine List.ext_getElem? fun i => ?_
    by_cases hi : k = i
    · subst hi
      rw [List.getElem?_set_self (by simpa using hkl), List.getElem?_map, hk]
      rfl
    · rw [List.getElem?_set_ne hi]

theorem invSteps_append {S : Sympy} {O : TrigOps ℝ} {rule : List ℝ → List ℝ → ℝ} {I : Interp ℝ} : ∀ {l m : List Step} {p : Prob}
    {s s' : Sol ℝ}, invSteps S O rule I (l ++ m) p s = .ok s' →
    ∃ p1 s1, runSteps S l p = .ok p1 ∧ invSteps S O rule I m p1 s = .ok s1 ∧ invSteps S O rule I l p s1 = .ok s'
  | [], m, p, s, s', h => ⟨p, s', rfl, h, rfl⟩
  | step :: l, m, p, s, s', h => by
    rw [List.cons_append, invSteps] at h
    obtain ⟨p0, h1, h⟩ := bind_ok h
    obtain ⟨s0, h2, h⟩ := bind_ok h
    obtain ⟨p1, s1, h3, h4, h5⟩ := invSteps_append h2
    refine ⟨p1, s1, ?_, h4, ?_⟩
    · rw [runSteps_cons, h1]
      exact h3
    · rw [invSteps, h1, ok_bind', h5]
      exact h

theorem invSteps_one {S : Sympy} {O : TrigOps ℝ} {rule : List ℝ → List ℝ → ℝ} {I : Interp ℝ} {step : Step} {p p1 : Prob}
    {s s' : Sol ℝ} (hp : step.run S p = .ok p1) (h : invSteps S O rule I [step] p s = .ok s') {tags : List MapTag}
    (ht : p1.chain = p.chain ++ tags) : invTags O rule I p p1 tags s = .ok s' := by
  rw [invSteps, hp, ok_bind'] at h
  have : newTags p p1 = tags := by rw [newTags, ht, List.drop_left']; rfl
  rw [this] at h
  exact h

theorem invTags_one {O : TrigOps ℝ} {rule : List ℝ → List ℝ → ℝ} {I : Interp ℝ} {p p1 : Prob} {tag : MapTag} {s s' : Sol ℝ}
    (h : invTags O rule I p p1 [tag] s = .ok s') : invTag O rule I p p1 tag s = .ok s' := h

end Beluga.E2E
