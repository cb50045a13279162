import Verif.Numeric.Scaling

/-! # Scaling and unscaling cancel (C17) -/

set_option linter.unusedSectionVars false

namespace Beluga.Num

open Beluga.Sym Beluga.Sym.Expr Beluga.Map

section
variable {K : Type} [Field K] [LinearOrder K]

/-- A finite factor different from zero. -/
def Good (f : Option K) : Prop := ∃ x : K, f = some x ∧ x ≠ 0

/-- The array has one column per factor (`array([])` if there are none). -/
def FitsArr (a : Arr (Option K)) (fs : List (Option K)) : Prop :=
  (a = .empty ∧ fs = []) ∨ ∃ r, a = .rows fs.length r ∧ ∀ row ∈ r, row.length = fs.length

/-- The trajectory has the shape of the problem; the controls may be missing. -/
structure Fits (fs : Factors (Option K)) (s : Sol (Option K)) : Prop where
  y : FitsArr s.y fs.y
  q : FitsArr s.q fs.q
  u : nonEmpty s.u = true → FitsArr s.u fs.u
  dyn : s.dyn.length = fs.dyn.length
  nondyn : s.nondyn.length = fs.nondyn.length
  const : s.const.length = fs.const.length

/-- All factors are good. -/
structure AllGood (fs : Factors (Option K)) : Prop where
  t : Good fs.t
  y : ∀ f ∈ fs.y, Good f
  q : ∀ f ∈ fs.q, Good f
  u : ∀ f ∈ fs.u, Good f
  dyn : ∀ f ∈ fs.dyn, Good f
  nondyn : ∀ f ∈ fs.nondyn, Good f
  const : ∀ f ∈ fs.const, Good f

theorem fmul_fdiv {f : Option K} (h : Good f) (x : Option K) : fmul (fdiv x f) f = x := by
  obtain ⟨g, rfl, hg⟩ := h
  cases x with
  | none => rfl
  | some x => simp [fdiv, fmul, hg]

theorem zip_cancel : ∀ {row fs : List (Option K)}, row.length = fs.length → (∀ f ∈ fs, Good f) →
    List.zipWith fmul (List.zipWith fdiv row fs) fs = row
  | [], [], _, _ => rfl
  | x :: row, f :: fs, h, hg => by
    rw [List.zipWith_cons_cons, List.zipWith_cons_cons, fmul_fdiv (hg f (List.mem_cons_self ..)),
      zip_cancel (by simpa using h) fun g hm => hg g (List.mem_cons_of_mem _ hm)]
  | [], _ :: _, h, _ => by simp at h
  | _ :: _, [], h, _ => by simp at h

theorem bcast_fits {op : Option K → Option K → Option K} {row fs : List (Option K)} (h : row.length = fs.length) :
    bcast op row fs = .ok (List.zipWith op row fs) := by
  unfold bcast
  rw [if_pos h]

/-- Entrywise result of an operation on an array of the right shape. -/
def zipArr (op : Option K → Option K → Option K) (a : Arr (Option K)) (fs : List (Option K)) : Arr (Option K) :=
  match a with
  | .empty => .empty
  | .rows c r => .rows c (r.map fun row => List.zipWith op row fs)

theorem bcastArr_fits {op : Option K → Option K → Option K} {a : Arr (Option K)} {fs : List (Option K)} (h : FitsArr a fs) :
    bcastArr op a fs = .ok (zipArr op a fs) ∧ FitsArr (zipArr op a fs) fs := by
  rcases h with ⟨rfl, rfl⟩ | ⟨r, rfl, hr⟩
  · exact ⟨rfl, Or.inl ⟨rfl, rfl⟩⟩
  · refine ⟨?_, Or.inr ⟨_, rfl, ?_⟩⟩
    · rw [bcastArr, if_pos (Or.inl rfl), mapM_ok (g := fun row => List.zipWith op row fs) fun row h => bcast_fits (hr row h)]
      rw [ok_bind]
      by_cases h1 : fs.length = 1
      · rw [if_pos h1]; rfl
      · rw [if_neg h1]; rfl
    · intro row hrow
      obtain ⟨row', h', rfl⟩ := List.mem_map.1 hrow
      simp [hr row' h']

theorem zipArr_cancel {a : Arr (Option K)} {fs : List (Option K)} (h : FitsArr a fs) (hg : ∀ f ∈ fs, Good f) :
    zipArr fmul (zipArr fdiv a fs) fs = a := by
  rcases h with ⟨rfl, rfl⟩ | ⟨r, rfl, hr⟩
  · rfl
  · simp only [zipArr, List.map_map]
    congr 1
    conv_rhs => rw [← List.map_id r]
    exact List.map_congr_left fun row hrow => zip_cancel (hr row hrow) hg

theorem nonEmpty_zipArr (op : Option K → Option K → Option K) (a : Arr (Option K)) (fs : List (Option K)) :
    nonEmpty (zipArr op a fs) = nonEmpty a := by
  cases a with
  | empty => rfl
  | rows c r => simp [zipArr, nonEmpty]

/-- What scaling does to a trajectory of the right shape. -/
theorem scaleSol_fits {op : Option K → Option K → Option K} {fs : Factors (Option K)} {s : Sol (Option K)} (h : Fits fs s) :
    scaleSol op fs s = .ok { s with
      t := s.t.map fun x => op x fs.t
      y := zipArr op s.y fs.y
      q := zipArr op s.q fs.q
      u := if nonEmpty s.u then zipArr op s.u fs.u else s.u
      dyn := List.zipWith op s.dyn fs.dyn
      nondyn := List.zipWith op s.nondyn fs.nondyn
      const := List.zipWith op s.const fs.const } := by
  rw [scaleSol, (bcastArr_fits h.y).1, ok_bind, (bcastArr_fits h.q).1, ok_bind]
  have hu : (if nonEmpty s.u then bcastArr op s.u fs.u else .ok s.u) =
      (.ok (if nonEmpty s.u then zipArr op s.u fs.u else s.u) : Py _) := by
    by_cases hn : nonEmpty s.u = true
    · rw [if_pos hn, if_pos hn, (bcastArr_fits (h.u hn)).1]
    · rw [if_neg hn, if_neg hn]
  have hd := bcast_fits (op := op) h.dyn
  have hn := bcast_fits (op := op) h.nondyn
  have hc := bcast_fits (op := op) h.const
  by_cases hne : nonEmpty s.u = true
  · rw [if_pos hne] at hu ⊢
    rw [if_pos hne] at hu
    rw [hu, ok_bind]
    beta_reduce
    rw [hd, ok_bind, hn, ok_bind, hc, ok_bind, if_pos hne]
  · rw [if_neg hne] at hu ⊢
    rw [if_neg hne]
    beta_reduce
    rw [hd, ok_bind, hn, ok_bind, hc]
    rfl

theorem fits_scaled {op : Option K → Option K → Option K} {fs : Factors (Option K)} {s : Sol (Option K)} (h : Fits fs s) :
    Fits fs { s with
      t := s.t.map fun x => op x fs.t
      y := zipArr op s.y fs.y
      q := zipArr op s.q fs.q
      u := if nonEmpty s.u then zipArr op s.u fs.u else s.u
      dyn := List.zipWith op s.dyn fs.dyn
      nondyn := List.zipWith op s.nondyn fs.nondyn
      const := List.zipWith op s.const fs.const } where
  y := (bcastArr_fits h.y).2
  q := (bcastArr_fits h.q).2
  u hn := by
    by_cases hu : nonEmpty s.u = true
    · simp only [if_pos hu]; exact (bcastArr_fits (h.u hu)).2
    · simp only [if_neg hu] at hn; exact absurd hn hu
  dyn := by simp [h.dyn]
  nondyn := by simp [h.nondyn]
  const := by simp [h.const]

/-- **C17.**  With non-zero factors, unscaling a scaled trajectory gives it back; the scaled one has every time, state,
quadrature, control, parameter and constant divided by the factor of its component. -/
theorem C17_round_trip {fs : Factors (Option K)} {s : Sol (Option K)} (h : Fits fs s) (hg : AllGood fs) :
    ∃ s1, scale fs s = .ok s1 ∧ unscale fs s1 = .ok s ∧ s1.t = s.t.map (fun x => fdiv x fs.t) ∧
      s1.y.rowList = s.y.rowList.map (fun row => List.zipWith fdiv row fs.y) ∧
      s1.q.rowList = s.q.rowList.map (fun row => List.zipWith fdiv row fs.q) ∧
      (FitsArr s.u fs.u → s1.u.rowList = s.u.rowList.map fun row => List.zipWith fdiv row fs.u) ∧
      s1.dyn = List.zipWith fdiv s.dyn fs.dyn ∧ s1.nondyn = List.zipWith fdiv s.nondyn fs.nondyn ∧
      s1.const = List.zipWith fdiv s.const fs.const := by
  have hrl : ∀ (a : Arr (Option K)) (l : List (Option K)), (zipArr fdiv a l).rowList =
      a.rowList.map fun row => List.zipWith fdiv row l := by
    intro a l
    cases a <;> rfl
  refine ⟨_, scaleSol_fits h, ?_, rfl, hrl _ _, hrl _ _, fun hu => ?_, rfl, rfl, rfl⟩
  · rw [unscale, scaleSol_fits (fits_scaled h)]
    congr 1
    have ht : (s.t.map fun x => fdiv x fs.t).map (fun x => fmul x fs.t) = s.t := by
      rw [List.map_map]
      conv_rhs => rw [← List.map_id s.t]
      exact List.map_congr_left fun x _ => fmul_fdiv hg.t x
    have hu : (if nonEmpty (if nonEmpty s.u then zipArr fdiv s.u fs.u else s.u) then
        zipArr fmul (if nonEmpty s.u then zipArr fdiv s.u fs.u else s.u) fs.u
        else (if nonEmpty s.u then zipArr fdiv s.u fs.u else s.u)) = s.u := by
      by_cases hu : nonEmpty s.u = true
      · simp only [if_pos hu, nonEmpty_zipArr]
        exact zipArr_cancel (h.u hu) hg.u
      · simp only [if_neg hu]
    simp only [ht, hu, zipArr_cancel h.y hg.y, zipArr_cancel h.q hg.q, zip_cancel h.dyn hg.dyn,
      zip_cancel h.nondyn hg.nondyn, zip_cancel h.const hg.const]
  · dsimp only
    by_cases hn : nonEmpty s.u = true
    · rw [if_pos hn, hrl]
    · rw [if_neg hn]
      rcases hu with ⟨e, -⟩ | ⟨r, e, hr⟩
      · rw [e]; rfl
      · rw [e] at hn ⊢
        have h0 : ∀ row ∈ r, row = [] := by
          intro row hrow
          have h1 := hr row hrow
          have h2 : 0 < r.length := List.length_pos_of_mem hrow
          have h3 : fs.u.length * r.length = 0 := by
            rw [nonEmpty, decide_eq_true_eq] at hn
            omega
          have h4 : fs.u.length = 0 := by
            rcases Nat.mul_eq_zero.1 h3 with h | h
            · exact h
            · omega
          exact List.length_eq_zero_iff.1 (by omega)
        change r = r.map _
        conv_lhs => rw [← List.map_id r]
        exact List.map_congr_left fun row hrow => by rw [h0 row hrow]; rfl

/-- **C17.**  A factor that is zero destroys its column: after scaling and unscaling, the times (constants, and the
column of every state with a zero factor) are no finite numbers any more. -/
theorem C17_zero {fs : Factors (Option K)} {s s1 s2 : Sol (Option K)} (h : Fits fs s) (h1 : scale fs s = .ok s1)
    (h2 : unscale fs s1 = .ok s2) :
    (fs.t = some 0 → ∀ x ∈ s2.t, x = none) ∧
    (∀ j : Nat, fs.const[j]? = some (some 0) → s2.const[j]? = some none) ∧
    (∀ j : Nat, fs.y[j]? = some (some 0) → ∀ row ∈ s2.y.rowList, row[j]? = some none) := by
  rw [scale, scaleSol_fits h] at h1
  cases h1
  rw [unscale, scaleSol_fits (fits_scaled h)] at h2
  cases h2
  have hz : ∀ x : Option K, fmul (fdiv x (some 0)) (some 0) = none := by
    intro x
    cases x <;> simp [fdiv, fmul]
  have hzip : ∀ (row l : List (Option K)) (j : Nat), row.length = l.length → l[j]? = some (some 0) →
      (List.zipWith fmul (List.zipWith fdiv row l) l)[j]? = some none := by
    intro row l j hl hj
    have hlt : j < l.length := by
      by_contra hc
      rw [List.getElem?_eq_none (by omega)] at hj
      cases hj
    rw [List.getElem?_zipWith, List.getElem?_zipWith, hj, List.getElem?_eq_getElem (by omega)]
    simp only [hz]
  refine ⟨fun ht x hx => ?_, fun j hj => hzip _ _ j h.const hj, fun j hj row hrow => ?_⟩
  · simp only [ht, List.map_map, List.mem_map] at hx
    obtain ⟨y, -, rfl⟩ := hx
    exact hz y
  · rcases h.y with ⟨-, he⟩ | ⟨r, hy, hr⟩
    · rw [he] at hj; simp at hj
    · dsimp only at hrow
      rw [hy] at hrow
      simp only [zipArr, Arr.rowList, List.map_map, List.mem_map] at hrow
      obtain ⟨row', hm, rfl⟩ := hrow
      exact hzip _ _ j (hr row' hm) hj

/-- Two states, one constant, no controls. -/
def exT : Sol (Option ℚ) where
  t := [some 0, some 4]
  dualT := []
  y := .rows 2 [[some 1, some 2], [some 3, some 6]]
  dual := .empty
  q := .empty
  u := .empty
  dualU := .empty
  dyn := [some 5]
  nondyn := []
  const := [some 9]
  converged := true
  cost := none

def exF : Factors (Option ℚ) := ⟨some 2, [some 2, some 4], [], [some 7], [some 5], [], [some 3]⟩

example : (scale exF exT).map (fun s => (s.t, s.y, s.dyn, s.const)) = .ok ([some 0, some 2],
    .rows 2 [[some (1 / 2), some (1 / 2)], [some (3 / 2), some (3 / 2)]], [some 1], [some 3]) := by decide +kernel

example : (scale exF exT >>= unscale exF) = .ok exT := by decide +kernel

/-- A unit that is sized by a quantity which is zero in the guess. -/
example : (scale { exF with y := [some 2, some 0] } exT >>= unscale { exF with y := [some 2, some 0] }).map (fun s => s.y) =
    .ok (.rows 2 [[some 1, none], [some 3, none]]) := by decide +kernel

example : (scaleFactors (⟨3, fun _ x => x⟩ : Interp ℚ) { ind := "t", states := [⟨"x", 0⟩, ⟨"v", 0⟩], constants := ["g"] }
    ⟨[("m", sym "x"), ("s", sym "x" / sym "v")], 1, [sym "m", sym "m" / sym "s"], [], [], [], [], [sym "m" / (sym "s" * sym "s")]⟩
    [0, 1] (.rows 2 [[-8, 2], [3, -4]]) .empty [] [] [10]).map (fun f => (f.t, f.y, f.const)) = .ok (1, [8, 4], [2]) := by
  decide +kernel

end

end Beluga.Num
