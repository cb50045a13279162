import Verif.Traj.Spec
import Mathlib.Tactic.FieldSimp
import Mathlib.Tactic.Ring
import Mathlib.Tactic.Linarith
import Mathlib.Tactic.LinearCombination

/-!
# Lemmas on interpolation
-/

namespace Beluga.Traj

set_option linter.unusedSectionVars false

variable {K : Type} [Field K] [LinearOrder K] [IsStrictOrderedRing K]

theorem getD_eq {α : Type} {l : List α} {i : Nat} (h : i < l.length) (z : α) : l.getD i z = l[i] := by
  simp [List.getD, List.getElem?_eq_getElem h]

theorem getD_inj {ts : List K} (h : ts.Nodup) {i j : Nat} (hi : i < ts.length) (hj : j < ts.length)
    (e : ts.getD i 0 = ts.getD j 0) : i = j := by
  rw [getD_eq hi, getD_eq hj] at e
  exact (List.Nodup.getElem_inj_iff h).1 e

theorem argsort_perm (ts : List K) : (argsort ts).Perm (List.range ts.length) := List.perm_insertionSort _ _

theorem argsort_length (ts : List K) : (argsort ts).length = ts.length := by
  rw [(argsort_perm ts).length_eq, List.length_range]

theorem argsort_lt (ts : List K) {k : Nat} (h : k < (argsort ts).length) : (argsort ts)[k] < ts.length := by
  have := (argsort_perm ts).mem_iff.1 (List.getElem_mem h)
  exact List.mem_range.1 this

theorem argsort_sorted {ts : List K} (h : ts.Nodup) {a b : Nat} (hab : a < b) (hb : b < (argsort ts).length) :
    ts.getD ((argsort ts)[a]'(by omega)) 0 < ts.getD (argsort ts)[b] 0 := by
  have : Std.Total fun i j : Nat => ts.getD i 0 ≤ ts.getD j 0 := ⟨fun _ _ => le_total _ _⟩
  have : IsTrans Nat fun i j => ts.getD i 0 ≤ ts.getD j 0 := ⟨fun _ _ _ h1 h2 => le_trans h1 h2⟩
  have hs : (argsort ts).Pairwise fun i j => ts.getD i 0 ≤ ts.getD j 0 := List.pairwise_insertionSort _ _
  have hle := List.pairwise_iff_getElem.1 hs a b (by omega) hb hab
  refine lt_of_le_of_ne hle fun e => ?_
  have := getD_inj h (argsort_lt ts (by omega)) (argsort_lt ts hb) e
  have hnd : (argsort ts).Nodup := (argsort_perm ts).nodup_iff.2 List.nodup_range
  have := (List.Nodup.getElem_inj_iff hnd).1 this
  omega

theorem argsort_surj {ts : List K} {k : Nat} (hk : k < ts.length) :
    ∃ a, ∃ h : a < (argsort ts).length, (argsort ts)[a] = k := by
  have := (argsort_perm ts).mem_iff.2 (List.mem_range.2 hk)
  obtain ⟨a, h, e⟩ := List.mem_iff_getElem.1 this
  exact ⟨a, h, e⟩

/-- In a strictly sorted list the entries below `x` come first. -/
theorem filter_lt_take {xs : List K} (hs : ∀ a b, a < b → b < xs.length → xs.getD a 0 < xs.getD b 0) (x : K) {c : Nat}
    (hc : (xs.filter (· < x)).length = c) :
    (∀ a < c, xs.getD a 0 < x) ∧ ∀ a, c ≤ a → a < xs.length → x ≤ xs.getD a 0 := by
  induction xs generalizing c with
  | nil => simp at hc; subst hc; exact ⟨fun a h => by omega, fun a _ h => by simp at h⟩
  | cons y xs ih =>
    have hs' : ∀ a b, a < b → b < xs.length → xs.getD a 0 < xs.getD b 0 := by
      intro a b hab hb
      have := hs (a + 1) (b + 1) (by omega) (by simpa using hb)
      simpa using this
    by_cases hy : y < x
    · rw [List.filter_cons_of_pos (by simpa using hy), List.length_cons] at hc
      obtain ⟨c', rfl⟩ : ∃ c', c = c' + 1 := ⟨c - 1, by omega⟩
      obtain ⟨h1, h2⟩ := ih hs' (c := c') (by omega)
      constructor
      · intro a ha
        cases a with
        | zero => simpa using hy
        | succ a => simpa using h1 a (by omega)
      · intro a ha hl
        cases a with
        | zero => omega
        | succ a => simpa using h2 a (by omega) (by simpa using hl)
    · have hall : ∀ a, a < xs.length → y < xs.getD a 0 := by
        intro a ha
        have := hs 0 (a + 1) (by omega) (by simpa using ha)
        simpa using this
      have hz : (y :: xs).filter (fun a => decide (a < x)) = [] := by
        rw [List.filter_eq_nil_iff]
        intro a ha
        rw [List.mem_cons] at ha
        rcases ha with rfl | ha
        · simpa using hy
        · obtain ⟨k, hk, rfl⟩ := List.mem_iff_getElem.1 ha
          have := hall k hk
          rw [getD_eq hk] at this
          simp only [decide_eq_true_eq, not_lt]
          exact (not_lt.1 hy).trans this.le
      rw [hz] at hc
      simp only [List.length_nil] at hc
      subst hc
      refine ⟨fun a h => by omega, fun a _ hl => ?_⟩
      cases a with
      | zero => simpa using not_lt.1 hy
      | succ a =>
        have := hall a (by simpa using hl)
        simpa using (not_lt.1 hy).trans this.le

theorem getD_map {β : Type} (l : List Nat) (f : Nat → β) (z : β) {k : Nat} (h : k < l.length) :
    (l.map f).getD k z = f l[k] := by
  rw [getD_eq (by simpa using h), List.getElem_map]

theorem interp1d_ok {ts : List K} (hnd : ts.Nodup) {x : K} (hlo : ∃ k < ts.length, ts.getD k 0 ≤ x)
    (hhi : ∃ k < ts.length, x ≤ ts.getD k 0) :
    ∃ i j θ, Between ts x i j θ ∧ ∀ ys : List K, ys.length = ts.length →
      interp1d ts ys x = .ok ((1 - θ) * ys.getD i 0 + θ * ys.getD j 0) := by
  set o := argsort ts with ho
  have hlen : o.length = ts.length := argsort_length ts
  have hlen' : (argsort ts).length = ts.length := argsort_length ts
  set xs := o.map fun i => ts.getD i 0 with hxs
  have hxl : xs.length = ts.length := by rw [hxs, List.length_map, hlen]
  have hget : ∀ a, ∀ h : a < o.length, xs.getD a 0 = ts.getD o[a] 0 := fun a h => getD_map o _ 0 h
  have hsort : ∀ a b, a < b → b < xs.length → xs.getD a 0 < xs.getD b 0 := by
    intro a b hab hb
    rw [hget a (by omega), hget b (by omega)]
    exact argsort_sorted hnd hab (by omega)
  have hsort' : ∀ a b, a ≤ b → b < xs.length → xs.getD a 0 ≤ xs.getD b 0 := by
    intro a b hab hb
    rcases Nat.eq_or_lt_of_le hab with rfl | h
    · exact le_refl _
    · exact (hsort a b h hb).le
  obtain ⟨klo, hklo, hklo'⟩ := hlo
  obtain ⟨khi, hkhi, hkhi'⟩ := hhi
  have hpos : 0 < ts.length := by omega
  have hx0 : xs.getD 0 0 ≤ x := by
    obtain ⟨a, ha, e⟩ := argsort_surj hklo
    have h1 := hsort' 0 a (by omega) (by omega)
    rw [hget a ha] at h1
    have e' : o[a] = klo := e
    rw [e'] at h1
    exact h1.trans hklo'
  have hxn : x ≤ xs.getD (xs.length - 1) 0 := by
    obtain ⟨a, ha, e⟩ := argsort_surj hkhi
    have ha' : a < o.length := ha
    have h1 := hsort' a (xs.length - 1) (by omega) (by omega)
    rw [hget a ha] at h1
    have e' : o[a] = khi := e
    rw [e'] at h1
    exact hkhi'.trans h1
  obtain ⟨hc1, hc2⟩ := filter_lt_take hsort x rfl
  set c := (xs.filter (· < x)).length with hc
  have hcl : c ≤ xs.length := List.length_filter_le _ _
  have hcn : c < xs.length := by
    by_contra h
    have := hc1 (xs.length - 1) (by omega)
    exact absurd hxn (not_le.2 this)
  set i := min (max c 1) (xs.length - 1) with hi
  have hil : i < xs.length := by omega
  have hlo1 : xs.getD (i - 1) 0 ≤ x := by
    by_cases h : c = 0
    · rw [show i - 1 = 0 by omega]; exact hx0
    · by_cases h1 : xs.length = 1
      · rw [show i - 1 = 0 by omega]; exact hx0
      · exact (hc1 (i - 1) (by omega)).le
  have hhi1 : x ≤ xs.getD i 0 := by
    rcases Nat.lt_or_ge c i with h | h
    · exact hc2 i h.le hil
    · rw [show i = c by omega]; exact hc2 c le_rfl hcn
  set xlo := xs.getD (i - 1) 0 with hxlo
  set xhi := xs.getD i 0 with hxhi
  have hmain : ∀ ys : List K, ys.length = ts.length → interp1d ts ys x =
      .ok ((ys.getD (o[i]'(by omega)) 0 - ys.getD (o[i - 1]'(by omega)) 0) / (xhi - xlo) * (x - xlo) +
        ys.getD (o[i - 1]'(by omega)) 0) := by
    intro ys hys
    rw [interp1d, if_neg (by rw [hys]; exact not_not.2 rfl)]
    simp only [← ho, ← hxs, ← hc, ← hi]
    rw [if_neg (by rw [not_or, not_lt, not_lt]; exact ⟨hx0, hxn⟩), getD_map o _ 0 (by omega), getD_map o _ 0 (by omega)]
  refine ⟨o[i - 1]'(by omega), o[i]'(by omega), (x - xlo) / (xhi - xlo), ?_, fun ys hys => ?_⟩
  · have e1 : ts.getD (o[i - 1]'(by omega)) 0 = xlo := (hget (i - 1) (by omega)).symm
    have e2 : ts.getD (o[i]'(by omega)) 0 = xhi := (hget i (by omega)).symm
    refine ⟨argsort_lt ts _, argsort_lt ts _, div_nonneg (by linarith) (by linarith), ?_, ?_, ?_, ?_⟩
    · refine div_le_one_of_le₀ (by linarith) (by linarith)
    · rw [e1, e2]
      by_cases h : xhi - xlo = 0
      · rw [h, div_zero]; linarith
      · field_simp; ring
    · rw [e1, e2]; exact hlo1.trans hhi1
    · rintro k hk ⟨h1, h2⟩
      rw [e1] at h1
      rw [e2] at h2
      obtain ⟨a, ha, e⟩ := argsort_surj hk
      have e' : o[a] = k := e
      have ha' : a < o.length := ha
      rw [← e', ← hget a ha] at h1 h2
      rcases Nat.lt_or_ge a i with h | h
      · exact absurd (hsort' a (i - 1) (by omega) (by omega)) (not_le.2 h1)
      · exact absurd (hsort' i a h (by omega)) (not_le.2 h2)
  · rw [hmain ys hys]
    congr 1
    ring

theorem interp1d_outside {ts : List K} (hpos : 0 < ts.length) {x : K}
    (h : (∀ k < ts.length, x < ts.getD k 0) ∨ ∀ k < ts.length, ts.getD k 0 < x) (ys : List K) :
    interp1d ts ys x = .error .valueError := by
  rw [interp1d]
  by_cases hl : ts.length ≠ ys.length
  · rw [if_pos hl]
  · rw [if_neg hl]
    dsimp only
    have hlen := argsort_length ts
    rw [if_pos]
    rcases h with h | h
    · left
      rw [getD_map _ _ _ (by omega)]
      exact h _ (argsort_lt ts _)
    · right
      rw [List.length_map, getD_map _ _ _ (by omega)]
      exact h _ (argsort_lt ts _)

/-- At a time stamp the weights select the point itself. -/
theorem between_stamp {ts : List K} (hnd : ts.Nodup) {i j k : Nat} {θ : K} (hk : k < ts.length)
    (h : Between ts (ts.getD k 0) i j θ) (f : Nat → K) : (1 - θ) * f i + θ * f j = f k := by
  have h1 : ts.getD i 0 ≤ ts.getD k 0 := by
    rw [h.time]; nlinarith [mul_nonneg h.nonneg (sub_nonneg.2 h.order)]
  have h2 : ts.getD k 0 ≤ ts.getD j 0 := by
    rw [h.time]; nlinarith [mul_nonneg (sub_nonneg.2 h.le_one) (sub_nonneg.2 h.order)]
  rcases lt_or_eq_of_le h1 with h1 | h1
  · rcases lt_or_eq_of_le h2 with h2 | h2
    · exact absurd ⟨h1, h2⟩ (h.neighbours k hk)
    · obtain rfl := getD_inj hnd hk h.j_lt h2
      have ht := h.time
      have : (1 - θ) * (ts.getD k 0 - ts.getD i 0) = 0 := by linear_combination ht
      rcases mul_eq_zero.1 this with h3 | h3
      · rw [show θ = 1 by linarith]; ring
      · exact absurd h1 (by linarith)
  · obtain rfl := getD_inj hnd h.i_lt hk h1
    have ht := h.time
    have : θ * (ts.getD j 0 - ts.getD i 0) = 0 := by linear_combination -ht
    rcases mul_eq_zero.1 this with h3 | h3
    · rw [h3]; ring
    · have e : ts.getD j 0 = ts.getD i 0 := by linarith
      rw [getD_inj hnd h.j_lt h.i_lt e]; ring

theorem filter_take_drop {l : List K} {p : K → Bool} (h : l.Pairwise fun a b => p b = true → p a = true) :
    l.take (l.filter p).length = l.filter p ∧ l.drop (l.filter p).length = l.filter fun x => !p x := by
  induction l with
  | nil => simp
  | cons y l ih =>
    rw [List.pairwise_cons] at h
    obtain ⟨h1, h2⟩ := ih h.2
    by_cases hy : p y = true
    · rw [List.filter_cons_of_pos hy, List.length_cons, List.take_succ_cons, List.drop_succ_cons, h1, h2,
        List.filter_cons_of_neg (by simpa using hy)]
      exact ⟨rfl, rfl⟩
    · have hz : l.filter p = [] := by
        rw [List.filter_eq_nil_iff]
        exact fun a ha hp => hy (h.1 a ha hp)
      have hall : (y :: l).filter (fun x => !p x) = y :: l := by
        rw [List.filter_eq_self]
        intro a ha
        rw [List.mem_cons] at ha
        rcases ha with rfl | ha
        · simpa using hy
        · have := fun hp => hy (h.1 a ha hp)
          simpa using this
      rw [List.filter_cons_of_neg hy, hz, hall]
      exact ⟨rfl, rfl⟩

theorem getD_lt {ts : List K} (hs : ts.Pairwise (· < ·)) {a b : Nat} (hab : a < b) (hb : b < ts.length) :
    ts.getD a 0 < ts.getD b 0 := by
  rw [getD_eq (by omega), getD_eq hb]
  exact List.pairwise_iff_getElem.1 hs a b (by omega) hb hab

theorem getD_le {ts : List K} (hs : ts.Pairwise (· < ·)) {a b : Nat} (hab : a ≤ b) (hb : b < ts.length) :
    ts.getD a 0 ≤ ts.getD b 0 := by
  rcases Nat.eq_or_lt_of_le hab with rfl | h
  · exact le_rfl
  · exact (getD_lt hs h hb).le

theorem mem_take_getD {ts : List K} {c a : Nat} (ha : a < c) (hc : c ≤ ts.length) : ts.getD a 0 ∈ ts.take c := by
  rw [getD_eq (by omega)]
  exact List.mem_take_iff_getElem.2 ⟨a, by omega, rfl⟩

theorem mem_drop_getD {ts : List K} {c a : Nat} (ha : c ≤ a) (hc : a < ts.length) : ts.getD a 0 ∈ ts.drop c := by
  rw [getD_eq hc]
  exact List.mem_drop_iff_getElem.2 ⟨a - c, by omega, by congr 1; omega⟩

/-- Counting the entries that satisfy a predicate true on an initial segment. -/
theorem count_eq {ts : List K} {p : K → Bool} {d : Nat} (hd : d ≤ ts.length)
    (h1 : ∀ a < d, p (ts.getD a 0) = true) (h2 : ∀ a, d ≤ a → a < ts.length → p (ts.getD a 0) = false) :
    (ts.filter p).length = d := by
  have e : ts.filter p = ts.take d := by
    conv_lhs => rw [← List.take_append_drop d ts]
    rw [List.filter_append, List.filter_eq_self.2, List.filter_eq_nil_iff.2, List.append_nil]
    · intro x hx
      obtain ⟨k, hk, rfl⟩ := List.mem_drop_iff_getElem.1 hx
      have := h2 (d + k) (by omega) (by omega)
      rw [getD_eq (by omega)] at this
      simpa using this
    · intro x hx
      obtain ⟨k, hk, rfl⟩ := List.mem_take_iff_getElem.1 hx
      have := h1 k (by omega)
      rwa [getD_eq (by omega)] at this
  rw [e, List.length_take]
  omega

theorem pw_le {ts : List K} (hs : ts.Pairwise (· < ·)) (x : K) :
    ts.Pairwise fun a b => decide (b ≤ x) = true → decide (a ≤ x) = true :=
  hs.imp fun hab h => by
    simp only [decide_eq_true_eq] at *
    exact hab.le.trans h

theorem pw_lt {ts : List K} (hs : ts.Pairwise (· < ·)) (x : K) :
    ts.Pairwise fun a b => decide (b < x) = true → decide (a < x) = true :=
  hs.imp fun hab h => by
    simp only [decide_eq_true_eq] at *
    exact hab.trans h

theorem interpIndex_ceil [FloorRing K] {ts : List K} (hs : ts.Pairwise (· < ·)) (hpos : 0 < ts.length) {x : K}
    (hlo : ts.getD 0 0 ≤ x) (hhi : x ≤ ts.getD (ts.length - 1) 0) :
    ⌈interpIndex ts x⌉.toNat = (ts.filter (· < x)).length := by
  obtain ⟨h1, h2⟩ := filter_take_drop (pw_le hs x)
  rw [interpIndex]
  set c := (ts.filter (· ≤ x)).length with hc
  have hcl : c ≤ ts.length := List.length_filter_le _ _
  have hle : ∀ a < c, ts.getD a 0 ≤ x := by
    intro a ha
    have := mem_take_getD ha hcl
    rw [h1] at this
    simpa using (List.mem_filter.1 this).2
  have hgt : ∀ a, c ≤ a → a < ts.length → x < ts.getD a 0 := by
    intro a ha hl
    have := mem_drop_getD ha hl
    rw [h2] at this
    simpa using (List.mem_filter.1 this).2
  have hc0 : c ≠ 0 := fun h => absurd (hgt 0 (by omega) hpos) (not_lt.2 hlo)
  dsimp only
  rw [if_neg hc0]
  by_cases hcn : c = ts.length
  · rw [if_pos hcn]
    have hx : ts.getD (ts.length - 1) 0 = x := le_antisymm (hle _ (by omega)) hhi
    rw [Int.ceil_natCast, Int.toNat_natCast]
    refine (count_eq (by omega) (fun a ha => ?_) fun a ha hl => ?_).symm
    · rw [decide_eq_true_eq, ← hx]
      exact getD_lt hs ha (by omega)
    · rw [decide_eq_false_iff_not, not_lt, ← hx]
      exact getD_le hs ha hl
  · rw [if_neg hcn]
    have hj := hle (c - 1) (by omega)
    have hj1 := hgt c le_rfl (by omega)
    rw [show c - 1 + 1 = c by omega]
    have hcast : ((c : Nat) : K) - ((c - 1 : Nat) : K) = 1 := by
      rw [Nat.cast_sub (by omega)]; ring
    rw [hcast]
    rcases lt_or_eq_of_le hj with hj | hj
    · have hceil : ⌈1 / (ts.getD c 0 - ts.getD (c - 1) 0) * (x - ts.getD (c - 1) 0) + ((c - 1 : Nat) : K)⌉ = (c : Int) := by
        have hp : 0 < ts.getD c 0 - ts.getD (c - 1) 0 := by linarith
        rw [Int.ceil_eq_iff, Int.cast_natCast]
        have e : ((c : Nat) : K) = ((c - 1 : Nat) : K) + 1 := by linarith
        have h3 : 0 < 1 / (ts.getD c 0 - ts.getD (c - 1) 0) * (x - ts.getD (c - 1) 0) := by
          have : 0 < x - ts.getD (c - 1) 0 := by linarith
          positivity
        have h4 : 1 / (ts.getD c 0 - ts.getD (c - 1) 0) * (x - ts.getD (c - 1) 0) ≤ 1 := by
          rw [one_div, inv_mul_le_iff₀ hp]; linarith
        constructor <;> linarith
      rw [hceil, Int.toNat_natCast]
      refine (count_eq hcl (fun a ha => ?_) fun a ha hl => ?_).symm
      · rw [decide_eq_true_eq]
        exact (getD_le hs (show a ≤ c - 1 by omega) (by omega)).trans_lt hj
      · rw [decide_eq_false_iff_not, not_lt]
        exact (hgt a ha hl).le
    · rw [hj, sub_self, mul_zero, zero_add, Int.ceil_natCast, Int.toNat_natCast]
      refine (count_eq (by omega) (fun a ha => ?_) fun a ha hl => ?_).symm
      · rw [decide_eq_true_eq, ← hj]
        exact getD_lt hs ha (by omega)
      · rw [decide_eq_false_iff_not, not_lt, ← hj]
        exact getD_le hs ha hl

theorem quadGrid_eq [FloorRing K] {ts : List K} (hs : ts.Pairwise (· < ·)) {a b : K} (hpos : 0 < ts.length)
    (hlo : ts.getD 0 0 ≤ a) (hab : a < b) (hhi : b ≤ ts.getD (ts.length - 1) 0) :
    quadGrid ts a b = .ok (a :: ts.filter (fun t => decide (a < t) && decide (t < b)) ++ [b]) := by
  cases ts with
  | nil => simp at hpos
  | cons t0 rest =>
    rw [quadGrid]
    have hl1 : (t0 :: rest).length - 1 = rest.length := by simp
    rw [hl1] at hhi
    have hi0 := interpIndex_ceil hs hpos hlo (by rw [hl1]; exact hab.le.trans hhi)
    have hif := interpIndex_ceil hs hpos (hlo.trans hab.le) (by rw [hl1]; exact hhi)
    rw [if_neg (not_lt.2 (by simpa using hlo)), if_neg (not_lt.2 hhi)]
    set ts := t0 :: rest with hts
    have hlen : ts.length = rest.length + 1 := by simp [hts]
    simp only [hi0, hif]
    obtain ⟨ha1, ha2⟩ := filter_take_drop (pw_lt hs a)
    obtain ⟨hb1, hb2⟩ := filter_take_drop (pw_lt hs b)
    set c := (ts.filter (· < a)).length with hc
    set d := (ts.filter (· < b)).length with hd
    have hdl : d ≤ ts.length := List.length_filter_le _ _
    have hd0 : d ≠ 0 := by
      intro h
      have : ts.getD 0 0 ∈ ts.filter (fun t => decide (t < b)) := by
        refine List.mem_filter.2 ⟨?_, by simpa using hlo.trans_lt hab⟩
        rw [getD_eq hpos]; exact List.getElem_mem _
      have hz : ts.filter (fun t => decide (t < b)) = [] := List.length_eq_zero_iff.1 h
      rw [hz] at this
      exact absurd this (by simp)
    have hcd : c < ts.length := by
      by_contra h
      have h' : rest.length < c := by omega
      have hm := mem_take_getD h' (List.length_filter_le _ _)
      rw [ha1] at hm
      have := (List.mem_filter.1 hm).2
      simp only [decide_eq_true_eq] at this
      exact absurd (hab.le.trans hhi) (not_le.2 this)
    -- the tail
    have hbt : b ≠ ts.getD (if d = 0 then rest.length else d - 1) 0 := by
      rw [if_neg hd0]
      have hm := mem_take_getD (show d - 1 < d by omega) hdl
      rw [hb1] at hm
      have := (List.mem_filter.1 hm).2
      simp only [decide_eq_true_eq] at this
      exact ne_of_gt this
    rw [if_pos hbt]
    -- the middle
    have hmid : (ts.take d).drop c = (ts.drop c).filter (· < b) := by
      have h1 : (ts.filter (· < b)).filter (· < a) = ts.filter (· < a) := by
        rw [List.filter_filter]
        apply List.filter_congr
        intro x _
        by_cases hx : x < a
        · simp [hx, hx.trans hab]
        · simp [hx]
      have h2 := (filter_take_drop (pw_lt (hs.sublist (List.filter_sublist (p := fun t => decide (t < b)))) a)).2
      rw [h1, ← hc] at h2
      rw [hb1, h2, ha2, List.filter_filter, List.filter_filter]
      apply List.filter_congr
      intro x _
      rw [Bool.and_comm]
    have hD : ts.drop c = ts.getD c 0 :: ts.drop (c + 1) := by
      rw [getD_eq hcd]; exact List.drop_eq_getElem_cons hcd
    have hDs : (ts.drop c).Pairwise (· < ·) := hs.sublist (List.drop_sublist _ _)
    have hca : a ≤ ts.getD c 0 := by
      have hm := mem_drop_getD (le_refl c) hcd
      rw [ha2] at hm
      simpa using (List.mem_filter.1 hm).2
    have hfil : ts.filter (fun t => decide (a < t) && decide (t < b)) =
        ((ts.drop c).filter (fun t => decide (a < t))).filter (fun t => decide (t < b)) := by
      rw [ha2, List.filter_filter, List.filter_filter]
      apply List.filter_congr
      intro x _
      by_cases h1 : a < x
      · simp [h1, h1.le]
      · simp [h1]
    rw [hmid, hfil]
    congr 2
    rw [hD] at hDs ⊢
    rw [List.pairwise_cons] at hDs
    rcases lt_or_eq_of_le hca with hca | hca
    · rw [if_pos (ne_of_lt hca)]
      have : (ts.getD c 0 :: ts.drop (c + 1)).filter (fun t => decide (a < t)) = ts.getD c 0 :: ts.drop (c + 1) := by
        rw [List.filter_eq_self]
        intro x hx
        rw [List.mem_cons] at hx
        rcases hx with rfl | hx
        · simpa using hca
        · simpa using hca.trans (hDs.1 x hx)
      rw [this]
      rfl
    · rw [if_neg (not_not.2 hca)]
      have h1 : (ts.getD c 0 :: ts.drop (c + 1)).filter (fun t => decide (a < t)) = ts.drop (c + 1) := by
        rw [List.filter_cons_of_neg (by rw [← hca]; simp), List.filter_eq_self]
        intro x hx
        simpa [hca] using hDs.1 x hx
      rw [h1, ← hca, List.filter_cons_of_pos (by simpa using hab)]
      rfl

end Beluga.Traj
