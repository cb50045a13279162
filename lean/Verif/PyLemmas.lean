import Verif.Py
import Mathlib.Tactic.Ring
import Mathlib.Tactic.FieldSimp
import Mathlib.Tactic.Linarith
import Mathlib.Tactic.Positivity
import Mathlib.Tactic.Push

/-! Helper lemmas about the primitives of `Verif.Py`. -/

namespace Beluga

theorem Py.bind_ok {α β : Type _} {x : Py α} {f : α → Py β} {b : β} :
    (x >>= f) = .ok b ↔ ∃ a, x = .ok a ∧ f a = .ok b := by
  cases x with
  | error e => simp [bind, Except.bind]
  | ok a => simp [bind, Except.bind]

theorem Py.ok_bind {α β : Type _} (a : α) (f : α → Py β) : ((Except.ok a : Py α) >>= f) = f a := rfl

theorem Py.mapM_forall₂ {α β : Type} {f : α → Py β} {Q : α → β → Prop} :
    ∀ {l : List α}, (∀ x ∈ l, ∃ y, f x = .ok y ∧ Q x y) → ∃ ys, l.mapM f = .ok ys ∧ List.Forall₂ Q l ys
  | [], _ => ⟨[], rfl, .nil⟩
  | x :: l, h => by
    obtain ⟨y, hy, hq⟩ := h x (List.mem_cons_self ..)
    obtain ⟨ys, hys, hqs⟩ := Py.mapM_forall₂ fun z hz => h z (List.mem_cons_of_mem _ hz)
    refine ⟨y :: ys, ?_, .cons hq hqs⟩
    rw [List.mapM_cons, hy, hys]
    rfl

theorem Py.mapM_ok {α β : Type} {f : α → Py β} {g : α → β} :
    ∀ {l : List α}, (∀ x ∈ l, f x = .ok (g x)) → l.mapM f = .ok (l.map g)
  | [], _ => rfl
  | x :: l, h => by
    rw [List.mapM_cons, h x (List.mem_cons_self ..), Py.mapM_ok fun z hz => h z (List.mem_cons_of_mem _ hz)]
    rfl

theorem Py.index_ok {α : Type _} [DecidableEq α] {l : List α} {x : α} {i : Nat} (h : Py.index l x = .ok i) :
    l[i]? = some x := by
  unfold Py.index at h
  split at h
  · next j hj =>
    simp only [Except.ok.injEq] at h
    subst h
    rw [List.findIdx?_eq_some_iff_getElem] at hj
    obtain ⟨hlt, hx, -⟩ := hj
    simp only [decide_eq_true_eq] at hx
    rw [List.getElem?_eq_getElem hlt, hx]
  · cases h

theorem Py.index_of_mem {α : Type _} [DecidableEq α] {l : List α} {x : α} (h : x ∈ l) :
    ∃ i, Py.index l x = .ok i := by
  unfold Py.index
  split
  · next j _ => exact ⟨j, rfl⟩
  · next hn =>
    rw [List.findIdx?_eq_none_iff] at hn
    exact absurd (hn x h) (by simp)

theorem Py.index_error {α : Type _} [DecidableEq α] {l : List α} {x : α} (h : x ∉ l) :
    Py.index l x = .error .valueError := by
  unfold Py.index
  split
  · next j hj =>
    rw [List.findIdx?_eq_some_iff_getElem] at hj
    obtain ⟨hlt, hx, -⟩ := hj
    simp only [decide_eq_true_eq] at hx
    exact absurd (hx ▸ List.getElem_mem hlt) h
  · rfl

theorem Py.index_ok_iff {α : Type _} [DecidableEq α] {l : List α} (hl : l.Nodup) {x : α} {i : Nat} :
    Py.index l x = .ok i ↔ l[i]? = some x := by
  refine ⟨Py.index_ok, fun h => ?_⟩
  have hm : x ∈ l := List.mem_of_getElem? h
  obtain ⟨j, hj⟩ := Py.index_of_mem hm
  have h2 := Py.index_ok hj
  have hi : i < l.length := by
    rw [List.getElem?_eq_some_iff] at h; exact h.1
  have : i = j := by
    apply (List.getElem?_inj hi hl).1
    rw [h, h2]
  rw [this, hj]

theorem Py.get_ok {α : Type _} {l : List α} {i : Nat} {x : α} : Py.get l i = .ok x ↔ l[i]? = some x := by
  unfold Py.get
  split <;> simp_all

theorem Py.set_ok {α : Type _} {l l' : List α} {i : Nat} {x : α} :
    Py.set l i x = .ok l' ↔ i < l.length ∧ l' = l.set i x := by
  unfold Py.set
  split
  · simp_all [eq_comm]
  · simp_all

section linspace
variable {K : Type _} [Field K]

@[simp] theorem length_linspace (a b : K) (n : Nat) : (linspace a b n).length = n := by
  simp [linspace]

@[simp] theorem length_linspaceOpen (a b : K) (n : Nat) : (linspaceOpen a b n).length = n := by
  simp [linspaceOpen]

@[simp] theorem length_logspace (L : LogOps K) (a b : K) (n : Nat) : (logspace L a b n).length = n := by
  simp [logspace]

variable [CharZero K]

/-- The overwritten last entry of `linspace` is what the formula gives anyway (in exact arithmetic). -/
theorem linspace_eq (a b : K) (n : Nat) :
    linspace a b n = (List.range n).map fun i : Nat => a + (i : K) * ((b - a) / ((n - 1 : Nat) : K)) := by
  unfold linspace
  apply List.map_congr_left
  intro i hi
  rw [List.mem_range] at hi
  split
  · next h =>
    obtain ⟨h1, h2⟩ := h
    obtain ⟨m, rfl⟩ : ∃ m, n = m + 2 := ⟨n - 2, by omega⟩
    have : i = m + 1 := by omega
    subst this
    have hne : ((m + 2 - 1 : Nat) : K) ≠ 0 := by
      have : m + 2 - 1 = m + 1 := by omega
      rw [this]; exact_mod_cast Nat.succ_ne_zero m
    have h3 : ((m + 2 - 1 : Nat) : K) = ((m + 1 : Nat) : K) := by norm_num
    rw [h3] at hne ⊢
    field_simp
    ring
  · rfl

theorem linspace_getElem? (a b : K) (n i : Nat) (h : i < n) :
    (linspace a b n)[i]? = some (a + (i : K) * ((b - a) / ((n - 1 : Nat) : K))) := by
  rw [linspace_eq]; simp [h]

/-- `linspace` commutes with affine maps. -/
theorem linspace_map_affine (x d a b : K) (n : Nat) :
    linspace (x + a * d) (x + b * d) n = (linspace a b n).map fun t => x + t * d := by
  rw [linspace_eq, linspace_eq, List.map_map]
  apply List.map_congr_left
  intro i _
  simp only [Function.comp_apply]
  ring

end linspace

section argmin
variable {K : Type _} [LinearOrder K]

/-- `i` is the position of the first minimum of `l`. -/
def FirstMin (l : List K) (i : Nat) : Prop :=
  ∃ x, l[i]? = some x ∧ (∀ (j : Nat) (y : K), l[j]? = some y → x ≤ y) ∧ ∀ (j : Nat) (y : K), j < i → l[j]? = some y → x < y

theorem argminGo_spec (pre : List K) (best : K) (i : Nat) (xs : List K)
    (hi : pre[i]? = some best) (hmin : ∀ (j : Nat) (y : K), pre[j]? = some y → best ≤ y)
    (hfirst : ∀ (j : Nat) (y : K), j < i → pre[j]? = some y → best < y) :
    FirstMin (pre ++ xs) (argminGo best i pre.length xs) := by
  induction xs generalizing pre best i with
  | nil =>
    simp only [argminGo, List.append_nil]
    exact ⟨best, hi, hmin, hfirst⟩
  | cons x xs ih =>
    have hil : i < pre.length := by
      rw [List.getElem?_eq_some_iff] at hi; exact hi.1
    have hsplit : pre ++ x :: xs = (pre ++ [x]) ++ xs := by simp
    have hlen : pre.length + 1 = (pre ++ [x]).length := by simp
    have hget : ∀ (j : Nat) (y : K), (pre ++ [x])[j]? = some y → pre[j]? = some y ∨ (j = pre.length ∧ y = x) := by
      intro j y hj
      rcases Nat.lt_trichotomy j pre.length with h | h | h
      · left; rwa [List.getElem?_append_left h] at hj
      · right
        subst h
        simp at hj
        exact ⟨rfl, hj.symm⟩
      · rw [List.getElem?_eq_none (by simp; omega)] at hj
        cases hj
    simp only [argminGo]
    rw [hsplit, hlen]
    split
    · next hlt =>
      apply ih
      · simp
      · intro j y hj
        rcases hget j y hj with h | ⟨-, rfl⟩
        · exact le_of_lt (lt_of_lt_of_le hlt (hmin j y h))
        · exact le_refl _
      · intro j y hjl hj
        rw [List.getElem?_append_left hjl] at hj
        exact lt_of_lt_of_le hlt (hmin j y hj)
    · next hlt =>
      rw [not_lt] at hlt
      apply ih
      · rw [List.getElem?_append_left hil]; exact hi
      · intro j y hj
        rcases hget j y hj with h | ⟨-, rfl⟩
        · exact hmin j y h
        · exact hlt
      · intro j y hjl hj
        rw [List.getElem?_append_left (by omega)] at hj
        exact hfirst j y hjl hj

theorem argmin_ok {l : List K} {i : Nat} (h : argmin l = .ok i) : FirstMin l i := by
  cases l with
  | nil => cases h
  | cons x xs =>
    simp only [argmin, Except.ok.injEq] at h
    subst h
    have := argminGo_spec [x] x 0 xs (by simp) (by
      intro j y hj
      cases j with
      | zero => simp at hj; exact le_of_eq hj
      | succ j => simp at hj) (by intro j y hj; omega)
    simpa using this

theorem argmin_total {l : List K} (h : l ≠ []) : ∃ i, argmin l = .ok i := by
  cases l with
  | nil => exact absurd rfl h
  | cons x xs => exact ⟨_, rfl⟩

theorem FirstMin.unique {l : List K} {i j : Nat} (hi : FirstMin l i) (hj : FirstMin l j) : i = j := by
  obtain ⟨x, hx, hxm, hxf⟩ := hi
  obtain ⟨y, hy, hym, hyf⟩ := hj
  rcases Nat.lt_trichotomy i j with h | h | h
  · exact absurd (hyf i x h hx) (not_lt.2 (hxm j y hy))
  · exact h
  · exact absurd (hxf j y h hy) (not_lt.2 (hym i x hx))

theorem FirstMin.lt_length {l : List K} {i : Nat} (hi : FirstMin l i) : i < l.length := by
  obtain ⟨x, hx, -⟩ := hi
  rw [List.getElem?_eq_some_iff] at hx; exact hx.1

end argmin

end Beluga
