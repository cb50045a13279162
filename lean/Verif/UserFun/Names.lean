import Verif.UserFun.Model
import Verif.PyLemmas
import Mathlib.Data.List.Basic

/-!
# Reading the names of derivatives
-/

namespace Beluga.UserFun

/-! ### Numbers -/

theorem dec_digit {n : Nat} {c : Char} (h : c ∈ dec n) : c.isDigit = true :=
  Nat.isDigit_of_mem_toDigits (by omega) (by omega) h

theorem dec_ne_nil (n : Nat) : dec n ≠ [] := Nat.toDigits_ne_nil

theorem dec_inj {m n : Nat} (h : dec m = dec n) : m = n := by
  have := congrArg (fun l => Nat.ofDigitChars 10 l 0) h
  simpa [dec, Nat.ofDigitChars_ten_toDigits] using this

/-- A number followed by something that does not start with a digit can be read back. -/
theorem dec_append_inj {m n : Nat} {u v : Str} (hu : ∀ c, u.head? = some c → c.isDigit = false)
    (hv : ∀ c, v.head? = some c → c.isDigit = false) (h : dec m ++ u = dec n ++ v) : m = n ∧ u = v := by
  have key : ∀ (a b u v : Str), (∀ c ∈ a, c.isDigit = true) → (∀ c ∈ b, c.isDigit = true) →
      (∀ c, u.head? = some c → c.isDigit = false) → (∀ c, v.head? = some c → c.isDigit = false) →
      a ++ u = b ++ v → a = b ∧ u = v := by
    intro a
    induction a with
    | nil =>
      intro b u v _ hb hu _ h
      cases b with
      | nil => exact ⟨rfl, h⟩
      | cons c b =>
        simp only [List.nil_append, List.cons_append] at h
        have h1 := hb c (by simp)
        have h2 := hu c (by simp [h])
        rw [h1] at h2; cases h2
    | cons c a ih =>
      intro b u v ha hb hu hv h
      cases b with
      | nil =>
        simp only [List.nil_append, List.cons_append] at h
        have h1 := ha c (by simp)
        have h2 := hv c (by simp [← h])
        rw [h1] at h2; cases h2
      | cons c' b =>
        simp only [List.cons_append, List.cons.injEq] at h
        obtain ⟨h1, h2⟩ := ih b u v (fun x hx => ha x (by simp [hx])) (fun x hx => hb x (by simp [hx])) hu hv h.2
        exact ⟨by rw [h.1, h1], h2⟩
  obtain ⟨h1, h2⟩ := key _ _ _ _ (fun _ => dec_digit) (fun _ => dec_digit) hu hv h
  exact ⟨dec_inj h1, h2⟩

/-! ### The name after a sequence of differentiations -/

/-- How often each of `n` arguments occurs in a list of positions. -/
def ord (n : Nat) (path : List Nat) : List Nat := (List.range n).map fun i => path.count i

/-- The name after differentiating with respect to the arguments in `path`, the last one first. -/
def nameOf (f : Str) (args : List Str) : List Nat → Str
  | [] => f
  | i :: p => constructName (nameOf f args p) args (ord args.length (i :: p))

def pre : Nat → Str
  | 0 => []
  | 1 => ['d']
  | k + 2 => 'd' :: (dec (k + 2) ++ pre (k + 1))

def tailOf (args : List Str) : List Nat → Str
  | [] => []
  | i :: p => tailOf args p ++ '_' :: post args (ord args.length (i :: p))

theorem sum_ord {n : Nat} {p : List Nat} (hp : ∀ i ∈ p, i < n) : (ord n p).sum = p.length := by
  induction p with
  | nil => simp [ord]
  | cons i p ih =>
    have h1 := ih fun j hj => hp j (by simp [hj])
    have hi := hp i (by simp)
    have : ∀ (m : Nat), ((List.range m).map fun j => (i :: p).count j).sum =
        ((List.range m).map fun j => p.count j).sum + if i < m then 1 else 0 := by
      intro m
      induction m with
      | zero => simp
      | succ m ihm =>
        rw [List.range_succ, List.map_append, List.sum_append, ihm, List.map_append, List.sum_append]
        simp only [List.map_cons, List.map_nil, List.sum_cons, List.sum_nil, List.count_cons, beq_iff_eq]
        split <;> split <;> split <;> omega
    unfold ord at h1 ⊢
    rw [this n, if_pos hi, h1]
    rfl

theorem ord_cons (n : Nat) (p : List Nat) (i : Nat) : (ord n p).modify i (· + 1) = ord n (i :: p) := by
  apply List.ext_getElem
  · simp [ord]
  · intro j h1 h2
    simp only [ord, List.getElem_modify, List.getElem_map, List.getElem_range, List.count_cons, beq_iff_eq]
    split <;> rfl

theorem length_ord (n : Nat) (p : List Nat) : (ord n p).length = n := by simp [ord]

theorem nameOf_eq (f : Str) (args : List Str) : ∀ p : List Nat, (∀ i ∈ p, i < args.length) →
    nameOf f args p = pre p.length ++ (f ++ tailOf args p) := by
  intro p
  induction p with
  | nil => intro _; simp [nameOf, pre, tailOf]
  | cons i p ih =>
    intro hp
    have h1 := ih fun j hj => hp j (by simp [hj])
    have hs := sum_ord hp
    rw [nameOf, constructName]
    simp only [hs, List.length_cons]
    rw [if_neg (by omega), h1, tailOf]
    cases hl : p.length with
    | zero => simp [pre]
    | succ k => simp [pre]

theorem tail_head {args : List Str} {i : Nat} {p : List Nat} (hp : ∀ j ∈ i :: p, j < args.length) :
    ∃ r, tailOf args (i :: p) = '_' :: 'd' :: r := by
  have hpost : ∀ q : List Nat, ∀ j ∈ q, j < args.length → ∃ r, post args (ord args.length q) = 'd' :: r := by
    intro q j hj hjn
    have : ∀ (as : List Str) (o : List Nat), as.length = o.length → (∃ x ∈ o, x ≠ 0) → ∃ r, post as o = 'd' :: r := by
      intro as
      induction as with
      | nil => intro o hl ⟨x, hx, _⟩; cases o <;> simp_all
      | cons a as ih =>
        intro o hl hx
        cases o with
        | nil => simp at hl
        | cons k o =>
          by_cases hk : k = 0
          · subst hk
            obtain ⟨r, hr⟩ := ih o (by simpa using hl) (by simpa using hx)
            refine ⟨r, ?_⟩
            unfold post at hr ⊢
            simp [piece, hr]
          · unfold post
            by_cases h1 : k = 1 <;> simp [piece, hk, h1]
    apply this args _ (length_ord _ _).symm
    refine ⟨q.count j, ?_, ?_⟩
    · unfold ord
      exact List.mem_map.2 ⟨j, List.mem_range.2 hjn, rfl⟩
    · exact Nat.pos_iff_ne_zero.1 (List.count_pos_iff.2 hj)
  have : ∀ (p : List Nat) (i : Nat), (∀ j ∈ i :: p, j < args.length) → ∃ r, tailOf args (i :: p) = '_' :: 'd' :: r := by
    intro p
    induction p with
    | nil =>
      intro i hp
      obtain ⟨r, hr⟩ := hpost [i] i (by simp) (hp i (by simp))
      exact ⟨r, by rw [tailOf, hr]; rfl⟩
    | cons j p ih =>
      intro i hp
      obtain ⟨r, hr⟩ := ih j fun x hx => hp x (by simp only [List.mem_cons] at hx ⊢; tauto)
      exact ⟨r ++ '_' :: post args (ord args.length (i :: j :: p)), by rw [tailOf, hr]; rfl⟩
  exact this p i hp

/-! ### Which function, how many differentiations -/

/-- The beginning of a name does not start with a digit. -/
def NoDigit (f : Str) : Prop := ∃ c r, f = c :: r ∧ c.isDigit = false

theorem pre_head {k : Nat} {u : Str} : ∃ r, pre (k + 1) ++ u = 'd' :: r := by
  cases k <;> exact ⟨_, rfl⟩

theorem pre_inj {f g u v : Str} (hf : NoDigit f) (hg : NoDigit g) : ∀ {k l : Nat},
    pre (k + 1) ++ (f ++ u) = pre (l + 1) ++ (g ++ v) → k = l ∧ f ++ u = g ++ v := by
  obtain ⟨cf, rf, rfl, hcf⟩ := hf
  obtain ⟨cg, rg, rfl, hcg⟩ := hg
  have hd : ∀ {m : Nat} {w : Str}, ∀ c, (pre (m + 1) ++ w).head? = some c → c.isDigit = false := by
    intro m w c h
    obtain ⟨r, hr⟩ := pre_head (k := m) (u := w)
    rw [hr] at h
    simp only [List.head?_cons, Option.some.injEq] at h
    subst h; decide
  have one : ∀ {c : Char} {r w : Str} {m : Nat}, c.isDigit = false → 'd' :: (c :: r) ≠ 'd' :: (dec (m + 2) ++ w) := by
    intro c r w m hc h
    obtain ⟨d, ds, hds⟩ := List.exists_cons_of_ne_nil (dec_ne_nil (m + 2))
    have := dec_digit (n := m + 2) (c := d) (by rw [hds]; simp)
    rw [hds] at h
    simp only [List.cons_append, List.cons.injEq, true_and] at h
    rw [← h.1, hc] at this; cases this
  intro k l h
  cases k with
  | zero =>
    cases l with
    | zero => simpa [pre] using h
    | succ l =>
      simp only [pre, List.cons_append, List.append_assoc, List.nil_append] at h
      exact absurd h (one hcf)
  | succ k =>
    cases l with
    | zero =>
      simp only [pre, List.cons_append, List.append_assoc, List.nil_append] at h
      exact absurd h.symm (one hcg)
    | succ l =>
      have h' : dec (k + 2) ++ (pre (k + 1) ++ (cf :: rf ++ u)) = dec (l + 2) ++ (pre (l + 1) ++ (cg :: rg ++ v)) := by
        simpa [pre] using h
      obtain ⟨h1, h2⟩ := dec_append_inj hd hd h'
      have : k = l := by omega
      subst this
      exact ⟨rfl, List.append_cancel_left h2⟩

/-- No function's name continues the name of a function with `_d`. -/
def Apart (f g : Str) : Prop := ¬ (f ++ ['_', 'd']) <:+: g

theorem mid_inj {f g r s : Str} (h1 : Apart f g) (h2 : Apart g f) (h : f ++ '_' :: 'd' :: r = g ++ '_' :: 'd' :: s) :
    f = g ∧ r = s := by
  have half : ∀ {f g r s as : Str}, Apart g f → f = g ++ as → as ++ '_' :: 'd' :: r = '_' :: 'd' :: s → as = [] := by
    intro f g r s as ha hf h
    match as, h with
    | [], _ => rfl
    | [c], h => simp at h
    | c :: d :: as, h =>
      simp only [List.cons_append, List.cons.injEq] at h
      obtain ⟨rfl, rfl, -⟩ := h
      exact absurd ⟨[], as, by simp [hf]⟩ ha
  rcases List.append_eq_append_iff.1 h with ⟨as, e1, e2⟩ | ⟨as, e1, e2⟩
  · have := half h1 e1 e2.symm
    subst this
    simp_all
  · have := half h2 e1 e2.symm
    subst this
    simp_all

/-- The name tells the function and the number of differentiations. -/
theorem nameOf_function {f g : Str} {args args' : List Str} {p q : List Nat} (hf : NoDigit f) (hg : NoDigit g)
    (hfg : Apart f g) (hgf : Apart g f) (hp : ∀ i ∈ p, i < args.length) (hq : ∀ i ∈ q, i < args'.length)
    (h : nameOf f args p = nameOf g args' q) : f = g ∧ p.length = q.length ∧ tailOf args p = tailOf args' q := by
  rw [nameOf_eq _ _ _ hp, nameOf_eq _ _ _ hq] at h
  cases p with
  | nil =>
    cases q with
    | nil => simpa [pre, tailOf] using h
    | cons j q =>
      obtain ⟨r, hr⟩ := tail_head hq
      rw [hr] at h
      exact absurd ⟨pre (j :: q).length, r, by simpa [pre, tailOf] using h.symm⟩ hgf
  | cons i p =>
    cases q with
    | nil =>
      obtain ⟨r, hr⟩ := tail_head hp
      rw [hr] at h
      exact absurd ⟨pre (i :: p).length, r, by simpa [pre, tailOf] using h⟩ hfg
    | cons j q =>
      obtain ⟨hk, h⟩ := pre_inj hf hg h
      obtain ⟨r, hr⟩ := tail_head hp
      obtain ⟨s, hs⟩ := tail_head hq
      rw [hr, hs] at h
      obtain ⟨h1, h2⟩ := mid_inj hfg hgf h
      exact ⟨h1, by simp [hk], by rw [hr, hs, h2]⟩

/-! ### Which arguments -/

/-- A name in which the markers for derivatives cannot be confused: it does not contain the letter `d` and does not end with an
underscore. -/
def Plain (a : Str) : Prop := a ≠ [] ∧ 'd' ∉ a ∧ a.getLast? ≠ some '_'

def chunk (a : Str) (k : Nat) : Str := if k = 1 then a else a ++ dec k

def chunks : List Str → List Nat → List Str
  | a :: as, k :: ks => (if k = 0 then [] else [chunk a k]) ++ chunks as ks
  | _, _ => []

theorem post_eq : ∀ (args : List Str) (o : List Nat), post args o = ((chunks args o).map ('d' :: ·)).flatten
  | [], o => by cases o <;> rfl
  | a :: as, [] => rfl
  | a :: as, k :: o => by
    have ih := post_eq as o
    unfold post at ih ⊢
    rw [List.zipWith_cons_cons, List.flatten_cons, ih, chunks, List.map_append, List.flatten_append]
    congr 1
    by_cases h0 : k = 0
    · simp [piece, h0]
    · by_cases h1 : k = 1 <;> simp [piece, h0, h1, chunk]

theorem d_not_dec (n : Nat) : 'd' ∉ dec n := fun h => by
  have := dec_digit h
  revert this; decide

theorem chunk_plain {a : Str} (h : Plain a) (k : Nat) : Plain (chunk a k) := by
  unfold chunk
  split
  · exact h
  · refine ⟨by simp [h.1], ?_, ?_⟩
    · rw [List.mem_append]
      rintro (hm | hm)
      · exact h.2.1 hm
      · exact d_not_dec k hm
    · rw [List.getLast?_append_of_ne_nil _ (dec_ne_nil k)]
      intro hl
      have := dec_digit (List.mem_of_getLast? hl)
      revert this; decide

theorem chunks_plain : ∀ {args : List Str} {o : List Nat}, (∀ a ∈ args, Plain a) → ∀ c ∈ chunks args o, Plain c
  | [], o, _ => by cases o <;> simp [chunks]
  | a :: as, [], _ => by simp [chunks]
  | a :: as, k :: o, h => by
    intro c hc
    rw [chunks, List.mem_append] at hc
    rcases hc with hc | hc
    · split at hc
      · simp at hc
      · rw [List.mem_singleton] at hc; subst hc
        exact chunk_plain (h a (by simp)) k
    · exact chunks_plain (fun x hx => h x (by simp [hx])) c hc

/-- Words without `d`, each marked with a `d`, can be told apart. -/
theorem marked_inj : ∀ {l m : List Str}, (∀ c ∈ l, 'd' ∉ c) → (∀ c ∈ m, 'd' ∉ c) →
    (l.map ('d' :: ·)).flatten = (m.map ('d' :: ·)).flatten → l = m
  | [], [], _, _, _ => rfl
  | [], c :: m, _, _, h => by simp at h
  | c :: l, [], _, _, h => by simp at h
  | c :: l, c' :: m, hl, hm, h => by
    have hcut : ∀ (c c' u v : Str), 'd' ∉ c → 'd' ∉ c' → (∀ x, u.head? = some x → x = 'd') → (∀ x, v.head? = some x → x = 'd') →
        c ++ u = c' ++ v → c = c' ∧ u = v := by
      intro c
      induction c with
      | nil =>
        intro c' u v _ hc' hu _ h
        cases c' with
        | nil => exact ⟨rfl, h⟩
        | cons x c' =>
          simp only [List.nil_append, List.cons_append] at h
          have := hu x (by simp [h])
          subst this; simp at hc'
      | cons x c ih =>
        intro c' u v hc hc' hu hv h
        cases c' with
        | nil =>
          simp only [List.nil_append, List.cons_append] at h
          have := hv x (by simp [← h])
          subst this; simp at hc
        | cons y c' =>
          simp only [List.cons_append, List.cons.injEq] at h
          obtain ⟨h1, h2⟩ := ih c' u v (fun hx => hc (by simp [hx])) (fun hx => hc' (by simp [hx])) hu hv h.2
          exact ⟨by rw [h.1, h1], h2⟩
    have hhead : ∀ (m : List Str) x, ((m.map ('d' :: ·)).flatten).head? = some x → x = 'd' := by
      intro m x hx
      cases m with
      | nil => simp at hx
      | cons c m => simpa using hx.symm
    simp only [List.map_cons, List.flatten_cons, List.cons_append, List.cons.injEq, true_and] at h
    obtain ⟨h1, h2⟩ := hcut c c' _ _ (hl c (by simp)) (hm c' (by simp)) (hhead l) (hhead m) h
    rw [h1, marked_inj (fun x hx => hl x (by simp [hx])) (fun x hx => hm x (by simp [hx])) h2]

theorem rotate_eq {α : Type} {a b : α} : ∀ {l : List α}, a :: l = l ++ [b] → a = b
  | [], h => by simpa using h
  | x :: l, h => by
    simp only [List.cons_append, List.cons.injEq] at h
    obtain ⟨rfl, h⟩ := h
    exact rotate_eq h

theorem chunk_ne {a : Str} {k : Nat} (hk : k ≠ 0) : chunk a (k + 1) ≠ chunk a k := by
  unfold chunk
  rw [if_neg (by omega)]
  split
  · intro h
    exact dec_ne_nil _ (List.append_cancel_left (h.trans (List.append_nil a).symm))
  · intro h
    have := dec_inj (List.append_cancel_left h)
    omega

theorem chunks_modify : ∀ {args : List Str} {o : List Nat} {j : Nat}, args.length = o.length → j < o.length →
    (chunks args (o.modify j (· + 1))).length = (chunks args o).length ∨
    ∃ (l m : List Str) (a : Str), args[j]? = some a ∧ chunks args o = l ++ m ∧ chunks args (o.modify j (· + 1)) = l ++ a :: m
  | [], o, j, h, hj => by simp at h; omega
  | a :: as, [], j, h, hj => by simp at hj
  | a :: as, k :: o, 0, h, hj => by
    by_cases hk : k = 0
    · refine Or.inr ⟨[], chunks as o, a, rfl, ?_, ?_⟩ <;> simp [chunks, hk, chunk]
    · left; simp [chunks, hk]
  | a :: as, k :: o, j + 1, h, hj => by
    simp only [List.length_cons, Nat.add_right_cancel_iff, Nat.add_lt_add_iff_right] at h hj
    rcases chunks_modify (j := j) h hj with h1 | ⟨l, m, b, h1, h2, h3⟩
    · left; simp [chunks, h1]
    · right
      refine ⟨(if k = 0 then [] else [chunk a k]) ++ l, m, b, by simpa using h1, ?_, ?_⟩
      · simp [chunks, h2]
      · simp [chunks, h3]

/-- Two different arguments differentiated once more give different names. -/
theorem chunks_step : ∀ {args : List Str} {o : List Nat} {i j : Nat}, args.Nodup → args.length = o.length →
    i < o.length → j < o.length → chunks args (o.modify i (· + 1)) = chunks args (o.modify j (· + 1)) → i = j
  | [], o, i, j, _, h, hi, _, _ => by simp at h; omega
  | a :: as, [], i, j, _, h, _, _, _ => by simp at h
  | a :: as, k :: o, 0, 0, _, _, _, _, _ => rfl
  | a :: as, k :: o, i + 1, j + 1, hn, h, hi, hj, he => by
    simp only [List.length_cons, Nat.add_right_cancel_iff, Nat.add_lt_add_iff_right] at h hi hj
    simp only [chunks, List.modify_succ_cons] at he
    rw [chunks_step (List.nodup_cons.1 hn).2 h hi hj (List.append_cancel_left he)]
  | a :: as, k :: o, 0, j + 1, hn, h, hi, hj, he => absurd he (first hn h hj)
  | a :: as, k :: o, i + 1, 0, hn, h, hi, hj, he => absurd he.symm (first hn h hi)
where
  first {a : Str} {as : List Str} {k : Nat} {o : List Nat} {j : Nat} (hn : (a :: as).Nodup)
      (h : (a :: as).length = (k :: o).length) (hj : j + 1 < (k :: o).length) :
      chunks (a :: as) ((k :: o).modify 0 (· + 1)) ≠ chunks (a :: as) ((k :: o).modify (j + 1) (· + 1)) := by
    intro he
    simp only [List.length_cons, Nat.add_right_cancel_iff, Nat.add_lt_add_iff_right] at h hj
    simp only [chunks, List.modify_succ_cons, List.modify_zero_cons, if_neg (Nat.succ_ne_zero k)] at he
    by_cases hk : k = 0
    · subst hk
      simp only [if_true, List.nil_append] at he
      rcases chunks_modify (args := as) (j := j) h hj with h1 | ⟨l, m, b, h1, h2, h3⟩
      · have := congrArg List.length he
        simp [h1] at this
      · rw [h3, h2] at he
        have e : (a :: l) ++ m = (l ++ [b]) ++ m := by simpa [chunk] using he
        have := rotate_eq (List.append_cancel_right e)
        subst this
        exact (List.nodup_cons.1 hn).1 (List.mem_of_getElem? h1)
    · rw [if_neg hk] at he
      simp only [List.cons_append, List.nil_append, List.cons.injEq] at he
      exact chunk_ne hk he.1

/-- The last occurrence of `_d` separates. -/
theorem last_inj {u v P Q : Str} (hP : ∃ r, P = 'd' :: r) (hQ : ∃ r, Q = 'd' :: r) (hP' : ¬ ['_', 'd'] <:+: P)
    (hQ' : ¬ ['_', 'd'] <:+: Q) (h : u ++ '_' :: P = v ++ '_' :: Q) : u = v ∧ P = Q := by
  have half : ∀ {P Q as : Str}, (∃ r, P = 'd' :: r) → ¬ ['_', 'd'] <:+: Q → as ++ '_' :: P = '_' :: Q → as = [] := by
    rintro P Q as ⟨r, rfl⟩ hQ h
    cases as with
    | nil => rfl
    | cons c as =>
      simp only [List.cons_append, List.cons.injEq] at h
      exact absurd ⟨as, r, by simp [← h.2]⟩ hQ
  rcases List.append_eq_append_iff.1 h with ⟨as, e1, e2⟩ | ⟨as, e1, e2⟩
  · have := half hQ hP' e2.symm
    subst this; simp_all
  · have := half hP hQ' e2.symm
    subst this; simp_all

theorem no_marker : ∀ {l : List Str}, (∀ c ∈ l, Plain c) → ¬ ['_', 'd'] <:+: (l.map ('d' :: ·)).flatten := by
  have key : ∀ {l : List Str}, (∀ c ∈ l, Plain c) → ∀ s t : Str, s ++ ('_' :: 'd' :: t) ≠ (l.map ('d' :: ·)).flatten := by
    intro l
    induction l with
    | nil => intro _ s t h; simp at h
    | cons c l ih =>
      intro hl s t h
      obtain ⟨h0, hd, hlast⟩ := hl c (by simp)
      cases s with
      | nil => simp at h
      | cons x s =>
        simp only [List.map_cons, List.flatten_cons, List.cons_append, List.cons.injEq] at h
        obtain ⟨-, h⟩ := h
        rcases List.append_eq_append_iff.1 h with ⟨as, e1, e2⟩ | ⟨as, e1, e2⟩
        · -- `c = s ++ as`
          match as, e1, e2 with
          | [], e1, e2 =>
            have e2 : (l.map ('d' :: ·)).flatten = '_' :: 'd' :: t := by simpa using e2.symm
            cases l with
            | nil => simp at e2
            | cons c' l => simp at e2
          | [y], e1, e2 =>
            simp only [List.cons_append, List.nil_append, List.cons.injEq] at e2
            obtain ⟨rfl, -⟩ := e2
            exact hlast (by rw [e1]; simp)
          | y :: z :: as, e1, e2 =>
            simp only [List.cons_append, List.cons.injEq] at e2
            obtain ⟨rfl, rfl, -⟩ := e2
            exact hd (by rw [e1]; simp)
        · exact ih (fun x hx => hl x (by simp [hx])) as t e2.symm
  rintro l hl ⟨s, t, h⟩
  exact key hl s t (by simpa using h)

/-- With plain, distinct arguments the name tells how often each argument was differentiated. -/
theorem tail_order {args : List Str} (hn : args.Nodup) (hpl : ∀ a ∈ args, Plain a) : ∀ {p q : List Nat},
    (∀ i ∈ p, i < args.length) → (∀ i ∈ q, i < args.length) → p.length = q.length → tailOf args p = tailOf args q →
    ord args.length p = ord args.length q
  | [], [], _, _, _, _ => rfl
  | [], j :: q, _, _, h, _ => by simp at h
  | i :: p, [], _, _, h, _ => by simp at h
  | i :: p, j :: q, hp, hq, hl, h => by
    have hpost : ∀ (i : Nat) (p : List Nat), (∀ j ∈ i :: p, j < args.length) →
        (∃ r, post args (ord args.length (i :: p)) = 'd' :: r) ∧ ¬ ['_', 'd'] <:+: post args (ord args.length (i :: p)) := by
      intro i p hp
      have hno : ¬ ['_', 'd'] <:+: post args (ord args.length (i :: p)) := by
        rw [post_eq]; exact no_marker (chunks_plain hpl)
      refine ⟨?_, hno⟩
      rw [post_eq]
      cases hc : chunks args (ord args.length (i :: p)) with
      | cons c l => exact ⟨c ++ (l.map ('d' :: ·)).flatten, by simp⟩
      | nil =>
        exfalso
        have hi := hp i (by simp)
        have key : ∀ (as : List Str) (o : List Nat), as.length = o.length → chunks as o = [] → ∀ x ∈ o, x = 0 := by
          intro as
          induction as with
          | nil => intro o h _; cases o <;> simp_all
          | cons a as ih =>
            intro o h hc
            cases o with
            | nil => simp
            | cons k o =>
              rw [chunks, List.append_eq_nil_iff] at hc
              intro x hx
              rcases List.mem_cons.1 hx with rfl | hx
              · by_contra h0
                simp [h0] at hc
              · exact ih o (by simpa using h) hc.2 x hx
        have := key _ _ (length_ord _ _).symm hc ((i :: p).count i) (List.mem_map.2 ⟨i, List.mem_range.2 hi, rfl⟩)
        simp at this
    have hp' : ∀ x ∈ p, x < args.length := fun x hx => hp x (by simp [hx])
    have hq' : ∀ x ∈ q, x < args.length := fun x hx => hq x (by simp [hx])
    rw [tailOf, tailOf] at h
    obtain ⟨h1, h2⟩ := last_inj (hpost i p hp).1 (hpost j q hq).1 (hpost i p hp).2 (hpost j q hq).2 h
    have ih := tail_order hn hpl hp' hq' (by simpa using hl) h1
    have hi := hp i (by simp)
    have hj := hq j (by simp)
    rw [← ord_cons, ← ord_cons, ← ih] at h2
    rw [post_eq, post_eq] at h2
    have h3 := marked_inj (fun c hc => (chunks_plain hpl c hc).2.1) (fun c hc => (chunks_plain hpl c hc).2.1) h2
    have h4 := chunks_step hn (length_ord _ _).symm (by rw [length_ord]; exact hi) (by rw [length_ord]; exact hj) h3
    subst h4
    rw [← ord_cons, ← ord_cons, ih]

theorem post_single {args : List Str} {i : Nat} (hi : i < args.length) :
    post args (ord args.length [i]) = 'd' :: args.getD i [] := by
  have key : ∀ (as : List Str) (b n : Nat), i < as.length + b → b ≤ i → n = as.length →
      (List.zipWith piece as ((List.range' b n).map fun x => [i].count x)).flatten = 'd' :: as.getD (i - b) [] := by
    intro as
    induction as with
    | nil => intro b n h1 h2 _; simp at h1; omega
    | cons a as ih =>
      intro b n h1 h2 hn
      subst hn
      rw [List.length_cons, List.range'_succ, List.map_cons, List.zipWith_cons_cons, List.flatten_cons]
      by_cases hb : b = i
      · subst hb
        have : ∀ (as : List Str) (b' n : Nat), b < b' →
            (List.zipWith piece as ((List.range' b' n).map fun x => [b].count x)).flatten = [] := by
          intro as
          induction as with
          | nil => intro _ _ _; simp
          | cons a as ih =>
            intro b' n hb'
            cases n with
            | zero => simp
            | succ n =>
              rw [List.range'_succ, List.map_cons, List.zipWith_cons_cons, List.flatten_cons, ih _ _ (by omega)]
              simp [piece, show ¬ b = b' by omega]
        rw [this _ _ _ (by omega)]
        simp [piece]
      · rw [ih (b + 1) as.length (by simp at h1; omega) (by omega) rfl]
        have e : i - b = (i - (b + 1)) + 1 := by omega
        rw [e, List.getD_cons_succ]
        simp [piece, Ne.symm hb]
  have := key args 0 args.length (by simpa using hi) (by omega) rfl
  rw [← List.range_eq_range'] at this
  exact this

/-- A first derivative: any distinct arguments will do. -/
theorem tail_first {args : List Str} (hn : args.Nodup) {i j : Nat} (hi : i < args.length) (hj : j < args.length)
    (h : tailOf args [i] = tailOf args [j]) : i = j := by
  simp only [tailOf, post_single hi, post_single hj, List.nil_append, List.cons.injEq, true_and, List.getD,
    List.getElem?_eq_getElem hi, List.getElem?_eq_getElem hj, Option.getD_some] at h
  exact (List.Nodup.getElem_inj_iff hn).1 h

end Beluga.UserFun
