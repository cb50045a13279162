import Verif.EndToEnd.Stages

/-! # The control that is mapped back is the control that the equations of motion used -/

namespace Beluga.E2E

open Beluga.Sym Beluga.Sym.Expr Beluga.Num Beluga.Map Beluga.Opt Beluga.Rep

theorem bindArgs_cons {ns : List Name} {args : List (List Name)} {v : List ℝ} {vals : List (List ℝ)} {env : List (Name × ℝ)}
    (h : bindArgs (ns :: args) (v :: vals) = .ok env) : ∃ rest, bindArgs args vals = .ok rest ∧ env = ns.zip v ++ rest := by
  rw [bindArgs] at h
  split at h
  · cases h
  · obtain ⟨rest, h1, h⟩ := bind_ok h
    cases h
    exact ⟨rest, h1, rfl⟩

theorem lookup_append {α : Type} (s : Name) : ∀ (l m : List (Name × α)), (l ++ m).lookup s = (l.lookup s).or (m.lookup s)
  | [], m => by simp
  | (x, v) :: l, m => by
    rw [List.cons_append, List.lookup_cons, List.lookup_cons]
    split
    · rfl
    · exact lookup_append s l m

theorem lookup_zip_none {s : Name} : ∀ {ns : List Name} {v : List ℝ}, s ∉ ns → (ns.zip v).lookup s = none
  | [], _, _ => by simp
  | n :: ns, [], _ => by simp
  | n :: ns, x :: v, h => by
    have h1 : (s == n) = false := by
      simp only [List.mem_cons, not_or] at h
      simpa using h.1
    rw [List.zip_cons_cons, List.lookup_cons, h1]
    exact lookup_zip_none fun hh => h (List.mem_cons_of_mem _ hh)

/-- Two layouts of the arguments that end with parameters and constants; the second one has no parameters. -/
theorem bindArgs_mid {ps cs : List Name} {pr k : List ℝ} : ∀ {M : List (List Name)} {vM : List (List ℝ)} {e1 e2 : List (Name × ℝ)},
    bindArgs (M ++ [ps, cs]) (vM ++ [pr, k]) = .ok e1 → bindArgs (M ++ [[], cs]) (vM ++ [[], k]) = .ok e2 → M.length = vM.length →
    ∃ m, e1 = m ++ (ps.zip pr ++ cs.zip k) ∧ e2 = m ++ cs.zip k ∧ ∀ s ∉ M.flatten, m.lookup s = none
  | [], [], e1, e2, h1, h2, _ => by
    obtain ⟨r, h3, rfl⟩ := bindArgs_cons h1
    obtain ⟨r', h4, rfl⟩ := bindArgs_cons h3
    cases h4
    obtain ⟨r, h3, rfl⟩ := bindArgs_cons h2
    obtain ⟨r', h4, rfl⟩ := bindArgs_cons h3
    cases h4
    exact ⟨[], by simp, by simp, fun _ _ => rfl⟩
  | ns :: M, v :: vM, e1, e2, h1, h2, hl => by
    obtain ⟨r, h3, rfl⟩ := bindArgs_cons h1
    obtain ⟨r', h4, rfl⟩ := bindArgs_cons h2
    obtain ⟨m, rfl, rfl, h5⟩ := bindArgs_mid h3 h4 (by simpa using hl)
    refine ⟨ns.zip v ++ m, by simp, by simp, fun s hs => ?_⟩
    simp only [List.flatten_cons, List.mem_append, not_or] at hs
    rw [lookup_append, lookup_zip_none hs.1, h5 s hs.2]
    rfl

/-- The layout before and after the costates are squashed into the states. -/
theorem lambdify_squash {I : Interp ℝ} {ind : Name} {t : ℝ} {ns ms ps cs : List Name} {M : List (List Name)} {a b pr k : List ℝ}
    {vM : List (List ℝ)} {e : Expr} {v w : ℝ} (ha : ns.length = a.length) (hM : M.length = vM.length)
    (hind : ind ∉ ns ++ ms ++ M.flatten ++ ps ++ cs) (hps : ∀ s ∈ ps, s ∉ cs)
    (h1 : lambdify I ((ns ++ ms) :: (M ++ [ps, cs])) e ((a ++ b) :: (vM ++ [pr, k])) = .ok v)
    (h2 : lambdify I ([ind] :: ns :: ms :: (M ++ [[], cs])) e ([t] :: a :: b :: (vM ++ [[], k])) = .ok w) : v = w := by
  rw [lambdify] at h1 h2
  obtain ⟨e1, g1, h1⟩ := bind_ok h1
  obtain ⟨e2, g2, h2⟩ := bind_ok h2
  obtain ⟨r1, g3, rfl⟩ := bindArgs_cons g1
  obtain ⟨r2, g4, rfl⟩ := bindArgs_cons g2
  obtain ⟨r3, g5, rfl⟩ := bindArgs_cons g4
  obtain ⟨r4, g6, rfl⟩ := bindArgs_cons g5
  obtain ⟨m, rfl, rfl, hm⟩ := bindArgs_mid g3 g6 hM
  have hmind : m.lookup ind = none := hm ind (by simp only [List.mem_append, not_or] at hind; exact hind.1.1.2)
  split at h1
  · next hall1 =>
    split at h2
    · next hall2 =>
      cases h1
      cases h2
      refine eval_congr I fun s hs => ?_
      have i1 := List.all_eq_true.1 hall1 s hs
      have i2 := List.all_eq_true.1 hall2 s hs
      have hz : (ns ++ ms).zip (a ++ b) = ns.zip a ++ ms.zip b := List.zip_append ha
      rw [hz] at i1 ⊢
      simp only [lookup_append] at i1 i2 ⊢
      simp only [List.mem_append, not_or] at hind
      have hne : s ≠ ind := by
        rintro rfl
        rw [lookup_zip_none hind.1.1.1.1, lookup_zip_none hind.1.1.1.2, lookup_zip_none hind.1.2, lookup_zip_none hind.2, hmind] at i1
        cases i1
      have hs0 : (([ind] : List Name).zip [t]).lookup s = none := lookup_zip_none (by simpa using hne)
      rw [hs0] at i2 ⊢
      by_cases hsp : s ∈ ps
      · rw [lookup_zip_none (hps s hsp)] at i2 ⊢
        cases h3 : (ns.zip a).lookup s with
        | some x => simp
        | none =>
          cases h4 : (ms.zip b).lookup s with
          | some x => simp
          | none =>
            cases h5 : m.lookup s with
            | some x => simp
            | none => rw [h3, h4, h5] at i2; cases i2
      · rw [lookup_zip_none hsp]
        simp [Option.or_assoc]
    · cases h2
  · cases h1

theorem mapM_eq {α β : Type} {f g : α → Py β} : ∀ {l : List α} {m m' : List β}, l.mapM f = .ok m → l.mapM g = .ok m' →
    (∀ x ∈ l, ∀ v w, f x = .ok v → g x = .ok w → v = w) → m = m'
  | [], m, m', h1, h2, _ => by cases h1; cases h2; rfl
  | x :: l, m, m', h1, h2, h => by
    rw [List.mapM_cons] at h1 h2
    obtain ⟨v, a1, h1⟩ := bind_ok h1
    obtain ⟨vs, a2, h1⟩ := bind_ok h1
    obtain ⟨w, b1, h2⟩ := bind_ok h2
    obtain ⟨ws, b2, h2⟩ := bind_ok h2
    cases h1
    cases h2
    rw [h x (by simp) v w a1 b1, mapM_eq a2 b2 fun y hy => h y (by simp [hy])]

/-- `compute_u` of the boundary value problem and `compute_u` of the mapper agree. -/
theorem mapperU_agrees {I : Interp ℝ} {q p' : Prob} (hlaw : p'.controlLaw = q.controlLaw) (hH : p'.hamiltonian = q.hamiltonian)
    (hc : p'.controls = q.controls) (hs : sts p' = sts q ++ q.costates.map Dyn.name) (hk : p'.constants = q.constants)
    (hp : q.parameters = []) (hind : q.ind ∉ sts p' ++ p'.controls ++ p'.parameters ++ p'.constants)
    (hps : ∀ s ∈ p'.parameters, s ∉ p'.constants) {σ : Env} {t : ℝ} {pr k u w : List ℝ}
    (h1 : computeU I p' ((sts p').map σ) pr k = .ok (some u))
    (h2 : mapperU I q t ((sts q).map σ) ((q.costates.map Dyn.name).map σ) [] k = .ok w) : w = u := by
  rw [hs, hc, hk] at hind
  rw [hk] at hps
  simp only [List.mem_append, not_or] at hind
  have e1 : ∀ e v w, lambdify I [sts p', p'.parameters, p'.constants] e [(sts p').map σ, pr, k] = .ok v →
      lambdify I [[q.ind], sts q, q.costates.map Dyn.name, q.parameters, q.constants] e
        [[t], (sts q).map σ, (q.costates.map Dyn.name).map σ, [], k] = .ok w → v = w := by
    intro e v w g1 g2
    rw [hs, hk, List.map_append] at g1
    rw [hp] at g2
    refine lambdify_squash (M := []) (vM := []) (by simp) rfl ?_ hps g1 g2
    simp only [List.mem_append, List.flatten_nil, List.not_mem_nil, not_or, not_false_eq_true, and_true]
    exact ⟨⟨hind.1.1.1, hind.1.2⟩, hind.2⟩
  have e2 : ∀ H u v w, lambdify I [sts p', p'.controls, p'.parameters, p'.constants] H [(sts p').map σ, u, pr, k] = .ok v →
      lambdify I [[q.ind], sts q, q.costates.map Dyn.name, q.controls, q.parameters, q.constants] H
        [[t], (sts q).map σ, (q.costates.map Dyn.name).map σ, u, [], k] = .ok w → v = w := by
    intro H u v w g1 g2
    rw [hs, hk, hc, List.map_append] at g1
    rw [hp] at g2
    refine lambdify_squash (M := [q.controls]) (vM := [u]) (by simp) rfl ?_ hps g1 g2
    simp only [List.mem_append, List.flatten_cons, List.flatten_nil, List.append_nil, not_or]
    exact ⟨⟨⟨hind.1.1.1, hind.1.1.2⟩, hind.1.2⟩, hind.2⟩
  have e3 : ∀ (o : List Expr) v w, lambdifyL I [sts p', p'.parameters, p'.constants] o [(sts p').map σ, pr, k] = .ok v →
      lambdifyL I [[q.ind], sts q, q.costates.map Dyn.name, q.parameters, q.constants] o
        [[t], (sts q).map σ, (q.costates.map Dyn.name).map σ, [], k] = .ok w → v = w :=
    fun o v w g1 g2 => mapM_eq g1 g2 fun e _ => e1 e
  rw [computeU, hlaw, hH] at h1
  rw [mapperU] at h2
  split at h1
  · cases h1
  · next o ho =>
    rw [ho] at h2
    obtain ⟨v, g1, h1⟩ := bind_ok h1
    cases h1
    exact (e3 o _ _ g1 h2).symm
  · next opts hno1 hno2 =>
    split at h2
    · next he => exact absurd he hno1
    · next o he => exact absurd he (hno2 o)
    · obtain ⟨us, a1, h1⟩ := bind_ok h1
      obtain ⟨us', b1, h2⟩ := bind_ok h2
      obtain rfl := mapM_eq a1 b1 fun o _ => e3 o
      cases hq : q.hamiltonian with
      | none => rw [hq] at h1; cases h1
      | some H =>
        rw [hq] at h1 h2
        obtain ⟨hs1, a2, h1⟩ := bind_ok h1
        obtain ⟨hs2, b2, h2⟩ := bind_ok h2
        obtain rfl := mapM_eq a2 b2 (by
          intro u _ v w g1 g2
          obtain ⟨x, g3, g1⟩ := bind_ok g1
          obtain ⟨x', g4, g2⟩ := bind_ok g2
          cases g1
          cases g2
          rw [e2 H u x x' g3 g4])
        cases hsel : select (fun uh : List ℝ × ℝ => some uh.2) hs1 with
        | none => rw [hsel] at h1; cases h1
        | some uh =>
          rw [hsel] at h1 h2
          cases h1
          cases h2
          rfl

end Beluga.E2E
