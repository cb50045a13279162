import Verif.Solve.Model
import Verif.PyLemmas

/-!
# C50 and C51: what `solve` accepts, returns and writes; what a result file contains
-/

namespace Beluga.Solve

variable {O B S V : Type}

/-! ### C50 -/

/-- **C50 (checks).**  Fewer than one CPU: `ValueError`, and nothing has happened.  No problem: `NotImplementedError`.
A boundary value problem without both maps: `ValueError`. -/
theorem C50_checks (w : World O B S) (a : Args O B S) :
    (a.nCpus < 1 → solve w a = (.error .valueError, [])) ∧
    (1 ≤ a.nCpus → a.ocp = none → (solve w a).1 = .error .notImplementedError) ∧
    (1 ≤ a.nCpus → a.ocp.isSome → a.bvp.isSome → (a.ocpMap = none ∨ a.ocpMapInverse = none) →
      (solve w a).1 = .error .valueError) := by
  refine ⟨fun h => if_pos h, fun h ho => ?_, fun h ho hb hm => ?_⟩
  · simp [solve, ho, show ¬ a.nCpus < 1 by omega]
  · obtain ⟨o, ho⟩ := Option.isSome_iff_exists.1 ho
    obtain ⟨b, hb⟩ := Option.isSome_iff_exists.1 hb
    have hp : prepare w a o = .error .valueError := by
      unfold prepare
      rw [hb]
      rcases hm with hm | hm
      · simp [hm]
      · cases hf : a.ocpMap <;> simp [hm]
    have hmain : main w a o = .error .valueError := by
      unfold main
      rw [hp]; rfl
    simp [solve, ho, hmain, show ¬ a.nCpus < 1 by omega]

/-- **C50 (methods).**  Without a ready boundary value problem the method decides:

* 'indirect', 'traditional' and 'brysonho', in any case, all mean 'traditional';
* 'diffyg', in any case, is handed on as it is;
* 'direct', spelled exactly so, means the direct method;
* everything else is refused with `NotImplementedError`. -/
theorem C50_methods (w : World O B S) (method : String) (p : O) :
    (method.toLower ∈ ["indirect", "traditional", "brysonho"] → dispatch w method p = w.indirect p "traditional") ∧
    (method.toLower = "diffyg" → dispatch w method p = w.indirect p method) ∧
    (method = "direct" → dispatch w method p = w.direct p) ∧
    (method.toLower ∉ ["indirect", "traditional", "brysonho", "diffyg"] → method ≠ "direct" →
      dispatch w method p = .error .notImplementedError) := by
  have ht : "traditional".toLower ∈ ["traditional", "diffyg"] := by decide +kernel
  refine ⟨fun h => ?_, fun h => ?_, fun h => ?_, fun h h' => ?_⟩
  · simp only [dispatch, canonical, if_pos h, if_pos ht]
  · have h1 : ¬ method.toLower ∈ ["indirect", "traditional", "brysonho"] := by rw [h]; decide
    have h2 : method.toLower ∈ ["traditional", "diffyg"] := by rw [h]; decide
    simp only [dispatch, canonical, if_neg h1, if_pos h2]
  · subst h
    have h1 : ¬ "direct".toLower ∈ ["indirect", "traditional", "brysonho"] := by decide +kernel
    have h2 : ¬ "direct".toLower ∈ ["traditional", "diffyg"] := by decide +kernel
    simp only [dispatch, canonical, if_neg h1, if_neg h2, if_true]
  · have h1 : ¬ method.toLower ∈ ["indirect", "traditional", "brysonho"] := fun hm => h (by
      simp only [List.mem_cons, List.not_mem_nil, or_false] at hm ⊢; tauto)
    have h2 : ¬ method.toLower ∈ ["traditional", "diffyg"] := fun hm => h (by
      simp only [List.mem_cons, List.not_mem_nil, or_false] at hm ⊢; tauto)
    simp only [dispatch, canonical, if_neg h1, if_neg h2, if_neg h']

/-- **C50 (methods, seen from outside).**  A call with an unknown method raises `NotImplementedError` once the problem
has been pre-processed; calls with two names of the traditional method do the same. -/
theorem C50_methods_solve (w : World O B S) (a : Args O B S) (hb : a.bvp = none) (hn : 1 ≤ a.nCpus) {o p : O}
    (ho : a.ocp = some o) (hp : w.preprocess o = .ok p) :
    (a.method.toLower ∉ ["indirect", "traditional", "brysonho", "diffyg"] → a.method ≠ "direct" →
      (solve w a).1 = .error .notImplementedError) ∧
    (∀ m, a.method.toLower ∈ ["indirect", "traditional", "brysonho"] → m.toLower ∈ ["indirect", "traditional", "brysonho"] →
      solve w { a with method := m } = solve w a) := by
  have hmain : ∀ m, main w { a with method := m } o = (do
      let b ← dispatch w m p
      let b ← w.postprocess b
      let s ← w.generate b (w.mapOf b) (w.invOf b)
      let s ← help w a.initialHelper o (w.invOf b) s
      let s ← guessControls w b s
      let set ← w.run b s
      .ok (b, w.invOf b, set)) := by
    intro m
    unfold main prepare
    simp only [hb, hp, Py.ok_bind]
    cases dispatch w m p with
    | error e => rfl
    | ok b =>
      simp only [Py.ok_bind]
      cases w.postprocess b <;> rfl
  refine ⟨fun h1 h2 => ?_, fun m h1 h2 => ?_⟩
  · have e := hmain a.method
    rw [((C50_methods w a.method p).2.2.2 h1 h2)] at e
    have e' : main w a o = .error .notImplementedError := e
    simp [solve, ho, e', show ¬ a.nCpus < 1 by omega]
  · have e1 := hmain m
    have e2 := hmain a.method
    rw [(C50_methods w m p).1 h2] at e1
    rw [(C50_methods w a.method p).1 h1] at e2
    have e : main w { a with method := m } o = main w a o := e1.trans e2.symm
    unfold solve
    simp only
    rw [ho]
    simp only
    rw [ho] at e
    rw [e]

/-- **C50 is false for 'direct'.**  The other names may be written in any case, but 'Direct' or 'DIRECT' is refused. -/
theorem C50_violated_case (w : World O B S) (method : String) (p : O) (h : method.toLower = "direct")
    (hne : method ≠ "direct") : dispatch w method p = .error .notImplementedError := by
  apply (C50_methods w method p).2.2.2 _ hne
  rw [h]; decide

example : ("Direct".toLower = "direct" ∧ "Direct" ≠ "direct") ∧ "BrysonHo".toLower ∈ ["indirect", "traditional", "brysonho"] ∧
    "DiffyG".toLower = "diffyg" := by decide +kernel

/-- What `solve` got from the continuation run when it gets that far. -/
theorem solve_ok {w : World O B S} {a : Args O B S} {out : List (List S)} (h : (solve w a).1 = .ok out) :
    ∃ o b inv set, a.ocp = some o ∧ main w a o = .ok (b, inv, set) ∧ postprocessContinuations inv set = .ok out ∧
      1 ≤ a.nCpus := by
  unfold solve at h
  split at h
  · cases h
  · next hn =>
    cases ho : a.ocp with
    | none => simp [ho] at h
    | some o =>
      simp only [ho] at h
      cases hm : main w a o with
      | error e => simp [hm] at h
      | ok r =>
        obtain ⟨b, inv, set⟩ := r
        simp only [hm] at h
        cases hp : postprocessContinuations inv set with
        | error e => simp [hp] at h
        | ok z =>
          simp only [hp] at h
          refine ⟨o, b, inv, set, rfl, hm, ?_, by omega⟩
          cases hs : a.saveSols.name with
          | none => simp only [hs] at h; rw [hp]; exact h
          | some f =>
            simp only [hs] at h
            cases hv : w.save z o b f with
            | error e => simp [hv] at h
            | ok u => simp only [hv] at h; rw [hp]; exact h

/-- Which problem, which maps and which guess a result belongs to: the given problem with the given maps, or the
prepared problem with its own maps; the guess is made with these maps; with the initial helper its constants are the
ones matched to the guess mapped back; its controls are computed if the problem can. -/
def Belongs (w : World O B S) (a : Args O B S) (o : O) (b : B) (inv : SolMap S) (set : List (List S)) : Prop :=
  ∃ f s0 s1 s2,
    ((a.bvp = some b ∧ a.ocpMap = some f ∧ a.ocpMapInverse = some inv) ∨
      (a.bvp = none ∧ f = w.mapOf b ∧ inv = w.invOf b ∧
        ∃ p b', w.preprocess o = .ok p ∧ dispatch w a.method p = .ok b' ∧ w.postprocess b' = .ok b)) ∧
    w.generate b f inv = .ok s0 ∧
    (a.initialHelper = false → s1 = s0) ∧
    (a.initialHelper = true → ∃ z z', inv s0 = .ok z ∧ w.matchConst o z = .ok z' ∧ s1 = w.setConst s0 z') ∧
    (w.computeU b = none → s2 = s1) ∧ (∀ g, w.computeU b = some g → g s1 = .ok s2) ∧
    w.run b s2 = .ok set

theorem main_ok {w : World O B S} {a : Args O B S} {o : O} {b : B} {inv : SolMap S} {set : List (List S)}
    (h : main w a o = .ok (b, inv, set)) : Belongs w a o b inv set := by
  unfold main at h
  obtain ⟨⟨b', f, inv'⟩, hp, h⟩ := Py.bind_ok.1 h
  obtain ⟨s0, h0, h⟩ := Py.bind_ok.1 h
  obtain ⟨s1, h1, h⟩ := Py.bind_ok.1 h
  obtain ⟨s2, h2, h⟩ := Py.bind_ok.1 h
  obtain ⟨st, h3, h⟩ := Py.bind_ok.1 h
  cases h
  refine ⟨f, s0, s1, s2, ?_, h0, ?_, ?_, ?_, ?_, h3⟩
  · unfold prepare at hp
    cases hb : a.bvp with
    | none =>
      rw [hb] at hp
      obtain ⟨p, e1, hp⟩ := Py.bind_ok.1 hp
      obtain ⟨b1, e2, hp⟩ := Py.bind_ok.1 hp
      obtain ⟨b2, e3, hp⟩ := Py.bind_ok.1 hp
      cases hp
      exact Or.inr ⟨rfl, rfl, rfl, p, b1, e1, e2, e3⟩
    | some b0 =>
      rw [hb] at hp
      simp only at hp
      split at hp
      · next hf hg =>
        cases hp
        exact Or.inl ⟨rfl, hf, hg⟩
      · cases hp
  · intro hh
    simp only [help, hh] at h1
    cases h1; rfl
  · intro hh
    simp only [help, hh, if_true] at h1
    obtain ⟨z, e1, h1⟩ := Py.bind_ok.1 h1
    obtain ⟨z', e2, h1⟩ := Py.bind_ok.1 h1
    cases h1
    exact ⟨z, z', e1, e2, rfl⟩
  · intro hh
    simp only [guessControls, hh] at h2
    cases h2; rfl
  · intro g hh
    simpa only [guessControls, hh] using h2

/-- **C50 (arrangement).**  A returned set has one trajectory for every trajectory the continuation run computed, in
the same arrangement: the image of that trajectory under the inverse map. -/
theorem C50_arrangement {w : World O B S} {a : Args O B S} {out : List (List S)} (h : (solve w a).1 = .ok out) :
    ∃ o b inv set, a.ocp = some o ∧ Belongs w a o b inv set ∧
      List.Forall₂ (List.Forall₂ fun s z => inv s = .ok z) set out := by
  obtain ⟨o, b, inv, set, h1, h2, h3, -⟩ := solve_ok h
  refine ⟨o, b, inv, set, h1, main_ok h2, ?_⟩
  have key : ∀ (α β : Type) (f : α → Py β) (R : α → β → Prop), (∀ x y, f x = .ok y → R x y) → ∀ (l : List α) (l' : List β),
      l.mapM f = .ok l' → List.Forall₂ R l l' := by
    intro α β f R hR l
    induction l with
    | nil => intro l' hl; cases hl; exact .nil
    | cons x l ih =>
      intro l' hl
      rw [List.mapM_cons] at hl
      obtain ⟨y, hy, hl⟩ := Py.bind_ok.1 hl
      obtain ⟨ys, hys, hl⟩ := Py.bind_ok.1 hl
      cases hl
      exact .cons (hR _ _ hy) (ih _ hys)
  exact key _ _ _ _ (fun x y hxy => key _ _ _ _ (fun _ _ h => h) x y hxy) set out h3

/-- The same, as positions. -/
theorem C50_same_shape {w : World O B S} {a : Args O B S} {out : List (List S)} (h : (solve w a).1 = .ok out) :
    ∃ o b inv set, a.ocp = some o ∧ Belongs w a o b inv set ∧ out.map List.length = set.map List.length := by
  obtain ⟨o, b, inv, set, h1, h2, h3⟩ := C50_arrangement h
  refine ⟨o, b, inv, set, h1, h2, ?_⟩
  clear h h2
  induction h3 with
  | nil => rfl
  | cons hx _ ih => simp [ih, hx.length_eq]

/-- The file the user asked for: a name, or `True` for 'data.beluga'. -/
inductive Asked : Save → String → Prop where
  | name (n : String) : Asked (.file n) n
  | yes : Asked (.flag true) "data.beluga"

theorem name_iff {s : Save} {f : String} : s.name = some f ↔ Asked s f := by
  constructor
  · intro h
    cases s with
    | flag b => cases b with
      | true => cases h; exact .yes
      | false => simp [Save.name] at h
    | file n => cases h; exact .name _
  · intro h
    cases h <;> rfl

/-- **C50 (file).**  A result file is written exactly if the call succeeds and a file was asked for; it is that file,
written once and after everything else.  If the call fails, no file has been written completely. -/
theorem C50_file (w : World O B S) (a : Args O B S) (f : String) :
    (.saved f ∈ (solve w a).2 ↔ (∃ out, (solve w a).1 = .ok out) ∧ Asked a.saveSols f) ∧
    (.saved f ∈ (solve w a).2 → (solve w a).2.getLast? = some (.saved f) ∧ (solve w a).2.count (.saved f) = 1) := by
  unfold solve
  by_cases hn : a.nCpus < 1
  · simp [hn]
  · simp only [if_neg hn]
    have hev : ∀ (g : String), Event.saved g ∉ (if a.nCpus > 1 then [Event.poolOpen a.nCpus] else []) := by
      intro g; split <;> simp
    cases ho : a.ocp with
    | none => simp [hev f]
    | some o =>
      simp only
      cases hm : main w a o with
      | error e => simp [hev f]
      | ok r =>
        obtain ⟨b, inv, set⟩ := r
        simp only
        cases hp : postprocessContinuations inv set with
        | error e => simp [hev f]
        | ok out =>
          simp only
          set E := (if a.nCpus > 1 then [Event.poolOpen a.nCpus] else []) ++ [.algClose] ++
            (if a.nCpus > 1 then [Event.poolClose] else []) with hE
          have hnE : ∀ g, Event.saved g ∉ E := by
            intro g
            rw [hE]
            simp only [List.mem_append, not_or]
            refine ⟨⟨hev g, by simp⟩, by split <;> simp⟩
          cases hs : a.saveSols.name with
          | none =>
            have : ¬ Asked a.saveSols f := fun h => by rw [name_iff.2 h] at hs; cases hs
            simp [hnE, this]
          | some f' =>
            simp only
            have hA := name_iff.1 hs
            cases hv : w.save out o b f' with
            | error e => simp [hnE]
            | ok u =>
              have hiff : f = f' ↔ Asked a.saveSols f := by
                constructor
                · rintro rfl; exact hA
                · intro h
                  have := name_iff.2 h
                  rw [hs] at this
                  exact (Option.some.inj this).symm
              constructor
              · simp only [List.mem_append, hnE, false_or, List.mem_singleton, Event.saved.injEq, Except.ok.injEq,
                  exists_eq', true_and]
                exact hiff
              · intro hmem
                have hff : f = f' := by simpa [hnE] using hmem
                subst hff
                refine ⟨by simp, ?_⟩
                rw [List.count_append, List.count_eq_zero_of_not_mem (hnE f)]
                simp

/-- **C50 is false for the default.**  The documentation gives `save` the default `False`; a call without that argument
writes 'data.beluga' when it succeeds. -/
theorem C50_violated_default (w : World O B S) (a : Args O B S) (ha : a.saveSols = ({} : Args O B S).saveSols)
    {out : List (List S)} (h : (solve w a).1 = .ok out) : .saved "data.beluga" ∈ (solve w a).2 :=
  (C50_file w a _).1.2 ⟨⟨out, h⟩, by rw [ha]; exact .yes⟩

/-- **C50 (the solutions can be lost).**  If writing the file fails, the call raises that error: the computed
trajectories are not returned. -/
theorem C50_save_failure {w : World O B S} {a : Args O B S} {o : O} {b : B} {inv : SolMap S} {set out : List (List S)} {f : String}
    {e : PyErr} (hn : 1 ≤ a.nCpus) (ho : a.ocp = some o) (hm : main w a o = .ok (b, inv, set))
    (hp : postprocessContinuations inv set = .ok out) (hf : Asked a.saveSols f) (hs : w.save out o b f = .error e) :
    (solve w a).1 = .error e := by
  simp [solve, show ¬ a.nCpus < 1 by omega, ho, hm, hp, name_iff.2 hf, hs]

/-- **C50 (worker processes).**  With more than one CPU a pool is opened; a call that returns has closed it (and the
solver), but a call that fails in the problem set-up, in the guess, in the continuation run or in the post-processing leaves the
pool open. -/
theorem C50_pool (w : World O B S) (a : Args O B S) (hn : 1 < a.nCpus) :
    .poolOpen a.nCpus ∈ (solve w a).2 ∧
    (∀ out, (solve w a).1 = .ok out → .poolClose ∈ (solve w a).2 ∧ .algClose ∈ (solve w a).2) ∧
    ((a.ocp = none ∨ ∃ o, a.ocp = some o ∧ (∃ e, main w a o = .error e)) →
      .poolClose ∉ (solve w a).2 ∧ .algClose ∉ (solve w a).2) := by
  have hn' : a.nCpus > 1 := hn
  have hopen : Event.poolOpen a.nCpus ∈ (solve w a).2 := by
    simp only [solve, if_neg (show ¬ a.nCpus < 1 by omega), if_pos hn']
    cases ho : a.ocp with
    | none => simp
    | some o =>
      simp only
      cases hm : main w a o with
      | error e => simp
      | ok r =>
        obtain ⟨b, inv, set⟩ := r
        simp only
        cases hp : postprocessContinuations inv set with
        | error e => simp
        | ok out =>
          simp only
          cases hs : a.saveSols.name with
          | none => simp
          | some f =>
            simp only
            cases w.save out o b f <;> simp
  refine ⟨hopen, ?_, ?_⟩
  · intro out h
    obtain ⟨o, b, inv, set, h1, h2, h3, -⟩ := solve_ok h
    simp only [solve, if_neg (show ¬ a.nCpus < 1 by omega), if_pos hn', h1, h2, h3]
    cases hs : a.saveSols.name with
    | none => simp
    | some f =>
      simp only
      cases w.save out o b f <;> simp
  · rintro (h | ⟨o, ho, e, he⟩)
    · simp [solve, h, show ¬ a.nCpus < 1 by omega, hn']
    · simp [solve, ho, he, show ¬ a.nCpus < 1 by omega, hn']

/-! A concrete world: problems are numbers, trajectories are strings. -/

def exWorld : World Nat Nat String where
  preprocess o := .ok (o + 1)
  indirect o m := if m.toLower = "diffyg" then .ok (o + 100) else .ok (o + 10)
  direct o := .ok (o + 1000)
  postprocess b := .ok b
  mapOf b := fun s => .ok (s ++ toString b)
  invOf b := fun s => .ok (s ++ "/" ++ toString b)
  generate _ f _ := f "g"
  matchConst _ s := .ok s
  setConst s _ := s
  computeU _ := none
  run _ s := .ok [[s, s ++ "'"], [], [s ++ "''"]]
  save _ _ _ f := if f = "full" then .error .osError else .ok ()

example : solve exWorld { ocp := some 1, method := "Indirect", nCpus := 2 } =
    (.ok [["g12/12", "g12'/12"], [], ["g12''/12"]], [.poolOpen 2, .algClose, .poolClose, .saved "data.beluga"]) := by
  decide +kernel

example : solve exWorld { ocp := some 1, method := "DiffyG", saveSols := .file "" } =
    (.ok [["g102/102", "g102'/102"], [], ["g102''/102"]], [.algClose, .saved ""]) := by decide +kernel

example : solve exWorld { ocp := some 1, method := "Direct", nCpus := 3 } = (.error .notImplementedError, [.poolOpen 3]) := by
  decide +kernel

example : solve exWorld { ocp := some 1, saveSols := .file "full" } = (.error .osError, [.algClose, .saveFailed "full"]) := by
  decide +kernel

example : solve exWorld { nCpus := 0 } = (.error .valueError, []) ∧
    solve exWorld { ocp := some 1, bvp := some 3, ocpMap := some .ok } = (.error .valueError, []) := by
  refine ⟨?_, ?_⟩ <;> decide +kernel

/-! ### C51 -/

/-- A pickler that can read what it has written completely. -/
def Pickler.Lawful {D : Type} (P : Pickler D) : Prop := ∀ d cs, P.dump d = (cs, none) → P.load cs.flatten = .ok d

/-- Dictionary access. -/
def lookup (d : Dict V O B) (k : String) : Option (Item V O B) := (d.find? fun e => e.1 = k).map Prod.snd

/-- **C51 (round trip).**  After a successful `save`, `load` of the same name returns a dictionary that has, for each of
the three items, exactly the value given (and no entry if none was given) and no other key; no other file has changed. -/
theorem C51_round_trip {P : Pickler (Dict V O B)} (hP : P.Lawful) {disk : Disk} {fs fs' : Files} {sols : Option V}
    {ocp : Option O} {bvp : Option B} {name : String} (h : save P disk fs sols ocp bvp name = (fs', none)) :
    ∃ d, load P fs' name = .ok d ∧ lookup d "solutions" = sols.map .solutions ∧ lookup d "ocp" = ocp.map .ocp ∧
      lookup d "bvp" = bvp.map .bvp ∧ (∀ k, k ∉ ["solutions", "ocp", "bvp"] → lookup d k = none) ∧
      (d.map Prod.fst).Nodup ∧ ∀ n, n ≠ name → fs' n = fs n := by
  refine ⟨saveDict sols ocp bvp, ?_, ?_, ?_, ?_, ?_, ?_, ?_⟩
  · unfold save at h
    cases ho : disk.opens with
    | false => simp [ho] at h
    | true =>
      simp only [ho, if_true] at h
      obtain ⟨cs, err, hd⟩ : ∃ cs err, P.dump (saveDict sols ocp bvp) = (cs, err) := ⟨_, _, rfl⟩
      simp only [hd, writeAll] at h
      have hok : ∃ bytes, fs' name = some bytes ∧ bytes = cs.flatten ∧ err = none := by
        cases hw : disk.writes with
        | none =>
          simp only [hw, Prod.mk.injEq] at h
          exact ⟨_, by rw [← h.1, Function.update_self], rfl, h.2⟩
        | some k =>
          simp only [hw] at h
          by_cases hk : k < cs.length
          · simp [hk] at h
          · simp only [if_neg hk, Prod.mk.injEq] at h
            exact ⟨_, by rw [← h.1, Function.update_self], rfl, h.2⟩
      obtain ⟨bytes, h1, h2, h3⟩ := hok
      rw [load, h1]
      simp only
      rw [h2]
      exact hP _ _ (by rw [hd, h3])
  · cases sols <;> cases ocp <;> cases bvp <;> simp [saveDict, lookup]
  · cases sols <;> cases ocp <;> cases bvp <;> simp [saveDict, lookup]
  · cases sols <;> cases ocp <;> cases bvp <;> simp [saveDict, lookup]
  · intro k hk
    simp only [List.mem_cons, List.not_mem_nil, or_false, not_or] at hk
    have h1 : ¬ "solutions" = k := fun h => hk.1 h.symm
    have h2 : ¬ "ocp" = k := fun h => hk.2.1 h.symm
    have h3 : ¬ "bvp" = k := fun h => hk.2.2 h.symm
    cases sols <;> cases ocp <;> cases bvp <;> simp [saveDict, lookup, h1, h2, h3]
  · cases sols <;> cases ocp <;> cases bvp <;> simp [saveDict]
  · intro n hn
    unfold save at h
    split at h
    · simp only [Prod.mk.injEq] at h
      rw [← h.1, Function.update_of_ne hn, Function.update_of_ne hn]
    · cases h

/-- **C51 (failure, what holds).**  A failed `save` changes no other file, and nothing at all if the file cannot be
opened.  (The full claim is that it does not change the named file either; see `C51_violated`.) -/
theorem C51_failure_partial (P : Pickler (Dict V O B)) (disk : Disk) (fs : Files) (sols : Option V)
    (ocp : Option O) (bvp : Option B) (name : String) :
    (∀ n, n ≠ name → (save P disk fs sols ocp bvp name).1 n = fs n) ∧
    (disk.opens = false → save P disk fs sols ocp bvp name = (fs, some .osError)) := by
  refine ⟨fun n hn => ?_, fun h => by simp [save, h]⟩
  unfold save
  split
  · simp only
    rw [Function.update_of_ne hn, Function.update_of_ne hn]
  · rfl

/-- **C51 is false.**  Whatever the file contained before, a `save` that fails while pickling or writing leaves only
the pieces written so far: the previous contents are gone. -/
theorem C51_violated (P : Pickler (Dict V O B)) (disk : Disk) (hd : disk.opens = true) (fs : Files) (sols : Option V)
    (ocp : Option O) (bvp : Option B) (name : String) :
    (∀ cs e, P.dump (saveDict sols ocp bvp) = (cs, some e) → disk.writes = none →
      (save P disk fs sols ocp bvp name).1 name = some cs.flatten ∧ (save P disk fs sols ocp bvp name).2 = some e) ∧
    (∀ cs e k, P.dump (saveDict sols ocp bvp) = (cs, e) → disk.writes = some k → k < cs.length →
      (save P disk fs sols ocp bvp name).1 name = some (cs.take k).flatten ∧
        (save P disk fs sols ocp bvp name).2 = some .osError) := by
  refine ⟨fun cs e h hw => ?_, fun cs e k h hw hk => ?_⟩
  · simp [save, hd, h, hw, writeAll]
  · simp [save, hd, h, hw, writeAll, hk]

/-- A pickler for the example: one byte per item; problems with number 7 cannot be pickled. -/
def exPickler : Pickler (Dict Nat Nat Nat) where
  dump d := if d.any (fun e => e.2 = .ocp 7) then ([[1]], some .typeError)
    else (d.map fun e => match e.2 with | .solutions v => [1, v.toUInt8] | .ocp v => [2, v.toUInt8] | .bvp v => [3, v.toUInt8], none)
  load bytes := match bytes with
    | [1, v] => .ok [("solutions", .solutions v.toNat)]
    | _ => .error .valueError

def exFiles : Files := fun n => if n = "data.beluga" then some [1, 42] else none

example : load exPickler exFiles "data.beluga" = .ok [("solutions", .solutions 42)] ∧
    load exPickler (save exPickler {} exFiles (some 5) none none "data.beluga").1 "data.beluga" =
      .ok [("solutions", .solutions 5)] ∧
    load exPickler (save exPickler {} exFiles (some 5) (some 7) none "data.beluga").1 "data.beluga" = .error .valueError ∧
    load exPickler (save exPickler { writes := some 0 } exFiles (some 5) none none "data.beluga").1 "data.beluga" =
      .error .valueError := by
  refine ⟨?_, ?_, ?_, ?_⟩ <;> decide +kernel

end Beluga.Solve
