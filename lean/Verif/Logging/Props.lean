import Mathlib.Tactic.SplitIfs
import Mathlib.Data.List.Basic
import Verif.Logging.Model

/-! # Log messages (C69) and the command line (C70) -/

namespace Beluga.Log

/-! ### Specification -/

/-- Messages are shown on a target from the level on. -/
def Threshold (s : Loggers) (t : Target) (level : Nat) : Prop := ∀ n, t ∈ emit s n ↔ level ≤ n

/-! ### C69 -/

/-- With both levels set, messages of at least the display level are displayed, messages of at least the file level are written to the
file, and nothing else happens.  Missing from the full property: a level `NOTSET`, as at import (`C69_violated`). -/
theorem C69_partial {display file : Nat} (hd : 0 < display) (hf : 0 < file) (name : String) (s : Loggers) :
    Threshold (addLogger display file name s) .stdout display ∧ Threshold (addLogger display file name s) (.file name) file ∧
    ∀ n, ∀ t ∈ emit (addLogger display file name s) n, t = .stdout ∨ t = .file name := by
  have he : effective (addLogger display file name s) = min display file := by
    rw [effective, if_pos (by simp only [addLogger, initLogging]; omega)]
    rfl
  have hm : ∀ n t, t ∈ emit (addLogger display file name s) n ↔ (t = .stdout ∧ display ≤ n) ∨ (t = .file name ∧ file ≤ n) := by
    intro n t
    rw [emit, he]
    simp only [addLogger, initLogging, if_pos (show file > NOTSET from hf)]
    by_cases h1 : display ≤ n <;> by_cases h2 : file ≤ n <;> simp [h1, h2]
  refine ⟨fun n => ?_, fun n => ?_, fun n t ht => ?_⟩
  · rw [hm]; simp
  · rw [hm]; simp
  · rcases (hm n t).1 ht with h | h
    · exact .inl h.1
    · exact .inr h.1

/-- Calling `add_logger` again replaces the earlier settings. -/
theorem C69_again (d f d' f' : Nat) (n n' : String) (s : Loggers) : addLogger d' f' n' (addLogger d f n s) = addLogger d' f' n' s := rfl

/-- What happens without a file level: messages below the level of Python's root logger are not displayed, whatever the display level. -/
theorem C69_violated (display : Nat) (name : String) (s : Loggers) :
    Threshold (initLogging display NOTSET name s) .stdout (max display s.root.level) := by
  intro n
  simp only [emit, effective, initLogging, NOTSET]
  by_cases h1 : display ≤ n <;> by_cases h2 : s.root.level ≤ n <;> simp [h1, h2]

/-- In particular, after `import beluga` informative messages are lost, although the display level is `INFO`; the progress bar is shown. -/
theorem C69_violated_import : Threshold (importBeluga {}) .stdout 30 ∧ (importBeluga {}).beluga.displayLevel = some 20 ∧
    ¬ Threshold (importBeluga {}) .stdout 20 ∧ progressBar (importBeluga {}) = true := by
  have h := C69_violated INFO "beluga.log" {}
  refine ⟨h, rfl, fun h' => ?_, by decide⟩
  have h1 := (h' INFO).2 (le_refl _)
  have h2 := (h INFO).1 h1
  revert h2
  decide

/-- A string is fitted to exactly the width, and nothing but its end is lost. -/
theorem C69_fit {s : List Char} {width : Nat} (hw : 3 ≤ width) {j : String} {t : List Char} (h : fitString s width j = .ok t) :
    t.length = width ∧ (s.length ≤ width → s <:+: t) ∧ (width < s.length → ∃ u, u <+: s ∧ t = u ++ "...".toList) := by
  rw [fitString] at h
  by_cases h1 : s.length > width
  · rw [if_pos h1, if_neg (by omega)] at h
    cases h
    refine ⟨?_, fun h => by omega, fun _ => ⟨_, List.take_prefix _ _, rfl⟩⟩
    simp
    omega
  · rw [if_neg h1] at h
    refine ⟨?_, fun _ => ?_, fun h => absurd h h1⟩
    all_goals
      simp only at h
      split_ifs at h <;> cases h
    all_goals first
      | (simp; omega)
      | exact ⟨[], _, by simp; rfl⟩
      | exact ⟨_, _, rfl⟩
      | exact ⟨_, [], by simp; rfl⟩

/-- Below three characters it is not. -/
theorem C69_violated_fit : fitString "abcde".toList 2 "left" = .ok "abcd...".toList := by decide

example : Threshold (addLogger (s := {})) .stdout 20 ∧ Threshold (addLogger (s := {})) (.file "beluga.log") 10 :=
  ⟨(C69_partial (by decide) (by decide) _ _).1, (C69_partial (by decide) (by decide) _ _).2.1⟩

example : fitString "ManualStrategy".toList 10 "center" = .ok "ManualS...".toList ∧
    fitString "abc".toList 6 "center" = .ok " abc  ".toList ∧ fitString "ab".toList 5 "center" = .ok "  ab ".toList ∧
    fitString "ab".toList 5 "middle" = .error .valueError := by decide

/-- A centred string has as many spaces on both sides, or one more: on the left if the width is odd, else on the right. -/
theorem C69_centred {s : List Char} {width : Nat} (hw : s.length ≤ width) :
    ∃ a b, fitString s width "center" = .ok (List.replicate a ' ' ++ s ++ List.replicate b ' ') ∧ a + s.length + b = width ∧
      (a = b ∨ a = b + 1 ∧ width % 2 = 1 ∨ b = a + 1 ∧ width % 2 = 0) := by
  rw [fitString, if_neg (by omega)]
  simp only [show ¬ ("center" = "left") by decide, if_false, if_true]
  refine ⟨_, _, rfl, ?_, ?_⟩
  · split <;> omega
  · split <;> omega

example : fitString "ab".toList 5 "center" = .ok "  ab ".toList ∧ fitString "a".toList 4 "center" = .ok " a  ".toList := by decide

/-! ### C70 -/

/-- The names of levels that the command line knows, with Python's numbers for the levels. -/
def levelNames : List (String × Nat) :=
  [("ALL", 10), ("DEBUG", 10), ("0", 10), ("INFO", 20), ("1", 20), ("WARNING", 30), ("WARN", 30),
    ("2", 30), ("ERROR", 40), ("3", 40), ("CRITICAL", 50), ("4", 50), ("OFF", 51)]

/-- A level is known by its name or number, in upper or lower case; nothing else is accepted. -/
theorem C70_levels (s : String) (n : Nat) : levelOf s = some n ↔ (s.toUpper, n) ∈ levelNames := by
  rw [levelOf]
  generalize s.toUpper = u
  constructor
  · intro h
    split at h <;> first
      | (cases h; decide)
      | cases h
  · intro h
    simp only [levelNames, List.mem_cons, Prod.mk.injEq, List.not_mem_nil, or_false] at h
    rcases h with ⟨rfl, rfl⟩ | ⟨rfl, rfl⟩ | ⟨rfl, rfl⟩ | ⟨rfl, rfl⟩ | ⟨rfl, rfl⟩ | ⟨rfl, rfl⟩ | ⟨rfl, rfl⟩ | ⟨rfl, rfl⟩ | ⟨rfl, rfl⟩ |
      ⟨rfl, rfl⟩ | ⟨rfl, rfl⟩ | ⟨rfl, rfl⟩ | ⟨rfl, rfl⟩ <;> rfl

/-- Violation: the command line never solves a scenario: valid options end in an `AttributeError`, invalid ones in a message. -/
theorem C70_violated (writable : String → Bool) (o : Options) :
    (main packageNames writable o = .error .attributeError ∨ ∃ s, main packageNames writable o = .ok (.message s)) ∧
    ∀ attributes, main attributes writable o ≠ .ok (.solved o.scenario) := by
  constructor
  · have hp : "setup_beluga" ∉ packageNames := by decide
    unfold main
    simp only [if_neg hp]
    repeat' split
    all_goals first
      | exact .inl rfl
      | exact .inr ⟨_, rfl⟩
  · intro attributes h
    unfold main at h
    simp only at h
    revert h
    repeat' split
    all_goals
      intro h
      cases h

/-- Options are accepted exactly if the levels are known and the output file can be written. -/
theorem C70_refused (writable : String → Bool) (o : Options) :
    (∃ s, main packageNames writable o = .ok (.message s)) ↔
      (o.nolog = false ∧ levelOf o.log = none) ∨ (o.quiet = false ∧ levelOf o.display = none) ∨ ∃ f, o.output.head? = some f ∧ writable f = false := by
  have hp : "setup_beluga" ∉ packageNames := by decide
  have hoff : levelOf "off" = some (CRITICAL + 1) := by decide +kernel
  obtain ⟨nolog, log, quiet, display, output, scenario⟩ := o
  simp only [main, if_neg hp]
  cases nolog <;> cases quiet <;> cases hl : levelOf log <;> cases hd : levelOf display <;> cases output with
    | nil => simp [hl, hd, hoff]
    | cons f l => cases hw : writable f <;> simp [hl, hd, hw, hoff]

example : main packageNames (fun _ => true) { scenario := "brachisto" } = .error .attributeError ∧
    main packageNames (fun _ => true) { scenario := "brachisto", log := "verbose" } =
      .ok (.message "Invalid value specified for logging level") := by decide +kernel

end Beluga.Log
