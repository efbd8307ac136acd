import Verif.Lemmas.Usage
import Verif.Props.Shell

/-! # C111: command lines that run nothing -/

namespace Plotline

/-- C111, what runs: exactly the lines of the grammar of C87, and with the same reading; that clap looks at some values late makes no
difference to them. -/
theorem C111_runs (ws : List Word) (v : Invocation) : parsed ws = .runs v ↔ Line ws v :=
  (clean_runs rfl rfl (fun h => by cases h) ws v).trans (C87_grammar ws v)

/-- C111, what is shown: help or the version is printed exactly for the lines that ask for it before there is anything to complain about. -/
theorem C111_shown (ws : List Word) : parsed ws = .shown ↔ ShowsHelp .tool ws :=
  shows_iff ⟨rfl, rfl, fun h => (by cases h), rfl, rfl, rfl, rfl⟩ (fun _ => rfl) ws

/-- C111: everything else is complained about. -/
theorem C111_wrong (ws : List Word) : parsed ws = .wrong ↔ ¬ ShowsHelp .tool ws ∧ ∀ v, ¬ Line ws v := by
  constructor
  · intro h
    exact ⟨fun hs => (by rw [(C111_shown ws).2 hs] at h; cases h), fun v hl => (by rw [(C111_runs ws v).2 hl] at h; cases h)⟩
  · intro ⟨h1, h2⟩
    cases h : parsed ws with
    | runs v => exact (h2 v ((C111_runs ws v).1 h)).elim
    | shown => exact (h1 ((C111_shown ws).1 h)).elim
    | wrong => rfl

/-- C111: no line both runs something and asks for help. -/
theorem C111_not_both (ws : List Word) (v : Invocation) (h : Line ws v) : ¬ ShowsHelp .tool ws := by
  intro hs
  have := (C111_shown ws).2 hs
  rw [(C111_runs ws v).2 h] at this
  cases this

section
variable (fs : Fs) (walk : FilePath → List FilePath) (plain : Char → Bool) (room : Option Nat) (ws : List Word)

theorem process_plotline (fuel : Nat) (here : FilePath) {v : Invocation} (h : Line ws v) :
    process fuel (some here) fs walk plain room ws =
      ((plotline fuel here fs walk ws).bind fun p => p.exit plain room).map .main := by
  simp only [process, (C111_runs ws v).2 h, plotline, (C87_grammar ws v).2 h, Option.bind_map]
  rfl

theorem procEnds_one {here : Option FilePath} {x y : Finish} (h : ProcEnds here fs walk plain room ws x) (h' : ProcEnds here fs walk plain room ws y) :
    x = y := by
  obtain ⟨f, hf⟩ := h
  obtain ⟨g, hg⟩ := h'
  exact Option.some.inj ((hf _ (Nat.le_max_left f g)).symm.trans (hg _ (Nat.le_max_right f g)))

/-- C111, the process of a line that runs something: it ends in `main`, in the ways of C90. -/
theorem C111_main (here : FilePath) {v : Invocation} (h : Line ws v) (x : Finish) :
    ProcEnds (some here) fs walk plain room ws x ↔ ∃ y, x = .main y ∧ Exits here fs walk plain room ws y := by
  constructor
  · rintro ⟨fuel0, hx⟩
    have key : ∀ fuel, fuel0 ≤ fuel → ∃ p y, plotline fuel here fs walk ws = some p ∧ p.exit plain room = some y ∧ Finish.main y = x := by
      intro fuel hf
      have := hx fuel hf
      rw [process_plotline fs walk plain room ws fuel here h] at this
      obtain ⟨y, hy, rfl⟩ := Option.map_eq_some_iff.1 this
      obtain ⟨p, hp, he⟩ := Option.bind_eq_some_iff.1 hy
      exact ⟨p, y, hp, he, rfl⟩
    obtain ⟨p, y, _, _, rfl⟩ := key fuel0 (Nat.le_refl _)
    refine ⟨y, rfl, fuel0, fun fuel hf => ?_⟩
    obtain ⟨p, y', h1, h2, h3⟩ := key fuel hf
    cases h3
    exact ⟨p, h1, h2⟩
  · rintro ⟨y, rfl, fuel0, hy⟩
    refine ⟨fuel0, fun fuel hf => ?_⟩
    obtain ⟨p, h1, h2⟩ := hy fuel hf
    rw [process_plotline fs walk plain room ws fuel here h, h1, Option.bind_some, h2]
    rfl

/-- C111, the status 0 before `main`: help or the version was asked for, whether or not there is room to print it. -/
theorem C111_help (here : FilePath) : ProcEnds (some here) fs walk plain room ws (.usage 0) ↔ ShowsHelp .tool ws := by
  constructor
  · rintro ⟨fuel, h⟩
    have := h fuel (Nat.le_refl _)
    rw [← C111_shown]
    simp only [process] at this
    split at this
    · assumption
    · cases this
    · obtain ⟨_, _, h⟩ := Option.map_eq_some_iff.1 this; cases h
  · intro h
    exact ⟨0, fun _ _ => by simp only [process, (C111_shown ws).2 h]⟩

/-- C111, the status 2: the line is none of the others. No other process ends with it. -/
theorem C111_complaint (here : FilePath) : ProcEnds (some here) fs walk plain room ws (.usage 2) ↔ ¬ ShowsHelp .tool ws ∧ ∀ v, ¬ Line ws v := by
  rw [← C111_wrong]
  constructor
  · rintro ⟨fuel, h⟩
    have := h fuel (Nat.le_refl _)
    simp only [process] at this
    split at this
    · cases this
    · assumption
    · obtain ⟨_, _, h⟩ := Option.map_eq_some_iff.1 this; cases h
  · intro h
    exact ⟨0, fun _ _ => by simp only [process, h]⟩

/-- C111, without a working directory: every process ends with status 101, whatever its words ask for. -/
theorem C111_nowhere (x : Finish) : ProcEnds none fs walk plain room ws x ↔ x = .usage 101 := by
  constructor
  · intro h
    exact procEnds_one fs walk plain room ws h ⟨0, fun _ _ => rfl⟩
  · rintro rfl
    exact ⟨0, fun _ _ => rfl⟩

/-- C111, the status alone tells usage errors from everything else: a process that has a working directory ends with 2 exactly if its
line neither runs anything nor asks for help. -/
theorem C111_status (here : FilePath) (hm : ∀ v r, Line ws v → Says here v.options r → ¬ BeyondModel (writtenExt r.extension)) :
    ∃ x, ProcEnds (some here) fs walk plain room ws x ∧ (∀ y, ProcEnds (some here) fs walk plain room ws y → y = x) ∧
      (x.status = 0 ∨ x.status = 1 ∨ x.status = 2 ∨ x.status = 101) ∧
      (x.status = 2 ↔ ¬ ShowsHelp .tool ws ∧ ∀ v, ¬ Line ws v) ∧ (ShowsHelp .tool ws → x.status = 0) := by
  cases hp : parsed ws with
  | shown =>
    have hs := (C111_shown ws).1 hp
    have := (C111_help fs walk plain room ws here).2 hs
    refine ⟨_, this, fun y hy => procEnds_one fs walk plain room ws hy this, .inl rfl, ?_, fun _ => rfl⟩
    exact ⟨fun h => (by cases h), fun h => (h.1 hs).elim⟩
  | wrong =>
    have hw := (C111_wrong ws).1 hp
    have := (C111_complaint fs walk plain room ws here).2 hw
    exact ⟨_, this, fun y hy => procEnds_one fs walk plain room ws hy this, .inr (.inr (.inl rfl)), ⟨fun _ => hw, fun _ => rfl⟩,
      fun h => (hw.1 h).elim⟩
  | runs v =>
    have hl := (C111_runs ws v).1 hp
    have hs : Says here v.options ⟨match v.options.context with | some c => parsePath c | none => here,
      match v.options.extension with | some e => e | none => ['m', 'd']⟩ := ⟨rfl, rfl⟩
    obtain ⟨y, h1, _, h3, _⟩ := C90_status here fs walk plain room hs hl (hm v _ hl hs)
    have := (C111_main fs walk plain room ws here hl (.main y)).2 ⟨y, rfl, h1⟩
    refine ⟨_, this, fun z hz => procEnds_one fs walk plain room ws hz this, ?_, ?_, fun h => (C111_not_both ws v hl h).elim⟩
    · rcases h3 with h | h | h
      · exact .inl h
      · exact .inr (.inl h)
      · exact .inr (.inr (.inr h))
    · constructor
      · intro h
        simp only [Finish.status] at h
        rw [h] at h3
        rcases h3 with h | h | h <;> cases h
      · intro h
        exact (h.2 v hl).elim

end

/-- C111, the first word: if it asks for help, help is shown, whatever follows. -/
theorem C111_first (w : Word) (ws : List Word) (h : AsksWord .tool w) : ShowsHelp .tool (w :: ws) :=
  .flag (w1 := []) (ps := []) .nil (Nat.zero_le _) h

/-- C111, nothing is shown unasked: some word begins with `-h` or `-V`, or is `help`, `--help` or `--version`. -/
theorem C111_asked {l : Level} {ws : List Word} (h : ShowsHelp l ws) :
    ∃ w ∈ ws, w = "help".toList ∨ ∃ l, AsksWord l w := by
  induction h with
  | @flag l o ps w1 rest f _ _ h => exact ⟨f, by simp, .inr ⟨l, h⟩⟩
  | help _ _ _ _ _ => exact ⟨_, by simp, .inl rfl⟩
  | sub _ _ _ _ _ ih =>
    obtain ⟨w, h1, h2⟩ := ih
    exact ⟨w, by simp [h1], h2⟩

/-- C111: after `--` nothing asks for anything, in the command it is given to. -/
theorem C111_after_escape (i : Word) (ws : List Word) (hi : NoOption i) (hr : ¬ Reserved i) :
    ¬ ShowsHelp .tool ("doc".toList :: i :: "save".toList :: "--".toList :: ws) := by
  rw [← C111_shown]
  have h1 : parsed ("doc".toList :: i :: "save".toList :: "--".toList :: ws) =
      ({ read := ⟨.action .save, {}, {}, some i, none, none, true⟩ } : Stage).words ws := by
    have hn := named_no.2 hr
    have e1 : ∀ rest, parsed ("doc".toList :: rest) = ({ read := { level := .doc } } : Stage).words rest := fun _ => rfl
    have e2 : ∀ rest, ({ read := { level := .doc } } : Stage).words (i :: rest) =
        ({ read := { level := .doc, id := some i } } : Stage).words rest := by
      intro rest
      simp only [Stage.words, Stage.word, Bool.false_eq_true, if_false, true_or, if_true, hn, asks_noOption hi, look_plain_of hi, Stage.go,
        Stage.settle, Reading.positional]
    rw [e1, e2]
    rfl
  rw [h1]
  exact escaped_shown rfl ws

example : parsed (wordsOf ["doc", "-C", "save", "-h"]) = .shown ∧ parsed (wordsOf ["doc", "-C", "save"]) = .wrong ∧
    parsed (wordsOf ["-C", "a", "-C", "b", "doc", "-h"]) = .shown ∧ parsed (wordsOf ["-C", "a", "-C", "b", "-h"]) = .wrong ∧
    parsed (wordsOf ["-C=a", "-C=b", "doc", "-h"]) = .wrong ∧ parsed (wordsOf ["doc", "x", "y", "-h"]) = .wrong ∧
    parsed (wordsOf ["doc", "-hx", "y", "-"]) = .shown ∧ parsed (wordsOf ["doc", "-V"]) = .wrong ∧
    parsed (wordsOf ["-e", "x", "-V"]) = .shown ∧ parsed (wordsOf ["help", "doc", "ls"]) = .shown ∧
    parsed (wordsOf ["help", "help", "doc"]) = .wrong ∧ parsed (wordsOf ["doc", "-C", "help", "save"]) = .shown ∧
    parsed [] = .wrong ∧ parsed (wordsOf ["doc"]) = .wrong := by decide +kernel

/-- A line that is shown although everything before the flag would be complained about without it. -/
example : ShowsHelp .tool (wordsOf ["-C", "", "doc", "-e", "list", "--help", "--what"]) ∧
    ∀ v, ¬ Line (wordsOf ["-C", "", "doc", "-e", "list"]) v := by
  refine ⟨(C111_shown _).1 (by decide +kernel), fun v h => ?_⟩
  have := (C111_runs _ v).2 h
  rw [show parsed (wordsOf ["-C", "", "doc", "-e", "list"]) = .wrong by decide +kernel] at this
  cases this

example : ∀ room, ProcEnds (some (parsePath "/w".toList)) ⟨[], []⟩ (fun _ => []) (fun _ => true) room (wordsOf ["doc", "--help"]) (.usage 0) :=
  fun room => (C111_help _ _ _ room _ _).2 ((C111_shown _).1 (by decide +kernel))

end Plotline
