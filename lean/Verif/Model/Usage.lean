import Verif.Model.Shell

/-!
# Command lines that run nothing (plotline-cli/src/main.rs:16-56)

What `Cli::parse()` does with any command line, where `Model/Args` only has those that run something; and how the process ends.
clap reads the words from the first to the last and ends the process at the first request for help or the version (status 0, on the
standard output) or the first complaint (status 2, on the standard error). The rules beyond those of `Model/Args`, again clap's
(`Parser::parse`, `resolve_pending`, `react`, `parse_help_subcommand`):

* A value that is a word of its own is not looked at when it is read but when the command gets to its next option or argument, or is
  through with everything else, its subcommand included. So is an option that has no value.
* `-h` asks for help whatever follows it in the same word, `--help` only on its own; `-V` and `--version` likewise for the version,
  which only the tool has.
* After the subcommand `help` come names of subcommands, from outer to inner, and nothing else. The last may be `help`.
* What is missing at the end of the words is complained about.

The default of `--context` (main.rs:16-20, 37) is computed before anything is read, also if it is not needed: without a working
directory the process panics (status 101).

Not modelled: what is printed. That help or a complaint cannot be printed is ignored by clap.
-/

namespace Plotline

/-- What `Cli::parse()` comes to. -/
inductive Parsed where
  | runs (v : Invocation)
  /-- Help or the version. -/
  | shown
  /-- A complaint. -/
  | wrong
deriving DecidableEq, Repr

/-- The word asks for help or the version (clap adds these flags to every command; the version, main.rs:27, to the tool). -/
def Level.asks (l : Level) : Word → Bool
  | '-' :: 'h' :: _ => true
  | '-' :: 'V' :: _ => l = .tool
  | w => w = "--help".toList ∨ (l = .tool ∧ w = "--version".toList)

/-- The words after the subcommand `help` (`parse_help_subcommand`). -/
def Level.helps : Level → List Word → Bool
  | _, [] => true
  | l, w :: ws =>
    match l.named w with
    | .enter l => l.helps ws
    | .help => ws = []
    | .no => false

/-- What has been read, `held` being an option with a value that was not looked at; `late` if a command around this one has a
complaint to make when this one is through. -/
structure Stage where
  read : Reading := {}
  held : Option (Opt × Word) := none
  late : Bool := false

/-- `resolve_pending`. -/
def Stage.settle (s : Stage) : Option Stage :=
  match s.read.pending, s.held with
  | some _, _ => none
  | none, some (o, v) => (s.read.here.give o v).map fun h => { s with read := { s.read with here := h }, held := none }
  | none, none => some s

inductive Next where
  | stop (p : Parsed)
  | go (s : Stage)

/-- An option or argument: first what was not looked at. -/
def Stage.go (s : Stage) (f : Reading → Option Reading) : Next :=
  match s.settle with
  | none => .stop .wrong
  | some s =>
    match f s.read with
    | none => .stop .wrong
    | some r => .go { s with read := r }

/-- One word, `rest` being the words after it. -/
def Stage.word (s : Stage) (w : Word) (rest : List Word) : Next :=
  if s.read.escaped then s.go (·.positional w)
  else
    match if s.read.pending = none ∨ s.read.level = .doc then s.read.level.named w else .no with
    | .help => .stop (if s.read.level.helps rest then .shown else .wrong)
    | .enter l =>
      match s.settle with
      | some s => .go { s with read := { s.read with level := l, here := {}, around := s.read.here.over s.read.around } }
      | none => .go { read := { level := l }, late := true }
    | .no =>
      if s.read.level.asks w then .stop (if s.settle.isSome then .shown else .wrong)
      else
        match look w with
        | .escape => .go { s with read := { s.read with escaped := true } }
        | .option o (some v) => s.go fun r => (r.here.give o v).map fun h => { r with here := h }
        | .option o none => s.go fun r => some { r with pending := some o }
        | .other => .stop .wrong
        | .plain =>
          match s.read.pending with
          | some o => .go { s with read := { s.read with pending := none }, held := some (o, w) }
          | none => s.go (·.positional w)

/-- The end of the words. -/
def Stage.done (s : Stage) : Parsed :=
  match s.settle.bind (·.read.done) with
  | some v => if s.late then .wrong else .runs v
  | none => .wrong

/-- The words from here on. -/
def Stage.words (s : Stage) : List Word → Parsed
  | [] => s.done
  | w :: ws =>
    match s.word w ws with
    | .stop p => p
    | .go s => s.words ws

/-- `Cli::parse()` (main.rs:56). -/
def parsed (ws : List Word) : Parsed := ({} : Stage).words ws

/-- How a process ends: in `main`, or before that with this status. -/
inductive Finish where
  | usage (status : Nat)
  | main (x : Exit)
deriving DecidableEq, Repr

/-- The status the shell sees. -/
def Finish.status : Finish → Nat
  | .usage n => n
  | .main x => x.status

/-- A process of the tool (main.rs:16-81), run in the directory `here` if there is one. -/
def process (fuel : Nat) (here : Option FilePath) (fs : Fs) (walk : FilePath → List FilePath) (plain : Char → Bool) (room : Option Nat)
    (ws : List Word) : Option Finish :=
  match here with
  | none => some (.usage 101)
  | some here =>
    match parsed ws with
    | .shown => some (.usage 0)
    | .wrong => some (.usage 2)
    | .runs v =>
      let r := v.repo here
      ((plotDoc fuel r fs (walk r.context) v.id v.command).bind (·.exit plain room)).map .main

end Plotline
