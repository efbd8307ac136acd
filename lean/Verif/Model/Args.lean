import Verif.Model.Cli

/-!
# The arguments of the command line tool (plotline-cli/src/main.rs:22-53, lib.rs:7-10, document.rs:36-61)

What `Cli::parse()` makes of the words of a command line, the first (the name of the program) left out. The grammar is declared
by attributes; what they mean is clap's (version 4.5, `clap_builder::parser`, `clap_lex`), as follows.

* Words are read one by one by a command: the whole tool, then `doc`, then `delete`, `list` or `save`. Each reads until it meets
  the name of one of its subcommands, which reads the rest.
* `--context` and `--extension` are `global`: every command has them. The one given to the innermost command counts. Giving one
  twice to the same command is an error.
* An option's value is the rest of its word (`-Cx`, `-C=x`, `--context=x`) or the next word. In `doc` the name of a subcommand is
  never a value of the latter kind nor an id (`subcommand_precedence_over_arg`, document.rs:43): it is the subcommand.
* Words beginning with `-`, other than `-` itself, are options until the word `--`; after `--` there are only positional
  arguments, and no subcommands. Options with other names, and more positional arguments than there are, are errors.
* `-h`, `--help` and the subcommand `help` (of the tool and of `doc`) print help, `-V` and `--version` the version.
* An empty value is an error for a `PathBuf`, not for a `String`.

In the last three cases, and if `doc` or its subcommand is missing, `parse` prints something and ends the process. The model does
not tell these apart: they are `none`. `Model/Usage` does.

Not modelled: what is printed. Words that are not UTF-8 are in `Model/OsNames`.
-/

namespace Plotline

abbrev Word := List Char

/-- The options of the tool (main.rs:36-52). -/
inductive Opt where
  | context
  | extension
deriving DecidableEq, Repr

/-- `short = 'C'` (main.rs:40), `short` (main.rs:49). -/
def Opt.letter : Opt → Char
  | .context => 'C'
  | .extension => 'e'

/-- `long` (main.rs:41, 50): the name of the field. -/
def Opt.name : Opt → Word
  | .context => "context".toList
  | .extension => "extension".toList

/-- What a word looks like, wherever it is. -/
inductive Look where
  /-- `--` -/
  | escape
  /-- An option, with the value if that is in the same word. -/
  | option (o : Opt) (value : Option Word)
  /-- Any other option. -/
  | other
  | plain

/-- `str::split_once('=')`. -/
def splitEq : Word → Word × Option Word
  | [] => ([], none)
  | c :: w => if c = '=' then ([], some w) else ((c :: (splitEq w).1), (splitEq w).2)

/-- `ParsedArg::is_escape`, `to_long` and `to_short` of `clap_lex`, and the search for the option. -/
def look : Word → Look
  | ['-', '-'] => .escape
  | '-' :: '-' :: w =>
    let (name, value) := splitEq w
    if name = Opt.context.name then .option .context value
    else if name = Opt.extension.name then .option .extension value
    else .other
  | '-' :: c :: w =>
    let value := match w with
      | [] => none
      | '=' :: v => some v
      | v => some v
    if c = Opt.context.letter then .option .context value
    else if c = Opt.extension.letter then .option .extension value
    else .other
  | _ => .plain

/-- The values of the options given to one command. -/
structure Options where
  context : Option Word := none
  extension : Option Word := none
deriving DecidableEq, Repr

/-- Gives an option its value: not twice, and not an empty path. -/
def Options.give (s : Options) (o : Opt) (v : Word) : Option Options :=
  match o with
  | .context => if s.context = none ∧ v ≠ [] then some { s with context := some v } else none
  | .extension => if s.extension = none then some { s with extension := some v } else none

/-- The options given to a command and, where it has none, those given to the commands around it (`global`). -/
def Options.over (s t : Options) : Options := ⟨s.context.or t.context, s.extension.or t.extension⟩

/-- The subcommands of `doc` (document.rs:44-52). -/
inductive Action where
  | delete
  | list
  | save
deriving DecidableEq, Repr

/-- A command that reads words. -/
inductive Level where
  | tool
  | doc
  | action (a : Action)
deriving DecidableEq, Repr

/-- What the name of a subcommand stands for. -/
inductive Named where
  | no
  | help
  | enter (l : Level)

/-- The subcommand of a name (lib.rs:7-10, document.rs:44-52; clap derives names in kebab case and adds `help`). -/
def Level.named : Level → Word → Named
  | .tool, w =>
    if w = "doc".toList then .enter .doc else if w = "help".toList then .help else .no
  | .doc, w =>
    if w = "delete".toList then .enter (.action .delete)
    else if w = "list".toList ∨ w = "ls".toList then .enter (.action .list)
    else if w = "save".toList then .enter (.action .save)
    else if w = "help".toList then .help else .no
  | .action _, _ => .no

/-- What has been read. -/
structure Reading where
  level : Level := .tool
  here : Options := {}
  around : Options := {}
  id : Option Word := none
  content : Option Word := none
  /-- The option whose value comes next. -/
  pending : Option Opt := none
  escaped : Bool := false

/-- A positional argument: `id` (document.rs:58) or `content` (document.rs:39). -/
def Reading.positional (r : Reading) (w : Word) : Option Reading :=
  match r.level with
  | .doc => if r.id = none then some { r with id := some w } else none
  | .action .save => if r.content = none then some { r with content := some w } else none
  | _ => none

/-- One word. -/
def Reading.word (r : Reading) (w : Word) : Option Reading :=
  if r.escaped then r.positional w
  else
    match if r.pending = none ∨ r.level = .doc then r.level.named w else .no with
    | .help => none
    | .enter l =>
      if r.pending = none then some { r with level := l, here := {}, around := r.here.over r.around } else none
    | .no =>
      match look w, r.pending with
      | .plain, none => r.positional w
      | .plain, some o => (r.here.give o w).map fun s => { r with here := s, pending := none }
      | .option o none, none => some { r with pending := some o }
      | .option o (some v), none => (r.here.give o v).map fun s => { r with here := s }
      | .escape, none => some { r with escaped := true }
      | _, _ => none

/-- What a command line asks for: the fields of `Cli` (main.rs:32-53) and `DocumentCommand` (document.rs:54-61). Options are
`none` if they have their default value. -/
structure Invocation where
  options : Options
  id : Option Word
  action : Action
  content : Option Word
deriving DecidableEq, Repr

/-- The end of the words. -/
def Reading.done (r : Reading) : Option Invocation :=
  match r.level, r.pending with
  | .action a, none => some ⟨r.here.over r.around, r.id, a, r.content⟩
  | _, _ => none

/-- The words from here on. -/
def Reading.words (r : Reading) : List Word → Option Invocation
  | [] => r.done
  | w :: ws => (r.word w).bind fun r => r.words ws

/-- `Cli::parse()` (main.rs:56). -/
def parseArgs (ws : List Word) : Option Invocation := ({} : Reading).words ws

/-- `String::into_bytes` (document.rs:105). -/
def utf8 (s : List Char) : Bytes := (String.ofList s).toUTF8.toList

/-- The repository of an invocation (main.rs:65-68), run in the directory `here` (main.rs:16-20). -/
def Invocation.repo (v : Invocation) (here : FilePath) : LocalRepo :=
  ⟨(v.options.context.map parsePath).getD here, v.options.extension.getD "md".toList⟩

/-- The subcommand of an invocation. -/
def Invocation.command (v : Invocation) : Subcommand :=
  match v.action with
  | .delete => .delete
  | .list => .list
  | .save => .save (v.content.map utf8)

/-- How a process ends. -/
inductive Process where
  /-- In `Cli::parse()`, with help or a complaint. -/
  | usage
  | ran (r : Ran)

/-- The whole of `main` (main.rs:55-81): the words of the command line, run in the directory `here`. `walk` is the order in which
the paths under a context are met. -/
def plotline (fuel : Nat) (here : FilePath) (fs : Fs) (walk : FilePath → List FilePath) (ws : List Word) : Option Process :=
  match parseArgs ws with
  | none => some .usage
  | some v =>
    let r := v.repo here
    (plotDoc fuel r fs (walk r.context) v.id v.command).map .ran

end Plotline
