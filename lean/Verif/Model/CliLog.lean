import Verif.Model.Log
import Verif.Model.Shell

/-!
# What the command line tool and its documents write to the log (the `tracing` events of `plotline-cli` and `document/lazy.rs`)

The log of the tool goes to the standard error (main.rs:58-63), from level INFO up; the line at level DEBUG (repository.rs:62) is
not written. Texts are represented by constructors with the fields that tell the lines apart.

The lines of a process: `all` is lazy, and `Graph::from_iter` (main.rs:67) takes one entry of the walk at a time, so the lines
about an entry come when it is met, in the order of the walk, and before those of the command.
-/

namespace Plotline

/-- One line of the log of the tool. -/
inductive CliLine where
  /-- "walking base directory" (repository.rs:47-51), with the error -/
  | walking (err : List Char)
  /-- "stripping context from path" (repository.rs:75-80), with the path -/
  | stripping (p : FilePath)
  /-- a line of the library -/
  | schema (l : LogLine CliSig)

/-- What the iterator of `Walk::new(..)` yields (repository.rs:44-45). -/
abbrev Entry := Except (List Char) FilePath

/-- `entry.ok()` (repository.rs:54). -/
def walkedOf (met : List Entry) : List FilePath := met.filterMap fun
  | .ok p => some p
  | .error _ => none

/-- What one entry of the walk makes `all` log (repository.rs:46-52, 67-81). -/
def LocalRepo.entryLog (r : LocalRepo) : Entry → List CliLine
  | .error e => [.walking e]
  | .ok p =>
    if matchesExt r.extension p = true then
      match r.context.isPrefixOf? (withExtension p []) with
      | none => [.stripping p]
      | some _ => []
    else []

/-- What `Graph::from_iter(document_repo.all())` logs (main.rs:67). -/
def LocalRepo.walkLog (r : LocalRepo) (met : List Entry) : List CliLine := met.flatMap r.entryLog

/-- What `DocumentCli::execute` logs (document.rs:80-114). Listing takes a guard of the graph (document.rs:98). -/
inductive ExecLogs (S : Schema CliSig) : Option FilePath → Subcommand → List (LogLine CliSig) → Prop where
  | list (i : Option FilePath) : ExecLogs S i .list S.guardLog
  | deleteNoId : ExecLogs S none .delete []
  | saveNoId (content : Option Bytes) : ExecLogs S none (.save content) []
  | delete {i : FilePath} {ls : List (LogLine CliSig)} : S.Logs [] (deleteBody i) ls → ExecLogs S (some i) .delete ls
  | save {i : FilePath} {content : Option Bytes} {l : LazyDocument FilePath Document} {ls : List (LogLine CliSig)} :
      LazyDocument.new Document.path ⟨i, content.getD []⟩ = some l → S.Logs [] (saveBody l) ls →
      ExecLogs S (some i) (.save content) ls

/-- What `main` logs once the arguments are read (main.rs:58-80). The pattern is made before the first entry is met
(repository.rs:57-58). -/
inductive PlotLogs (r : LocalRepo) (met : List Entry) (i : Option FilePath) (c : Subcommand) : List CliLine → Prop where
  | ok {re : Re} {ls : List (LogLine CliSig)} : extPattern r.extension = .ok re → ExecLogs (r.schema (walkedOf met)) i c ls →
      PlotLogs r met i c (r.walkLog met ++ ls.map .schema)
  | invalid : extPattern r.extension = .invalid → PlotLogs r met i c []

/-- What a whole process logs. There is no log before the arguments are read (main.rs:56). `met` is what the walk over a context
meets. -/
inductive ProcLogs (here : FilePath) (met : FilePath → List Entry) (ws : List Word) : List CliLine → Prop where
  | usage : parseArgs ws = none → ProcLogs here met ws []
  | ran {v : Invocation} {ls : List CliLine} : parseArgs ws = some v →
      PlotLogs (v.repo here) (met (v.repo here).context) (v.id.map parsePath) v.command ls → ProcLogs here met ws ls

/-! ## Documents -/

/-- One line about a document. -/
inductive DocLine where
  /-- "finding document by id" (repository.rs:28-34): the repository finds nothing -/
  | finding
  /-- "document not found" (document/lazy.rs:68) -/
  | notFound
deriving DecidableEq, Repr

/-- What the next step of thread `t` logs (lazy.rs:63-70, repository.rs:26-35). -/
def DerefState.says {Doc : Type} (s : DerefState Doc) (t : Nat) (answer : Option Doc) : List (Nat × DocLine) :=
  match s.pcs t with
  | .find =>
    match answer with
    | none => [(t, .finding)]
    | some _ => []
  | .set d =>
    match onceSet s.cache d with
    | (_, true) => []
    | (_, false) => [(t, .notFound)]
  | _ => []

/-- What an execution logs, with the threads that do. -/
def DerefState.saysAll {Doc : Type} (s : DerefState Doc) : List (Nat × Option Doc) → List (Nat × DocLine)
  | [] => []
  | e :: sched => s.says e.1 e.2 ++ (s.step e.1 e.2).saysAll sched

end Plotline
