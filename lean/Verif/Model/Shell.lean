import Verif.Model.Args
import Verif.Model.Listing

/-!
# What the shell gets to see of a run (plotline-cli/src/main.rs:55-81, document.rs:80-114)

`main` returns `anyhow::Result<()>`. For an error std prints `Error: ` and its `Debug`, which for `anyhow` is the `Display` of an error
without a cause, and ends the process with status 1; a panic ends it with status 101.

`list` writes to a standard output that is flushed at the end of each line and may have room for only so many: a pipe whose reader
goes away, a full disk. Rust programs ignore `SIGPIPE`, so the write fails, and so does the `unwrap` (document.rs:100).

Not modelled: what a panic prints, backtraces (`RUST_BACKTRACE`), and that a line longer than the buffer is
written in pieces.
-/

namespace Plotline

/-- `Display` of `Error` (plotline/src/schema/error.rs:8-15). -/
def Error.text : Error → List Char
  | .noop => "nothing to apply".toList
  | .msg s => s.toList

/-- `Debug` of the errors of `execute` (document.rs:87, 92, 109). -/
def CliError.text : CliError → List Char
  | .idNotSet => "node id must be set".toList
  | .schema e => e.text

/-- How a process ends: its status, what it wrote to the standard output, and the error it reported. -/
structure Exit where
  status : Nat
  stdout : List Char
  stderr : Option (List Char)
deriving DecidableEq, Repr

/-- The end of a run with room for `room` lines on the standard output, if that is limited. `none` if it never ends. -/
def Ran.exit (plain : Char → Bool) (room : Option Nat) (r : Ran) : Option Exit :=
  match r.result with
  | .ret (.ok _) =>
    match room with
    | some n =>
      if n < r.stdout.length then some ⟨101, listText plain (r.stdout.take n), none⟩
      else some ⟨0, listText plain r.stdout, none⟩
    | none => some ⟨0, listText plain r.stdout, none⟩
  | .ret (.error e) => some ⟨1, listText plain r.stdout, some ("Error: ".toList ++ e.text ++ ['\n'])⟩
  | .panic => some ⟨101, listText plain r.stdout, none⟩
  | .stuck => none

/-- The end of a process, unless it is in `Cli::parse()` (`Process.usage`). -/
def Process.exit (plain : Char → Bool) (room : Option Nat) : Process → Option Exit
  | .usage => none
  | .ran r => r.exit plain room

end Plotline
