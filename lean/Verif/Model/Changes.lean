import Verif.Model.Cli

/-!
# File systems that change while the tool runs (plotline-cli/src/repository.rs:44-55)

`Model/Cli` is given what the walk over the context yields, and takes the file system to stay as it is. Here the walk itself
(`ignore::Walk`, which is `walkdir` without the files to be ignored) is run step by step, while the file system is another at every
instant.

The walker keeps the directories it is reading on a stack. It finds each by its path when it opens it. From then on the system gives
the names in it, in any order and over any time: a name that is there all along is given, and once; whether one that is added or removed
meanwhile is given is not known. What is a directory when its name is given is opened next, if it is not to be skipped.

Simplifications: instants are numbered; the context is looked up and opened in one instant, and so is every directory as the walk
decides not to skip it; a directory that is being read is not moved (the walker would go on reading it under its old path); all
directories may be listed and searched (`Model/Perms`). Errors of the walk, as for a directory that is gone when it is to be opened, are
dropped (repository.rs:46-54).
-/

namespace Plotline

/-- A directory that can be opened at the path (`opendir`): where it is. -/
def Fs.opens (fs : Fs) (p : FilePath) : Option (List Name) :=
  if p = [] then none
  else match fs.follow maxLinks fs.cwd p with
    | none => none
    | some d => if d = [] ∨ fs.at d = some .dir then some d else none

/-- What is under a name in the directory at the path. -/
def Fs.has (fs : Fs) (p : FilePath) (n : Name) : Option FsNode :=
  match fs.opens p with
  | none => none
  | some d => fs.at (d ++ [n])

/-- The names in the directory at the path. -/
def Fs.names (fs : Fs) (p : FilePath) : List Name :=
  match fs.opens p with
  | none => []
  | some d => fs.nodes.filterMap fun e => if e.1.dropLast = d then e.1.getLast? else none

/-- The file system at every instant, and which paths below the context the walk ignores if it comes to them then. -/
structure Changing where
  fs : Nat → Fs
  ignored : Nat → FilePath → Bool

/-- A directory being read: its path below the context, the instant it was opened, and the names given since. -/
structure OpenDir where
  rel : FilePath
  since : Nat
  given : List Name
deriving DecidableEq, Repr

/-- The walk at an instant: the directories it is reading, the innermost first, and what it has yielded. -/
structure WalkState where
  now : Nat
  stack : List OpenDir
  out : List FilePath
deriving DecidableEq, Repr

/-- What happens next: time goes by, the system gives a name as it was at some instant, or the end of the directory. -/
inductive WalkEvent where
  | wait
  | give (n : Name) (instant : Nat)
  | close
deriving DecidableEq, Repr

/-- The name has been in the directory since it was opened. -/
def OpenDir.stays (W : Changing) (ctx : FilePath) (now : Nat) (r : OpenDir) (n : Name) : Bool :=
  (List.range' r.since (now + 1 - r.since)).all fun s => ((W.fs s).has (ctx ++ r.rel) n).isSome

namespace WalkState

/-- `Walk::new` and its first entry (repository.rs:44). The walker takes `-` for the standard input. -/
def start (W : Changing) (ctx : FilePath) (t : Nat) : WalkState :=
  if ctx = ["-".toList] then ⟨t, [], [["<stdin>".toList]]⟩
  else if ctx = [] then ⟨t, [], []⟩
  else match (W.fs t).follow maxLinks (W.fs t).cwd ctx with
    | none => ⟨t, [], []⟩
    | some _ => ⟨t, if ((W.fs t).opens ctx).isSome then [⟨[], t, []⟩] else [], [ctx]⟩

/-- One step of `Walk::next` (repository.rs:44-55), or of the rest of the world. `none` if this cannot happen. -/
def step (W : Changing) (ctx : FilePath) (s : WalkState) : WalkEvent → Option WalkState
  | .wait => some { s with now := s.now + 1 }
  | .give n instant =>
    match s.stack with
    | [] => none
    | r :: rest =>
      if instant < r.since ∨ s.now < instant then none
      else if n ∈ r.given ∧ r.stays W ctx s.now n = true then none
      else match (W.fs instant).has (ctx ++ r.rel) n with
        | none => none
        | some x =>
          let r' : OpenDir := ⟨r.rel, r.since, n :: r.given⟩
          if n.head? = some '.' ∨ W.ignored s.now (r.rel ++ [n]) = true then some ⟨s.now, r' :: rest, s.out⟩
          else if x = .dir ∧ ((W.fs s.now).opens (ctx ++ (r.rel ++ [n]))).isSome = true then
            some ⟨s.now, ⟨r.rel ++ [n], s.now, []⟩ :: r' :: rest, s.out ++ [ctx ++ (r.rel ++ [n])]⟩
          else some ⟨s.now, r' :: rest, s.out ++ [ctx ++ (r.rel ++ [n])]⟩
  | .close =>
    match s.stack with
    | [] => none
    | r :: rest =>
      if ((W.fs s.now).names (ctx ++ r.rel)).all fun n => decide (n ∈ r.given) || !r.stays W ctx s.now n then
        some ⟨s.now, rest, s.out⟩
      else none

/-- The walk, from an instant on. -/
def run (W : Changing) (ctx : FilePath) (t : Nat) (es : List WalkEvent) : Option WalkState := es.foldlM (step W ctx) (start W ctx t)

end WalkState

end Plotline
