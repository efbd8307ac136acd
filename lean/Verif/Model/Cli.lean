import Verif.Model.Lazy
import Verif.Model.Regex
import Verif.Model.Transaction

/-!
# The command line tool (plotline-cli/src/repository.rs, document.rs, main.rs)

Paths are lists of names, as `PathBuf` compares them. A name is a list of characters (ordered by code point, which is the order
of the UTF-8 bytes). The name `..` stands for the parent directory. The first name of an absolute path is empty, and no other name
is. Only the first name may be `.` (`Path::components` drops the others). Extensions have no `/`.

Paths given by the user are parsed (`parsePath`). The arguments are read in `Model/Args`.

Logging is in `Model/CliLog`.

Permissions of directories are in `Model/Perms`.

File systems that change while the tool runs are in `Model/Changes`.

`PathBuf` has `.` and `..` before all other names. Here paths are ordered as lists of names, which is the same for what is listed
(`Props/PathOrder`).
-/

namespace Plotline

abbrev Name := List Char
abbrev FilePath := List Name
abbrev Bytes := List UInt8

/-! ## `std::path` -/

/-- `slice.rsplitn(2, '.')` where there is a dot: what is before and after the last one. -/
def rsplitDot : Name → Option (Name × Name)
  | [] => none
  | c :: t =>
    match rsplitDot t with
    | some (before, after) => some (c :: before, after)
    | none => if c = '.' then some ([], t) else none

/-- `..` -/
def dotdot : Name := ['.', '.']

/-- `.` -/
def dot : Name := ['.']

/-- `Path::extension` of a file name (std `rsplit_file_at_dot`). -/
def extensionOf (n : Name) : Option Name :=
  if n = dotdot then none
  else match rsplitDot n with
    | none => none
    | some (before, after) => if before = [] then none else some after

/-- `Path::file_stem` of a file name (std `rsplit_file_at_dot`). -/
def fileStem (n : Name) : Name :=
  if n = dotdot then n
  else match rsplitDot n with
    | none => n
    | some (before, _) => if before = [] then n else before

/-- `PathBuf::set_extension` on the last name of a path. `..` is not a file name and stays. -/
def setExt (n ext : Name) : Name :=
  if n = dotdot then n else fileStem n ++ (if ext = [] then [] else '.' :: ext)

/-- `Path::with_extension` on the last name of a path: std copies the path up to and including the dot, then calls
`set_extension`. The root and `.` are not file names either. -/
def withExt (n ext : Name) : Name :=
  if n = dotdot then n
  else if n = [] ∨ n = dot then n
  else match extensionOf n with
    | none => setExt n ext
    | some previous => setExt (n.take (n.length - previous.length)) ext

/-- `Path::with_extension`. -/
def withExtension (p : FilePath) (ext : Name) : FilePath :=
  match p.getLast? with
  | none => p
  | some n => p.dropLast ++ [withExt n ext]

/-- `Path::join`: an absolute path replaces the other, and a `.` is not the first name any more. -/
def joinPath (p q : FilePath) : FilePath :=
  if q.head? = some [] then q
  else if q.head? = some dot ∧ p ≠ [] then p ++ q.tail
  else p ++ q

/-- What is between separators. -/
def splitSlash : List Char → List Name
  | [] => [[]]
  | c :: s =>
    if c = '/' then [] :: splitSlash s
    else match splitSlash s with
      | [] => [[c]]
      | n :: p => (c :: n) :: p

/-- `PathBuf::from_str` and `Path::components`: repeated and trailing separators do not count, nor does `.` except at the start. -/
def parsePath (s : List Char) : FilePath :=
  let rest := fun p : List Name => p.filter fun n => n ≠ [] ∧ n ≠ dot
  match splitSlash s with
  | [] => []
  | n :: p =>
    if n = [] then (if s = [] then [] else [] :: rest p)
    else n :: rest p

/-- The text of a path: its names with a separator between them. -/
def writePath : FilePath → List Char
  | [] => []
  | n :: p => if n = [] ∧ p = [] then ['/'] else n ++ p.flatMap fun m => '/' :: m

/-! ## The repository -/

/-- `Document` (document.rs:22-34). -/
structure Document where
  path : FilePath
  bytes : Bytes
deriving DecidableEq, Repr

/-- What is in a directory under a name. `sealed` is what can be found but not read: a file without the permission, a socket. -/
inductive FsNode where
  | file (bytes : Bytes)
  | dir
  | link (target : FilePath)
  | sealed
deriving DecidableEq, Repr

/-- A file system: everything in it but the root, by the names that lead to it from the root, each once, and the working
directory. No link has an empty target. -/
structure Fs where
  nodes : List (List Name × FsNode)
  cwd : List Name := []

/-- What is at the end of these names. -/
def Fs.at (fs : Fs) (p : List Name) : Option FsNode := (fs.nodes.find? (fun e => e.1 = p)).map Prod.snd

/-- Along a path from a directory: `/` is the root, `.` leads nowhere else, the parent directory of the root is the root. At a link
`jump` goes on. -/
def Fs.pass (fs : Fs) (jump : List Name → FilePath → Option (List Name)) : (here : List Name) → FilePath → Option (List Name)
  | here, [] => some here
  | here, n :: p =>
    if n = [] then fs.pass jump [] p
    else if n = dot then fs.pass jump here p
    else if n = dotdot then fs.pass jump here.dropLast p
    else match fs.at (here ++ [n]) with
      | none => none
      | some .dir => fs.pass jump (here ++ [n]) p
      | some (.link target) => jump here (target ++ p)
      | some _ => if p = [] then some (here ++ [n]) else none

/-- Where a path leads from a directory, through at most so many links. -/
def Fs.follow (fs : Fs) : (links : Nat) → (here : List Name) → FilePath → Option (List Name)
  | 0 => fs.pass fun _ _ => none
  | k + 1 => fs.pass (fs.follow k)

/-- The system goes through this many links and no more (`MAXSYMLINKS` of Linux). -/
def maxLinks : Nat := 40

/-- `std::fs::read`. -/
def Fs.read (fs : Fs) (p : FilePath) : Option Bytes :=
  match fs.follow maxLinks fs.cwd p with
  | none => none
  | some q =>
    match fs.at q with
    | some (.file bytes) => some bytes
    | _ => none

/-- `LocalDocumentRepository` (repository.rs:13-18). -/
structure LocalRepo where
  context : FilePath
  extension : Name

/-- `find_by_id` (repository.rs:23-38). -/
def LocalRepo.findById (r : LocalRepo) (fs : Fs) (i : FilePath) : Option Document :=
  let path := withExtension (joinPath r.context i) r.extension
  (fs.read path).map fun bytes => ⟨path, bytes⟩

/-- `Regex::new(&format!("\\.{}$", self.extension))` (repository.rs:57). -/
def extPattern (ext : Name) : Pattern := Regex.parse ('\\' :: '.' :: ext ++ ['$'])

/-- `DirEntry::file_name` (repository.rs:61; `walkdir`): the last name of a path, or all of the path if it ends with no name: the root,
and what ends with `..`. The latter can only be the context. It is taken to be written with single separators. -/
def entryName (p : FilePath) : Name :=
  match p.getLast? with
  | none => []
  | some n => if n = dotdot ∨ p = [[]] then writePath p else n

/-- `regex.is_match(file_name)` (repository.rs:61). Without a regular expression `all` does not get this far. -/
def matchesExt (ext : Name) (p : FilePath) : Bool :=
  match extPattern ext with
  | .ok r => r.isMatch (entryName p)
  | _ => false

/-- `all` (repository.rs:43-86), given what the walk over the context yields (repository.rs:44-55), in that order, and that the
extension makes a regular expression. -/
def LocalRepo.all (r : LocalRepo) (walked : List FilePath) : List (LazyDocument FilePath Document) :=
  ((walked.filter (matchesExt r.extension)).filterMap
    fun p => r.context.isPrefixOf? (withExtension p [])).map LazyDocument.build

/-! ## Commands -/

/-- The schema of the tool. -/
abbrev CliSig : Sig :=
  { K := FilePath, T := LazyDocument FilePath Document, V := Unit, unit := (), Ty := Nat, Val := fun _ => Nat }

/-- `DocumentSubCommand` (document.rs:43-52). -/
inductive Subcommand where
  | delete
  | list
  | save (content : Option Bytes)

/-- Errors of `execute` (document.rs:80-114). -/
inductive CliError where
  | idNotSet
  | schema (e : Error)
deriving DecidableEq, Repr

/-- How a run of the tool ends: its result, what it printed, and what is on disk. -/
structure Ran where
  result : Out (Except CliError Unit)
  stdout : List FilePath
  schema : Schema CliSig
  fs : Fs

/-- `DocumentCli::execute` (document.rs:80-114). No branch touches the file system. `none` if `fuel` does not suffice. -/
def execute (fuel : Nat) (fs : Fs) (S : Schema CliSig) (i : Option FilePath) (c : Subcommand) : Option Ran :=
  let finish : Out (Except Error Unit) × Schema CliSig → Ran
    | (.ret (.ok _), S') => ⟨.ret (.ok ()), [], S', fs⟩
    | (.ret (.error e), S') => ⟨.ret (.error (.schema e)), [], S', fs⟩
    | (.panic, S') => ⟨.panic, [], S', fs⟩
    | (.stuck, S') => ⟨.stuck, [], S', fs⟩
  match c with
  | .delete =>
    match i with
    | none => some ⟨.ret (.error .idNotSet), [], S, fs⟩
    | some i => (S.delete fuel i).map finish
  | .list => some ⟨.ret (.ok ()), S.guard.iter.map fun node => node.id, S, fs⟩
  | .save content =>
    match i with
    | none => some ⟨.ret (.error .idNotSet), [], S, fs⟩
    | some i =>
      match LazyDocument.new Document.path ⟨i, content.getD []⟩ with
      | none => some ⟨.panic, [], S, fs⟩
      | some l => (S.save fuel l).map finish

/-- The schema `main` starts with (main.rs:70-71). -/
def LocalRepo.schema (r : LocalRepo) (walked : List FilePath) : Schema CliSig := Schema.fromGraph (Graph.fromIter (r.all walked))

/-- `main` (main.rs:55-81) on a file system, given the order of the walk. The `expect` on the regular expression
(repository.rs:58) panics before there is a schema; the one given is empty. Also `none` if the pattern is not modelled. -/
def plot (fuel : Nat) (r : LocalRepo) (fs : Fs) (walked : List FilePath) (i : Option FilePath) (c : Subcommand) : Option Ran :=
  match extPattern r.extension with
  | .ok _ => execute fuel fs (r.schema walked) i c
  | .invalid => some ⟨.panic, [], Schema.fromGraph Graph.empty, fs⟩
  | .unmodelled => none

/-- `plot doc ID …` with the id as it is on the command line (document.rs:81-88). `PathBuf::from_str` does not fail. -/
def plotDoc (fuel : Nat) (r : LocalRepo) (fs : Fs) (walked : List FilePath) (arg : Option (List Char)) (c : Subcommand) : Option Ran :=
  plot fuel r fs walked (arg.map parsePath) c

end Plotline
