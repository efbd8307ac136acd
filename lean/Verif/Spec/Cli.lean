import Verif.Model.Cli
import Verif.Spec.Transaction

/-! # What is expected of the command line tool -/

namespace Plotline

open Std

instance : LawfulSig CliSig where
  transK := inferInstanceAs (TransOrd FilePath)
  beqK := inferInstanceAs (LawfulBEqOrd FilePath)
  transTy := inferInstanceAs (TransOrd Nat)
  eqTy := inferInstanceAs (LawfulEqOrd Nat)

/-- The name of something in a directory. -/
def Plain (n : Name) : Prop := n ≠ [] ∧ n ≠ dotdot ∧ n ≠ dot

/-- From the directory `here` the path leads to `there`, both given by the names that lead to them from the root, through `k`
links. -/
inductive Leads (fs : Fs) : (here : List Name) → FilePath → (there : List Name) → (k : Nat) → Prop
  | here {here : List Name} : Leads fs here [] here 0
  | root {here there : List Name} {p : FilePath} {k : Nat} : Leads fs [] p there k → Leads fs here ([] :: p) there k
  | dot {here there : List Name} {p : FilePath} {k : Nat} : Leads fs here p there k → Leads fs here (Plotline.dot :: p) there k
  | up {here there : List Name} {p : FilePath} {k : Nat} : Leads fs here.dropLast p there k → Leads fs here (dotdot :: p) there k
  | dir {here there : List Name} {n : Name} {p : FilePath} {k : Nat} : Plain n → fs.at (here ++ [n]) = some .dir →
      Leads fs (here ++ [n]) p there k → Leads fs here (n :: p) there k
  | link {here there : List Name} {n : Name} {target p : FilePath} {k : Nat} : Plain n →
      fs.at (here ++ [n]) = some (.link target) → Leads fs here (target ++ p) there k → Leads fs here (n :: p) there (k + 1)
  | last {here : List Name} {n : Name} {x : FsNode} : Plain n → fs.at (here ++ [n]) = some x → (∀ target, x ≠ .link target) →
      Leads fs here [n] (here ++ [n]) 0

/-- The path leads there from the working directory. The empty path leads nowhere. -/
def Fs.Finds (fs : Fs) (p : FilePath) (there : List Name) : Prop := p ≠ [] ∧ ∃ k ≤ maxLinks, Leads fs fs.cwd p there k

/-- The path the walker takes for the standard input. -/
def stdinPath : FilePath := ["-".toList]

/-- What it gives for a file then. -/
def stdinEntry : FilePath := ["<stdin>".toList]

/-- The walk over the context starts there. The walker takes `-` for the standard input. -/
def Fs.Starts (fs : Fs) (ctx : FilePath) (root : List Name) : Prop := ctx ≠ stdinPath ∧ fs.Finds ctx root

/-- What the walker says is the name of a path: the last of its names, or how the path is written if it ends with `..` or is the
root. -/
def givenName (p : FilePath) : List Char :=
  if p = [[]] then ['/'] else if p.getLast? = some dotdot then ['/'].intercalate p else p.getLast?.getD []

/-- A path below the context the walk visits: it exists, none of its names starts with a dot (the walker skips hidden files,
and so everything in hidden directories) and no ignore file excludes it. Links to directories are not followed, except by the
context itself. Names are not empty and have no separator, which only matters for the first. -/
def Visible (ignored : FilePath → Bool) (ctx : FilePath) (fs : Fs) (rel : FilePath) : Prop :=
  rel ≠ [] ∧ (∃ root n, fs.Starts ctx root ∧ (root ++ rel, n) ∈ fs.nodes) ∧ (∀ n ∈ rel, n ≠ [] ∧ n.head? ≠ some '.') ∧
    ignored rel = false

/-- What a walk over the context may yield: the context itself if there is something, and every visible path below it, each once,
in any order. Of the standard input, there is one entry. -/
structure Walk (ignored : FilePath → Bool) (ctx : FilePath) (fs : Fs) (walked : List FilePath) : Prop where
  nodup : walked.Nodup
  mem : ∀ p, p ∈ walked ↔ (p = ctx ∧ ∃ root, fs.Starts ctx root) ∨ (∃ rel, Visible ignored ctx fs rel ∧ p = ctx ++ rel) ∨
    ctx = stdinPath ∧ p = stdinEntry

/-- The characters that mean something else than themselves in a regular expression. -/
def special : List Char := ['\\', '.', '+', '*', '?', '(', ')', '|', '[', '{', '^', '$']

/-- An extension as the tool expects it: not empty, without any of these. -/
def PlainExt (ext : Name) : Prop := ext ≠ [] ∧ ∀ c ∈ ext, c ∉ special

/-- An extension that may have dots, as `tar.gz`. -/
def DottedExt (ext : Name) : Prop := ext ≠ [] ∧ ∀ c ∈ ext, c = '.' ∨ c ∉ special

/-- `m` is `ext` with any characters but line feeds for its dots. -/
inductive Looks : (ext m : Name) → Prop
  | nil : Looks [] []
  | same (c : Char) {ext m : Name} : Looks ext m → Looks (c :: ext) (c :: m)
  | wild (d : Char) {ext m : Name} : d ≠ '\n' → Looks ext m → Looks ('.' :: ext) (d :: m)

/-- A path that starts from the root. -/
def Absolute (p : FilePath) : Prop := p.head? = some []

/-- A path that starts from a directory, with a name of something in it or above it. -/
def Relative (p : FilePath) : Prop := p.head? ≠ some [] ∧ p.head? ≠ some dot

/-- Taken from `k` directories below some directory, the path ends with a name and does not leave that directory on the way. -/
inductive Stays : (k : Nat) → FilePath → Prop
  | last {k : Nat} {n : Name} : Plain n → Stays k [n]
  | down {k : Nat} {n : Name} {p : FilePath} : Plain n → Stays (k + 1) p → Stays k (n :: p)
  | up {k : Nat} {p : FilePath} : Stays k p → Stays (k + 1) (dotdot :: p)

/-- Names that lead to a directory. -/
def Fs.Dir (fs : Fs) (p : List Name) : Prop := p = [] ∨ fs.at p = some .dir

/-- Everything in a file system has a name and is in a directory, and so does the tool. -/
def Fs.Closed (fs : Fs) : Prop :=
  (fs.nodes.map Prod.fst).Nodup ∧
  (∀ e ∈ fs.nodes, ∃ dir n, e.1 = dir ++ [n] ∧ Plain n ∧ (dir ≠ [] → fs.at dir = some .dir)) ∧
  (fs.cwd ≠ [] → fs.at fs.cwd = some .dir)

/-- How the rest of a path may be written after a separator. -/
inductive SpellsRest : List Char → FilePath → Prop
  | nil : SpellsRest [] []
  | slash {s : List Char} {p : FilePath} : SpellsRest s p → SpellsRest ('/' :: s) p
  | dot : SpellsRest ['.'] []
  | dotSlash {s : List Char} {p : FilePath} : SpellsRest s p → SpellsRest ('.' :: '/' :: s) p
  | last {n : Name} : n ≠ [] → n ≠ Plotline.dot → '/' ∉ n → SpellsRest n [n]
  | name {n : Name} {s : List Char} {p : FilePath} : n ≠ [] → n ≠ Plotline.dot → '/' ∉ n → SpellsRest s p →
      SpellsRest (n ++ '/' :: s) (n :: p)

/-- How a path may be written. -/
inductive Spells : List Char → FilePath → Prop
  | empty : Spells [] []
  | root {s : List Char} {p : FilePath} : SpellsRest s p → Spells ('/' :: s) ([] :: p)
  | last {n : Name} : n ≠ [] → '/' ∉ n → Spells n [n]
  | name {n : Name} {s : List Char} {p : FilePath} : n ≠ [] → '/' ∉ n → SpellsRest s p → Spells (n ++ '/' :: s) (n :: p)

/-- The path of a document without its extension. -/
def DocAt (ext : Name) (rel i : FilePath) : Prop := ∃ dir stem, rel = dir ++ [stem ++ '.' :: ext] ∧ i = dir ++ [stem]

/-- `m` is the name `n` without its last dot and what follows it; all of `n` if it has no dot. -/
def Stripped (n m : Name) : Prop := ('.' ∉ n ∧ m = n) ∨ ∃ e, '.' ∉ e ∧ n = m ++ '.' :: e

/-- The path `p` an id stands for under a context, before anything is done to its extension. -/
inductive Under (ctx : FilePath) : FilePath → FilePath → Prop
  | absolute (i : FilePath) : Under ctx ([] :: i) ([] :: i)
  | below {i : FilePath} : Relative i → Under ctx i (ctx ++ i)
  | dot (i : FilePath) : ctx ≠ [] → Under ctx (['.'] :: i) (ctx ++ i)
  | bare (i : FilePath) : ctx = [] → Under ctx (['.'] :: i) (['.'] :: i)

/-- `m` is what precedes the last dot of the name `n`, a dot at its start not counted; all of `n` if it has no other. -/
def Stem (n m : Name) : Prop := n ≠ [] ∧ n ≠ ['.'] ∧ (('.' ∉ n.tail ∧ m = n) ∨ (m ≠ [] ∧ ∃ e, '.' ∉ e ∧ n = m ++ '.' :: e))

/-- `ids` is in strictly ascending order. -/
def Ascending (ids : List FilePath) : Prop := ids.Pairwise fun a b => compare a b = .lt

end Plotline
