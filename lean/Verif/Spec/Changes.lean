import Verif.Model.Changes
import Verif.Spec.Cli

/-! # What is expected of the walk while the file system changes -/

namespace Plotline

/-- In the directory the path leads to, through links or not, there is this under the name. -/
def Holds (fs : Fs) (p : FilePath) (n : Name) (x : FsNode) : Prop := ∃ d, fs.Finds p d ∧ fs.Dir d ∧ fs.at (d ++ [n]) = some x

/-- The path below the context is visible at every instant of these, and nothing on the way to it is ignored. -/
def Changing.Lasts (W : Changing) (ctx : FilePath) (t t' : Nat) (rel : FilePath) : Prop :=
  ∀ s, t ≤ s → s ≤ t' → Visible (W.ignored s) ctx (W.fs s) rel ∧ ∀ q, q <+: rel → q ≠ [] → W.ignored s q = false

/-- Each name on the path below the context was in the directory at the path before it at one of these instants, which was a directory
then if the path goes on; it is not hidden, and was not ignored at another of these instants. -/
def Changing.Glimpsed (W : Changing) (ctx : FilePath) (t t' : Nat) (rel : FilePath) : Prop :=
  rel ≠ [] ∧ ∀ dir n rest, rel = dir ++ n :: rest → n.head? ≠ some '.' ∧
    (∃ s x, t ≤ s ∧ s ≤ t' ∧ Holds (W.fs s) (ctx ++ dir) n x ∧ (rest ≠ [] → x = .dir)) ∧
    ∃ s, t ≤ s ∧ s ≤ t' ∧ W.ignored s (dir ++ [n]) = false

/-- The walk has gone this far. -/
def Changing.Reaches (W : Changing) (ctx : FilePath) (t : Nat) (st : WalkState) : Prop := ∃ es, WalkState.run W ctx t es = some st

/-- The walk from one instant to another, all of it, yields these. -/
def Changing.Walks (W : Changing) (ctx : FilePath) (t t' : Nat) (walked : List FilePath) : Prop := W.Reaches ctx t ⟨t', [], walked⟩

/-- A file system that does not change. -/
def Changing.still (fs : Fs) (ignored : FilePath → Bool) : Changing := ⟨fun _ => fs, fun _ => ignored⟩

/-- What is in an ignored directory is not looked at. -/
def Prunes (ignored : FilePath → Bool) : Prop := ∀ p q, p <+: q → p ≠ [] → ignored p = true → ignored q = true

end Plotline
