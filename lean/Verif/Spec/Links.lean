import Verif.Spec.Cli

/-! # What is expected of links -/

namespace Plotline

/-- There are no links under these names. -/
def Fs.NoLinks (fs : Fs) (root : List Name) : Prop := ∀ rel target, rel ≠ [] → fs.at (root ++ rel) ≠ some (.link target)

/-- What can be read of something in the directory `dir` when the way there took `k` links: a file itself, and of a link what its
target leads to from the directory. -/
def Readable (fs : Fs) (k : Nat) (dir : List Name) : FsNode → Bytes → Prop
  | .file b, bytes => b = bytes
  | .link target, bytes => ∃ there j, k + 1 + j ≤ maxLinks ∧ Leads fs dir target there j ∧ fs.at there = some (.file bytes)
  | .dir, _ => False
  | .sealed, _ => False

end Plotline
