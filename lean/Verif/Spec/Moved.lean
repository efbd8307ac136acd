import Verif.Spec.Links

/-! # What is expected when a directory of documents is somewhere else -/

namespace Plotline

/-- Below these names there is the same in both file systems. -/
def SameBelow (fs : Fs) (root : List Name) (fs' : Fs) (root' : List Name) : Prop :=
  ∀ rel, rel ≠ [] → fs.at (root ++ rel) = fs'.at (root' ++ rel)

/-- Below these names there is something under the same names in both file systems, whatever it is. -/
def SameNames (fs : Fs) (root : List Name) (fs' : Fs) (root' : List Name) : Prop :=
  ∀ rel, rel ≠ [] → (fs.at (root ++ rel)).isSome = (fs'.at (root' ++ rel)).isSome

/-- From the directory `here` the path leads to `there`, both given by the names that lead to them from the directory `root`,
through `k` links and without leaving that directory. -/
inductive LeadsWithin (fs : Fs) (root : List Name) : (here : List Name) → FilePath → (there : List Name) → (k : Nat) → Prop
  | here {here : List Name} : LeadsWithin fs root here [] here 0
  | dot {here there : List Name} {p : FilePath} {k : Nat} : LeadsWithin fs root here p there k →
      LeadsWithin fs root here (Plotline.dot :: p) there k
  | up {here there : List Name} {p : FilePath} {k : Nat} : here ≠ [] → LeadsWithin fs root here.dropLast p there k →
      LeadsWithin fs root here (dotdot :: p) there k
  | dir {here there : List Name} {n : Name} {p : FilePath} {k : Nat} : Plain n → fs.at (root ++ (here ++ [n])) = some .dir →
      LeadsWithin fs root (here ++ [n]) p there k → LeadsWithin fs root here (n :: p) there k
  | link {here there : List Name} {n : Name} {target p : FilePath} {k : Nat} : Plain n →
      fs.at (root ++ (here ++ [n])) = some (.link target) → LeadsWithin fs root here (target ++ p) there k →
      LeadsWithin fs root here (n :: p) there (k + 1)
  | last {here : List Name} {n : Name} {x : FsNode} : Plain n → fs.at (root ++ (here ++ [n])) = some x →
      (∀ target, x ≠ .link target) → LeadsWithin fs root here [n] (here ++ [n]) 0

end Plotline
