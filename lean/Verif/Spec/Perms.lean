import Verif.Model.Perms
import Verif.Model.CliLog
import Verif.Spec.Links

/-! # What is expected where directories lack permissions -/

namespace Plotline

/-- As `Leads`: whoever goes on from a directory may search it. -/
inductive LeadsBy (m : Mode) (fs : Fs) : (here : List Name) → FilePath → (there : List Name) → (k : Nat) → Prop
  | here {here : List Name} : LeadsBy m fs here [] here 0
  | root {here there : List Name} {p : FilePath} {k : Nat} : m.searches here = true → LeadsBy m fs [] p there k →
      LeadsBy m fs here ([] :: p) there k
  | dot {here there : List Name} {p : FilePath} {k : Nat} : m.searches here = true → LeadsBy m fs here p there k →
      LeadsBy m fs here (Plotline.dot :: p) there k
  | up {here there : List Name} {p : FilePath} {k : Nat} : m.searches here = true → LeadsBy m fs here.dropLast p there k →
      LeadsBy m fs here (dotdot :: p) there k
  | dir {here there : List Name} {n : Name} {p : FilePath} {k : Nat} : m.searches here = true → Plain n →
      fs.at (here ++ [n]) = some .dir → LeadsBy m fs (here ++ [n]) p there k → LeadsBy m fs here (n :: p) there k
  | link {here there : List Name} {n : Name} {target p : FilePath} {k : Nat} : m.searches here = true → Plain n →
      fs.at (here ++ [n]) = some (.link target) → LeadsBy m fs here (target ++ p) there k → LeadsBy m fs here (n :: p) there (k + 1)
  | last {here : List Name} {n : Name} {x : FsNode} : m.searches here = true → Plain n → fs.at (here ++ [n]) = some x →
      (∀ target, x ≠ .link target) → LeadsBy m fs here [n] (here ++ [n]) 0

/-- These names lead from the root through directories that may be searched, the last one included. -/
def Mode.Open (m : Mode) (p : List Name) : Prop := ∀ q, q <+: p → m.searches q = true

/-- The walk over the context starts there. -/
def StartsBy (m : Mode) (fs : Fs) (ctx : FilePath) (root : List Name) : Prop :=
  ctx ≠ stdinPath ∧ ctx ≠ [] ∧ ∃ k ≤ maxLinks, LeadsBy m fs fs.cwd ctx root k

/-- The walk from `root` gets to see `rel`: it lists every directory on the way, and to go on into the next one it has to search
it. -/
def Reached (m : Mode) (root : List Name) (rel : FilePath) : Prop :=
  ∀ dir n rest, rel = dir ++ n :: rest → m.lists (root ++ dir) = true ∧ (rest ≠ [] → m.searches (root ++ dir) = true)

/-- A path below the context the walk visits (as `Visible`). -/
def VisibleBy (ignored : FilePath → Bool) (m : Mode) (ctx : FilePath) (fs : Fs) (rel : FilePath) : Prop :=
  rel ≠ [] ∧ (∃ root n, StartsBy m fs ctx root ∧ (root ++ rel, n) ∈ fs.nodes ∧ Reached m root rel) ∧
    (∀ n ∈ rel, n ≠ [] ∧ n.head? ≠ some '.') ∧ ignored rel = false

/-- What a walk over the context may yield (as `Walk`). -/
structure WalkBy (ignored : FilePath → Bool) (m : Mode) (ctx : FilePath) (fs : Fs) (walked : List FilePath) : Prop where
  nodup : walked.Nodup
  mem : ∀ p, p ∈ walked ↔ (p = ctx ∧ ∃ root, StartsBy m fs ctx root) ∨ (∃ rel, VisibleBy ignored m ctx fs rel ∧ p = ctx ++ rel) ∨
    ctx = stdinPath ∧ p = stdinEntry

/-- The walk fails here: the context is not found, or a directory it gets to, the context being one, may not be listed, or is in one
that may not be searched. -/
inductive Shut (ignored : FilePath → Bool) (m : Mode) (ctx : FilePath) (fs : Fs) : FilePath → Prop
  | lost : ctx ≠ stdinPath → (∀ root, ¬ StartsBy m fs ctx root) → Shut ignored m ctx fs []
  | context {root : List Name} : StartsBy m fs ctx root → fs.Dir root → m.lists root = false → Shut ignored m ctx fs []
  | below {root : List Name} {dir : FilePath} {n : Name} : VisibleBy ignored m ctx fs (dir ++ [n]) → StartsBy m fs ctx root →
      fs.at (root ++ (dir ++ [n])) = some .dir → (m.lists (root ++ (dir ++ [n])) = false ∨ m.searches (root ++ dir) = false) →
      Shut ignored m ctx fs (dir ++ [n])

/-- The walk yields an error. -/
def Entry.failed : Entry → Bool
  | .error _ => true
  | .ok _ => false

/-- A line about that. -/
def CliLine.ofWalk : CliLine → Bool
  | .walking _ => true
  | _ => false

/-- What the iterator of the walk may yield, with an error for each place where it fails. -/
structure MetBy (ignored : FilePath → Bool) (m : Mode) (ctx : FilePath) (fs : Fs) (met : List Entry) : Prop where
  walk : WalkBy ignored m ctx fs (walkedOf met)
  errors : ∃ shut : List FilePath, shut.Nodup ∧ (∀ rel, rel ∈ shut ↔ Shut ignored m ctx fs rel) ∧
    (met.filter Entry.failed).length = shut.length

/-- As `Readable`. -/
def ReadableBy (m : Mode) (fs : Fs) (k : Nat) (dir : List Name) : FsNode → Bytes → Prop
  | .file b, bytes => b = bytes
  | .link target, bytes => ∃ there j, k + 1 + j ≤ maxLinks ∧ LeadsBy m fs dir target there j ∧ fs.at there = some (.file bytes)
  | .dir, _ => False
  | .sealed, _ => False

end Plotline
