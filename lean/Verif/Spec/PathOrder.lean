import Verif.Spec.Cli

/-! # The order of paths -/

namespace Plotline

/-- The kinds of components of a path, in the order of `std::path::Component`: the root, `.`, `..` and names. -/
def componentKind (n : Name) : Nat := if n = [] then 0 else if n = dot then 1 else if n = dotdot then 2 else 3

/-- One path is before another, as `std::path::Path` has it: at the first component in which they differ, by kind and then by name. -/
inductive PathBefore : FilePath → FilePath → Prop
  | nil {n : Name} {q : FilePath} : PathBefore [] (n :: q)
  | kind {a b : Name} {p q : FilePath} : componentKind a < componentKind b → PathBefore (a :: p) (b :: q)
  | name {a b : Name} {p q : FilePath} : componentKind a = 3 → componentKind b = 3 → compare a b = .lt → PathBefore (a :: p) (b :: q)
  | same {a : Name} {p q : FilePath} : PathBefore p q → PathBefore (a :: p) (a :: q)

end Plotline
