import Verif.Spec.Cli

/-!
# Paths by their names alone
-/

namespace Plotline

/-- Where the names of a path lead from a directory if nothing on the way is a link. -/
def byNames : (here : List Name) → FilePath → List Name
  | here, [] => here
  | here, n :: p => if n = dotdot then byNames here.dropLast p else byNames (here ++ [n]) p

/-- On balance, the path goes up that many directories and then down along those names. -/
inductive OnBalance : FilePath → (up : Nat) → (down : List Name) → Prop
  | start : OnBalance [] 0 []
  | into {p : FilePath} {up : Nat} {down : List Name} {n : Name} : OnBalance p up down → n ≠ dotdot →
      OnBalance (p ++ [n]) up (down ++ [n])
  | back {p : FilePath} {up : Nat} {down : List Name} {n : Name} : OnBalance p up (down ++ [n]) → OnBalance (p ++ [dotdot]) up down
  | out {p : FilePath} {up : Nat} : OnBalance p up [] → OnBalance (p ++ [dotdot]) (up + 1) []

end Plotline
