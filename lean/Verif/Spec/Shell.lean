import Verif.Model.Shell

/-! # How a process ends, and what its options say -/

namespace Plotline

/-- The process of the words ends in this way, once there is fuel enough. -/
def Exits (here : FilePath) (fs : Fs) (walk : FilePath → List FilePath) (plain : Char → Bool) (room : Option Nat) (ws : List Word)
    (x : Exit) : Prop :=
  ∃ fuel0, ∀ fuel, fuel0 ≤ fuel → ∃ p, plotline fuel here fs walk ws = some p ∧ p.exit plain room = some x

/-- The directory and the extension that the options say. -/
structure Says (here : FilePath) (o : Options) (r : LocalRepo) : Prop where
  context : r.context = match o.context with | some c => parsePath c | none => here
  extension : r.extension = match o.extension with | some e => e | none => ['m', 'd']

end Plotline
