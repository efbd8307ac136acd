import Verif.Spec.ByHand

/-! # The operations that a transaction applies -/

namespace Plotline

variable {σ : Sig}

open Classical in
/-- The operations that count for the transaction `t`, first to last: those made through its contexts, and those that count for a
subtransaction of it when that is committed, at that moment, unless a context of it was forgotten. `h` are the calls, latest first. -/
noncomputable def countingOps : List (Call σ) → Nat → List (Operation σ.K σ.T)
  | [], _ => []
  | .save c n :: h, t => if txOf h c = some t then countingOps h t ++ [.save n] else countingOps h t
  | .delete c i :: h, t => if txOf h c = some t then countingOps h t ++ [.delete i] else countingOps h t
  | .commit s :: h, t => if parentTx h s = some t ∧ ¬ Leaked h s then countingOps h t ++ countingOps h s else countingOps h t
  | _ :: h, t => countingOps h t

end Plotline
