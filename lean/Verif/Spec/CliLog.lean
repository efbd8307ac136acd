import Verif.Model.CliLog
import Verif.Spec.Cli

/-! # What the log of the command line tool should tell -/

namespace Plotline

/-- Every entry of a walk is accounted for. `ids` is what is listed, `lines` what is logged, in the order of the walk. -/
inductive Told (ctx : FilePath) (ext : Name) (ids : List FilePath) : List Entry → List CliLine → Prop where
  | nil : Told ctx ext ids [] []
  /-- The walk failed to go on somewhere: the log says so. -/
  | failed {e : List Char} {met : List Entry} {ls : List CliLine} : Told ctx ext ids met ls →
      Told ctx ext ids (.error e :: met) (.walking e :: ls)
  /-- Not named like a document. -/
  | other {p : FilePath} {met : List Entry} {ls : List CliLine} : (¬ ∃ s, p.getLast? = some (s ++ '.' :: ext)) →
      Told ctx ext ids met ls → Told ctx ext ids (.ok p :: met) ls
  /-- Named like a document, and listed. -/
  | listed {rel i : FilePath} {met : List Entry} {ls : List CliLine} : DocAt ext rel i → i ∈ ids → Told ctx ext ids met ls →
      Told ctx ext ids (.ok (ctx ++ rel) :: met) ls
  /-- The context itself has no name but the extension: listed as the empty path. -/
  | root {met : List Entry} {ls : List CliLine} : ctx.getLast? = some ('.' :: ext) → [] ∈ ids → Told ctx ext ids met ls →
      Told ctx ext ids (.ok ctx :: met) ls
  /-- The context itself is named like a document: not listed, and the log says so. -/
  | stripped {s : Name} {met : List Entry} {ls : List CliLine} : ctx.getLast? = some (s ++ '.' :: ext) → s ≠ [] →
      Told ctx ext ids met ls → Told ctx ext ids (.ok ctx :: met) (.stripping ctx :: ls)

/-- What the log says of a call for a document that has returned. -/
def DerefCall.toldBy {Doc : Type} (c : DerefCall Doc) : Option (Nat × DocLine) :=
  match c.result, c.found with
  | some _, _ => none
  | none, none => some (c.thread, .finding)
  | none, some _ => some (c.thread, .notFound)

end Plotline
