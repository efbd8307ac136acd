import Verif.Model.Library
import Verif.Spec.App

/-!
# What programs over a schema of lazy documents should see

In terms of the calls made so far, latest first.
-/

namespace Plotline

variable {β : Sig}

/-- The calls `h`, latest first, are possible on a schema just made from `g`, over a repository that answers `r`, have all returned,
and lead to `b`. -/
inductive LibLegal (g : Graph β.K (lazySig β).T) (r : β.K → Option β.T) : List (LibCall β) → Library β → Prop where
  | start : LibLegal g r [] (Library.start g r)
  | call {h : List (LibCall β)} {b b' : Library β} {x : LibCall β} {y : LibAnswer β} : LibLegal g r h b → b.step x = some (y, b') →
      y ≠ .app .stuck → LibLegal g r (x :: h) b'

/-- What the repository answers by now. -/
def repoNow (r : β.K → Option β.T) : List (LibCall β) → β.K → Option β.T
  | [] => r
  | .repo r' :: _ => r'
  | _ :: h => repoNow r h

/-- The calls that are not about what documents have inside. -/
def outerCalls : List (LibCall β) → List (AppCall (lazySig β))
  | [] => []
  | .app x :: h => x :: outerCalls h
  | _ :: h => outerCalls h

/-- All calls, a load as the change it makes inside a document. -/
def fullCalls (r : β.K → Option β.T) : List (LibCall β) → List (AppCall (lazySig β))
  | [] => []
  | .app x :: h => x :: fullCalls r h
  | .load n i :: h => .touch n i (loading (repoNow r h)) :: fullCalls r h
  | .loadTarget x j :: h => .inTx x (.touch j (loading (repoNow r h)).1) :: fullCalls r h
  | _ :: h => fullCalls r h

/-- The document that was put under the id last, as it was then. -/
noncomputable def putLast (g : Graph β.K (lazySig β).T) (h : List (LibCall β)) (i : β.K) : Option (LazyDocument β.K β.T) :=
  storedAt (σ := lazySig β) g (outerCalls h) i

/-- The call, made after `h`, puts a node under the id or takes it away. -/
def Puts {σ : Sig} (h : List (AppCall σ)) (i : σ.K) : AppCall σ → Prop
  | .insert _ n => (Plotline.id n == i) = true
  | .remove _ j => (j == i) = true
  | .replace _ _ => True
  | .inTx x (.commit 0) => ¬ Leaked (callsOf x h) 0 ∧ ∃ v, lastWriteOf (callsOf x h) 0 i = some v
  | _ => False

open Classical in
/-- The first document the repository found when the document under the id was loaded in the graph, since that was put there. -/
noncomputable def firstFound (g : Graph β.K (lazySig β).T) (r : β.K → Option β.T) : List (LibCall β) → β.K → Option β.T
  | [], _ => none
  | .app x :: h, i => if Puts (outerCalls h) i x then none else firstFound g r h i
  | .load _ j :: h, i =>
    if (j == i) = true then (firstFound g r h i).or ((putLast g h i).bind fun l => repoNow r h l.document_id) else firstFound g r h i
  | _ :: h, i => firstFound g r h i

/-- The calls, first to last, one after another: what they return and what they lead to. -/
def Library.calls (b : Library β) : List (LibCall β) → Option (List (LibAnswer β) × Library β)
  | [] => some ([], b)
  | x :: xs =>
    match b.step x with
    | none => none
    | some (y, b') => (b'.calls xs).map fun q => (y :: q.1, q.2)

end Plotline
