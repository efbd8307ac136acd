import Verif.Spec.Interval
import Verif.Model.TreePanics

/-! # What a client of a tree knows, if calls may panic -/

namespace Plotline
variable {I B : Type} [Ord B] [Interval I B] [BEq I]

/-- The trees a client can have, by the calls made and what they gave, first to last. A call that panicked was caught. -/
inductive Lived : List (TreeCall I × TreeAnswer I) → ITree I B → Prop where
  | empty : Lived [] .nil
  | act {h : List (TreeCall I × TreeAnswer I)} {t t' : ITree I B} (fuel crash : Nat) (c : TreeCall I) (a : TreeAnswer I) :
      Lived h t → t.act fuel crash c = some (a, t') → Lived (h ++ [(c, a)]) t'

/-- A call that changes the tree. -/
def TreeCall.event : TreeCall I → Option (IEvent I)
  | .insert i => some (.insert i)
  | .delete i => some (.delete i)
  | _ => none

/-- The insertions and deletions since the last one that panicked. -/
def sinceCrash (h : List (TreeCall I × TreeAnswer I)) : List (IEvent I) :=
  h.foldl (fun es x =>
    match x.1.event, x.2 with
    | some _, .panic _ => []
    | some e, _ => es ++ [e]
    | none, _ => es) []

/-- The call on the tree if no user code panics. -/
def ITree.calm (fuel : Nat) (t : ITree I B) : TreeCall I → Option (TreeAnswer I × ITree I B)
  | .insert i => some (.done, t.insert i)
  | .delete i => (t.delete fuel i).map fun t' => (.done, t')
  | .intersects q => some (.bool (t.intersects q), t)
  | .forEach q => some (.called (t.forEach q), t)

/-- The intervals the closure is called with if no user code panics. -/
def ITree.reports (t : ITree I B) : TreeCall I → List I
  | .forEach q => t.forEach q
  | _ => []

end Plotline
