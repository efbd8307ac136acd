import Verif.Model.Graph

/-!
# Specification of the graph: a plain map from ids to nodes

Nothing here refers to the sorted list of the model.
-/

namespace Plotline

/-- A map from ids to nodes. -/
abbrev FMap (K T : Type) := K → Option T

namespace FMap
variable {K T : Type} [BEq K]

/-- The map after storing `n` under `k`. -/
def put (m : FMap K T) (k : K) (n : T) : FMap K T := fun q => if q == k then some n else m q

/-- The map after removing `k`. -/
def del (m : FMap K T) (k : K) : FMap K T := fun q => if q == k then none else m q

end FMap

/-- The mutating calls of the graph API. -/
inductive GraphCall (K T : Type) where
  | insert (n : T)
  | withNode (n : T)
  | remove (k : K)

/-- What a user expects `get q` to answer, from the history of calls, newest call first: the newest call that
concerns an id equal to `q` decides. -/
def lastWrite {K T : Type} [BEq K] [Identify T K] : List (GraphCall K T) → K → Option T
  | [], _ => none
  | .insert n :: older, q => if q == id n then some n else lastWrite older q
  | .withNode n :: older, q => if q == id n then some n else lastWrite older q
  | .remove k :: older, q => if q == k then none else lastWrite older q

/-- The graph reached by a history of calls, newest call first, from the default graph. -/
def Graph.after {K T : Type} [Ord K] [Identify T K] : List (GraphCall K T) → Graph K T
  | [] => Graph.empty
  | .insert n :: older => ((Graph.after older).insert n).1
  | .withNode n :: older => (Graph.after older).withNode n
  | .remove k :: older => ((Graph.after older).remove k).1

/-- The graphs the public API can build. -/
inductive Graph.Reachable {K T : Type} [Ord K] [Identify T K] : Graph K T → Prop where
  | empty : Graph.Reachable Graph.empty
  | fromIter (l : List T) : Graph.Reachable (Graph.fromIter l)
  | insert (g : Graph K T) (n : T) : Graph.Reachable g → Graph.Reachable (g.insert n).1
  | withNode (g : Graph K T) (n : T) : Graph.Reachable g → Graph.Reachable (g.withNode n)
  | remove (g : Graph K T) (k : K) : Graph.Reachable g → Graph.Reachable (g.remove k).1

end Plotline
