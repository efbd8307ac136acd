import Verif.Model.Plugin
import Verif.Spec.Interval
import Verif.Spec.Triggers

/-! # Histories of Save and Delete, and what an index of intervals should hold -/

namespace Plotline

/-- Save and Delete executed one after the other on a schema, each of which returned (`Ok` or `Err`). -/
inductive Did {σ : Sig} : Schema σ → List (Operation σ.K σ.T) → Schema σ → Prop where
  | nothing (S : Schema σ) : Did S [] S
  | save {S S1 S' : Schema σ} {ops : List (Operation σ.K σ.T)} {r : Except Error σ.V} (fuel : Nat) (n : σ.T) :
      S.save fuel n = some (.ret r, S1) → Did S1 ops S' → Did S (.save n :: ops) S'
  | delete {S S1 S' : Schema σ} {ops : List (Operation σ.K σ.T)} {r : Except Error σ.V} (fuel : Nat) (i : σ.K) :
      S.delete fuel i = some (.ret r, S1) → Did S1 ops S' → Did S (.delete i :: ops) S'

section
variable {K T I : Type} [BEq K] [Identify T K]

/-- The intervals of the nodes, each with the id of its node. -/
def intervalsOf (extract : T → List I) (ns : List T) : List (NodeInterval K I) :=
  ns.flatMap fun n => (extract n).map fun i => ⟨id n, i⟩

/-- The nodes a history saves. -/
def savedNodes : List (Operation K T) → List T
  | [] => []
  | .save n :: ops => n :: savedNodes ops
  | .delete _ :: ops => savedNodes ops

/-- No save overwrites a node. -/
def FreshSaves (m : FMap K T) : List (Operation K T) → Prop
  | [] => True
  | .save n :: ops => m (id n) = none ∧ FreshSaves (m.put (id n) n) ops
  | .delete i :: ops => FreshSaves (m.del i) ops

/-- What a history does to an index: a save inserts the intervals of the node, a deletion that finds a node deletes those of
that node. `m` is the graph before. -/
def indexEvents (extract : T → List I) : FMap K T → List (Operation K T) → List (IEvent (NodeInterval K I))
  | _, [] => []
  | m, .save n :: ops => (intervalsOf extract [n]).map .insert ++ indexEvents extract (m.put (id n) n) ops
  | m, .delete i :: ops =>
    (intervalsOf extract (m i).toList).map .delete ++ indexEvents extract (m.del i) ops

/-- The history saves a node with the id of this one. -/
def savedSince (ops : List (Operation K T)) (n : T) : Bool := (savedNodes ops).any fun m => (id m : K) == id n

end

end Plotline
