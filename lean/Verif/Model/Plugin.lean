import Verif.Model.Interval
import Verif.Model.Transaction

/-!
# The interval plugin (plugins/interval/src/plugin.rs, plotline/src/schema/plugin.rs)

The plugin imports `plotline::property::Extractor`, which the pinned library no longer has; it is modelled by the one method
the plugin calls, `all(&self, &T) -> Vec<Target>`, as a pure function.

Resource types are told apart by `TypeId`. `on_save` and `on_delete` use `SearchTree<T::Id, _>` (plugin.rs:67, 102), `install`
registers `SearchTree<T, _>` (plugin.rs:140). These are the same type only if `T` and `T::Id` are, which `merged` says.
-/

namespace Plotline

/-- `NodeInterval` (plugin.rs:11-14). -/
structure NodeInterval (Id I : Type) where
  nodeId : Id
  interval : I
deriving DecidableEq, Repr

/-- `PartialEq for NodeInterval` (plugin.rs:16-24). -/
instance {Id I : Type} [BEq Id] [BEq I] : BEq (NodeInterval Id I) :=
  ⟨fun a b => a.nodeId == b.nodeId && a.interval == b.interval⟩

/-- `Interval for NodeInterval` (plugin.rs:26-39). -/
instance {Id I B : Type} [Interval I B] : Interval (NodeInterval Id I) B :=
  ⟨fun a => Interval.lo a.interval, fun a => Interval.hi a.interval⟩

/-- The resource types involved: the extractor, `SearchTree<T, _>`, `SearchTree<T::Id, _>`, and any other. -/
inductive PTy where
  | extractor
  | treeOfNode
  | treeOfId
  | other (n : Nat)
deriving DecidableEq, Repr

/-- A numbering standing for the `TypeId`. -/
def PTy.typeId : PTy → Nat
  | .extractor => 0
  | .treeOfNode => 1
  | .treeOfId => 2
  | .other n => n + 3

instance : Ord PTy := ⟨fun a b => compare a.typeId b.typeId⟩

section
variable (K T I B : Type) (W : Nat → Type) [Ord K] [BEq K] [Identify T K] [Ord B] [BEq I] [Interval I B]

/-- The values of those resource types; `W` are the values of the other types. -/
abbrev PValOf : PTy → Type
  | .extractor => T → List I
  | .treeOfNode => ITree (NodeInterval T I) B
  | .treeOfId => ITree (NodeInterval K I) B
  | .other n => W n

/-- A schema the plugin can be installed on. -/
abbrev PSigOf : Sig := { K := K, T := T, V := Unit, unit := (), Ty := PTy, Val := PValOf K T I B W }

/-- One whose other resources are numbers. -/
abbrev PSig : Sig := PSigOf K T I B fun _ => Nat

end

section
variable {K T I B : Type} {W : Nat → Type} [Ord K] [BEq K] [Identify T K] [Ord B] [BEq I] [Interval I B]

/-- The intervals of a node, tagged with its id (plugin.rs:70-78, 105-113). -/
def nodeIntervals (extract : T → List I) (n : T) : List (NodeInterval K I) := (extract n).map fun i => ⟨id n, i⟩

/-- The loop of `on_save` (plugin.rs:117-121). -/
def insertEach (is : List (NodeInterval K I)) (t : ITree (NodeInterval K I) B) : ITree (NodeInterval K I) B :=
  is.foldl (fun t i => t.insert i) t

/-- The loop of `on_delete` (plugin.rs:82-86), `none` if some deletion does not return within `fuel`. -/
def deleteEach (fuel : Nat) : List (NodeInterval K I) → ITree (NodeInterval K I) B → Option (ITree (NodeInterval K I) B)
  | [], t => some t
  | i :: is, t => (t.delete fuel i).bind (deleteEach fuel is)

/-- `(target, extractor).with(..)` (plugin.rs:70-80, 105-115): `k` gets `none` if one of them is not available. -/
def withIntervals (k : Option (List (NodeInterval K I)) → Prog (PSigOf K T I B W)) : Prog (PSigOf K T I B W) :=
  .targetRead 0 fun
    | none => k none
    | some node => .resRead .extractor fun
      | none => k none
      | some extract => k (some (nodeIntervals extract node))

/-- `on_save` (plugin.rs:99-124). -/
def onSave : Prog (PSigOf K T I B W) :=
  withIntervals fun
    | none => .done (.ok ())
    | some is => .resWrite .treeOfId (fun t => (insertEach is t, false)) fun _ => .done (.ok ())

/-- `on_delete` (plugin.rs:64-89). A deletion from the tree that never returns (`ITree.join`) leaves the whole operation
hanging; which it is does not depend on `fuel` (`deleteEach_fuel` in `Verif.Lemmas.Plugin`). -/
def onDelete (fuel : Nat) : Prog (PSigOf K T I B W) :=
  withIntervals fun
    | none => .done (.ok ())
    | some is => .resRead .treeOfId fun
      | none => .done (.ok ())
      | some t =>
        match deleteEach fuel is t with
        | none => .reenter
        | some t' => .resWrite .treeOfId (fun _ => (t', false)) fun _ => .done (.ok ())

/-- `IntervalPlugin::install` (plugin.rs:134-143). -/
def install (merged : Bool) (fuel : Nat) (extract : T → List I) (S : Schema (PSigOf K T I B W)) : Schema (PSigOf K T I B W) :=
  let S := S.withResource .extractor extract
  let S := if merged then S.withResource .treeOfId .nil else S.withResource .treeOfNode .nil
  (S.withTrigger .afterSave onSave).withTrigger .afterDelete (onDelete fuel)

end

end Plotline
