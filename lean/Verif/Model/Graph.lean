/-!
# Model of `plotline/src/graph/mod.rs`, `plotline/src/id.rs` and of the `BTreeMap` they rest on

Ids are compared with `compare` (Rust's `Ord`) and with `==` (Rust's `PartialEq`).  Nothing in the model assumes
that ids comparing equal are identical: only the contract Rust states for `Ord`/`Eq` is used by the theorems
(`Std.TransOrd`, `Std.LawfulBEqOrd`), as with `PathBuf`, where `a//b` and `a/b` are equal ids.
-/

namespace Plotline

/-- `trait Identify` (plotline/src/id.rs:4-8). `id(&self)` is modelled as a pure function of the node: a node
whose id changes behind a shared reference is outside the model. Other changes behind shared references are `Graph.touch`. -/
class Identify (T : Type) (K : outParam Type) where
  id : T → K

export Identify (id)

/-- `std::collections::BTreeMap`, used by `Graph` (graph/mod.rs:17), `TriggerSet` (schema/trigger.rs:77) and
`ResourceSet` (schema/resource.rs:20). Simplification: the B-tree is represented by its in-order entry list; the
three functions below search it by `compare`, as the std map does. -/
structure BTreeMap (K V : Type) where
  entries : List (K × V)

namespace BTreeMap

variable {K V : Type}

/-- Search in the entry list (std `BTreeMap::get`). -/
def findL [Ord K] (k : K) : List (K × V) → Option V
  | [] => none
  | (k', v) :: t =>
    match compare k k' with
    | .lt => none
    | .eq => some v
    | .gt => findL k t

/-- Insertion in the entry list (std `BTreeMap::insert`): on an equal key the value is replaced and the old key
object is kept. -/
def insertL [Ord K] (k : K) (v : V) : List (K × V) → List (K × V)
  | [] => [(k, v)]
  | (k', v') :: t =>
    match compare k k' with
    | .lt => (k, v) :: (k', v') :: t
    | .eq => (k', v) :: t
    | .gt => (k', v') :: insertL k v t

/-- A change inside a value, through a reference to it: the entry stays where it is. -/
def modifyL [Ord K] (k : K) (f : V → V) : List (K × V) → List (K × V)
  | [] => []
  | (k', v') :: t =>
    match compare k k' with
    | .lt => (k', v') :: t
    | .eq => (k', f v') :: t
    | .gt => (k', v') :: modifyL k f t

/-- Removal from the entry list (std `BTreeMap::remove`). -/
def removeL [Ord K] (k : K) : List (K × V) → List (K × V)
  | [] => []
  | (k', v') :: t =>
    match compare k k' with
    | .lt => (k', v') :: t
    | .eq => t
    | .gt => (k', v') :: removeL k t

/-- std `BTreeMap::default`. -/
def empty : BTreeMap K V := ⟨[]⟩

/-- std `BTreeMap::get`. -/
def get [Ord K] (m : BTreeMap K V) (k : K) : Option V := findL k m.entries

/-- std `BTreeMap::contains_key`. -/
def containsKey [Ord K] (m : BTreeMap K V) (k : K) : Bool := (findL k m.entries).isSome

/-- std `BTreeMap::insert`, returning the previous value. -/
def insert [Ord K] (m : BTreeMap K V) (k : K) (v : V) : BTreeMap K V × Option V :=
  (⟨insertL k v m.entries⟩, findL k m.entries)

/-- std `BTreeMap::remove`, returning the removed value. -/
def remove [Ord K] (m : BTreeMap K V) (k : K) : BTreeMap K V × Option V :=
  (⟨removeL k m.entries⟩, findL k m.entries)

/-- std `BTreeMap::values`. -/
def values (m : BTreeMap K V) : List V := m.entries.map (·.2)

end BTreeMap

/-- `struct Graph` (graph/mod.rs:12-18). -/
structure Graph (K T : Type) where
  nodes : BTreeMap K T

namespace Graph

variable {K T : Type} [Ord K] [Identify T K]

/-- `Default for Graph` (graph/mod.rs:20-26). -/
def empty : Graph K T := ⟨BTreeMap.empty⟩

/-- `Graph::insert` (graph/mod.rs:85-87). -/
def insert (g : Graph K T) (node : T) : Graph K T × Option T :=
  let r := g.nodes.insert (id node) node
  (⟨r.1⟩, r.2)

/-- `Graph::with_node` (graph/mod.rs:79-82). -/
def withNode (g : Graph K T) (node : T) : Graph K T :=
  ⟨(g.nodes.insert (id node) node).1⟩

/-- `Graph::remove` (graph/mod.rs:107-109). -/
def remove (g : Graph K T) (nodeId : K) : Graph K T × Option T :=
  let r := g.nodes.remove nodeId
  (⟨r.1⟩, r.2)

/-- `Source for Graph::get` (graph/mod.rs:64-66). `Clone` is the identity on values. -/
def get (g : Graph K T) (i : K) : Option T := g.nodes.get i

/-- `Source for Graph::contains` (graph/mod.rs:68-70). -/
def contains (g : Graph K T) (i : K) : Bool := g.nodes.containsKey i

/-- `FromIterator for Graph::from_iter` (graph/mod.rs:37-41). Simplification: std builds the map by a stable sort
that keeps the last of equal keys; modelled as inserting one after another, which keeps the same values. -/
def fromIter (nodes : List T) : Graph K T :=
  ⟨nodes.foldl (fun m node => (m.insert (id node) node).1) BTreeMap.empty⟩

/-- `IntoIterator for &Graph` (graph/mod.rs:52-54). -/
def iter (g : Graph K T) : List T := g.nodes.values

/-- What a node has inside of it is changed through the reference `IntoIterator for &Graph` gives (graph/mod.rs:43-55), as
`LazyDocument::try_deref` does (document/lazy.rs:58-73). -/
def touch (g : Graph K T) (i : K) (f : T → T) : Graph K T := ⟨⟨BTreeMap.modifyL i f g.nodes.entries⟩⟩

end Graph

end Plotline
