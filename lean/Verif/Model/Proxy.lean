import Verif.Model.Graph

/-! # Model of `plotline/src/graph/proxy.rs` -/

namespace Plotline

/-- `trait Source` (graph/proxy.rs:10-22): the answers a source gives at one moment. A source reached through a
shared reference may change between calls (a transaction `Context` does), so proxies take it at every call. -/
structure Source (K T : Type) where
  get : K → Option T
  contains : K → Bool

/-- `Source for Graph` (graph/mod.rs:57-71). -/
def Graph.source {K T : Type} [Ord K] (g : Graph K T) : Source K T := ⟨g.get, g.contains⟩

/-- `struct NodeProxy` (graph/proxy.rs:25-36), without the reference to the source, which is passed at each call.
`value` is the `OnceLock<Option<Node>>`: `none` while unset. -/
structure NodeProxy (K T : Type) where
  id : K
  value : Option (Option T)

namespace NodeProxy
variable {K T E : Type}

/-- `NodeProxy::new` (graph/proxy.rs:112-118), also `Graph::node` (graph/mod.rs:96-98) and `Context::node`
(schema/transaction.rs:439-441). -/
def new (i : K) : NodeProxy K T := ⟨i, none⟩

/-- `TryDeref for NodeProxy` (graph/proxy.rs:73-77): `OnceLock::get_or_init`. -/
def tryDeref (p : NodeProxy K T) (src : Source K T) : Option T × NodeProxy K T :=
  match p.value with
  | some v => (v, p)
  | none => let v := src.get p.id; (v, { p with value := some v })

/-- `Clone for NodeProxy` (graph/proxy.rs:44-50): the cached value is cloned too. -/
def clone (p : NodeProxy K T) : NodeProxy K T := ⟨p.id, p.value⟩

/-- `NodeProxy::is_virtual` (graph/proxy.rs:121-123). -/
def isVirtual (p : NodeProxy K T) (src : Source K T) : Bool := !src.contains p.id

/-- `NodeProxy::successors` (graph/proxy.rs:87-103); `edges` is `Edge::all` (property.rs:4-7). -/
def successors [Identify E K] (edges : T → List E) (p : NodeProxy K T) (src : Source K T) :
    List (NodeProxy K T) × NodeProxy K T :=
  match p.tryDeref src with
  | (none, p') => ([], p')
  | (some node, p') => ((edges node).map fun edge => ⟨Plotline.id edge, none⟩, p')

/-- A call on a proxy variable (`clone` continues with the clone). -/
inductive Call where
  | deref
  | clone
  | isVirtual
  | successors

/-- The proxy after one call made while the source is `src`. -/
def step [Identify E K] (edges : T → List E) (p : NodeProxy K T) (src : Source K T) : Call → NodeProxy K T
  | .deref => (p.tryDeref src).2
  | .clone => p.clone
  | .isVirtual => p
  | .successors => (p.successors edges src).2

/-- The proxy after a history of calls, each made while the source was in the given state (oldest first). -/
def after [Identify E K] (edges : T → List E) (p : NodeProxy K T) (h : List (Source K T × Call)) : NodeProxy K T :=
  h.foldl (fun p c => p.step edges c.1 c.2) p

/-- Proxies reached by following `n` edges, each level from the successors of the previous one. -/
def walk [Identify E K] (edges : T → List E) (src : Source K T) : Nat → NodeProxy K T → List (NodeProxy K T)
  | 0, p => [p]
  | n + 1, p => (p.successors edges src).1.flatMap (walk edges src n)

end NodeProxy
end Plotline
