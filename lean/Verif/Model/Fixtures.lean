import Verif.Model.Interval

/-!
# The fixtures the crates offer to tests (graph/mod.rs:113-178, id.rs:11-26, plugins/interval/src/lib.rs:43-132)

They are public with the feature `fixtures`. A function pointer is its address; `code` says what the function at an address returns.
Simplification: the functions return, and always the same. `Option::expect` on `None` panics, here `none`.
-/

namespace Plotline

/-- What the functions of a program return. -/
abbrev Code (A : Type) := Nat → A

/-- `FakeNode` (graph/mod.rs:117-121). -/
structure FakeNode where
  idFn : Option Nat
  edgesFn : Option Nat
deriving DecidableEq, Repr

/-- `Identify for FakeNode` (graph/mod.rs:123-129), `Identify for IndentifyMock` (id.rs:19-25). -/
def FakeNode.id {K : Type} (ids : Code K) (n : FakeNode) : Option K := n.idFn.map ids

/-- `Property for FakeEdge` (graph/mod.rs:142-156), of which an edge is its id (graph/mod.rs:131-140, 158-164). -/
def FakeNode.edges {K : Type} (edges : Code (List K)) (n : FakeNode) : Option (List K) := n.edgesFn.map edges

/-- `fake_node!` (graph/mod.rs:167-174), of functions at these addresses. It takes at most one edge: what it makes of more (`vec![a b]`) does
not compile. -/
def fakeNode (idFn edgesFn : Nat) : FakeNode := ⟨some idFn, some edgesFn⟩

/-- `IntervalMock` (plugins/interval/src/lib.rs:52-56). -/
structure IntervalMock where
  loFn : Option Nat := none
  hiFn : Option Nat := none
deriving DecidableEq, Repr

section
variable {B : Type} (code : Code B)

/-- `lo` and `hi` (lib.rs:99-109). -/
def IntervalMock.lo (m : IntervalMock) : Option B := m.loFn.map code
def IntervalMock.hi (m : IntervalMock) : Option B := m.hiFn.map code

/-- `==` (lib.rs:74-97). -/
def IntervalMock.eq [BEq B] (a b : IntervalMock) : Bool :=
  if !(a.loFn.isSome == b.loFn.isSome && a.hiFn.isSome == b.hiFn.isSome) then false
  else
    match a.loFn, b.loFn with
    | some f, some g => if code f != code g then false else his a b
    | _, _ => his a b
where
  his (a b : IntervalMock) : Bool :=
    match a.hiFn, b.hiFn with
    | some f, some g => !(code f != code g)
    | _, _ => true

end

/-- `Ord` of `Option<fn() -> Bound>`: by address. -/
def compareFn : Option Nat → Option Nat → Ordering
  | none, none => .eq
  | none, some _ => .lt
  | some _, none => .gt
  | some a, some b => compare a b

/-- The derived `Ord` (lib.rs:52). -/
def IntervalMock.cmp (a b : IntervalMock) : Ordering := (compareFn a.loFn b.loFn).then (compareFn a.hiFn b.hiFn)

/-- `with_lo_fn` and `with_hi_fn` (lib.rs:111-121). -/
def IntervalMock.withLo (m : IntervalMock) (f : Nat) : IntervalMock := { m with loFn := some f }
def IntervalMock.withHi (m : IntervalMock) (f : Nat) : IntervalMock := { m with hiFn := some f }

/-- `interval_mock!` (lib.rs:123-129), of functions at these addresses. -/
def intervalMock (lo hi : Nat) : IntervalMock := (({} : IntervalMock).withLo lo).withHi hi

end Plotline
