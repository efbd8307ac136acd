/-!
# Intervals and the interval search tree (plugins/interval/src/lib.rs, node.rs, tree.rs)

`I` is the interval type (`Intv`), `B` its bound type, with Rust's `Ord` as `compare` and `PartialEq` as `==`.
`Option<Box<IntervalSearchTreeNode>>` is one inductive type whose `nil` is `None`; `IntervalSearchTree` (tree.rs:6-11) is its
only field. Methods of the node take a tree and are only called on nodes by the code; on `nil` they do what the caller does for
`None`.
-/

namespace Plotline

/-- `Interval` (lib.rs:16-24). Bounds are ordered (`Bound: Copy + Ord`, lib.rs:12). -/
class Interval (I : Type) (B : outParam Type) where
  lo : I → B
  hi : I → B

section
variable {I B : Type} [Ord B] [Interval I B]

/-- `a < b` of `PartialOrd`. -/
def ltB (a b : B) : Bool := (compare a b).isLT
/-- `a <= b` of `PartialOrd`. -/
def leB (a b : B) : Bool := (compare a b).isLE

/-- `IntervalExt::contains` (lib.rs:28-30). -/
def icontains (a : I) (b : B) : Bool := leB (Interval.lo a) b && leB b (Interval.hi a)

/-- `IntervalExt::intersects` (lib.rs:33-38). -/
def intersects (a b : I) : Bool :=
  icontains a (Interval.lo b) || icontains a (Interval.hi b) || icontains b (Interval.lo a) || icontains b (Interval.hi a)

end

/-- `Option<Box<IntervalSearchTreeNode>>` (node.rs:8-16). -/
inductive ITree (I B : Type) where
  | nil
  | node (value : I) (max : B) (left right : ITree I B)
deriving DecidableEq

namespace ITree
variable {I B : Type} [Ord B] [Interval I B]

/-- `IntervalSearchTreeNode::new` (node.rs:105-112). -/
def new (i : I) : ITree I B := .node i (Interval.hi i) .nil .nil

/-- `.as_ref().map(|node| node.max)`. -/
def max? : ITree I B → Option B
  | .nil => none
  | .node _ m _ _ => some m

/-- `Ord::max` on `Option<Bound>`: `None` is least; of equal values the second. -/
def optMax {B : Type} [Ord B] (a b : Option B) : Option B :=
  match a, b with
  | none, b => b
  | some a, none => some a
  | some a, some b => if (compare a b).isGT then some a else some b

/-- `Some(value.hi()).max(left.max).max(right.max).expect(..)` (node.rs:39-42, 45-48, 60-63, 66-69). -/
def refreshed (v : I) (l r : ITree I B) : B :=
  (optMax (optMax (some (Interval.hi v)) l.max?) r.max?).getD (Interval.hi v)

/-- `rotate_right` (node.rs:33-51). -/
def rotateRight : ITree I B → ITree I B
  | .node v _ (.node w _ ll lr) r =>
    let self := .node v (refreshed v lr r) lr r
    .node w (refreshed w ll self) ll self
  | t => t

/-- `rotate_left` (node.rs:54-72). -/
def rotateLeft : ITree I B → ITree I B
  | .node v _ l (.node w _ rl rr) =>
    let self := .node v (refreshed v l rl) l rl
    .node w (refreshed w self rr) self rr
  | t => t

/-- `count` (node.rs:171-187). -/
def count : ITree I B → Nat
  | .nil => 0
  | .node _ _ l r => 1 + l.count + r.count

/-- `into_inorder` (node.rs:238-252). -/
def inorder : ITree I B → List I
  | .nil => []
  | .node v _ l r => l.inorder ++ v :: r.inorder

/-- The `immersion` of `join` (node.rs:212-226), `none` if it has not returned after `fuel` nested calls. -/
def joinLoop : Nat → ITree I B → List I → Option (ITree I B)
  | 0, _, _ => none
  | fuel + 1, root, intervals =>
    if intervals.isEmpty then some root
    else
      let center := intervals.length / 2
      (joinLoop fuel root (intervals.take center)).bind fun root => joinLoop fuel root (intervals.drop center)

/-- `join` (node.rs:211-235). `remove` panics on an empty vector, which cannot be: both trees are nodes. -/
def join (fuel : Nat) (left right : ITree I B) : Option (ITree I B) :=
  let intervals := left.inorder ++ right.inorder
  let center := intervals.length / 2
  match intervals[center]? with
  | none => none
  | some c => joinLoop fuel (new c) (intervals.eraseIdx center)

/-- `delete` (node.rs:80-97, tree.rs:29-33), `none` if it has not returned within `fuel`. -/
def delete [BEq I] (fuel : Nat) (i : I) : ITree I B → Option (ITree I B)
  | .nil => some .nil
  | .node v m l r =>
    if v == i then
      match l, r with
      | .node lv lm ll lr, .node rv rm rl rr => join fuel (.node lv lm ll lr) (.node rv rm rl rr)
      | .node lv lm ll lr, .nil => some (.node lv lm ll lr)
      | .nil, r => some r
    else if ltB (Interval.lo i) (Interval.lo v) then (delete fuel i l).map fun l => .node v m l r
    else if ltB (Interval.lo v) (Interval.lo i) then (delete fuel i r).map fun r => .node v m l r
    else some (.node v m l r)

/-- `insert` (node.rs:190-208, tree.rs:47-54). -/
def insert (i : I) : ITree I B → ITree I B
  | .nil => new i
  | .node v m l r =>
    let m := if ltB m (Interval.hi i) then Interval.hi i else m
    if ltB (Interval.lo i) (Interval.lo v) then .node v m (insert i l) r
    else .node v m l (insert i r)

/-- `intersects` (node.rs:116-136, tree.rs:58-63). -/
def intersects (q : I) : ITree I B → Bool
  | .nil => false
  | .node v _ l r =>
    if Plotline.intersects v q then true
    else
      match l.max? with
      | none => intersects q r
      | some max => if ltB max (Interval.lo q) then intersects q r else intersects q l

/-- `for_each_intersection` (node.rs:139-168, tree.rs:66-73): the calls of the closure, in order. -/
def forEach (q : I) : ITree I B → List I
  | .nil => []
  | .node v _ l r =>
    forEach q r ++ (if Plotline.intersects v q then [v] else []) ++
      match l.max? with
      | none => []
      | some max => if ltB max (Interval.lo q) then [] else forEach q l

end ITree

end Plotline
