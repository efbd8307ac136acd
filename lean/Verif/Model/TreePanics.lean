import Verif.Model.Interval

/-!
# The interval tree when user code panics (plugins/interval/src/lib.rs:26-39, node.rs, tree.rs)

`lo` and `hi` of intervals, the comparison of bounds, `==` of intervals and the closure of `for_each_intersection` are user code.
Here each call of it may panic: code is run with the number of calls of user code that return before one panics. `Model/Interval`
has the same functions for user code that does not panic.

`insert` and `delete` of the tree take the root out and put the result in its place (tree.rs:29-33, 47-54); a panic in between drops
the nodes and leaves the `None` of `Option::take` behind.
-/

namespace Plotline

/-- Code that calls user code. It is given the number of calls that return before one panics. It tells the intervals the closure was
called with and, unless it panicked, its result and what is left of the number. -/
def Risky (I α : Type) : Type := Nat → List I × Option (α × Nat)

namespace Risky
variable {I α β : Type}

protected def pure (a : α) : Risky I α := fun n => ([], some (a, n))

protected def bind (x : Risky I α) (f : α → Risky I β) : Risky I β := fun n =>
  match x n with
  | (cs, none) => (cs, none)
  | (cs, some (a, m)) => (cs ++ (f a m).1, (f a m).2)

instance : Monad (Risky I) where
  pure := Risky.pure
  bind := Risky.bind

/-- A call of user code that returns `a`, if it does. -/
def user (a : α) : Risky I α
  | 0 => ([], none)
  | n + 1 => ([], some (a, n))

/-- The call of the closure of `for_each_intersection`. -/
def closure (v : I) : Risky I Unit
  | 0 => ([v], none)
  | n + 1 => ([v], some ((), n))

end Risky

section
variable {I B : Type} [Ord B] [Interval I B]
open Risky Interval

/-- `IntervalExt::contains` (lib.rs:28-30). -/
def icontainsR (a : I) (b : B) : Risky I Bool := do
  let l ← user (lo a)
  if ← user (leB l b) then
    let h ← user (hi a)
    user (leB b h)
  else return false

/-- `IntervalExt::intersects` (lib.rs:33-38). -/
def intersectsR (a b : I) : Risky I Bool := do
  let x ← user (lo b)
  if ← icontainsR a x then return true
  let x ← user (hi b)
  if ← icontainsR a x then return true
  let x ← user (lo a)
  if ← icontainsR b x then return true
  let x ← user (hi a)
  icontainsR b x

namespace ITree

/-- `insert` (node.rs:189-208; tree.rs:52 for `None`). -/
def insertR (i : I) : ITree I B → Risky I (ITree I B)
  | .nil => do return .node i (← user (hi i)) .nil .nil
  | .node v m l r => do
    let h ← user (hi i)
    let m ← if ← user (ltB m h) then user (hi i) else pure m
    let a ← user (lo i)
    let b ← user (lo v)
    if ← user (ltB a b) then return .node v m (← insertR i l) r
    else return .node v m l (← insertR i r)

/-- `join` (node.rs:211-235): `hi` of the new root is all it asks for. -/
def joinR (fuel : Nat) (left right : ITree I B) : Risky I (Option (ITree I B)) :=
  let intervals := left.inorder ++ right.inorder
  let center := intervals.length / 2
  match intervals[center]? with
  | none => return none
  | some c => do
    let h ← user (hi c)
    return joinLoop fuel (.node c h .nil .nil) (intervals.eraseIdx center)

/-- `delete` (node.rs:80-97); the result is `none` if `join` has not returned within `fuel`. -/
def deleteR [BEq I] (fuel : Nat) (i : I) : ITree I B → Risky I (Option (ITree I B))
  | .nil => return some .nil
  | .node v m l r => do
    if ← user (v == i) then
      match l, r with
      | .node lv lm ll lr, .node rv rm rl rr => joinR fuel (.node lv lm ll lr) (.node rv rm rl rr)
      | .node lv lm ll lr, .nil => return some (.node lv lm ll lr)
      | .nil, r => return some r
    else
      let a ← user (lo i)
      let b ← user (lo v)
      if ← user (ltB a b) then return (← deleteR fuel i l).map fun l => .node v m l r
      else
        let a ← user (lo i)
        let b ← user (lo v)
        if ← user (ltB b a) then return (← deleteR fuel i r).map fun r => .node v m l r
        else return some (.node v m l r)

/-- `intersects` (node.rs:116-136). -/
def intersectsR (q : I) : ITree I B → Risky I Bool
  | .nil => return false
  | .node v _ l r => do
    if ← Plotline.intersectsR v q then return true
    else
      match l.max? with
      | none => intersectsR q r
      | some max =>
        let b ← user (lo q)
        if ← user (ltB max b) then intersectsR q r else intersectsR q l

/-- `for_each_intersection` (node.rs:139-168). -/
def forEachR (q : I) : ITree I B → Risky I Unit
  | .nil => return ()
  | .node v _ l r => do
    forEachR q r
    if ← Plotline.intersectsR v q then closure v
    match l.max? with
    | none => return ()
    | some max =>
      let b ← user (lo q)
      if ← user (ltB max b) then return () else forEachR q l

end ITree

end

/-- The methods of `IntervalSearchTree` (tree.rs:24-73). -/
inductive TreeCall (I : Type) where
  | insert (i : I)
  | delete (i : I)
  | intersects (q : I)
  | forEach (q : I)

/-- What a call gives: it returns, with an answer or with the calls of the closure it made, or it panics after these. -/
inductive TreeAnswer (I : Type) where
  | done
  | bool (b : Bool)
  | called (cs : List I)
  | panic (cs : List I)
deriving DecidableEq, Repr

/-- A call on a tree during which `crash` calls of user code return and the next panics, if there is another. `none` if it has not
returned within `fuel`. -/
def ITree.act {I B : Type} [Ord B] [Interval I B] [BEq I] (fuel crash : Nat) :
    TreeCall I → ITree I B → Option (TreeAnswer I × ITree I B)
  -- tree.rs:47-54
  | .insert i, t =>
    match t.insertR i crash with
    | (_, some (t', _)) => some (.done, t')
    | (cs, none) => some (.panic cs, .nil)
  -- tree.rs:29-33
  | .delete i, t =>
    match t.deleteR fuel i crash with
    | (_, some (some t', _)) => some (.done, t')
    | (_, some (none, _)) => none
    | (cs, none) => some (.panic cs, .nil)
  -- tree.rs:58-63
  | .intersects q, t =>
    match t.intersectsR q crash with
    | (_, some (b, _)) => some (.bool b, t)
    | (cs, none) => some (.panic cs, t)
  -- tree.rs:66-73
  | .forEach q, t =>
    match t.forEachR q crash with
    | (cs, some _) => some (.called cs, t)
    | (cs, none) => some (.panic cs, t)

end Plotline
