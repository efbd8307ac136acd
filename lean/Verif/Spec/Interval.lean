import Verif.Model.Interval

/-! # What is expected of intervals and the interval tree

Bounds are compared by a total order in which equal bounds need not be identical; intervals by an equivalence that respects
their bounds. -/

namespace Plotline

open Std

section
variable {I B : Type} [Ord B] [Interval I B]

/-- The bound lies in the interval. -/
def InRange (b : B) (a : I) : Prop :=
  (compare (Interval.lo a) b).isLE = true ∧ (compare b (Interval.hi a)).isLE = true

/-- The interval is not empty. -/
def Proper (a : I) : Prop := (compare (Interval.lo a) (Interval.hi a)).isLE = true

/-- Geometric overlap: some bound lies in both. -/
def Overlap (a b : I) : Prop := ∃ x : B, InRange x a ∧ InRange x b

end

/-- Equality of intervals is an equivalence and equal intervals have equal bounds. -/
class LawfulInterval (I B : Type) [Ord B] [Interval I B] [BEq I] : Prop extends EquivBEq I where
  lo_eq : ∀ a b : I, (a == b) = true → compare (Interval.lo a) (Interval.lo b) = .eq
  hi_eq : ∀ a b : I, (a == b) = true → compare (Interval.hi a) (Interval.hi b) = .eq

/-- What a client does with a tree. -/
inductive IEvent (I : Type) where
  | insert (i : I)
  | delete (i : I)

section
variable {I B : Type} [Ord B] [Interval I B] [BEq I]

/-- The trees a client can have: built from the empty tree by insertions and deletions that returned. -/
inductive Built : List (IEvent I) → ITree I B → Prop where
  | empty : Built [] .nil
  | insert {es : List (IEvent I)} {t : ITree I B} (i : I) : Built es t → Built (es ++ [.insert i]) (t.insert i)
  | delete {es : List (IEvent I)} {t t' : ITree I B} (fuel : Nat) (i : I) :
      Built es t → t.delete fuel i = some t' → Built (es ++ [.delete i]) t'

/-- The tree after a number of insertions. -/
def insertAll (is : List I) : ITree I B := is.foldl (fun t i => t.insert i) .nil

/-- The bags of intervals a history may leave: an insertion adds the interval; a deletion takes out one interval equal to
the given one, or does nothing. The list of what was taken out comes along. -/
inductive Bag : List (IEvent I) → List I → List I → Prop where
  | empty : Bag [] [] []
  | insert {es : List (IEvent I)} {b gone : List I} (i : I) : Bag es b gone → Bag (es ++ [.insert i]) (i :: b) gone
  | taken {es : List (IEvent I)} {b b' gone : List I} (i x : I) :
      Bag es b gone → (x == i) = true → b.Perm (x :: b') → Bag (es ++ [.delete i]) b' (x :: gone)
  | idle {es : List (IEvent I)} {b gone : List I} (i : I) : Bag es b gone → Bag (es ++ [.delete i]) b gone

/-- The intervals a history inserts. -/
def inserted (es : List (IEvent I)) : List I := es.filterMap fun | .insert i => some i | .delete _ => none

/-- Every interval given to an insertion is proper. -/
def ProperHistory (es : List (IEvent I)) : Prop := ∀ i, .insert i ∈ es → Proper i

end

section
variable {I B : Type} [Ord B] [Interval I B]

/-- Non-decreasing low bounds. -/
def SortedLo (l : List I) : Prop := l.Pairwise fun a b => (compare (Interval.lo a) (Interval.lo b)).isLE = true

/-- Every node's `max` is at least every high bound in its subtree. -/
def MaxBounds : ITree I B → Prop
  | .nil => True
  | .node v m l r => (∀ x ∈ (ITree.node v m l r).inorder, (compare (Interval.hi x) m).isLE = true) ∧ MaxBounds l ∧ MaxBounds r

/-- Every node's `max` is the greatest high bound in its subtree. -/
def MaxExact : ITree I B → Prop
  | .nil => True
  | .node v m l r =>
    (∀ x ∈ (ITree.node v m l r).inorder, (compare (Interval.hi x) m).isLE = true) ∧
    (∃ x ∈ (ITree.node v m l r).inorder, compare (Interval.hi x) m = .eq) ∧ MaxExact l ∧ MaxExact r

/-- Search order: what is left of a node starts before it, what is right of it does not. -/
def SearchOrder : ITree I B → Prop
  | .nil => True
  | .node v _ l r =>
    (∀ x ∈ l.inorder, compare (Interval.lo x) (Interval.lo v) = .lt) ∧
    (∀ x ∈ r.inorder, (compare (Interval.lo v) (Interval.lo x)).isLE = true) ∧ SearchOrder l ∧ SearchOrder r

/-- On its way down a query comes to a node whose left subtree claims to reach it although nothing stored there does, while
something right of the node overlaps it. It goes left wherever the left subtree claims to reach it, and right elsewhere. -/
inductive Misled (q : I) : ITree I B → Prop where
  | here (v : I) (m : B) (lv : I) (lm : B) (ll lr r : ITree I B) : ¬ Overlap v q → (compare (Interval.lo q) lm).isLE = true →
      (∀ x ∈ (ITree.node lv lm ll lr).inorder, compare (Interval.hi x) (Interval.lo q) = .lt) → (∃ y ∈ r.inorder, Overlap y q) →
      Misled q (.node v m (.node lv lm ll lr) r)
  | left (v : I) (m : B) (lv : I) (lm : B) (ll lr r : ITree I B) : ¬ Overlap v q → (compare (Interval.lo q) lm).isLE = true →
      Misled q (.node lv lm ll lr) → Misled q (.node v m (.node lv lm ll lr) r)
  | right (v : I) (m : B) (lv : I) (lm : B) (ll lr r : ITree I B) : ¬ Overlap v q → compare lm (Interval.lo q) = .lt →
      Misled q r → Misled q (.node v m (.node lv lm ll lr) r)
  | only (v : I) (m : B) (r : ITree I B) : ¬ Overlap v q → Misled q r → Misled q (.node v m .nil r)

/-- The search for `i` ends at a node equal to `i` with children `l` and `r`. -/
inductive Finds [BEq I] (i : I) : ITree I B → ITree I B → ITree I B → Prop where
  | here (v : I) (m : B) (l r : ITree I B) : (v == i) = true → Finds i (.node v m l r) l r
  | left (v : I) (m : B) (l r l' r' : ITree I B) : (v == i) = false → compare (Interval.lo i) (Interval.lo v) = .lt →
      Finds i l l' r' → Finds i (.node v m l r) l' r'
  | right (v : I) (m : B) (l r l' r' : ITree I B) : (v == i) = false → compare (Interval.lo v) (Interval.lo i) = .lt →
      Finds i r l' r' → Finds i (.node v m l r) l' r'

end

end Plotline
