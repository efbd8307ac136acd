import Verif.Spec.Interval
import Verif.Spec.Opaque

/-! # The same tree over other intervals -/

namespace Plotline

/-- What a client does with a tree (tree.rs:29-73). -/
inductive SearchCall (I : Type) where
  | insert (i : I)
  | delete (i : I)
  | intersects (q : I)
  | forEach (q : I)

/-- What the client learns from it: the answer, or the calls of the closure. -/
inductive SearchSeen (I : Type) where
  | nothing
  | bool (b : Bool)
  | intervals (l : List I)

section
variable {I B : Type} [Ord B] [Interval I B] [BEq I]

/-- One call that returns, what is learnt from it, and the tree afterwards. -/
inductive SearchGives : ITree I B → SearchCall I → SearchSeen I → ITree I B → Prop
  | insert (t : ITree I B) (i : I) : SearchGives t (.insert i) .nothing (t.insert i)
  | delete {t t' : ITree I B} {fuel : Nat} {i : I} : t.delete fuel i = some t' → SearchGives t (.delete i) .nothing t'
  | intersects (t : ITree I B) (q : I) : SearchGives t (.intersects q) (.bool (t.intersects q)) t
  | forEach (t : ITree I B) (q : I) : SearchGives t (.forEach q) (.intervals (t.forEach q)) t

/-- Calls that return, one after another, on a tree that was empty, and what is learnt from them. -/
inductive SearchSession : List (SearchCall I × SearchSeen I) → ITree I B → Prop
  | nil : SearchSession [] .nil
  | snoc {l : List (SearchCall I × SearchSeen I)} {t t' : ITree I B} {c : SearchCall I} {a : SearchSeen I} : SearchSession l t →
      SearchGives t c a t' → SearchSession (l ++ [(c, a)]) t'

end

/-- The same call, with intervals that stand for each other. -/
inductive SearchCall.Like {I J : Type} (R : I → J → Prop) : SearchCall I → SearchCall J → Prop
  | insert {i : I} {j : J} : R i j → SearchCall.Like R (.insert i) (.insert j)
  | delete {i : I} {j : J} : R i j → SearchCall.Like R (.delete i) (.delete j)
  | intersects {i : I} {j : J} : R i j → SearchCall.Like R (.intersects i) (.intersects j)
  | forEach {i : I} {j : J} : R i j → SearchCall.Like R (.forEach i) (.forEach j)

/-- The same answer; where it is intervals, they stand for each other, place by place. -/
inductive SearchSeen.Like {I J : Type} (R : I → J → Prop) : SearchSeen I → SearchSeen J → Prop
  | nothing : SearchSeen.Like R .nothing .nothing
  | bool (b : Bool) : SearchSeen.Like R (.bool b) (.bool b)
  | intervals {l : List I} {l' : List J} : Pairs R l l' → SearchSeen.Like R (.intervals l) (.intervals l')

/-- What stands for each other compares alike: the bounds of any two intervals with those of the two standing for them, and the
intervals themselves by equality. -/
structure SameShape {I J B C : Type} [Ord B] [Ord C] [Interval I B] [Interval J C] [BEq I] [BEq J] (R : I → J → Prop) : Prop where
  lo_lo : ∀ i j, R i j → ∀ i' j', R i' j' → compare (Interval.lo i) (Interval.lo i') = compare (Interval.lo j) (Interval.lo j')
  lo_hi : ∀ i j, R i j → ∀ i' j', R i' j' → compare (Interval.lo i) (Interval.hi i') = compare (Interval.lo j) (Interval.hi j')
  hi_lo : ∀ i j, R i j → ∀ i' j', R i' j' → compare (Interval.hi i) (Interval.lo i') = compare (Interval.hi j) (Interval.lo j')
  hi_hi : ∀ i j, R i j → ∀ i' j', R i' j' → compare (Interval.hi i) (Interval.hi i') = compare (Interval.hi j) (Interval.hi j')
  eq : ∀ i j, R i j → ∀ i' j', R i' j' → (i == i') = (j == j')

section
variable {I J B C : Type} [Ord B] [Ord C] [Interval I B] [Interval J C]

/-- The bounds are upper bounds of intervals that stand for each other. -/
def HiLike (R : I → J → Prop) (b : B) (c : C) : Prop := ∃ i j, R i j ∧ b = Interval.hi i ∧ c = Interval.hi j

/-- Trees that are the same place by place, with intervals that stand for each other. -/
inductive TreeLike (R : I → J → Prop) : ITree I B → ITree J C → Prop
  | nil : TreeLike R .nil .nil
  | node {v : I} {w : J} {m : B} {n : C} {l r : ITree I B} {l' r' : ITree J C} : R v w → HiLike R m n → TreeLike R l l' →
      TreeLike R r r' → TreeLike R (.node v m l r) (.node w n l' r')

end

end Plotline
