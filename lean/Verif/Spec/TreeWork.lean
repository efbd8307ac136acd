import Verif.Spec.TreePanics

/-! # How much a call on a tree does -/

namespace Plotline
variable {I B : Type} [Ord B] [Interval I B]

/-- The call calls user code `k` times: it panics exactly if fewer of its calls of user code may return. -/
def Takes [BEq I] (t : ITree I B) (c : TreeCall I) (k : Nat) : Prop :=
  ∀ fuel crash, (∃ cs t', t.act fuel crash c = some (.panic cs, t')) ↔ crash < k

/-- How many intervals there are from the root to the farthest leaf. -/
def ITree.levels : ITree I B → Nat
  | .nil => 0
  | .node _ _ l r => 1 + max l.levels r.levels

/-- The intervals met on the way to where `i` belongs: left if it starts before, right if not. -/
def ITree.way (i : I) : ITree I B → List I
  | .nil => []
  | .node v _ l r => v :: if (compare (Interval.lo i) (Interval.lo v)).isLT then l.way i else r.way i

end Plotline
