import Verif.Model.Plugin
import Verif.Spec.TreeOpaque

/-! # The interval plugin over other nodes and intervals -/

namespace Plotline

variable {K T U I J B C : Type} {W X : Nat → Type} [Ord K] [BEq K] [Identify T K] [Identify U K] [Ord B] [Ord C] [BEq I] [BEq J]
  [Interval I B] [Interval J C]

/-- Intervals of nodes: the same node, or one that stands for it, and an interval that stands for the other one. -/
def NodeInterval.Like {M N : Type} (P : M → N → Prop) (Q : I → J → Prop) (x : NodeInterval M I) (y : NodeInterval N J) : Prop :=
  P x.nodeId y.nodeId ∧ Q x.interval y.interval

/-- The values of resources that stand for each other: extractors that give such intervals for nodes that stand for each other, trees
that hold such intervals, and whatever is said of the resources the plugin knows nothing of. -/
def PluginLike (K : Type) [Ord K] [BEq K] [Identify T K] [Identify U K] (R : T → U → Prop) (Q : I → J → Prop) (O : ∀ n, W n → X n → Prop) :
    ∀ t : PTy, PValOf K T I B W t → PValOf K U J C X t → Prop
  | .extractor, e, e' => ∀ n m, R n m → Pairs Q (e n) (e' m)
  | .treeOfNode, t, t' => TreeLike (NodeInterval.Like R Q) t t'
  | .treeOfId, t, t' => TreeLike (NodeInterval.Like Eq Q) t t'
  | .other n, v, w => O n v w

end Plotline
