import Verif.Spec.Triggers
import Verif.Spec.Interleave

/-!
# Specification vocabulary for cascades of triggers

Triggers perform operations, which run triggers, and so on.
-/

namespace Plotline

variable {σ : Sig}

/-- Here, runs triggers only of schedulers with a rank below `r`. -/
def Prog.RunsBelow (rank : Sched → Nat) (r : Nat) : Prog σ → Prop
  | .runTriggers _ s _ => rank s < r
  | _ => True

/-- The schedulers can be ranked so that triggers only lead to triggers of schedulers with a lower rank. -/
def Env.Layered (E : Env σ) : Prop :=
  ∃ rank : Sched → Nat, ∀ s, ∀ t ∈ E.fire s, t.Every (Prog.RunsBelow rank (rank s))

/-- A trigger that, when it comes to an end, has not failed. -/
def NeverFails (E : Env σ) (t : Prog σ) : Prop :=
  ∀ f s out s', Runs E [f] t s out s' → ∃ v, out = .ret (.ok v)

/-- A trigger that, when it comes to an end, has left every node its context had there, changed or not. -/
def LosesNothing (E : Env σ) (t : Prog σ) : Prop :=
  ∀ f s out s' i, Runs E [f] t s out s' → (ctxGet s.graph s.frames f i).isSome → (ctxGet s'.graph s'.frames f i).isSome

/-- The execution gets from `c` to the beginning of a Save. -/
def Conf.GetsToSave (E : Env σ) (c : Conf σ) : Prop :=
  ∃ env i f n k K s, Conf.Steps E c ⟨.run env (Prog.saveOp i n k), K, s⟩ ∧ env[i]? = some f

/-- A trigger that gets to performing a Save whatever it finds: at once or later, by itself, in a subtransaction or through
other triggers. -/
def GetsToSave (E : Env σ) (t : Prog σ) : Prop :=
  ∀ f s, Conf.GetsToSave E ⟨.run [f] t, [], s⟩

/-- The target of the context is a node it shows. -/
def TargetShown (f : Nat) (s : St σ) : Prop := ∃ i n, ctxGet s.graph s.frames f i = some n ∧ readTarget s f = some n

/-- The execution gets from `c` to the beginning of a Delete of a node that is there. -/
def Conf.GetsToDelete (E : Env σ) (c : Conf σ) : Prop :=
  ∃ env i f j k K s, Conf.Steps E c ⟨.run env (Prog.deleteOp i j k), K, s⟩ ∧ env[i]? = some f ∧
    (ctxGet s.graph s.frames f j).isSome

/-- A trigger that, in transactions on this graph, gets to performing a Delete of a node that is there, whenever its target is there:
at once or later, by itself, in a subtransaction or through other triggers. -/
def GetsToDelete (E : Env σ) (g : Graph σ.K σ.T) (t : Prog σ) : Prop :=
  ∀ f s, Reachable g s → f < s.frames.length → TargetShown f s → Conf.GetsToDelete E ⟨.run [f] t, [], s⟩

/-- A trigger that, in transactions on this graph, when it comes to an end, has left its target there, changed or not. -/
def LeavesTarget (E : Env σ) (g : Graph σ.K σ.T) (t : Prog σ) : Prop :=
  ∀ f s out s', Reachable g s → f < s.frames.length → Runs E [f] t s out s' → TargetShown f s → TargetShown f s'

end Plotline
