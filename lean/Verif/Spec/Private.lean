import Verif.Spec.Alike

/-! # Components that keep to themselves

A component of a program, such as a plugin, has resource types of its own (`H`) that nothing else uses, and triggers that only
look at the context and work on those resources. `N` are the types of its own that it never registers. -/

namespace Plotline

variable {σ : Sig}

/-- The program has nothing to do with resources of these types. -/
def Prog.Avoids (H : σ.Ty → Prop) : Prog σ → Prop
  | .done _ => True
  | .panic => True
  | .reenter => True
  | .save _ _ k => k.Avoids H
  | .delete _ _ k => k.Avoids H
  | .get _ _ k => ∀ a, (k a).Avoids H
  | .contains _ _ k => ∀ a, (k a).Avoids H
  | .tx _ body k => body.Avoids H ∧ ∀ a, (k a).Avoids H
  | .runTriggers _ _ k => ∀ a, (k a).Avoids H
  | .withTarget _ k => k.Avoids H
  | .targetRead _ k => ∀ a, (k a).Avoids H
  | .targetWrite _ _ k => ∀ a, (k a).Avoids H
  | .resRead t k => ¬ H t ∧ ∀ a, (k a).Avoids H
  | .resWrite t _ k => ¬ H t ∧ ∀ a, (k a).Avoids H
  | .resScope t _ body k => ¬ H t ∧ (∀ v, (body v).Avoids H) ∧ ∀ a, (k a).Avoids H
  | .resAssign t _ k => ¬ H t ∧ k.Avoids H
  | .catchUnwind body k => body.Avoids H ∧ ∀ a, (k a).Avoids H
  | .forget k => k.Avoids H

/-- The program reads its context and its target, reads and writes resources of the types `H` with closures that do not panic, and
returns `Ok`. That there are no resources of the types `N` it may rely on. -/
inductive Observes (H N : σ.Ty → Prop) : Prog σ → Prop
  | done (v : σ.V) : Observes H N (.done (.ok v))
  | get (i : σ.K) {k : Option σ.T → Prog σ} : (∀ a, Observes H N (k a)) → Observes H N (.get 0 i k)
  | contains (i : σ.K) {k : Bool → Prog σ} : (∀ a, Observes H N (k a)) → Observes H N (.contains 0 i k)
  | target {k : Option σ.T → Prog σ} : (∀ a, Observes H N (k a)) → Observes H N (.targetRead 0 k)
  | read {t : σ.Ty} {k : Option (σ.Val t) → Prog σ} : H t → (∀ a, (N t → a = none) → Observes H N (k a)) →
      Observes H N (.resRead t k)
  | write {t : σ.Ty} {fn : σ.Val t → σ.Val t × Bool} {k : Bool → Prog σ} : H t → (∀ v, (fn v).2 = false) →
      (∀ a, Observes H N (k a)) → Observes H N (.resWrite t fn k)

/-- Two lists of triggers with the same ones of the rest of the program in the same order, and any of components. -/
inductive Woven (H N : σ.Ty → Prop) : List (Prog σ) → List (Prog σ) → Prop
  | nil : Woven H N [] []
  | keep {p : Prog σ} {l l' : List (Prog σ)} : p.Avoids H → Woven H N l l' → Woven H N (p :: l) (p :: l')
  | left {p : Prog σ} {l l' : List (Prog σ)} : Observes H N p → Woven H N l l' → Woven H N (p :: l) l'
  | right {p : Prog σ} {l l' : List (Prog σ)} : Observes H N p → Woven H N l l' → Woven H N l (p :: l')

/-- Two schemas that differ in components only: the same nodes, the same resources of other types, the same other triggers. -/
structure Beside (H N : σ.Ty → Prop) (S S' : Schema σ) : Prop where
  nodes : ∀ i, S'.guard.get i = S.guard.get i
  fires : ∀ s, Woven H N (S.env.fire s) (S'.env.fire s)
  reads : ∀ t, ¬ H t → (S'.env.resources.res t).peek S'.heap = (S.env.resources.res t).peek S.heap
  absent : ∀ t, H t → N t → (S.env.resources.res t).peek S.heap = none
  absent' : ∀ t, H t → N t → (S'.env.resources.res t).peek S'.heap = none

/-- A use of the schema by the rest of the program. -/
def Use.Avoids (H : σ.Ty → Prop) : Use σ → Prop
  | .register t _ => ¬ H t
  | .trigger _ p => p.Avoids H
  | .tx _ body => body.Avoids H
  | .update _ => True
  | .get _ => True
  | .iter => True
  | .read t => ¬ H t
  | .write t _ => ¬ H t

/-- A use of the schema by a component. -/
def Use.Private (H N : σ.Ty → Prop) : Use σ → Prop
  | .register t _ => H t ∧ ¬ N t
  | .trigger _ p => Observes H N p
  | .tx pre body => pre = [] ∧ Observes H N body
  | .update _ => False
  | .get _ => True
  | .iter => True
  | .read t => H t
  | .write t _ => H t

/-- The second course of uses is the first one with uses by components in between. -/
inductive Insert (H N : σ.Ty → Prop) {α : Type} (use : α → Use σ) : List α → List α → Prop
  | nil : Insert H N use [] []
  | keep {x : α} {l l' : List α} : (use x).Avoids H → Insert H N use l l' → Insert H N use (x :: l) (x :: l')
  | extra {x : α} {l l' : List α} : (use x).Private H N → Insert H N use l l' → Insert H N use l (x :: l')

end Plotline
