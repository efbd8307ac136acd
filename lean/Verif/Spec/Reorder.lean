import Verif.Spec.Opaque

/-! Specification of what happens when the types of resources (their `TypeId`s) come in another order: the same calls, with the
other order behind the map of resources. What a program does mentions no order, so the translation changes nothing in it. -/

namespace Plotline

variable {σ : Sig}

/-- The same types, with the types of resources in another order. -/
abbrev Sig.reordered (σ : Sig) (o : OrderOn σ.Ty) : Sig := σ.recast σ.T o σ.Val

/-- The order is one: transitive, and only a type itself is equal to it. (What `Ord for TypeId` promises, and nothing more.) -/
structure OrderOn.Lawful {α : Type} (o : OrderOn α) : Prop where
  trans : @Std.TransOrd α o.ord
  eq : @Std.LawfulEqOrd α o.ord

def Prog.reorder (o : OrderOn σ.Ty) : Prog σ → Prog (σ.reordered o)
  | .done r => .done r
  | .panic => .panic
  | .reenter => .reenter
  | .save c n k => .save c n (k.reorder o)
  | .delete c i k => .delete c i (k.reorder o)
  | .get c i k => .get c i fun a => (k a).reorder o
  | .contains c i k => .contains c i fun a => (k a).reorder o
  | .tx c body k => .tx c (body.reorder o) fun a => (k a).reorder o
  | .runTriggers c s k => .runTriggers c s fun a => (k a).reorder o
  | .withTarget n k => .withTarget n (k.reorder o)
  | .targetRead c k => .targetRead c fun a => (k a).reorder o
  | .targetWrite c f k => .targetWrite c f fun a => (k a).reorder o
  | .resRead t k => .resRead t fun a => (k a).reorder o
  | .resWrite t f k => .resWrite t f fun a => (k a).reorder o
  | .resScope t excl body k => .resScope t excl (fun a => (body a).reorder o) fun a => (k a).reorder o
  | .resAssign t x k => .resAssign t x (k.reorder o)
  | .catchUnwind body k => .catchUnwind (body.reorder o) fun a => (k a).reorder o
  | .forget k => .forget (k.reorder o)

def Use.reorder (o : OrderOn σ.Ty) : Use σ → Use (σ.reordered o)
  | .register t v => .register t v
  | .trigger s p => .trigger s (p.reorder o)
  | .tx pre body => .tx pre (body.reorder o)
  | .update op => .update op
  | .get i => .get i
  | .iter => .iter
  | .read t => .read t
  | .write t f => .write t f

def Seen.reorder (o : OrderOn σ.Ty) : Seen σ → Seen (σ.reordered o)
  | .nothing => .nothing
  | .out r => .out r
  | .node n => .node n
  | .nodes l => .nodes l
  | .value t v => .value t v
  | .wrote a => .wrote a

/-- The triggers after registrations, if the `TypeId`s of schedulers are numbered as `ν` says. -/
def numbered {P : Type} (ν : Sched → Nat) (l : List (Sched × P)) : BTreeMap Nat (List P) :=
  l.foldl (fun m x => match m.get (ν x.1) with
    | some ts => (m.insert (ν x.1) (ts ++ [x.2])).1
    | none => (m.insert (ν x.1) [x.2]).1) BTreeMap.empty

end Plotline
