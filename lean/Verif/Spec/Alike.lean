import Verif.Spec.Scopes
import Verif.Spec.Triggers

/-! # Schemas that look the same from outside -/

namespace Plotline

variable {σ : Sig}

/-- What a program that owns a schema can do with it. -/
inductive Use (σ : Sig) where
  /-- `schema.with_resource(v)` (schema/mod.rs:63-69) -/
  | register (t : σ.Ty) (v : σ.Val t)
  /-- `schema.with_trigger(s, p)` (schema/mod.rs:72-84) -/
  | trigger (s : Sched) (p : Prog σ)
  /-- A transaction on which `pre` was registered before `with(body)` is called. -/
  | tx (pre : List (Operation σ.K σ.T)) (body : Prog σ)
  /-- `schema.write().insert(n)` or `schema.write().remove(i)` -/
  | update (op : Operation σ.K σ.T)
  /-- `schema.read().get(i)` -/
  | get (i : σ.K)
  /-- `schema.read().iter()` -/
  | iter
  /-- `Res::<t>::from(schema.resources()).with(..)` -/
  | read (t : σ.Ty)
  /-- `Res::<t>::from(schema.resources()).with_mut(f)`; `f` leaves a value and says whether it panics. -/
  | write (t : σ.Ty) (f : σ.Val t → σ.Val t × Bool)

/-- What the program learns from it. -/
inductive Seen (σ : Sig) where
  | nothing
  | out (o : Out (Except Error σ.V))
  | node (n : Option σ.T)
  | nodes (l : List σ.T)
  | value (t : σ.Ty) (v : Option (σ.Val t))
  | wrote (a : Access Unit)

/-- One use that comes to an end, what is learnt from it, and the schema afterwards. -/
inductive Gives : Schema σ → Use σ → Seen σ → Schema σ → Prop
  | register (S : Schema σ) (t : σ.Ty) (v : σ.Val t) : Gives S (.register t v) .nothing (S.withResource t v)
  | trigger (S : Schema σ) (s : Sched) (p : Prog σ) : Gives S (.trigger s p) .nothing (S.withTrigger s p)
  | tx {S S' : Schema σ} {fuel : Nat} {pre : List (Operation σ.K σ.T)} {body : Prog σ} {o : Out (Except Error σ.V)} :
      S.transact fuel pre body = some (o, S') → o ≠ .stuck → Gives S (.tx pre body) (.out o) S'
  | update (S : Schema σ) (op : Operation σ.K σ.T) : Gives S (.update op) .nothing { S with graph := S.guard.applyOp op }
  | get (S : Schema σ) (i : σ.K) : Gives S (.get i) (.node (S.guard.get i)) S
  | iter (S : Schema σ) : Gives S .iter (.nodes S.guard.iter) S
  | read (S : Schema σ) (t : σ.Ty) : Gives S (.read t) (.value t ((S.env.resources.res t).peek S.heap)) S
  | write (S : Schema σ) (t : σ.Ty) (f : σ.Val t → σ.Val t × Bool) : Gives S (.write t f)
      (.wrote ((S.env.resources.res t).withMut S.heap fun v => ((f v).1, if (f v).2 then none else some ())).1)
      { S with heap := ((S.env.resources.res t).withMut S.heap fun v => ((f v).1, if (f v).2 then none else some ())).2 }

/-- Uses one after another, with what is learnt from each. -/
inductive Session : Schema σ → List (Use σ × Seen σ) → Schema σ → Prop
  | nil (S : Schema σ) : Session S [] S
  | cons {S S1 S2 : Schema σ} {u : Use σ} {a : Seen σ} {l : List (Use σ × Seen σ)} : Gives S u a S1 → Session S1 l S2 →
      Session S ((u, a) :: l) S2

/-- The schema was made from a graph built with the graph's own functions, and used. -/
def Schema.Used (S : Schema σ) : Prop := ∃ (g : Graph σ.K σ.T) (l : List (Use σ × Seen σ)), g.Reachable ∧ Session (.fromGraph g) l S

/-- The schemas have the same nodes, run the same triggers in the same order, and their resources read as the same. -/
structure Alike (S S' : Schema σ) : Prop where
  nodes : ∀ i, S'.guard.get i = S.guard.get i
  fires : ∀ s, S'.env.fire s = S.env.fire s
  reads : ∀ t, (S'.env.resources.res t).peek S'.heap = (S.env.resources.res t).peek S.heap

end Plotline
