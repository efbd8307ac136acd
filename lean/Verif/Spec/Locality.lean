import Verif.Spec.Interleave

/-!
# What a transaction looks at and what it writes

By the calls it gets to make: `tx.with(body)` on the schema `S`, with the operations `pre` registered before, reaches them.
-/

namespace Plotline

variable {σ : Sig}

/-- The closure, or code it calls, gets to make the call `p`. -/
def Reaches (S : Schema σ) (pre : List (Operation σ.K σ.T)) (body p : Prog σ) : Prop :=
  ∃ env K s, Conf.Steps S.env ⟨.run [0] body, [], S.begin pre⟩ ⟨.run env p, K, s⟩

/-- It looks up the id. -/
def LooksUp (S : Schema σ) (pre : List (Operation σ.K σ.T)) (body : Prog σ) (i : σ.K) : Prop :=
  (∃ c k, Reaches S pre body (.get c i k)) ∨ ∃ c k, Reaches S pre body (.contains c i k)

/-- It registers the operation, in a context of whatever fate. -/
def Issues (S : Schema σ) (pre : List (Operation σ.K σ.T)) (body : Prog σ) : Operation σ.K σ.T → Prop
  | .save n => ∃ c k, Reaches S pre body (.save c n k)
  | .delete i => ∃ c k, Reaches S pre body (.delete c i k)

/-- It saves or deletes something with an id equal to `q`, or that was done before. -/
def Writes (S : Schema σ) (pre : List (Operation σ.K σ.T)) (body : Prog σ) (q : σ.K) : Prop :=
  ∃ op : Operation σ.K σ.T, (op ∈ pre ∨ Issues S pre body op) ∧ (op.id == q) = true

/-- It calls `std::mem::forget` on the context `tx.with` handed to the closure. -/
def Forgets (S : Schema σ) (pre : List (Operation σ.K σ.T)) (body : Prog σ) : Prop :=
  ∃ env k K s, Conf.Steps S.env ⟨.run [0] body, [], S.begin pre⟩ ⟨.run (0 :: env) (.forget k), K, s⟩

/-- It asks for the resource of type `t`, be it with `with` or with `with_mut`. -/
def UsesRes (S : Schema σ) (pre : List (Operation σ.K σ.T)) (body : Prog σ) (t : σ.Ty) : Prop :=
  (∃ k, Reaches S pre body (.resRead t k)) ∨ (∃ fn k, Reaches S pre body (.resWrite t fn k)) ∨
  ∃ excl b k, Reaches S pre body (.resScope t excl b k)

/-- It asks for the resource of type `t` with `with_mut`. -/
def WritesRes (S : Schema σ) (pre : List (Operation σ.K σ.T)) (body : Prog σ) (t : σ.Ty) : Prop :=
  (∃ fn k, Reaches S pre body (.resWrite t fn k)) ∨ ∃ b k, Reaches S pre body (.resScope t true b k)

/-- It comes to where the triggers of the scheduler are run. -/
def RunsTriggers (S : Schema σ) (pre : List (Operation σ.K σ.T)) (body : Prog σ) (u : Sched) : Prop :=
  ∃ c k, Reaches S pre body (.runTriggers c u k)

end Plotline
