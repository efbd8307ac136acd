import Verif.Spec.Triggers
import Verif.Model.Interleave

/-!
# Specification vocabulary for resources used by closures that make API calls of their own

Between the start and the end of the closure of `with` or `with_mut` the resource's lock is held.
-/

namespace Plotline

variable {σ : Sig}

/-- Different resource types have different cells: every `with_resource` makes a new one. -/
def Env.OwnCells (E : Env σ) : Prop :=
  ∀ t u p, (E.resources.res t).lock = some p → (E.resources.res u).lock = some p → t = u

/-- The schemas the API makes. -/
inductive Made : Schema σ → Prop where
  | fromGraph (g : Graph σ.K σ.T) : Made (.fromGraph g)
  | withResource {S : Schema σ} (t : σ.Ty) (v : σ.Val t) : Made S → Made (S.withResource t v)
  | withTrigger {S : Schema σ} (s : Sched) (t : Prog σ) : Made S → Made (S.withTrigger s t)
  | transact {S S' : Schema σ} {fuel : Nat} {pre : List (Operation σ.K σ.T)} {body : Prog σ} {out : Out (Except Error σ.V)} :
      Made S → S.transact fuel pre body = some (out, S') → Made S'

/-- The program, with `n` contexts in scope and the resources `held` in use by enclosing closures (`true`: of `with_mut`), never
asks for a lock it holds: it does not touch the schema's lock; inside `with_mut` it leaves the resource alone; inside `with` it
does not write the resource. `fires s held` says that triggers of `s` may be run while `held` are in use. -/
def Prog.Disciplined (fires : Sched → List (σ.Ty × Bool) → Prop) : Nat → List (σ.Ty × Bool) → Prog σ → Prop
  | _, _, .done _ => True
  | _, _, .panic => True
  | _, _, .reenter => False
  | n, held, .save c _ k => c < n ∧ k.Disciplined fires n held
  | n, held, .delete c _ k => c < n ∧ k.Disciplined fires n held
  | n, held, .get c _ k => c < n ∧ ∀ x, (k x).Disciplined fires n held
  | n, held, .contains c _ k => c < n ∧ ∀ x, (k x).Disciplined fires n held
  | n, held, .tx c body k => c < n ∧ body.Disciplined fires (n + 1) held ∧ ∀ x, (k x).Disciplined fires n held
  | n, held, .runTriggers c s k => c < n ∧ fires s held ∧ ∀ x, (k x).Disciplined fires n held
  | n, held, .withTarget _ k => 0 < n ∧ k.Disciplined fires n held
  | n, held, .targetRead c k => c < n ∧ ∀ x, (k x).Disciplined fires n held
  | n, held, .targetWrite c _ k => c < n ∧ ∀ x, (k x).Disciplined fires n held
  | n, held, .resRead t k => (t, true) ∉ held ∧ ∀ x, (k x).Disciplined fires n held
  | n, held, .resWrite t _ k => (∀ excl, (t, excl) ∉ held) ∧ ∀ x, (k x).Disciplined fires n held
  | n, held, .resScope t excl body k => (t, true) ∉ held ∧ (excl = true → (t, false) ∉ held) ∧
      (∀ v, (body v).Disciplined fires n ((t, excl) :: held)) ∧ ∀ x, (k x).Disciplined fires n held
  | n, held, .resAssign t _ k => (t, true) ∈ held ∧ k.Disciplined fires n held
  | n, held, .catchUnwind body k => body.Disciplined fires n held ∧ ∀ x, (k x).Disciplined fires n held
  | n, held, .forget k => 0 < n ∧ k.Disciplined fires n held

/-- The triggers keep to it. -/
def Env.Disciplined (E : Env σ) (fires : Sched → List (σ.Ty × Bool) → Prop) : Prop :=
  ∀ s held, fires s held → ∀ t ∈ E.fire s, t.Disciplined fires 1 held

/-- Does not assign the resource of type `t` here. -/
def Prog.LeavesAlone (t : σ.Ty) : Prog σ → Prop
  | .resAssign u _ _ => u ≠ t
  | _ => True

/-- The closures of `with` and `with_mut` being run, innermost first: the cell, and whether it is `with_mut`. -/
def openScopes : List (Kont σ) → List (Nat × Bool)
  | [] => []
  | .resScope p excl _ _ :: K => (p, excl) :: openScopes K
  | .tx _ _ _ :: K => openScopes K
  | .triggers _ _ _ _ :: K => openScopes K
  | .catchUnwind _ _ :: K => openScopes K

end Plotline
