import Verif.Model.Transaction
import Verif.Spec.Graph

/-!
# Specification vocabulary for transactions

Maps instead of graphs, "pending operations" and "ancestor" as relations over the parent pointers, and the set of context
trees the API can build, step by step.
-/

namespace Plotline

open Std

/-- What Rust requires of `Ord`/`Eq` implementations and provides for `TypeId`. -/
class LawfulSig (σ : Sig) : Prop where
  transK : TransOrd σ.K
  beqK : LawfulBEqOrd σ.K
  transTy : TransOrd σ.Ty
  eqTy : LawfulEqOrd σ.Ty

attribute [instance] LawfulSig.transK LawfulSig.beqK LawfulSig.transTy LawfulSig.eqTy

/-- Effect of one operation on a map. -/
def FMap.apply {K T : Type} [BEq K] [Identify T K] (m : FMap K T) : Operation K T → FMap K T
  | .save n => m.put (id n) n
  | .delete i => m.del i

/-- Effect of a list of operations, in order. -/
def FMap.applyAll {K T : Type} [BEq K] [Identify T K] (m : FMap K T) (ops : List (Operation K T)) : FMap K T :=
  ops.foldl FMap.apply m

variable {σ : Sig}

/-- `Pending frames f ops`: `ops` are the operations pending in the transactions enclosing context `f`, outermost first,
followed by those of `f` itself. -/
inductive Pending (frames : List (Frame σ.K σ.T)) : Nat → List (Operation σ.K σ.T) → Prop where
  | root {f : Nat} {fr : Frame σ.K σ.T} : frames[f]? = some fr → fr.parent = none → Pending frames f fr.ops
  | child {f p : Nat} {fr : Frame σ.K σ.T} {ops : List (Operation σ.K σ.T)} :
      frames[f]? = some fr → fr.parent = some p → Pending frames p ops → Pending frames f (ops ++ fr.ops)

/-- `Within frames a f`: context `f` is `a` or was opened (at any depth) inside `a`. -/
inductive Within (frames : List (Frame σ.K σ.T)) (a : Nat) : Nat → Prop where
  | self : Within frames a a
  | child {f p : Nat} {fr : Frame σ.K σ.T} :
      frames[f]? = some fr → fr.parent = some p → Within frames a p → Within frames a f

/-- The states reachable while a transaction on graph `g` is open, by API calls in any order on any of the open contexts:
opening the root context, saving, deleting, opening a child of any open context (so siblings may be open together),
dropping or committing the most recently opened context, setting or writing targets, leaking, writing resources,
holding and dropping their guards. -/
inductive Reachable (g : Graph σ.K σ.T) : St σ → Prop where
  | start (pre : List (Operation σ.K σ.T)) (heap : Heap σ.Val) :
      Reachable g { graph := g, frames := [⟨none, pre, none, false⟩], heap := heap, locks := [] }
  | push {s : St σ} (f : Nat) (op : Operation σ.K σ.T) : Reachable g s → Reachable g (pushOp s f op)
  | openChild {s : St σ} (f : Nat) : f < s.frames.length → Reachable g s → Reachable g (openChild s f)
  | close {s : St σ} (n : Nat) : 0 < n → n + 1 = s.frames.length → Reachable g s → Reachable g (closeChild s n)
  | commit {s : St σ} (n : Nat) : 0 < n → n + 1 = s.frames.length → Reachable g s → Reachable g (commitChild s n)
  | setTarget {s : St σ} (f : Nat) (n : σ.T) : Reachable g s → Reachable g (setTarget s f n)
  | writeTarget {s : St σ} (f : Nat) (n : σ.T) (b : Bool) : Reachable g s → Reachable g (writeTarget s f n b)
  | leak {s : St σ} (f : Nat) : Reachable g s → Reachable g (leakFrame s f)
  | heap {s : St σ} (h : Heap σ.Val) : Reachable g s → Reachable g { s with heap := h }
  | locks {s : St σ} (l : List (Nat × Bool)) : Reachable g s → Reachable g { s with locks := l }

/-- `p.Writes W`: every context `p` registers operations in (directly, by committing a subtransaction into it, or by
running triggers on it) has an index satisfying `W`. Reading is unrestricted. -/
inductive Prog.Writes : (Nat → Prop) → Prog σ → Prop where
  | done {W : Nat → Prop} (r) : Writes W (.done r)
  | panic {W : Nat → Prop} : Writes W .panic
  | reenter {W : Nat → Prop} : Writes W .reenter
  | save {W : Nat → Prop} {c n k} : W c → Writes W k → Writes W (.save c n k)
  | delete {W : Nat → Prop} {c i k} : W c → Writes W k → Writes W (.delete c i k)
  | get {W : Nat → Prop} {c i} {k : Option σ.T → Prog σ} : (∀ x, Writes W (k x)) → Writes W (.get c i k)
  | contains {W : Nat → Prop} {c i} {k : Bool → Prog σ} : (∀ x, Writes W (k x)) → Writes W (.contains c i k)
  | tx {W : Nat → Prop} {c body} {k : Except Error σ.V → Prog σ} :
      W c → Writes (fun c => c = 0 ∨ W (c - 1)) body → (∀ x, Writes W (k x)) → Writes W (.tx c body k)
  | runTriggers {W : Nat → Prop} {c sch} {k : Except Error Unit → Prog σ} :
      W c → (∀ x, Writes W (k x)) → Writes W (.runTriggers c sch k)
  | withTarget {W : Nat → Prop} {n k} : Writes W k → Writes W (.withTarget n k)
  | targetRead {W : Nat → Prop} {c} {k : Option σ.T → Prog σ} : (∀ x, Writes W (k x)) → Writes W (.targetRead c k)
  | targetWrite {W : Nat → Prop} {c fn} {k : Bool → Prog σ} : (∀ x, Writes W (k x)) → Writes W (.targetWrite c fn k)
  | resRead {W : Nat → Prop} {t} {k : Option (σ.Val t) → Prog σ} : (∀ x, Writes W (k x)) → Writes W (.resRead t k)
  | resWrite {W : Nat → Prop} {t fn} {k : Bool → Prog σ} : (∀ x, Writes W (k x)) → Writes W (.resWrite t fn k)
  | resScope {W : Nat → Prop} {t excl} {body : σ.Val t → Prog σ} {k : Option (Except Error σ.V) → Prog σ} :
      (∀ v, Writes W (body v)) → (∀ x, Writes W (k x)) → Writes W (.resScope t excl body k)
  | resAssign {W : Nat → Prop} {t x k} : Writes W k → Writes W (.resAssign t x k)
  | catchUnwind {W : Nat → Prop} {body} {k : Option (Except Error σ.V) → Prog σ} :
      Writes W body → (∀ x, Writes W (k x)) → Writes W (.catchUnwind body k)
  | forget {W : Nat → Prop} {k} : Writes W k → Writes W (.forget k)

end Plotline
