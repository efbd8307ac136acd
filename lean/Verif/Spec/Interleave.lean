import Verif.Model.Interleave

/-!
# What it means for clients to be served one at a time

`OneByOne S es S'`: the schema `S` becomes `S'` when what is seen in `es` happens one thing after another, each transaction as
a whole at the moment it ends, and each write guard's changes as a whole at the moment it is dropped.
-/

namespace Plotline

variable {σ : Sig}

/-- Any number of steps of a closure. -/
inductive Conf.Steps (E : Env σ) : Conf σ → Conf σ → Prop where
  | refl (c : Conf σ) : Steps E c c
  | head {c c' c'' : Conf σ} : c.step E = some c' → Steps E c' c'' → Steps E c c''

/-- One thing happening to a schema nobody else uses. Only four kinds of events count. -/
inductive Alone : Schema σ → SysEvent σ → Schema σ → Prop where
  /-- A whole transaction. -/
  | finish {S S' : Schema σ} (c fuel : Nat) {pre : List (Operation σ.K σ.T)} {body : Prog σ} {out : Out (Except Error σ.V)} :
      S.transact fuel pre body = some (out, S') → Alone S (.finish c pre body out) S'
  /-- A whole transaction that panics in its commit. -/
  | crash {S S' : Schema σ} (c fuel : Nat) {pre : List (Operation σ.K σ.T)} {body : Prog σ} {n : Nat} :
      S.transactCrash fuel pre body n = some (.panic, S') → Alone S (.crash c pre body n) S'
  /-- Changes through a write guard. -/
  | writeDone (S : Schema σ) (c : Nat) (ops : List (Operation σ.K σ.T)) (panicked : Bool) :
      Alone S (.writeDone c ops panicked)
        { S with graph := S.graph.commit ops, poisoned := S.poisoned || panicked }
  /-- An answer given to a reader. -/
  | observe (S : Schema σ) (c : Nat) (i : σ.K) : Alone S (.observe c i (S.guard.get i)) S
  | internal (S : Schema σ) (c : Nat) : Alone S (.internal c) S
  | read (S : Schema σ) (c : Nat) : Alone S (.read c) S
  | readDone (S : Schema σ) (c : Nat) : Alone S (.readDone c) S
  | write (S : Schema σ) (c : Nat) : Alone S (.write c) S
  | update (S : Schema σ) (c : Nat) (op : Operation σ.K σ.T) : Alone S (.update c op) S
  | openTx (S : Schema σ) (c : Nat) : Alone S (.openTx c) S
  | register (S : Schema σ) (c : Nat) (op : Operation σ.K σ.T) : Alone S (.register c op) S
  | dropTx (S : Schema σ) (c : Nat) : Alone S (.dropTx c) S
  | call (S : Schema σ) (c : Nat) (body : Prog σ) : Alone S (.call c body) S

/-- One thing after another. -/
inductive OneByOne : Schema σ → List (SysEvent σ) → Schema σ → Prop where
  | nil (S : Schema σ) : OneByOne S [] S
  | snoc {S S' S'' : Schema σ} {es : List (SysEvent σ)} {e : SysEvent σ} :
      OneByOne S es S' → Alone S' e S'' → OneByOne S (es ++ [e]) S''

/-- Whose step it is. -/
def SysEvent.client : SysEvent σ → Nat
  | .internal c | .read c | .observe c _ _ | .readDone c | .write c | .update c _ | .writeDone c _ _ | .openTx c | .register c _
  | .dropTx c | .call c _ | .finish c _ _ _ | .crash c _ _ _ => c

/-- The client can take a step. -/
def Sys.CanGoOn (s : Sys σ) (c : Nat) : Prop := ∃ e s', Sys.Step s e s' ∧ e.client = c

/-- The client's closure asked for a lock it holds itself: the schema's, which its own transaction holds, or that of a resource
inside `with` or `with_mut` on it. -/
def Client.SelfBlocked (x : Client σ) : Prop :=
  ∃ pre body stack frames locks, x = .running pre body (.back .stuck) stack frames locks

end Plotline
