import Verif.Model.UserCode
import Verif.Spec.Contexts

/-!
# What panics of user code in calls of the library should do, and which user code the calls run
-/

namespace Plotline

variable {σ : Sig}

/-- There is one lock for each log; none is poisoned and none is held. -/
def Raw.AtRest (r : Raw σ) : Prop := r.locks = List.replicate r.world.txs.length .fresh

/-- The calls `h` with what they answered, latest first, are possible on a new transaction on the graph `g`, have all returned or
panicked, and lead to `r`. -/
inductive Lives (U : UserCode σ) (g : Graph σ.K σ.T) : List (Call σ × Answer σ.T) → Raw σ → Prop where
  | start : Lives U g [] (Raw.start g)
  | call {h : List (Call σ × Answer σ.T)} {r r' : Raw σ} {x : Call σ} {a : Answer σ.T} : Lives U g h r →
      r.step U x = some (a, r') → a ≠ .stuck → Lives U g ((x, a) :: h) r'

/-- Calls in a row, first one first, with their answers. -/
def Raw.script (U : UserCode σ) (r : Raw σ) : List (Call σ) → Option (List (Answer σ.T) × Raw σ)
  | [] => some ([], r)
  | x :: xs =>
    match r.step U x with
    | none => none
    | some (a, r') => (r'.script U xs).map fun y => (a :: y.1, y.2)

/-- The call only reads, and panicked. -/
def cutShort : Call σ × Answer σ.T → Bool
  | (.get _ _, .panic) => true
  | (.contains _ _, .panic) => true
  | (.readTarget _, .panic) => true
  | _ => false

/-- The calls without those that only read and panicked. -/
def carriedOut (h : List (Call σ × Answer σ.T)) : List (Call σ) := (h.filter fun x => !cutShort x).map (·.1)

/-- Of the calls `us` of user code, which begin after `n` others, `made` are made: all of them, if none panics, or up to the first
that does. -/
def UserCode.Runs (U : UserCode σ) (n : Nat) (us made : List (UserCall σ)) (panicked : Bool) : Prop :=
  match panicked with
  | false => made = us ∧ ∀ j, j < us.length → U.panics (n + j) = false
  | true => ∃ k, k < us.length ∧ made = us.take (k + 1) ∧ U.panics (n + k) = true ∧ ∀ j, j < k → U.panics (n + j) = false

/-- The operations a context reads through: newest first, its own before those of the contexts around it. -/
def World.pending (w : World σ) (x : CtxVal) : List (Operation σ.K σ.T) := x.chain.flatMap fun t => (w.log t).reverse

/-- The operations up to the first on the id, that one included. -/
def upToFirst (i : σ.K) : List (Operation σ.K σ.T) → List (Operation σ.K σ.T)
  | [] => []
  | op :: ops => if op.id == i then [op] else op :: upToFirst i ops

/-- The node is cloned, if there is one. -/
def clonesOf (found : Option σ.T) : List (UserCall σ) :=
  match found with
  | some n => [.clone n]
  | none => []

/-- The comparisons made to find what a context says of an id: with the pending operations up to the first on that id; and with
ids in the graph if there is none. -/
def comparisons (U : UserCode σ) (w : World σ) (x : CtxVal) (i : σ.K) : List (UserCall σ) :=
  (upToFirst i (w.pending x)).map (fun op => .eq op.id i) ++
    if (w.pending x).any (fun op => op.id == i) then [] else List.replicate (U.visits w.graph i) (.cmp i)

/-- The ids cloned. -/
def idsCloned : List (UserCall σ) → List σ.K
  | [] => []
  | .cloneId i :: us => i :: idsCloned us
  | _ :: us => idsCloned us

/-- The ids of the nodes that are saved. -/
def idsSaved : List (Operation σ.K σ.T) → List σ.K
  | [] => []
  | .save n :: ops => id n :: idsSaved ops
  | .delete _ :: ops => idsSaved ops

/-- Is this a comparison of `BTreeMap`, or a clone of an id? -/
def UserCall.ofGraph : UserCall σ → Prop
  | .cmp _ => True
  | .cloneId _ => True
  | _ => False

end Plotline
