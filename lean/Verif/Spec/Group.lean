import Verif.Spec.Transaction

/-! # Closures run as transactions of their own, and as parts of one transaction -/

namespace Plotline

variable {σ : Sig}

/-- The contexts the program uses, by index, satisfy `W`. Its own is `0`. A closure can use the contexts of the closures around
it, so a closure that is passed to `schema.transaction().with(..)` has no other than `0` to use. -/
def Prog.Uses : (Nat → Prop) → Prog σ → Prop
  | _, .done _ => True
  | _, .panic => True
  | _, .reenter => True
  | W, .save c _ k => W c ∧ k.Uses W
  | W, .delete c _ k => W c ∧ k.Uses W
  | W, .get c _ k => W c ∧ ∀ a, (k a).Uses W
  | W, .contains c _ k => W c ∧ ∀ a, (k a).Uses W
  | W, .tx c body k => W c ∧ body.Uses (fun c => c = 0 ∨ W (c - 1)) ∧ ∀ a, (k a).Uses W
  | W, .runTriggers c _ k => W c ∧ ∀ a, (k a).Uses W
  | W, .withTarget _ k => W 0 ∧ k.Uses W
  | W, .targetRead c k => W c ∧ ∀ a, (k a).Uses W
  | W, .targetWrite c _ k => W c ∧ ∀ a, (k a).Uses W
  | W, .resRead _ k => ∀ a, (k a).Uses W
  | W, .resWrite _ _ k => ∀ a, (k a).Uses W
  | W, .resScope _ _ body k => (∀ v, (body v).Uses W) ∧ ∀ a, (k a).Uses W
  | W, .resAssign _ _ k => k.Uses W
  | W, .catchUnwind body k => body.Uses W ∧ ∀ a, (k a).Uses W
  | W, .forget k => W 0 ∧ k.Uses W

/-- A closure that can be passed to `schema.transaction().with(..)`. -/
def Prog.Alone (p : Prog σ) : Prop := p.Uses fun c => c = 0

/-- The context `f` of `s` shows what the schema `S` has, and the resources are those of `S`, none of them in use. -/
structure Shows (s : St σ) (f : Nat) (S : Schema σ) : Prop where
  nodes : S.guard.get = ctxGet s.graph s.frames f
  heap : S.heap = s.heap
  free : s.locks = []

/-- The closure that runs others one after the other, each as a subtransaction, and stops at the first error:
`ctx.transaction().with(p)?;` for each. -/
def together : List (Prog σ) → Prog σ
  | [] => .done (.ok σ.unit)
  | p :: ps => .tx 0 p fun
    | .ok _ => together ps
    | .error e => .done (.error e)

/-- Closures run one after the other, each as a transaction of its own, up to the first that does not return `Ok`:
`schema.transaction().with(p)?;` for each. -/
inductive Singly : Schema σ → List (Prog σ) → Out (Except Error σ.V) → Schema σ → Prop
  | none (S : Schema σ) : Singly S [] (.ret (.ok σ.unit)) S
  | next {S S1 S2 : Schema σ} {p : Prog σ} {ps : List (Prog σ)} {out : Out (Except Error σ.V)} (fuel : Nat) (v : σ.V) :
      S.transact fuel [] p = some (.ret (.ok v), S1) → Singly S1 ps out S2 → Singly S (p :: ps) out S2
  | stop {S S1 : Schema σ} {p : Prog σ} {ps : List (Prog σ)} {out : Out (Except Error σ.V)} (fuel : Nat) :
      S.transact fuel [] p = some (out, S1) → (∀ v, out ≠ .ret (.ok v)) → Singly S (p :: ps) out S1

end Plotline
