import Verif.Spec.Rename

/-! # The same program with nodes and resources of another kind -/

namespace Plotline

/-- Lists of the same length that agree place by place. -/
inductive Pairs {α β : Type} (R : α → β → Prop) : List α → List β → Prop
  | nil : Pairs R [] []
  | cons {a : α} {b : β} {l : List α} {l' : List β} : R a b → Pairs R l l' → Pairs R (a :: l) (b :: l')

/-- Both there and in agreement, or neither there. -/
inductive Both {α β : Type} (R : α → β → Prop) : Option α → Option β → Prop
  | none : Both R none none
  | some {a : α} {b : β} : R a b → Both R (some a) (some b)

/-- An order (apart from the instances). -/
structure OrderOn (α : Type) where
  ord : Ord α

/-- The same ids, with nodes of another type, the types of resources (their `TypeId`s) in another order, and resources with other
values. -/
abbrev Sig.recast (σ : Sig) (U : Type) [i : Identify U σ.K] (o : OrderOn σ.Ty) (W : σ.Ty → Type) : Sig :=
  { K := σ.K, T := U, V := σ.V, unit := σ.unit, Ty := σ.Ty, Val := W, ordK := σ.ordK, beqK := σ.beqK, ident := i,
    ordTy := o.ord, decTy := σ.decTy }

/-- The same ids, with nodes of another type and resources with other values. -/
abbrev Sig.withKinds (σ : Sig) (U : Type) [Identify U σ.K] (W : σ.Ty → Type) : Sig := σ.recast U ⟨σ.ordTy⟩ W

/-- The same ids and resources, with nodes of another type. -/
abbrev Sig.withNodes (σ : Sig) (U : Type) [Identify U σ.K] : Sig := σ.withKinds U σ.Val

/-- The same operation, on nodes that stand for each other. -/
inductive Operation.Matches {K T U : Type} (R : T → U → Prop) : Operation K T → Operation K U → Prop
  | save {n : T} {m : U} : R n m → Operation.Matches R (.save n) (.save m)
  | delete (i : K) : Operation.Matches R (.delete i) (.delete i)

variable {σ : Sig} {U : Type} [Identify U σ.K] {o : OrderOn σ.Ty} {W : σ.Ty → Type}

/-- What stands for each other has the same id. -/
def SameIds (R : σ.T → U → Prop) : Prop := ∀ n m, R n m → (id m : σ.K) = id n

/-- The programs make the same calls, given answers that stand for each other, and give the library nodes and values that do. -/
inductive Prog.Matches (R : σ.T → U → Prop) (Q : ∀ t, σ.Val t → W t → Prop) : Prog σ → Prog (σ.recast U o W) → Prop
  | done (r : Except Error σ.V) : Prog.Matches R Q (.done r) (.done r)
  | panic : Prog.Matches R Q .panic .panic
  | reenter : Prog.Matches R Q .reenter .reenter
  | save (c : Nat) {n : σ.T} {m : U} {k : Prog σ} {k' : Prog (σ.recast U o W)} : R n m → Prog.Matches R Q k k' →
      Prog.Matches R Q (.save c n k) (.save c m k')
  | delete (c : Nat) (i : σ.K) {k : Prog σ} {k' : Prog (σ.recast U o W)} : Prog.Matches R Q k k' →
      Prog.Matches R Q (.delete c i k) (.delete c i k')
  | get (c : Nat) (i : σ.K) {k : Option σ.T → Prog σ} {k' : Option U → Prog (σ.recast U o W)} :
      (∀ a b, Both R a b → Prog.Matches R Q (k a) (k' b)) → Prog.Matches R Q (.get c i k) (.get c i k')
  | contains (c : Nat) (i : σ.K) {k : Bool → Prog σ} {k' : Bool → Prog (σ.recast U o W)} :
      (∀ a, Prog.Matches R Q (k a) (k' a)) → Prog.Matches R Q (.contains c i k) (.contains c i k')
  | tx (c : Nat) {body : Prog σ} {body' : Prog (σ.recast U o W)} {k : Except Error σ.V → Prog σ}
      {k' : Except Error σ.V → Prog (σ.recast U o W)} : Prog.Matches R Q body body' → (∀ a, Prog.Matches R Q (k a) (k' a)) →
      Prog.Matches R Q (.tx c body k) (.tx c body' k')
  | runTriggers (c : Nat) (s : Sched) {k : Except Error Unit → Prog σ} {k' : Except Error Unit → Prog (σ.recast U o W)} :
      (∀ a, Prog.Matches R Q (k a) (k' a)) → Prog.Matches R Q (.runTriggers c s k) (.runTriggers c s k')
  | withTarget {n : σ.T} {m : U} {k : Prog σ} {k' : Prog (σ.recast U o W)} : R n m → Prog.Matches R Q k k' →
      Prog.Matches R Q (.withTarget n k) (.withTarget m k')
  | targetRead (c : Nat) {k : Option σ.T → Prog σ} {k' : Option U → Prog (σ.recast U o W)} :
      (∀ a b, Both R a b → Prog.Matches R Q (k a) (k' b)) → Prog.Matches R Q (.targetRead c k) (.targetRead c k')
  | targetWrite (c : Nat) {f : σ.T → σ.T × Bool} {f' : U → U × Bool} {k : Bool → Prog σ} {k' : Bool → Prog (σ.recast U o W)} :
      (∀ n m, R n m → R (f n).1 (f' m).1 ∧ (f n).2 = (f' m).2) → (∀ a, Prog.Matches R Q (k a) (k' a)) →
      Prog.Matches R Q (.targetWrite c f k) (.targetWrite c f' k')
  | resRead (t : σ.Ty) {k : Option (σ.Val t) → Prog σ} {k' : Option (W t) → Prog (σ.recast U o W)} :
      (∀ a b, Both (Q t) a b → Prog.Matches R Q (k a) (k' b)) → Prog.Matches R Q (.resRead t k) (.resRead t k')
  | resWrite (t : σ.Ty) {f : σ.Val t → σ.Val t × Bool} {f' : W t → W t × Bool} {k : Bool → Prog σ} {k' : Bool → Prog (σ.recast U o W)} :
      (∀ v w, Q t v w → Q t (f v).1 (f' w).1 ∧ (f v).2 = (f' w).2) → (∀ a, Prog.Matches R Q (k a) (k' a)) →
      Prog.Matches R Q (.resWrite t f k) (.resWrite t f' k')
  | resScope (t : σ.Ty) (excl : Bool) {body : σ.Val t → Prog σ} {body' : W t → Prog (σ.recast U o W)}
      {k : Option (Except Error σ.V) → Prog σ} {k' : Option (Except Error σ.V) → Prog (σ.recast U o W)} :
      (∀ a b, Q t a b → Prog.Matches R Q (body a) (body' b)) → (∀ a, Prog.Matches R Q (k a) (k' a)) →
      Prog.Matches R Q (.resScope t excl body k) (.resScope t excl body' k')
  | resAssign (t : σ.Ty) {x : σ.Val t} {y : W t} {k : Prog σ} {k' : Prog (σ.recast U o W)} : Q t x y → Prog.Matches R Q k k' →
      Prog.Matches R Q (.resAssign t x k) (.resAssign t y k')
  | catchUnwind {body : Prog σ} {body' : Prog (σ.recast U o W)} {k : Option (Except Error σ.V) → Prog σ}
      {k' : Option (Except Error σ.V) → Prog (σ.recast U o W)} : Prog.Matches R Q body body' → (∀ a, Prog.Matches R Q (k a) (k' a)) →
      Prog.Matches R Q (.catchUnwind body k) (.catchUnwind body' k')
  | forget {k : Prog σ} {k' : Prog (σ.recast U o W)} : Prog.Matches R Q k k' → Prog.Matches R Q (.forget k) (.forget k')

/-- The same done with either schema. -/
inductive Use.Matches (R : σ.T → U → Prop) (Q : ∀ t, σ.Val t → W t → Prop) : Use σ → Use (σ.recast U o W) → Prop
  | register (t : σ.Ty) {v : σ.Val t} {w : W t} : Q t v w → Use.Matches R Q (.register t v) (.register t w)
  | trigger (s : Sched) {p : Prog σ} {p' : Prog (σ.recast U o W)} : p.Matches R Q p' → Use.Matches R Q (.trigger s p) (.trigger s p')
  | tx {pre : List (Operation σ.K σ.T)} {pre' : List (Operation σ.K U)} {body : Prog σ} {body' : Prog (σ.recast U o W)} :
      Pairs (Operation.Matches R) pre pre' → body.Matches R Q body' → Use.Matches R Q (.tx pre body) (.tx pre' body')
  | update {op : Operation σ.K σ.T} {op' : Operation σ.K U} : op.Matches R op' → Use.Matches R Q (.update op) (.update op')
  | get (i : σ.K) : Use.Matches R Q (.get i) (.get i)
  | iter : Use.Matches R Q .iter .iter
  | read (t : σ.Ty) : Use.Matches R Q (.read t) (.read t)
  | write (t : σ.Ty) {f : σ.Val t → σ.Val t × Bool} {f' : W t → W t × Bool} :
      (∀ v w, Q t v w → Q t (f v).1 (f' w).1 ∧ (f v).2 = (f' w).2) → Use.Matches R Q (.write t f) (.write t f')

/-- What is learnt is the same, and where it is nodes or values of resources, they stand for each other. -/
inductive Seen.Matches (R : σ.T → U → Prop) (Q : ∀ t, σ.Val t → W t → Prop) : Seen σ → Seen (σ.recast U o W) → Prop
  | nothing : Seen.Matches R Q .nothing .nothing
  | out (o : Out (Except Error σ.V)) : Seen.Matches R Q (.out o) (.out o)
  | node {n : Option σ.T} {m : Option U} : Both R n m → Seen.Matches R Q (.node n) (.node m)
  | nodes {l : List σ.T} {l' : List U} : Pairs R l l' → Seen.Matches R Q (.nodes l) (.nodes l')
  | value (t : σ.Ty) {v : Option (σ.Val t)} {w : Option (W t)} : Both (Q t) v w → Seen.Matches R Q (.value t v) (.value t w)
  | wrote (a : Access Unit) : Seen.Matches R Q (.wrote a) (.wrote a)

/-- The nodes of the schemas stand for each other, their triggers match, and what their resources read as stands for each other. -/
structure Schema.Matches (R : σ.T → U → Prop) (Q : ∀ t, σ.Val t → W t → Prop) (S : Schema σ) (S' : Schema (σ.recast U o W)) : Prop where
  nodes : ∀ i, Both R (S.guard.get i) (S'.guard.get i)
  iter : Pairs R S.guard.iter S'.guard.iter
  fires : ∀ s, Pairs (Prog.Matches R Q) (S.env.fire s) (S'.env.fire s)
  reads : ∀ t, Both (Q t) ((S.env.resources.res t).peek S.heap) ((S'.env.resources.res t).peek S'.heap)

end Plotline
