import Verif.Spec.Alike

/-! # The same program with other ids -/

namespace Plotline

/-- The same nodes, with ids of another type: a node that had the id `i` has the id `φ i`. -/
abbrev Sig.renamed (σ : Sig) (L : Type) [Ord L] [BEq L] (φ : σ.K → L) : Sig :=
  { K := L, T := σ.T, V := σ.V, unit := σ.unit, Ty := σ.Ty, Val := σ.Val, ident := ⟨fun n => φ (id n)⟩,
    ordTy := σ.ordTy, decTy := σ.decTy }

/-- The new ids are equal exactly where the old ones are. Nothing is said of their order. -/
def Faithful {K L : Type} [BEq K] [BEq L] (φ : K → L) : Prop := ∀ i j, (φ i == φ j) = (i == j)

/-- The graph made of these nodes, for the ids they have in `τ`. -/
def Sig.graphOf (τ : Sig) (l : List τ.T) : Graph τ.K τ.T := Graph.fromIter l

/-- The operation with its id replaced. -/
def Operation.rename {K L T : Type} (φ : K → L) : Operation K T → Operation L T
  | .save n => .save n
  | .delete i => .delete (φ i)

variable {σ : Sig} {L : Type} [Ord L] [BEq L]

/-- The program with the ids it uses replaced. -/
def Prog.rename (φ : σ.K → L) : Prog σ → Prog (σ.renamed L φ)
  | .done r => .done r
  | .panic => .panic
  | .reenter => .reenter
  | .save c n k => .save c n (k.rename φ)
  | .delete c i k => .delete c (φ i) (k.rename φ)
  | .get c i k => .get c (φ i) fun a => (k a).rename φ
  | .contains c i k => .contains c (φ i) fun a => (k a).rename φ
  | .tx c body k => .tx c (body.rename φ) fun a => (k a).rename φ
  | .runTriggers c s k => .runTriggers c s fun a => (k a).rename φ
  | .withTarget n k => .withTarget n (k.rename φ)
  | .targetRead c k => .targetRead c fun a => (k a).rename φ
  | .targetWrite c f k => .targetWrite c f fun a => (k a).rename φ
  | .resRead t k => .resRead t fun a => (k a).rename φ
  | .resWrite t f k => .resWrite t f fun a => (k a).rename φ
  | .resScope t excl body k => .resScope t excl (fun a => (body a).rename φ) fun a => (k a).rename φ
  | .resAssign t x k => .resAssign t x (k.rename φ)
  | .catchUnwind body k => .catchUnwind (body.rename φ) fun a => (k a).rename φ
  | .forget k => .forget (k.rename φ)

/-- What is done with a schema, with the ids replaced. -/
def Use.rename (φ : σ.K → L) : Use σ → Use (σ.renamed L φ)
  | .register t v => .register t v
  | .trigger s p => .trigger s (p.rename φ)
  | .tx pre body => .tx (pre.map (Operation.rename φ)) (body.rename φ)
  | .update op => .update (op.rename φ)
  | .get i => .get (φ i)
  | .iter => .iter
  | .read t => .read t
  | .write t f => .write t f

/-- The same is learnt, but for the order in which nodes are gone through. -/
inductive Seen.Like (φ : σ.K → L) : Seen σ → Seen (σ.renamed L φ) → Prop
  | nothing : Seen.Like φ .nothing .nothing
  | out (o : Out (Except Error σ.V)) : Seen.Like φ (.out o) (.out o)
  | node (n : Option σ.T) : Seen.Like φ (.node n) (.node n)
  | nodes {l l' : List σ.T} : l'.Perm l → Seen.Like φ (.nodes l) (.nodes l')
  | value (t : σ.Ty) (v : Option (σ.Val t)) : Seen.Like φ (.value t v) (.value t v)
  | wrote (a : Access Unit) : Seen.Like φ (.wrote a) (.wrote a)

/-- The same course of events with the ids replaced. -/
inductive Echo (φ : σ.K → L) : List (Use σ × Seen σ) → List (Use (σ.renamed L φ) × Seen (σ.renamed L φ)) → Prop
  | nil : Echo φ [] []
  | cons {u : Use σ} {a : Seen σ} {a' : Seen (σ.renamed L φ)} {l : List (Use σ × Seen σ)}
      {l' : List (Use (σ.renamed L φ) × Seen (σ.renamed L φ))} : a.Like φ a' → Echo φ l l' → Echo φ ((u, a) :: l) ((u.rename φ, a') :: l')

/-- The second schema is the first one with the ids replaced: it has the same nodes, the same triggers with their ids replaced, in
the same order, and its resources read as the same. -/
structure Renamed (φ : σ.K → L) (S : Schema σ) (S' : Schema (σ.renamed L φ)) : Prop where
  nodes : ∀ i, S'.guard.get (φ i) = S.guard.get i
  same : S'.guard.iter.Perm S.guard.iter
  fires : ∀ s, S'.env.fire s = (S.env.fire s).map (Prog.rename φ)
  reads : ∀ t, (S'.env.resources.res t).peek S'.heap = (S.env.resources.res t).peek S.heap

end Plotline
