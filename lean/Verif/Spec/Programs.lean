import Verif.Spec.Transaction

/-!
# Specification vocabulary for closures and triggers

Syntactic classes of programs, the "copy, run, replace" reading of nested transactions, and static scripts.
-/

namespace Plotline

variable {σ : Sig}

/-- `p.Every φ`: `φ` holds of `p` and of every program `p` may continue as, call, or run in a subtransaction. -/
def Prog.Every (φ : Prog σ → Prop) : Prog σ → Prop
  | .done r => φ (.done r)
  | .panic => φ .panic
  | .reenter => φ .reenter
  | .save c n k => φ (.save c n k) ∧ k.Every φ
  | .delete c i k => φ (.delete c i k) ∧ k.Every φ
  | .get c i k => φ (.get c i k) ∧ ∀ x, (k x).Every φ
  | .contains c i k => φ (.contains c i k) ∧ ∀ x, (k x).Every φ
  | .tx c body k => φ (.tx c body k) ∧ body.Every φ ∧ ∀ x, (k x).Every φ
  | .runTriggers c s k => φ (.runTriggers c s k) ∧ ∀ x, (k x).Every φ
  | .withTarget n k => φ (.withTarget n k) ∧ k.Every φ
  | .targetRead c k => φ (.targetRead c k) ∧ ∀ x, (k x).Every φ
  | .targetWrite c f k => φ (.targetWrite c f k) ∧ ∀ x, (k x).Every φ
  | .resRead t k => φ (.resRead t k) ∧ ∀ x, (k x).Every φ
  | .resWrite t f k => φ (.resWrite t f k) ∧ ∀ x, (k x).Every φ
  | .resScope t excl body k => φ (.resScope t excl body k) ∧ (∀ v, (body v).Every φ) ∧ ∀ x, (k x).Every φ
  | .resAssign t x k => φ (.resAssign t x k) ∧ k.Every φ
  | .catchUnwind body k => φ (.catchUnwind body k) ∧ body.Every φ ∧ ∀ x, (k x).Every φ
  | .forget k => φ (.forget k) ∧ k.Every φ

/-- Every registered trigger satisfies `φ` throughout. -/
def Env.Every (E : Env σ) (φ : Prog σ → Prop) : Prop :=
  ∀ s ts, E.triggers.select s = some ts → ∀ t ∈ ts, t.Every φ

/-- Does not leak its own context. What the closures of its subtransactions do to theirs is not restricted. -/
def Prog.Holds : Prog σ → Prop
  | .done _ => True
  | .panic => True
  | .reenter => True
  | .save _ _ k => k.Holds
  | .delete _ _ k => k.Holds
  | .get _ _ k => ∀ x, (k x).Holds
  | .contains _ _ k => ∀ x, (k x).Holds
  | .tx _ _ k => ∀ x, (k x).Holds
  | .runTriggers _ _ k => ∀ x, (k x).Holds
  | .withTarget _ k => k.Holds
  | .targetRead _ k => ∀ x, (k x).Holds
  | .targetWrite _ _ k => ∀ x, (k x).Holds
  | .resRead _ k => ∀ x, (k x).Holds
  | .resWrite _ _ k => ∀ x, (k x).Holds
  | .resScope _ _ body k => (∀ v, (body v).Holds) ∧ ∀ x, (k x).Holds
  | .resAssign _ _ k => k.Holds
  | .catchUnwind body k => body.Holds ∧ ∀ x, (k x).Holds
  | .forget _ => False

/-- No trigger leaks the context it is run on. Rust enforces this: triggers get the context by reference. -/
def Env.Holds (E : Env σ) : Prop := ∀ s ts, E.triggers.select s = some ts → ∀ t ∈ ts, t.Holds

/-- Registers neither a save nor a delete here. -/
def Prog.Quiet : Prog σ → Prop
  | .save _ _ _ => False
  | .delete _ _ _ => False
  | _ => True

/-- Does not write a resource here, nor hold the lock for writing one. -/
def Prog.NoResWrite : Prog σ → Prop
  | .resWrite _ _ _ => False
  | .resScope _ excl _ _ => excl = false
  | .resAssign _ _ _ => False
  | _ => True

/-- Does not panic inside `target().with_mut` here. -/
def Prog.SafeTarget : Prog σ → Prop
  | .targetWrite _ f _ => ∀ n, (f n).2 = false
  | _ => True

/-- Uses only its own context here, and does not leak it. -/
def Prog.Own : Prog σ → Prop
  | .save c _ _ => c = 0
  | .delete c _ _ => c = 0
  | .get c _ _ => c = 0
  | .contains c _ _ => c = 0
  | .tx c _ _ => c = 0
  | .runTriggers c _ _ => c = 0
  | .targetRead c _ => c = 0
  | .targetWrite c _ _ => c = 0
  | .forget _ => False
  | _ => True

/-! ## Copy, run, replace -/

/-- What a closure works on in this reading: a whole private map, the operations issued at this level so far (those of a
committed subtransaction at the point of its commit), the target, the resources and which of them are in use by an enclosing closure. -/
structure View (σ : Sig) where
  map : FMap σ.K σ.T
  issued : List (Operation σ.K σ.T)
  target : Option (Lock σ.T)
  heap : Heap σ.Val
  inUse : List (Nat × Bool)

/-- The target's value, if set and not poisoned. -/
def View.targetVal (v : View σ) : Option σ.T :=
  match v.target with
  | some ⟨n, false⟩ => some n
  | _ => none

/-- Whether an enclosing closure uses the resource in a way that excludes this one: one of the two writes. -/
def View.busy (E : Env σ) (v : View σ) (t : σ.Ty) (excl : Bool) : Bool :=
  match (E.resources.res t).lock with
  | none => false
  | some p => v.inUse.any fun u => u.1 == p && (excl || u.2)

/-- Runs triggers one after another on the same view until one fails. -/
def copyEach (run : Prog σ → View σ → Option (Out (Except Error σ.V) × View σ)) :
    List (Prog σ) → View σ → Option (Out (Except Error Unit) × View σ)
  | [], v => some (.ret (.ok ()), v)
  | t :: ts, v => do
    match ← run t v with
    | (.ret (.ok _), v') => copyEach run ts v'
    | (.ret (.error e), v') => some (.ret (.error e), v')
    | (.panic, v') => some (.panic, v')
    | (.stuck, v') => some (.stuck, v')

/-- Runs a program that uses only its own context: every save and delete changes the private map at once; a
subtransaction gets a copy of the map, which replaces the map if it succeeds and is thrown away otherwise. -/
def copyRun (E : Env σ) : Nat → Prog σ → View σ → Option (Out (Except Error σ.V) × View σ)
  | 0, _, _ => none
  | _ + 1, .done r, v => some (.ret r, v)
  | _ + 1, .panic, v => some (.panic, v)
  | _ + 1, .reenter, v => some (.stuck, v)
  | fuel + 1, .save _ n k, v =>
    copyRun E fuel k { v with map := v.map.put (id n) n, issued := v.issued ++ [.save n] }
  | fuel + 1, .delete _ i k, v => copyRun E fuel k { v with map := v.map.del i, issued := v.issued ++ [.delete i] }
  | fuel + 1, .get _ i k, v => copyRun E fuel (k (v.map i)) v
  | fuel + 1, .contains _ i k, v => copyRun E fuel (k (v.map i).isSome) v
  | fuel + 1, .tx _ body k, v => do
    match ← copyRun E fuel body { map := v.map, issued := [], target := none, heap := v.heap, inUse := v.inUse } with
    | (.ret (.ok a), c) =>
      copyRun E fuel (k (.ok a)) { v with map := c.map, issued := v.issued ++ c.issued, heap := c.heap }
    | (.ret (.error e), c) => copyRun E fuel (k (.error e)) { v with heap := c.heap }
    | (.panic, c) => some (.panic, { v with heap := c.heap })
    | (.stuck, c) => some (.stuck, { v with heap := c.heap })
  | fuel + 1, .runTriggers _ s k, v => do
    match ← copyEach (copyRun E fuel) ((E.triggers.select s).getD []) v with
    | (.ret r, v') => copyRun E fuel (k r) v'
    | (.panic, v') => some (.panic, v')
    | (.stuck, v') => some (.stuck, v')
  | fuel + 1, .withTarget n k, v => copyRun E fuel k { v with target := some ⟨n, false⟩ }
  | fuel + 1, .targetRead _ k, v => copyRun E fuel (k v.targetVal) v
  | fuel + 1, .targetWrite _ f k, v =>
    match v.targetVal with
    | none => copyRun E fuel (k false) v
    | some n =>
      if (f n).2 then some (.panic, { v with target := some ⟨(f n).1, true⟩ })
      else copyRun E fuel (k true) { v with target := some ⟨(f n).1, false⟩ }
  | fuel + 1, .resRead t k, v =>
    if v.busy E t false then some (.stuck, v) else copyRun E fuel (k ((E.resources.res t).peek v.heap)) v
  | fuel + 1, .resWrite t f k, v =>
    if v.busy E t true then some (.stuck, v)
    else match (E.resources.res t).withMut v.heap (fun x => ((f x).1, if (f x).2 then none else some ())) with
    | (.unavailable, _) => copyRun E fuel (k false) v
    | (.ran _, heap) => copyRun E fuel (k true) { v with heap := heap }
    | (.panicked, heap) => some (.panic, { v with heap := heap })
  | fuel + 1, .resScope t excl body k, v =>
    if v.busy E t excl then some (.stuck, v)
    else match (E.resources.res t).lock, (E.resources.res t).peek v.heap with
      | some p, some x => do
        match ← copyRun E fuel (body x) { v with inUse := (p, excl) :: v.inUse } with
        | (.ret r, v') => copyRun E fuel (k (some r)) { v' with inUse := v.inUse }
        | (.panic, v') =>
          some (.panic, { v' with inUse := v.inUse, heap :=
            if excl then v'.heap.modify p fun cell => { cell with poisoned := true } else v'.heap })
        | (.stuck, v') => some (.stuck, { v' with inUse := v.inUse })
      | _, _ => copyRun E fuel (k none) v
  | fuel + 1, .resAssign t x k, v =>
    match (E.resources.res t).lock with
    | none => some (.stuck, v)
    | some p =>
      if v.inUse.contains (p, true) then copyRun E fuel k { v with heap := v.heap.set p ⟨⟨t, x⟩, false⟩ }
      else some (.stuck, v)
  | fuel + 1, .catchUnwind body k, v => do
    match ← copyRun E fuel body v with
    | (.ret r, v') => copyRun E fuel (k (some r)) v'
    | (.panic, v') => copyRun E fuel (k none) v'
    | (.stuck, v') => some (.stuck, v')
  | _ + 1, .forget _, _ => none

/-- A whole transaction in this reading: result, graph contents and resources afterwards. `pre` are operations registered on the
transaction before its closure runs; the closure starts on a map that has them. -/
def copyTransact (E : Env σ) (fuel : Nat) (pre : List (Operation σ.K σ.T)) (body : Prog σ) (m : FMap σ.K σ.T) (heap : Heap σ.Val) :
    Option (Out (Except Error σ.V) × FMap σ.K σ.T × Heap σ.Val) := do
  match ← copyRun E fuel body { map := FMap.applyAll m pre, issued := pre, target := none, heap := heap, inUse := [] } with
  | (.ret (.ok a), v) => some (.ret (.ok a), v.map, v.heap)
  | (out, v) => some (out, m, v.heap)

/-! ## Static scripts -/

/-- Saves, deletes and nested subtransactions with their outcome, in program order. -/
inductive Script (K T : Type) where
  | nil
  | save (n : T) (rest : Script K T)
  | delete (i : K) (rest : Script K T)
  | sub (inner : Script K T) (ok : Bool) (rest : Script K T)

/-- The operations of a script in program order, failed subtransactions cut out. -/
def Script.flatten {K T : Type} : Script K T → List (Operation K T)
  | .nil => []
  | .save n rest => .save n :: rest.flatten
  | .delete i rest => .delete i :: rest.flatten
  | .sub inner ok rest => (if ok then inner.flatten else []) ++ rest.flatten

/-- The closure performing a script and returning `r`. -/
def Script.closure : Script σ.K σ.T → Except Error σ.V → Prog σ
  | .nil, r => .done r
  | .save n rest, r => .save 0 n (rest.closure r)
  | .delete i rest, r => .delete 0 i (rest.closure r)
  | .sub inner ok rest, r => .tx 0 (inner.closure (if ok then .ok σ.unit else .error .noop)) fun _ => rest.closure r

/-- Number of steps a script needs at most. -/
def Script.cost {K T : Type} : Script K T → Nat
  | .nil => 1
  | .save _ rest => rest.cost + 1
  | .delete _ rest => rest.cost + 1
  | .sub inner _ rest => inner.cost + rest.cost + 1

/-! ## Histories of transactions -/

/-- Runs closures as consecutive transactions on one schema, collecting the results. -/
def Schema.history (fuel : Nat) : Schema σ → List (Prog σ) → Option (List (Out (Except Error σ.V)) × Schema σ)
  | S, [] => some ([], S)
  | S, p :: ps => do
    let (out, S1) ← S.transact fuel [] p
    let (outs, S2) ← S1.history fuel ps
    some (out :: outs, S2)

end Plotline
