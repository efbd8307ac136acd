import Verif.Spec.Programs
import Verif.Spec.Triggers

/-!
# Invariants of the graph that triggers check

Which closures go through `Save` and `Delete` for all they change, and which triggers make sure of something.
-/

namespace Plotline

variable {σ : Sig}

/-- Changes the graph by `Save` and `Delete` only, on its own context: it calls neither `ctx.save` nor `ctx.delete`, and the closures
of its subtransactions do not either. What it does besides is free: reading, resources, panics caught or not. -/
inductive Prog.Through : Prog σ → Prop where
  | done (r : Except Error σ.V) : Through (.done r)
  | panic : Through .panic
  | reenter : Through .reenter
  | get {i : σ.K} {k : Option σ.T → Prog σ} : (∀ x, (k x).Through) → Through (.get 0 i k)
  | contains {i : σ.K} {k : Bool → Prog σ} : (∀ x, (k x).Through) → Through (.contains 0 i k)
  | saveOp {n : σ.T} {k : Except Error σ.V → Prog σ} : (∀ x, (k x).Through) → Through (.saveOp 0 n k)
  | deleteOp {i : σ.K} {k : Except Error σ.V → Prog σ} : (∀ x, (k x).Through) → Through (.deleteOp 0 i k)
  | tx {body : Prog σ} {k : Except Error σ.V → Prog σ} : body.Through → (∀ x, (k x).Through) → Through (.tx 0 body k)
  | withTarget {n : σ.T} {k : Prog σ} : k.Through → Through (.withTarget n k)
  | targetRead {k : Option σ.T → Prog σ} : (∀ x, (k x).Through) → Through (.targetRead 0 k)
  | targetWrite {f : σ.T → σ.T × Bool} {k : Bool → Prog σ} : (∀ x, (k x).Through) → Through (.targetWrite 0 f k)
  | resRead {t : σ.Ty} {k : Option (σ.Val t) → Prog σ} : (∀ x, (k x).Through) → Through (.resRead t k)
  | resWrite {t : σ.Ty} {f : σ.Val t → σ.Val t × Bool} {k : Bool → Prog σ} : (∀ x, (k x).Through) → Through (.resWrite t f k)
  | resScope {t : σ.Ty} {excl : Bool} {body : σ.Val t → Prog σ} {k : Option (Except Error σ.V) → Prog σ} :
      (∀ v, (body v).Through) → (∀ x, (k x).Through) → Through (.resScope t excl body k)
  | resAssign {t : σ.Ty} {x : σ.Val t} {k : Prog σ} : k.Through → Through (.resAssign t x k)
  | catchUnwind {body : Prog σ} {k : Option (Except Error σ.V) → Prog σ} :
      body.Through → (∀ x, (k x).Through) → Through (.catchUnwind body k)

/-- Leaves the target of its own context alone, in this reading: what its subtransactions do to theirs is free. -/
def Prog.Aims : Prog σ → Prop
  | .done _ => True
  | .panic => True
  | .reenter => True
  | .save _ _ k => k.Aims
  | .delete _ _ k => k.Aims
  | .get _ _ k => ∀ x, (k x).Aims
  | .contains _ _ k => ∀ x, (k x).Aims
  | .tx _ _ k => ∀ x, (k x).Aims
  | .runTriggers _ _ _ => False
  | .withTarget _ _ => False
  | .targetRead _ k => ∀ x, (k x).Aims
  | .targetWrite _ _ _ => False
  | .resRead _ k => ∀ x, (k x).Aims
  | .resWrite _ _ k => ∀ x, (k x).Aims
  | .resScope _ _ body k => (∀ v, (body v).Aims) ∧ ∀ x, (k x).Aims
  | .resAssign _ _ k => k.Aims
  | .catchUnwind body k => body.Aims ∧ ∀ x, (k x).Aims
  | .forget k => k.Aims

/-- Nodes are filed under their own ids, and equal ids find the same: so it is in every graph and context. -/
structure FMap.Filed (m : FMap σ.K σ.T) : Prop where
  own : ∀ i n, m i = some n → (id n == i) = true
  equal : ∀ i j, (i == j) = true → m i = m j

/-- A trigger that, run where `I` holds, returns `Ok` only if `I` holds still and saving what is the target then does not break it. -/
def VetsSave (E : Env σ) (I : FMap σ.K σ.T → Prop) (t : Prog σ) : Prop :=
  ∀ fuel v v' a, v.map.Filed → I v.map → copyRun E fuel t v = some (.ret (.ok a), v') →
    I v'.map ∧ ∀ n, v'.targetVal = some n → I (v'.map.put (id n) n)

/-- The same of deleting the target. -/
def VetsDelete (E : Env σ) (I : FMap σ.K σ.T → Prop) (t : Prog σ) : Prop :=
  ∀ fuel v v' a, v.map.Filed → I v.map → copyRun E fuel t v = some (.ret (.ok a), v') →
    I v'.map ∧ ∀ n, v'.targetVal = some n → I (v'.map.del (id n))

/-- A trigger that returns `Ok` only where `I` holds, wherever it was run. -/
def Audits (E : Env σ) (I : FMap σ.K σ.T → Prop) (t : Prog σ) : Prop :=
  ∀ fuel v v' a, v.map.Filed → copyRun E fuel t v = some (.ret (.ok a), v') → I v'.map

/-- `Save` keeps `I`: the last trigger before saves vets what is saved and the other triggers go through `Save` and `Delete`, or the
last trigger after saves looks at what has become of the graph. -/
def SaveChecked (E : Env σ) (I : FMap σ.K σ.T → Prop) : Prop :=
  (∃ ts t, E.fire .beforeSave = ts ++ [t] ∧ (∀ p ∈ ts, p.Through) ∧ VetsSave E I t ∧
      ∀ p ∈ E.fire .afterSave, p.Through) ∨
    ∃ ts t, E.fire .afterSave = ts ++ [t] ∧ Audits E I t

/-- `Delete` keeps `I`, likewise; triggers that run before the vetting one have to leave the target alone. -/
def DeleteChecked (E : Env σ) (I : FMap σ.K σ.T → Prop) : Prop :=
  (∃ ts t, E.fire .beforeDelete = ts ++ [t] ∧ (∀ p ∈ ts, p.Through ∧ p.Aims) ∧ t.Aims ∧ VetsDelete E I t ∧
      ∀ p ∈ E.fire .afterDelete, p.Through) ∨
    (∃ ts t, E.fire .afterDelete = ts ++ [t] ∧ Audits E I t) ∨
    ((∀ m i, m.Filed → I m → I (m.del i)) ∧ ∀ p ∈ E.fire .beforeDelete ++ E.fire .afterDelete, p.Through)

/-- The closures of transactions that change the graph by `Save` and `Delete` only: those of the two operations themselves, and those
that go through them. -/
def Prog.Decent (p : Prog σ) : Prop := p.Through ∨ (∃ n, p = saveBody n) ∨ ∃ i, p = deleteBody i

/-! ## Triggers that check -/

/-- `Err(e)` unless the target satisfies `P`: a trigger that checks nodes. -/
def requireTarget (P : σ.T → Bool) (e : Error) : Prog σ :=
  .targetRead 0 fun
    | some n => .done (if P n then .ok σ.unit else .error e)
    | none => .done (.ok σ.unit)

/-- `Err(e)` unless what the context has under each of the ids satisfies `f`. -/
def requireAll (f : σ.K → Option σ.T → Bool) (e : Error) : List σ.K → Prog σ
  | [] => .done (.ok σ.unit)
  | k :: ks => .get 0 k fun x => if f k x then requireAll f e ks else .done (.error e)

/-- Nodes that refer to nodes by their ids, and know the ids of those that refer to them. -/
structure Linking (σ : Sig) where
  refs : σ.T → List σ.K
  backs : σ.T → List σ.K

/-- `i` is one of the ids, up to `==`. -/
def among (i : σ.K) (l : List σ.K) : Bool := l.any (i == ·)

/-- No link is dangling, and each is known at its other end. -/
def Linking.Linked (L : Linking σ) (m : FMap σ.K σ.T) : Prop :=
  ∀ i n, m i = some n → ∀ k ∈ L.refs n, ∃ n', m k = some n' ∧ among i (L.backs n') = true

/-- Before a save: all that the target refers to is there and knows of it, and the target knows what its last version did. -/
def Linking.beforeSave (L : Linking σ) (e : Error) : Prog σ :=
  .targetRead 0 fun
    | none => .done (.ok σ.unit)
    | some n => .get 0 (id n) fun old =>
      if old.all (fun o => (L.backs o).all fun j => among j (L.backs n)) then
        requireAll (fun k x => if k == id n then among (id n) (L.backs n) else x.any fun n' => among (id n) (L.backs n')) e (L.refs n)
      else .done (.error e)

/-- Before a deletion: of those that are known to refer to the node, if there is one still, none does but itself. -/
def Linking.beforeDelete (L : Linking σ) (e : Error) : Prog σ :=
  .targetRead 0 fun
    | none => .done (.ok σ.unit)
    | some n => .get 0 (id n) fun
      | none => .done (.ok σ.unit)
      | some now => requireAll (fun j x => j == id n || x.all fun m => !among (id n) (L.refs m)) e (L.backs now)

end Plotline
