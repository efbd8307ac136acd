import Verif.Spec.App

/-!
# Closures as calls made one by one

What the text of a closure asks for, as calls on kept values (`AppCall`): `tx.with(f)` makes a context, makes the calls of `f`,
drops the context unless `f` forgot it, and commits or drops `tx`; `res.with(f)` makes a handle and a guard, looks at the value,
makes the calls of `f` and drops the guard; and so on. The answers the closure goes on with are those of the calls.
-/

namespace Plotline

variable {σ : Sig}

/-- What a closure may do with a context. -/
inductive Own where
  /-- It was given to the closure, which may forget it. -/
  | owned
  /-- It is borrowed. -/
  | lent
  /-- It was forgotten. -/
  | gone
deriving DecidableEq

/-- What a closure inside of the closure may do with the context. -/
def Own.lend : Own → Own
  | .gone => .gone
  | _ => .lent

/-- The context is in scope. -/
def Usable (st : List Own) (c : Nat) : Prop := st[c]? = some .owned ∨ st[c]? = some .lent

/-- Only contexts in scope are used, one that was forgotten is not used any more, contexts are only forgotten by the closure they were given to, and
resources only assigned inside of `with_mut` on them. `st` are the contexts in scope, `ws` the types of resources whose `with_mut` is
around. -/
def Prog.Compiles : List Own → List σ.Ty → Prog σ → Prop
  | _, _, .done _ => True
  | _, _, .panic => True
  | _, _, .reenter => True
  | st, ws, .save c _ k => Usable st c ∧ k.Compiles st ws
  | st, ws, .delete c _ k => Usable st c ∧ k.Compiles st ws
  | st, ws, .get c _ k => Usable st c ∧ ∀ x, (k x).Compiles st ws
  | st, ws, .contains c _ k => Usable st c ∧ ∀ x, (k x).Compiles st ws
  | st, ws, .tx c body k => Usable st c ∧ body.Compiles (.owned :: st.map Own.lend) ws ∧ ∀ x, (k x).Compiles st ws
  | st, ws, .runTriggers c _ k => Usable st c ∧ ∀ x, (k x).Compiles st ws
  | st, ws, .withTarget _ k => Usable st 0 ∧ k.Compiles st ws
  | st, ws, .targetRead c k => Usable st c ∧ ∀ x, (k x).Compiles st ws
  | st, ws, .targetWrite c _ k => Usable st c ∧ ∀ x, (k x).Compiles st ws
  | st, ws, .resRead _ k => ∀ x, (k x).Compiles st ws
  | st, ws, .resWrite _ _ k => ∀ x, (k x).Compiles st ws
  | st, ws, .resScope t excl body k =>
    (∀ v, (body v).Compiles (st.map Own.lend) (if excl then t :: ws else ws)) ∧ ∀ x, (k x).Compiles st ws
  | st, ws, .resAssign t _ k => t ∈ ws ∧ k.Compiles st ws
  | st, ws, .catchUnwind body k => body.Compiles (st.map Own.lend) ws ∧ ∀ x, (k x).Compiles st ws
  | st, ws, .forget k => st[0]? = some .owned ∧ k.Compiles (.gone :: st.tail) ws

/-- Triggers get the context by reference. -/
def TriggerSet.Compiles (ts : TriggerSet σ) : Prop := ∀ s l, ts.select s = some l → ∀ t ∈ l, t.Compiles [.lent] []

/-- A program using a schema, with the calls made so far and what they returned, latest first. -/
structure Hand (σ : Sig) where
  calls : List (AppCall σ × AppAnswer σ)
  app : App σ

/-- The calls were made on `a` and returned this, and lead to `b`. -/
inductive Returned (a : App σ) : List (AppCall σ × AppAnswer σ) → App σ → Prop where
  | nil : Returned a [] a
  | call {l : List (AppCall σ × AppAnswer σ)} {b b' : App σ} {x : AppCall σ} {r : AppAnswer σ} : Returned a l b → b.step x = some (r, b') →
      r ≠ .stuck → Returned a ((x, r) :: l) b'

/-- The next call. The outcome is `stuck` if it never returns, or could not be written. -/
def Hand.call {R : Type} (m : Hand σ) (x : AppCall σ) (k : AppAnswer σ → Hand σ → Option (Out R × Hand σ)) : Option (Out R × Hand σ) :=
  match m.app.step x with
  | none => some (.stuck, m)
  | some (.stuck, a) => some (.stuck, ⟨(x, .stuck) :: m.calls, a⟩)
  | some (r, a) => k r ⟨(x, r) :: m.calls, a⟩

/-- The context goes out of scope: it is dropped unless it was moved. -/
def Hand.drop (m : Hand σ) (x d : Nat) : Hand σ :=
  match m.app.step (.inTx x (.dropCtx d)) with
  | none => m
  | some (r, a) => ⟨(.inTx x (.dropCtx d), r) :: m.calls, a⟩

/-- What was made from the transaction. -/
def Hand.world (m : Hand σ) (x : Nat) : World σ :=
  match m.app.txs[x]? with
  | some ⟨some w, _⟩ => w
  | _ => World.start m.app.schema.graph

/-- The value returned, if the call was one to look at a resource of this type. -/
def AppAnswer.valueOf (t : σ.Ty) : AppAnswer σ → Option (σ.Val t)
  | .value u v => if h : u = t then h ▸ v else .none
  | _ => .none

/-- The node returned. -/
def AppAnswer.nodeOf : AppAnswer σ → Option σ.T
  | .node n => n
  | _ => .none

/-- Whether `true` was returned. -/
def AppAnswer.isTrue : AppAnswer σ → Bool
  | .bool b => b
  | _ => false

/-- One trigger after another, up to the first that fails. -/
def handEach (run : Prog σ → Hand σ → Option (Out (Except Error σ.V) × Hand σ)) :
    List (Prog σ) → Hand σ → Option (Out (Except Error Unit) × Hand σ)
  | [], m => some (.ret (.ok ()), m)
  | t :: ts, m =>
    match run t m with
    | none => none
    | some (.ret (.ok _), m) => handEach run ts m
    | some (.ret (.error e), m) => some (.ret (.error e), m)
    | some (.panic, m) => some (.panic, m)
    | some (.stuck, m) => some (.stuck, m)

/-- The calls of a program run in the transaction `x`. `cs` are the contexts in scope, `gs` the guards made by `with_mut` around, with
the types of the resources. `none` means the fuel did not suffice. -/
def byHand (ts : TriggerSet σ) (x : Nat) : Nat → List Nat → List (σ.Ty × Nat) → Prog σ → Hand σ → Option (Out (Except Error σ.V) × Hand σ)
  | 0, _, _, _, _ => none
  | _ + 1, _, _, .done r, m => some (.ret r, m)
  | _ + 1, _, _, .panic, m => some (.panic, m)
  | _ + 1, _, _, .reenter, m => m.call (.read m.app.guards.length) fun _ m => some (.panic, m)
  | fuel + 1, cs, gs, .save c n k, m =>
    match cs[c]? with
    | none => some (.stuck, m)
    | some c => m.call (.inTx x (.save c n)) fun _ m => byHand ts x fuel cs gs k m
  | fuel + 1, cs, gs, .delete c i k, m =>
    match cs[c]? with
    | none => some (.stuck, m)
    | some c => m.call (.inTx x (.delete c i)) fun _ m => byHand ts x fuel cs gs k m
  | fuel + 1, cs, gs, .get c i k, m =>
    match cs[c]? with
    | none => some (.stuck, m)
    | some c => m.call (.inTx x (.get c i)) fun r m => byHand ts x fuel cs gs (k r.nodeOf) m
  | fuel + 1, cs, gs, .contains c i k, m =>
    match cs[c]? with
    | none => some (.stuck, m)
    | some c => m.call (.inTx x (.contains c i)) fun r m => byHand ts x fuel cs gs (k r.isTrue) m
  | fuel + 1, cs, gs, .tx c body k, m =>
    match cs[c]? with
    | none => some (.stuck, m)
    | some c =>
      let t := (m.world x).txs.length
      let d := (m.world x).ctxs.length
      m.call (.inTx x (.transaction c t)) fun _ m =>
      m.call (.inTx x (.context t d)) fun _ m =>
      match byHand ts x fuel (d :: cs) gs body m with
      | none => none
      | some (.ret (.ok v), m) => (m.drop x d).call (.inTx x (.commit t)) fun _ m => byHand ts x fuel cs gs (k (.ok v)) m
      | some (.ret (.error e), m) => (m.drop x d).call (.inTx x (.abandon t)) fun _ m => byHand ts x fuel cs gs (k (.error e)) m
      | some (.panic, m) => (m.drop x d).call (.inTx x (.abandon t)) fun _ m => some (.panic, m)
      | some (.stuck, m) => some (.stuck, m)
  | fuel + 1, cs, gs, .runTriggers c sch k, m =>
    match cs[c]? with
    | none => some (.stuck, m)
    | some c =>
      match ts.select sch with
      | none => byHand ts x fuel cs gs (k (.ok ())) m
      | some l =>
        match handEach (byHand ts x fuel [c] []) l m with
        | none => none
        | some (.ret r, m) => byHand ts x fuel cs gs (k r) m
        | some (.panic, m) => some (.panic, m)
        | some (.stuck, m) => some (.stuck, m)
  | fuel + 1, cs, gs, .withTarget n k, m =>
    match cs[0]? with
    | none => some (.stuck, m)
    | some c => m.call (.inTx x (.withTarget c n)) fun _ m => byHand ts x fuel cs gs k m
  | fuel + 1, cs, gs, .targetRead c k, m =>
    match cs[c]? with
    | none => some (.stuck, m)
    | some c =>
      let h := (m.world x).handles.length
      m.call (.inTx x (.handle c h)) fun _ m =>
      m.call (.inTx x (.readTarget h)) fun r m => byHand ts x fuel cs gs (k r.nodeOf) m
  | fuel + 1, cs, gs, .targetWrite c f k, m =>
    match cs[c]? with
    | none => some (.stuck, m)
    | some c =>
      let h := (m.world x).handles.length
      m.call (.inTx x (.handle c h)) fun _ m =>
      m.call (.inTx x (.writeTarget h f)) fun
        | .panic, m => some (.panic, m)
        | r, m => byHand ts x fuel cs gs (k r.isTrue) m
  | fuel + 1, cs, gs, .resRead t k, m =>
    let r := m.app.handles.length
    let g := m.app.resGuards.length
    m.call (.resource t r) fun _ m =>
    m.call (.lockRes r false g) fun _ m =>
    m.call (.peekRes t g) fun v m =>
    m.call (.dropRes g false) fun _ m => byHand ts x fuel cs gs (k (v.valueOf t)) m
  | fuel + 1, cs, gs, .resWrite t f k, m =>
    let r := m.app.handles.length
    let g := m.app.resGuards.length
    m.call (.resource t r) fun _ m =>
    m.call (.lockRes r true g) fun _ m =>
    m.call (.peekRes t g) fun v m =>
    match v.valueOf t with
    | none => m.call (.dropRes g false) fun _ m => byHand ts x fuel cs gs (k false) m
    | some v =>
      m.call (.assignRes g t (f v).1) fun _ m =>
      m.call (.dropRes g (f v).2) fun _ m =>
      if (f v).2 then some (.panic, m) else byHand ts x fuel cs gs (k true) m
  | fuel + 1, cs, gs, .resScope t excl body k, m =>
    let r := m.app.handles.length
    let g := m.app.resGuards.length
    m.call (.resource t r) fun _ m =>
    m.call (.lockRes r excl g) fun _ m =>
    m.call (.peekRes t g) fun v m =>
    match v.valueOf t with
    | none => m.call (.dropRes g false) fun _ m => byHand ts x fuel cs gs (k none) m
    | some v =>
      match byHand ts x fuel cs (if excl then (t, g) :: gs else gs) (body v) m with
      | none => none
      | some (.ret r, m) => m.call (.dropRes g false) fun _ m => byHand ts x fuel cs gs (k (some r)) m
      | some (.panic, m) => m.call (.dropRes g true) fun _ m => some (.panic, m)
      | some (.stuck, m) => some (.stuck, m)
  | fuel + 1, cs, gs, .resAssign t v k, m =>
    match gs.find? fun g => g.1 = t with
    | none => some (.stuck, m)
    | some (_, g) => m.call (.assignRes g t v) fun _ m => byHand ts x fuel cs gs k m
  | fuel + 1, cs, gs, .catchUnwind body k, m =>
    match byHand ts x fuel cs gs body m with
    | none => none
    | some (.ret r, m) => byHand ts x fuel cs gs (k (some r)) m
    | some (.panic, m) => byHand ts x fuel cs gs (k none) m
    | some (.stuck, m) => some (.stuck, m)
  | fuel + 1, cs, gs, .forget k, m =>
    match cs[0]? with
    | none => some (.stuck, m)
    | some c => m.call (.inTx x (.forgetCtx c)) fun _ m => byHand ts x fuel cs gs k m

/-- `schema.transaction().with(|ctx| body)`, where `x` transactions were made before. -/
def withByHand (ts : TriggerSet σ) (fuel : Nat) (body : Prog σ) (m : Hand σ) : Option (Out (Except Error σ.V) × Hand σ) :=
  let x := m.app.txs.length
  m.call (.transaction x) fun _ m =>
  m.call (.inTx x (.context 0 0)) fun _ m =>
  match byHand ts x fuel [0] [] body m with
  | none => none
  | some (.ret (.ok v), m) => (m.drop x 0).call (.inTx x (.commit 0)) fun _ m => some (.ret (.ok v), m)
  | some (.ret (.error e), m) => (m.drop x 0).call (.inTx x (.abandon 0)) fun _ m => some (.ret (.error e), m)
  | some (.panic, m) => (m.drop x 0).call (.unwindTx x) fun _ m => some (.panic, m)
  | some (.stuck, m) => some (.stuck, m)

end Plotline
