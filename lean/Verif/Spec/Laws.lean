import Verif.Spec.Alike

/-! # Laws by which closures and triggers can be rewritten -/

namespace Plotline

variable {σ : Sig}

/-- What an operation leaves under its id. -/
def Operation.leaves {K T : Type} : Operation K T → Option T
  | .save n => some n
  | .delete _ => none

/-- What the last of the operations on an id leaves there; `none` if there is none on it. -/
def lastOp {K T : Type} [BEq K] [Identify T K] : List (Operation K T) → K → Option (Option T)
  | [], _ => none
  | o :: l, i => (lastOp l i).or (if o.id == i then some o.leaves else none)

/-- `ctx.save(n)` or `ctx.delete(i)` -/
def Prog.op (c : Nat) : Operation σ.K σ.T → Prog σ → Prog σ
  | .save n, k => .save c n k
  | .delete i, k => .delete c i k

/-- Saves and deletes on one context, one after another. -/
def Prog.ops (c : Nat) (l : List (Operation σ.K σ.T)) (k : Prog σ) : Prog σ := l.foldr (Prog.op c) k

/-- How the code of a closure may end at a place. -/
inductive Leaf : Prog σ → Prop
  | done (r : Except Error σ.V) : Leaf (.done r)
  | panic : Leaf .panic

/-- The laws. `d` is how many contexts are in scope, `quiet` holds of schedulers that have no triggers. -/
inductive Law (quiet : Sched → Prop) (d : Nat) : Prog σ → Prog σ → Prop
  /-- Of writes to one context only the last on each id counts, in any order. -/
  | writes {c : Nat} {l l' : List (Operation σ.K σ.T)} (k : Prog σ) : c < d → (∀ i, lastOp l' i = lastOp l i) →
      Law quiet d (.ops c l k) (.ops c l' k)
  /-- Writes to different contexts can be made in either order. -/
  | swap {c c' : Nat} (o o' : Operation σ.K σ.T) (k : Prog σ) : c < d → c' < d → c ≠ c' →
      Law quiet d (.op c o (.op c' o' k)) (.op c' o' (.op c o k))
  /-- `contains` is whether `get` finds something. -/
  | contains (c : Nat) (i : σ.K) (k : Bool → Prog σ) : Law quiet d (.contains c i k) (.get c i fun a => k a.isSome)
  /-- Looking twice finds the same. -/
  | lookAgain (c : Nat) (i : σ.K) (k : Option σ.T → Option σ.T → Prog σ) :
      Law quiet d (.get c i fun a => .get c i (k a)) (.get c i fun a => k a a)
  /-- Lookups can be made in any order. -/
  | lookOrder {c c' : Nat} (i j : σ.K) (k : Option σ.T → Option σ.T → Prog σ) : c < d → c' < d →
      Law quiet d (.get c i fun a => .get c' j (k a)) (.get c' j fun b => .get c i fun a => k a b)
  /-- A lookup nobody makes use of can be left out. -/
  | lookUnused {c : Nat} (i : σ.K) (k : Prog σ) : c < d → Law quiet d (.get c i fun _ => k) k
  /-- Equal ids find the same. -/
  | lookAlike (c : Nat) {i j : σ.K} (k : Option σ.T → Prog σ) : (i == j) = true → Law quiet d (.get c i k) (.get c j k)
  /-- A lookup finds nothing or a node with that id. -/
  | lookReal {c : Nat} (i : σ.K) {k k' : Option σ.T → Prog σ} : k' none = k none → (∀ n : σ.T, (id n == i) = true → k' (some n) = k (some n)) →
      Law quiet d (.get c i k) (.get c i k')
  /-- Looking up what was just written finds it. -/
  | lookOwn {c : Nat} (o : Operation σ.K σ.T) {i : σ.K} (k : Option σ.T → Prog σ) : c < d → (o.id == i) = true →
      Law quiet d (.op c o (.get c i k)) (.op c o (k o.leaves))
  /-- Looking up another id, or looking in a context around the one that was written to, can be done before writing. -/
  | lookOther {c c' : Nat} (o : Operation σ.K σ.T) {i : σ.K} (k : Option σ.T → Prog σ) : c < d → c' < d →
      ((o.id == i) = false ∨ c < c') → Law quiet d (.op c o (.get c' i k)) (.get c' i fun a => .op c o (k a))
  /-- Reading a resource twice gives the same. -/
  | readAgain (t : σ.Ty) (k : Option (σ.Val t) → Option (σ.Val t) → Prog σ) :
      Law quiet d (.resRead t fun a => .resRead t (k a)) (.resRead t fun a => k a a)
  /-- Resources can be read in any order. -/
  | readOrder (t u : σ.Ty) (k : Option (σ.Val t) → Option (σ.Val u) → Prog σ) :
      Law quiet d (.resRead t fun a => .resRead u (k a)) (.resRead u fun b => .resRead t fun a => k a b)
  /-- A resource can be read before or after writing to a context. -/
  | readWrite {c : Nat} (o : Operation σ.K σ.T) (t : σ.Ty) (k : Option (σ.Val t) → Prog σ) : c < d →
      Law quiet d (.op c o (.resRead t k)) (.resRead t fun a => .op c o (k a))
  /-- A resource can be read before or after looking something up. -/
  | readLook {c : Nat} (i : σ.K) (t : σ.Ty) (k : Option σ.T → Option (σ.Val t) → Prog σ) : c < d →
      Law quiet d (.get c i fun a => .resRead t (k a)) (.resRead t fun v => .get c i fun a => k a v)
  /-- Changing a resource twice is changing it once, if the first closure does not panic. -/
  | changeTwice (t : σ.Ty) (f g : σ.Val t → σ.Val t × Bool) (k : Bool → Bool → Prog σ) : (∀ v, (f v).2 = false) →
      Law quiet d (.resWrite t f fun a => .resWrite t g (k a)) (.resWrite t (fun v => g (f v).1) fun a => k a a)
  /-- What was just put into a resource is read there. -/
  | changeRead (t : σ.Ty) (f : σ.Val t → σ.Val t × Bool) (k : Bool → Option (σ.Val t) → Prog σ) : (∀ v, (f v).2 = false) →
      Law quiet d (.resWrite t f fun b => .resRead t (k b)) (.resRead t fun a => .resWrite t f fun b => k b (a.map fun v => (f v).1))
  /-- A resource can be changed before or after writing to a context, if the closure does not panic. -/
  | changeWrite {c : Nat} (o : Operation σ.K σ.T) (t : σ.Ty) (f : σ.Val t → σ.Val t × Bool) (k : Bool → Prog σ) : c < d →
      (∀ v, (f v).2 = false) → Law quiet d (.op c o (.resWrite t f k)) (.resWrite t f fun b => .op c o (k b))
  /-- A resource can be changed before or after looking something up. -/
  | changeLook {c : Nat} (i : σ.K) (t : σ.Ty) (f : σ.Val t → σ.Val t × Bool) (k : Option σ.T → Bool → Prog σ) : c < d →
      Law quiet d (.get c i fun a => .resWrite t f (k a)) (.resWrite t f fun b => .get c i fun a => k a b)
  /-- A target that is replaced at once can be left out. -/
  | targetTwice (n m : σ.T) (k : Prog σ) : Law quiet d (.withTarget n (.withTarget m k)) (.withTarget m k)
  /-- The target is what was set. -/
  | targetRead (n : σ.T) (k : Option σ.T → Prog σ) : 0 < d →
      Law quiet d (.withTarget n (.targetRead 0 k)) (.withTarget n (k (some n)))
  /-- The target can be set before or after writing to a context. -/
  | targetWrite {c : Nat} (n : σ.T) (o : Operation σ.K σ.T) (k : Prog σ) : c < d →
      Law quiet d (.withTarget n (.op c o k)) (.op c o (.withTarget n k))
  /-- The target can be set before or after looking something up. -/
  | targetLook {c : Nat} (n : σ.T) (i : σ.K) (k : Option σ.T → Prog σ) : c < d →
      Law quiet d (.withTarget n (.get c i k)) (.get c i fun a => .withTarget n (k a))
  /-- Triggers that are not there. -/
  | noTriggers {c : Nat} {s : Sched} (k : Except Error Unit → Prog σ) : c < d → quiet s →
      Law quiet d (.runTriggers c s k) (k (.ok ()))
  /-- Catching the panic of what does not panic. -/
  | catchDone (r : Except Error σ.V) (k : Option (Except Error σ.V) → Prog σ) : Law quiet d (.catchUnwind (.done r) k) (k (some r))
  /-- Catching a panic. -/
  | catchPanic (k : Option (Except Error σ.V) → Prog σ) : Law quiet d (.catchUnwind .panic k) (k none)
  /-- What goes before a panic need not be in the closure that catches it. -/
  | catchWrite (c : Nat) (o : Operation σ.K σ.T) (b : Prog σ) (k : Option (Except Error σ.V) → Prog σ) :
      Law quiet d (.catchUnwind (.op c o b) k) (.op c o (.catchUnwind b k))
  | catchLook (c : Nat) (i : σ.K) (b : Option σ.T → Prog σ) (k : Option (Except Error σ.V) → Prog σ) :
      Law quiet d (.catchUnwind (.get c i b) k) (.get c i fun a => .catchUnwind (b a) k)
  | catchRead (t : σ.Ty) (b : Option (σ.Val t) → Prog σ) (k : Option (Except Error σ.V) → Prog σ) :
      Law quiet d (.catchUnwind (.resRead t b) k) (.resRead t fun a => .catchUnwind (b a) k)
  | catchChange (t : σ.Ty) (f : σ.Val t → σ.Val t × Bool) (b : Bool → Prog σ) (k : Option (Except Error σ.V) → Prog σ) :
      (∀ v, (f v).2 = false) → Law quiet d (.catchUnwind (.resWrite t f b) k) (.resWrite t f fun a => .catchUnwind (b a) k)
  | catchNever (k : Option (Except Error σ.V) → Prog σ) : Law quiet d (.catchUnwind .reenter k) .reenter
  /-- What is written before waiting for ever is not seen by anyone. -/
  | neverWrite {c : Nat} (o : Operation σ.K σ.T) : c < d → Law quiet d (.op c o .reenter) .reenter
  | neverRead (t : σ.Ty) : Law quiet d (.resRead t fun _ => .reenter) .reenter
  /-- A subtransaction that writes and succeeds. -/
  | txOk {c : Nat} (l : List (Operation σ.K σ.T)) (v : σ.V) (k : Except Error σ.V → Prog σ) : c < d →
      Law quiet d (.tx c (.ops 0 l (.done (.ok v))) k) (.ops c l (k (.ok v)))
  /-- A subtransaction that writes and fails. -/
  | txError {c : Nat} (l : List (Operation σ.K σ.T)) (e : Error) (k : Except Error σ.V → Prog σ) : c < d →
      Law quiet d (.tx c (.ops 0 l (.done (.error e))) k) (k (.error e))
  /-- A subtransaction that writes and panics. -/
  | txPanic {c : Nat} (l : List (Operation σ.K σ.T)) (k : Except Error σ.V → Prog σ) : c < d →
      Law quiet d (.tx c (.ops 0 l .panic) k) .panic
  /-- A subtransaction that leaks its context. -/
  | txForget {c : Nat} (l : List (Operation σ.K σ.T)) (r : Except Error σ.V) (k : Except Error σ.V → Prog σ) : c < d →
      Law quiet d (.tx c (.forget (.ops 0 l (.done r))) k) (k r)
  | txNever {c : Nat} (k : Except Error σ.V → Prog σ) : c < d → Law quiet d (.tx c .reenter k) .reenter
  /-- A target of a subtransaction that is over is not seen by anyone. -/
  | txTarget {c : Nat} (l : List (Operation σ.K σ.T)) (n : σ.T) {b : Prog σ} (k : Except Error σ.V → Prog σ) : Leaf b →
      Law quiet d (.tx c (.ops 0 l (.withTarget n b)) k) (.tx c (.ops 0 l b) k)
  /-- What a subtransaction begins with on other contexts than its own can be done before it. -/
  | txWrite {c c' : Nat} (o : Operation σ.K σ.T) (b : Prog σ) (k : Except Error σ.V → Prog σ) : c < d → c' < d →
      Law quiet d (.tx c (.op (c' + 1) o b) k) (.op c' o (.tx c b k))
  | txLook {c c' : Nat} (i : σ.K) (b : Option σ.T → Prog σ) (k : Except Error σ.V → Prog σ) : c < d → c' < d →
      Law quiet d (.tx c (.get (c' + 1) i b) k) (.get c' i fun a => .tx c (b a) k)
  /-- A subtransaction begins with what the context it is in has. -/
  | txLookOwn {c : Nat} (i : σ.K) (b : Option σ.T → Prog σ) (k : Except Error σ.V → Prog σ) : c < d →
      Law quiet d (.tx c (.get 0 i b) k) (.get c i fun a => .tx c (b a) k)
  | txRead {c : Nat} (t : σ.Ty) (b : Option (σ.Val t) → Prog σ) (k : Except Error σ.V → Prog σ) : c < d →
      Law quiet d (.tx c (.resRead t b) k) (.resRead t fun a => .tx c (b a) k)
  | txChange {c : Nat} (t : σ.Ty) (f : σ.Val t → σ.Val t × Bool) (b : Bool → Prog σ) (k : Except Error σ.V → Prog σ) : c < d →
      Law quiet d (.tx c (.resWrite t f b) k) (.resWrite t f fun a => .tx c (b a) k)

/-- `Same quiet d p q`: `q` is `p` with some of its parts rewritten by the laws, in either direction, any number of times. -/
inductive Same (quiet : Sched → Prop) : Nat → Prog σ → Prog σ → Prop
  | law {d : Nat} {p q : Prog σ} : Law quiet d p q → Same quiet d p q
  | symm {d : Nat} {p q : Prog σ} : Same quiet d p q → Same quiet d q p
  | trans {d : Nat} {p q r : Prog σ} : Same quiet d p q → Same quiet d q r → Same quiet d p r
  | done (d : Nat) (r : Except Error σ.V) : Same quiet d (.done r) (.done r)
  | panic (d : Nat) : Same quiet d .panic .panic
  | reenter (d : Nat) : Same quiet d .reenter .reenter
  | save {d : Nat} (c : Nat) (n : σ.T) {k k' : Prog σ} : Same quiet d k k' → Same quiet d (.save c n k) (.save c n k')
  | delete {d : Nat} (c : Nat) (i : σ.K) {k k' : Prog σ} : Same quiet d k k' → Same quiet d (.delete c i k) (.delete c i k')
  | get {d : Nat} (c : Nat) (i : σ.K) {k k' : Option σ.T → Prog σ} : (∀ a, Same quiet d (k a) (k' a)) →
      Same quiet d (.get c i k) (.get c i k')
  | contains {d : Nat} (c : Nat) (i : σ.K) {k k' : Bool → Prog σ} : (∀ a, Same quiet d (k a) (k' a)) →
      Same quiet d (.contains c i k) (.contains c i k')
  | tx {d : Nat} (c : Nat) {b b' : Prog σ} {k k' : Except Error σ.V → Prog σ} : Same quiet (d + 1) b b' →
      (∀ a, Same quiet d (k a) (k' a)) → Same quiet d (.tx c b k) (.tx c b' k')
  | runTriggers {d : Nat} (c : Nat) (s : Sched) {k k' : Except Error Unit → Prog σ} : (∀ a, Same quiet d (k a) (k' a)) →
      Same quiet d (.runTriggers c s k) (.runTriggers c s k')
  | withTarget {d : Nat} (n : σ.T) {k k' : Prog σ} : Same quiet d k k' → Same quiet d (.withTarget n k) (.withTarget n k')
  | targetRead {d : Nat} (c : Nat) {k k' : Option σ.T → Prog σ} : (∀ a, Same quiet d (k a) (k' a)) →
      Same quiet d (.targetRead c k) (.targetRead c k')
  | targetWrite {d : Nat} (c : Nat) (f : σ.T → σ.T × Bool) {k k' : Bool → Prog σ} : (∀ a, Same quiet d (k a) (k' a)) →
      Same quiet d (.targetWrite c f k) (.targetWrite c f k')
  | resRead {d : Nat} (t : σ.Ty) {k k' : Option (σ.Val t) → Prog σ} : (∀ a, Same quiet d (k a) (k' a)) →
      Same quiet d (.resRead t k) (.resRead t k')
  | resWrite {d : Nat} (t : σ.Ty) (f : σ.Val t → σ.Val t × Bool) {k k' : Bool → Prog σ} : (∀ a, Same quiet d (k a) (k' a)) →
      Same quiet d (.resWrite t f k) (.resWrite t f k')
  | resScope {d : Nat} (t : σ.Ty) (excl : Bool) {b b' : σ.Val t → Prog σ} {k k' : Option (Except Error σ.V) → Prog σ} :
      (∀ v, Same quiet d (b v) (b' v)) → (∀ a, Same quiet d (k a) (k' a)) →
      Same quiet d (.resScope t excl b k) (.resScope t excl b' k')
  | resAssign {d : Nat} (t : σ.Ty) (x : σ.Val t) {k k' : Prog σ} : Same quiet d k k' →
      Same quiet d (.resAssign t x k) (.resAssign t x k')
  | catchUnwind {d : Nat} {b b' : Prog σ} {k k' : Option (Except Error σ.V) → Prog σ} : Same quiet d b b' →
      (∀ a, Same quiet d (k a) (k' a)) → Same quiet d (.catchUnwind b k) (.catchUnwind b' k')
  | forget {d : Nat} {k k' : Prog σ} : Same quiet d k k' → Same quiet d (.forget k) (.forget k')

/-- Closures that save and delete in the context they were given, look up nodes in any context around, read resources, catch panics,
and make transactions of the same kind on that context. -/
inductive Ordinary : Nat → Prog σ → Prop
  | done (d : Nat) (r : Except Error σ.V) : Ordinary d (.done r)
  | panic (d : Nat) : Ordinary d .panic
  | save {d : Nat} (n : σ.T) {k : Prog σ} : Ordinary d k → Ordinary d (.save 0 n k)
  | delete {d : Nat} (i : σ.K) {k : Prog σ} : Ordinary d k → Ordinary d (.delete 0 i k)
  | get {d c : Nat} (i : σ.K) {k : Option σ.T → Prog σ} : c < d → (∀ a, Ordinary d (k a)) → Ordinary d (.get c i k)
  | contains {d c : Nat} (i : σ.K) {k : Bool → Prog σ} : c < d → (∀ a, Ordinary d (k a)) → Ordinary d (.contains c i k)
  | resRead {d : Nat} (t : σ.Ty) {k : Option (σ.Val t) → Prog σ} : (∀ a, Ordinary d (k a)) → Ordinary d (.resRead t k)
  | tx {d : Nat} {b : Prog σ} {k : Except Error σ.V → Prog σ} : Ordinary (d + 1) b → (∀ a, Ordinary d (k a)) → Ordinary d (.tx 0 b k)
  | catchUnwind {d : Nat} {b : Prog σ} {k : Option (Except Error σ.V) → Prog σ} : Ordinary d b → (∀ a, Ordinary d (k a)) →
      Ordinary d (.catchUnwind b k)

/-- Closures that look up and read whatever they need first, and then save and delete and are over, without transactions of their
own and without catching panics. -/
inductive Normal : Nat → Prog σ → Prop
  | ops {d : Nat} (l : List (Operation σ.K σ.T)) {b : Prog σ} : Leaf b → Normal d (.ops 0 l b)
  | get {d c : Nat} (i : σ.K) {k : Option σ.T → Prog σ} : c < d → (∀ a, Normal d (k a)) → Normal d (.get c i k)
  | resRead {d : Nat} (t : σ.Ty) {k : Option (σ.Val t) → Prog σ} : (∀ a, Normal d (k a)) → Normal d (.resRead t k)

/-- The lists are as long as each other and related place by place. -/
inductive Pairwise2 {α : Type} (R : α → α → Prop) : List α → List α → Prop
  | nil : Pairwise2 R [] []
  | cons {a b : α} {l l' : List α} : R a b → Pairwise2 R l l' → Pairwise2 R (a :: l) (b :: l')

/-- The schemas hold the same but for triggers, which are rewritten by the laws; those of `quiet` have none. -/
structure Rewritten (quiet : Sched → Prop) (S S' : Schema σ) : Prop where
  nodes : ∀ i, S'.guard.get i = S.guard.get i
  fires : ∀ s, Pairwise2 (Same quiet 1) (S.env.fire s) (S'.env.fire s)
  silent : ∀ s, quiet s → S.env.fire s = []
  reads : ∀ t, (S'.env.resources.res t).peek S'.heap = (S.env.resources.res t).peek S.heap

/-- A use of a schema with its closure, or the trigger that is registered, rewritten by the laws. No triggers are registered for the
schedulers that `quiet` says have none. -/
inductive Redone (quiet : Sched → Prop) : Use σ → Use σ → Prop
  | tx {pre pre' : List (Operation σ.K σ.T)} {b b' : Prog σ} : (∀ i, lastOp pre' i = lastOp pre i) → Same quiet 1 b b' →
      Redone quiet (.tx pre b) (.tx pre' b')
  | trigger {s : Sched} {p p' : Prog σ} : ¬ quiet s → Same quiet 1 p p' → Redone quiet (.trigger s p) (.trigger s p')
  | register (t : σ.Ty) (v : σ.Val t) : Redone quiet (.register t v) (.register t v)
  | update (op : Operation σ.K σ.T) : Redone quiet (.update op) (.update op)
  | get (i : σ.K) : Redone quiet (.get i) (.get i)
  | iter : Redone quiet .iter .iter
  | read (t : σ.Ty) : Redone quiet (.read t) (.read t)
  | write (t : σ.Ty) (f : σ.Val t → σ.Val t × Bool) : Redone quiet (.write t f) (.write t f)

end Plotline
