import Verif.Spec.Laws

/-! # What programs can find out about a piece of code -/

namespace Plotline

variable {σ : Sig}

/-- `q'` is `q` with some of the places where it has `b` having `b'` instead. `d` is how many contexts are in scope; `b` and `b'` are
run on the innermost. -/
inductive Replaced (b b' : Prog σ) : Nat → Prog σ → Prog σ → Prop
  | here {d : Nat} : 0 < d → Replaced b b' d b b'
  | done (d : Nat) (r : Except Error σ.V) : Replaced b b' d (.done r) (.done r)
  | panic (d : Nat) : Replaced b b' d .panic .panic
  | reenter (d : Nat) : Replaced b b' d .reenter .reenter
  | save {d : Nat} (c : Nat) (n : σ.T) {k k' : Prog σ} : Replaced b b' d k k' → Replaced b b' d (.save c n k) (.save c n k')
  | delete {d : Nat} (c : Nat) (i : σ.K) {k k' : Prog σ} : Replaced b b' d k k' → Replaced b b' d (.delete c i k) (.delete c i k')
  | get {d : Nat} (c : Nat) (i : σ.K) {k k' : Option σ.T → Prog σ} : (∀ a, Replaced b b' d (k a) (k' a)) →
      Replaced b b' d (.get c i k) (.get c i k')
  | contains {d : Nat} (c : Nat) (i : σ.K) {k k' : Bool → Prog σ} : (∀ a, Replaced b b' d (k a) (k' a)) →
      Replaced b b' d (.contains c i k) (.contains c i k')
  | tx {d : Nat} (c : Nat) {q q' : Prog σ} {k k' : Except Error σ.V → Prog σ} : Replaced b b' (d + 1) q q' →
      (∀ a, Replaced b b' d (k a) (k' a)) → Replaced b b' d (.tx c q k) (.tx c q' k')
  | runTriggers {d : Nat} (c : Nat) (s : Sched) {k k' : Except Error Unit → Prog σ} : (∀ a, Replaced b b' d (k a) (k' a)) →
      Replaced b b' d (.runTriggers c s k) (.runTriggers c s k')
  | withTarget {d : Nat} (n : σ.T) {k k' : Prog σ} : Replaced b b' d k k' → Replaced b b' d (.withTarget n k) (.withTarget n k')
  | targetRead {d : Nat} (c : Nat) {k k' : Option σ.T → Prog σ} : (∀ a, Replaced b b' d (k a) (k' a)) →
      Replaced b b' d (.targetRead c k) (.targetRead c k')
  | targetWrite {d : Nat} (c : Nat) (f : σ.T → σ.T × Bool) {k k' : Bool → Prog σ} : (∀ a, Replaced b b' d (k a) (k' a)) →
      Replaced b b' d (.targetWrite c f k) (.targetWrite c f k')
  | resRead {d : Nat} (t : σ.Ty) {k k' : Option (σ.Val t) → Prog σ} : (∀ a, Replaced b b' d (k a) (k' a)) →
      Replaced b b' d (.resRead t k) (.resRead t k')
  | resWrite {d : Nat} (t : σ.Ty) (f : σ.Val t → σ.Val t × Bool) {k k' : Bool → Prog σ} : (∀ a, Replaced b b' d (k a) (k' a)) →
      Replaced b b' d (.resWrite t f k) (.resWrite t f k')
  | resScope {d : Nat} (t : σ.Ty) (excl : Bool) {q q' : σ.Val t → Prog σ} {k k' : Option (Except Error σ.V) → Prog σ} :
      (∀ v, Replaced b b' d (q v) (q' v)) → (∀ a, Replaced b b' d (k a) (k' a)) →
      Replaced b b' d (.resScope t excl q k) (.resScope t excl q' k')
  | resAssign {d : Nat} (t : σ.Ty) (x : σ.Val t) {k k' : Prog σ} : Replaced b b' d k k' →
      Replaced b b' d (.resAssign t x k) (.resAssign t x k')
  | catchUnwind {d : Nat} {q q' : Prog σ} {k k' : Option (Except Error σ.V) → Prog σ} : Replaced b b' d q q' →
      (∀ a, Replaced b b' d (k a) (k' a)) → Replaced b b' d (.catchUnwind q k) (.catchUnwind q' k')
  | forget {d : Nat} {k k' : Prog σ} : Replaced b b' d k k' → Replaced b b' d (.forget k) (.forget k')

/-- The two closures, given to a transaction on this schema, do not end differently, and no different nodes are there afterwards. -/
structure Untold (S : Schema σ) (pre : List (Operation σ.K σ.T)) (q q' : Prog σ) : Prop where
  ends : (∃ fuel r, S.transact fuel pre q = some r) ↔ ∃ fuel r, S.transact fuel pre q' = some r
  same : ∀ fuel fuel' o o' S1 S1', S.transact fuel pre q = some (o, S1) → S.transact fuel' pre q' = some (o', S1') →
    o' = o ∧ (o ≠ .stuck → ∀ i, S1'.guard.get i = S1.guard.get i)

/-- A use of a schema with `b` replaced in its closure, or in the trigger that is registered. -/
inductive ReplacedIn (b b' : Prog σ) : Use σ → Use σ → Prop
  | tx (pre : List (Operation σ.K σ.T)) {q q' : Prog σ} : Replaced b b' 1 q q' → ReplacedIn b b' (.tx pre q) (.tx pre q')
  | trigger (s : Sched) {q q' : Prog σ} : Replaced b b' 1 q q' → ReplacedIn b b' (.trigger s q) (.trigger s q')
  | register (t : σ.Ty) (v : σ.Val t) : ReplacedIn b b' (.register t v) (.register t v)
  | update (op : Operation σ.K σ.T) : ReplacedIn b b' (.update op) (.update op)
  | get (i : σ.K) : ReplacedIn b b' (.get i) (.get i)
  | iter : ReplacedIn b b' .iter .iter
  | read (t : σ.Ty) : ReplacedIn b b' (.read t) (.read t)
  | write (t : σ.Ty) (f : σ.Val t → σ.Val t × Bool) : ReplacedIn b b' (.write t f) (.write t f)

end Plotline
