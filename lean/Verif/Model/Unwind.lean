/-!
# Resources and targets used by destructors (plotline/src/schema/resource.rs, transaction.rs)

The destructors of a program's values may use resources and targets. While the thread unwinds after a panic, such destructors run in
the middle of it. A guard of an `RwLock` notes when it is made whether the thread is panicking, and poisons the lock when it is dropped
while the thread is and was not then (`std::sync::poison`). A panic that leaves a destructor that is run by unwinding aborts
the process; one that is caught in it does not.

Simplifications: one thread; the cells of resources and targets are numbered, all values are of one type. Closures are programs of the
language below, which has what matters to panics; they have no loops (`seq` of any length does).
-/

namespace Plotline

/-- What a program does. `i` counts the closures around it, from the innermost. -/
inductive Deed (V : Type) where
  | skip
  | seq (a b : Deed V)
  /-- `panic!()` -/
  | panic
  /-- `*v = f(*v)`, on what the `i`-th closure was given by `with_mut` -/
  | poke (i : Nat) (f : V → V)
  /-- `if c(v) { a } else { b }`, on what the `i`-th closure was given -/
  | choose (i : Nat) (c : V → Bool) (a b : Deed V)
  /-- `if h.with(|v| a).is_none() { b }`, on a handle on cell `p`; `with_mut` if `excl` -/
  | access (p : Nat) (excl : Bool) (a b : Deed V)
  /-- `{ let x = Guard; a }`, where the destructor of `Guard` does `d` -/
  | guarded (d a : Deed V)
  /-- `if catch_unwind(|| a).is_err() { b }` -/
  | catching (a b : Deed V)

/-- How it ends. -/
inductive Upshot where
  | calm
  /-- A panic goes on to the caller. -/
  | unwinding
  /-- The process is aborted. -/
  | aborted
  /-- It waits for a lock its own thread has. -/
  | stuck
deriving DecidableEq, Repr

/-- The `RwLock` of a resource or target. -/
structure Latch (V : Type) where
  val : V
  poisoned : Bool
deriving DecidableEq, Repr

/-- What became of a call of `with` or `with_mut`. -/
inductive Doing where
  /-- Its closure is called. -/
  | opened (p : Nat) (excl : Bool)
  /-- It returned `None`. -/
  | refused (p : Nat) (excl : Bool)
  /-- Its closure is left, by a panic or not. `late`: the thread was panicking when it was called. -/
  | closed (p : Nat) (excl late panicked : Bool)
deriving DecidableEq, Repr

/-- Locks, and what happened to them, first thing first. -/
structure Latches (V : Type) where
  cells : List (Latch V)
  trace : List Doing

section
variable {V : Type}

/-- Whether a lock can be taken by a thread that has these, `true`: exclusively (schema/resource.rs:78-93, 138-153: `read` and `write`
of the `RwLock` wait for it). -/
def mayLock (held : List (Nat × Bool)) (p : Nat) (excl : Bool) : Bool :=
  held.all fun x => x.1 != p || !(excl || x.2)

/-- The program does that; `access` is `with` and `with_mut` on a `Res` (schema/resource.rs:78-93, 138-153; deref.rs:66-86). `late`: the thread is panicking. `held`: the closures around it, innermost first: their cells, and whether
they were given them by `with_mut`. -/
def Deed.run : Deed V → Bool → List (Nat × Bool) → Latches V → Upshot × Latches V
  | .skip, _, _, s => (.calm, s)
  | .seq a b, late, held, s =>
    match a.run late held s with
    | (.calm, s1) => b.run late held s1
    | r => r
  | .panic, _, _, s => (.unwinding, s)
  | .poke i f, _, held, s =>
    match held[i]? with
    | some (p, true) => (.calm, { s with cells := s.cells.modify p fun l => { l with val := f l.val } })
    | _ => (.calm, s)
  | .choose i c a b, late, held, s =>
    match (held[i]?).bind fun x => s.cells[x.1]? with
    | some l => if c l.val then a.run late held s else b.run late held s
    | none => (.calm, s)
  | .access p excl a b, late, held, s =>
    match s.cells[p]? with
    -- a handle on no resource
    | none => b.run late held { s with trace := s.trace ++ [.refused p excl] }
    | some l =>
      if mayLock held p excl then
        if l.poisoned then b.run late held { s with trace := s.trace ++ [.refused p excl] }
        else
          match a.run late ((p, excl) :: held) { s with trace := s.trace ++ [.opened p excl] } with
          | (.calm, s1) => (.calm, { s1 with trace := s1.trace ++ [.closed p excl late false] })
          | (.unwinding, s1) =>
            (.unwinding, { cells := if excl && !late then s1.cells.modify p fun l => { l with poisoned := true } else s1.cells
                           trace := s1.trace ++ [.closed p excl late true] })
          | r => r
      else (.stuck, s)
  | .guarded d a, late, held, s =>
    match a.run late held s with
    | (.calm, s1) => d.run late held s1
    | (.unwinding, s1) =>
      match d.run true held s1 with
      | (.calm, s2) => (.unwinding, s2)
      | (.unwinding, s2) => (.aborted, s2)
      | r => r
    | r => r
  | .catching a b, late, held, s =>
    match a.run late held s with
    | (.unwinding, s1) => b.run late held s1
    | r => r

end

end Plotline
