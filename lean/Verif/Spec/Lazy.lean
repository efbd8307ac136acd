import Verif.Model.Lazy

/-! # What is expected of lazily loaded documents -/

namespace Plotline

variable {Ident Doc : Type}

/-- What `try_deref` of the `i`-th document returns after a history; `none` if there is no such document. -/
def derefResult (ident : Doc → Ident) (es : List (LazyEvent Ident Doc)) (i : Nat) : Option (Option Doc) :=
  ((LazyState.run ident es).docs[i]?).map fun l => (l.tryDeref (LazyState.run ident es).repo).1

/-- What `id` of the `i`-th document returns. -/
def idResult (ident : Doc → Ident) (es : List (LazyEvent Ident Doc)) (i : Nat) : Option Ident :=
  ((LazyState.run ident es).docs[i]?).map fun l => l.id

/-- The calls to `find_by_id` a history makes. -/
def askedIn (ident : Doc → Ident) (es : List (LazyEvent Ident Doc)) : List Ident := (LazyState.run ident es).asked

/-- How many documents a history created. -/
def created (ident : Doc → Ident) (es : List (LazyEvent Ident Doc)) : Nat := (LazyState.run ident es).docs.length

/-- The repository's content after a history. -/
def repoAfter : List (LazyEvent Ident Doc) → (Ident → Option Doc)
  | es => (es.filterMap fun | .repo r => some r | _ => none).getLast?.getD fun _ => none

/-- The `i`-th document was created for `id` without content, directly or as a clone of such a document, and no `try_deref` of
it (or of what it was cloned from, before) returned a document. -/
inductive NeverLoaded (ident : Doc → Ident) : List (LazyEvent Ident Doc) → Nat → Ident → Prop where
  | build (es : List (LazyEvent Ident Doc)) (id : Ident) : NeverLoaded ident (es ++ [.build id]) (created ident es) id
  | clone (es : List (LazyEvent Ident Doc)) (i : Nat) (id : Ident) :
      NeverLoaded ident es i id → NeverLoaded ident (es ++ [.clone i]) (created ident es) id
  | other (es : List (LazyEvent Ident Doc)) (e : LazyEvent Ident Doc) (i : Nat) (id : Ident) :
      NeverLoaded ident es i id → (∀ j, e = .deref j → j ≠ i) → NeverLoaded ident (es ++ [e]) i id
  | failed (es : List (LazyEvent Ident Doc)) (i : Nat) (id : Ident) :
      NeverLoaded ident es i id → derefResult ident es i = some none → NeverLoaded ident (es ++ [.deref i]) i id

/-- After a schedule of concurrent calls on a document that had `cache` loaded. -/
def derefAfter (cache : Option Doc) (sched : List (Nat × Option Doc)) : DerefState Doc := (DerefState.start cache).run sched

/-- While the finished call `c` was going on, another thread stored a document. -/
def LostRace (cache : Option Doc) (sched : List (Nat × Option Doc)) (c : DerefCall Doc) : Prop :=
  ∃ a t x b y rest, sched = (a ++ (t, x) :: b) ++ (c.thread, y) :: rest ∧ t ≠ c.thread ∧
    (derefAfter cache a).cache = none ∧ (derefAfter cache (a ++ [(t, x)])).cache ≠ none ∧
    (∀ b', b' <+: b → (derefAfter cache (a ++ (t, x) :: b')).pcs c.thread ≠ .idle) ∧
    (derefAfter cache ((a ++ (t, x) :: b) ++ [(c.thread, y)])).calls = (derefAfter cache (a ++ (t, x) :: b)).calls ++ [c]

end Plotline
