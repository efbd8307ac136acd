import Verif.Model.Graph

/-!
# Lazily loaded documents (plotline/src/document/lazy.rs, plotline/src/document/mod.rs)

A repository is what `DocumentRepository::find_by_id` (document/mod.rs:13) answers at the moment of a call; it may answer
differently at every call. `Ident` is the id type, `Doc` the document type, `ident` its `Identify::id`.
-/

namespace Plotline

variable {Ident Doc : Type}

/-- `LazyDocument` (document/lazy.rs:13-23). `document` is the `OnceLock`. The repository is not stored: every call is given
what the repository answers at that moment. -/
structure LazyDocument (Ident Doc : Type) where
  document_id : Ident
  document : Option Doc

/-- `OnceLock::get`. -/
def onceGet (c : Option Doc) : Option Doc := c

/-- `OnceLock::set`: the new content and whether the call succeeded. -/
def onceSet (c : Option Doc) (d : Doc) : Option Doc × Bool :=
  match c with
  | none => (some d, true)
  | some old => (some old, false)

namespace LazyDocument

/-- The closure `LazyDocument::builder` returns (document/lazy.rs:82-92). -/
def build (id : Ident) : LazyDocument Ident Doc := ⟨id, none⟩

/-- `LazyDocument::new` (document/lazy.rs:102-115). `none` would be the panic of `expect`. -/
def new (ident : Doc → Ident) (d : Doc) : Option (LazyDocument Ident Doc) :=
  let lazy : LazyDocument Ident Doc := ⟨ident d, none⟩
  match onceSet lazy.document d with
  | (c, true) => some { lazy with document := c }
  | (_, false) => none

/-- `Clone for LazyDocument` (document/lazy.rs:31-37); a clone of a `OnceLock` holds a clone of its content. -/
def clone (l : LazyDocument Ident Doc) : LazyDocument Ident Doc := ⟨l.document_id, l.document⟩

/-- `Identify for LazyDocument` (document/lazy.rs:46-48). -/
def id (l : LazyDocument Ident Doc) : Ident := l.document_id

/-- `TryDeref for LazyDocument` (document/lazy.rs:58-73) without concurrent calls. Also returned: the ids `find_by_id` was
called with. -/
def tryDeref (repo : Ident → Option Doc) (l : LazyDocument Ident Doc) : Option Doc × LazyDocument Ident Doc × List Ident :=
  match onceGet l.document with
  | some d => (some d, l, [])
  | none =>
    match repo l.document_id with
    | none => (none, l, [l.document_id])
    | some d =>
      match onceSet l.document d with
      | (c, false) => (none, { l with document := c }, [l.document_id])
      | (c, true) => (onceGet c, { l with document := c }, [l.document_id])

end LazyDocument

/-- `Identify for LazyDocument` (document/lazy.rs:40-49). -/
instance : Identify (LazyDocument Ident Doc) Ident := ⟨LazyDocument.id⟩

/-! ## Histories -/

/-- What can happen to a number of lazy documents over one repository. Documents are numbered in order of creation. -/
inductive LazyEvent (Ident Doc : Type) where
  /-- The repository's content changes. -/
  | repo (r : Ident → Option Doc)
  | build (id : Ident)
  | new (d : Doc)
  | clone (i : Nat)
  | deref (i : Nat)

structure LazyState (Ident Doc : Type) where
  repo : Ident → Option Doc
  docs : List (LazyDocument Ident Doc)
  /-- Every id `find_by_id` was called with. -/
  asked : List Ident

namespace LazyState

def init : LazyState Ident Doc := ⟨fun _ => none, [], []⟩

def step (ident : Doc → Ident) (s : LazyState Ident Doc) : LazyEvent Ident Doc → LazyState Ident Doc
  | .repo r => { s with repo := r }
  | .build id => { s with docs := s.docs ++ [LazyDocument.build id] }
  | .new d =>
    match LazyDocument.new ident d with
    | some l => { s with docs := s.docs ++ [l] }
    | none => s
  | .clone i =>
    match s.docs[i]? with
    | some l => { s with docs := s.docs ++ [l.clone] }
    | none => s
  | .deref i =>
    match s.docs[i]? with
    | some l => { s with docs := s.docs.set i (l.tryDeref s.repo).2.1, asked := s.asked ++ (l.tryDeref s.repo).2.2 }
    | none => s

def run (ident : Doc → Ident) (es : List (LazyEvent Ident Doc)) : LazyState Ident Doc := es.foldl (step ident) init

end LazyState

/-! ## Concurrent calls

Any number of threads call `try_deref` on one shared `LazyDocument` (it is used through `&self`). `OnceLock::get` and
`OnceLock::set` are atomic; `find_by_id` runs between them and answers anything at any time. -/

/-- Where a thread is within `try_deref` (document/lazy.rs:58-73). -/
inductive DerefPc (Doc : Type) where
  /-- Not in a call. -/
  | idle
  /-- Before the first `get` (59). -/
  | get
  /-- Before `find_by_id` (65). -/
  | find
  /-- The repository found a document; before `set` (65). -/
  | set (d : Doc)
  /-- `set` succeeded; before the second `get` (72). -/
  | get2
deriving DecidableEq

/-- A finished call: its thread, the document the repository found for it, if it was asked and found one, and the result. -/
structure DerefCall (Doc : Type) where
  thread : Nat
  found : Option Doc
  result : Option Doc
deriving DecidableEq

structure DerefState (Doc : Type) where
  cache : Option Doc
  pcs : Nat → DerefPc Doc
  /-- What the repository found in the call each thread is in. -/
  found : Nat → Option Doc
  calls : List (DerefCall Doc)

namespace DerefState

def pc (s : DerefState Doc) (t : Nat) (p : DerefPc Doc) : DerefState Doc :=
  { s with pcs := fun t' => if t' = t then p else s.pcs t' }

def ret (s : DerefState Doc) (t : Nat) (r : Option Doc) : DerefState Doc :=
  { s.pc t .idle with calls := s.calls ++ [⟨t, s.found t, r⟩] }

/-- The next atomic step of thread `t`; `answer` is what the repository answers if the step is `find_by_id`. -/
def step (s : DerefState Doc) (t : Nat) (answer : Option Doc) : DerefState Doc :=
  match s.pcs t with
  | .idle => { s.pc t .get with found := fun t' => if t' = t then none else s.found t' }
  | .get =>
    match onceGet s.cache with
    | some d => s.ret t (some d)
    | none => s.pc t .find
  | .find =>
    match answer with
    | none => s.ret t none
    | some d => { s.pc t (.set d) with found := fun t' => if t' = t then some d else s.found t' }
  | .set d =>
    match onceSet s.cache d with
    | (c, true) => { s.pc t .get2 with cache := c }
    | (c, false) => { s with cache := c }.ret t none
  | .get2 => s.ret t (onceGet s.cache)

/-- An execution: which thread steps, and the repository's answer should it ask. -/
def run (s : DerefState Doc) (sched : List (Nat × Option Doc)) : DerefState Doc :=
  sched.foldl (fun s e => s.step e.1 e.2) s

/-- No call is going on; the document is what the cache holds. -/
def start (cache : Option Doc) : DerefState Doc := ⟨cache, fun _ => .idle, fun _ => none, []⟩

end DerefState

end Plotline
