import Verif.Model.App
import Verif.Model.Lazy

/-!
# Programs over a schema of lazy documents (document/lazy.rs with schema/mod.rs, guard.rs, transaction.rs)

As in the command line tool, `Schema<LazyDocument<DocumentRepo>>` (plotline-cli/src/document.rs:64). A `LazyDocument` changes behind
a shared reference: `try_deref` stores what the repository found in the document it is called on. Where that document is depends on how
it was reached: iterating over a guard gives references into the graph (graph/mod.rs:52-54), and `with` on a target a reference to the
target (deref.rs:66-71); but `get` of guards and contexts returns clones (graph/mod.rs:64-66, transaction.rs:370-384).

The program makes any calls of `App`, from one thread. The repository may change at any time.
-/

namespace Plotline

/-- Schemas of lazy documents: the documents are of type `β.T`, found under ids of type `β.K`. -/
abbrev lazySig (β : Sig) : Sig := { β with T := LazyDocument β.K β.T, ident := inferInstance }

variable {β : Sig}

/-- What `try_deref` does inside of a document, while the repository answers `repo`. -/
def loading (repo : β.K → Option β.T) : Inner (lazySig β) :=
  ⟨fun l => (l.tryDeref repo).2.1, fun l => by
    show ((l.tryDeref repo).2.1).document_id = l.document_id
    unfold LazyDocument.tryDeref
    split
    · rfl
    · split
      · rfl
      · split <;> rfl⟩

/-- A program with its schema, the repository, the ids `find_by_id` was called with, and the documents the program has itself. -/
structure Library (β : Sig) where
  app : App (lazySig β)
  repo : β.K → Option β.T
  asked : List β.K
  own : List (LazyDocument β.K β.T)

inductive LibCall (β : Sig) where
  /-- From now on the repository answers `r`. -/
  | repo (r : β.K → Option β.T)
  /-- A call that is not about what documents have inside. A document it returns (or a clone of it if it is a reference) becomes one of
  the program's own. -/
  | app (x : AppCall (lazySig β))
  /-- `try_deref` of the document with the id that iterating over `*g` comes to. -/
  | load (g : Nat) (i : β.K)
  /-- `try_deref` of a target of the transaction `x`, in a closure of `with` or `with_mut` on it, `j` closures further out. -/
  | loadTarget (x j : Nat)
  /-- `try_deref` of one of the program's own documents. -/
  | loadOwn (k : Nat)

inductive LibAnswer (β : Sig) where
  | app (r : AppAnswer (lazySig β))
  /-- There is no such document. -/
  | missing
  | doc (d : Option β.T)

/-- The call changes a node inside. -/
def AppCall.touches {σ : Sig} : AppCall σ → Bool
  | .touch _ _ _ => true
  | .inTx _ (.touch _ _) => true
  | _ => false

/-- The documents a call returned. -/
def AppAnswer.owned {σ : Sig} : AppAnswer σ → List σ.T
  | .node (some n) => [n]
  | _ => []

/-- The target a closure is given, `j` closures further out. -/
def App.target {σ : Sig} (a : App σ) (x j : Nat) : Option σ.T := do
  let tx ← a.txs[x]?
  let w ← tx.world
  let g ← w.guards[j]?
  let l ← w.cells[g.1]?
  return l.val

/-- One call. `none`: the program would not compile. -/
def Library.step (b : Library β) : LibCall β → Option (LibAnswer β × Library β)
  | .repo r => some (.app .none, { b with repo := r })
  | .app x =>
    if x.touches then none
    else (b.app.step x).map fun r => (.app r.1, { b with app := r.2, own := b.own ++ r.1.owned })
  | .load g i =>
    match b.app.step (.touch g i (loading b.repo)) with
    | none => none
    | some (_, a) =>
      match b.app.schema.guard.get i with
      | none => some (.missing, b)
      | some l => some (.doc (l.tryDeref b.repo).1, { b with app := a, asked := b.asked ++ (l.tryDeref b.repo).2.2 })
  | .loadTarget x j =>
    match b.app.step (.inTx x (.touch j (loading b.repo).1)), b.app.target x j with
    | some (_, a), some l => some (.doc (l.tryDeref b.repo).1, { b with app := a, asked := b.asked ++ (l.tryDeref b.repo).2.2 })
    | _, _ => none
  | .loadOwn k =>
    match b.own[k]? with
    | none => none
    | some l =>
      some (.doc (l.tryDeref b.repo).1,
        { b with own := b.own.set k (l.tryDeref b.repo).2.1, asked := b.asked ++ (l.tryDeref b.repo).2.2 })

/-- A schema of lazy documents just made, over a repository. -/
def Library.start (g : Graph β.K (LazyDocument β.K β.T)) (r : β.K → Option β.T) : Library β :=
  ⟨App.start (σ := lazySig β) g, r, [], []⟩

end Plotline
