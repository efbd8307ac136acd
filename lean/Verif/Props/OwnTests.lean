import Verif.Props.Contexts
import Verif.Props.Interval
import Verif.Props.Graph
import Verif.Model.Resource

/-! # The code's own unit tests, replayed on the model

Not properties: each `example` is a test of the pinned commit with the same calls and the same assertions, as a check that the
model behaves like the code where the code's behaviour is recorded. An assertion inside a closure is a panic if it fails. -/

namespace Plotline

/-- `assert!(b)` inside a closure. -/
def assertThen (b : Bool) (k : Prog demo) : Prog demo := if b then k else .panic

private def one : Graph Nat Doc := Graph.empty.withNode ⟨1, 0⟩

/-- What a transaction returned, and which nodes are there then. -/
private def outcome (g : Graph Nat Doc) (p : Prog demo) : Option (Out (Except Error Unit) × List Nat) :=
  ((Schema.fromGraph g : Schema demo).transact 20 [] p).map fun r => (r.1, r.2.graph.iter.map Doc.key)

-- transaction.rs:537-557, context_should_overwrite_original_state
example : outcome one (.delete 0 1 <| .contains 0 1 fun b => assertThen (!b) <|
    .save 0 ⟨2, 0⟩ <| .contains 0 2 fun b => assertThen b <| .done (.ok ())) = some (.ret (.ok ()), [2]) := by decide +kernel

-- transaction.rs:560-581, uncommited_transaction_should_not_apply_changes
example : outcome one (.delete 0 1 <| .save 0 ⟨2, 0⟩ <| .done (.error (.msg "failed transaction"))) =
    some (.ret (.error (.msg "failed transaction")), [1]) := by decide +kernel

-- transaction.rs:584-605, commited_transaction_should_apply_changes
example : outcome one (.delete 0 1 <| .save 0 ⟨2, 0⟩ <| .done (.ok ())) = some (.ret (.ok ()), [2]) := by decide +kernel

-- transaction.rs:608-648, subtransactions_should_be_independent
example : ((World.start one : World demo).calls
    [.context 0 0, .transaction 0 1, .context 1 1, .delete 1 1, .transaction 0 2, .context 2 2, .save 2 ⟨2, 0⟩,
     .contains 0 1, .contains 0 2, .contains 1 1, .contains 1 2, .contains 2 1, .contains 2 2]).map
    (fun r => r.1.drop 7) = some [.bool true, .bool false, .bool false, .bool false, .bool true, .bool true] := by decide +kernel

-- transaction.rs:651-673, committed_subtransaction_should_apply_on_parent_context
example : outcome one (.tx 0 (.delete 0 1 <| .done (.ok ())) fun
    | .error _ => .panic
    | .ok _ => .contains 0 1 fun b => assertThen (!b) <| .done (.ok ())) = some (.ret (.ok ()), []) := by decide +kernel

-- transaction.rs:676-698, parent_changes_should_be_visible_from_subtransactions
example : outcome Graph.empty (.save 0 ⟨1, 0⟩ <| .tx 0 (.contains 0 1 fun b => assertThen b <| .done (.ok ())) fun
    | .error _ => .panic
    | .ok _ => .done (.ok ())) = some (.ret (.ok ()), [1]) := by decide +kernel

-- trigger.rs:173-232, triggers_downcasting; the counter is a resource here
private def countTrigger : Prog demo := .resWrite (0 : Nat) (fun n : Nat => (n + 1, false)) fun _ => .done (.ok ())
private def noSchema : Schema demo := Schema.fromGraph Graph.empty
private def withFoo : Schema demo := noSchema.withResource (0 : Nat) (0 : Nat)
private def counting (s : Nat) : Option (Out (Except Error Unit) × Option Nat) :=
  let S := ((withFoo.withTrigger (.custom 1) countTrigger).withTrigger (.custom 1) countTrigger).withTrigger (.custom 2) countTrigger
  (S.transact 20 [] (.runTriggers 0 (.custom s) fun
    | .error e => .done (.error e)
    | .ok _ => .done (.ok ()))).map fun r => (r.1, (r.2.env.resources.res (0 : Nat)).peek r.2.heap)
example : counting 1 = some (.ret (.ok ()), some 2) ∧ counting 2 = some (.ret (.ok ()), some 1) := by decide +kernel

-- resource.rs:198-210, resource_exists; 213-231, resource_read_write
example : (withFoo.env.resources.res (0 : Nat)).exists withFoo.heap = true ∧
    (withFoo.env.resources.res (1 : Nat)).exists withFoo.heap = false := by decide +kernel
example : let r := (withFoo.env.resources.res (0 : Nat)).withMut withFoo.heap fun _ => ((1 : Nat), some ())
    r.1 = .ran () ∧ (withFoo.env.resources.res (0 : Nat)).with r.2 (fun n => some n) = .ran (1 : Nat) := by decide +kernel

-- proxy.rs:134-142, non_existent_nodes_must_be_virtual; 145-153, existent_nodes_must_be_non_virtual
example : (NodeProxy.new 0 : NodeProxy Nat Doc).isVirtual (Graph.empty : Graph Nat Doc).source = true := by decide
example : (NodeProxy.new 0 : NodeProxy Nat Doc).isVirtual (Graph.empty.withNode (⟨0, 0⟩ : Doc)).source = false := by decide

-- proxy.rs:156-166, graph_must_be_traversable; a document's body is the id its edge leads to
example : let src := (Graph.fromIter [(⟨1, 2⟩ : Doc), ⟨2, 1⟩]).source
    let edges₁ := ((NodeProxy.new 1 : NodeProxy Nat Doc).successors (fun d : Doc => [d.body]) src).1
    edges₁.map NodeProxy.id = [2] ∧
    edges₁.map (fun p => (p.successors (fun d : Doc => [d.body]) src).1.map NodeProxy.id) = [[1]] := by decide

-- tree.rs:84-143, intersects_with_tree
example : (insertAll [⟨0, 2⟩] : ITree Span Nat).intersects ⟨3, 3⟩ = false ∧
    (insertAll [⟨0, 2⟩] : ITree Span Nat).intersects ⟨1, 3⟩ = true ∧
    (insertAll [⟨2, 4⟩] : ITree Span Nat).intersects ⟨0, 3⟩ = true ∧
    (insertAll [⟨0, 3⟩] : ITree Span Nat).intersects ⟨1, 2⟩ = true ∧
    (insertAll [⟨1, 2⟩] : ITree Span Nat).intersects ⟨0, 3⟩ = true ∧
    (insertAll [⟨5, 6⟩, ⟨0, 4⟩, ⟨2, 6⟩, ⟨7, 9⟩] : ITree Span Nat).intersects ⟨1, 2⟩ = true := by decide

-- tree.rs:146-202, for_each_intersection_in_tree (in any order)
example : (insertAll [⟨1, 2⟩] : ITree Span Nat).forEach ⟨0, 0⟩ = [] := by decide
example : let found := (insertAll [⟨5, 6⟩, ⟨0, 2⟩, ⟨3, 3⟩, ⟨5, 9⟩, ⟨6, 6⟩] : ITree Span Nat).forEach ⟨3, 5⟩
    found.length = 3 ∧ ∀ i ∈ ([⟨5, 6⟩, ⟨3, 3⟩, ⟨5, 9⟩] : List Span), i ∈ found := by decide

end Plotline
