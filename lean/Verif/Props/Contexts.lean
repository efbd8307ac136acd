import Verif.Lemmas.Contexts
import Verif.Lemmas.Transaction
import Verif.Props.Transaction

/-! # Properties C67 and C68: contexts, subtransactions and targets held side by side -/

namespace Plotline

open Std

set_option linter.unusedSectionVars false

variable {σ : Sig} {g : Graph σ.K σ.T} {h : List (Call σ)} {w w' : World σ}

/-! ## C67 -/

/-- C67: whatever contexts and subtransactions were made, used and ended before, and in whatever order, `get` through a context
returns the node of the last write that counts for its transaction, else for the transaction around it, and so on, else the
node in the graph. -/
theorem C67_get (hl : Legal g h w) (c : Nat) (i : σ.K) (a : Answer σ.T) (hs : w.step (.get c i) = some (a, w')) :
    ∃ t r, txOf h c = some t ∧ a = .node r ∧ ∀ r', Reads g h i t r' ↔ r' = r := by
  obtain ⟨x, hx, he⟩ := Option.map_eq_some_iff.1 (show (w.ctx c).map (fun x => (Answer.node (w.get x.chain i), w)) = _ from hs)
  cases he
  have hI := hl.inv
  obtain ⟨t, tx, h1, h2, h3, h4⟩ := hI.ctx c _ _ (ctx_some hx).2.2
  have hr := get_reads hI (root_live hI t tx h2 (h4 rfl)) i t tx h2
  rw [← h3] at hr
  exact ⟨t, _, h1, rfl, fun r' => ⟨fun h => h.det hI.orphan hr, fun h => h ▸ hr⟩⟩

/-- C67: `contains` answers whether `get` returns a node. -/
theorem C67_contains (hl : Legal g h w) (c : Nat) (i : σ.K) (a : Answer σ.T) (hs : w.step (.contains c i) = some (a, w')) :
    ∃ t r, txOf h c = some t ∧ a = .bool r.isSome ∧ ∀ r', Reads g h i t r' ↔ r' = r := by
  obtain ⟨x, hx, he⟩ :=
    Option.map_eq_some_iff.1 (show (w.ctx c).map (fun x => (Answer.bool (w.contains x.chain i), w)) = _ from hs)
  cases he
  obtain ⟨t, r, h1, h2, h3⟩ := C67_get (w' := w) hl c i (.node (w.get x.chain i)) (by simp [World.step, hx])
  cases h2
  exact ⟨t, _, h1, by rw [contains_get], h3⟩

/-- C67: when the transaction is committed the graph has, for each id, what was read of it in the transaction; and it is
unchanged if a context of the transaction was forgotten. -/
theorem C67_commit_root [LawfulSig σ] (hg : g.Reachable) (hl : Legal g h w) (a : Answer σ.T)
    (hs : w.step (.commit 0) = some (a, w')) :
    (¬ Leaked h 0 → ∀ i r, Reads g h i 0 r ↔ r = w'.graph.get i) ∧ (Leaked h 0 → w'.graph = g) := by
  have hI := hl.inv
  simp only [World.step] at hs
  split at hs
  · rename_i tx ht
    obtain ⟨h1, h2⟩ := tx_some ht
    have hgr := hI.graph tx h1 h2
    obtain ⟨r, hr, hrc⟩ := hI.root
    rw [h1] at hr; cases hr
    split at hs
    · rename_i hun
      have hown := owners_leaked hI h1 (unused_iff hun)
      split at hs
      · rename_i ho
        rw [hrc] at hs
        cases hs
        refine ⟨fun hn i r => ?_, fun hle => absurd hle (hown.1 ho)⟩
        have hr := get_reads hI hgr i 0 tx h1
        have heq : w.get (0 :: parentsOf w.skel tx.context) i = (w.graph.commit tx.log).get i := by
          rw [hgr, get_commit g hg.valid tx.log, applyAll_find]
          have hlog : w.log 0 = tx.log := by simp [World.log, h1]
          simp only [hrc, parentsOf, World.get, hlog, hgr]
          split <;> rename_i he <;> rw [he]
        rw [heq] at hr
        exact ⟨fun h => h.det hI.orphan hr, fun h => h ▸ hr⟩
      · rename_i ho
        cases hs
        have hle : Leaked h 0 := Classical.byContradiction fun hle => ho (hown.2 hle)
        exact ⟨fun hn => absurd hle hn, fun _ => hgr⟩
    · cases hs
  · cases hs

/-- C67: until the transaction is committed nothing changes the graph. -/
theorem C67_graph (x : Call σ) (a : Answer σ.T) (hl : Legal g h w) (hx : x ≠ .commit 0) (hs : w.step x = some (a, w')) :
    w'.graph = w.graph := by
  cases x with
  | commit t =>
    simp only [World.step] at hs
    split at hs
    · rename_i tx ht
      split at hs
      · split at hs
        · split at hs
          · rename_i hc
            exfalso
            obtain ⟨c, p, _, _, h3, _⟩ := hl.inv.tx t tx (tx_some ht).1 (by rintro rfl; exact hx rfl)
            rw [hc] at h3; cases h3
          · cases hs; rfl
        · cases hs; rfl
      · cases hs
    · cases hs
  | _ =>
    simp only [World.step, Option.map_eq_some_iff] at hs
    repeat' split at hs
    all_goals first
      | (cases hs; done)
      | (cases hs; rfl)
      | (obtain ⟨_, _, he⟩ := hs; cases he; rfl)

/-- C67: exactly the calls that use values that are there, and end contexts after the transactions made from them and
transactions after the contexts made from them, can be made. -/
theorem C67_possible (hl : Legal g h w) (x : Call σ) : (∃ a w', w.step x = some (a, w')) ↔ Possible h x := by
  have hS := hl.shape
  have hk : ∀ k, k < handlesMade h ↔ ∃ p, w.handles[k]? = some p := by
    intro k
    rw [← hS.nh]
    exact ⟨fun hlt => ⟨_, List.getElem?_eq_getElem hlt⟩, fun ⟨_, he⟩ => (List.getElem?_eq_some_iff.1 he).1⟩
  have hcell : ∀ k p : Nat, w.handles[k]? = some (some p) → ∃ l, w.cells[p]? = some l := by
    intro k p hp
    exact ⟨_, List.getElem?_eq_getElem (hl.targets.boundHandle k p (hl.targets.handle k _ hp).symm)⟩
  have e1 : w.ctxs.length = contextsMade h := by rw [← hS.nctx]; simp [World.shape]
  have e2 : w.txs.length = transactionsMade h := by rw [← hS.ntx]; simp [World.shape]
  have e3 : w.handles.length = handlesMade h := by rw [← hS.nh]; simp [World.shape]
  cases x with
  | context t c =>
    simp only [Possible, World.step, tx_open hS, e1]
    cases w.tx t with
    | none => simp
    | some tx => by_cases hc : c = contextsMade h <;> simp [hc]
  | transaction c t =>
    simp only [Possible, World.step, ctx_held hS, e2]
    cases w.ctx c with
    | none => simp
    | some tx => by_cases hc : t = transactionsMade h <;> simp [hc]
  | handle c k =>
    simp only [Possible, World.step, ctx_held hS, e3]
    cases w.ctx c with
    | none => simp
    | some tx => by_cases hc : k = handlesMade h <;> simp [hc]
  | cloneHandle k k' =>
    simp only [Possible, World.step, hk, e3]
    cases w.handles[k]? with
    | none => simp
    | some tx => by_cases hc : k' = handlesMade h <;> simp [hc]
  | readTarget k =>
    simp only [Possible, World.step, hk]
    cases hh : w.handles[k]? with
    | none => simp
    | some p =>
      cases p with
      | none => simp
      | some p =>
        obtain ⟨l, hp⟩ := hcell k p hh
        by_cases hb : w.blocked p false = true <;> simp [hp, hb]
  | writeTarget k f =>
    simp only [Possible, World.step, hk]
    cases hh : w.handles[k]? with
    | none => simp
    | some p =>
      cases p with
      | none => simp
      | some p =>
        obtain ⟨l, hp⟩ := hcell k p hh
        simp only [hp]
        by_cases hb : w.blocked p true = true
        · simp [hb]
        by_cases hpo : l.poisoned = true
        · simp [hb, hpo]
        · simp only [hb, hpo, Bool.false_eq_true, if_false]
          rcases f l.val with ⟨n, b⟩
          cases b <;> simp
  | enter k excl =>
    simp only [Possible, World.step, hk]
    cases hh : w.handles[k]? with
    | none => simp
    | some p =>
      cases p with
      | none => simp
      | some p =>
        obtain ⟨l, hp⟩ := hcell k p hh
        by_cases hb : w.blocked p excl = true
        · simp [hp, hb]
        · by_cases hpo : l.poisoned = true <;> simp [hp, hb, hpo]
  | assign j n =>
    simp only [Possible, World.step, ← hl.targets.guards]
    rcases hj : w.guards[j]? with _ | ⟨p, _ | _⟩ <;> simp
  | touch j f =>
    simp only [Possible, World.step, ← hl.targets.guards]
    cases hj : w.guards[j]? with
    | none => simp [List.getElem?_eq_none_iff.1 hj]
    | some x => simp [(List.getElem?_eq_some_iff.1 hj).1]
  | leave j panicked =>
    simp only [Possible, World.step, ← hl.targets.guards]
    cases hj : w.guards[j]? with
    | none => simp [List.getElem?_eq_none_iff.1 hj]
    | some x => simp [(List.getElem?_eq_some_iff.1 hj).1]
  | dropCtx c =>
    simp only [Possible, World.step, ctx_held hS, ← unborrowed_open hS c]
    cases w.ctx c with
    | none => simp
    | some x => by_cases hu : w.unborrowed c = true <;> simp [hu]
  | forgetCtx c =>
    simp only [Possible, World.step, ctx_held hS, ← unborrowed_open hS c]
    cases w.ctx c with
    | none => simp
    | some x => by_cases hu : w.unborrowed c = true <;> simp [hu]
  | commit t =>
    simp only [Possible, World.step, tx_open hS, ← unused_held hS hl.inv t]
    cases w.tx t with
    | none => simp
    | some x =>
      by_cases hu : w.unused t = true
      · by_cases ho : x.owners = 1
        · cases hx : x.context <;> simp [hu, ho, hx]
        · simp [hu, ho]
      · simp [hu]
  | abandon t =>
    simp only [Possible, World.step, tx_open hS, ← unused_held hS hl.inv t]
    cases w.tx t with
    | none => simp
    | some x => by_cases hu : w.unused t = true <;> simp [hu]
  | get c i => simp only [Possible, World.step, ctx_held hS]; cases w.ctx c <;> simp
  | contains c i => simp only [Possible, World.step, ctx_held hS]; cases w.ctx c <;> simp
  | save c n => simp only [Possible, World.step, ctx_held hS]; cases w.ctx c <;> simp
  | delete c i => simp only [Possible, World.step, ctx_held hS]; cases w.ctx c <;> simp
  | withTarget c n => simp only [Possible, World.step, ctx_held hS]; cases w.ctx c <;> simp

/-- C67: subtransactions are independent: saving through a context, or deleting, changes what is read through contexts of its own
transaction and of those made in it, but through no other. -/
theorem C67_write_independent (hl : Legal g h w) (x : Call σ) (c : Nat) (hx : (∃ n, x = .save c n) ∨ ∃ i, x = .delete c i)
    (a0 : Answer σ.T) (hs : w.step x = some (a0, w')) (t s d : Nat) (hc : txOf h c = some t) (hd : txOf h d = some s)
    (hi : ¬ Inside h t s) (i : σ.K) :
    (w'.step (.get d i)).map Prod.fst = (w.step (.get d i)).map Prod.fst := by
  have hl' := Legal.call hl hs (fun h => by
    obtain ⟨_, _, he, _⟩ := (step_stuck hl.targets hs).1 h
    rcases hx with ⟨n, rfl⟩ | ⟨j, rfl⟩ <;> cases he)
  have htx : ∀ d, txOf (x :: h) d = txOf h d := by rcases hx with ⟨n, rfl⟩ | ⟨j, rfl⟩ <;> exact fun _ => rfl
  have hp : Possible (x :: h) (.get d i) ↔ Possible h (.get d i) := by rcases hx with ⟨n, rfl⟩ | ⟨j, rfl⟩ <;> exact Iff.rfl
  by_cases hpos : Possible h (.get d i)
  · obtain ⟨a1, w1, h1⟩ := (C67_possible hl _).2 hpos
    obtain ⟨a2, w2, h2⟩ := (C67_possible hl' _).2 (hp.2 hpos)
    obtain ⟨s1, r1, e1, e2, e3⟩ := C67_get hl d i a1 h1
    obtain ⟨s2, r2, e4, e5, e6⟩ := C67_get hl' d i a2 h2
    rw [htx, hd] at e4; cases e4
    rw [hd] at e1; cases e1
    have : r2 = r1 := by
      apply (e3 r2).1
      have := (e6 r2).2 rfl
      rcases hx with ⟨n, rfl⟩ | ⟨j, rfl⟩
      · exact (reads_save_independent c n t s hc hi i r2).1 this
      · exact (reads_delete_independent c j t s hc hi i r2).1 this
    rw [h1, h2, e2, e5, this]; rfl
  · have n1 : w.step (.get d i) = none := by
      cases hg : w.step (.get d i) with
      | none => rfl
      | some r => exact absurd ((C67_possible hl _).1 ⟨r.1, r.2, hg⟩) hpos
    have n2 : w'.step (.get d i) = none := by
      cases hg : w'.step (.get d i) with
      | none => rfl
      | some r => exact absurd (hp.1 ((C67_possible hl' _).1 ⟨r.1, r.2, hg⟩)) hpos
    rw [n1, n2]

/-- C67: committing a subtransaction makes what it wrote what is read through the contexts of the transaction around it, over
anything committed before, and changes nothing else there. -/
theorem C67_commit_child (hl : Legal g h w) (t p d : Nat) (a0 : Answer σ.T) (hs : w.step (.commit t) = some (a0, w'))
    (hp : parentTx h t = some p) (hle : ¬ Leaked h t) (hd : txOf h d = some p) (i : σ.K) (a1 a2 : Answer σ.T) (w1 w2 : World σ)
    (h1 : w.step (.get d i) = some (a1, w1)) (h2 : w'.step (.get d i) = some (a2, w2)) :
    a2 = (match lastWriteOf h t i with | some r => .node r | none => a1) := by
  have hl' := Legal.call hl hs (fun h => by obtain ⟨_, _, he, _⟩ := (step_stuck hl.targets hs).1 h; cases he)
  obtain ⟨s1, r1, e1, e2, e3⟩ := C67_get hl d i a1 h1
  obtain ⟨s2, r2, e4, e5, e6⟩ := C67_get hl' d i a2 h2
  have e4' : txOf h d = some s2 := e4
  rw [hd] at e4' e1; cases e4'; cases e1
  have hw : lastWriteOf (.commit t :: h) p i = (lastWriteOf h t i).or (lastWriteOf h p i) := by simp [lastWriteOf, hp, hle]
  cases hlw : lastWriteOf h t i with
  | some r =>
    rw [hlw] at hw
    have := (e6 r).1 (.written (by rw [hw]; rfl))
    rw [e5, this]
  | none =>
    rw [hlw] at hw
    have hr := (e3 r1).2 rfl
    have hor : ∀ q, q ≠ p → lastWriteOf (.commit t :: h) q i = lastWriteOf h q i := by
      intro q hq
      have : ¬ (parentTx h t = some q ∧ ¬ Leaked h t) := by rintro ⟨hc, _⟩; rw [hp] at hc; cases hc; exact hq rfl
      simp only [lastWriteOf]; rw [if_neg this]
    have hall : ∀ q, lastWriteOf (.commit t :: h) q i = lastWriteOf h q i := by
      intro q
      by_cases hq : q = p
      · subst hq; rw [hw]; rfl
      · exact hor q hq
    have : ∀ q r, Reads g h i q r → Reads g (.commit t :: h) i q r := by
      intro q r hqr
      induction hqr with
      | written h1 => exact .written (by rw [hall]; exact h1)
      | inherited h1 h2 _ ih => exact .inherited (by rw [hall]; exact h1) h2 ih
      | stored h1 => exact .stored (by rw [hall]; exact h1)
    rw [e5, e2, (e6 r1).1 (this _ _ hr)]

/-- C67: a subtransaction that was not committed, or that was when a context of it was forgotten, leaves no trace: all the same
calls can be made without the writes in it, and then everything read outside of it is the same, as is what committing the
whole transaction leaves. -/
theorem C67_no_trace [LawfulSig σ] (hg : g.Reachable) (hl : Legal g h w) (t : Nat) (ht : ¬ Committed h t) :
    ∃ w₀, Legal g (withoutWrites t h) w₀ ∧
      (∀ d s i a w1, txOf h d = some s → ¬ Inside h t s → w.step (.get d i) = some (a, w1) →
        ∃ w2, w₀.step (.get d i) = some (a, w2)) ∧
      (∀ a w1, t ≠ 0 → w.step (.commit 0) = some (a, w1) →
        ∃ a' w2, w₀.step (.commit 0) = some (a', w2) ∧ ∀ i, w2.graph.get i = w1.graph.get i) := by
  have hex : ∃ w₀, Legal g (withoutWrites t h) w₀ := by
    clear ht
    induction hl with
    | start => exact ⟨_, .start⟩
    | @call h w w' x a hl hs hns ih =>
      obtain ⟨w₀, h₀⟩ := ih
      have hpos := (Possible_without t h x).2 ((C67_possible hl x).1 ⟨_, _, hs⟩)
      obtain ⟨a', w₀', hs'⟩ := (C67_possible h₀ x).2 hpos
      have hns' : a' ≠ .stuck := by
        intro he
        obtain ⟨k, e, h1, h2⟩ := (step_stuck h₀.targets hs').1 he
        exact hns ((step_stuck hl.targets hs).2 ⟨k, e, h1, (Waits_without t h k e).1 h2⟩)
      cases x with
      | save c n =>
        simp only [withoutWrites]
        split
        · exact ⟨w₀, h₀⟩
        · exact ⟨w₀', .call h₀ hs' hns'⟩
      | delete c i =>
        simp only [withoutWrites]
        split
        · exact ⟨w₀, h₀⟩
        · exact ⟨w₀', .call h₀ hs' hns'⟩
      | _ => exact ⟨w₀', .call h₀ hs' hns'⟩
  obtain ⟨w₀, h₀⟩ := hex
  refine ⟨w₀, h₀, ?_, ?_⟩
  · intro d s i a w1 hd hi h1
    obtain ⟨a', w2, h2⟩ := (C67_possible h₀ (.get d i)).2 ((Possible_without t h _).2 ((C67_possible hl _).1 ⟨_, _, h1⟩))
    refine ⟨w2, ?_⟩
    obtain ⟨s1, r1, e1, e2, e3⟩ := C67_get hl d i a h1
    obtain ⟨s2, r2, e4, e5, e6⟩ := C67_get h₀ d i a' h2
    rw [txOf_without, hd] at e4; cases e4
    rw [hd] at e1; cases e1
    have := (e6 r1).1 ((reads_no_trace t ht s hi i r1).1 ((e3 r1).2 rfl))
    rw [h2, e5, e2, this]
  · intro a w1 ht0 h1
    obtain ⟨a', w2, h2⟩ := (C67_possible h₀ (.commit 0)).2 ((Possible_without t h _).2 ((C67_possible hl _).1 ⟨_, _, h1⟩))
    refine ⟨a', w2, h2, fun i => ?_⟩
    obtain ⟨c1, c2⟩ := C67_commit_root hg hl a h1
    obtain ⟨c3, c4⟩ := C67_commit_root hg h₀ a' h2
    by_cases hle : Leaked h 0
    · rw [c2 hle, c4 ((Leaked_without t h 0).2 hle)]
    · have hi : ¬ Inside h t 0 := by
        intro hin
        cases hin with
        | self => exact ht0 rfl
        | made hp _ => rw [hl.inv.orphan] at hp; cases hp
      have := (c1 hle i (w1.graph.get i)).2 rfl
      exact ((c3 (fun hl => hle ((Leaked_without t h 0).1 hl)) i _).1 ((reads_no_trace t ht 0 hi i _).1 this)).symm

/-- The code's own test of subtransactions held side by side (transaction.rs:608-648), with more calls: the second subtransaction is
committed first, the first one last. -/
def sideBySide : List (Call demo) :=
  [.context 0 0, .transaction 0 1, .context 1 1, .delete 1 1, .save 1 ⟨2, 22⟩, .transaction 0 2, .context 2 2, .save 2 ⟨2, 20⟩,
   .contains 0 1, .get 0 2, .contains 1 1, .get 1 2, .contains 2 1, .get 2 2,
   .dropCtx 2, .commit 2, .get 0 2, .save 0 ⟨3, 30⟩, .get 1 3, .dropCtx 1, .commit 1, .get 0 2, .contains 0 1, .dropCtx 0, .commit 0]

example : ((World.start (Graph.fromIter [⟨1, 10⟩] : Graph Nat Doc) : World demo).calls sideBySide).map (fun r => (r.1.filter (· ≠ .none), r.2.graph.iter)) =
    some ([.bool true, .node none, .bool false, .node (some ⟨2, 22⟩), .bool true, .node (some ⟨2, 20⟩),
      .node (some ⟨2, 20⟩), .node (some ⟨3, 30⟩), .node (some ⟨2, 22⟩), .bool false], [⟨2, 22⟩, ⟨3, 30⟩]) := by decide +kernel
-- a forgotten context keeps the log from being taken
example : ((World.start (Graph.fromIter [⟨1, 10⟩] : Graph Nat Doc) : World demo).calls
    [.context 0 0, .transaction 0 1, .context 1 1, .context 1 2, .save 1 ⟨2, 20⟩, .forgetCtx 1, .get 2 2, .dropCtx 2, .commit 1, .get 0 2]).map
    Prod.fst = some [.none, .none, .none, .none, .none, .none, .node (some ⟨2, 20⟩), .none, .none, .node none] := by decide +kernel
-- a subtransaction dropped without commit leaves no trace
example : ((World.start demoGraph : World demo).calls
    [.context 0 0, .transaction 0 1, .context 1 1, .delete 1 1, .get 1 1, .dropCtx 1, .abandon 1, .get 0 1, .dropCtx 0, .commit 0]).map
    (fun r => (r.1.filter (· ≠ .none), r.2.graph.iter)) = some ([.node none, .node (some ⟨1, 10⟩)], [⟨1, 10⟩, ⟨2, 20⟩]) := by decide +kernel
-- a transaction cannot be ended while a context of it is there, nor a context while a transaction made from it is
example : ((World.start demoGraph : World demo).calls [.context 0 0, .commit 0]).isNone := by decide +kernel
example : ((World.start demoGraph : World demo).calls [.context 0 0, .transaction 0 1, .dropCtx 0]).isNone := by decide +kernel

/-! ## C68 -/

/-- C68: reading a target through a handle gives what was put there last through any handle to the same target, the one the
handle's context had when the handle was made; nothing if there was none, or after a change panicked. -/
theorem C68_read (hl : Legal g h w) (k : Nat) (a : Answer σ.T) (hs : w.step (.readTarget k) = some (a, w')) (ha : a ≠ .stuck) :
    a = .node ((handleOf h k).bind (targetVal h)) ∧ w' = w := by
  have hI := hl.targets
  simp only [World.step] at hs
  split at hs
  · rename_i hk
    cases hs
    rw [← hI.handle k _ hk]; exact ⟨rfl, rfl⟩
  · rename_i p hk
    split at hs
    · rename_i l hp
      split at hs
      · cases hs; exact absurd rfl ha
      · cases hs
        rw [← hI.handle k _ hk]
        exact ⟨by simp [hI.cell p l hp], rfl⟩
    · cases hs
  · cases hs

/-- C68: changing a target through a handle runs the closure on what would be read, or not at all. -/
theorem C68_write (hl : Legal g h w) (k : Nat) (f : σ.T → σ.T × Bool) (a : Answer σ.T)
    (hs : w.step (.writeTarget k f) = some (a, w')) (ha : a ≠ .stuck) :
    a = match (handleOf h k).bind (targetVal h) with
      | none => .bool false
      | some n => if (f n).2 then .panic else .bool true := by
  have hI := hl.targets
  simp only [World.step] at hs
  split at hs
  · rename_i hk
    cases hs
    rw [← hI.handle k _ hk]; rfl
  · rename_i p hk
    split at hs
    · rename_i l hp
      rw [← hI.handle k _ hk]
      have hv := hI.cell p l hp
      simp only [Option.bind_some, hv]
      split at hs
      · cases hs; exact absurd rfl ha
      split at hs
      · rename_i hpo; cases hs; simp [hpo]
      · rename_i hpo
        simp only [hpo]
        split at hs
        · rename_i n hf; cases hs; simp [hf]
        · rename_i n hf; cases hs; simp [hf]
    · cases hs
  · cases hs

/-- C68: giving a context a new target leaves the handles made before as they are. -/
theorem C68_set_keeps_handles (hl : Legal g h w) (c : Nat) (n : σ.T) (a0 : Answer σ.T)
    (hs : w.step (.withTarget c n) = some (a0, w')) (k : Nat) (hk : k < w.handles.length) :
    (w'.step (.readTarget k)).map Prod.fst = (w.step (.readTarget k)).map Prod.fst := by
  have hl' := Legal.call hl hs (fun h => by obtain ⟨_, _, he, _⟩ := (step_stuck hl.targets hs).1 h; cases he)
  have hk' : k < w'.handles.length := by
    simp only [World.step] at hs
    split at hs
    · cases hs; exact hk
    · cases hs
  have hp : Possible h (.readTarget k) := by
    show k < handlesMade h; rw [← hl.shape.nh]; exact hk
  obtain ⟨a, _, ha⟩ := (C67_possible hl (.readTarget k)).2 hp
  obtain ⟨a', _, ha'⟩ := (C67_possible hl' (.readTarget k)).2 hp
  rw [ha, ha']
  by_cases hst : a = .stuck
  · obtain ⟨k', e, h1, h2⟩ := (step_stuck hl.targets ha).1 hst
    have : a' = .stuck := (step_stuck hl'.targets ha').2 ⟨k', e, h1, h2⟩
    rw [hst, this]; rfl
  · have hst' : a' ≠ .stuck := by
      intro he
      obtain ⟨k', e, h1, h2⟩ := (step_stuck hl'.targets ha').1 he
      exact hst ((step_stuck hl.targets ha).2 ⟨k', e, h1, h2⟩)
    have e1 := (C68_read hl k a ha hst).1
    have e2 := (C68_read hl' k a' ha' hst').1
    have : (handleOf (.withTarget c n :: h) k).bind (targetVal (.withTarget c n :: h)) = (handleOf h k).bind (targetVal h) := by
      show (handleOf h k).bind _ = _
      cases hh : handleOf h k with
      | none => rfl
      | some p =>
        have := hl.targets.boundHandle k p hh
        rw [← hl.targets.count] at this
        simp only [Option.bind_some, targetVal]
        rw [if_neg (by omega)]
    rw [this, ← e1] at e2
    rw [e2]; rfl

/-- C68: a context made from a transaction has no target, whatever targets other contexts of the transaction have. -/
theorem C68_new_context (hl : Legal g h w) (t c k : Nat) (a0 a1 a2 : Answer σ.T) (w1 w2 w3 : World σ)
    (h1 : w.step (.context t c) = some (a0, w1)) (h2 : w1.step (.handle c k) = some (a1, w2))
    (h3 : w2.step (.readTarget k) = some (a2, w3)) : a2 = .node none := by
  have hl1 := Legal.call hl h1 (fun h => by obtain ⟨_, _, he, _⟩ := (step_stuck hl.targets h1).1 h; cases he)
  have hl2 := Legal.call hl1 h2 (fun h => by obtain ⟨_, _, he, _⟩ := (step_stuck hl1.targets h2).1 h; cases he)
  have hc : w.ctxs.length ≤ c := by
    simp only [World.step] at h1
    split at h1
    · split at h1
      · rename_i hc; omega
      · cases h1
    · cases h1
  have hn : handleOf (.handle c k :: .context t c :: h) k = none := by
    simp [handleOf, targetOf, hl.targets.noCtx c hc]
  have hst : a2 ≠ .stuck := by
    intro he
    obtain ⟨k', e, h1, x, l, h2, _⟩ := (step_stuck hl2.targets h3).1 he
    cases h1
    rw [hn] at h2; cases h2
  rw [(C68_read hl2 k a2 h3 hst).1, hn]; rfl

-- handles share the target with each other and with their context, until the context gets another one
example : ((World.start demoGraph : World demo).calls
    [.context 0 0, .handle 0 0, .readTarget 0, .withTarget 0 ⟨5, 50⟩, .handle 0 1, .cloneHandle 1 2,
     .writeTarget 2 (fun n => (⟨n.key, n.body + 1⟩, false)), .readTarget 1, .withTarget 0 ⟨6, 60⟩, .handle 0 3,
     .writeTarget 1 (fun n => (n, true)), .readTarget 2, .writeTarget 2 (fun n => (n, false)), .readTarget 3, .readTarget 0]).map
    (fun r => r.1.filter (· ≠ .none)) =
  some [.node none, .bool true, .node (some ⟨5, 51⟩), .panic, .node none, .bool false, .node (some ⟨6, 60⟩), .node none] := by
  decide +kernel

/-! ## C69 -/

/-- C69: a call never returns exactly if it accesses a target that a running closure of `with_mut` is using, or accesses one
exclusively that a running closure of `with` or `with_mut` is using. -/
theorem C69_waits (hl : Legal g h w) (x : Call σ) (a : Answer σ.T) (hs : w.step x = some (a, w')) :
    a = .stuck ↔ ∃ k e, accessOf x = some (k, e) ∧ Waits h k e := step_stuck hl.targets hs

/-- C69: `with` and `with_mut` run the closure on what would be read, or not at all; the target is then in use. -/
theorem C69_enter (hl : Legal g h w) (k : Nat) (excl : Bool) (a : Answer σ.T) (hs : w.step (.enter k excl) = some (a, w'))
    (ha : a ≠ .stuck) :
    a = .node ((handleOf h k).bind (targetVal h)) ∧
    (∀ n x, a = .node (some n) → handleOf h k = some x → targetsInUse (.enter k excl :: h) = (x, excl) :: targetsInUse h) ∧
    (a = .node none → w' = w) := by
  have hI := hl.targets
  simp only [World.step] at hs
  split at hs
  · rename_i hk
    cases hs
    rw [← hI.handle k _ hk]
    exact ⟨rfl, fun n x h => by (cases h), fun _ => rfl⟩
  · rename_i p hk
    have hh := hI.handle k _ hk
    split at hs
    · rename_i l hp
      have hv := hI.cell p l hp
      split at hs
      · cases hs; exact absurd rfl ha
      · split at hs
        · rename_i hpo; cases hs
          rw [← hh]
          exact ⟨by simp [hv, hpo], fun n x h => by (cases h), fun _ => rfl⟩
        · rename_i hpo; cases hs
          rw [← hh]
          refine ⟨by simp [hv, hpo], fun n x _ hx => ?_, fun h => by (cases h)⟩
          cases hx
          simp [targetsInUse, ← hh, hv, hpo]
    · cases hs
  · cases hs

/-- C69: inside `with_mut` of a target, every other access to it, through whichever handle, never returns; inside `with`, every
exclusive one. -/
theorem C69_inside (hl : Legal g h w) (k k' : Nat) (excl : Bool) (n : σ.T) (hs : w.step (.enter k excl) = some (.node (some n), w'))
    (hk : handleOf h k' = handleOf h k) (x : Call σ) (e : Bool) (hx : accessOf x = some (k', e)) (he : excl = true ∨ e = true)
    (a : Answer σ.T) (w2 : World σ) (hs2 : w'.step x = some (a, w2)) : a = .stuck := by
  have hl' := Legal.call hl hs (by simp)
  obtain ⟨h1, h2, _⟩ := C69_enter hl k excl _ hs (by simp)
  cases hh : handleOf h k with
  | none => rw [hh] at h1; cases h1
  | some p =>
    refine (C69_waits hl' x a hs2).2 ⟨k', e, hx, p, excl, ?_, ?_, he.symm⟩
    · show handleOf h k' = some p; rw [hk, hh]
    · rw [h2 n p rfl hh]; simp

/-- C69: a panic in the closure of `with_mut` makes the target unreadable; one in the closure of `with` changes nothing. -/
theorem C69_panic (hl : Legal g h w) (p : Nat) (excl : Bool) (j : Nat) (hu : (targetsInUse h)[j]? = some (p, excl))
    (a : Answer σ.T) (hs : w.step (.leave j true) = some (a, w')) (k : Nat) (hk : handleOf h k = some p) (a2 : Answer σ.T)
    (w2 : World σ) (hs2 : w'.step (.readTarget k) = some (a2, w2)) (ha2 : a2 ≠ .stuck) :
    a2 = .node (if excl then none else targetVal h p) := by
  have hl' := Legal.call hl hs (fun h => by obtain ⟨_, _, he, _⟩ := (step_stuck hl.targets hs).1 h; cases he)
  rw [(C68_read hl' k a2 hs2 ha2).1]
  have : handleOf (.leave j true :: h) k = some p := hk
  rw [this]
  cases excl <;> simp [targetVal, hu]

/-- C69: a target that has become unreadable stays so, whatever calls are made then. -/
theorem C69_for_good (hl : Legal g h w) (k : Nat) (hk : (handleOf h k).bind (targetVal h) = none) (h' : List (Call σ))
    (hkm : k < handlesMade h) (hl' : Legal g (h' ++ h) w') (a : Answer σ.T) (w2 : World σ)
    (hs : w'.step (.readTarget k) = some (a, w2)) (ha : a ≠ .stuck) : a = .node none := by
  rw [(C68_read hl' k a hs ha).1]
  have hm : ∀ {h : List (Call σ)} {w : World σ} {x : Call σ}, Legal g (x :: h) w → k < handlesMade h →
      (handleOf h k).bind (targetVal h) = none →
      k < handlesMade (x :: h) ∧ (handleOf (x :: h) k).bind (targetVal (x :: h)) = none := by
    intro h w x hl hkm hn
    cases hl with
    | @call _ w0 _ _ a hl hs hns =>
      have hkn : w0.handles.length = handlesMade h := hl.shape.nh
      cases hh : handleOf h k with
      | none =>
        have same : (∀ h, handleOf (x :: h) k = handleOf h k) ∨ handleOf (x :: h) k = handleOf h k := by
          cases x with
          | handle c k' =>
            have : k' = w0.handles.length := by
              simp only [World.step] at hs
              split at hs
              · split at hs
                · assumption
                · cases hs
              · cases hs
            exact .inr (by simp only [handleOf]; rw [if_neg (by omega)])
          | cloneHandle k0 k' =>
            have : k' = w0.handles.length := by
              simp only [World.step] at hs
              split at hs
              · split at hs
                · assumption
                · cases hs
              · cases hs
            exact .inr (by simp only [handleOf]; rw [if_neg (by omega)])
          | _ => exact .inl fun _ => rfl
        have e : handleOf (x :: h) k = handleOf h k := by
          rcases same with hs | hs
          · exact hs h
          · exact hs
        refine ⟨by cases x <;> simp only [handlesMade] <;> omega, by rw [e, hh]; rfl⟩
      | some p =>
        rw [hh] at hn
        have hn : targetVal h p = none := hn
        have hb := hl.targets.boundHandle k p hh
        rw [← hl.targets.count] at hb
        have e : handleOf (x :: h) k = some p := by
          cases x with
          | handle c k' =>
            have : k' = w0.handles.length := by
              simp only [World.step] at hs
              split at hs
              · split at hs
                · assumption
                · cases hs
              · cases hs
            simp only [handleOf]; rw [if_neg (by omega)]; exact hh
          | cloneHandle k0 k' =>
            have : k' = w0.handles.length := by
              simp only [World.step] at hs
              split at hs
              · split at hs
                · assumption
                · cases hs
              · cases hs
            simp only [handleOf]; rw [if_neg (by omega)]; exact hh
          | _ => exact hh
        refine ⟨by cases x <;> simp only [handlesMade] <;> omega, ?_⟩
        rw [e]
        show targetVal (x :: h) p = none
        cases x with
        | withTarget c n => simp only [targetVal]; rw [if_neg (by omega)]; exact hn
        | writeTarget k' f => simp only [targetVal, hn]; split <;> rfl
        | assign j n => simp only [targetVal, hn]; split <;> rfl
        | touch j f => simp only [targetVal, hn]; split <;> rfl
        | leave j b => cases b <;> simp only [targetVal, hn]; split <;> rfl
        | _ => exact hn
  have : ∀ (h' : List (Call σ)) (w : World σ), Legal g (h' ++ h) w →
      k < handlesMade (h' ++ h) ∧ (handleOf (h' ++ h) k).bind (targetVal (h' ++ h)) = none := by
    intro h'
    induction h' with
    | nil => intro w _; exact ⟨hkm, hk⟩
    | cons x h' ih =>
      intro w hl
      have hl0 := hl
      cases hl with
      | call hl _ _ =>
        obtain ⟨h1, h2⟩ := ih _ hl
        exact hm hl0 h1 h2
  rw [(this h' w' hl').2]

-- a closure of `with` saves, reads the target through another handle, and then changes it: that never returns
example : ((World.start demoGraph : World demo).calls
    [.context 0 0, .withTarget 0 ⟨5, 50⟩, .handle 0 0, .handle 0 1, .enter 0 false, .save 0 ⟨5, 50⟩, .readTarget 1, .get 0 5,
     .writeTarget 1 (fun n => (n, false))]).map (fun r => r.1.filter (· ≠ .none)) =
  some [.node (some ⟨5, 50⟩), .node (some ⟨5, 50⟩), .node (some ⟨5, 50⟩), .stuck] := by decide +kernel
-- a closure of `with_mut` assigns and panics; one of another target around it goes on
example : ((World.start demoGraph : World demo).calls
    [.context 0 0, .withTarget 0 ⟨5, 50⟩, .handle 0 0, .withTarget 0 ⟨6, 60⟩, .handle 0 1, .enter 1 true, .enter 0 true,
     .assign 0 ⟨5, 51⟩, .assign 1 ⟨6, 61⟩, .leave 0 true, .readTarget 0, .leave 0 false, .readTarget 1]).map
    (fun r => r.1.filter (· ≠ .none)) =
  some [.node (some ⟨6, 60⟩), .node (some ⟨5, 50⟩), .node none, .node (some ⟨6, 61⟩)] := by decide +kernel
-- the target is changed inside, through a shared reference, while others read it: there is no waiting, and all see it
example : ((World.start demoGraph : World demo).calls
    [.context 0 0, .withTarget 0 ⟨5, 50⟩, .handle 0 0, .enter 0 false, .enter 0 false, .touch 1 (fun n => ⟨n.key, n.body + 1⟩),
     .readTarget 0, .leave 0 false, .touch 0 (fun n => ⟨n.key, n.body + 1⟩), .leave 0 false, .readTarget 0]).map
    (fun r => r.1.filter (· ≠ .none)) =
  some [.node (some ⟨5, 50⟩), .node (some ⟨5, 50⟩), .node (some ⟨5, 51⟩), .node (some ⟨5, 52⟩)] := by decide +kernel
-- guards kept as values: the one taken first is dropped first; the other is still in the way of its own target only
example : ((World.start demoGraph : World demo).calls
    [.context 0 0, .withTarget 0 ⟨5, 50⟩, .handle 0 0, .withTarget 0 ⟨6, 60⟩, .handle 0 1, .enter 0 true, .enter 1 false,
     .assign 1 ⟨5, 51⟩, .leave 1 false, .readTarget 0, .readTarget 1, .writeTarget 1 (fun n => (n, false))]).map
    (fun r => r.1.filter (· ≠ .none)) =
  some [.node (some ⟨5, 50⟩), .node (some ⟨6, 60⟩), .node (some ⟨5, 51⟩), .node (some ⟨6, 60⟩), .stuck] := by decide +kernel

end Plotline
