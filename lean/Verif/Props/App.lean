import Verif.Lemmas.AppRes
import Verif.Spec.Fixtures
import Verif.Props.Transaction

/-! # Properties C78, C79 and C80: whole programs using a schema -/

namespace Plotline

open Std

set_option linter.unusedSectionVars false

variable {σ : Sig} [LawfulSig σ] {g : Graph σ.K σ.T} {h : List (AppCall σ)} {a a' : App σ}

/-! ## C78 -/

/-- C78: `get` through any guard returns what was put under the id last, through whatever guard or transaction. -/
theorem C78_get (hg : g.Reachable) (hl : AppLegal g h a) (n : Nat) (i : σ.K) (r : AppAnswer σ)
    (hs : a.step (.guardGet n i) = some (r, a')) : r = .node (storedAt g h i) := by
  obtain ⟨_, _, he⟩ := Option.map_eq_some_iff.1 hs
  cases he
  rw [schema_guard, (hl.gInv hg).stored]

/-- C78: `contains` answers whether there is such a node. -/
theorem C78_contains (hg : g.Reachable) (hl : AppLegal g h a) (n : Nat) (i : σ.K) (r : AppAnswer σ)
    (hs : a.step (.guardContains n i) = some (r, a')) : r = .bool (storedAt g h i).isSome := by
  obtain ⟨_, _, he⟩ := Option.map_eq_some_iff.1 hs
  cases he
  rw [schema_guard, ← (hl.gInv hg).stored, Graph.contains_eq]

/-- What an iterator over the graph goes through: all nodes there are, in the order of their ids. -/
def Lists (stored : σ.K → Option σ.T) (l : List σ.T) : Prop :=
  (∀ v, v ∈ l ↔ ∃ i, stored i = some v) ∧ l.Pairwise fun x y => compare (Plotline.id x) (Plotline.id y) = .lt

theorem lists_iter (hg : g.Reachable) (hl : AppLegal g h a) : Lists (storedAt g h) a.schema.guard.iter := by
  have hI := hl.gInv hg
  rw [schema_guard]
  refine ⟨fun v => ?_, C03_ascending _ hI.reach⟩
  rw [C03_exact _ hI.reach]
  simp only [hI.stored]

/-- C78: iterating over any guard goes through what is there, in order. -/
theorem C78_iter (hg : g.Reachable) (hl : AppLegal g h a) (n : Nat) (r : AppAnswer σ)
    (hs : a.step (.guardIter n) = some (r, a')) : ∃ l, r = .nodes l ∧ Lists (storedAt g h) l := by
  obtain ⟨_, _, he⟩ := Option.map_eq_some_iff.1 hs
  cases he
  exact ⟨_, rfl, lists_iter hg hl⟩

/-- C78: `insert` returns what was there under the id. -/
theorem C78_insert (hg : g.Reachable) (hl : AppLegal g h a) (n : Nat) (v : σ.T) (r : AppAnswer σ)
    (hs : a.step (.insert n v) = some (r, a')) : r = .node (storedAt g h (Plotline.id v)) := by
  obtain ⟨_, _, he⟩ := Option.map_eq_some_iff.1 hs
  cases he
  rw [← (hl.gInv hg).stored, schema_guard]
  rw [Graph.insert_snd]

/-- C78: `remove` returns what was there under the id. -/
theorem C78_remove (hg : g.Reachable) (hl : AppLegal g h a) (n : Nat) (i : σ.K) (r : AppAnswer σ)
    (hs : a.step (.remove n i) = some (r, a')) : r = .node (storedAt g h i) := by
  obtain ⟨_, _, he⟩ := Option.map_eq_some_iff.1 hs
  cases he
  rw [← (hl.gInv hg).stored, schema_guard]
  rw [Graph.remove_snd]

/-- C78: a graph taken out from behind a write guard has what was there. -/
theorem C78_replace (hg : g.Reachable) (hl : AppLegal g h a) (n : Nat) (nodes : List σ.T) (r : AppAnswer σ)
    (hs : a.step (.replace n nodes) = some (r, a')) : ∃ l, r = .nodes l ∧ Lists (storedAt g h) l := by
  obtain ⟨_, _, he⟩ := Option.map_eq_some_iff.1 hs
  cases he
  exact ⟨_, rfl, lists_iter hg hl⟩

theorem inTx_world {x : Nat} {c : Call σ} {r : AppAnswer σ} (hs : a.step (.inTx x c) = some (r, a')) (h1 : c ≠ .abandon 0)
    (h2 : ∀ d, c ≠ .context 0 d) :
    ∃ w st r' w', a.txs[x]? = some ⟨some w, st⟩ ∧ w.step c = some (r', w') ∧ r = r'.lift := by
  simp only [App.step] at hs
  split at hs
  · cases hs
  · split at hs
    · cases hs
    · cases hs
  · rename_i w st hv
    split at hs
    · cases hs
    · rename_i r' w' hw
      refine ⟨w, st, r', w', hv, hw, ?_⟩
      split at hs <;> cases hs <;> rfl

/-- A transaction with a context in use is about the graph as it is now. -/
theorem world_held (hI : GInv g h a) {x d : Nat} {w : World σ} {st : CtxEnd} (hv : a.txs[x]? = some ⟨some w, st⟩)
    (hd : Held (callsOf x h) d) : Legal a.schema.graph (callsOf x h) w := by
  obtain ⟨_, h1, g', h2, h3⟩ := hI.world x w st hv
  rw [← h3 (by rw [h1.2 (held_open h2 hd)]; simp)]
  exact h2

/-- C78: `get` through any context returns the node of the last write that counts for its transaction, else for the transaction
around it, and so on, else what is in the graph by what happened before, through whatever guard or transaction. -/
theorem C78_tx_get (hg : g.Reachable) (hl : AppLegal g h a) (x c : Nat) (i : σ.K) (r : AppAnswer σ)
    (hs : a.step (.inTx x (.get c i)) = some (r, a')) :
    ∃ t v, txOf (callsOf x h) c = some t ∧ r = .node v ∧ ∀ v', Sees (storedAt g h i) (callsOf x h) i t v' ↔ v' = v := by
  have hI := hl.gInv hg
  obtain ⟨w, st, r', w', hv, hw, rfl⟩ := inTx_world hs (by simp) (by simp)
  obtain ⟨_, _, g', h2, _⟩ := hI.world x w st hv
  have h3 := world_held hI hv ((C67_possible h2 _).1 ⟨_, _, hw⟩)
  obtain ⟨t, v, h4, rfl, h5⟩ := C67_get h3 c i r' hw
  refine ⟨t, v, h4, rfl, fun v' => ?_⟩
  rw [← hI.stored, sees_reads]; exact h5 v'

/-- C78: `contains` through a context answers whether `get` returns a node. -/
theorem C78_tx_contains (hg : g.Reachable) (hl : AppLegal g h a) (x c : Nat) (i : σ.K) (r : AppAnswer σ)
    (hs : a.step (.inTx x (.contains c i)) = some (r, a')) :
    ∃ t v, txOf (callsOf x h) c = some t ∧ r = .bool v.isSome ∧ ∀ v', Sees (storedAt g h i) (callsOf x h) i t v' ↔ v' = v := by
  have hI := hl.gInv hg
  obtain ⟨w, st, r', w', hv, hw, rfl⟩ := inTx_world hs (by simp) (by simp)
  obtain ⟨_, _, g', h2, _⟩ := hI.world x w st hv
  have h3 := world_held hI hv ((C67_possible h2 _).1 ⟨_, _, hw⟩)
  obtain ⟨t, v, h4, rfl, h5⟩ := C67_contains h3 c i r' hw
  refine ⟨t, v, h4, rfl, fun v' => ?_⟩
  rw [← hI.stored, sees_reads]; exact h5 v'

/-- What calls on the demo schema return, but for those that return nothing. -/
inductive Shown where
  | node (n : Option Doc)
  | nodes (l : List Doc)
  | bool (b : Bool)
  | value (v : Option Nat)
  | panic
  | stuck
deriving DecidableEq

/-- What calls on the demo graph return. -/
def shown (xs : List (AppCall demo)) : Option (List Shown) :=
  ((App.start demoGraph : App demo).calls xs).map fun r => r.1.filterMap fun
    | .none => none
    | .node n => some (.node n)
    | .nodes l => some (.nodes l)
    | .bool b => some (.bool b)
    | .value _ v => some (.value v)
    | .panic => some .panic
    | .stuck => some .stuck

-- two read guards; a write guard; a transaction with a subtransaction; a read guard after it
example : shown
    [.read 0, .read 1, .guardGet 0 1, .guardIter 1, .dropGuard 1 false, .dropGuard 0 false,
     .write 2, .insert 2 ⟨3, 30⟩, .remove 2 1, .guardGet 2 3, .dropGuard 2 false,
     .transaction 0, .inTx 0 (.context 0 0), .inTx 0 (.save 0 ⟨3, 33⟩), .inTx 0 (.transaction 0 1), .inTx 0 (.context 1 1),
     .inTx 0 (.delete 1 2), .inTx 0 (.get 1 3), .inTx 0 (.contains 1 2), .inTx 0 (.dropCtx 1), .inTx 0 (.commit 1),
     .inTx 0 (.get 0 2), .inTx 0 (.dropCtx 0), .inTx 0 (.commit 0),
     .read 3, .guardIter 3, .guardContains 3 1] =
    some [.node (some ⟨1, 10⟩), .nodes [⟨1, 10⟩, ⟨2, 20⟩], .node none, .node (some ⟨1, 10⟩), .node (some ⟨3, 30⟩),
      .node (some ⟨3, 33⟩), .bool false, .node none, .nodes [⟨3, 33⟩], .bool false] := by decide +kernel
-- what a panic unwinds is not in the graph; a graph can be exchanged as a whole
example : shown
    [.transaction 0, .transaction 1, .inTx 0 (.context 0 0), .inTx 0 (.save 0 ⟨3, 30⟩), .inTx 0 (.dropCtx 0), .unwindTx 0,
     .write 0, .guardIter 0, .replace 0 [⟨5, 50⟩, ⟨4, 40⟩, ⟨5, 55⟩], .dropGuard 0 true,
     .inTx 1 (.context 0 0), .inTx 1 (.get 0 5), .inTx 1 (.contains 0 1)] =
    some [.nodes [⟨1, 10⟩, ⟨2, 20⟩], .nodes [⟨1, 10⟩, ⟨2, 20⟩], .node (some ⟨5, 55⟩), .bool false] := by decide +kernel

/-! ## C79 -/

theorem possible_nil (c : Call σ) : Possible ([] : List (Call σ)) c ↔ c = .context 0 0 ∨ c = .commit 0 ∨ c = .abandon 0 := by
  cases c <;> simp [Possible, Open, Held, contextsMade, handlesMade, targetsInUse]

theorem possible_over (c : Call σ) : ¬ Possible [.abandon 0] c := by
  cases c <;> simp [Possible, Open, Held, contextsMade, handlesMade, targetsInUse] <;> omega

theorem tx_made (hI : GInv g h a) (x : Nat) : x < ownersMade h ↔ ∃ v, a.txs[x]? = some v := by
  rw [← hI.nt]
  exact ⟨fun hlt => ⟨_, List.getElem?_eq_getElem hlt⟩, fun ⟨_, he⟩ => (List.getElem?_eq_some_iff.1 he).1⟩

theorem possible_inTx (hI : GInv g h a) (x : Nat) (c : Call σ) :
    (∃ r a', a.step (.inTx x c) = some (r, a')) ↔ AppPossible h (.inTx x c) := by
  simp only [App.step, AppPossible, tx_made hI]
  cases hv : a.txs[x]? with
  | none => simp
  | some v =>
    obtain ⟨wo, st⟩ := v
    cases wo with
    | none =>
      have hf := hI.fresh x st hv
      by_cases hst : st = .live
      · subst hst
        simp only [if_true] at hf
        have h0 := (possible_nil c)
        rw [hf, h0]
        simp only [if_true, Option.some.injEq, exists_eq', true_and, ne_eq, not_true, imp_false]
        constructor
        · rintro ⟨r, a', hs⟩
          split at hs
          · rename_i d
            split at hs
            · cases hs
            · rename_i hw
              have := ((C67_possible .start (.context 0 d)).1 ⟨_, _, hw⟩).2
              refine ⟨.inl ?_, by simp⟩
              rw [this]; rfl
          · exact ⟨.inr (.inr rfl), by simp⟩
          · cases hs
        · rintro ⟨rfl | rfl | rfl, hc⟩
          · obtain ⟨r, w, hw⟩ := (C67_possible (.start (g := a.schema.guard)) (.context 0 0 : Call σ)).2 ⟨rfl, rfl⟩
            simp only [hw]
            split
            · exact ⟨_, _, rfl⟩
            · exact ⟨_, _, rfl⟩
          · exact absurd rfl hc
          · exact ⟨_, _, rfl⟩
      · simp only [if_neg hst] at hf
        rw [hf]
        simp [hst, possible_over]
    | some w =>
      obtain ⟨hne, _, g', hl, _⟩ := hI.world x w st hv
      simp only [Option.some.injEq, exists_eq', true_and, ← C67_possible hl, hne, ne_eq, not_false_eq_true, implies_true, and_true]
      constructor
      · rintro ⟨r, a', hs⟩
        split at hs
        · cases hs
        · rename_i r' w' hw; exact ⟨r', w', hw⟩
      · rintro ⟨r', w', hw⟩
        simp only [hw]
        split <;> exact ⟨_, _, rfl⟩

theorem endTx_possible (hI : GInv g h a) (x : Nat) (st : CtxEnd) :
    (∃ b, a.endTx x st = some b) ↔ x < ownersMade h ∧ Possible (callsOf x h) (.abandon 0) := by
  simp only [tx_made hI, App.endTx]
  cases hv : a.txs[x]? with
  | none => simp
  | some v =>
    obtain ⟨wo, s⟩ := v
    cases wo with
    | none =>
      have hf := hI.fresh x s hv
      cases s with
      | live => rw [hf]; simp [possible_nil]
      | dropped => rw [hf]; simp [possible_over]
      | forgotten => rw [hf]; simp [possible_over]
    | some w =>
      obtain ⟨_, hopen, g', hl, _⟩ := hI.world x w s hv
      rw [← C67_possible hl]
      cases s with
      | live =>
        constructor
        · rintro ⟨b, hb⟩
          obtain ⟨⟨r, w'⟩, hw, _⟩ := Option.map_eq_some_iff.1 hb
          exact ⟨⟨_, rfl⟩, r, w', hw⟩
        · rintro ⟨_, r, w', hw⟩
          simp [hw]
      | dropped =>
        simp only [reduceCtorEq, exists_false, Option.some.injEq, exists_eq', true_and, false_iff]
        exact fun hp => by cases hopen.2 (((C67_possible hl _).1 hp).1)
      | forgotten =>
        simp only [reduceCtorEq, exists_false, Option.some.injEq, exists_eq', true_and, false_iff]
        exact fun hp => by cases hopen.2 (((C67_possible hl _).1 hp).1)

/-- Whether the transaction itself can still be used. -/
theorem tx_live (hI : GInv g h a) {x : Nat} {v : TxOwner σ} (hv : a.txs[x]? = some v) : v.status = .live ↔ Open (callsOf x h) 0 := by
  obtain ⟨wo, st⟩ := v
  cases wo with
  | none =>
    have hf := hI.fresh x st hv
    rw [hf]
    by_cases hst : st = .live <;> simp [hst, Open]
  | some w => exact (hI.world x w st hv).2.1

/-- C79: which calls can be written down is decided by what was made and ended before. -/
theorem C79_possible (hg : g.Reachable) (hl : AppLegal g h a) (x : AppCall σ) :
    (∃ r a', a.step x = some (r, a')) ↔ AppPossible h x := by
  have hI := hl.gInv hg
  have hR := hl.res
  have hguard : ∀ (n : Nat) (f : GuardVal → AppAnswer σ × App σ), (∃ r a', (a.guard n).map f = some (r, a')) ↔ ∃ e, GuardUsable h n e := by
    intro n f
    rw [guard_usable hI]
    cases a.guard n with
    | none => simp
    | some y => simp only [Option.map_some, Option.some.injEq, exists_eq', iff_true]; exact ⟨(f y).1, (f y).2, rfl⟩
  have hwriter : ∀ (n : Nat) (f : GuardVal → AppAnswer σ × App σ), (∃ r a', (a.writer n).map f = some (r, a')) ↔ GuardUsable h n true := by
    intro n f
    rw [writer_usable hI]
    cases a.writer n with
    | none => simp
    | some y => simp only [Option.map_some, Option.some.injEq, exists_eq', iff_true]; exact ⟨(f y).1, (f y).2, rfl⟩
  cases x with
  | read n =>
    simp only [App.step, AppPossible, hI.ng]
    by_cases hn : n = guardsMade h
    · rw [if_pos hn]; split <;> simp [hn]
    · simp [hn]
  | write n =>
    simp only [App.step, AppPossible, hI.ng]
    by_cases hn : n = guardsMade h
    · rw [if_pos hn]; split <;> simp [hn]
    · simp [hn]
  | guardGet n i => exact hguard _ _
  | guardContains n i => exact hguard _ _
  | guardIter n => exact hguard _ _
  | touch n i f => exact hguard _ _
  | dropGuard n b => exact hguard _ _
  | forgetGuard n => exact hguard _ _
  | insert n v => exact hwriter _ _
  | remove n i => exact hwriter _ _
  | replace n l => exact hwriter _ _
  | transaction n =>
    simp only [App.step, AppPossible, hI.nt]
    by_cases hn : n = ownersMade h <;> simp [hn]
  | inTx n c => exact possible_inTx hI n c
  | unwindTx n =>
    show _ ↔ n < ownersMade h ∧ _
    rw [← endTx_possible hI n .dropped]
    simp only [App.step]
    split
    · rename_i hv
      simp [App.endTx, hv]
    · cases a.endTx n .dropped <;> simp
  | forgetTx n =>
    show _ ↔ n < ownersMade h ∧ _
    rw [← endTx_possible hI n .forgotten]
    simp only [App.step]
    cases a.endTx n .forgotten <;> simp
  | register t v =>
    simp only [App.step, AppPossible, tx_made hI]
    have : a.unborrowed = true ↔ (∀ g e, ¬ GuardUsable h g e) ∧ ∀ x, (∃ v, a.txs[x]? = some v) → ¬ Open (callsOf x h) 0 := by
      simp only [App.unborrowed, Bool.and_eq_true, List.all_eq_true, hI.usable, bne_iff_ne]
      constructor
      · rintro ⟨h1, h2⟩
        refine ⟨fun n e ⟨y, hy, _, hs⟩ => h1 y (List.mem_of_getElem? hy) hs, fun x ⟨v, hv⟩ ho => ?_⟩
        exact h2 v (List.mem_of_getElem? hv) ((tx_live hI hv).2 ho)
      · rintro ⟨h1, h2⟩
        refine ⟨fun y hy hs => ?_, fun v hv hs => ?_⟩
        · obtain ⟨n, hn⟩ := List.mem_iff_getElem?.1 hy
          exact h1 n y.excl ⟨y, hn, rfl, hs⟩
        · obtain ⟨n, hn⟩ := List.mem_iff_getElem?.1 hv
          exact h2 n ⟨v, hn⟩ ((tx_live hI hn).1 hs)
    rw [← this]
    cases a.unborrowed <;> simp
  | resource t k =>
    simp only [App.step, AppPossible, hR.nh]
    by_cases hn : k = resMade h <;> simp [hn]
  | lockRes k e n =>
    simp only [App.step, AppPossible, hR.ng, ← hR.nh]
    by_cases hn : n = resGuardsMade h
    · simp only [hn, if_true, and_true]
      cases hk : a.handles[k]? with
      | none => simp [List.getElem?_eq_none_iff.1 hk]
      | some y =>
        have hlt := (List.getElem?_eq_some_iff.1 hk).1
        simp only [hlt, iff_true]
        obtain ⟨t, ⟨p⟩⟩ := y
        cases p with
        | none => exact ⟨_, _, rfl⟩
        | some p =>
          obtain ⟨l, h1, _⟩ := hR.handleTyped k t p hk
          simp only [h1]
          split <;> exact ⟨_, _, rfl⟩
    · simp [hn]
  | peekRes t n =>
    simp only [App.step, AppPossible, resGuard_usable hR, hR.guard]
    cases hx : a.resGuard n with
    | none => simp
    | some x =>
      obtain ⟨h1, _⟩ := resGuard_some hx
      rw [h1]
      by_cases ht : x.type = t
      · subst ht
        simp only [if_true, Option.some.injEq, exists_eq', true_and, Option.map_some, Prod.mk.injEq]
        refine iff_of_true ?_ ⟨_, _, rfl, rfl⟩
        cases hc : x.cell with
        | none => exact ⟨_, _, rfl⟩
        | some p =>
          obtain ⟨l, h3, _⟩ := hR.guardTyped n x p h1 hc
          simp only [h3]
          exact ⟨_, _, rfl⟩
      · simp [ht]
  | assignRes n t v =>
    simp only [App.step, AppPossible, resGuard_usable hR, hR.guard]
    cases hx : a.resGuard n with
    | none => simp
    | some x =>
      obtain ⟨h1, _⟩ := resGuard_some hx
      rw [h1]
      by_cases ht : x.type = t ∧ x.excl = true
      · obtain ⟨rfl, he⟩ := ht
        simp only [he, and_self, if_true, Option.some.injEq, exists_eq', true_and, Option.map_some, Prod.mk.injEq, iff_true]
        cases hc : x.cell with
        | none => exact ⟨_, _, rfl⟩
        | some p =>
          obtain ⟨l, h3, _⟩ := hR.guardTyped n x p h1 hc
          simp only [h3]
          split <;> exact ⟨_, _, rfl⟩
      · simp only [if_neg ht, reduceCtorEq, exists_false, Option.some.injEq, exists_eq', true_and, Option.map_some, Prod.mk.injEq, false_iff]
        rintro ⟨r, h3, h4, _⟩; exact ht ⟨h3, h4⟩
  | dropRes n b =>
    simp only [App.step, AppPossible, resGuard_usable hR]
    cases hx : a.resGuard n with
    | none => simp
    | some x => simp only [Option.some.injEq, exists_eq', iff_true]; split <;> exact ⟨_, _, rfl⟩
  | forgetRes n =>
    simp only [App.step, AppPossible, resGuard_usable hR]
    cases hx : a.resGuard n with
    | none => simp
    | some x => simp

theorem lift_eq_stuck {r : Answer σ.T} : r.lift (σ := σ) = .stuck ↔ r = .stuck := by cases r <;> simp [Answer.lift]

/-- C79: a call never returns if, and only if, it waits for a lock that is held by a value which was not dropped: any call of
`write`, and the first context of a transaction, for any guard or transaction; `read` for a write guard or a transaction; access
to a resource or target for an access to the same one, if one of them can write. -/
theorem C79_stuck (hg : g.Reachable) (hl : AppLegal g h a) (x : AppCall σ) (r : AppAnswer σ) (hs : a.step x = some (r, a')) :
    r = .stuck ↔ NeverReturns h x := by
  have hI := hl.gInv hg
  have hR := hl.res
  cases x with
  | read n =>
    simp only [App.step] at hs
    rw [NeverReturns, ← exclusive_iff hI]
    split at hs
    · split at hs <;> cases hs <;> simp_all
    · cases hs
  | write n =>
    simp only [App.step] at hs
    rw [NeverReturns, ← locked_iff hI]
    split at hs
    · split at hs <;> cases hs <;> simp_all
    · cases hs
  | inTx n c =>
    by_cases hc : ∃ d, c = .context 0 d
    · obtain ⟨d, rfl⟩ := hc
      rw [NeverReturns, ← locked_iff hI, hI.txKept]
      simp only [App.step] at hs
      split at hs
      · cases hs
      · rename_i hv
        rw [hv]
        split at hs
        · split at hs
          · cases hs
          · rename_i r' w hw
            have hns : r' ≠ .stuck := answer_stuck .start hw rfl
            split at hs
            · cases hs; simp_all [TxOwner.holds]
            · cases hs; rw [lift_eq_stuck]; simp_all
        · cases hs
      · rename_i w st hv
        rw [hv]
        split at hs
        · cases hs
        · rename_i r' w' hw
          cases hs
          obtain ⟨_, hopen, g', hl', _⟩ := hI.world n w st hv
          have hst := hopen.2 ((C67_possible hl' _).1 ⟨_, _, hw⟩).1
          subst hst
          rw [lift_eq_stuck]
          simp [answer_stuck hl' hw rfl, TxOwner.holds]
    · have hdef : NeverReturns h (.inTx n c) ↔ ∃ k e, accessOf c = some (k, e) ∧ Waits (callsOf n h) k e := by
        cases c with
        | context t d => cases t with
          | zero => exact absurd ⟨d, rfl⟩ hc
          | succ t => exact Iff.rfl
        | _ => exact Iff.rfl
      rw [hdef]
      by_cases hab : c = .abandon 0
      · subst hab
        simp only [accessOf, reduceCtorEq, false_and, exists_false, iff_false]
        simp only [App.step] at hs
        split at hs
        · cases hs
        · split at hs
          · cases hs; simp
          · cases hs
        · rename_i w st hv
          split at hs
          · cases hs
          · rename_i r' w' hw
            cases hs
            obtain ⟨_, _, g', hl', _⟩ := hI.world n w st hv
            rw [lift_eq_stuck]
            exact answer_stuck hl' hw rfl
      · obtain ⟨w, st, r', w', hv, hw, rfl⟩ := inTx_world hs hab (fun d hd => hc ⟨d, hd⟩)
        obtain ⟨_, _, g', hl', _⟩ := hI.world n w st hv
        rw [lift_eq_stuck]
        exact step_stuck hl'.targets hw
  | lockRes k e n =>
    simp only [App.step] at hs
    simp only [NeverReturns, hR.handle]
    split at hs
    · split at hs
      · cases hs
      · rename_i hk
        cases hs
        rw [hk]; simp
      · rename_i t p hk
        have hh : (∃ t' r g t'' e', (a.handles[k]?).map (fun x => (x.1, x.2.lock)) = some (t', some r) ∧ ResKept h g ∧
            resGuardOf h g = some (t'', e', some r) ∧ (e = true ∨ e' = true)) ↔ a.resLocked p e = true := by
          rw [resLocked_iff hR, hk]
          simp only [Option.map_some, Option.some.injEq, Prod.mk.injEq]
          constructor
          · rintro ⟨t', r, g, t'', e', ⟨_, h1⟩, h2⟩
            cases h1; exact ⟨g, t'', e', h2⟩
          · rintro ⟨g, t'', e', h2⟩
            exact ⟨t, p, g, t'', e', ⟨rfl, rfl⟩, h2⟩
        rw [hh]
        split at hs
        · cases hs; simp_all
        · split at hs
          · cases hs
          · cases hs; simp_all
    · cases hs
  | unwindTx n =>
    simp only [App.step] at hs
    simp only [NeverReturns, iff_false]
    split at hs
    · cases hs
    · obtain ⟨_, _, he⟩ := Option.map_eq_some_iff.1 hs; cases he; simp
  | _ =>
    simp only [App.step, Option.map_eq_some_iff] at hs
    simp only [NeverReturns, iff_false]
    repeat' split at hs
    all_goals first
      | (cases hs; done)
      | (obtain ⟨_, _, he⟩ := hs; cases he; simp)
      | (cases hs; simp)

/-- Forgetting is for ever. -/
theorem forgotten_step (hI : GInv g h a) {x : AppCall σ} {r : AppAnswer σ} (hs : a.step x = some (r, a')) :
    (∀ (n : Nat) y, a.guards[n]? = some y → y.status = .forgotten → a'.guards[n]? = some y) ∧
    (∀ (n : Nat) y, a.txs[n]? = some y → y.status = .forgotten → ∃ w, a'.txs[n]? = some ⟨w, .forgotten⟩ ∧ w.isSome = y.world.isSome) ∧
    (∀ (n : Nat) y, a.resGuards[n]? = some y → y.status = .forgotten → a'.resGuards[n]? = some y) := by
  have hend : ∀ {n : Nat} {z : GuardVal} {st : CtxEnd}, a.guard n = some z → ∀ (m : Nat) y, a.guards[m]? = some y → y.status = .forgotten →
      (a.endGuard n st).guards[m]? = some y := by
    intro n z st hz m y hy hs
    obtain ⟨h1, h2⟩ := guard_some hz
    have hne : n ≠ m := by rintro rfl; rw [h1] at hy; cases hy; rw [h2] at hs; cases hs
    show (a.guards.modify n _)[m]? = _
    rw [getElem?_modify_ne _ _ hne]; exact hy
  have hrend : ∀ {n : Nat} {z : ResGuardVal σ.Ty} {st : CtxEnd}, a.resGuard n = some z → ∀ (m : Nat) y, a.resGuards[m]? = some y →
      y.status = .forgotten → (a.resGuards.modify n fun x => { x with status := st })[m]? = some y := by
    intro n z st hz m y hy hs
    obtain ⟨h1, h2⟩ := resGuard_some hz
    have hne : n ≠ m := by rintro rfl; rw [h1] at hy; cases hy; rw [h2] at hs; cases hs
    rw [getElem?_modify_ne _ _ hne]; exact hy
  have hset : ∀ {n : Nat} {v v' : TxOwner σ}, a.txs[n]? = some v → (v.status = .live ∨ (v'.status = v.status ∧ v'.world.isSome = v.world.isSome)) →
      ∀ (m : Nat) y, a.txs[m]? = some y → y.status = .forgotten → ∃ w, (a.txs.set n v')[m]? = some ⟨w, .forgotten⟩ ∧
        w.isSome = y.world.isSome := by
    intro n v v' hv hor m y hy hs
    by_cases hm : n = m
    · subst hm
      rw [hv] at hy; cases hy
      rcases hor with hl | ⟨h1, h2⟩
      · rw [hs] at hl; cases hl
      · refine ⟨v'.world, ?_, h2⟩
        rw [List.getElem?_set_self (List.getElem?_eq_some_iff.1 hv).1]
        obtain ⟨w, st⟩ := v'
        rw [← hs, ← h1]
    · rw [List.getElem?_set_ne hm]
      obtain ⟨w, st⟩ := y
      cases hs
      exact ⟨w, hy, rfl⟩
  have hsame : ∀ (m : Nat) (y : TxOwner σ), a.txs[m]? = some y → y.status = .forgotten → ∃ w, a.txs[m]? = some ⟨w, .forgotten⟩ ∧
      w.isSome = y.world.isSome := by
    intro m y hy hs
    obtain ⟨w, st⟩ := y
    cases hs
    exact ⟨w, hy, rfl⟩
  have hendTx : ∀ {n : Nat} {st : CtxEnd} {b : App σ}, a.endTx n st = some b → b.guards = a.guards ∧
      ∀ (m : Nat) y, a.txs[m]? = some y → y.status = .forgotten → ∃ w, b.txs[m]? = some ⟨w, .forgotten⟩ ∧ w.isSome = y.world.isSome := by
    intro n st b hb
    unfold App.endTx at hb
    split at hb
    · rename_i hv; cases hb; exact ⟨rfl, hset hv (.inl rfl)⟩
    · rename_i hv; obtain ⟨_, _, he⟩ := Option.map_eq_some_iff.1 hb; cases he; exact ⟨rfl, hset hv (.inl rfl)⟩
    · cases hb
  have hadd : ∀ {α : Type} {l : List α} {z : α} (n : Nat) (y : α), l[n]? = some y → (l ++ [z])[n]? = some y :=
    fun n y hy => (getElem?_snoc _ _ _ _).2 (.inl hy)
  cases x with
  | read n =>
    simp only [App.step] at hs
    split at hs
    · split at hs <;> cases hs
      · exact ⟨fun n y hy _ => hy, hsame, fun n y hy _ => hy⟩
      · exact ⟨fun n y hy _ => hadd n y hy, hsame, fun n y hy _ => hy⟩
    · cases hs
  | write n =>
    simp only [App.step] at hs
    split at hs
    · split at hs <;> cases hs
      · exact ⟨fun n y hy _ => hy, hsame, fun n y hy _ => hy⟩
      · exact ⟨fun n y hy _ => hadd n y hy, hsame, fun n y hy _ => hy⟩
    · cases hs
  | dropGuard n b =>
    obtain ⟨z, hz, he⟩ := Option.map_eq_some_iff.1 hs
    cases he
    exact ⟨hend hz, hsame, fun n y hy _ => hy⟩
  | forgetGuard n =>
    obtain ⟨z, hz, he⟩ := Option.map_eq_some_iff.1 hs
    cases he
    exact ⟨hend hz, hsame, fun n y hy _ => hy⟩
  | transaction n =>
    simp only [App.step] at hs
    split at hs
    · cases hs
      refine ⟨fun n y hy _ => hy, fun n y hy hst => ?_, fun n y hy _ => hy⟩
      obtain ⟨w, h1, h2⟩ := hsame n y hy hst
      exact ⟨w, hadd n _ h1, h2⟩
    · cases hs
  | inTx n c =>
    simp only [App.step] at hs
    split at hs
    · cases hs
    · rename_i st hv
      split at hs
      · rename_i hst
        subst hst
        repeat' split at hs
        all_goals cases hs
        all_goals first
          | exact ⟨fun n y hy _ => hy, hsame, fun n y hy _ => hy⟩
          | exact ⟨fun n y hy _ => hy, hset hv (.inl rfl), fun n y hy _ => hy⟩
      · cases hs
    · rename_i w st hv
      split at hs
      · cases hs
      · rename_i r' w' hw
        obtain ⟨_, hopen, g', hl, _⟩ := hI.world n w st hv
        have hpos := (C67_possible hl c).1 ⟨r', w', hw⟩
        split at hs <;> cases hs
        · exact ⟨fun n y hy _ => hy, hset hv (.inl (hopen.2 hpos.1)), fun n y hy _ => hy⟩
        · exact ⟨fun n y hy _ => hy, hset hv (.inl (hopen.2 hpos.1)), fun n y hy _ => hy⟩
        · exact ⟨fun n y hy _ => hy, hset hv (.inr ⟨rfl, rfl⟩), fun n y hy _ => hy⟩
  | unwindTx n =>
    simp only [App.step] at hs
    split at hs
    · cases hs
    · obtain ⟨b, hb, he⟩ := Option.map_eq_some_iff.1 hs
      cases he
      obtain ⟨h1, h2⟩ := hendTx hb
      exact ⟨fun n y hy _ => by simpa [h1] using hy, h2, fun n y hy _ => by simpa [(endTx_res hb).2.2] using hy⟩
  | forgetTx n =>
    obtain ⟨b, hb, he⟩ := Option.map_eq_some_iff.1 hs
    cases he
    obtain ⟨h1, h2⟩ := hendTx hb
    exact ⟨fun n y hy _ => by simpa [h1] using hy, h2, fun n y hy _ => by simpa [(endTx_res hb).2.2] using hy⟩
  | lockRes k e n =>
    simp only [App.step] at hs
    repeat' split at hs
    all_goals cases hs
    all_goals first
      | exact ⟨fun n y hy _ => hy, hsame, fun n y hy _ => hy⟩
      | exact ⟨fun n y hy _ => hy, hsame, fun n y hy _ => hadd n y hy⟩
  | dropRes n b =>
    simp only [App.step] at hs
    split at hs
    · cases hs
    · rename_i hx
      split at hs <;> cases hs <;> exact ⟨fun n y hy _ => hy, hsame, hrend hx⟩
  | forgetRes n =>
    simp only [App.step] at hs
    split at hs
    · cases hs
    · rename_i hx
      cases hs; exact ⟨fun n y hy _ => hy, hsame, hrend hx⟩
  | _ =>
    simp only [App.step, Option.map_eq_some_iff] at hs
    repeat' split at hs
    all_goals first
      | (cases hs; done)
      | (obtain ⟨_, _, he⟩ := hs; cases he; exact ⟨fun n y hy _ => hy, hsame, fun n y hy _ => hy⟩)
      | (cases hs; exact ⟨fun n y hy _ => hy, hsame, fun n y hy _ => hy⟩)

theorem legal_forgotten (hg : g.Reachable) {h' : List (AppCall σ)} (hl : AppLegal g (h' ++ h) a) :
    ∃ b, AppLegal g h b ∧ (∀ (n : Nat) y, b.guards[n]? = some y → y.status = .forgotten → a.guards[n]? = some y) ∧
      (∀ (n : Nat) y, b.txs[n]? = some y → y.status = .forgotten → ∃ w, a.txs[n]? = some ⟨w, .forgotten⟩ ∧ w.isSome = y.world.isSome) ∧
      (∀ (n : Nat) y, b.resGuards[n]? = some y → y.status = .forgotten → a.resGuards[n]? = some y) := by
  induction h' generalizing a with
  | nil =>
    exact ⟨a, hl, fun n y hy _ => hy, fun n y hy hs => ⟨y.world, by obtain ⟨w, st⟩ := y; cases hs; exact hy, rfl⟩, fun n y hy _ => hy⟩
  | cons x h' ih =>
    cases hl with
    | call hl hs hr =>
      obtain ⟨b, h1, h2, h3, h4⟩ := ih hl
      obtain ⟨k1, k2, k3⟩ := forgotten_step (hl.gInv hg) hs
      refine ⟨b, h1, fun n y hy hf => k1 n y (h2 n y hy hf) hf, fun n y hy hf => ?_, fun n y hy hf => k3 n y (h4 n y hy hf) hf⟩
      obtain ⟨w, h5, h6⟩ := h3 n y hy hf
      obtain ⟨w', h7, h8⟩ := k2 n _ h5 rfl
      exact ⟨w', h7, h8.trans h6⟩

/-- C79: once a guard was forgotten, `write` never returns again, no transaction gets a context, and after a write guard `read`
never returns either. -/
theorem C79_forgotten_guard (hg : g.Reachable) {h' : List (AppCall σ)} {n : Nat} {e : Bool}
    (hl : AppLegal g (h' ++ .forgetGuard n :: h) a) (hu : GuardUsable h n e) (x : AppCall σ) (r : AppAnswer σ)
    (hs : a.step x = some (r, a'))
    (hx : (∃ m, x = .write m) ∨ (e = true ∧ ∃ m, x = .read m) ∨ ∃ y d, x = .inTx y (.context 0 d)) : r = .stuck := by
  have hI := hl.gInv hg
  obtain ⟨b, hb, hk, _, _⟩ := legal_forgotten hg hl
  have hbI := hb.gInv hg
  have hkept : GuardKept (h' ++ .forgetGuard n :: h) n e := by
    cases hb with
    | call hb' hs' hr' =>
      obtain ⟨y, hy, he⟩ := Option.map_eq_some_iff.1 hs'
      cases he
      obtain ⟨h1, h2⟩ := guard_some hy
      obtain ⟨z, h3, h4, _⟩ := ((hb'.gInv hg).usable n e).1 hu
      rw [h1] at h3; cases h3
      refine (hI.kept n e).2 ⟨{ y with status := .forgotten }, hk n _ ?_ rfl, h4, by simp⟩
      show (List.modify _ n _)[n]? = _
      rw [getElem?_modify_self, h1]; rfl
  refine (C79_stuck hg hl x r hs).2 ?_
  rcases hx with ⟨m, rfl⟩ | ⟨rfl, m, rfl⟩ | ⟨y, d, rfl⟩
  · exact .inl ⟨n, e, hkept⟩
  · exact .inl ⟨n, hkept⟩
  · refine ⟨fun hy => ?_, .inl ⟨n, e, hkept⟩⟩
    obtain ⟨v, h1, h2⟩ := (hI.txKept y).1 hy
    obtain ⟨z, h3, _, h4⟩ := (hI.kept n e).1 hkept
    exact hI.excl2 n y z v h3 h1 h4 h2

/-- C79: once a transaction was forgotten that had a context, nothing gets at the graph any more. -/
theorem C79_forgotten_tx (hg : g.Reachable) {h' : List (AppCall σ)} {n : Nat} (hl : AppLegal g (h' ++ .forgetTx n :: h) a)
    (hu : TxKept h n) (x : AppCall σ) (r : AppAnswer σ) (hs : a.step x = some (r, a'))
    (hx : (∃ m, x = .write m) ∨ (∃ m, x = .read m) ∨ ∃ y d, x = .inTx y (.context 0 d)) : r = .stuck := by
  have hI := hl.gInv hg
  obtain ⟨b, hb, _, hk, _⟩ := legal_forgotten hg hl
  have hv : ∃ w, a.txs[n]? = some ⟨some w, .forgotten⟩ := by
    cases hb with
    | call hb' hs' hr' =>
      obtain ⟨c, hc, he⟩ := Option.map_eq_some_iff.1 hs'
      cases he
      obtain ⟨v, h1, h2⟩ := ((hb'.gInv hg).txKept n).1 hu
      unfold App.endTx at hc
      rw [h1] at hc
      obtain ⟨w, st⟩ := v
      have hlt := (List.getElem?_eq_some_iff.1 h1).1
      cases w with
      | none => cases h2
      | some w =>
        cases st with
        | live =>
          obtain ⟨⟨r, w'⟩, _, he⟩ := Option.map_eq_some_iff.1 hc
          cases he
          obtain ⟨w'', h3, h4⟩ := hk n ⟨some w', .forgotten⟩ (by simp [App.setTx, List.getElem?_set_self hlt]) rfl
          obtain ⟨w₃, rfl⟩ := Option.isSome_iff_exists.1 h4
          exact ⟨w₃, h3⟩
        | _ => cases hc
  obtain ⟨w, hv⟩ := hv
  have hkept : TxKept (h' ++ .forgetTx n :: h) n := (hI.txKept n).2 ⟨_, hv, rfl⟩
  refine (C79_stuck hg hl x r hs).2 ?_
  rcases hx with ⟨m, rfl⟩ | ⟨m, rfl⟩ | ⟨y, d, rfl⟩
  · exact .inr ⟨n, hkept⟩
  · exact .inr ⟨n, hkept⟩
  · refine ⟨fun hy => ?_, .inr ⟨n, hkept⟩⟩
    obtain ⟨v, h1, h2⟩ := (hI.txKept y).1 hy
    have := hI.excl3 n y _ v hv h1 rfl h2
    subst this
    have hpos := ((C79_possible hg hl _).1 ⟨r, a', hs⟩).2.1.1
    have := (tx_live hI hv).2 hpos
    cases this

-- a read guard keeps a transaction from starting, not another read guard; of two transactions the second one has to wait
example : shown [.read 0, .read 1, .transaction 0, .inTx 0 (.context 0 0)] = some [.stuck] := by decide +kernel
example : shown [.transaction 0, .transaction 1, .inTx 1 (.context 0 0), .inTx 0 (.context 0 0)] = some [.stuck] := by decide +kernel
example : shown [.transaction 0, .inTx 0 (.context 0 0), .inTx 0 (.context 0 1), .inTx 0 (.dropCtx 0), .read 0] = some [.stuck] := by
  decide +kernel
-- a transaction without a context holds nothing, nor does a dropped one; a forgotten one does
example : shown [.transaction 0, .write 0, .dropGuard 0 false, .inTx 0 (.context 0 0), .inTx 0 (.dropCtx 0), .inTx 0 (.abandon 0), .write 1,
    .guardGet 1 1] = some [.node (some ⟨1, 10⟩)] := by decide +kernel
example : shown [.transaction 0, .inTx 0 (.context 0 0), .inTx 0 (.dropCtx 0), .forgetTx 0, .transaction 1, .read 0] = some [.stuck] := by
  decide +kernel
example : shown [.transaction 0, .forgetTx 0, .read 0, .forgetGuard 0, .read 1, .guardGet 1 2, .dropGuard 1 false, .write 2] =
    some [.node (some ⟨2, 20⟩), .stuck] := by decide +kernel
-- a guard that was dropped or forgotten cannot be used; a schema in use cannot be moved
example : shown [.read 0, .dropGuard 0 false, .guardGet 0 1] = none := by decide +kernel
example : shown [.read 0, .insert 0 ⟨3, 30⟩] = none := by decide +kernel
example : shown [.transaction 0, .register 7 (1 : Nat)] = none := by decide +kernel

/-! ## C80 -/

/-- C80: through a guard of a resource there is what the resource holds, of the type asked for; nothing if there was none of the
type, or none any more, when the guard was made. -/
theorem C80_peek (hl : AppLegal g h a) (t : σ.Ty) (n : Nat) (r : AppAnswer σ) (hs : a.step (.peekRes t n) = some (r, a')) :
    a' = a ∧ ∃ e c, resGuardOf h n = some (t, e, c) ∧
      match c with
      | none => r = .value t none
      | some p => ∃ v, resHolds h p = some ⟨t, v⟩ ∧ r = .value t (some v) := by
  have hR := hl.res
  simp only [App.step] at hs
  split at hs
  · cases hs
  · rename_i x hx
    obtain ⟨h1, h2⟩ := resGuard_some hx
    split at hs
    · rename_i ht
      subst ht
      split at hs
      · rename_i hc
        cases hs
        exact ⟨rfl, x.excl, none, by rw [hR.guard, h1]; simp [hc], rfl⟩
      · rename_i p hc
        split at hs
        · cases hs
        · rename_i l hlc
          cases hs
          obtain ⟨l', h3, h4, h5⟩ := hR.guardTyped n x p h1 hc
          rw [hlc] at h3; cases h3
          have h6 := h5 (by rw [h2]; simp)
          obtain ⟨⟨u, v⟩, po⟩ := l
          change u = x.type at h4
          change po = false at h6
          subst h4 h6
          refine ⟨rfl, x.excl, some p, by rw [hR.guard, h1]; simp [hc], v, by rw [hR.cell p _ hlc]; rfl, ?_⟩
          simp [Dyn.downcast]
    · cases hs

/-- C80: a value is assigned through a write guard if, and only if, there is one to be had. -/
theorem C80_assign (hl : AppLegal g h a) (t : σ.Ty) (n : Nat) (v : σ.Val t) (r : AppAnswer σ)
    (hs : a.step (.assignRes n t v) = some (r, a')) :
    ∃ c, resGuardOf h n = some (t, true, c) ∧ r = .bool c.isSome ∧ ∀ p, c = some p → resHolds (.assignRes n t v :: h) p = some ⟨t, v⟩ := by
  have hR := hl.res
  simp only [App.step] at hs
  split at hs
  · cases hs
  · rename_i x hx
    obtain ⟨h1, h2⟩ := resGuard_some hx
    split at hs
    · rename_i ht
      obtain ⟨rfl, he⟩ := ht
      have hg' : resGuardOf h n = some (x.type, true, x.cell) := by rw [hR.guard, h1]; simp [he]
      refine ⟨x.cell, hg', ?_, fun p hp => by simp [resHolds, hg', hp]⟩
      split at hs
      · rename_i hc
        cases hs
        simp [hc]
      · rename_i p hc
        obtain ⟨l', h3, h4, h5⟩ := hR.guardTyped n x p h1 hc
        split at hs
        · cases hs
        · rename_i l hlc
          rw [hlc] at h3; cases h3
          split at hs
          · rename_i hd; simp [Dyn.downcast, h4] at hd
          · cases hs; simp [hc]
    · cases hs

/-- C80: once the guard of a resource was forgotten, whatever would wait for it never returns. -/
theorem C80_forgotten (hg : g.Reachable) {h' : List (AppCall σ)} {n : Nat} (hl : AppLegal g (h' ++ .forgetRes n :: h) a) {t t' : σ.Ty}
    {e e' : Bool} {p k m : Nat} (hgd : resGuardOf h n = some (t, e, some p)) (hk : resOf (h' ++ .forgetRes n :: h) k = some (t', some p))
    (he : e = true ∨ e' = true) (r : AppAnswer σ) (hs : a.step (.lockRes k e' m) = some (r, a')) : r = .stuck := by
  obtain ⟨b, hb, _, _, hkk⟩ := legal_forgotten hg hl
  have hR := hl.res
  have hv : ∃ y, a.resGuards[n]? = some y ∧ y.type = t ∧ y.excl = e ∧ y.cell = some p ∧ y.status = .forgotten := by
    cases hb with
    | call hb' hs' hr' =>
      simp only [App.step] at hs'
      split at hs'
      · cases hs'
      · rename_i y hy
        cases hs'
        obtain ⟨h1, h2⟩ := resGuard_some hy
        have h3 := hb'.res.guard n
        rw [h1, hgd] at h3
        simp only [Option.map_some, Option.some.injEq, Prod.mk.injEq] at h3
        refine ⟨{ y with status := .forgotten }, hkk n _ ?_ rfl, h3.1.symm, h3.2.1.symm, h3.2.2.symm, rfl⟩
        show (List.modify _ n _)[n]? = _
        rw [getElem?_modify_self, h1]; rfl
  obtain ⟨y, h1, h2, h3, h4, h5⟩ := hv
  refine (C79_stuck hg hl _ r hs).2 ⟨t', p, n, t, e, hk, (hR.kept n).2 ⟨y, h1, by rw [h5]; simp⟩, ?_, he.symm⟩
  rw [hR.guard, h1]; simp [h2, h3, h4]

/-- The calls about the graph. -/
def AppCall.onGraph : AppCall σ → Bool
  | .read _ | .write _ | .guardGet _ _ | .guardContains _ _ | .guardIter _ | .insert _ _ | .remove _ _ | .replace _ _
  | .dropGuard _ _ | .forgetGuard _ | .transaction _ | .inTx _ _ | .unwindTx _ | .forgetTx _ => true
  | _ => false

/-- The calls about resources, but for registering one, which takes a schema that nothing borrows. -/
def AppCall.onResources : AppCall σ → Bool
  | .resource _ _ | .lockRes _ _ _ | .peekRes _ _ | .assignRes _ _ _ | .dropRes _ _ | .forgetRes _ => true
  | _ => false

/-- `a` with the resources of `b`. -/
def App.withRes (a b : App σ) : App σ :=
  { a with schema := { a.schema with heap := b.schema.heap, env := b.schema.env }, handles := b.handles, resGuards := b.resGuards }

theorem withRes_txs (a b : App σ) : (a.withRes b).txs = a.txs := rfl
theorem withRes_guards (a b : App σ) : (a.withRes b).guards = a.guards := rfl
theorem withRes_graph (a b : App σ) : (a.withRes b).schema.graph = a.schema.graph := rfl
theorem withRes_poisoned (a b : App σ) : (a.withRes b).schema.poisoned = a.schema.poisoned := rfl
theorem withRes_guard (a b : App σ) (n : Nat) : (a.withRes b).guard n = a.guard n := rfl
theorem withRes_writer (a b : App σ) (n : Nat) : (a.withRes b).writer n = a.writer n := rfl
theorem withRes_locked (a b : App σ) : (a.withRes b).locked = a.locked := rfl
theorem withRes_exclusive (a b : App σ) : (a.withRes b).exclusive = a.exclusive := rfl
theorem withRes_endTx (a b : App σ) (n : Nat) (st : CtxEnd) : (a.withRes b).endTx n st = (a.endTx n st).map (·.withRes b) := by
  unfold App.endTx
  rw [withRes_txs]
  split
  · rfl
  · simp only [Option.map_map]; rfl
  · rfl

theorem endTx_withRes {n : Nat} {st : CtxEnd} {b : App σ} (hb : a.endTx n st = some b) : b = b.withRes a := by
  unfold App.endTx at hb
  split at hb
  · cases hb; rfl
  · obtain ⟨_, _, he⟩ := Option.map_eq_some_iff.1 hb; cases he; rfl
  · cases hb

theorem step_onGraph (b : App σ) {x : AppCall σ} {r : AppAnswer σ} (hx : x.onGraph = true) (hs : a.step x = some (r, a')) :
    (a.withRes b).step x = some (r, a'.withRes b) ∧ a' = a'.withRes a := by
  cases x with
  | unwindTx n =>
    simp only [App.step, withRes_txs, withRes_endTx] at hs ⊢
    split at hs
    · cases hs
    · obtain ⟨c, hc, he⟩ := Option.map_eq_some_iff.1 hs
      cases he
      rw [hc]
      exact ⟨rfl, by have := endTx_withRes hc; rw [this]; rfl⟩
  | forgetTx n =>
    simp only [App.step, withRes_endTx] at hs ⊢
    obtain ⟨c, hc, he⟩ := Option.map_eq_some_iff.1 hs
    cases he
    rw [hc]
    exact ⟨rfl, endTx_withRes hc⟩
  | inTx n c =>
    simp only [App.step, withRes_txs, withRes_locked, schema_guard, withRes_graph] at hs ⊢
    split at hs
    · cases hs
    · split at hs
      · rename_i hst
        subst hst
        split at hs
        · split at hs
          · cases hs
          · rename_i hw
            split at hs
            · rename_i hlk
              cases hs
              exact ⟨by simp only [hlk, if_true], rfl⟩
            · rename_i hlk
              cases hs
              refine ⟨?_, rfl⟩
              simp only [hlk, if_true]; rfl
        · cases hs; exact ⟨rfl, rfl⟩
        · cases hs
      · cases hs
    · split at hs
      · cases hs
      · split at hs <;> cases hs <;> exact ⟨rfl, rfl⟩
  | read n =>
    simp only [App.step, withRes_guards, withRes_exclusive] at hs ⊢
    split at hs
    · rename_i hn
      subst hn
      split at hs
      · rename_i hlk; cases hs; exact ⟨by simp only [hlk, if_true], rfl⟩
      · rename_i hlk; cases hs; refine ⟨?_, rfl⟩; simp only [hlk, if_true]; rfl
    · cases hs
  | write n =>
    simp only [App.step, withRes_guards, withRes_locked] at hs ⊢
    split at hs
    · rename_i hn
      subst hn
      split at hs
      · rename_i hlk; cases hs; exact ⟨by simp only [hlk, if_true], rfl⟩
      · rename_i hlk; cases hs; refine ⟨?_, rfl⟩; simp only [hlk, if_true]; rfl
    · cases hs
  | transaction n =>
    simp only [App.step, withRes_txs] at hs ⊢
    split at hs
    · rename_i hn; subst hn; cases hs; exact ⟨by simp only [if_true]; rfl, rfl⟩
    · cases hs
  | _ =>
    first
    | (cases hx; done)
    | (simp only [App.step, withRes_guards, withRes_txs, withRes_guard, withRes_writer, schema_guard,
        withRes_graph, withRes_poisoned, Option.map_eq_some_iff] at hs ⊢
       obtain ⟨_, hv, he⟩ := hs
       cases he
       exact ⟨⟨_, hv, rfl⟩, rfl⟩)

theorem withRes_handles (a b : App σ) : (a.withRes b).handles = b.handles := rfl
theorem withRes_resGuards (a b : App σ) : (a.withRes b).resGuards = b.resGuards := rfl
theorem withRes_heap (a b : App σ) : (a.withRes b).schema.heap = b.schema.heap := rfl
theorem withRes_env (a b : App σ) : (a.withRes b).schema.env = b.schema.env := rfl
theorem withRes_resGuard (a b : App σ) (n : Nat) : (a.withRes b).resGuard n = b.resGuard n := rfl
theorem withRes_resLocked (a b : App σ) (p : Nat) (e : Bool) : (a.withRes b).resLocked p e = b.resLocked p e := rfl

theorem step_onRes (b : App σ) {x : AppCall σ} {r : AppAnswer σ} (hx : x.onResources = true) (hs : a.step x = some (r, a')) :
    (b.withRes a).step x = some (r, b.withRes a') ∧ a' = a.withRes a' := by
  cases x with
  | resource t k =>
    simp only [App.step, withRes_handles, withRes_env] at hs ⊢
    split at hs
    · rename_i hn; subst hn; cases hs; exact ⟨by simp only [if_true]; rfl, rfl⟩
    · cases hs
  | lockRes k e n =>
    simp only [App.step, withRes_handles, withRes_resGuards, withRes_heap, withRes_resLocked] at hs ⊢
    split at hs
    · rename_i hn
      subst hn
      simp only [if_true]
      split at hs
      · cases hs
      · cases hs; exact ⟨rfl, rfl⟩
      · split at hs
        · rename_i hlk; cases hs; exact ⟨by simp only [hlk, if_true], rfl⟩
        · rename_i hlk
          split at hs
          · cases hs
          · rename_i hl; cases hs; refine ⟨?_, rfl⟩; simp only [hlk]; rfl
    · cases hs
  | peekRes t n =>
    simp only [App.step, withRes_resGuard, withRes_heap] at hs ⊢
    split at hs
    · cases hs
    · split at hs
      · rename_i ht
        rw [if_pos ht]
        split at hs
        · rename_i hc; cases hs; exact ⟨rfl, rfl⟩
        · split at hs
          · cases hs
          · cases hs; exact ⟨rfl, rfl⟩
      · cases hs
  | assignRes n t v =>
    simp only [App.step, withRes_resGuard, withRes_heap] at hs ⊢
    split at hs
    · cases hs
    · split at hs
      · rename_i ht
        rw [if_pos ht]
        split at hs
        · rename_i hc; cases hs; exact ⟨rfl, rfl⟩
        · split at hs
          · cases hs
          · split at hs <;> cases hs <;> exact ⟨rfl, rfl⟩
      · cases hs
  | dropRes n p =>
    simp only [App.step, withRes_resGuard, withRes_resGuards, withRes_heap] at hs ⊢
    split at hs
    · cases hs
    · split at hs <;> cases hs <;> exact ⟨rfl, rfl⟩
  | forgetRes n =>
    simp only [App.step, withRes_resGuard, withRes_resGuards] at hs ⊢
    split at hs
    · cases hs
    · cases hs; exact ⟨rfl, rfl⟩
  | _ => cases hx

/-- C80: calls about resources and calls about the graph do not see each other: made the other way round they return the same and
lead to the same. -/
theorem C80_commute (x y : AppCall σ) (hx : x.onGraph = true) (hy : y.onResources = true) (r1 r2 : AppAnswer σ) (a1 a2 : App σ)
    (h1 : a.step x = some (r1, a1)) (h2 : a1.step y = some (r2, a2)) :
    ∃ b, a.step y = some (r2, b) ∧ b.step x = some (r1, a2) := by
  obtain ⟨_, e1⟩ := step_onGraph a hx h1
  obtain ⟨h3, e2⟩ := step_onRes a hy h2
  refine ⟨a.withRes a2, ?_, ?_⟩
  · rw [← h3, e1]; rfl
  · rw [(step_onGraph a2 hx h1).1, ← e2]

/-- … and the other way round. -/
theorem C80_commute' (x y : AppCall σ) (hx : x.onGraph = true) (hy : y.onResources = true) (r1 r2 : AppAnswer σ) (a1 a2 : App σ)
    (h1 : a.step y = some (r1, a1)) (h2 : a1.step x = some (r2, a2)) :
    ∃ b, a.step x = some (r2, b) ∧ b.step y = some (r1, a2) := by
  obtain ⟨_, e1⟩ := step_onRes a hy h1
  obtain ⟨h3, e2⟩ := step_onGraph a hx h2
  refine ⟨a2.withRes a, ?_, ?_⟩
  · rw [← h3, e1]; rfl
  · rw [(step_onRes a2 hy h1).1, e2]; rfl

-- handles of two types; the value assigned through one handle is there through another one
example : shown
    [.register 7 (1 : Nat), .register 8 (2 : Nat), .resource 7 0, .resource 7 1, .resource 8 2, .resource 9 3,
     .lockRes 0 true 0, .peekRes 7 0, .assignRes 0 7 (5 : Nat), .lockRes 2 false 1, .peekRes 8 1, .dropRes 0 false,
     .lockRes 1 false 2, .peekRes 7 2, .lockRes 0 false 3, .peekRes 7 3, .lockRes 3 true 4, .peekRes 9 4, .assignRes 4 9 (1 : Nat),
     .lockRes 1 true 5] =
    some [.value (some 1), .bool true, .value (some 2), .value (some 5), .value (some 5), .value none, .bool false, .stuck] := by
  decide +kernel
-- a panic while writing takes the value away, also for a handle made before; registering it again makes another one
example : shown
    [.register 7 (1 : Nat), .resource 7 0, .resource 7 1, .lockRes 0 true 0, .assignRes 0 7 (2 : Nat), .dropRes 0 true,
     .lockRes 1 false 1, .peekRes 7 1, .register 7 (3 : Nat), .resource 7 2, .lockRes 2 true 2, .peekRes 7 2, .lockRes 0 true 3, .peekRes 7 3] =
    some [.bool true, .value none, .value (some 3), .value none] := by decide +kernel
-- a guard of a resource held while a transaction is made and committed
example : shown
    [.register 7 (1 : Nat), .resource 7 0, .lockRes 0 true 0, .transaction 0, .inTx 0 (.context 0 0), .inTx 0 (.save 0 ⟨3, 30⟩), .assignRes 0 7 (2 : Nat),
     .inTx 0 (.dropCtx 0), .inTx 0 (.commit 0), .peekRes 7 0, .read 0, .guardGet 0 3, .resource 7 1, .lockRes 1 false 1] =
    some [.bool true, .value (some 2), .node (some ⟨3, 30⟩), .stuck] := by decide +kernel

end Plotline
