import Verif.Lemmas.UserCode
import Verif.Spec.Fixtures

/-! # C101, C102: user code that the library calls -/

namespace Plotline

variable {σ : Sig} {U : UserCode σ} {g : Graph σ.K σ.T} {h : List (Call σ × Answer σ.T)} {r r' : Raw σ}

/-! ## C101 -/

/-- C101: whatever calls were made, in whatever order, and whatever user code panicked in them, no log's lock is poisoned or held. -/
theorem C101_at_rest (hl : Lives U g h r) : r.AtRest := (lives_inv hl).rest

/-- C101: the calls of user code do not matter to whether a call can be made: that is as without them. -/
theorem C101_possible (x : Call σ) : (∃ a r', r.step U x = some (a, r')) ↔ ∃ a w', r.world.step x = some (a, w') := by
  have key : ∀ {α β : Type} (o : Option (α × β)), (∃ a b, o = some (a, b)) ↔ o.isSome = true := by
    intro α β o
    cases o with
    | none => simp
    | some y => exact ⟨fun _ => rfl, fun _ => ⟨y.1, y.2, rfl⟩⟩
  rw [key, key]
  cases x with
  | get c i | contains c i | save c i | delete c i => cases hc : r.world.ctx c <;> simp [Raw.step, World.step, hc]
  | commit t =>
    simp only [Raw.step, World.step]
    cases ht : r.world.tx t with
    | none => simp
    | some tx =>
      simp only
      by_cases hu : r.world.unused t = true
      · simp only [if_pos hu]
        by_cases ho : tx.owners = 1
        · simp only [if_pos ho]
          cases tx.context <;> simp
        · simp [if_neg ho]
      · simp [if_neg hu]
  | _ => simp [Raw.step, Raw.plainly]

/-- C101: every call either does exactly what it does if no user code panics, or panics; then it was one that only reads, and
nothing has changed, or the commit of the transaction of the schema. -/
theorem C101_call (hl : Lives U g h r) {x : Call σ} {a : Answer σ.T} (hs : r.step U x = some (a, r')) :
    r.world.step x = some (a, r'.world) ∨
    (a = .panic ∧ cutShort (x, a) = true ∧ r'.world = r.world) ∨
    (a = .panic ∧ ∃ t tx, x = .commit t ∧ r.world.tx t = some tx ∧ tx.context = none) := by
  obtain ⟨_, us, made, b, _, _, h1 | h1 | h1⟩ := raw_step (lives_inv hl) hs
  · exact .inl h1.2
  · exact .inr (.inl ⟨h1.2.1, h1.2.2.1, h1.2.2.2.1⟩)
  · obtain ⟨_, ha, t, tx, k, hx, ht, _, _, hc, _⟩ := h1
    exact .inr (.inr ⟨ha, t, tx, hx, ht, hc⟩)

/-- C101: it panics only if user code did: of the user code it calls, the last call panicked and no other. -/
theorem C101_blame (hl : Lives U g h r) {x : Call σ} {a : Answer σ.T} (hs : r.step U x = some (a, r')) :
    r.world.step x = some (a, r'.world) ∨
    (a = .panic ∧ ∃ m, r'.calls.length = r.calls.length + m + 1 ∧ U.panics (r.calls.length + m) = true ∧
      ∀ j, j < m → U.panics (r.calls.length + j) = false) := by
  obtain ⟨_, us, made, b, hr, hc, h1⟩ := raw_step (lives_inv hl) hs
  have key : b = true → a = .panic → (a = .panic ∧ ∃ m, r'.calls.length = r.calls.length + m + 1 ∧
      U.panics (r.calls.length + m) = true ∧ ∀ j, j < m → U.panics (r.calls.length + j) = false) := by
    rintro rfl ha
    obtain ⟨k, hk, hm, hp, hq⟩ := hr
    refine ⟨ha, k, ?_, hp, hq⟩
    rw [hc, List.length_append, hm, List.length_take]
    omega
  rcases h1 with h1 | ⟨hb, ha, _⟩ | ⟨hb, ha, _⟩
  · exact .inl h1.2
  · exact .inr (key hb ha)
  · exact .inr (key hb ha)

/-- C101: so, as long as no commit of the transaction of the schema panicked, everything is as if the calls that panicked had not
been made: the others are a history of calls as without panics, with this outcome (and C67, C68, C69 are about it). -/
theorem C101_as_if_not_made (hl : Lives U g h r) (hc : ∀ t, (.commit t, .panic) ∉ h) : Legal g (carriedOut h) r.world := by
  induction hl with
  | start => exact .start
  | @call h r r' x a hl hs ha ih =>
    have ih := ih fun t ht => hc t (List.mem_cons_of_mem _ ht)
    rcases C101_call hl hs with h1 | ⟨rfl, h2, h3⟩ | ⟨rfl, t, tx, rfl, _⟩
    · by_cases hcut : cutShort (x, a) = true
      · -- a call that only reads cannot answer so
        have : a = .panic ∧ ((∃ c i, x = .get c i) ∨ (∃ c i, x = .contains c i) ∨ ∃ k, x = .readTarget k) := by
          unfold cutShort at hcut
          split at hcut <;> simp_all
        obtain ⟨rfl, ⟨c, i, rfl⟩ | ⟨c, i, rfl⟩ | ⟨k, rfl⟩⟩ := this
        · simp only [World.step] at h1
          cases hx : r.world.ctx c <;> simp [hx] at h1
        · simp only [World.step] at h1
          cases hx : r.world.ctx c <;> simp [hx] at h1
        · simp only [World.step] at h1
          split at h1
          · simp at h1
          · split at h1
            · split at h1 <;> simp at h1
            · cases h1
          · cases h1
      · have : carriedOut ((x, a) :: h) = x :: carriedOut h := by simp [carriedOut, hcut]
        rw [this]
        exact .call ih h1 ha
    · have : carriedOut ((x, .panic) :: h) = carriedOut h := by simp [carriedOut, h2]
      rw [this, h3]; exact ih
    · exact absurd (List.mem_cons_self ..) (hc t)

/-- C101: saving, deleting and committing a subtransaction run no user code; what they register is registered. -/
theorem C101_writes (hl : Lives U g h r) {x : Call σ} {a : Answer σ.T}
    (hx : (∃ c n, x = .save c n) ∨ (∃ c i, x = .delete c i) ∨
      ∃ t tx, x = .commit t ∧ r.world.tx t = some tx ∧ tx.context ≠ none)
    (hs : r.step U x = some (a, r')) : r.world.step x = some (a, r'.world) ∧ a = .none := by
  rcases C101_call hl hs with h1 | ⟨rfl, h2, _⟩ | ⟨rfl, t, tx, rfl, h2, h3⟩
  · refine ⟨h1, ?_⟩
    generalize r'.world = w' at h1
    rcases hx with ⟨c, n, rfl⟩ | ⟨c, n, rfl⟩ | ⟨t, tx, rfl, _⟩
    · simp only [World.step] at h1
      split at h1
      · cases h1; rfl
      · cases h1
    · simp only [World.step] at h1
      split at h1
      · cases h1; rfl
      · cases h1
    · simp only [World.step] at h1
      split at h1
      · split at h1
        · split at h1
          · split at h1 <;> (cases h1; rfl)
          · cases h1; rfl
        · cases h1
      · cases h1
  · rcases hx with ⟨c, n, rfl⟩ | ⟨c, n, rfl⟩ | ⟨t, tx, rfl, _⟩ <;> simp [cutShort] at h2
  · rcases hx with ⟨c, n, hx⟩ | ⟨c, n, hx⟩ | ⟨t', tx', hx, ht', hc'⟩
    · cases hx
    · cases hx
    · cases hx
      rw [h2] at ht'
      cases ht'
      exact absurd h3 hc'

/-- C101: a commit of the transaction of the schema that panics has applied the operations before the one it panicked at, in
order, and nothing else. -/
theorem C101_crash (hl : Lives U g h r) (hc : ∀ t, (.commit t, .panic) ∉ h) {t : Nat}
    (hs : r.step U (.commit t) = some (.panic, r')) :
    t = 0 ∧ ∃ k, k < (r.world.log 0).length ∧ r'.world.graph = g.commit ((r.world.log 0).take k) := by
  obtain ⟨_, us, made, b, _, _, h1 | h1 | h1⟩ := raw_step (lives_inv hl) hs
  · have h1 := h1.2
    simp only [World.step] at h1
    split at h1
    · split at h1
      · split at h1
        · split at h1 <;> cases h1
        · cases h1
      · cases h1
    · cases h1
  · have := h1.2.2.1; simp [cutShort] at this
  · obtain ⟨_, _, t', tx, k, hx, ht, _, _, hcx, hk, hw⟩ := h1
    cases hx
    have hI := (C101_as_if_not_made hl hc).inv
    have h0 : t = 0 := by
      by_cases h0 : t = 0
      · exact h0
      · obtain ⟨c, p, chain, st, h2, _⟩ := hI.tx t tx (tx_at ht) h0
        rw [hcx] at h2; cases h2
    subst h0
    have hlog : r.world.log 0 = tx.log := by simp [World.log, tx_at ht]
    have hlive : tx.live = true := by
      have := ht
      unfold World.tx at this
      split at this
      · split at this
        · rename_i h2; cases this; exact h2
        · cases this
      · cases this
    refine ⟨rfl, k, by rw [hlog]; exact hk, ?_⟩
    rw [hw, hlog, ← hI.graph tx (tx_at ht) hlive]

/-- User code of which the third call panics (or the one with another number), on graphs searched with one comparison. -/
def thirdPanics (n : Nat := 2) : UserCode demo := ⟨fun j => j == n, fun _ _ => 1⟩

/-- The clone made by the first `get` panics; the transaction goes on, and nothing is lost. -/
example : ((Raw.start (Graph.fromIter [⟨1, 10⟩] : Graph Nat Doc)).script thirdPanics
    [.context 0 0, .save 0 ⟨2, 20⟩, .get 0 1, .get 0 1, .transaction 0 1, .context 1 1, .save 1 ⟨3, 30⟩, .dropCtx 1, .commit 1,
      .get 0 3, .dropCtx 0, .commit 0]).map
      (fun y => (y.1.filter (· ≠ .none), y.2.locks, y.2.world.graph.iter)) =
    some ([.panic, .node (some ⟨1, 10⟩), .node (some ⟨3, 30⟩)], [.fresh, .fresh], [⟨1, 10⟩, ⟨2, 20⟩, ⟨3, 30⟩]) := by
  decide +kernel

/-- A comparison made by the commit panics: the first node is stored, the second is not. -/
example : ((Raw.start (Graph.fromIter [⟨1, 10⟩] : Graph Nat Doc)).script (thirdPanics 3)
    [.context 0 0, .save 0 ⟨2, 20⟩, .save 0 ⟨3, 30⟩, .dropCtx 0, .commit 0]).map
      (fun y => (y.1.filter (· ≠ .none), y.2.locks, y.2.world.graph.iter)) =
    some ([.panic], [.fresh], [⟨1, 10⟩, ⟨2, 20⟩]) := by
  decide +kernel

/-! ## C102 -/

/-- C102: `get` compares the id with those of the pending operations, newest first, the context's own before those of the contexts
around it, up to the first on that id, and with ids in the graph only if there is none; and clones the node it returns, once, and
no other. It is cut short by the first of these that panics. -/
theorem C102_get (hl : Lives U g h r) {c : Nat} {i : σ.K} {a : Answer σ.T} (hs : r.step U (.get c i) = some (a, r')) :
    ∃ x made b, r.world.ctx c = some x ∧ r'.calls = r.calls ++ made ∧
      U.Runs r.calls.length (comparisons U r.world x i ++ clonesOf (r.world.get x.chain i)) made b ∧
      a = if b then .panic else .node (r.world.get x.chain i) := by
  have hI := lives_inv hl
  simp only [Raw.step] at hs
  cases hc : r.world.ctx c with
  | none => simp [hc] at hs
  | some y =>
    simp only [hc, Option.map_some, Option.some.injEq] at hs
    obtain ⟨_, _, made, b, hr, hm, ha⟩ := step_reads hI (x := .get c i) (yields_get i y.chain (hI.chain y (ctx_mem hc))) .node hs
      (by simp [World.step, hc]) rfl
    exact ⟨y, made, b, rfl, hm, hr, ha⟩

/-- C102: `contains` compares in the same way, and clones nothing. -/
theorem C102_contains (hl : Lives U g h r) {c : Nat} {i : σ.K} {a : Answer σ.T} (hs : r.step U (.contains c i) = some (a, r')) :
    ∃ x made b, r.world.ctx c = some x ∧ r'.calls = r.calls ++ made ∧
      U.Runs r.calls.length (comparisons U r.world x i) made b ∧
      a = if b then .panic else .bool (r.world.contains x.chain i) := by
  have hI := lives_inv hl
  simp only [Raw.step] at hs
  cases hc : r.world.ctx c with
  | none => simp [hc] at hs
  | some y =>
    simp only [hc, Option.map_some, Option.some.injEq] at hs
    obtain ⟨_, _, made, b, hr, hm, ha⟩ := step_reads hI (x := .contains c i) (yields_contains i y.chain (hI.chain y (ctx_mem hc))) .bool hs
      (by simp [World.step, hc]) rfl
    refine ⟨y, made, b, rfl, hm, ?_, ha⟩
    have : readCalls U r.world i y.chain [] = comparisons U r.world y i := by simp [readCalls, comparisons, World.pending]
    rwa [← this]

theorem plainly_calls {x : Call σ} {a : Answer σ.T} (hs : r.plainly x = some (a, r')) : r'.calls = r.calls := by
  unfold Raw.plainly at hs
  cases hy : r.world.step x with
  | none => simp [hy] at hs
  | some y => simp [hy] at hs; rw [← hs.2]

/-- C102: all other calls but a read of a target and the commit of the transaction of the schema run no user code (but the
closures they are given). -/
theorem C102_none (x : Call σ) {a : Answer σ.T} (hs : r.step U x = some (a, r')) (h1 : ∀ c i, x ≠ .get c i)
    (h2 : ∀ c i, x ≠ .contains c i) (h3 : ∀ k, x ≠ .readTarget k)
    (h4 : ∀ t tx, x = .commit t → r.world.tx t = some tx → tx.context ≠ none) (hl : Lives U g h r) : r'.calls = r.calls := by
  have hI := lives_inv hl
  cases x with
  | get c i => exact absurd rfl (h1 c i)
  | contains c i => exact absurd rfl (h2 c i)
  | readTarget k => exact absurd rfl (h3 k)
  | save c n | delete c n =>
    simp only [Raw.step] at hs
    cases hc : r.world.ctx c with
    | none => simp [hc] at hs
    | some y =>
      simp only [hc, Option.map_some, Option.some.injEq, push_outcome hI (hI.head (ctx_mem hc)), answered] at hs
      cases hs; rfl
  | transaction c t =>
    simp only [Raw.step, Raw.plainly] at hs
    cases hy : r.world.step (.transaction c t) with
    | none => simp [hy] at hs
    | some y => simp [hy] at hs; rw [← hs.2]
  | commit t =>
    simp only [Raw.step] at hs
    cases ht : r.world.tx t with
    | none => simp [ht] at hs
    | some tx =>
      have hlt := tx_lt ht
      simp only [ht] at hs
      split at hs
      · split at hs
        · cases hcx : tx.context with
          | none => exact absurd hcx (h4 t tx rfl ht)
          | some c =>
            simp only [hcx, Option.some.injEq] at hs
            rw [hI.rest, commitChild_rest _ _ _ _ _ _ hlt (hI.parent (some c))] at hs
            cases hs; rfl
        · cases hs; rfl
      · cases hs
  | _ => exact plainly_calls hs

/-- C102: reading a target clones the node it holds, once. -/
theorem C102_target (k : Nat) {a : Answer σ.T} (hs : r.step U (.readTarget k) = some (a, r')) :
    (∃ n w', r.world.step (.readTarget k) = some (.node (some n), w') ∧ r'.calls = r.calls ++ [.clone n] ∧
      a = if U.panics r.calls.length then .panic else .node (some n)) ∨
    ((¬ ∃ n w', r.world.step (.readTarget k) = some (.node (some n), w')) ∧ r'.calls = r.calls) := by
  simp only [Raw.step, Raw.plainly] at hs
  cases hy : r.world.step (.readTarget k) with
  | none => simp [hy] at hs
  | some y =>
    obtain ⟨y1, y2⟩ := y
    simp only [hy, Option.map_some, Option.some.injEq] at hs
    split at hs
    · rename_i _ n
      refine .inl ⟨n, y2, rfl, ?_⟩
      unfold ask answered at hs
      cases hp : U.panics r.calls.length <;> simp [hp] at hs <;> obtain ⟨rfl, rfl⟩ := hs <;> simp
    · rename_i hn
      cases hs
      refine .inr ⟨?_, rfl⟩
      rintro ⟨n, w', he⟩
      cases he
      exact hn n rfl

/-- C102: the commit of the transaction of the schema clones the id of every node saved in it, in order, and no node; all else it
runs are comparisons of the graph's search. -/
theorem C102_commit (hl : Lives U g h r) {t : Nat} {a : Answer σ.T} (hs : r.step U (.commit t) = some (a, r'))
    {tx : TxVal σ.K σ.T} (ht : r.world.tx t = some tx) (hcx : tx.context = none) (ho : tx.owners = 1) :
    ∃ us made b, U.Runs r.calls.length us made b ∧ r'.calls = r.calls ++ made ∧ a = (if b then .panic else .none) ∧
      idsCloned us = idsSaved tx.log ∧ ∀ u ∈ us, u.ofGraph := by
  have hI := lives_inv hl
  simp only [Raw.step, ht, if_pos ho, hcx] at hs
  have hlt := tx_lt ht
  split at hs
  · simp only [Option.some.injEq] at hs
    have hsp : ({ r with world := { r.world with txs := r.world.txs.modify t fun tx => { tx with live := false } } } : Raw σ).spoilt t
        = false := by
      show r.spoilt t = false
      unfold Raw.spoilt; rw [hI.rest]; simp [hlt, LogLock.fresh]
    have hfree : Free ({ r.world with txs := r.world.txs.modify t fun tx => { tx with live := false } } : World σ) r.locks :=
      ⟨by simpa using hI.free.1, hI.free.2⟩
    obtain ⟨made, b, hr, hb⟩ := rawApply_runs (U := U) tx.log _ r.locks r.calls hfree
    simp only [rawCommitRoot, hsp, Bool.false_eq_true, ↓reduceIte] at hs
    refine ⟨_, made, b, hr, ?_⟩
    rcases hb with ⟨rfl, hb⟩ | ⟨rfl, k, hk, hb⟩ <;> rw [hb] at hs <;> cases hs <;>
      exact ⟨rfl, rfl, applyCalls_ids U _ _, applyCalls_graph U _ _⟩
  · cases hs

/-- `get` compares with a newer operation on another id and with the one on the id, but not with the oldest, and clones once;
`contains` compares with all three and in the graph; the commit of three nodes clones three ids and searches three times. -/
example : ((Raw.start (Graph.fromIter [⟨1, 10⟩] : Graph Nat Doc)).script (thirdPanics 100)
    [.context 0 0, .save 0 ⟨4, 40⟩, .save 0 ⟨2, 20⟩, .transaction 0 1, .context 1 1, .save 1 ⟨3, 30⟩, .get 1 2, .contains 1 1,
      .dropCtx 1, .commit 1, .dropCtx 0, .commit 0]).map (fun y => (y.1.filter (· ≠ .none), y.2.calls.length)) =
    some ([.node (some ⟨2, 20⟩), .bool true], 2 + 1 + (3 + 1) + 3 * 2) := by
  decide +kernel

end Plotline
