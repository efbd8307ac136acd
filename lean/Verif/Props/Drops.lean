import Verif.Lemmas.Drops
import Verif.Spec.Fixtures

/-! # C105, C106: destructors of nodes -/

namespace Plotline

variable {σ : Sig} {D : Nat → Bool} {g : Graph σ.K σ.T} {i o : List σ.T} {e e' : Estate σ}

/-! ## C105 -/

/-- C105: whatever is done, in whatever order, and whatever destructors panic: the nodes that were in the graph and those given to the
library are, each once, either had by something (the graph, a log or a target that has an owner), or were taken out of a target by
the user, or destroyed. -/
theorem C105_once (h : Outlived D g i o e) : (g.iter ++ i).Perm (e.nodes ++ o ++ e.destroyed) := by
  obtain ⟨hI, hw⟩ := h.balanced
  apply perm_of_countP
  intro P
  have h1 := hw P
  have h2 := nodes_count hI P
  simp only [Estate.weight] at h1
  simp only [List.countP_append]
  omega

/-- C105: once the transaction is over, no context was forgotten and all target handles are dropped, only the graph has nodes. -/
theorem C105_end (h : Outlived D g i o e) (h1 : e.over) (h2 : e.tidy) (h3 : e.letLoose) : e.nodes = e.world.graph.iter := by
  obtain ⟨hI, _⟩ := h.balanced
  obtain ⟨hh, hC⟩ := hI.ctx
  have hdead : ∀ (t : Nat) (tx : TxVal σ.K σ.T), e.world.txs[t]? = some tx → tx.live = false := by
    intro t
    induction t using Nat.strongRecOn with
    | ind t ih =>
      intro tx ht
      by_cases h0 : t = 0
      · subst h0
        have : e.world.tx 0 = none := h1
        simp only [World.tx, ht] at this
        cases hl : tx.live <;> simp [hl] at this ⊢
      · obtain ⟨c, p, chain, st, _, e2, _, e4, e5⟩ := hC.tx t tx ht h0
        obtain ⟨p', ptx, _, e7, e8, e9⟩ := hC.ctx c _ _ e2
        have : p = p' := by have := congrArg List.head? e8; simpa using this
        subst this
        cases hl : tx.live
        · rfl
        · have := ih p e4 ptx e7
          rw [e9 (e5 hl)] at this; cases this
  have hctx : ∀ x ∈ e.world.ctxs, (x.status != .dropped) = false := by
    intro x hx
    obtain ⟨c, hc⟩ := List.mem_iff_getElem?.1 hx
    have hsk : e.world.skel[c]? = some (x.chain, x.status) := by rw [World.skel, List.getElem?_map, hc]; rfl
    obtain ⟨t, tx, _, e2, _, e4⟩ := hC.ctx c _ _ hsk
    cases hst : x.status with
    | dropped => rfl
    | forgotten => exact absurd hst (h2 x hx)
    | live =>
      have := hdead t tx e2
      rw [e4 hst] at this; cases this
  have hp : e.pendingNodes = [] := by
    rw [Estate.pendingNodes, List.flatMap_eq_nil_iff]
    intro t _
    have : e.logOwned t = false := by
      simp only [Estate.logOwned, Bool.or_eq_false_iff, List.any_eq_false]
      constructor
      · split
        · rename_i tx ht; exact hdead t tx ht
        · rfl
      · intro x hx; rw [hctx x hx]; simp
    simp [this]
  have ht : e.targetNodes = [] := by
    rw [Estate.targetNodes, List.flatMap_eq_nil_iff]
    intro p _
    have : e.targetOwned p = false := by
      simp only [Estate.targetOwned, Bool.or_eq_false_iff, List.any_eq_false]
      constructor
      · intro x hx; rw [hctx x hx]; simp
      · intro x hx; rw [h3 x hx]; simp
    simp [this]
  simp [Estate.nodes, hp, ht]

/-- C105: so everything given to the library is then in the graph, or was taken out of a target, or is destroyed, and what is no longer in
the graph is destroyed. -/
theorem C105_nothing_left (h : Outlived D g i o e) (h1 : e.over) (h2 : e.tidy) (h3 : e.letLoose) :
    (g.iter ++ i).Perm (e.world.graph.iter ++ o ++ e.destroyed) := by
  rw [← C105_end h h1 h2 h3]
  exact C105_once h

/-- C105: a node is not destroyed while a closure uses it: the target that is used has an owner. -/
theorem C105_in_use (h : Outlived D g i o e) {j p : Nat} {excl : Bool} (hj : e.world.guards[j]? = some (p, excl)) :
    e.targetOwned p = true ∧ ∃ l, e.world.cells[p]? = some l ∧ l.val ∈ e.nodes := by
  obtain ⟨hI, _⟩ := h.balanced
  obtain ⟨h1, h2⟩ := guard_counts hI hj
  have ho : e.targetOwned p = true := by
    simp only [Estate.targetOwned, Bool.or_eq_true, List.any_eq_true]
    rw [← List.countP_pos_iff, ← List.countP_pos_iff]
    unfold Estate.strongCount at h1
    omega
  refine ⟨ho, _, List.getElem?_eq_getElem h2, ?_⟩
  simp only [Estate.nodes, Estate.targetNodes, List.mem_append, List.mem_flatMap, List.mem_range]
  exact .inr ⟨p, h2, by rw [if_pos ho, List.getElem?_eq_getElem h2]; simp⟩

/-- C105: `save`, `delete`, reading, making contexts, subtransactions and handles, using targets, forgetting contexts and committing
subtransactions destroy nothing. -/
theorem C105_only (h : Outlived D g i o e) {u : Bool} {x : DropCall σ} {r : Ended σ.T} (hx : x.ends = false)
    (hs : e.step D u x = some (r, e')) : e'.drops = e.drops := by
  obtain ⟨hI, _⟩ := h.balanced
  have plain : ∀ {y : Call σ}, e.plainly y = some (r, e') → e'.drops = e.drops := by
    intro y hy
    simp only [Estate.plainly, Option.map_eq_some_iff] at hy
    obtain ⟨⟨b, w⟩, h1, h2⟩ := hy
    cases h2; rfl
  cases x with
  | dropHandle k => cases hx
  | call x =>
    cases x with
    | dropCtx c | withTarget c n | abandon t => cases hx
    | leave j panicked =>
      simp only [Estate.step] at hs
      split at hs
      · simp only [Option.map_eq_some_iff] at hs
        obtain ⟨⟨b, w⟩, h1, h2⟩ := hs
        cases h2; rfl
      · cases hs
    | handle c k =>
      simp only [Estate.step] at hs
      split at hs
      · cases hs
      · split at hs
        · cases hs; rfl
        · cases hs
    | cloneHandle k k' =>
      simp only [Estate.step] at hs
      split at hs
      · cases hs
      · split at hs
        · cases hs; rfl
        · cases hs
    | readTarget k | writeTarget k f =>
      simp only [Estate.step] at hs
      split at hs
      · cases hs
      · split at hs
        · exact plain hs
        · cases hs
    | enter k excl =>
      simp only [Estate.step] at hs
      split at hs
      · cases hs
      · split at hs
        · simp only [Option.map_eq_some_iff] at hs
          obtain ⟨⟨b, w⟩, h1, h2⟩ := hs
          cases h2; rfl
        · cases hs
    | commit t =>
      simp only [Estate.step] at hs
      split at hs
      · cases hs
      · split at hs
        · rename_i tx ht
          split at hs
          · rename_i hroot
            exfalso
            obtain ⟨hh, hC⟩ := hI.ctx
            have h0 : t ≠ 0 := by simpa [DropCall.ends] using hx
            obtain ⟨c, p, chain, st, h5, _⟩ := hC.tx t tx (tx_some ht).1 h0
            rw [hroot.1] at h5; cases h5
          · exact plain hs
        · cases hs
    | _ =>
      simp only [Estate.step] at hs
      split at hs
      · cases hs
      · exact plain hs

/-- The root is the only transaction without a context. -/
theorem EstateInv.rootContext (hI : EstateInv g e) {tx : TxVal σ.K σ.T} (ht : e.world.tx 0 = some tx) : tx.context = none := by
  obtain ⟨hh, hC⟩ := hI.ctx
  obtain ⟨r, hr, hrc⟩ := hC.root
  rw [(tx_some ht).1] at hr; cases hr; exact hrc

/-- C105: committing the transaction stores what is pending; the nodes that are put out of the graph by it, one after another, are
destroyed, in that order, and no others, if none of its contexts was forgotten. -/
theorem C105_commit (h : Outlived D g i o e) (hk : ∀ x ∈ e.world.ctxs, x.chain.head? = some 0 → x.status ≠ .forgotten)
    (hs : e.step D false (.call (.commit 0)) = some (.answer .none, e')) :
    e'.world.graph = e.world.graph.commit (e.world.log 0) ∧ e'.destroyed = e.destroyed ++ putOut e.world.graph (e.world.log 0) := by
  obtain ⟨hI, _⟩ := h.balanced
  simp only [Estate.step, Bool.false_eq_true, if_false] at hs
  split at hs
  · rename_i tx ht
    have hlog : e.world.log 0 = tx.log := by simp [World.log, (tx_some ht).1]
    by_cases hun : e.world.unused 0 = true
    · rw [if_pos ⟨hI.rootContext ht, (hI.sole ht hun).2 hk⟩, if_pos hun] at hs
      split at hs
      · rename_i hq
        cases hs
        obtain ⟨h1, _⟩ := apply_calm _ _ hq
        rw [h1, hlog]
        refine ⟨rfl, ?_⟩
        simp only [Estate.destroyed, List.map_append, List.map_map]
        congr 1
        rw [List.map_congr_left (g := fun n => n) (by simp)]; simp
      · cases hs
      · cases hs
    · split at hs
      · cases hs
      · simp [Estate.plainly, World.step, ht, hun] at hs
  · cases hs

/-- C105: giving up a transaction none of whose contexts was forgotten leaves the graph as it was before and destroys the nodes that were saved
in it, in order, and no others. -/
theorem C105_abandon (h : Outlived D g i o e) {u : Bool} {t : Nat} {a : Answer σ.T}
    (hk : ∀ x ∈ e.world.ctxs, x.chain.head? = some t → x.status ≠ .forgotten)
    (hs : e.step D u (.call (.abandon t)) = some (.answer a, e')) :
    e'.world.graph = g ∧ e'.destroyed = e.destroyed ++ opNodes (e.world.log t) := by
  obtain ⟨hI, _⟩ := h.balanced
  simp only [Estate.step] at hs
  split at hs
  · rename_i tx b w ht hw
    have hlog : e.world.log t = tx.log := by simp [World.log, (tx_some ht).1]
    simp only [World.step, ht] at hw
    split at hw
    · rename_i hun
      cases hw
      rw [if_pos ((hI.sole ht hun).2 hk)] at hs
      simp only [Option.some.injEq, Prod.mk.injEq] at hs
      obtain ⟨hs1, rfl⟩ := hs
      rw [destroy_world _ _ _ _ (ended_answer hs1), hlog]
      obtain ⟨hh, hC⟩ := hI.ctx
      refine ⟨root_live hC t tx (tx_some ht).1 (tx_some ht).2, ?_⟩
      simp only [Estate.destroyed, List.map_append, List.map_map]
      congr 1
      rw [List.map_congr_left (g := fun n => n) (by simp)]; simp
    · cases hw
  · cases hs

/-- C105: ending a transaction one of whose contexts was forgotten destroys nothing: what was pending is kept, for ever. -/
theorem C105_forgotten (h : Outlived D g i o e) {u : Bool} {t : Nat} {r : Ended σ.T} {x : DropCall σ}
    (hx : x = .call (.commit t) ∨ x = .call (.abandon t)) (hk : ∃ y ∈ e.world.ctxs, y.chain.head? = some t ∧ y.status = .forgotten)
    (hs : e.step D u x = some (r, e')) : e'.drops = e.drops ∧ e'.logOwned t = true ∧ e'.world.log t = e.world.log t ∧
      e'.world.graph = g := by
  obtain ⟨hI, _⟩ := h.balanced
  obtain ⟨y, hy, hy1, hy2⟩ := hk
  obtain ⟨hh, hC⟩ := hI.ctx
  have key : ∀ {tx : TxVal σ.K σ.T} {e1 : Estate σ}, e.world.tx t = some tx → e1.world.ctxs = e.world.ctxs →
      e1.world.txs = e.world.txs.modify t (fun tx => { tx with live := false }) → e1.world.graph = e.world.graph →
      e1.logOwned t = true ∧ e1.world.log t = e.world.log t ∧ e1.world.graph = g := by
    intro tx e1 ht h1 h2 h3
    refine ⟨?_, ?_, ?_⟩
    · simp only [Estate.logOwned, Bool.or_eq_true, List.any_eq_true]
      exact .inr ⟨y, by rw [h1]; exact hy, by simp [hy1, hy2]⟩
    · simp only [World.log, h2, getElem?_modify_self, (tx_some ht).1, Option.map_some]
    · rw [h3]; exact root_live hC t tx (tx_some ht).1 (tx_some ht).2
  rcases hx with rfl | rfl
  · simp only [Estate.step] at hs
    split at hs
    · cases hs
    · split at hs
      · rename_i tx ht
        by_cases hun : e.world.unused t = true
        · have hno : ¬ tx.owners = 1 := by rw [hI.sole ht hun]; exact fun hc => hc y hy hy1 hy2
          rw [if_neg (fun hc => hno hc.2)] at hs
          simp only [Estate.plainly, World.step, ht, if_pos hun, if_neg hno, Option.map_some, Option.some.injEq, Prod.mk.injEq] at hs
          obtain ⟨_, rfl⟩ := hs
          exact ⟨rfl, key ht rfl rfl rfl⟩
        · split at hs
          · cases hs
          · simp [Estate.plainly, World.step, ht, hun] at hs
      · cases hs
  · simp only [Estate.step] at hs
    split at hs
    · rename_i tx b w ht hw
      simp only [World.step, ht] at hw
      split at hw
      · rename_i hun
        cases hw
        have hno : ¬ tx.owners = 1 := by rw [hI.sole ht hun]; exact fun hc => hc y hy hy1 hy2
        rw [if_neg hno] at hs
        cases hs
        exact ⟨rfl, key ht rfl rfl rfl⟩
      · cases hw
    · cases hs

theorem falls_ownerless (e : Estate σ) (target : Option Nat) : (e.falls target).map (·.1) = e.ownerless target := by
  unfold Estate.falls Estate.ownerless
  cases target with
  | none => rfl
  | some p =>
    dsimp only
    have : e.targetOwned p = true ↔ ¬ e.strongCount p = 0 := by
      simp only [Estate.targetOwned, Bool.or_eq_true, List.any_eq_true, Estate.strongCount]
      rw [← List.countP_pos_iff, ← List.countP_pos_iff]
      omega
    by_cases hz : e.strongCount p = 0
    · have hn : ¬ e.targetOwned p = true := fun h => this.1 h hz
      rw [if_pos hz, if_neg hn]
      cases e.world.cells[p]? <;> rfl
    · rw [if_neg hz, if_pos (this.2 hz)]; rfl

theorem Estate.ownerless_drops (e : Estate σ) (ds : List (σ.T × Bool)) (target : Option Nat) :
    ({ e with drops := ds } : Estate σ).ownerless target = e.ownerless target := rfl

/-- C105: dropping a context destroys its target if nothing else has it, and nothing else. -/
theorem C105_context {u : Bool} {c : Nat} {y : CtxVal} {a : Answer σ.T} (hy : e.world.ctx c = some y)
    (hs : e.step D u (.call (.dropCtx c)) = some (.answer a, e')) : e'.destroyed = e.destroyed ++ e'.ownerless y.target := by
  simp only [Estate.step, hy] at hs
  split at hs
  · rename_i z b w hz hw
    simp only [Option.some.injEq] at hz
    subst hz
    simp only [Option.some.injEq, Prod.mk.injEq] at hs
    obtain ⟨hs1, rfl⟩ := hs
    rw [letGo_world (ended_answer hs1), Estate.ownerless_drops, ← falls_ownerless]
    simp [Estate.destroyed]
  · cases hs

/-- C105: dropping a target handle destroys the target if nothing else has it, and nothing else. -/
theorem C105_handle {u : Bool} {k : Nat} {target : Option Nat} {a : Answer σ.T} (hk : e.held[k]? = some (some target))
    (hs : e.step D u (.dropHandle k) = some (.answer a, e')) : e'.destroyed = e.destroyed ++ e'.ownerless target := by
  simp only [Estate.step, hk] at hs
  split at hs
  · cases hs
  · simp only [Option.some.injEq, Prod.mk.injEq] at hs
    obtain ⟨hs1, rfl⟩ := hs
    rw [letGo_world (ended_answer hs1), Estate.ownerless_drops, ← falls_ownerless]
    simp [Estate.destroyed]

/-- C105: giving a context another target destroys the one it had if nothing else has it, and nothing else, unless a destructor panics. -/
theorem C105_target {c : Nat} {n : σ.T} {y : CtxVal} {a : Answer σ.T} (hy : e.world.ctx c = some y) (ha : a ≠ .panic)
    (hs : e.step D false (.call (.withTarget c n)) = some (.answer a, e')) : e'.destroyed = e.destroyed ++ e'.ownerless y.target := by
  simp only [Estate.step, hy, Bool.false_eq_true, if_false] at hs
  split at hs
  · split at hs
    · rename_i z b w hz hw
      simp only [Option.some.injEq] at hz
      subst hz
      split at hs
      · rename_i hcalm
        cases hs
        rw [letGo_world (by rw [hcalm]; simp), Estate.ownerless_drops, ← falls_ownerless]
        simp [Estate.destroyed]
      · split at hs
        · simp only [Option.some.injEq, Prod.mk.injEq] at hs
          obtain ⟨hs1, _⟩ := hs
          split at hs1
          · cases hs1
          · cases hs1; exact absurd rfl ha
        · cases hs
    · cases hs
  · cases hs

/-- C105: whatever a call destroys is destroyed while the lock of the graph is held, exactly if the transaction was not over and the call is not the one that
gives it up: then the lock is let go first. -/
theorem C105_lock (h : Outlived D g i o e) {u : Bool} {x : DropCall σ} {r : Ended σ.T} (hs : e.step D u x = some (r, e')) :
    ∃ ds, e'.drops = e.drops ++ ds ∧ ∀ d ∈ ds, d.2 = true ↔ (¬ e.over ∧ x ≠ .call (.abandon 0)) := by
  obtain ⟨ds, h1, h2, _⟩ := step_ran h.balanced.1 hs
  refine ⟨ds, h1, fun d hd => ?_⟩
  rw [h2 d hd, Bool.and_eq_true]
  apply and_congr
  · unfold Estate.locked Estate.over
    cases e.world.tx 0 <;> simp
  · cases x with
    | dropHandle k => simp [DropCall.givesUp]
    | call x => cases x <;> simp [DropCall.givesUp]

theorem calm_of_quiet {locked u : Bool} {r : Demise × Estate σ} (h : RanDtors D locked u e r)
    (hq : ∀ k, e.drops.length ≤ k → k < r.2.drops.length → D k = false) : r.1 = .calm := by
  obtain ⟨_, _, _, _, ds, h1, _, h2, h3, h4⟩ := h
  have hz : panicsWithin D e.drops.length ds.length = 0 := by
    unfold panicsWithin
    rw [List.countP_eq_zero]
    intro k hk
    rw [List.mem_range'_1] at hk
    simp [hq k hk.1 (by rw [h1, List.length_append]; exact hk.2)]
  cases hr : r.1 with
  | calm => rfl
  | panicking => have := (h3 hr).1; omega
  | aborted => have := h4 hr; cases u <;> simp at this <;> omega

/-- C105: a call in which no destructor panics answers, and leaves everything, as if there were none (and C67, C68, C69 are about that). -/
theorem C105_as_without {u : Bool} {x : Call σ} {r : Ended σ.T} (hs : e.step D u (.call x) = some (r, e'))
    (hq : ∀ k, e.drops.length ≤ k → k < e'.drops.length → D k = false) :
    ∃ a, r = .answer a ∧ e.world.step x = some (a, e'.world) := by
  have plain : e.plainly x = some (r, e') → ∃ a, r = .answer a ∧ e.world.step x = some (a, e'.world) := by
    intro hy
    simp only [Estate.plainly, Option.map_eq_some_iff] at hy
    obtain ⟨⟨b, w⟩, h1, h2⟩ := hy
    cases h2
    exact ⟨b, rfl, h1⟩
  cases x with
  | dropCtx c =>
    simp only [Estate.step] at hs
    split at hs
    · rename_i y a w hy hw
      cases hs
      have hr := letGo_ran (D := D) u y.target { e with world := w }
      have hc := calm_of_quiet hr hq
      rw [hc, hr.world]
      exact ⟨a, rfl, hw⟩
    · cases hs
  | abandon t =>
    simp only [Estate.step] at hs
    split at hs
    · rename_i tx a w ht hw
      split at hs
      · cases hs
        have hr := destroy_ran (D := D) (t != 0) (opNodes tx.log) u
          ({ e with world := w, poisoned := e.poisoned || (u && t == 0) } : Estate σ)
        have hc := calm_of_quiet hr hq
        rw [hc, hr.world]
        exact ⟨a, rfl, hw⟩
      · cases hs
        exact ⟨a, rfl, hw⟩
    · cases hs
  | leave j panicked =>
    simp only [Estate.step] at hs
    split at hs
    · simp only [Option.map_eq_some_iff] at hs
      obtain ⟨⟨b, w⟩, h1, h2⟩ := hs
      cases h2
      exact ⟨b, rfl, h1⟩
    · cases hs
  | withTarget c n =>
    simp only [Estate.step] at hs
    split at hs
    · cases hs
    · split at hs
      · split at hs
        · rename_i y a w hy hw
          have hr := letGo_ran (D := D) false y.target { e with world := w }
          split at hs
          · cases hs
            rw [hr.world]
            exact ⟨a, rfl, hw⟩
          · rename_i hc
            split at hs
            · rename_i b w' hw'
              cases hs
              have hr' := letGo_ran (D := D) true (some e.world.cells.length)
                { (({ e with world := w } : Estate σ).letGo D false y.target).2 with world := w' }
              obtain ⟨_, _, _, _, ds', h1, _⟩ := hr'
              refine absurd (calm_of_quiet hr fun k hk1 hk2 => hq k hk1 ?_) hc
              rw [h1, List.length_append]
              exact Nat.lt_of_lt_of_le hk2 (Nat.le_add_right _ _)
            · cases hs
        · cases hs
      · cases hs
  | handle c k =>
    simp only [Estate.step] at hs
    split at hs
    · cases hs
    · split at hs
      · rename_i y a w hy hw
        cases hs
        exact ⟨a, rfl, hw⟩
      · cases hs
  | cloneHandle k k' =>
    simp only [Estate.step] at hs
    split at hs
    · cases hs
    · split at hs
      · rename_i y a w hy hw
        cases hs
        exact ⟨a, rfl, hw⟩
      · cases hs
  | readTarget k | writeTarget k f =>
    simp only [Estate.step] at hs
    split at hs
    · cases hs
    · split at hs
      · exact plain hs
      · cases hs
  | enter k excl =>
    simp only [Estate.step] at hs
    split at hs
    · cases hs
    · split at hs
      · simp only [Option.map_eq_some_iff] at hs
        obtain ⟨⟨b, w⟩, h1, h2⟩ := hs
        cases h2
        exact ⟨b, rfl, h1⟩
      · cases hs
  | commit t =>
    simp only [Estate.step] at hs
    split at hs
    · cases hs
    · split at hs
      · rename_i tx ht
        split at hs
        · rename_i hco
          split at hs
          · rename_i hun
            obtain ⟨ds, h1, _, h2, h3, h4⟩ := apply_ran (D := D) tx.log
              ({ e with world := { e.world with txs := e.world.txs.modify t fun tx => { tx with live := false } } } : Estate σ)
            have hz : ∀ {n : Nat}, e'.drops.length = e.drops.length + n → panicsWithin D e.drops.length n = 0 := by
              intro n hn
              unfold panicsWithin
              rw [List.countP_eq_zero]
              intro k hk
              rw [List.mem_range'_1] at hk
              simp [hq k hk.1 (by rw [hn]; exact hk.2)]
            split at hs
            · rename_i hc
              cases hs
              refine ⟨.none, rfl, ?_⟩
              rw [(apply_calm _ _ hc).1]
              simp only [World.step, ht, if_pos hun, if_pos hco.2, hco.1]
            · rename_i hc
              cases hs
              have h3 := h3 hc
              have := hz (n := ds.length) (by rw [show (_ : Estate σ).drops = _ from h1, List.length_append])
              rw [show (_ : Estate σ).drops.length = e.drops.length from rfl] at h3
              omega
            · rename_i hc
              cases hs
              have h4 := h4 hc
              have := hz (n := ds.length) (by rw [h1, List.length_append])
              rw [show (_ : Estate σ).drops.length = e.drops.length from rfl] at h4
              omega
          · cases hs
        · exact plain hs
      · cases hs
  | _ =>
    simp only [Estate.step] at hs
    split at hs
    · cases hs
    · exact plain hs

/-- C105: destructors, whether or not they panic, do not matter to whether a call can be made (by a thread that is not unwinding): that is as
without them, but that a target handle cannot be used once it was dropped. -/
theorem C105_possible (x : Call σ) :
    (∃ r e', e.step D false (.call x) = some (r, e')) ↔
      (∃ a w', e.world.step x = some (a, w')) ∧ (∀ k, x.handleUsed = some k → ∃ target, e.held[k]? = some (some target)) ∧
        (∀ j, x ≠ .leave j true) ∧ ∀ c n, x = .withTarget c n → e.world.unborrowed c = true := by
  have key : ∀ {α β : Type} (o : Option (α × β)), (∃ a b, o = some (a, b)) ↔ o.isSome = true := by
    intro α β o
    cases o with
    | none => simp
    | some y => exact ⟨fun _ => rfl, fun _ => ⟨y.1, y.2, rfl⟩⟩
  have hold : ∀ k, e.holds k = true ↔ ∃ target, e.held[k]? = some (some target) := by
    intro k
    unfold Estate.holds
    split
    · rename_i t ht; simp [ht]
    · rename_i hn
      simp only [Bool.false_eq_true, false_iff]
      rintro ⟨t, ht⟩
      exact hn t ht
  rw [key, key]
  cases x with
  | dropCtx c =>
    simp only [Estate.step, Call.handleUsed, World.step]
    cases hc : e.world.ctx c with
    | none => simp
    | some y => cases hu : e.world.unborrowed c <;> simp
  | abandon t =>
    simp only [Estate.step, Call.handleUsed]
    cases ht : e.world.tx t with
    | none => simp [World.step, ht]
    | some tx =>
      cases hw : e.world.step (.abandon t) with
      | none => simp
      | some y =>
        obtain ⟨a, w⟩ := y
        simp only
        split <;> simp
  | leave j panicked =>
    simp only [Estate.step, Call.handleUsed]
    cases panicked with
    | false => simp
    | true => simp
  | withTarget c n =>
    simp only [Estate.step, Call.handleUsed, Bool.false_eq_true, if_false]
    cases hc : e.world.ctx c with
    | none => simp [World.step, hc]
    | some y =>
      cases hu : e.world.unborrowed c with
      | false => simp [hu]
      | true =>
        simp only [World.step, hc, if_true]
        generalize hr : ({ e with world := { e.world with cells := e.world.cells ++ [⟨n, false⟩], ctxs := e.world.ctxs.modify c fun x => { x with target := some e.world.cells.length } } } :
          Estate σ).letGo D false y.target = r
        have hran := letGo_ran (D := D) false y.target ({ e with world := { e.world with cells := e.world.cells ++ [⟨n, false⟩], ctxs := e.world.ctxs.modify c fun x => { x with target := some e.world.cells.length } } } :
          Estate σ)
        rw [hr] at hran
        have hw := hran.world
        split
        · simp [hu]
        · obtain ⟨z, hz⟩ : ∃ z, r.2.world.ctx c = some z := by
            rw [hw]
            obtain ⟨h1, h2, _⟩ := ctx_some hc
            exact ⟨{ y with target := some e.world.cells.length }, by simp [World.ctx, h1, h2]⟩
          have hub : r.2.world.unborrowed c = true := by rw [hw]; exact hu
          simp [hz, hub, hu]
  | handle c k =>
    simp only [Estate.step, Call.handleUsed, Bool.false_eq_true, if_false]
    cases hc : e.world.ctx c with
    | none => simp [World.step, hc]
    | some y => cases hw : e.world.step (.handle c k) <;> simp
  | cloneHandle k k' =>
    simp only [Estate.step, Call.handleUsed, Bool.false_eq_true, if_false]
    cases hk : e.held[k]? with
    | none => simp [hk]
    | some o =>
      cases o with
      | none => simp [hk]
      | some t => cases hw : e.world.step (.cloneHandle k k') <;> simp [hk]
  | readTarget k | writeTarget k f =>
    simp only [Estate.step, Call.handleUsed, Bool.false_eq_true, if_false, Estate.plainly]
    by_cases hk : e.holds k = true
    · simp [hk, (hold k).1 hk]
    · simp [hk, (mt (hold k).2 hk)]
  | enter k excl =>
    simp only [Estate.step, Call.handleUsed, Bool.false_eq_true, if_false]
    by_cases hk : e.holds k = true
    · simp [hk, (hold k).1 hk]
    · simp [hk, (mt (hold k).2 hk)]
  | commit t =>
    simp only [Estate.step, Call.handleUsed, Bool.false_eq_true, if_false, Estate.plainly]
    cases ht : e.world.tx t with
    | none => simp [World.step, ht]
    | some tx =>
      simp only
      by_cases hco : tx.context = none ∧ tx.owners = 1
      · rw [if_pos hco]
        simp only [World.step, ht, hco.1, if_pos hco.2]
        cases hu : e.world.unused t with
        | false => simp
        | true =>
          simp only [if_true]
          split <;> simp
      · rw [if_neg hco]; simp
  | _ => simp [Estate.step, Estate.plainly, Call.handleUsed]

/-- Calls in a row that all return or panic. -/
theorem outlived_script : ∀ {xs : List (Bool × DropCall σ)} {as : List (Ended σ.T)} {e e' : Estate σ} {i o : List σ.T},
    Outlived D g i o e → e.script D xs = some (as, e') → (∀ a ∈ as, a ≠ .abort ∧ a ≠ .answer .stuck) →
    ∃ i' o', Outlived D g i' o' e'
  | [], as, e, e', i, o, h, hs, _ => by cases hs; exact ⟨i, o, h⟩
  | (u, x) :: xs, as, e, e', i, o, h, hs, ha => by
    simp only [Estate.script] at hs
    split at hs
    · cases hs
    · rename_i r e1 hr
      simp only [Option.map_eq_some_iff] at hs
      obtain ⟨⟨as', e2⟩, h1, h2⟩ := hs
      cases h2
      have := ha r (by simp)
      cases r with
      | abort => exact absurd rfl this.1
      | answer b =>
        exact outlived_script (.call h hr (fun hc => this.2 (by rw [hc]))) h1 (fun a h => ha a (by simp [h]))

/-- A destructor that panics when it is the one with this number. -/
def nthPanics (n : Nat) : Nat → Bool := fun k => k == n

/-- Two nodes are in the graph. One is saved anew twice and the other deleted: the versions that are put out are destroyed when the
transaction is committed, one after another, with the lock held; the target when its last handle goes, after the transaction. -/
example : ((Estate.start (Graph.fromIter [⟨1, 10⟩, ⟨2, 20⟩] : Graph Nat Doc)).script (σ := demo) (fun _ => false)
    [(false, .call (.context 0 0)), (false, .call (.save 0 ⟨1, 11⟩)), (false, .call (.save 0 ⟨1, 12⟩)), (false, .call (.delete 0 (2 : Nat))),
      (false, .call (.withTarget 0 ⟨7, 70⟩)), (false, .call (.handle 0 0)), (false, .call (.withTarget 0 ⟨8, 80⟩)),
      (false, .call (.dropCtx 0)), (false, .call (.commit 0)), (false, .dropHandle 0)]).map
      (fun y => (y.2.drops, y.2.world.graph.iter, y.2.nodes)) =
    some ([(⟨8, 80⟩, true), (⟨1, 10⟩, true), (⟨1, 11⟩, true), (⟨2, 20⟩, true), (⟨7, 70⟩, false)], [⟨1, 12⟩], [⟨1, 12⟩]) := by
  decide +kernel

/-- A transaction that is given up: the nodes saved in the subtransaction that was committed, and in it, are destroyed, after the lock was
let go; those of a subtransaction given up before, with the lock held. -/
example : ((Estate.start (Graph.fromIter [⟨1, 10⟩] : Graph Nat Doc)).script (σ := demo) (fun _ => false)
    [(false, .call (.context 0 0)), (false, .call (.save 0 ⟨1, 11⟩)), (false, .call (.transaction 0 1)), (false, .call (.context 1 1)),
      (false, .call (.save 1 ⟨2, 20⟩)), (false, .call (.dropCtx 1)), (false, .call (.commit 1)), (false, .call (.transaction 0 2)),
      (false, .call (.context 2 2)), (false, .call (.save 2 ⟨3, 30⟩)), (false, .call (.dropCtx 2)), (false, .call (.abandon 2)),
      (false, .call (.dropCtx 0)), (false, .call (.abandon 0))]).map
      (fun y => (y.2.drops, y.2.world.graph.iter, y.2.nodes)) =
    some ([(⟨3, 30⟩, true), (⟨1, 11⟩, false), (⟨2, 20⟩, false)], [⟨1, 10⟩], [⟨1, 10⟩]) := by
  decide +kernel

/-- A context is forgotten: its transaction is committed, and the node saved in it neither stored nor destroyed. -/
example : ((Estate.start (Graph.fromIter [⟨1, 10⟩] : Graph Nat Doc)).script (σ := demo) (fun _ => false)
    [(false, .call (.context 0 0)), (false, .call (.save 0 ⟨1, 11⟩)), (false, .call (.forgetCtx 0)), (false, .call (.commit 0))]).map
      (fun y => (y.2.drops, y.2.world.graph.iter, y.2.nodes)) = some ([], [⟨1, 10⟩], [⟨1, 10⟩, ⟨1, 11⟩]) := by
  decide +kernel

/-- A handle is not dropped while it is used: only then is the target, which the context has no longer, destroyed. -/
example : ((Estate.start (Graph.fromIter [⟨1, 10⟩] : Graph Nat Doc)).script (σ := demo) (fun _ => false)
    [(false, .call (.context 0 0)), (false, .call (.withTarget 0 ⟨7, 70⟩)), (false, .call (.handle 0 0)), (false, .call (.enter 0 true)),
      (false, .call (.withTarget 0 ⟨8, 80⟩))]).map (fun y => (y.2.drops, y.2.world.guards, y.2.targetOwned 0,
        (y.2.step (fun _ => false) false (.dropHandle 0)).isSome)) = some ([], [(0, true)], true, false) ∧
    ((Estate.start (Graph.fromIter [⟨1, 10⟩] : Graph Nat Doc)).script (σ := demo) (fun _ => false)
    [(false, .call (.context 0 0)), (false, .call (.withTarget 0 ⟨7, 70⟩)), (false, .call (.handle 0 0)), (false, .call (.enter 0 true)),
      (false, .call (.withTarget 0 ⟨8, 80⟩)), (false, .call (.leave 0 false)), (false, .dropHandle 0)]).map (fun y => y.2.drops) =
    some [(⟨7, 70⟩, true)] := by
  decide +kernel

/-- A handle that was dropped cannot be used, though the target is still there; one that was not dropped can. -/
example : ((Estate.start (Graph.fromIter [⟨1, 10⟩] : Graph Nat Doc)).script (σ := demo) (nthPanics 0)
    [(false, .call (.context 0 0)), (false, .call (.withTarget 0 ⟨7, 70⟩)), (false, .call (.handle 0 0)), (false, .call (.cloneHandle 0 1)),
      (false, .dropHandle 0)]).map (fun y => ((y.2.step (nthPanics 0) false (.call (.readTarget 0))).isSome,
        (y.2.step (nthPanics 0) false (.call (.readTarget 1))).map (·.1), (y.2.world.step (.readTarget 0)).isSome)) =
    some (false, some (.answer (.node (some ⟨7, 70⟩))), true) := by
  decide +kernel

/-! ## C106 -/

/-- C106: when a destructor panics while the transaction is committed: it is that of the node which the operation with some index `k` puts out, and the
first to panic; the operations up to and including that one are applied, the others are not: their nodes are destroyed, before the lock is let go;
and the schema is poisoned. -/
theorem C106_commit (h : Outlived D g i o e) (hs : e.step D false (.call (.commit 0)) = some (.answer .panic, e')) :
    ∃ k op n, (e.world.log 0)[k]? = some op ∧ (e.world.graph.commit ((e.world.log 0).take k)).get op.id = some n ∧
      D (e.drops.length + (putOut e.world.graph ((e.world.log 0).take k)).length) = true ∧
      (∀ j, j < (putOut e.world.graph ((e.world.log 0).take k)).length → D (e.drops.length + j) = false) ∧
      e'.world.graph = e.world.graph.commit ((e.world.log 0).take (k + 1)) ∧
      e'.destroyed = e.destroyed ++ putOut e.world.graph ((e.world.log 0).take (k + 1)) ++ opNodes ((e.world.log 0).drop (k + 1)) ∧
      e'.poisoned = true := by
  simp only [Estate.step, Bool.false_eq_true, if_false] at hs
  split at hs
  · rename_i tx ht
    have hlog : e.world.log 0 = tx.log := by simp [World.log, (tx_some ht).1]
    split at hs
    · split at hs
      · split at hs
        · cases hs
        · rename_i hq
          cases hs
          obtain ⟨k, op, n, h1, h2, h3, h4, h5⟩ := apply_panic _ _ hq
          rw [hlog]
          refine ⟨k, op, n, h1, h2, h3, h4, ?_, ?_, rfl⟩
          · rw [h5]
          · rw [h5]
            simp only [Estate.destroyed, List.map_append, List.map_map, List.append_assoc]
            have : ∀ l : List σ.T, l.map ((fun x : σ.T × Bool => x.1) ∘ fun n => (n, true)) = l := by
              intro l
              rw [List.map_congr_left (g := fun n => n) (by simp)]; simp
            rw [this, this]
        · cases hs
      · cases hs
    · simp only [Estate.plainly, Option.map_eq_some_iff] at hs
      obtain ⟨⟨b, w⟩, h1, h2⟩ := hs
      cases h2
      simp only [World.step, ht] at h1
      split at h1
      · split at h1
        · split at h1 <;> cases h1
        · cases h1
      · cases h1
  · cases hs

/-- C106: dropping contexts and handles and giving transactions up do the same whether or not destructors panic, as long as the process is
not aborted. -/
theorem C106_same {D' : Nat → Bool} {u : Bool} {x : DropCall σ} {a b : Answer σ.T} {e1 e2 : Estate σ}
    (hx : (∀ t, x ≠ .call (.commit t)) ∧ ∀ c n, x ≠ .call (.withTarget c n))
    (h1 : e.step D u x = some (.answer a, e1)) (h2 : e.step D' u x = some (.answer b, e2)) : e1 = e2 := by
  cases x with
  | dropHandle k =>
    simp only [Estate.step] at h1 h2
    split at h1
    · rename_i target hk
      rw [hk] at h2
      dsimp only at h2
      split at h1
      · cases h1
      · rename_i hv
        rw [if_neg hv] at h2
        simp only [Option.some.injEq, Prod.mk.injEq] at h1 h2
        obtain ⟨a1, rfl⟩ := h1
        obtain ⟨a2, rfl⟩ := h2
        rw [letGo_world (ended_answer a1), letGo_world (ended_answer a2)]
    · cases h1
  | call x =>
    cases x with
    | commit t => exact absurd rfl (hx.1 t)
    | withTarget c n => exact absurd rfl (hx.2 c n)
    | dropCtx c =>
      simp only [Estate.step] at h1 h2
      split at h1
      · rename_i y b w hy hw
        rw [hy, hw] at h2
        dsimp only at h2
        simp only [Option.some.injEq, Prod.mk.injEq] at h1 h2
        obtain ⟨a1, rfl⟩ := h1
        obtain ⟨a2, rfl⟩ := h2
        rw [letGo_world (ended_answer a1), letGo_world (ended_answer a2)]
      · cases h1
    | abandon t =>
      simp only [Estate.step] at h1 h2
      split at h1
      · rename_i y b w hy hw
        rw [hy, hw] at h2
        dsimp only at h2
        split at h1
        · rename_i ho
          rw [if_pos ho] at h2
          simp only [Option.some.injEq, Prod.mk.injEq] at h1 h2
          obtain ⟨a1, rfl⟩ := h1
          obtain ⟨a2, rfl⟩ := h2
          rw [destroy_world _ _ _ _ (ended_answer a1), destroy_world _ _ _ _ (ended_answer a2)]
        · rename_i ho
          rw [if_neg ho] at h2
          cases h1; cases h2; rfl
      · cases h1
    | _ =>
      simp only [Estate.step] at h1 h2
      rw [h1] at h2
      cases h2; rfl

/-- C106: when the destructor of the target a context had panics while it is given another, everything is as if it had been given it, and then, by
unwinding, the context is dropped. -/
theorem C106_target {c : Nat} {n : σ.T} {e' : Estate σ} (hs : e.step D false (.call (.withTarget c n)) = some (.answer .panic, e')) :
    ∃ e1, e.step (fun _ => false) false (.call (.withTarget c n)) = some (.answer .none, e1) ∧
      e1.step (fun _ => false) true (.call (.dropCtx c)) = some (.answer .none, e') := by
  have calm : ∀ (e : Estate σ) (u : Bool) (t : Option Nat), (e.letGo (fun _ => false) u t).1 = .calm := by
    intro e u t
    unfold Estate.letGo
    split
    · rfl
    · split
      · split
        · simp [Estate.destroy]
        · rfl
      · rfl
  simp only [Estate.step, Bool.false_eq_true, if_false] at hs
  split at hs
  · rename_i hub
    split at hs
    · rename_i y b w hy hw
      have hw0 := hw
      simp only [World.step, hy, Option.some.injEq, Prod.mk.injEq] at hw
      generalize hr : ({ e with world := w } : Estate σ).letGo D false y.target = q at hs
      split at hs
      · cases hs; exact absurd hw.1 (by simp)
      · rename_i hcalm
        have hna : q.1 ≠ .aborted := by
          rw [← hr]
          simp only [Estate.letGo]
          split
          · simp
          · split
            · split
              · simp only [Estate.destroy]
                split <;> simp
              · simp
            · simp
        have hq2 := letGo_world (D := D) (e := ({ e with world := w } : Estate σ)) (u := false) (target := y.target) (by rw [hr]; exact hna)
        rw [hr] at hq2
        split at hs
        · rename_i b' w' hw'
          simp only [Option.some.injEq, Prod.mk.injEq] at hs
          obtain ⟨hs1, hs2⟩ := hs
          have hna' : (({ q.2 with world := w' } : Estate σ).letGo D true (some e.world.cells.length)).1 ≠ .aborted := by
            intro hc; simp [hc] at hs1
          rw [letGo_world hna'] at hs2
          have hqw : q.2.world = w := by rw [hq2]
          rw [hqw] at hw'
          refine ⟨q.2, ?_, ?_⟩
          · simp only [Estate.step, Bool.false_eq_true, if_false, if_pos hub, hy, hw0, calm]
            rw [letGo_world (by rw [calm]; simp), hq2, hw.1]
          · have hctx : ∃ z, w.ctx c = some z ∧ z.target = some e.world.cells.length := by
              obtain ⟨_, rfl⟩ := hw
              obtain ⟨hc, hl, _⟩ := ctx_some hy
              refine ⟨{ y with target := some e.world.cells.length }, ?_, rfl⟩
              simp only [World.ctx]
              rw [getElem?_modify_self, hc]
              simp [hl]
            obtain ⟨z, hz, hzt⟩ := hctx
            have hb' : b' = .none := by
              simp only [World.step, hz] at hw'
              split at hw'
              · cases hw'; rfl
              · cases hw'
            simp only [Estate.step, hqw, hz, hw', hzt, calm, Demise.ended, hb']
            rw [letGo_world (by rw [calm]; simp), hs2]
        · cases hs
    · cases hs
  · cases hs

/-- C106: one panic of a destructor makes the call panic, unless the thread is unwinding; one while it is unwinding, be it that of another destructor,
aborts the process, and nothing else does. -/
theorem C106_ends (h : Outlived D g i o e) {u : Bool} {x : DropCall σ} {r : Ended σ.T} (hs : e.step D u x = some (r, e')) :
    ∃ ds, e'.drops = e.drops ++ ds ∧ (r = .abort ↔ panicsWithin D e.drops.length ds.length + u.toNat = 2) ∧
      panicsWithin D e.drops.length ds.length + u.toNat ≤ 2 ∧
      (r ≠ .abort → panicsWithin D e.drops.length ds.length = 1 → r = .answer .panic) := by
  obtain ⟨ds, h1, _, h2, h3, h4⟩ := step_ran h.balanced.1 hs
  exact ⟨ds, h1, h2, h3, h4⟩

/-- C106: the schema is poisoned by a panic of a destructor while the transaction is committed, and by giving the transaction up while unwinding; and
by nothing else: not by a destructor that panics when the transaction is given up, or a context or handle dropped. -/
theorem C106_poison (h : Outlived D g i o e) {u : Bool} {x : DropCall σ} {r : Ended σ.T} (hs : e.step D u x = some (r, e')) :
    e'.poisoned = true ↔ e.poisoned = true ∨ (x = .call (.commit 0) ∧ r = .answer .panic) ∨ (u = true ∧ x = .call (.abandon 0)) := by
  obtain ⟨hI, _⟩ := h.balanced
  have same : e'.poisoned = e.poisoned → (x ≠ .call (.commit 0) ∨ r ≠ .answer .panic) → x ≠ .call (.abandon 0) → (e'.poisoned = true ↔
      e.poisoned = true ∨ (x = .call (.commit 0) ∧ r = .answer .panic) ∨ (u = true ∧ x = .call (.abandon 0))) := by
    intro h1 h2 h3
    rw [h1]
    constructor
    · exact .inl
    · rintro (h | ⟨h, h'⟩ | ⟨_, h⟩)
      · exact h
      · rcases h2 with h2 | h2
        · exact absurd h h2
        · exact absurd h' h2
      · exact absurd h h3
  have plain : ∀ {y : Call σ}, e.plainly y = some (r, e') → e'.poisoned = e.poisoned ∧ ∃ a w, e.world.step y = some (a, w) ∧ r = .answer a := by
    intro y hy
    simp only [Estate.plainly, Option.map_eq_some_iff] at hy
    obtain ⟨⟨b, w⟩, h1, h2⟩ := hy
    cases h2; exact ⟨rfl, b, w, h1, rfl⟩
  cases x with
  | dropHandle k =>
    refine same ?_ (.inl (by simp)) (by simp)
    simp only [Estate.step] at hs
    split at hs
    · split at hs
      · cases hs
      · cases hs
        exact (letGo_ran _ _ _).poisoned
    · cases hs
  | call x =>
    cases x with
    | dropCtx c =>
      refine same ?_ (.inl (by simp)) (by simp)
      simp only [Estate.step] at hs
      split at hs
      · cases hs
        exact (letGo_ran _ _ _).poisoned
      · cases hs
    | abandon t =>
      simp only [Estate.step] at hs
      split at hs
      · have key : e'.poisoned = (e.poisoned || (u && t == 0)) := by
          split at hs
          · cases hs
            exact (destroy_ran _ _ _ _).poisoned
          · cases hs; rfl
        rw [key]
        simp
      · cases hs
    | leave j panicked =>
      refine same ?_ (.inl (by simp)) (by simp)
      simp only [Estate.step] at hs
      split at hs
      · simp only [Option.map_eq_some_iff] at hs
        obtain ⟨⟨b, w⟩, h1, h2⟩ := hs
        cases h2; rfl
      · cases hs
    | withTarget c n =>
      refine same ?_ (.inl (by simp)) (by simp)
      simp only [Estate.step] at hs
      split at hs
      · cases hs
      · split at hs
        · split at hs
          · split at hs
            · cases hs
              exact (letGo_ran _ _ _).poisoned
            · split at hs
              · cases hs
                exact (letGo_ran _ _ _).poisoned.trans (letGo_ran (D := D) _ _ _).poisoned
              · cases hs
          · cases hs
        · cases hs
    | handle c k =>
      refine same ?_ (.inl (by simp)) (by simp)
      simp only [Estate.step] at hs
      split at hs
      · cases hs
      · split at hs
        · cases hs; rfl
        · cases hs
    | cloneHandle k k' =>
      refine same ?_ (.inl (by simp)) (by simp)
      simp only [Estate.step] at hs
      split at hs
      · cases hs
      · split at hs
        · cases hs; rfl
        · cases hs
    | readTarget k | writeTarget k f =>
      refine same ?_ (.inl (by simp)) (by simp)
      simp only [Estate.step] at hs
      split at hs
      · cases hs
      · split at hs
        · exact (plain hs).1
        · cases hs
    | enter k excl =>
      refine same ?_ (.inl (by simp)) (by simp)
      simp only [Estate.step] at hs
      split at hs
      · cases hs
      · split at hs
        · simp only [Option.map_eq_some_iff] at hs
          obtain ⟨⟨b, w⟩, h1, h2⟩ := hs
          cases h2; rfl
        · cases hs
    | commit t =>
      simp only [Estate.step] at hs
      split at hs
      · cases hs
      · split at hs
        · rename_i tx ht
          have happly : ∀ (ops : List (Operation σ.K σ.T)) (e : Estate σ), (e.apply D ops).2.poisoned = e.poisoned := by
            intro ops
            induction ops with
            | nil => intro e; rfl
            | cons op ops ih =>
              intro e
              rw [apply_cons]
              split
              · exact (destroy_ran (D := D) _ _ _ _).poisoned
              · exact ih _
          split at hs
          · rename_i hroot
            have h0 : t = 0 := by
              apply Classical.byContradiction
              intro h0
              obtain ⟨hh, hC⟩ := hI.ctx
              obtain ⟨c, p, chain, st, h5, _⟩ := hC.tx t tx (tx_some ht).1 h0
              rw [hroot.1] at h5; cases h5
            subst h0
            split at hs
            · split at hs <;> cases hs
              · exact same (happly _ _) (.inr (by simp)) (by simp)
              · simp
              · exact same (happly _ _) (.inr (by simp)) (by simp)
            · cases hs
          · obtain ⟨h1, a, w, h2, rfl⟩ := plain hs
            refine same h1 (.inr ?_) (by simp)
            simp only [World.step, ht] at h2
            split at h2
            · split at h2
              · split at h2 <;> cases h2 <;> simp
              · cases h2; simp
            · cases h2
        · cases hs
    | _ =>
      refine same ?_ (.inl (by simp)) (by simp)
      simp only [Estate.step] at hs
      split at hs
      · cases hs
      · exact (plain hs).1

/-- C106, the claim: destructors run when the lock of the graph is not held, so that they can use the schema. It is not so: saving a node with the id of
one in the graph is enough; the old one's destructor never returns if it uses the schema. -/
theorem C106_lock_refuted : ¬ ∀ (D : Nat → Bool) (g : Graph demo.K demo.T) (i o : List demo.T) (e : Estate demo), Outlived D g i o e →
    ∀ d ∈ e.drops, d.2 = false := by
  intro hc
  obtain ⟨as, e', hs⟩ : ∃ as e', (Estate.start (Graph.fromIter [⟨1, 10⟩] : Graph Nat Doc)).script (σ := demo) (fun _ => false)
      [(false, .call (.context 0 0)), (false, .call (.save 0 ⟨1, 11⟩)), (false, .call (.dropCtx 0)), (false, .call (.commit 0))] = some (as, e') :=
    ⟨_, _, rfl⟩
  have ha : ∀ a ∈ as, a ≠ .abort ∧ a ≠ .answer .stuck := by cases hs; decide
  obtain ⟨i, o, h⟩ := outlived_script .start hs ha
  have : (⟨1, 10⟩, true) ∈ e'.drops := by cases hs; exact .head _
  cases hc _ _ _ _ _ h _ this

/-- C106, the claim: a commit that panics leaves the graph as before, or stores everything that is pending. It is not so: the destructor of the first node
that is put out panics, and the second operation is not applied. -/
theorem C106_atomic_refuted : ¬ ∀ (D : Nat → Bool) (g : Graph demo.K demo.T) (i o : List demo.T) (e e' : Estate demo), Outlived D g i o e →
    e.step D false (.call (.commit 0)) = some (.answer .panic, e') →
    e'.world.graph.iter = g.iter ∨ e'.world.graph.iter = (g.commit (e.world.log 0)).iter := by
  intro hc
  obtain ⟨as, e, hs⟩ : ∃ as e, (Estate.start (Graph.fromIter [⟨1, 10⟩, ⟨2, 20⟩] : Graph Nat Doc)).script (σ := demo) (nthPanics 0)
      [(false, .call (.context 0 0)), (false, .call (.save 0 ⟨1, 11⟩)), (false, .call (.save 0 ⟨2, 21⟩)), (false, .call (.dropCtx 0))] = some (as, e) :=
    ⟨_, _, rfl⟩
  have ha : ∀ a ∈ as, a ≠ .abort ∧ a ≠ .answer .stuck := by cases hs; decide
  obtain ⟨i, o, h⟩ := outlived_script .start hs ha
  obtain ⟨e', he'⟩ : ∃ e', e.step (nthPanics 0) false (.call (.commit 0)) = some (.answer .panic, e') := by cases hs; exact ⟨_, rfl⟩
  have hit : e'.world.graph.iter = [⟨1, 11⟩, ⟨2, 20⟩] := by cases hs; cases he'; rfl
  have hlog : ((Graph.fromIter [⟨1, 10⟩, ⟨2, 20⟩] : Graph Nat Doc).commit (e.world.log 0)).iter = [⟨1, 11⟩, ⟨2, 21⟩] := by cases hs; rfl
  rcases hc _ _ _ _ _ _ h he' with h1 | h1
  · rw [hit] at h1; exact absurd h1 (by decide)
  · rw [hit] at h1
    exact absurd (h1.trans hlog) (by decide)

/-- The destructor of the first node that is put out panics: the second operation is not applied, its node is destroyed, and the schema is poisoned. -/
example : ((Estate.start (Graph.fromIter [⟨1, 10⟩, ⟨2, 20⟩] : Graph Nat Doc)).script (σ := demo) (nthPanics 0)
    [(false, .call (.context 0 0)), (false, .call (.save 0 ⟨1, 11⟩)), (false, .call (.save 0 ⟨2, 21⟩)), (false, .call (.dropCtx 0)),
      (false, .call (.commit 0))]).map (fun y => (y.1.getLast?, y.2.drops, y.2.world.graph.iter, y.2.poisoned)) =
    some (some (.answer .panic), [(⟨1, 10⟩, true), (⟨2, 21⟩, true)], [⟨1, 11⟩, ⟨2, 20⟩], true) := by
  decide +kernel

/-- Also the second destructor panics: the process is aborted. -/
example : ((Estate.start (Graph.fromIter [⟨1, 10⟩, ⟨2, 20⟩] : Graph Nat Doc)).script (σ := demo) (fun _ => true)
    [(false, .call (.context 0 0)), (false, .call (.save 0 ⟨1, 11⟩)), (false, .call (.save 0 ⟨2, 21⟩)), (false, .call (.dropCtx 0)),
      (false, .call (.commit 0))]).map (fun y => y.1.getLast?) = some (some .abort) := by
  decide +kernel

/-- A transaction is given up and a destructor panics: the other nodes are destroyed, the lock is not held and not poisoned. -/
example : ((Estate.start (Graph.fromIter [⟨1, 10⟩] : Graph Nat Doc)).script (σ := demo) (nthPanics 0)
    [(false, .call (.context 0 0)), (false, .call (.save 0 ⟨1, 11⟩)), (false, .call (.save 0 ⟨2, 21⟩)), (false, .call (.dropCtx 0)),
      (false, .call (.abandon 0))]).map (fun y => (y.1.getLast?, y.2.drops, y.2.world.graph.iter, y.2.poisoned)) =
    some (some (.answer .panic), [(⟨1, 11⟩, false), (⟨2, 21⟩, false)], [⟨1, 10⟩], false) := by
  decide +kernel

/-- The destructor of the target a context has panics when it is given another: that one is destroyed as well. -/
example : ((Estate.start (Graph.fromIter [⟨1, 10⟩] : Graph Nat Doc)).script (σ := demo) (nthPanics 0)
    [(false, .call (.context 0 0)), (false, .call (.withTarget 0 ⟨7, 70⟩)), (false, .call (.withTarget 0 ⟨8, 80⟩)), (true, .call (.abandon 0))]).map
      (fun y => (y.1, y.2.drops, y.2.poisoned)) =
    some ([.answer .none, .answer .none, .answer .panic, .answer .none], [(⟨7, 70⟩, true), (⟨8, 80⟩, true)], true) := by
  decide +kernel

end Plotline
