import Verif.Spec.App
import Verif.Props.Contexts
import Verif.Props.Graph

/-!
# Invariants of programs using a schema
-/

namespace Plotline

open Std

variable {σ : Sig}

theorem beq_comm' [LawfulSig σ] (i j : σ.K) : (i == j) = (j == i) := by
  rw [Bool.eq_iff_iff, Graph.beq_iff, Graph.beq_iff]
  exact ⟨OrientedCmp.eq_symm, OrientedCmp.eq_symm⟩

theorem reachable_applyOp {g : Graph σ.K σ.T} (hg : g.Reachable) (op : Operation σ.K σ.T) : (g.applyOp op).Reachable := by
  cases op with
  | save n => exact .insert g n hg
  | delete i => exact .remove g i hg

theorem reachable_commit : ∀ (ops : List (Operation σ.K σ.T)) {g : Graph σ.K σ.T}, g.Reachable → (g.commit ops).Reachable
  | [], _, hg => hg
  | op :: ops, _, hg => reachable_commit ops (reachable_applyOp hg op)

theorem reachable_step {w w' : World σ} {c : Call σ} {r : Answer σ.T} (hs : w.step c = some (r, w'))
    (hg : w.graph.Reachable) : w'.graph.Reachable := by
  cases c <;> simp only [World.step, Option.map_eq_some_iff] at hs
  all_goals repeat' split at hs
  all_goals first
    | (cases hs; done)
    | (obtain ⟨_, _, he⟩ := hs; cases he; exact hg)
    | (cases hs; exact hg)
    | (cases hs; exact reachable_commit _ hg)

theorem root_open {g graph : Graph σ.K σ.T} {h : List (Call σ)} {txs : List (TxVal σ.K σ.T)} {sk : Skel}
    (hI : CtxInv g h graph txs sk) : ∀ (t : Nat) (tx : TxVal σ.K σ.T), txs[t]? = some tx → tx.live = true →
    ∃ tx, txs[0]? = some tx ∧ tx.live = true := by
  intro t
  induction t using Nat.strongRecOn with
  | ind t ih =>
    intro tx ht hl
    by_cases h0 : t = 0
    · subst h0; exact ⟨tx, ht, hl⟩
    · obtain ⟨c, p, chain, st, h1, h2, h3, h4, h5⟩ := hI.tx t tx ht h0
      obtain ⟨p', ptx, h6, h7, h8, h9⟩ := hI.ctx c _ _ h2
      have : p = p' := by have := congrArg List.head? h8; simpa using this
      subst this
      exact ih p h4 ptx h7 (h9 (h5 hl))

/-- A context can be used only while the whole transaction is there. -/
theorem held_open {g : Graph σ.K σ.T} {h : List (Call σ)} {w : World σ} (hl : Legal g h w) {c : Nat} (hc : Held h c) : Open h 0 := by
  obtain ⟨x, hx⟩ := (ctx_held hl.shape c).1 hc
  obtain ⟨t, tx, _, h2, _, h4⟩ := hl.inv.ctx c _ _ (ctx_some hx).2.2
  obtain ⟨r, h5, h6⟩ := root_open hl.inv t tx h2 (h4 rfl)
  exact (tx_open hl.shape 0).2 ⟨r, by simp [World.tx, h5, h6]⟩

theorem open_open {g : Graph σ.K σ.T} {h : List (Call σ)} {w : World σ} (hl : Legal g h w) {t : Nat} (ht : Open h t) : Open h 0 := by
  obtain ⟨x, hx⟩ := (tx_open hl.shape t).1 ht
  obtain ⟨h1, h2⟩ := tx_some hx
  obtain ⟨r, h5, h6⟩ := root_open hl.inv t x h1 h2
  exact (tx_open hl.shape 0).2 ⟨r, by simp [World.tx, h5, h6]⟩

theorem open_graph {g : Graph σ.K σ.T} {h : List (Call σ)} {w : World σ} (hl : Legal g h w) (ho : Open h 0) : w.graph = g := by
  obtain ⟨x, hx⟩ := (tx_open hl.shape 0).1 ho
  obtain ⟨h1, h2⟩ := tx_some hx
  exact root_live hl.inv 0 x h1 h2

theorem sees_reads {g : Graph σ.K σ.T} {h : List (Call σ)} {i : σ.K} {t : Nat} {r : Option σ.T} :
    Sees (g.get i) h i t r ↔ Reads g h i t r := by
  constructor
  · intro hs
    induction hs with
    | written hw => exact .written hw
    | inherited hw hp _ ih => exact .inherited hw hp ih
    | stored hw => exact .stored hw
  · intro hs
    induction hs with
    | written hw => exact .written hw
    | inherited hw hp _ ih => exact .inherited hw hp ih
    | stored hw => exact .stored hw

/-- What the program did to the graph and its lock. -/
structure GInv (g : Graph σ.K σ.T) (h : List (AppCall σ)) (a : App σ) : Prop where
  reach : a.schema.graph.Reachable
  stored : ∀ i, a.schema.graph.get i = storedAt g h i
  ng : a.guards.length = guardsMade h
  kept : ∀ n e, GuardKept h n e ↔ ∃ x, a.guards[n]? = some x ∧ x.excl = e ∧ x.status ≠ .dropped
  usable : ∀ n e, GuardUsable h n e ↔ ∃ x, a.guards[n]? = some x ∧ x.excl = e ∧ x.status = .live
  nt : a.txs.length = ownersMade h
  txKept : ∀ n, TxKept h n ↔ ∃ x, a.txs[n]? = some x ∧ x.holds = true
  unmade : ∀ n, a.txs.length ≤ n → callsOf n h = []
  fresh : ∀ n st, a.txs[n]? = some ⟨none, st⟩ → callsOf n h = if st = .live then [] else [.abandon 0]
  world : ∀ n w st, a.txs[n]? = some ⟨some w, st⟩ → callsOf n h ≠ [] ∧ (st = .live ↔ Open (callsOf n h) 0) ∧
    ∃ g', Legal g' (callsOf n h) w ∧ (st ≠ .dropped → g' = a.schema.graph)
  excl1 : ∀ (n m : Nat) (x y : GuardVal), a.guards[n]? = some x → a.guards[m]? = some y → x.excl = true → x.status ≠ .dropped → y.status ≠ .dropped →
    n = m
  excl2 : ∀ (n m : Nat) (x : GuardVal) (y : TxOwner σ), a.guards[n]? = some x → a.txs[m]? = some y → x.status ≠ .dropped → y.holds = true → False
  excl3 : ∀ (n m : Nat) (x y : TxOwner σ), a.txs[n]? = some x → a.txs[m]? = some y → x.holds = true → y.holds = true → n = m

theorem schema_guard (S : Schema σ) : S.guard = S.graph := by unfold Schema.guard; split <;> rfl

section
variable {g : Graph σ.K σ.T} {h : List (AppCall σ)} {a a' : App σ}

theorem gInv_start (hg : g.Reachable) : GInv g ([] : List (AppCall σ)) (App.start g) where
  reach := hg
  stored _ := rfl
  ng := rfl
  kept := by simp [GuardKept, App.start]
  usable := by simp [GuardUsable, App.start]
  nt := rfl
  txKept := by simp [TxKept, App.start]
  unmade _ _ := rfl
  fresh := by simp [App.start]
  world := by simp [App.start]
  excl1 := by simp [App.start]
  excl2 := by simp [App.start]
  excl3 := by simp [App.start]

/-- A call that has nothing to do with the graph. -/
theorem GInv.congr (hI : GInv g h a) {x : AppCall σ} (h1 : a'.schema.graph = a.schema.graph) (h2 : a'.guards = a.guards)
    (h3 : a'.txs = a.txs) (e1 : ∀ i, storedAt g (x :: h) i = storedAt g h i) (e2 : guardsMade (x :: h) = guardsMade h)
    (e3 : ∀ n e, GuardKept (x :: h) n e ↔ GuardKept h n e) (e4 : ∀ n e, GuardUsable (x :: h) n e ↔ GuardUsable h n e)
    (e5 : ownersMade (x :: h) = ownersMade h) (e6 : ∀ n, TxKept (x :: h) n ↔ TxKept h n)
    (e7 : ∀ n, callsOf n (x :: h) = callsOf n h) : GInv g (x :: h) a' where
  reach := h1 ▸ hI.reach
  stored i := by rw [h1, e1]; exact hI.stored i
  ng := by rw [h2, e2]; exact hI.ng
  kept n e := by rw [e3, h2]; exact hI.kept n e
  usable n e := by rw [e4, h2]; exact hI.usable n e
  nt := by rw [h3, e5]; exact hI.nt
  txKept n := by rw [e6, h3]; exact hI.txKept n
  unmade n := by rw [e7, h3]; exact hI.unmade n
  fresh n st := by rw [e7, h3]; exact hI.fresh n st
  world n w st := by rw [e7, h3, h1]; exact hI.world n w st
  excl1 := by rw [h2]; exact hI.excl1
  excl2 := by rw [h2, h3]; exact hI.excl2
  excl3 := by rw [h3]; exact hI.excl3

theorem guard_some {n : Nat} {x : GuardVal} (hx : a.guard n = some x) : a.guards[n]? = some x ∧ x.status = .live := by
  unfold App.guard at hx
  split at hx
  · split at hx
    · cases hx; exact ⟨by assumption, by assumption⟩
    · cases hx
  · cases hx

theorem guard_usable (hI : GInv g h a) (n : Nat) : (∃ e, GuardUsable h n e) ↔ ∃ x, a.guard n = some x := by
  simp only [hI.usable, App.guard]
  cases hx : a.guards[n]? with
  | none => simp
  | some x => by_cases hs : x.status = .live <;> simp [hs]

theorem writer_some {n : Nat} {x : GuardVal} (hx : a.writer n = some x) :
    a.guards[n]? = some x ∧ x.status = .live ∧ x.excl = true := by
  unfold App.writer at hx
  split at hx
  · rename_i y hy
    split at hx
    · cases hx; exact ⟨(guard_some hy).1, (guard_some hy).2, by assumption⟩
    · cases hx
  · cases hx

theorem writer_usable (hI : GInv g h a) (n : Nat) : GuardUsable h n true ↔ ∃ x, a.writer n = some x := by
  simp only [hI.usable, App.writer, App.guard]
  cases hx : a.guards[n]? with
  | none => simp
  | some x => by_cases hs : x.status = .live <;> cases he : x.excl <;> simp [hs, he]

theorem any_iff {α : Type} {l : List α} {p : α → Bool} : l.any p = true ↔ ∃ (n : Nat) (x : α), l[n]? = some x ∧ p x = true := by
  rw [List.any_eq_true]
  constructor
  · rintro ⟨x, hx, hp⟩
    obtain ⟨n, hn⟩ := List.mem_iff_getElem?.1 hx
    exact ⟨n, x, hn, hp⟩
  · rintro ⟨n, x, hx, hp⟩
    exact ⟨x, List.mem_of_getElem? hx, hp⟩

theorem locked_iff (hI : GInv g h a) : a.locked = true ↔ (∃ n e, GuardKept h n e) ∨ ∃ x, TxKept h x := by
  simp only [App.locked, Bool.or_eq_true, any_iff, hI.kept, hI.txKept, bne_iff_ne, ne_eq]
  constructor
  · rintro (⟨n, x, hx, hs⟩ | hx)
    · exact .inl ⟨n, x.excl, x, hx, rfl, hs⟩
    · exact .inr hx
  · rintro (⟨n, e, x, hx, _, hs⟩ | hx)
    · exact .inl ⟨n, x, hx, hs⟩
    · exact .inr hx

theorem exclusive_iff (hI : GInv g h a) : a.exclusive = true ↔ (∃ n, GuardKept h n true) ∨ ∃ x, TxKept h x := by
  simp only [App.exclusive, Bool.or_eq_true, any_iff, hI.kept, hI.txKept, bne_iff_ne, ne_eq, Bool.and_eq_true]

theorem not_locked (hn : a.locked = false) : (∀ (n : Nat) (x : GuardVal), a.guards[n]? = some x → x.status = .dropped) ∧
    ∀ (n : Nat) (x : TxOwner σ), a.txs[n]? = some x → x.holds = false := by
  simp only [App.locked, Bool.or_eq_false_iff] at hn
  constructor
  · intro n x hx
    have := (List.any_eq_false.1 hn.1) x (List.mem_of_getElem? hx)
    simpa using this
  · intro n x hx
    have := (List.any_eq_false.1 hn.2) x (List.mem_of_getElem? hx)
    simpa using this

theorem not_exclusive (hn : a.exclusive = false) : (∀ (n : Nat) (x : GuardVal), a.guards[n]? = some x → x.excl = true → x.status = .dropped) ∧
    ∀ (n : Nat) (x : TxOwner σ), a.txs[n]? = some x → x.holds = false := by
  simp only [App.exclusive, Bool.or_eq_false_iff] at hn
  constructor
  · intro n x hx he
    have := (List.any_eq_false.1 hn.1) x (List.mem_of_getElem? hx)
    simpa [he] using this
  · intro n x hx
    have := (List.any_eq_false.1 hn.2) x (List.mem_of_getElem? hx)
    simpa using this

/-- A guard is made. -/
theorem gInv_guard (hI : GInv g h a) {x : AppCall σ} {e : Bool} (hx : x = if e then .write a.guards.length else .read a.guards.length)
    (hn : (if e then a.locked else a.exclusive) = false) : GInv g (x :: h) { a with guards := a.guards ++ [⟨e, .live⟩] } := by
  have hfree : ∀ (n : Nat) (x : TxOwner σ), a.txs[n]? = some x → x.holds = false := by
    cases e
    · exact (not_exclusive hn).2
    · exact (not_locked hn).2
  have hg1 : ∀ (n : Nat) (x : GuardVal), a.guards[n]? = some x → (x.excl = true ∨ e = true) → x.status = .dropped := by
    intro n x hy
    cases e
    · rintro (h | h)
      · exact (not_exclusive hn).1 n x hy h
      · cases h
    · exact fun _ => (not_locked hn).1 n x hy
  have happ : ∀ (n : Nat) (y : GuardVal), (a.guards ++ [⟨e, .live⟩])[n]? = some y ↔ a.guards[n]? = some y ∨ (n = a.guards.length ∧ y = ⟨e, .live⟩) := by
    intro n y
    rw [List.getElem?_append]
    split
    · rename_i hlt; constructor
      · exact .inl
      · rintro (h | ⟨rfl, _⟩)
        · exact h
        · omega
    · rename_i hge
      rw [List.getElem?_eq_none (l := a.guards) (by omega)]
      by_cases hn : n = a.guards.length
      · subst hn; simp [eq_comm]
      · rw [List.getElem?_eq_none (by simp; omega)]; simp [hn]
  have e1 : ∀ i, storedAt g (x :: h) i = storedAt g h i := by subst hx; cases e <;> exact fun _ => rfl
  have e2 : guardsMade (x :: h) = guardsMade h + 1 := by subst hx; cases e <;> rfl
  have e3 : ∀ n e', GuardKept (x :: h) n e' ↔ (a.guards.length = n ∧ e' = e) ∨ GuardKept h n e' := by
    subst hx; cases e <;> exact fun _ _ => Iff.rfl
  have e4 : ∀ n e', GuardUsable (x :: h) n e' ↔ (a.guards.length = n ∧ e' = e) ∨ GuardUsable h n e' := by
    subst hx; cases e <;> exact fun _ _ => Iff.rfl
  have e5 : ownersMade (x :: h) = ownersMade h := by subst hx; cases e <;> rfl
  have e6 : ∀ n, TxKept (x :: h) n ↔ TxKept h n := by subst hx; cases e <;> exact fun _ => Iff.rfl
  have e7 : ∀ n, callsOf n (x :: h) = callsOf n h := by subst hx; cases e <;> exact fun _ => rfl
  refine ⟨hI.reach, fun i => by rw [e1]; exact hI.stored i, by simp [e2, hI.ng], ?_, ?_, by rw [e5]; exact hI.nt, fun n => by rw [e6]; exact hI.txKept n,
    fun n => by rw [e7]; exact hI.unmade n, fun n st => by rw [e7]; exact hI.fresh n st, fun n w st => by rw [e7]; exact hI.world n w st, ?_, ?_, hI.excl3⟩
  · intro n e'
    rw [e3, hI.kept]
    simp only [happ]
    constructor
    · rintro (⟨rfl, rfl⟩ | ⟨x, hx, h1, h2⟩)
      · exact ⟨_, .inr ⟨rfl, rfl⟩, rfl, by simp⟩
      · exact ⟨x, .inl hx, h1, h2⟩
    · rintro ⟨x, hx | ⟨rfl, rfl⟩, h1, h2⟩
      · exact .inr ⟨x, hx, h1, h2⟩
      · exact .inl ⟨rfl, h1.symm⟩
  · intro n e'
    rw [e4, hI.usable]
    simp only [happ]
    constructor
    · rintro (⟨rfl, rfl⟩ | ⟨x, hx, h1, h2⟩)
      · exact ⟨_, .inr ⟨rfl, rfl⟩, rfl, rfl⟩
      · exact ⟨x, .inl hx, h1, h2⟩
    · rintro ⟨x, hx | ⟨rfl, rfl⟩, h1, h2⟩
      · exact .inr ⟨x, hx, h1, h2⟩
      · exact .inl ⟨rfl, h1.symm⟩
  · intro n m x y hx hy h1 h2 h3
    rcases (happ n x).1 hx with hx | ⟨rfl, rfl⟩
    · exact absurd (hg1 n x hx (.inl h1)) h2
    · rcases (happ m y).1 hy with hy | ⟨rfl, rfl⟩
      · exact absurd (hg1 m y hy (.inr h1)) h3
      · rfl
  · intro n m x y hx hy h1 h2
    rw [hfree m y hy] at h2; cases h2

/-- A guard is dropped or forgotten. -/
theorem gInv_endGuard (hI : GInv g h a) {x : AppCall σ} {n : Nat} {st : CtxEnd} {v : GuardVal} (hv : a.guards[n]? = some v)
    (hlive : v.status = .live) (hx : (∃ b, x = .dropGuard n b ∧ st = .dropped) ∨ (x = .forgetGuard n ∧ st = .forgotten))
    (h1 : a'.schema.graph = a.schema.graph) (h2 : a'.guards = (a.endGuard n st).guards) (h3 : a'.txs = a.txs) : GInv g (x :: h) a' := by
  have hget : ∀ (m : Nat) (y : GuardVal), a'.guards[m]? = some y ↔ (m ≠ n ∧ a.guards[m]? = some y) ∨ (m = n ∧ y = { v with status := st }) := by
    intro m y
    rw [h2]
    show (a.guards.modify n _)[m]? = some y ↔ _
    by_cases hm : m = n
    · subst hm; rw [getElem?_modify_self, hv]; simp [eq_comm]
    · rw [getElem?_modify_ne _ _ (fun h => hm h.symm)]; simp [hm]
  have hst : st ≠ .live := by rcases hx with ⟨_, _, rfl⟩ | ⟨_, rfl⟩ <;> simp
  have e1 : ∀ i, storedAt g (x :: h) i = storedAt g h i := by rcases hx with ⟨b, rfl, _⟩ | ⟨rfl, _⟩ <;> exact fun _ => rfl
  have e2 : guardsMade (x :: h) = guardsMade h := by rcases hx with ⟨b, rfl, _⟩ | ⟨rfl, _⟩ <;> rfl
  have e3 : ∀ m e, GuardKept (x :: h) m e ↔ (m ≠ n ∨ st = .forgotten) ∧ GuardKept h m e := by
    intro m e
    rcases hx with ⟨b, rfl, rfl⟩ | ⟨rfl, rfl⟩
    · simp [GuardKept, eq_comm]
    · simp [GuardKept]
  have e4 : ∀ m e, GuardUsable (x :: h) m e ↔ m ≠ n ∧ GuardUsable h m e := by
    intro m e
    rcases hx with ⟨b, rfl, rfl⟩ | ⟨rfl, rfl⟩ <;> simp [GuardUsable, eq_comm]
  have e5 : ownersMade (x :: h) = ownersMade h := by rcases hx with ⟨b, rfl, _⟩ | ⟨rfl, _⟩ <;> rfl
  have e6 : ∀ n, TxKept (x :: h) n ↔ TxKept h n := by rcases hx with ⟨b, rfl, _⟩ | ⟨rfl, _⟩ <;> exact fun _ => Iff.rfl
  have e7 : ∀ n, callsOf n (x :: h) = callsOf n h := by rcases hx with ⟨b, rfl, _⟩ | ⟨rfl, _⟩ <;> exact fun _ => rfl
  refine ⟨h1 ▸ hI.reach, fun i => by rw [e1, h1]; exact hI.stored i, by rw [h2, e2, ← hI.ng]; simp [App.endGuard], ?_, ?_,
    by rw [e5, h3]; exact hI.nt, fun n => by rw [e6, h3]; exact hI.txKept n,
    fun n => by rw [e7, h3]; exact hI.unmade n, fun n st => by rw [e7, h3]; exact hI.fresh n st,
    fun n w st => by rw [e7, h3, h1]; exact hI.world n w st, ?_, ?_, by rw [h3]; exact hI.excl3⟩
  · intro m e
    rw [e3, hI.kept]
    simp only [hget]
    constructor
    · rintro ⟨hm, y, hy, h4, h5⟩
      by_cases hmn : m = n
      · subst hmn
        rw [hv] at hy; cases hy
        refine ⟨_, .inr ⟨rfl, rfl⟩, h4, ?_⟩
        rcases hm with hm | rfl
        · exact absurd rfl hm
        · simp
      · exact ⟨y, .inl ⟨hmn, hy⟩, h4, h5⟩
    · rintro ⟨y, ⟨hm, hy⟩ | ⟨rfl, rfl⟩, h4, h5⟩
      · exact ⟨.inl hm, y, hy, h4, h5⟩
      · refine ⟨.inr ?_, v, hv, h4, by rw [hlive]; simp⟩
        rcases hx with ⟨_, _, rfl⟩ | ⟨_, rfl⟩
        · exact absurd rfl h5
        · rfl
  · intro m e
    rw [e4, hI.usable]
    simp only [hget]
    constructor
    · rintro ⟨hm, y, hy, h4⟩
      exact ⟨y, .inl ⟨hm, hy⟩, h4⟩
    · rintro ⟨y, ⟨hm, hy⟩ | ⟨rfl, rfl⟩, h4, h5⟩
      · exact ⟨hm, y, hy, h4, h5⟩
      · exact absurd h5 hst
  · intro m k x y hz hy h4 h5 h6
    rcases (hget m x).1 hz with ⟨hm, hz⟩ | ⟨rfl, rfl⟩
    · rcases (hget k y).1 hy with ⟨hk, hy⟩ | ⟨rfl, rfl⟩
      · exact hI.excl1 m k x y hz hy h4 h5 h6
      · exact hI.excl1 m k x v hz hv h4 h5 (by rw [hlive]; simp)
    · rcases (hget k y).1 hy with ⟨hk, hy⟩ | ⟨rfl, rfl⟩
      · exact hI.excl1 m k v y hv hy h4 (by rw [hlive]; simp) h6
      · rfl
  · intro m k x y hx hy h4 h5
    rw [h3] at hy
    rcases (hget m x).1 hx with ⟨hm, hx⟩ | ⟨rfl, rfl⟩
    · exact hI.excl2 m k x y hx hy h4 h5
    · exact hI.excl2 m k v y hv hy (by rw [hlive]; simp) h5

/-- The graph is changed through a write guard. -/
theorem gInv_update (hI : GInv g h a) {x : AppCall σ} {n : Nat} {v : GuardVal} (hv : a.guards[n]? = some v)
    (hlive : v.status = .live) {graph : Graph σ.K σ.T} (hr : graph.Reachable) (hget : ∀ i, graph.get i = storedAt g (x :: h) i)
    (h1 : a'.schema.graph = graph) (h2 : a'.guards = a.guards) (h3 : a'.txs = a.txs) (e2 : guardsMade (x :: h) = guardsMade h)
    (e3 : ∀ n e, GuardKept (x :: h) n e ↔ GuardKept h n e) (e4 : ∀ n e, GuardUsable (x :: h) n e ↔ GuardUsable h n e)
    (e5 : ownersMade (x :: h) = ownersMade h) (e6 : ∀ n, TxKept (x :: h) n ↔ TxKept h n)
    (e7 : ∀ n, callsOf n (x :: h) = callsOf n h) : GInv g (x :: h) a' where
  reach := h1 ▸ hr
  stored i := by rw [h1]; exact hget i
  ng := by rw [h2, e2]; exact hI.ng
  kept n e := by rw [e3, h2]; exact hI.kept n e
  usable n e := by rw [e4, h2]; exact hI.usable n e
  nt := by rw [h3, e5]; exact hI.nt
  txKept n := by rw [e6, h3]; exact hI.txKept n
  unmade n := by rw [e7, h3]; exact hI.unmade n
  fresh n st := by rw [e7, h3]; exact hI.fresh n st
  world m w st hm := by
    rw [e7]; rw [h3] at hm
    obtain ⟨h4, h5, g', h6, h7⟩ := hI.world m w st hm
    refine ⟨h4, h5, g', h6, fun hst => ?_⟩
    exact (hI.excl2 n m v _ hv hm (by rw [hlive]; simp) (by simp [TxOwner.holds, hst])).elim
  excl1 := by rw [h2]; exact hI.excl1
  excl2 := by rw [h2, h3]; exact hI.excl2
  excl3 := by rw [h3]; exact hI.excl3

/-- A transaction goes on. -/
theorem gInv_tx (hI : GInv g h a) {x : AppCall σ} {n : Nat} {v v' : TxOwner σ} (hv : a.txs[n]? = some v)
    (hr : a'.schema.graph.Reachable) (hget : ∀ i, a'.schema.graph.get i = storedAt g (x :: h) i)
    (hsame : a'.schema.graph = a.schema.graph ∨ v.holds = true)
    (h2 : a'.guards = a.guards) (h3 : a'.txs = a.txs.set n v')
    (hold : v'.holds = true → v.holds = true ∨ a.locked = false)
    (e2 : guardsMade (x :: h) = guardsMade h) (e3 : ∀ n e, GuardKept (x :: h) n e ↔ GuardKept h n e)
    (e4 : ∀ n e, GuardUsable (x :: h) n e ↔ GuardUsable h n e) (e5 : ownersMade (x :: h) = ownersMade h)
    (e6 : ∀ m, m ≠ n → (TxKept (x :: h) m ↔ TxKept h m)) (e6' : TxKept (x :: h) n ↔ v'.holds = true)
    (e7 : ∀ m, m ≠ n → callsOf m (x :: h) = callsOf m h)
    (hfresh : v'.world = none → callsOf n (x :: h) = if v'.status = .live then [] else [.abandon 0])
    (hworld : ∀ w, v'.world = some w → callsOf n (x :: h) ≠ [] ∧ (v'.status = .live ↔ Open (callsOf n (x :: h)) 0) ∧
      ∃ g', Legal g' (callsOf n (x :: h)) w ∧ (v'.status ≠ .dropped → g' = a'.schema.graph)) : GInv g (x :: h) a' := by
  have hn : n < a.txs.length := (List.getElem?_eq_some_iff.1 hv).1
  have hgt : ∀ (m : Nat) (y : TxOwner σ), a'.txs[m]? = some y ↔ (m ≠ n ∧ a.txs[m]? = some y) ∨ (m = n ∧ y = v') := by
    intro m y
    rw [h3]
    by_cases hm : m = n
    · subst hm; rw [List.getElem?_set_self hn]; simp [eq_comm]
    · rw [List.getElem?_set_ne (fun h => hm h.symm)]; simp [hm]
  refine ⟨hr, hget, by rw [h2, e2]; exact hI.ng, fun n e => by rw [e3, h2]; exact hI.kept n e, fun n e => by rw [e4, h2]; exact hI.usable n e,
    by rw [h3, e5, ← hI.nt]; simp, ?_, ?_, ?_, ?_, by rw [h2]; exact hI.excl1, ?_, ?_⟩
  · intro m
    simp only [hgt]
    by_cases hm : m = n
    · subst hm; rw [e6']; simp
    · rw [e6 m hm, hI.txKept]; simp [hm]
  · intro m hm
    rw [h3, List.length_set] at hm
    rw [e7 m (by omega)]
    exact hI.unmade m hm
  · intro m st hm
    rcases (hgt m _).1 hm with ⟨h4, h5⟩ | ⟨rfl, rfl⟩
    · rw [e7 m h4]; exact hI.fresh m st h5
    · exact hfresh rfl
  · intro m w st hm
    rcases (hgt m _).1 hm with ⟨h4, h5⟩ | ⟨rfl, rfl⟩
    · rw [e7 m h4]
      obtain ⟨h6, h7, g', h8, h9⟩ := hI.world m w st h5
      refine ⟨h6, h7, g', h8, fun hst => ?_⟩
      rcases hsame with hs | hs
      · rw [hs]; exact h9 hst
      · exact absurd (hI.excl3 m n _ v h5 hv (by simp [TxOwner.holds, hst]) hs) h4
    · exact hworld w rfl
  · intro m k x y hx hy h4 h5
    rw [h2] at hx
    rcases (hgt k y).1 hy with ⟨h6, h7⟩ | ⟨rfl, rfl⟩
    · exact hI.excl2 m k x y hx h7 h4 h5
    · rcases hold h5 with h6 | h6
      · exact hI.excl2 m k x v hx hv h4 h6
      · exact h4 ((not_locked h6).1 m x hx)
  · intro m k x y hx hy h4 h5
    rcases (hgt m x).1 hx with ⟨h6, h7⟩ | ⟨rfl, rfl⟩
    · rcases (hgt k y).1 hy with ⟨h8, h9⟩ | ⟨rfl, rfl⟩
      · exact hI.excl3 m k x y h7 h9 h4 h5
      · rcases hold h5 with h8 | h8
        · exact hI.excl3 m k x v h7 hv h4 h8
        · rw [(not_locked h8).2 m x h7] at h4; cases h4
    · rcases (hgt k y).1 hy with ⟨h8, h9⟩ | ⟨rfl, rfl⟩
      · rcases hold h4 with h7 | h7
        · exact hI.excl3 m k v y hv h9 h7 h5
        · rw [(not_locked h7).2 k y h9] at h5; cases h5
      · rfl

theorem step_fresh_tx {h : List (Call σ)} {g : Graph σ.K σ.T} {w w' : World σ} (hl : Legal g h w) {c t : Nat} {r : Answer σ.T}
    (hs : w.step (.transaction c t) = some (r, w')) : t ≠ 0 := by
  have := ((C67_possible hl _).1 ⟨r, w', hs⟩).2
  have h1 : ∀ h : List (Call σ), transactionsMade h ≠ 0 := by
    intro h
    induction h with
    | nil => simp [transactionsMade]
    | cons x h ih => cases x <;> simp [transactionsMade, ih]
  rw [this]; exact h1 h

/-- Whether the transaction itself is still there is decided by the calls that end it. -/
theorem open_cons {h : List (Call σ)} {g : Graph σ.K σ.T} {w w' : World σ} (hl : Legal g h w) {c : Call σ} {r : Answer σ.T}
    (hs : w.step c = some (r, w')) : Open (c :: h) 0 ↔ c ≠ .commit 0 ∧ c ≠ .abandon 0 ∧ Open h 0 := by
  cases c with
  | transaction c t => have := step_fresh_tx hl hs; simp [Open, this]
  | commit t => simp [Open]
  | abandon t => simp [Open]
  | _ => simp [Open]

theorem txKept_inTx (y x : Nat) (c : Call σ) (h : List (AppCall σ)) : TxKept (.inTx y c :: h) x ↔
    ((∃ d, c = .context 0 d) ∧ y = x) ∨ ((c = .commit 0 ∨ c = .abandon 0 → y ≠ x) ∧ TxKept h x) := by
  cases c with
  | context t d => cases t <;> simp [TxKept]
  | commit t => cases t <;> simp [TxKept]
  | abandon t => cases t <;> simp [TxKept]
  | _ => simp [TxKept]

theorem storedAt_inTx (y : Nat) (c : Call σ) (h : List (AppCall σ)) (i : σ.K) (hc : c ≠ .commit 0) :
    storedAt g (.inTx y c :: h) i = storedAt g h i := by
  cases c with
  | commit t => cases t with
    | zero => exact absurd rfl hc
    | succ t => rfl
  | _ => rfl

theorem lift_stuck {r : Answer σ.T} (hr : r.lift (σ := σ) ≠ .stuck) : r ≠ .stuck := by rintro rfl; exact hr rfl

theorem answer_stuck {w w' : World σ} {h : List (Call σ)} {g : Graph σ.K σ.T} (hl : Legal g h w) {c : Call σ} {r : Answer σ.T}
    (hs : w.step c = some (r, w')) (hc : accessOf c = none) : r ≠ .stuck := by
  intro he
  obtain ⟨k, e, h1, _⟩ := (step_stuck hl.targets hs).1 he
  rw [hc] at h1; cases h1

theorem gInv_transaction (hI : GInv g h a) :
    GInv g (.transaction a.txs.length :: h) { a with txs := a.txs ++ [⟨none, .live⟩] } := by
  have happ : ∀ (n : Nat) (y : TxOwner σ), (a.txs ++ [⟨none, .live⟩])[n]? = some y ↔
      a.txs[n]? = some y ∨ (n = a.txs.length ∧ y = ⟨none, .live⟩) := by
    intro n y
    rw [List.getElem?_append]
    split
    · rename_i hlt; constructor
      · exact .inl
      · rintro (h | ⟨rfl, _⟩)
        · exact h
        · omega
    · rename_i hge
      rw [List.getElem?_eq_none (l := a.txs) (by omega)]
      by_cases hn : n = a.txs.length
      · subst hn; simp [eq_comm]
      · rw [List.getElem?_eq_none (by simp; omega)]; simp [hn]
  refine ⟨hI.reach, hI.stored, hI.ng, hI.kept, hI.usable, by simp [ownersMade, hI.nt], ?_, ?_, ?_, ?_, hI.excl1, ?_, ?_⟩
  · intro n
    show TxKept h n ↔ _
    rw [hI.txKept]
    simp only [happ]
    constructor
    · rintro ⟨x, hx, h1⟩; exact ⟨x, .inl hx, h1⟩
    · rintro ⟨x, hx | ⟨_, rfl⟩, h1⟩
      · exact ⟨x, hx, h1⟩
      · cases h1
  · intro n hn
    exact hI.unmade n (by simp at hn; omega)
  · intro n st hn
    rcases (happ n _).1 hn with hn | ⟨rfl, he⟩
    · exact hI.fresh n st hn
    · cases he; exact hI.unmade _ (Nat.le_refl _)
  · intro n w st hn
    rcases (happ n _).1 hn with hn | ⟨rfl, he⟩
    · exact hI.world n w st hn
    · cases he
  · intro n m x y hx hy h1 h2
    rcases (happ m _).1 hy with hy | ⟨rfl, rfl⟩
    · exact hI.excl2 n m x y hx hy h1 h2
    · cases h2
  · intro n m x y hx hy h1 h2
    rcases (happ n _).1 hx with hx | ⟨rfl, rfl⟩
    · rcases (happ m _).1 hy with hy | ⟨rfl, rfl⟩
      · exact hI.excl3 n m x y hx hy h1 h2
      · cases h2
    · cases h1

theorem gInv_inTx [LawfulSig σ] (hI : GInv g h a) {x : Nat} {c : Call σ} {r : AppAnswer σ} (hs : a.step (.inTx x c) = some (r, a'))
    (hr : r ≠ .stuck) : GInv g (.inTx x c :: h) a' := by
  classical
  have e7 : ∀ m, m ≠ x → callsOf m (.inTx x c :: h) = callsOf m h := fun m hm => by
    simp [callsOf, show ¬ x = m from fun h => hm h.symm]
  have e7' : callsOf x (.inTx x c :: h) = c :: callsOf x h := by simp [callsOf]
  have e6 : ∀ m, m ≠ x → (TxKept (.inTx x c :: h) m ↔ TxKept h m) := fun m hm => by
    rw [txKept_inTx]; simp [show ¬ x = m from fun h => hm h.symm]
  simp only [App.step] at hs
  split at hs
  · cases hs
  · rename_i status hv
    split at hs
    · rename_i hlive
      subst hlive
      have hf := hI.fresh x _ hv
      simp only [if_true] at hf
      split at hs
      · rename_i d
        split at hs
        · cases hs
        · rename_i r' w hw
          split at hs
          · cases hs; exact absurd rfl hr
          · rename_i hlock
            cases hs
            rw [schema_guard] at hw
            refine gInv_tx hI (v' := ⟨some w, .live⟩) hv hI.reach (fun i => ?_) (.inl rfl) rfl rfl (fun _ => .inr (by simpa using hlock)) rfl
              (fun _ _ => Iff.rfl) (fun _ _ => Iff.rfl) rfl e6 ?_ e7 ?_ ?_
            · rw [storedAt_inTx _ _ _ _ (by simp)]; exact hI.stored i
            · simp [TxKept, TxOwner.holds]
            · simp
            · intro w' hw'
              cases hw'
              rw [e7', hf]
              exact ⟨by simp, by simp [Open], _, .call .start hw (lift_stuck hr), fun _ => rfl⟩
      · cases hs
        refine gInv_tx hI (v' := ⟨none, .dropped⟩) hv hI.reach (fun i => ?_) (.inl rfl) rfl rfl (by simp [TxOwner.holds]) rfl
          (fun _ _ => Iff.rfl) (fun _ _ => Iff.rfl) rfl e6 ?_ e7 ?_ ?_
        · rw [storedAt_inTx _ _ _ _ (by simp)]; exact hI.stored i
        · simp [TxKept, TxOwner.holds]
        · intro _; rw [e7', hf]; rfl
        · simp
      · cases hs
    · cases hs
  · rename_i w status hv
    obtain ⟨hne, hopen, g', hl, hg'⟩ := hI.world x w status hv
    split at hs
    · cases hs
    · rename_i r' w' hw
      have hkey : (c ≠ .commit 0 → a'.schema.graph = a.schema.graph) ∧ (c = .commit 0 → a'.schema.graph = w'.graph) ∧
          a'.guards = a.guards ∧ r = r'.lift ∧
          a'.txs = a.txs.set x ⟨some w', if c = .commit 0 ∨ c = .abandon 0 then .dropped else status⟩ := by
        split at hs
        · cases hs; exact ⟨fun h => absurd rfl h, fun _ => rfl, rfl, rfl, by simp [App.setTx]⟩
        · cases hs; exact ⟨fun _ => rfl, (fun h => nomatch h), rfl, rfl, by simp [App.setTx]⟩
        · rename_i h1 h2
          cases hs
          exact ⟨fun _ => rfl, fun h => absurd h h1, rfl, rfl, by rw [if_neg (fun h => h.elim h1 h2)]; rfl⟩
      obtain ⟨k1, k2, k3, k4, k5⟩ := hkey
      have hpos := (C67_possible hl c).1 ⟨r', w', hw⟩
      have hl' : Legal g' (c :: callsOf x h) w' := .call hl hw (lift_stuck (k4 ▸ hr))
      by_cases hc : c = .commit 0
      · subst hc
        have ho : Open (callsOf x h) 0 := hpos.1
        have hst := hopen.2 ho
        subst hst
        have hgg := hg' (by simp)
        subst hgg
        have hgw : w.graph = a.schema.graph := open_graph hl ho
        have hreach : w'.graph.Reachable := reachable_step hw (hgw ▸ hI.reach)
        have hcr := C67_commit_root hI.reach hl r' hw
        refine gInv_tx hI (v' := ⟨some w', .dropped⟩) hv (k2 rfl ▸ hreach) (fun i => ?_) (.inr rfl) k3 (by simpa using k5)
          (by simp [TxOwner.holds]) rfl (fun _ _ => Iff.rfl) (fun _ _ => Iff.rfl) rfl e6 ?_ e7 (by simp) ?_
        · rw [k2 rfl]
          show _ = if _ then _ else _
          split
          · rename_i hle; rw [hcr.2 hle]; exact hI.stored i
          · rename_i hle
            rw [← hI.stored]
            refine ((hcr.1 hle i _).1 ?_).symm
            cases hlw : lastWriteOf (callsOf x h) 0 i with
            | none => exact .stored hlw
            | some v => exact .written hlw
        · rw [txKept_inTx]; simp [TxOwner.holds]
        · intro w'' hw''
          cases hw''
          rw [e7']
          exact ⟨by simp, by simp [Open], _, hl', by simp⟩
      · have hgr := k1 hc
        refine gInv_tx hI (v' := ⟨some w', if c = .commit 0 ∨ c = .abandon 0 then .dropped else status⟩) hv (hgr ▸ hI.reach) (fun i => ?_)
          (.inl hgr) k3 k5 ?_ rfl (fun _ _ => Iff.rfl) (fun _ _ => Iff.rfl) rfl e6 ?_ e7 (by simp) ?_
        · rw [hgr, storedAt_inTx _ _ _ _ hc]; exact hI.stored i
        · intro hh
          refine .inl ?_
          simp only [TxOwner.holds] at hh ⊢
          split at hh
          · cases hh
          · exact hh
        · rw [txKept_inTx, hI.txKept, hv]
          simp only [TxOwner.holds, Option.some.injEq, exists_eq_left', Option.isSome_some, Bool.true_and]
          by_cases hab : c = .abandon 0
          · subst hab; simp
          · by_cases hcx : ∃ d, c = .context 0 d
            · obtain ⟨d, rfl⟩ := hcx
              have := hopen.2 hpos.1
              subst this
              simp
            · simp [hab, hc, hcx]
        · intro w'' hw''
          cases hw''
          rw [e7', hgr, open_cons hl hw]
          refine ⟨by simp, ?_, g', hl', ?_⟩
          · by_cases hab : c = .abandon 0 <;> simp [hab, hc, hopen]
          · by_cases hab : c = .abandon 0 <;> simpa [hab, hc] using hg'

theorem gInv_endTx (hI : GInv g h a) {x : Nat} {b : App σ} {st : CtxEnd} {call : AppCall σ} (hs : a.endTx x st = some b)
    (hc : (call = .unwindTx x ∧ st = .dropped) ∨ (call = .forgetTx x ∧ st = .forgotten)) {a' : App σ}
    (h1 : a'.schema.graph = b.schema.graph) (h2 : a'.guards = b.guards) (h3 : a'.txs = b.txs) : GInv g (call :: h) a' := by
  have e1 : ∀ i, storedAt g (call :: h) i = storedAt g h i := by rcases hc with ⟨rfl, _⟩ | ⟨rfl, _⟩ <;> exact fun _ => rfl
  have e7 : ∀ m, m ≠ x → callsOf m (call :: h) = callsOf m h := fun m hm => by
    rcases hc with ⟨rfl, _⟩ | ⟨rfl, _⟩ <;> simp [callsOf, show ¬ x = m from fun h => hm h.symm]
  have e7' : callsOf x (call :: h) = .abandon 0 :: callsOf x h := by
    rcases hc with ⟨rfl, _⟩ | ⟨rfl, _⟩ <;> simp [callsOf]
  have e6 : ∀ m, m ≠ x → (TxKept (call :: h) m ↔ TxKept h m) := fun m hm => by
    rcases hc with ⟨rfl, _⟩ | ⟨rfl, _⟩ <;> simp [TxKept, show ¬ x = m from fun h => hm h.symm]
  have e6' : TxKept (call :: h) x ↔ st = .forgotten ∧ TxKept h x := by
    rcases hc with ⟨rfl, rfl⟩ | ⟨rfl, rfl⟩ <;> simp [TxKept]
  have hst : st ≠ .live := by rcases hc with ⟨_, rfl⟩ | ⟨_, rfl⟩ <;> simp
  have e2 : guardsMade (call :: h) = guardsMade h := by rcases hc with ⟨rfl, _⟩ | ⟨rfl, _⟩ <;> rfl
  have e3 : ∀ n e, GuardKept (call :: h) n e ↔ GuardKept h n e := by
    rcases hc with ⟨rfl, _⟩ | ⟨rfl, _⟩ <;> exact fun _ _ => Iff.rfl
  have e4 : ∀ n e, GuardUsable (call :: h) n e ↔ GuardUsable h n e := by
    rcases hc with ⟨rfl, _⟩ | ⟨rfl, _⟩ <;> exact fun _ _ => Iff.rfl
  have e5 : ownersMade (call :: h) = ownersMade h := by rcases hc with ⟨rfl, _⟩ | ⟨rfl, _⟩ <;> rfl
  unfold App.endTx at hs
  split at hs
  · rename_i hv
    cases hs
    have hf := hI.fresh x _ hv
    simp only [if_true] at hf
    refine gInv_tx hI (v' := ⟨none, st⟩) hv (h1 ▸ hI.reach) (fun i => ?_) (.inl h1) h2 h3 (by simp [TxOwner.holds]) e2 e3 e4 e5 e6 ?_ e7
      (fun _ => by rw [e7', hf, if_neg hst]) (by simp)
    · rw [h1, e1]; exact hI.stored i
    · rw [e6', hI.txKept, hv]; simp [TxOwner.holds]
  · rename_i w hv
    obtain ⟨⟨r, w'⟩, hw, he⟩ := Option.map_eq_some_iff.1 hs
    cases he
    obtain ⟨hne, hopen, g', hl, hg'⟩ := hI.world x w _ hv
    refine gInv_tx hI (v' := ⟨some w', st⟩) hv (h1 ▸ hI.reach) (fun i => ?_) (.inl h1) h2 h3 (fun _ => .inl rfl) e2 e3 e4 e5 e6 ?_ e7
      (by simp) ?_
    · rw [h1, e1]; exact hI.stored i
    · rw [e6', hI.txKept, hv]
      rcases hc with ⟨_, rfl⟩ | ⟨_, rfl⟩ <;> simp [TxOwner.holds]
    · intro w'' hw''
      cases hw''
      rw [e7', open_cons hl hw]
      exact ⟨by simp, by simp [hst], g', .call hl hw (answer_stuck hl hw rfl), fun _ => by rw [h1]; exact hg' (by simp)⟩
  · cases hs

theorem gInv_step [LawfulSig σ] (hI : GInv g h a) {x : AppCall σ} {r : AppAnswer σ} (hs : a.step x = some (r, a'))
    (hr : r ≠ .stuck) : GInv g (x :: h) a' := by
  have hv := hI.reach.valid
  cases x with
  | read n =>
    simp only [App.step] at hs
    split at hs
    · split at hs
      · cases hs; exact absurd rfl hr
      · rename_i hn hloc; cases hs; subst hn; exact gInv_guard hI (e := false) rfl (by simpa using hloc)
    · cases hs
  | write n =>
    simp only [App.step] at hs
    split at hs
    · split at hs
      · cases hs; exact absurd rfl hr
      · rename_i hn hloc; cases hs; subst hn; exact gInv_guard hI (e := true) rfl (by simpa using hloc)
    · cases hs
  | touch n j f =>
    obtain ⟨y, hy, he⟩ := Option.map_eq_some_iff.1 hs
    cases he
    obtain ⟨h1, h2⟩ := guard_some hy
    refine gInv_update hI h1 h2 (graph := a.schema.guard.touch j f.1) (by rw [schema_guard]; exact Graph.reachable_touch hI.reach _ f.2)
      (fun i => ?_) rfl rfl rfl rfl (fun _ _ => Iff.rfl) (fun _ _ => Iff.rfl) rfl (fun _ => Iff.rfl) (fun _ => rfl)
    rw [schema_guard, Graph.get_touch _ hv _ f.2]
    simp only [storedAt, hI.stored]
  | insert n v =>
    obtain ⟨y, hy, he⟩ := Option.map_eq_some_iff.1 hs
    cases he
    obtain ⟨h1, h2, _⟩ := writer_some hy
    refine gInv_update hI h1 h2 (graph := (a.schema.guard.insert v).1) (by rw [schema_guard]; exact .insert _ _ hI.reach) (fun i => ?_) rfl rfl rfl rfl
      (fun _ _ => Iff.rfl) (fun _ _ => Iff.rfl) rfl (fun _ => Iff.rfl) (fun _ => rfl)
    rw [schema_guard, Graph.get_insert _ _ hv, beq_comm']
    simp only [storedAt, hI.stored]
  | remove n j =>
    obtain ⟨y, hy, he⟩ := Option.map_eq_some_iff.1 hs
    cases he
    obtain ⟨h1, h2, _⟩ := writer_some hy
    refine gInv_update hI h1 h2 (graph := (a.schema.guard.remove j).1) (by rw [schema_guard]; exact .remove _ _ hI.reach) (fun i => ?_) rfl rfl rfl rfl
      (fun _ _ => Iff.rfl) (fun _ _ => Iff.rfl) rfl (fun _ => Iff.rfl) (fun _ => rfl)
    rw [schema_guard, Graph.get_remove _ _ hv, beq_comm']
    simp only [storedAt, hI.stored]
  | replace n nodes =>
    obtain ⟨y, hy, he⟩ := Option.map_eq_some_iff.1 hs
    cases he
    obtain ⟨h1, h2, _⟩ := writer_some hy
    refine gInv_update hI h1 h2 (graph := Graph.fromIter nodes) ?_ (fun i => ?_) rfl rfl rfl rfl
      (fun _ _ => Iff.rfl) (fun _ _ => Iff.rfl) rfl (fun _ => Iff.rfl) (fun _ => rfl)
    · exact .fromIter _
    · rw [C04_last_wins]
      simp only [storedAt, lastOf]
      congr 1; funext n; exact beq_comm' _ _
  | dropGuard n b =>
    obtain ⟨y, hy, he⟩ := Option.map_eq_some_iff.1 hs
    cases he
    obtain ⟨h1, h2⟩ := guard_some hy
    exact gInv_endGuard hI h1 h2 (.inl ⟨b, rfl, rfl⟩) rfl rfl rfl
  | forgetGuard n =>
    obtain ⟨y, hy, he⟩ := Option.map_eq_some_iff.1 hs
    cases he
    obtain ⟨h1, h2⟩ := guard_some hy
    exact gInv_endGuard hI h1 h2 (.inr ⟨rfl, rfl⟩) rfl rfl rfl
  | transaction n =>
    simp only [App.step] at hs
    split at hs
    · cases hs; subst_vars; exact gInv_transaction hI
    · cases hs
  | inTx n c => exact gInv_inTx hI hs hr
  | unwindTx n =>
    simp only [App.step] at hs
    split at hs
    · cases hs
    · obtain ⟨b, hb, he⟩ := Option.map_eq_some_iff.1 hs
      cases he
      exact gInv_endTx hI hb (.inl ⟨rfl, rfl⟩) rfl rfl rfl
  | forgetTx n =>
    obtain ⟨b, hb, he⟩ := Option.map_eq_some_iff.1 hs
    cases he
    exact gInv_endTx hI hb (.inr ⟨rfl, rfl⟩) rfl rfl rfl
  | _ =>
    simp only [App.step, Option.map_eq_some_iff] at hs
    repeat' split at hs
    all_goals first
      | (cases hs; done)
      | (obtain ⟨_, _, he⟩ := hs; cases he
         exact hI.congr rfl rfl rfl (fun _ => rfl) rfl (fun _ _ => Iff.rfl) (fun _ _ => Iff.rfl) rfl (fun _ => Iff.rfl) (fun _ => rfl))
      | (cases hs
         exact hI.congr rfl rfl rfl (fun _ => rfl) rfl (fun _ _ => Iff.rfl) (fun _ _ => Iff.rfl) rfl (fun _ => Iff.rfl) (fun _ => rfl))

theorem AppLegal.gInv [LawfulSig σ] (hg : g.Reachable) (hl : AppLegal g h a) : GInv g h a := by
  induction hl with
  | start => exact gInv_start hg
  | call _ hs hr ih => exact gInv_step ih hs hr

end

end Plotline
