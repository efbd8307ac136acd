import Verif.Lemmas.ByHand

/-!
# Making the calls of a closure by hand: transactions and resources
-/

namespace Plotline

open Std

set_option linter.unusedSectionVars false

variable {σ : Sig} [LawfulSig σ]

/-- What is fixed while a closure runs in the transaction `x`: the program had made the calls `h0`, on a schema made from `g0`, which led to `a0`. -/
structure Setting (σ : Sig) where
  g0 : Graph σ.K σ.T
  h0 : List (AppCall σ)
  a0 : App σ
  E : Env σ
  x : Nat
  poisoned : Bool

/-- The program apart from what was made from the transaction `x`, which is `w`. The guards of resources that are left are `L`. -/
structure Side (Z : Setting σ) (L : List Nat) (graph : Graph σ.K σ.T) (heap : Heap σ.Val) (locks : List (Nat × Bool)) (w : World σ)
    (m : Hand σ) : Prop where
  start : AppLegal Z.g0 Z.h0 Z.a0
  ran : Returned Z.a0 m.calls m.app
  res : m.app.schema.env.resources = Z.E.resources
  heap : m.app.schema.heap = heap
  graph : m.app.schema.graph = graph
  poisoned : m.app.schema.poisoned = Z.poisoned
  tx : m.app.txs[Z.x]? = some ⟨some w, .live⟩
  locks : L.map (fun n => (m.app.resGuards[n]?).map fun y => (y.cell, y.excl, y.status)) = locks.map fun l => some (some l.1, l.2, CtxEnd.live)
  only : ∀ (n : Nat) (y : ResGuardVal σ.Ty), m.app.resGuards[n]? = some y → y.status ≠ .dropped → n ∈ L
  nodup : L.Nodup
  guards : ∀ y ∈ m.app.guards, y.status = .dropped
  others : ∀ (n : Nat) (v : TxOwner σ), m.app.txs[n]? = some v → n ≠ Z.x → v.holds = false

/-- The last call never returns; all before did. -/
def Hangs (Z : Setting σ) (m : Hand σ) : Prop :=
  ∃ x l a, m.calls = (x, .stuck) :: l ∧ Returned Z.a0 l a ∧ a.step x = some (.stuck, m.app)

theorem Returned.legal {g : Graph σ.K σ.T} {h : List (AppCall σ)} {a b : App σ} (hl : AppLegal g h a) {l : List (AppCall σ × AppAnswer σ)}
    (hr : Returned a l b) : AppLegal g (l.map (·.1) ++ h) b := by
  induction hr with
  | nil => exact hl
  | call _ hs hn ih => exact .call ih hs hn

theorem Side.legal {Z : Setting σ} {L : List Nat} {graph : Graph σ.K σ.T} {heap : Heap σ.Val} {locks : List (Nat × Bool)} {w : World σ}
    {m : Hand σ} (hS : Side Z L graph heap locks w m) : AppLegal Z.g0 (m.calls.map (·.1) ++ Z.h0) m.app := hS.ran.legal hS.start

section
variable {Z : Setting σ} {L : List Nat} {graph : Graph σ.K σ.T} {heap : Heap σ.Val} {locks : List (Nat × Bool)} {w w' : World σ} {m : Hand σ}

theorem call_eq {R : Type} {m : Hand σ} {x : AppCall σ} {r : AppAnswer σ} {a : App σ} (hs : m.app.step x = some (r, a)) (hr : r ≠ .stuck)
    (k : AppAnswer σ → Hand σ → Option (Out R × Hand σ)) : m.call x k = k r ⟨(x, r) :: m.calls, a⟩ := by
  unfold Hand.call
  rw [hs]
  cases r <;> first | rfl | exact absurd rfl hr

theorem call_stuck {R : Type} {m : Hand σ} {x : AppCall σ} {a : App σ} (hs : m.app.step x = some (.stuck, a))
    (k : AppAnswer σ → Hand σ → Option (Out R × Hand σ)) : m.call x k = some (.stuck, ⟨(x, .stuck) :: m.calls, a⟩) := by
  unfold Hand.call
  rw [hs]

theorem setTx_self (a : App σ) {n : Nat} {v y : TxOwner σ} (h : a.txs[n]? = some v) : (a.setTx n y).txs[n]? = some y := by
  have := (List.getElem?_eq_some_iff.1 h).1
  simp [App.setTx, this]

theorem setTx_ne (a : App σ) {n j : Nat} {y : TxOwner σ} (h : n ≠ j) : (a.setTx n y).txs[j]? = a.txs[j]? := by
  simp [App.setTx, h]

/-- A call in the transaction that does not end it. -/
theorem Side.inTx (hS : Side Z L graph heap locks w m) {c : Call σ} {r : Answer σ.T} (hs : w.step c = some (r, w')) (h1 : c ≠ .commit 0)
    (h2 : c ≠ .abandon 0) (hr : r ≠ .stuck) :
    m.app.step (.inTx Z.x c) = some (r.lift, m.app.setTx Z.x ⟨some w', .live⟩) ∧ r.lift (σ := σ) ≠ .stuck ∧
    Side Z L graph heap locks w' ⟨(.inTx Z.x c, r.lift) :: m.calls, m.app.setTx Z.x ⟨some w', .live⟩⟩ := by
  have h3 : m.app.step (.inTx Z.x c) = some (r.lift, m.app.setTx Z.x ⟨some w', .live⟩) := by
    simp only [App.step, hS.tx, hs]
  have h4 : r.lift (σ := σ) ≠ .stuck := by cases r <;> first | exact absurd rfl hr | (intro h; cases h)
  exact ⟨h3, h4, hS.start, .call hS.ran h3 h4, hS.res, hS.heap, hS.graph, hS.poisoned, setTx_self _ hS.tx, hS.locks, hS.only, hS.nodup, hS.guards,
    fun n v hv hn => hS.others n v (by rw [← hv]; exact (setTx_ne _ (Ne.symm hn)).symm) hn⟩

theorem Side.call {R : Type} (hS : Side Z L graph heap locks w m) {c : Call σ} {r : Answer σ.T} (hs : w.step c = some (r, w')) (h1 : c ≠ .commit 0)
    (h2 : c ≠ .abandon 0) (hr : r ≠ .stuck) : ∃ m', (∀ k : AppAnswer σ → Hand σ → Option (Out R × Hand σ), m.call (.inTx Z.x c) k = k r.lift m') ∧
      Side Z L graph heap locks w' m' ∧ m'.app.resGuards = m.app.resGuards := by
  obtain ⟨e1, e2, e3⟩ := hS.inTx hs h1 h2 hr
  exact ⟨_, fun k => call_eq e1 e2 k, e3, rfl⟩

theorem Side.world (hS : Side Z L graph heap locks w m) : m.world Z.x = w := by
  simp [Hand.world, hS.tx]

theorem Side.drop (hS : Side Z L graph heap locks w m) {d : Nat} {b : Bool}
    (hs : w.step (.dropCtx d) = if b then none else some (.none, w')) (hb : b = true → w' = w) :
    Side Z L graph heap locks w' (m.drop Z.x d) ∧ (m.drop Z.x d).app.resGuards = m.app.resGuards := by
  cases b with
  | true =>
    have h3 : m.app.step (.inTx Z.x (.dropCtx d)) = none := by
      simp only [if_true] at hs
      simp only [App.step, hS.tx, hs]
    rw [hb rfl]
    unfold Hand.drop
    rw [h3]
    exact ⟨hS, rfl⟩
  | false =>
    obtain ⟨e1, e2, e3⟩ := hS.inTx (c := .dropCtx d) (r := .none) (w' := w') (by simpa using hs) (by simp) (by simp) (by simp)
    unfold Hand.drop
    rw [e1]
    exact ⟨e3, rfl⟩

/-! ## Resources -/

theorem Side.resInv (hS : Side Z L graph heap locks w m) : AppResInv (m.calls.map (·.1) ++ Z.h0) m.app := hS.legal.res

theorem Side.lock_at (hS : Side Z L graph heap locks w m) {n : Nat} (hn : n ∈ L) : ∃ y p, m.app.resGuards[n]? = some y ∧ y.cell = some p ∧
    y.status = .live ∧ (p, y.excl) ∈ locks := by
  have : (m.app.resGuards[n]?).map (fun y => (y.cell, y.excl, y.status)) ∈ locks.map fun l => some (some l.1, l.2, CtxEnd.live) := by
    rw [← hS.locks]; exact List.mem_map_of_mem hn
  obtain ⟨l, h1, h2⟩ := List.mem_map.1 this
  cases hy : m.app.resGuards[n]? with
  | none => rw [hy] at h2; cases h2
  | some y =>
    rw [hy] at h2
    simp only [Option.map_some, Option.some.injEq, Prod.mk.injEq] at h2
    obtain ⟨e1, e2, e3⟩ := h2
    exact ⟨y, l.1, rfl, e1.symm, e3.symm, by rw [← e2]; exact h1⟩

theorem Side.lock_of (hS : Side Z L graph heap locks w m) {l : Nat × Bool} (hl : l ∈ locks) : ∃ n ∈ L, ∃ y, m.app.resGuards[n]? = some y ∧
    y.cell = some l.1 ∧ y.excl = l.2 ∧ y.status = .live := by
  have : some (some l.1, l.2, CtxEnd.live) ∈ L.map fun n => (m.app.resGuards[n]?).map fun y => (y.cell, y.excl, y.status) := by
    rw [hS.locks]; exact List.mem_map_of_mem (f := fun l : Nat × Bool => some (some l.1, l.2, CtxEnd.live)) hl
  obtain ⟨n, h1, h2⟩ := List.mem_map.1 this
  cases hy : m.app.resGuards[n]? with
  | none => rw [hy] at h2; cases h2
  | some y =>
    rw [hy] at h2
    simp only [Option.map_some, Option.some.injEq, Prod.mk.injEq] at h2
    exact ⟨n, h1, y, hy, h2.1, h2.2.1, h2.2.2⟩

/-- The locks held are those of the guards. -/
theorem Side.blocks (hS : Side Z L graph heap locks w m) (p : Nat) (excl : Bool) :
    m.app.resLocked p excl = locks.any fun l => l.1 == p && (excl || l.2) := by
  rw [Bool.eq_iff_iff]
  simp only [App.resLocked, any_iff (l := m.app.resGuards), List.any_eq_true, Bool.and_eq_true, Bool.or_eq_true, beq_iff_eq, bne_iff_ne]
  constructor
  · rintro ⟨n, y, hy, ⟨h1, h2⟩, h3⟩
    obtain ⟨y', p', k1, k2, k3, k4⟩ := hS.lock_at (hS.only n y hy h2)
    rw [hy] at k1; cases k1
    rw [h1] at k2; cases k2
    exact ⟨_, k4, rfl, h3⟩
  · rintro ⟨l, hl, h1, h2⟩
    obtain ⟨n, _, y, k1, k2, k3, k4⟩ := hS.lock_of hl
    exact ⟨n, y, k1, ⟨by rw [k2, h1], by rw [k4]; decide⟩, by rw [k3]; exact h2⟩

/-- What a type is registered with. -/
theorem Side.peek (hS : Side Z L graph heap locks w m) {t : σ.Ty} {p : Nat} (hp : (Z.E.resources.res t).lock = some p) :
    ∃ l, heap[p]? = some l ∧ l.val.1 = t ∧ (Z.E.resources.res t).peek heap = if l.poisoned then none else l.val.downcast t := by
  obtain ⟨l, h1, h2⟩ := hS.resInv.regTyped t p (by rw [hS.res]; exact hp)
  rw [hS.heap] at h1
  exact ⟨l, h1, h2, by simp only [Res.peek, hp, h1]⟩

theorem downcast_typed {d : Dyn σ.Val} {t : σ.Ty} (h : d.1 = t) : d.downcast t = some (h ▸ d.2) := by
  simp [Dyn.downcast, h]

theorem valueOf_value (t : σ.Ty) (v : Option (σ.Val t)) : AppAnswer.valueOf t (.value t v) = v := by
  simp [AppAnswer.valueOf]

theorem Side.push {L : List Nat} (hS : Side Z L graph heap locks w m) (y : ResGuardVal σ.Ty) :
    L.map (fun n => ((m.app.resGuards ++ [y])[n]?).map fun y => (y.cell, y.excl, y.status)) =
      locks.map fun l => some (some l.1, l.2, CtxEnd.live) := by
  rw [← hS.locks]
  refine List.map_congr_left fun n hn => ?_
  obtain ⟨_, _, h, _⟩ := hS.lock_at hn
  rw [List.getElem?_append_left (List.getElem?_eq_some_iff.1 h).1]

theorem Side.fresh (hS : Side Z L graph heap locks w m) : m.app.resGuards.length ∉ L := by
  intro hn
  obtain ⟨_, _, h, _⟩ := hS.lock_at hn
  exact absurd (List.getElem?_eq_some_iff.1 h).1 (Nat.lt_irrefl _)

/-- A handle is made. -/
theorem Side.resource {R : Type} (hS : Side Z L graph heap locks w m) (t : σ.Ty) : ∃ m1, (∀ k : AppAnswer σ → Hand σ → Option (Out R × Hand σ),
      m.call (.resource t m.app.handles.length) k = k .none m1) ∧ Side Z L graph heap locks w m1 ∧
      m1.app.handles[m.app.handles.length]? = some ⟨t, Z.E.resources.res t⟩ ∧ m1.app.resGuards = m.app.resGuards := by
  have h1 : m.app.step (.resource t m.app.handles.length) =
      some (.none, { m.app with handles := m.app.handles ++ [⟨t, Z.E.resources.res t⟩] }) := by
    simp [App.step, hS.res]
  exact ⟨_, fun k => call_eq h1 (by simp) k, ⟨hS.start, .call hS.ran h1 (by simp), hS.res, hS.heap, hS.graph, hS.poisoned, hS.tx, hS.locks, hS.only,
    hS.nodup, hS.guards, hS.others⟩, by simp, rfl⟩

/-- The beginning of `with` or `with_mut` on a resource. -/
theorem Side.acquire {R : Type} (hS : Side Z L graph heap locks w m) (t : σ.Ty) (excl : Bool) :
    (∃ p, (Z.E.resources.res t).lock = some p ∧ (locks.any fun l => l.1 == p && (excl || l.2)) = true ∧
      ∃ m', Hangs Z m' ∧ ∀ k : AppAnswer σ → Hand σ → Option (Out R × Hand σ), (m.call (.resource t m.app.handles.length) fun _ m₁ =>
        m₁.call (.lockRes m.app.handles.length excl m.app.resGuards.length) k) = some (.stuck, m')) ∨
    ((∀ p, (Z.E.resources.res t).lock = some p → (locks.any fun l => l.1 == p && (excl || l.2)) = false) ∧
      ∃ m', (∀ k : AppAnswer σ → Hand σ → Option (Out R × Hand σ), (m.call (.resource t m.app.handles.length) fun _ m₁ =>
        m₁.call (.lockRes m.app.handles.length excl m.app.resGuards.length) fun _ m₂ => m₂.call (.peekRes t m.app.resGuards.length) k) =
          k (.value t ((Z.E.resources.res t).peek heap)) m') ∧
        (∀ n ∈ L, m'.app.resGuards[n]? = m.app.resGuards[n]?) ∧
        ((Z.E.resources.res t).peek heap = none → ∃ m'', (∀ k : AppAnswer σ → Hand σ → Option (Out R × Hand σ),
          m'.call (.dropRes m.app.resGuards.length false) k = k .none m'') ∧ Side Z L graph heap locks w m'' ∧
          ∀ n ∈ L, m''.app.resGuards[n]? = m.app.resGuards[n]?) ∧
        ((Z.E.resources.res t).peek heap ≠ none → ∃ p, (Z.E.resources.res t).lock = some p ∧
          Side Z (m.app.resGuards.length :: L) graph heap ((p, excl) :: locks) w m' ∧
          m'.app.resGuards[m.app.resGuards.length]? = some ⟨t, excl, some p, .live⟩)) := by
  obtain ⟨m1, hm1, hS1, hh, hg1⟩ := hS.resource (R := R) t
  rw [← hg1]
  generalize hr : m.app.handles.length = r at *
  -- what `lockRes` does
  have hlock : ∀ cell : Option Nat, m1.app.step (.lockRes r excl m1.app.resGuards.length) =
        some (.none, { m1.app with resGuards := m1.app.resGuards ++ [⟨t, excl, cell, .live⟩] }) →
      ∀ v, (match cell with
        | none => v = none
        | some p => ∃ l, heap[p]? = some l ∧ l.val.downcast t = v) →
      ∃ m', (∀ k : AppAnswer σ → Hand σ → Option (Out R × Hand σ), (m.call (.resource t r) fun _ m₁ =>
        m₁.call (.lockRes r excl m1.app.resGuards.length) fun _ m₂ => m₂.call (.peekRes t m1.app.resGuards.length) k) =
          k (.value t v) m') ∧ Returned Z.a0 m'.calls m'.app ∧
        m'.app = { m1.app with resGuards := m1.app.resGuards ++ [⟨t, excl, cell, .live⟩] } := by
    intro cell h2 v hv
    have hleg2 := Returned.call hS1.ran h2 (by simp)
    have h3 : ({ m1.app with resGuards := m1.app.resGuards ++ [⟨t, excl, cell, .live⟩] } : App σ).step (.peekRes t m1.app.resGuards.length) =
        some (.value t v, { m1.app with resGuards := m1.app.resGuards ++ [⟨t, excl, cell, .live⟩] }) := by
      simp only [App.step, App.resGuard, List.getElem?_concat_length, if_true]
      cases cell with
      | none => simp only at hv; subst hv; rfl
      | some p =>
        obtain ⟨l, k1, k2⟩ := hv
        simp only [hS1.heap, k1, k2]
    refine ⟨⟨(.peekRes t m1.app.resGuards.length, .value t v) :: (.lockRes r excl m1.app.resGuards.length, .none) :: m1.calls, _⟩, ?_,
      .call hleg2 h3 (by simp), rfl⟩
    intro k
    rw [hm1, call_eq h2 (by simp)]
    exact call_eq h3 (by simp) k
  have hkeep : ∀ (y : ResGuardVal σ.Ty), ∀ n ∈ L, (m1.app.resGuards ++ [y])[n]? = m1.app.resGuards[n]? := by
    intro y n hn
    obtain ⟨_, _, h, _⟩ := hS1.lock_at hn
    rw [List.getElem?_append_left (List.getElem?_eq_some_iff.1 h).1]
  -- no value: the guard is empty, and dropped
  have hempty : m1.app.step (.lockRes r excl m1.app.resGuards.length) =
        some (.none, { m1.app with resGuards := m1.app.resGuards ++ [⟨t, excl, none, .live⟩] }) → (Z.E.resources.res t).peek heap = none →
      ∃ m', (∀ k : AppAnswer σ → Hand σ → Option (Out R × Hand σ), (m.call (.resource t r) fun _ m₁ =>
        m₁.call (.lockRes r excl m1.app.resGuards.length) fun _ m₂ => m₂.call (.peekRes t m1.app.resGuards.length) k) =
          k (.value t ((Z.E.resources.res t).peek heap)) m') ∧
        (∀ n ∈ L, m'.app.resGuards[n]? = m1.app.resGuards[n]?) ∧
        ((Z.E.resources.res t).peek heap = none → ∃ m'', (∀ k : AppAnswer σ → Hand σ → Option (Out R × Hand σ),
          m'.call (.dropRes m1.app.resGuards.length false) k = k .none m'') ∧ Side Z L graph heap locks w m'' ∧
          ∀ n ∈ L, m''.app.resGuards[n]? = m1.app.resGuards[n]?) ∧
        ((Z.E.resources.res t).peek heap ≠ none → ∃ p, (Z.E.resources.res t).lock = some p ∧
          Side Z (m1.app.resGuards.length :: L) graph heap ((p, excl) :: locks) w m' ∧
          m'.app.resGuards[m1.app.resGuards.length]? = some ⟨t, excl, some p, .live⟩) := by
    intro h2 hpk
    rw [hpk]
    obtain ⟨m', e1, e2, e3⟩ := hlock none h2 none rfl
    refine ⟨m', e1, ?_, ?_, fun h => absurd rfl h⟩
    · rw [e3]; exact hkeep _
    · intro _
      have h4 : m'.app.step (.dropRes m1.app.resGuards.length false) =
          some (.none, { m1.app with resGuards := m1.app.resGuards ++ [⟨t, excl, none, .dropped⟩] }) := by
        simp only [e3, App.step, App.resGuard, List.getElem?_concat_length, if_true]
        rw [modify_snoc]
      have hl := Returned.call e2 h4 (by simp)
      refine ⟨⟨(.dropRes m1.app.resGuards.length false, .none) :: m'.calls, _⟩, fun k => call_eq h4 (by simp) k,
        ⟨hS1.start, hl, hS1.res, hS1.heap, hS1.graph, hS1.poisoned, hS1.tx, hS1.push _, ?_, hS1.nodup, hS1.guards, hS1.others⟩, hkeep _⟩
      intro n y hy hs
      rcases (getElem?_snoc _ _ _ _).1 hy with hy | ⟨_, rfl⟩
      · exact hS1.only n y hy hs
      · exact absurd rfl hs
  cases hp : (Z.E.resources.res t).lock with
  | none =>
    refine .inr ⟨by simp, ?_⟩
    have hpk : (Z.E.resources.res t).peek heap = none := by simp [Res.peek, hp]
    have hh' : m1.app.handles[r]? = some ⟨t, ⟨none⟩⟩ := by rw [hh]; congr 2; cases hq : Z.E.resources.res t; rw [hq] at hp; cases hp; rfl
    simpa only [hp] using hempty (by simp [App.step, hh']) hpk
  | some p =>
    obtain ⟨l, hl1, hl2, hl3⟩ := hS.peek hp
    have hh' : m1.app.handles[r]? = some ⟨t, ⟨some p⟩⟩ := by rw [hh]; congr 2; cases hq : Z.E.resources.res t; rw [hq] at hp; cases hp; rfl
    cases hb : locks.any fun l => l.1 == p && (excl || l.2) with
    | true =>
      have hst : m1.app.step (.lockRes r excl m1.app.resGuards.length) = some (.stuck, m1.app) := by
        simp only [App.step, if_true, hh', hS1.blocks, hb]
      refine .inl ⟨p, rfl, hb, ⟨(.lockRes r excl m1.app.resGuards.length, .stuck) :: m1.calls, m1.app⟩,
        ⟨_, m1.calls, m1.app, rfl, hS1.ran, hst⟩, fun k => ?_⟩
      rw [hm1]
      exact call_stuck hst k
    | false =>
      refine .inr ⟨fun p' h => by cases h; exact hb, ?_⟩
      have hstep : m1.app.step (.lockRes r excl m1.app.resGuards.length) =
          some (.none, { m1.app with resGuards := m1.app.resGuards ++ [⟨t, excl, if l.poisoned then none else some p, .live⟩] }) := by
        simp only [App.step, if_true, hh', hS1.blocks, hb, Bool.false_eq_true, if_false, hS1.heap, hl1]
      cases hpo : l.poisoned with
      | true =>
        have hpk : (Z.E.resources.res t).peek heap = none := by rw [hl3, hpo]; rfl
        simpa only [hp] using hempty (by rw [hstep, hpo]; rfl) hpk
      | false =>
        have hpk : (Z.E.resources.res t).peek heap = l.val.downcast t := by rw [hl3, hpo]; rfl
        obtain ⟨m', e1, e2, e3⟩ := hlock (some p) (by rw [hstep, hpo]; rfl) (l.val.downcast t) ⟨l, hl1, rfl⟩
        rw [hpk]
        refine ⟨m', e1, ⟨by rw [e3]; exact hkeep _, ⟨fun h => ?_, fun _ => ⟨p, rfl, ?_, by rw [e3]; simp⟩⟩⟩⟩
        · rw [downcast_typed hl2] at h; cases h
        have hL : m1.app.resGuards.length ∉ L := hS1.fresh
        refine ⟨hS1.start, e2, by rw [e3]; exact hS1.res, by rw [e3]; exact hS1.heap, by rw [e3]; exact hS1.graph, by rw [e3]; exact hS1.poisoned,
          by rw [e3]; exact hS1.tx, ?_, ?_, List.nodup_cons.2 ⟨hL, hS1.nodup⟩,
          by rw [e3]; exact hS1.guards, by rw [e3]; exact hS1.others⟩
        · rw [e3, List.map_cons, List.map_cons, hS1.push]
          simp
        · intro n y hy hs
          rw [e3] at hy
          rcases (getElem?_snoc _ _ _ _).1 hy with hy | ⟨rfl, _⟩
          · exact List.mem_cons_of_mem _ (hS1.only n y hy hs)
          · exact List.mem_cons_self

/-- The end of `with` or `with_mut` on a resource. -/
theorem Side.release {R : Type} {n p : Nat} {excl : Bool} (hS : Side Z (n :: L) graph heap ((p, excl) :: locks) w m) (panicked : Bool) :
    ∃ m', (∀ k : AppAnswer σ → Hand σ → Option (Out R × Hand σ), m.call (.dropRes n panicked) k = k .none m') ∧
      Side Z L graph (if panicked && excl then heap.modify p fun l => { l with poisoned := true } else heap) locks w m' ∧
      ∀ j ∈ L, m'.app.resGuards[j]? = m.app.resGuards[j]? := by
  have hloc := hS.locks
  rw [List.map_cons, List.map_cons, List.cons.injEq] at hloc
  obtain ⟨h1, h2⟩ := hloc
  cases hy : m.app.resGuards[n]? with
  | none => rw [hy] at h1; cases h1
  | some y =>
    rw [hy] at h1
    simp only [Option.map_some, Option.some.injEq, Prod.mk.injEq] at h1
    obtain ⟨e1, e2, e3⟩ := h1
    have hstep : m.app.step (.dropRes n panicked) = some (.none, { m.app with
        resGuards := m.app.resGuards.modify n fun x => { x with status := .dropped }
        schema := { m.app.schema with
          heap := if panicked && excl then heap.modify p fun l => { l with poisoned := true } else heap } }) := by
      simp only [App.step, App.resGuard, hy, e3, if_true, e1, e2, hS.heap]
    obtain ⟨hnL, hnd⟩ := List.nodup_cons.1 hS.nodup
    have hkeep : ∀ j ∈ L, (m.app.resGuards.modify n fun x => { x with status := .dropped })[j]? = m.app.resGuards[j]? := by
      intro j hj
      exact getElem?_modify_ne _ _ (by rintro rfl; exact hnL hj)
    refine ⟨_, fun k => call_eq hstep (by simp) k, ⟨hS.start, .call hS.ran hstep (by simp), hS.res, rfl, hS.graph, hS.poisoned, hS.tx, ?_, ?_, hnd,
      hS.guards, hS.others⟩, hkeep⟩
    · rw [← h2]
      refine List.map_congr_left fun j hj => ?_
      rw [hkeep j hj]
    · intro j z hz hs
      change (m.app.resGuards.modify n _)[j]? = _ at hz
      by_cases hj : n = j
      · subst hj
        rw [getElem?_modify_self, hy] at hz
        cases hz
        exact absurd rfl hs
      · rw [getElem?_modify_ne _ _ hj] at hz
        rcases List.mem_cons.1 (hS.only j z hz hs) with h | h
        · exact absurd h.symm hj
        · exact h

/-- An assignment to a resource. -/
theorem Side.assign {R : Type} (hS : Side Z L graph heap locks w m) {n p : Nat} {t : σ.Ty}
    (hy : m.app.resGuards[n]? = some ⟨t, true, some p, .live⟩) (v : σ.Val t) :
    ∃ m', (∀ k : AppAnswer σ → Hand σ → Option (Out R × Hand σ), m.call (.assignRes n t v) k = k (.bool true) m') ∧
      Side Z L graph (heap.set p ⟨⟨t, v⟩, false⟩) locks w m' ∧ m'.app.resGuards = m.app.resGuards := by
  obtain ⟨l, h1, h2, h3⟩ := hS.resInv.guardTyped n _ p hy rfl
  have hpo := h3 (by simp)
  rw [hS.heap] at h1
  have hl : ({ l with val := ⟨t, v⟩ } : Lock (Dyn σ.Val)) = ⟨⟨t, v⟩, false⟩ := by cases l; simp only at hpo; subst hpo; rfl
  have hstep : m.app.step (.assignRes n t v) = some (.bool true, { m.app with
      schema := { m.app.schema with heap := heap.set p ⟨⟨t, v⟩, false⟩ } }) := by
    simp only [App.step, App.resGuard, hy, if_true, and_self, h1, downcast_typed h2, hl, hS.heap]
  exact ⟨_, fun k => call_eq hstep (by simp) k, ⟨hS.start, .call hS.ran hstep (by simp), hS.res, rfl, hS.graph, hS.poisoned, hS.tx, hS.locks, hS.only,
    hS.nodup, hS.guards, hS.others⟩, rfl⟩

end

end Plotline
