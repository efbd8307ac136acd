import Verif.Lemmas.ByHandAgree
import Verif.Props.App

/-!
# C81: closures and the calls they make

Whatever the closure given to `with` does, with all triggers run from it and whatever they do, making the same calls one by one on
values kept in variables has the same outcome and leaves the same behind. So what is known of programs that keep values (C67, C78 to C80)
holds inside of closures, and what is known of closures (C01 to C77) holds for such programs.
-/

namespace Plotline

open Std

set_option linter.unusedSectionVars false

variable {σ : Sig} [LawfulSig σ]

/-- No lock is held. -/
structure Idle (h : List (AppCall σ)) : Prop where
  guards : ∀ n e, ¬ GuardKept h n e
  txs : ∀ x, ¬ TxKept h x
  res : ∀ n, ¬ ResKept h n

section
variable {g : Graph σ.K σ.T} {h : List (AppCall σ)} {a : App σ}

theorem idle_iff (hg : g.Reachable) (hl : AppLegal g h a) : Idle h ↔ (∀ y ∈ a.guards, y.status = .dropped) ∧
    (∀ y ∈ a.txs, y.holds = false) ∧ ∀ y ∈ a.resGuards, y.status = .dropped := by
  have hI := hl.gInv hg
  have hR := hl.res
  constructor
  · intro hi
    refine ⟨fun y hy => ?_, fun y hy => ?_, fun y hy => ?_⟩
    · obtain ⟨n, hn⟩ := List.getElem?_of_mem hy
      exact Decidable.byContradiction fun hs => hi.guards n y.excl ((hI.kept n _).2 ⟨y, hn, rfl, hs⟩)
    · obtain ⟨n, hn⟩ := List.getElem?_of_mem hy
      rw [Bool.eq_false_iff]
      exact fun hs => hi.txs n ((hI.txKept n).2 ⟨y, hn, hs⟩)
    · obtain ⟨n, hn⟩ := List.getElem?_of_mem hy
      exact Decidable.byContradiction fun hs => hi.res n ((hR.kept n).2 ⟨y, hn, hs⟩)
  · rintro ⟨h1, h2, h3⟩
    refine ⟨fun n e hk => ?_, fun x hk => ?_, fun n hk => ?_⟩
    · obtain ⟨y, hy, _, hs⟩ := (hI.kept n e).1 hk
      exact hs (h1 y (List.mem_of_getElem? hy))
    · obtain ⟨y, hy, hs⟩ := (hI.txKept x).1 hk
      rw [h2 y (List.mem_of_getElem? hy)] at hs
      cases hs
    · obtain ⟨y, hy, hs⟩ := (hR.kept n).1 hk
      exact hs (h3 y (List.mem_of_getElem? hy))

/-- The transaction of the closure, just begun. -/
theorem twins_begin (g : Graph σ.K σ.T) : ∃ w, (World.start g).step (.context 0 0) = some (.none, w) ∧
    Twins (σ := σ) [(0, 0)] g [⟨none, [], none, false⟩] w := by
  refine ⟨⟨g, [⟨none, [], 2, true⟩], [⟨[0], none, .live⟩], [], [], []⟩, rfl, ?_⟩
  have one : ∀ {α : Type} {x y : α} {n : Nat}, [x][n]? = some y → n = 0 ∧ y = x := by
    intro α x y n hn
    cases n with
    | zero => cases hn; exact ⟨rfl, rfl⟩
    | succ n => simp at hn
  refine ⟨rfl, rfl, rfl, rfl, ?_, ?_, ?_, ?_, ?_⟩
  · intro f f' u v hu hv hlt
    have h1 := one hu
    have h2 := one hv
    omega
  · intro t tx ht _
    obtain ⟨rfl, _⟩ := one ht
    exact ⟨0, 0, rfl⟩
  · intro c cx hc _
    obtain ⟨rfl, _⟩ := one hc
    exact ⟨0, 0, rfl⟩
  · intro f f' u v cx cx' p hu hv _ _ _ _
    have h1 := one hu
    have h2 := one hv
    omega
  · intro f t c fr hf hfr
    obtain ⟨rfl, e⟩ := one hf
    cases e
    obtain ⟨_, rfl⟩ := one hfr
    refine ⟨⟨none, [], 2, true⟩, ⟨[0], none, .live⟩, rfl, rfl, rfl, rfl, rfl, rfl, rfl, ?_, fun _ => ⟨rfl, rfl⟩, ?_⟩
    · intro p hp; cases hp
    · intro p hp; cases hp

/-- The end of the transaction. -/
theorem Twins.finish {fr : Frame σ.K σ.T} {w : World σ} (hW : Twins [(0, 0)] g [fr] w) (hp : fr.parent = none) :
    ∃ w1, (w.step (.dropCtx 0) = if fr.leaked then none else some (.none, w1)) ∧ (fr.leaked = true → w1 = w) ∧
      (∃ w2, w1.step (.abandon 0) = some (.none, w2)) ∧
      ∃ w3, w1.step (.commit 0) = some (.none, w3) ∧ w3.graph = if fr.leaked then g else g.commit fr.ops := by
  obtain ⟨tx, cx, h⟩ := hW.frame 0 0 0 fr rfl rfl
  obtain ⟨w1, tx1, a1, a2, a3, a4, a5, a6, a7, a8, a9, a10, a11, a12, a13⟩ := hW.ending (f := 0) (t := 0) (c := 0) rfl rfl rfl h
  have hctx : tx1.context = none := by rw [a5]; exact (h.top hp).1
  refine ⟨w1, a1, a2, ⟨{ w1 with txs := w1.txs.modify 0 fun tx => { tx with live := false } },
    by simp only [World.step, a3, a7, if_true]⟩, ?_⟩
  cases hl : fr.leaked with
  | true =>
    refine ⟨{ w1 with txs := w1.txs.modify 0 fun tx => { tx with live := false } }, ?_, by simp [a8, hW.graph]⟩
    simp only [World.step, a3, a7, if_true]
    rw [if_neg (by rw [a6, hl]; simp)]
  | false =>
    refine ⟨{ w1 with txs := w1.txs.modify 0 fun tx => { tx with live := false }, graph := w1.graph.commit tx1.log }, ?_, ?_⟩
    · simp only [World.step, a3, a7, if_true, a6.2 hl, hctx]
    · simp [a4, a8, hW.graph]

/-- The schema with these triggers. -/
def App.withTriggers (a : App σ) (ts : TriggerSet σ) : Schema σ := { a.schema with env := ⟨ts, a.schema.env.resources⟩ }

/-- C81: on a schema with the triggers `ts`, `transaction().with(|ctx| body)` has the outcome that making the calls of `body` and of the
triggers one by one has. If it returns or panics, so do all the calls, the graph and the resources are the same, and again no lock is
held. If it returns `Ok`, the last call is to commit the transaction, and the graph was what it was up to there. If it never returns, then
because the last call made never returns: it waits for a lock that is held by the closure itself. -/
theorem C81_closure (hg : g.Reachable) (hl : AppLegal g h a) (hi : Idle h) (ts : TriggerSet σ) (hts : ts.Compiles) (body : Prog σ)
    (hb : body.Compiles [.owned] []) (fuel : Nat) :
    ((a.withTriggers ts).transact fuel [] body = none ∧ withByHand ts fuel body ⟨[], a⟩ = none) ∨
    ∃ o S m, (a.withTriggers ts).transact fuel [] body = some (o, S) ∧ withByHand ts fuel body ⟨[], a⟩ = some (o, m) ∧
      (o ≠ .stuck → Returned a m.calls m.app ∧ m.app.schema.graph = S.graph ∧ m.app.schema.heap = S.heap ∧
        m.app.schema.poisoned = S.poisoned ∧ m.app.schema.env.resources = S.env.resources ∧
        Idle (m.calls.map (·.1) ++ h)) ∧
      (∀ v, o = .ret (.ok v) → ∃ l b, m.calls = (.inTx a.txs.length (.commit 0), .none) :: l ∧ Returned a l b ∧
        b.schema.graph = a.schema.graph) ∧
      (o = .stuck → ∃ x l a', m.calls = (x, .stuck) :: l ∧ Returned a l a' ∧ NeverReturns (l.map (·.1) ++ h) x) := by
  obtain ⟨i1, i2, i3⟩ := (idle_iff hg hl).1 hi
  let Z : Setting σ := ⟨g, h, a, ⟨ts, a.schema.env.resources⟩, a.txs.length, a.schema.poisoned⟩
  -- the transaction is made
  have hs1 : a.step (.transaction a.txs.length) = some (.none, { a with txs := a.txs ++ [⟨none, .live⟩] }) := by simp [App.step]
  have hl1 := Returned.call (Returned.nil (a := a)) hs1 (by simp)
  obtain ⟨w, hw, hT⟩ := twins_begin (σ := σ) a.schema.graph
  have hs2 : ({ a with txs := a.txs ++ [⟨none, .live⟩] } : App σ).step (.inTx a.txs.length (.context 0 0)) =
      some (.none, { a with txs := a.txs ++ [⟨some w, .live⟩] }) := by
    have hloc : App.locked ({ a with txs := a.txs ++ [⟨none, .live⟩] } : App σ) = false := by
      simp only [App.locked, Bool.or_eq_false_iff, List.any_eq_false, List.mem_append, List.mem_singleton]
      refine ⟨fun y hy => by simp [i1 y hy], ?_⟩
      rintro y (hy | rfl)
      · simp [i2 y hy]
      · simp [TxOwner.holds]
    simp only [App.step, List.getElem?_concat_length, if_true, schema_guard, hw, hloc, Bool.false_eq_true, if_false, Answer.lift, App.setTx]
    simp
  have hl2 := Returned.call hl1 hs2 (by simp)
  let m2 : Hand σ := ⟨[(.inTx a.txs.length (.context 0 0), .none), (.transaction a.txs.length, .none)],
    { a with txs := a.txs ++ [⟨some w, .live⟩] }⟩
  have hS2 : Side Z [] a.schema.graph a.schema.heap [] w m2 := by
    refine ⟨hl, hl2, rfl, rfl, rfl, rfl, ?_, rfl, ?_, List.nodup_nil, i1, ?_⟩
    · show (a.txs ++ [_])[a.txs.length]? = _
      simp
    · intro n y hy hs
      exact absurd (i3 y (List.mem_of_getElem? hy)) hs
    · intro n v hv hn
      rcases (getElem?_snoc _ _ _ _).1 hv with hv | ⟨rfl, _⟩
      · exact i2 v (List.mem_of_getElem? hv)
      · exact absurd rfl hn
  have hM2 : Mirror Z [(0, 0)] [] ((a.withTriggers ts).begin []) m2 := by
    refine ⟨w, ?_, ?_⟩
    · simp only [Schema.begin, schema_guard]; exact hS2
    · simp only [Schema.begin, schema_guard]; exact hT
  have hC2 : Ctxs (σ := σ) [.owned] [0] [(0, 0)] [0] ((a.withTriggers ts).begin []).frames := by
    refine ⟨?_, rfl, ?_, by simp, rfl, ?_⟩
    · intro c f hc
      cases c with
      | zero => cases hc; simp [Schema.begin]
      | succ c => simp at hc
    · intro c f fr hc hf _
      cases c with
      | zero => cases hc; cases hf; rfl
      | succ c => simp at hc
    · intro f _ hf; cases hf; rfl
  have hrun := agree (Z := Z) hts fuel [.owned] [] [0] [0] [] [(0, 0)] [] body ((a.withTriggers ts).begin []) m2 hb hM2 hC2
    ⟨rfl, fun t n hn => by simp at hn⟩
  have hbegin : withByHand ts fuel body ⟨[], a⟩ = (match byHand ts a.txs.length fuel [0] [] body m2 with
      | none => none
      | some (.ret (.ok v), m) => (m.drop a.txs.length 0).call (.inTx a.txs.length (.commit 0)) fun _ m => some (.ret (.ok v), m)
      | some (.ret (.error e), m) => (m.drop a.txs.length 0).call (.inTx a.txs.length (.abandon 0)) fun _ m => some (.ret (.error e), m)
      | some (.panic, m) => (m.drop a.txs.length 0).call (.unwindTx a.txs.length) fun _ m => some (.panic, m)
      | some (.stuck, m) => some (.stuck, m)) := by
    unfold withByHand
    dsimp only
    rw [call_eq (m := ⟨[], a⟩) hs1 (by simp)]
    dsimp only
    rw [call_eq (m := ⟨[(AppCall.transaction a.txs.length, AppAnswer.none)], _⟩) hs2 (by simp)]
    change (match byHand ts a.txs.length fuel [0] [] body m2 with
      | none => none
      | some (.ret (.ok v), m) => _
      | some (.ret (.error e), m) => _
      | some (.panic, m) => _
      | some (.stuck, m) => _) = _
    generalize byHand ts a.txs.length fuel [0] [] body m2 = z
    rcases z with _ | ⟨(_ | _) | _ | _, m⟩ <;> rfl
  rw [hbegin]
  unfold Schema.transact
  change Agree Z [(0, 0)] [] _ _ m2 (eval ⟨ts, a.schema.env.resources⟩ fuel [0] body ((a.withTriggers ts).begin [])) _ at hrun
  have henv : (a.withTriggers ts).env = ⟨ts, a.schema.env.resources⟩ := rfl
  rw [henv]
  change Agree Z [(0, 0)] [] _ _ m2 _ (byHand ts a.txs.length fuel [0] [] body m2) at hrun
  rcases hrun with ⟨r1, r2⟩ | ⟨o, s, m, r1, r2, r3, r4⟩
  · rw [r1, r2]; exact .inl ⟨rfl, rfl⟩
  · rw [r1, r2]
    by_cases ho : o = .stuck
    · subst ho
      obtain ⟨x, l, a', k1, k2, k3⟩ := r4 rfl
      exact .inr ⟨_, _, _, rfl, rfl, fun h => absurd rfl h, (fun _ h => by cases h), fun _ => ⟨x, l, a', k1, k2, (C79_stuck hg (k2.legal hl) x _ k3).1 rfl⟩⟩
    · obtain ⟨⟨w', hS, hT'⟩, hA⟩ := r3 ho
      -- one frame is left
      obtain ⟨fr, hfr, hsn⟩ := length_snoc (n := 0) (l := s.frames) (by rw [hA.len]; rfl)
      rw [List.take_zero, List.nil_append] at hsn
      have hpar : fr.parent = none := by
        have := (hA.frame 0 ⟨none, [], none, false⟩ fr rfl hfr).1
        exact this
      rw [hsn] at hT'
      obtain ⟨w1, b1, b2, ⟨w2, b3⟩, w3, b4, b5⟩ := hT'.finish hpar
      obtain ⟨hS1, hg1⟩ := hS.drop b1 b2
      have htx := hS1.tx
      generalize hm3 : m.drop Z.x 0 = m3 at hS1 htx
      change m.drop a.txs.length 0 = m3 at hm3
      change m3.app.txs[a.txs.length]? = _ at htx
      have hidle : ∀ (x : AppCall σ) (a' : App σ) (w' : World σ), AppLegal g ((x :: m3.calls.map (·.1)) ++ h) a' →
          a'.guards = m3.app.guards → a'.resGuards = m3.app.resGuards → a'.txs = m3.app.txs.set a.txs.length ⟨some w', .dropped⟩ →
          Idle ((x :: m3.calls.map (·.1)) ++ h) := by
        intro x a' w' hl' e1 e2 e3
        refine (idle_iff hg hl').2 ⟨by rw [e1]; exact hS1.guards, ?_, ?_⟩
        · rw [e3]
          intro y hy
          obtain ⟨n, hn⟩ := List.getElem?_of_mem hy
          by_cases hx : n = a.txs.length
          · subst hx
            rw [List.getElem?_set_self (List.getElem?_eq_some_iff.1 htx).1] at hn
            cases hn; rfl
          · rw [List.getElem?_set_ne (Ne.symm hx)] at hn
            exact hS1.others n y hn hx
        · rw [e2]
          intro y hy
          obtain ⟨n, hn⟩ := List.getElem?_of_mem hy
          exact Decidable.byContradiction fun hs => by simpa using hS1.only n y hn hs
      cases o with
      | stuck => exact absurd rfl ho
      | panic =>
        have hst : m3.app.step (.unwindTx a.txs.length) = some (.none, { m3.app.setTx a.txs.length ⟨some w2, .dropped⟩ with
            schema := { m3.app.schema with poisoned := true } }) := by
          simp only [App.step, App.endTx, htx, b3, Option.map_some, App.setTx]
          simp
        have hr' := Returned.call hS1.ran hst (by simp)
        have hl' := hr'.legal hl
        refine .inr ⟨_, _, ⟨(.unwindTx a.txs.length, .none) :: m3.calls, _⟩, rfl, ?_, fun _ => ⟨hr', hS1.graph, hS1.heap, rfl, hS1.res,
          hidle _ _ w2 hl' rfl rfl rfl⟩, (fun _ h => by cases h), fun h => by cases h⟩
        dsimp only
        rw [hm3]
        exact call_eq hst (by simp) _
      | ret r =>
        cases r with
        | ok v =>
          have hroot : w3.graph = commitRoot s := by rw [b5]; simp only [commitRoot, hfr]
          have hst : m3.app.step (.inTx a.txs.length (.commit 0)) = some (.none, { m3.app.setTx a.txs.length ⟨some w3, .dropped⟩ with
              schema := { m3.app.schema with graph := w3.graph } }) := by
            simp only [App.step, htx, b4, Answer.lift]
          have hr' := Returned.call hS1.ran hst (by simp)
          have hl' := hr'.legal hl
          refine .inr ⟨_, _, ⟨(.inTx a.txs.length (.commit 0), .none) :: m3.calls, _⟩, rfl, ?_, fun _ => ⟨hr', hroot, hS1.heap, hS1.poisoned, hS1.res,
            hidle _ _ w3 hl' rfl rfl rfl⟩, (fun _ _ => ⟨m3.calls, m3.app, rfl, hS1.ran, hS1.graph.trans (root_after (S := a.withTriggers ts) (pre := []) r1).1⟩), fun h => by cases h⟩
          dsimp only
          rw [hm3]
          exact call_eq hst (by simp) _
        | error e =>
          have hst : m3.app.step (.inTx a.txs.length (.abandon 0)) = some (.none, m3.app.setTx a.txs.length ⟨some w2, .dropped⟩) := by
            simp only [App.step, htx, b3, Answer.lift]
          have hr' := Returned.call hS1.ran hst (by simp)
          have hl' := hr'.legal hl
          refine .inr ⟨_, _, ⟨(.inTx a.txs.length (.abandon 0), .none) :: m3.calls, _⟩, rfl, ?_, fun _ => ⟨hr', hS1.graph, hS1.heap, hS1.poisoned, hS1.res,
            hidle _ _ w2 hl' rfl rfl rfl⟩, (fun _ h => by cases h), fun h => by cases h⟩
          dsimp only
          rw [hm3]
          exact call_eq hst (by simp) _

/-- C81: so the graph has afterwards what the calls made left there, and each resource holds what it was assigned. -/
theorem C81_effect (hg : g.Reachable) (hl : AppLegal g h a) (hi : Idle h) (ts : TriggerSet σ) (hts : ts.Compiles) (body : Prog σ)
    (hb : body.Compiles [.owned] []) (fuel : Nat) (o : Out (Except Error σ.V)) (S : Schema σ) (ho : o ≠ .stuck)
    (hs : (a.withTriggers ts).transact fuel [] body = some (o, S)) :
    ∃ m, withByHand ts fuel body ⟨[], a⟩ = some (o, m) ∧ (∀ i, S.graph.get i = storedAt g (m.calls.map (·.1) ++ h) i) ∧
      ∀ t, (S.env.resources.res t).peek S.heap =
        (lastRegistered (m.calls.map (·.1) ++ h) t).bind fun p => (resHolds (m.calls.map (·.1) ++ h) p).bind fun d => Dyn.downcast t d := by
  rcases C81_closure hg hl hi ts hts body hb fuel with ⟨h1, _⟩ | ⟨o', S', m, h1, h2, h3, _, _⟩
  · rw [h1] at hs; cases hs
  · rw [h1] at hs
    cases hs
    obtain ⟨k1, k2, k3, _, k5, _⟩ := h3 ho
    have hl' := k1.legal hl
    have hR := hl'.res
    refine ⟨m, h2, fun i => by rw [← k2]; exact (hl'.gInv hg).stored i, fun t => ?_⟩
    rw [← k5, ← k3, ← hR.reg t]
    unfold Res.peek
    cases hp : (m.app.schema.env.resources.res t).lock with
    | none => rfl
    | some p =>
      obtain ⟨l, e1, e2⟩ := hR.regTyped t p hp
      simp only [e1, Option.bind_some, hR.cell p l e1]
      split <;> rfl

/-- C81: and each `get` the closure or a trigger made was answered as C78 says for programs that keep values. -/
theorem C81_reads (hg : g.Reachable) (hl : AppLegal g h a) {l l' : List (AppCall σ × AppAnswer σ)} {b : App σ} {x c : Nat} {i : σ.K}
    {r : AppAnswer σ} (hr : Returned a (l' ++ (.inTx x (.get c i), r) :: l) b) :
    ∃ t v, txOf (callsOf x (l.map (·.1) ++ h)) c = some t ∧ r = .node v ∧
      ∀ v', Sees (storedAt g (l.map (·.1) ++ h) i) (callsOf x (l.map (·.1) ++ h)) i t v' ↔ v' = v := by
  induction l' generalizing b with
  | nil =>
    cases hr with
    | call h1 h2 _ => exact C78_tx_get hg (h1.legal hl) x c i r h2
  | cons y l' ih =>
    cases hr with
    | call h1 _ _ => exact ih h1

end

/-! ## Cases -/

/-- A closure that saves, runs a transaction of its own which sees that, commits the transaction, assigns a resource while the resource is
locked, and then gives up another one. -/
def handDemo : Prog demo :=
  .save 0 ⟨3, 30⟩ <|
  .tx 0 (.get 0 (3 : Nat) fun n => .delete 0 (1 : Nat) (.save 1 ⟨4, (n.map (·.body)).getD 0⟩ (.done (.ok ())))) fun _ =>
  .resScope (7 : Nat) true (fun v => .resAssign (7 : Nat) (v + 1 : Nat) (.done (.ok ()))) fun _ =>
  .tx 0 (.save 0 ⟨5, 50⟩ (.done (.error .noop))) fun _ =>
  .runTriggers 0 .afterSave fun _ => .done (.ok ())

/-- A trigger that saves a node and forgets the context of a transaction of its own. -/
def handTrigger : Prog demo := .save 0 ⟨6, 60⟩ <| .tx 0 (.save 0 ⟨8, 80⟩ (.forget (.done (.ok ())))) fun _ => .done (.ok ())

def handTriggers : TriggerSet demo := TriggerSet.empty.withTrigger .afterSave handTrigger

/-- A schema with a resource, on which nothing else was done. -/
def handApp : App demo := { App.start demoGraph with schema := demoSchema.withResource (7 : Nat) (70 : Nat) }

theorem handApp_legal : AppLegal demoGraph [.register (7 : Nat) (70 : Nat)] handApp := .call .start (r := .none) rfl (by simp)

example : handDemo.Compiles [.owned] [] := by
  simp [handDemo, Prog.Compiles, Usable, Own.lend]

example : handTriggers.Compiles := by
  intro s l hl t ht
  have h0 := select_withTrigger (TriggerSet.empty (σ := demo)) (by simp [TriggerSet.empty, BTreeMap.empty, BTreeMap.Sorted]) .afterSave s handTrigger
  rw [handTriggers] at hl
  have h1 : (TriggerSet.empty (σ := demo)).select s = none := rfl
  rw [hl, h1, Option.getD_some, Option.getD_none, List.nil_append] at h0
  have h2 : t = handTrigger := by
    rw [h0] at ht
    split at ht
    · exact List.mem_singleton.1 ht
    · simp at ht
  rw [h2]
  simp [handTrigger, Prog.Compiles, Usable, Own.lend]

example : ((handApp.withTriggers handTriggers).transact 20 [] handDemo).map (fun r => (r.2.graph.iter, (r.2.env.resources.res (7 : Nat)).peek r.2.heap)) =
    some ([⟨2, 20⟩, ⟨3, 30⟩, ⟨4, 30⟩, ⟨6, 60⟩], some (71 : Nat)) := by decide +kernel

example : (withByHand handTriggers 20 handDemo ⟨[], handApp⟩).map (fun r => (r.2.calls.length, r.2.app.schema.graph.iter)) =
    some (28, [⟨2, 20⟩, ⟨3, 30⟩, ⟨4, 30⟩, ⟨6, 60⟩]) := by decide +kernel

/-- What does not compile is excluded: a context used after it was forgotten. -/
example : ¬ (Prog.forget (.save 0 ⟨3, 30⟩ (.done (.ok ()))) : Prog demo).Compiles [.owned] [] := by
  simp [Prog.Compiles, Usable]

/-- A closure that locks a resource it has locked: it never returns, and the last call is the one that waits. -/
example : (withByHand TriggerSet.empty 20 (.resScope (7 : Nat) true (fun _ => .resRead (7 : Nat) fun _ => .done (.ok ())) fun _ => .done (.ok ()) : Prog demo)
    ⟨[], handApp⟩).map (fun r => (r.1, r.2.calls.length)) = some (.stuck, 7) := by decide +kernel

end Plotline
