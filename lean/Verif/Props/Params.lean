import Verif.Lemmas.CtxCode
import Verif.Props.Laws

/-! # Property C108: the parameters of a trigger are made before it runs, and with a `Ctx` it is a client of its context -/

namespace Plotline

open Std

variable {σ : Sig}

/-- C108: making a parameter gives a value, or panics or waits for ever, or goes on without end. Which of these, with which value, and
what is left behind, does not depend on what comes after. -/
theorem C108_parameter (E : Env σ) (f : Nat) {A : Type} (m : FromCtx σ A) (s : St σ) :
    (∃ a s1, Arises E f m s a s1) ∨ (∃ o s1, Breaks E f m s o s1) ∨ ∀ k out s', ¬ Runs E [f] (m.andThen k) s out s' := goes E f m s

/-- C108: a trigger runs with values for all of its parameters, made one after another from the left, and starts where the last of them
was left; or one of them breaks, and that is how the trigger ends, neither the others being made nor the function called. -/
theorem C108_execute (E : Env σ) (f : Nat) (t : TriggerFn σ) (s s' : St σ) (out : Out (Except Error σ.V)) :
    Runs E [f] t.execute s out s' ↔
      (∃ as s1, AllArise E f t.params s as s1 ∧ Runs E [f] (t.call as) s1 out s') ∨ OneBreaks E f t.params s out s' :=
  params_run E f t.params t.call s s' out

/-- C108: scheduling a function has it executed once whenever its scheduler is selected, after what was scheduled there before; other
schedulers select what they did, and the nodes and resources stay. -/
theorem C108_scheduled [LawfulSig σ] (S : Schema σ) (hS : S.Used) (s : Sched) (t : TriggerFn σ) :
    (S.withTriggerFn s t).env.fire s = S.env.fire s ++ [t.execute] ∧ (∀ u, u ≠ s → (S.withTriggerFn s t).env.fire u = S.env.fire u) ∧
    (∀ i, (S.withTriggerFn s t).guard.get i = S.guard.get i) ∧
    ∀ u, ((S.withTriggerFn s t).env.resources.res u).peek (S.withTriggerFn s t).heap = (S.env.resources.res u).peek S.heap := by
  have h : ∀ u, (S.withTriggerFn s t).env.fire u = if s = u then S.env.fire u ++ [t.execute] else S.env.fire u :=
    fun u => fire_withTrigger (used_sane hS) s u t.execute
  exact ⟨by rw [h, if_pos rfl], fun u hu => by rw [h, if_neg (Ne.symm hu)], fun _ => rfl, fun _ => rfl⟩

/-- C108: the parameters the library has take nothing, leave everything as it is and do not break. -/
theorem C108_library (E : Env σ) (f : Nat) (s : St σ) : (∀ t, Arises E f (.res t) s ⟨t, rfl⟩ s) ∧ Arises E f .target s () s :=
  ⟨fun t => .ret _ s, .ret _ s⟩

/-- C108: code that has a `Ctx` and handles does to its context what the same code does to a schema that has what the context shows, by
whole transactions. It ends in the same way, and then the context shows what the schema has, the resources hold the same, and so does the
target. -/
theorem C108_client [LawfulSig σ] {g : Graph σ.K σ.T} {s : St σ} (hs : Reachable g s) {f : Nat} (hf : f < s.frames.length) {S : Schema σ}
    (hr : S.graph.Reachable) (hS : Shows s f S) (c : CtxCode σ) (hc : c.Apart) :
    (∀ o s', Runs S.env [f] c.asTrigger s o s' → ∃ S', ActsOn c S (targetIn s f) o S' (targetIn s' f) ∧ Shows s' f S') ∧
    ∀ o S' t', ActsOn c S (targetIn s f) o S' t' → ∃ s', Runs S.env [f] c.asTrigger s o s' ∧ Shows s' f S' ∧ targetIn s' f = t' := by
  have hfit : Fits S.env g s f S (targetIn s f) := ⟨hs, hf, hr.valid, hS, rfl, rfl⟩
  constructor
  · intro o s' h
    obtain ⟨S', t', ha⟩ := runs_acts c s S _ hc hfit o s' h
    obtain ⟨s2, h2, hfit2⟩ := acts_runs ha s hc hfit
    obtain ⟨_, rfl⟩ := h.det h2
    refine ⟨S', ?_, hfit2.shows⟩
    rw [hfit2.target]
    exact ha
  · intro o S' t' ha
    obtain ⟨s2, h2, hfit2⟩ := acts_runs ha s hc hfit
    exact ⟨s2, h2, hfit2.shows, hfit2.target⟩

theorem noTx_apart {c : CtxCode σ} (h : c.NoTx) : c.Apart := by
  induction c with
  | done _ => trivial
  | panic => trivial
  | tx _ _ _ => exact h.elim
  | targetRead k ih => exact fun a => ih a (h a)
  | targetWrite _ k ih => exact fun a => ih a (h a)
  | resRead _ k ih => exact fun a => ih a (h a)
  | resWrite _ _ k ih => exact fun a => ih a (h a)
  | catchUnwind body k ih1 ih2 => exact ⟨ih1 h.1, fun a => ih2 a (h.2 a)⟩

theorem noTx_acts {c : CtxCode σ} {S S' : Schema σ} {t t' : Option (Lock σ.T)} {o : Out (Except Error σ.V)} (h : ActsOn c S t o S' t') :
    c.NoTx → S'.guard = S.guard ∧ S'.env = S.env ∧ ∀ S2 : Schema σ, S2.env = S.env → S2.heap = S.heap →
      ∃ S2', ActsOn c S2 t o S2' t' ∧ S2'.guard = S2.guard ∧ S2'.heap = S'.heap ∧ S2'.env = S2.env := by
  induction h with
  | done r S t => exact fun _ => ⟨rfl, rfl, fun S2 _ hh => ⟨S2, .done r S2 t, rfl, hh, rfl⟩⟩
  | panic S t => exact fun _ => ⟨rfl, rfl, fun S2 _ hh => ⟨S2, .panic S2 t, rfl, hh, rfl⟩⟩
  | tx _ _ _ => exact fun h => h.elim
  | txEnds _ _ _ _ _ => exact fun h => h.elim
  | targetRead _ ih =>
    intro hc
    obtain ⟨h1, h2, h3⟩ := ih (hc _)
    exact ⟨h1, h2, fun S2 he hh => by obtain ⟨S2', a, b⟩ := h3 S2 he hh; exact ⟨S2', .targetRead a, b⟩⟩
  | targetMiss fn hn _ ih =>
    intro hc
    obtain ⟨h1, h2, h3⟩ := ih (hc _)
    exact ⟨h1, h2, fun S2 he hh => by obtain ⟨S2', a, b⟩ := h3 S2 he hh; exact ⟨S2', .targetMiss fn hn a, b⟩⟩
  | targetWrite hn hp _ ih =>
    intro hc
    obtain ⟨h1, h2, h3⟩ := ih (hc _)
    exact ⟨h1, h2, fun S2 he hh => by obtain ⟨S2', a, b⟩ := h3 S2 he hh; exact ⟨S2', .targetWrite hn hp a, b⟩⟩
  | targetPanic k S hn hp => exact fun _ => ⟨rfl, rfl, fun S2 _ hh => ⟨S2, .targetPanic k S2 hn hp, rfl, hh, rfl⟩⟩
  | resRead _ ih =>
    intro hc
    obtain ⟨h1, h2, h3⟩ := ih (hc _)
    refine ⟨h1, h2, fun S2 he hh => ?_⟩
    obtain ⟨S2', a, b⟩ := h3 S2 he hh
    exact ⟨S2', .resRead (by rw [he, hh]; exact a), b⟩
  | @resWrite u fn k S S' t t' b heap o hw _ ih =>
    intro hc
    obtain ⟨h1, h2, h3⟩ := ih (hc _)
    refine ⟨h1, h2, fun S2 he hh => ?_⟩
    obtain ⟨S2', a, c, d, e⟩ := h3 { S2 with heap := heap } he rfl
    exact ⟨S2', .resWrite (b := b) (by rw [he, hh]; exact hw) a, c, d, e⟩
  | @resPanic u fn k S t heap hw =>
    exact fun _ => ⟨rfl, rfl, fun S2 he hh => ⟨{ S2 with heap := heap }, .resPanic k t (by rw [he, hh]; exact hw), rfl, rfl, rfl⟩⟩
  | @caught body k S S1 S2 t t1 t2 r o _ _ ih1 ih2 =>
    intro hc
    obtain ⟨a1, a2, a3⟩ := ih1 hc.1
    obtain ⟨b1, b2, b3⟩ := ih2 (hc.2 r)
    refine ⟨b1.trans a1, b2.trans a2, fun X he hh => ?_⟩
    obtain ⟨X1, c1, c2, c3, c4⟩ := a3 X he hh
    obtain ⟨X2, d1, d2, d3, d4⟩ := b3 X1 (c4.trans (he.trans a2.symm)) c3
    exact ⟨X2, .caught c1 d1, d2.trans c2, d3, d4.trans c4⟩
  | catchStuck k _ ih =>
    intro hc
    obtain ⟨a1, a2, a3⟩ := ih hc.1
    refine ⟨a1, a2, fun X he hh => ?_⟩
    obtain ⟨X1, c1, c2⟩ := a3 X he hh
    exact ⟨X1, .catchStuck k c1, c2⟩

/-- C108: code that has a `Ctx` and begins no transactions is blind: how it ends, and what it leaves in the resources and in the target, is the
same whatever nodes there are; and it changes nothing of what the context shows. -/
theorem C108_blind [LawfulSig σ] (E : Env σ) {g g2 : Graph σ.K σ.T} (hg : g.Reachable) (hg2 : g2.Reachable) {s s2 : St σ} (hs : Reachable g s)
    (hs2 : Reachable g2 s2) {f f2 : Nat} (hf : f < s.frames.length) (hf2 : f2 < s2.frames.length) (hl : s.locks = []) (hl2 : s2.locks = [])
    (hh : s2.heap = s.heap) (ht : targetIn s2 f2 = targetIn s f) (c : CtxCode σ) (hc : c.NoTx) (o : Out (Except Error σ.V)) (s' : St σ)
    (h : Runs E [f] c.asTrigger s o s') :
    ctxGet s'.graph s'.frames f = ctxGet s.graph s.frames f ∧
    ∃ s2', Runs E [f2] c.asTrigger s2 o s2' ∧ s2'.heap = s'.heap ∧ targetIn s2' f2 = targetIn s' f ∧
      ctxGet s2'.graph s2'.frames f2 = ctxGet s2.graph s2.frames f2 := by
  obtain ⟨S, rfl, hr, hS⟩ := C89_such_a_schema E hg hs hf hl
  obtain ⟨S2, he2, hr2, hS2⟩ := C89_such_a_schema S.env hg2 hs2 hf2 hl2
  obtain ⟨S', ha, hS'⟩ := (C108_client hs hf hr hS c (noTx_apart hc)).1 o s' h
  obtain ⟨h1, h2, h3⟩ := noTx_acts ha hc
  obtain ⟨S2', hb, k1, k2, k3⟩ := h3 S2 he2 (by rw [hS2.heap, hS.heap, hh])
  rw [← ht] at hb
  obtain ⟨s2', m1, m2, m3⟩ := (C108_client hs2 hf2 hr2 hS2 c (noTx_apart hc)).2 o S2' _ hb
  refine ⟨?_, s2', he2 ▸ m1, ?_, m3, ?_⟩
  · rw [← hS'.nodes, h1, hS.nodes]
  · rw [← m2.heap, k2, hS'.heap]
  · rw [← m2.nodes, k1, hS2.nodes]

/-- C108: if a parameter of a trigger cannot be made, the operation that fires the trigger is lost and nothing else: `Save` panics, the
function is not called, and the nodes stay as they are. -/
theorem C108_save_panics (S : Schema σ) (n : σ.T) (t : TriggerFn σ) (ts : List (Prog σ)) (hfire : S.env.fire .beforeSave = t.execute :: ts)
    (s1 : St σ) (hb : OneBreaks S.env 0 t.params (setTarget (S.begin []) 0 n) .panic s1) :
    ∃ fuel S1, S.save fuel n = some (.panic, S1) ∧ S1.guard = S.guard ∧ S1.heap = s1.heap := by
  have hrun : Runs S.env [0] (saveBody n) (S.begin []) .panic s1 := by
    rw [runs_saveBody]
    refine ⟨.panic, s1, ?_, .inr ⟨by simp, rfl, rfl⟩⟩
    rw [hfire]
    exact .panic ((C108_execute S.env 0 t _ _ _).2 (.inr hb))
  obtain ⟨fuel, h⟩ := hrun
  obtain ⟨hg, _⟩ := root_after h
  refine ⟨fuel, _, by unfold Schema.save Schema.transact; rw [h], ?_, rfl⟩
  rw [guard_eq, guard_eq]
  exact hg

/-! ## Examples -/

/-- A parameter that counts, in the resource of type 4, how often it was made, and is what it found there. -/
def ticket : FromCtx demo Nat := .resRead 4 fun n : Option Nat => .resWrite 4 (fun v : Nat => (v + 1, false)) fun _ => .ret (n.getD 0)

/-- A parameter that is the document with id 1, and panics if there is none. -/
def first : FromCtx demo Doc := .get (1 : Nat) fun | some d => .ret d | none => .panic

/-- `|ctx, a: Ticket, b: Ticket, d: First| ctx.transaction().with(|ctx| { ctx.save((9, 100 a + b + d)); Ok(()) })` -/
def stamp : TriggerFn demo where
  As := Nat × Nat × Doc × Unit
  params := .param ticket (.param ticket (.param first .none))
  call := fun as => .tx 0 (.save 0 ⟨9, 100 * as.1 + as.2.1 + as.2.2.1.body⟩ (.done (.ok ()))) .done

/-- The same, asking for the document first. -/
def stampLate : TriggerFn demo where
  As := Doc × Nat × Nat × Unit
  params := .param first (.param ticket (.param ticket .none))
  call := fun as => .tx 0 (.save 0 ⟨9, 100 * as.2.1 + as.2.2.1 + as.1.body⟩ (.done (.ok ()))) .done

/-- The first ticket has a lower number than the second. -/
example : ((threeRes.withTriggerFn .beforeSave stamp).save 20 ⟨7, 70⟩).map (fun r =>
      (r.1, r.2.guard.get (9 : Nat), (r.2.guard.get (7 : Nat)).isSome, ((r.2.env.resources.res 4).peek r.2.heap : Option Nat))) =
    some (.ret (.ok ()), some (⟨9, 1021⟩ : Doc), true, some 12) := by decide +kernel

/-- The same schema with a document less. -/
def lacking : Schema demo := { threeRes with graph := Graph.fromIter ([⟨2, 20⟩] : List Doc) }

/-- Without a document with id 1, two tickets are spent in vain, and nothing is saved; or none, if the document is asked for first. -/
example : ((lacking.withTriggerFn .beforeSave stamp).save 20 ⟨7, 70⟩).map (fun r =>
      (r.1, (r.2.guard.get (9 : Nat)).isSome, (r.2.guard.get (7 : Nat)).isSome, ((r.2.env.resources.res 4).peek r.2.heap : Option Nat))) =
    some (.panic, false, false, some 12) ∧
  ((lacking.withTriggerFn .beforeSave stampLate).save 20 ⟨7, 70⟩).map (fun r =>
      (r.1, (r.2.guard.get (9 : Nat)).isSome, (r.2.guard.get (7 : Nat)).isSome, ((r.2.env.resources.res 4).peek r.2.heap : Option Nat))) =
    some (.panic, false, false, some 10) := by
  constructor <;> decide +kernel

/-- `|ctx, target: Target| { ctx.transaction().with(|ctx| { ctx.delete(1); Err(Noop) }); ctx.transaction().with(|ctx| { ctx.delete(2); Ok(()) }) ; target.with_mut(..) }` -/
def tidy : CtxCode demo :=
  .tx (.delete 0 (1 : Nat) (.done (.error .noop))) fun _ => .tx (.delete 0 (2 : Nat) (.done (.ok ()))) fun _ =>
    .targetWrite (fun d : Doc => (⟨d.key, d.body + 1⟩, false)) fun b => .done (if b then .ok () else .error .noop)

theorem tidy_apart : tidy.Apart := ⟨⟨rfl, trivial⟩, fun _ => ⟨⟨rfl, trivial⟩, fun _ _ => trivial⟩⟩

/-- On the schema, and as a trigger. -/
example : ActsOn tidy demoSchema (some ⟨⟨7, 70⟩, false⟩) (.ret (.ok ())) { demoSchema with graph := Graph.fromIter [⟨1, 10⟩] } (some ⟨⟨7, 71⟩, false⟩) :=
  .tx (S1 := demoSchema) 20 (by with_unfolding_all rfl) (.tx 20 (by with_unfolding_all rfl) (.targetWrite (n := (⟨7, 70⟩ : Doc)) rfl rfl (.done _ _ _)))

example : ((demoSchema.withTrigger .beforeSave tidy.asTrigger).save 20 ⟨7, 70⟩).map (fun r =>
      (r.1, r.2.guard.get (1 : Nat), r.2.guard.get (2 : Nat), r.2.guard.get (7 : Nat))) =
    some (.ret (.ok ()), some (⟨1, 10⟩ : Doc), none, some (⟨7, 71⟩ : Doc)) := by decide +kernel

/-- A trigger that notes what the target is and begins no transactions. -/
def countingCode : CtxCode demo :=
  .targetRead fun d => .resWrite 4 (fun v : Nat => (v + (d.map Doc.body).getD 0, false)) fun _ => .done (.ok ())

example : countingCode.NoTx := fun _ _ => trivial

end Plotline
