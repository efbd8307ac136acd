import Verif.Lemmas.Complete
import Verif.Props.Laws

/-! The laws are complete: places in programs from where everything that can be told is told. -/

namespace Plotline

open Std

set_option linter.unusedSectionVars false

variable {σ : Sig} {quiet : Sched → Prop}

/-! ## Untold -/

theorem Untold.symm {S : Schema σ} {pre : List (Operation σ.K σ.T)} {p q : Prog σ} (h : Untold S pre p q) : Untold S pre q p :=
  ⟨h.ends.symm, fun f f' o o' S1 S1' h1 h2 => by
    obtain ⟨rfl, h3⟩ := h.same _ _ _ _ _ _ h2 h1
    exact ⟨rfl, fun hne i => (h3 hne i).symm⟩⟩

theorem Untold.trans {S : Schema σ} {pre : List (Operation σ.K σ.T)} {p q r : Prog σ} (h : Untold S pre p q) (h' : Untold S pre q r) :
    Untold S pre p r :=
  ⟨h.ends.trans h'.ends, fun f f' o o' S1 S1' h1 h2 => by
    obtain ⟨f2, ⟨o2, S2⟩, h3⟩ := h.ends.1 ⟨f, _, h1⟩
    obtain ⟨rfl, h4⟩ := h.same _ _ _ _ _ _ h1 h3
    obtain ⟨rfl, h5⟩ := h'.same _ _ _ _ _ _ h3 h2
    exact ⟨rfl, fun hne i => (h5 hne i).trans (h4 hne i)⟩⟩

theorem untold_same [LawfulSig σ] {S : Schema σ} (hS : S.Used) (hq : ∀ s, quiet s → S.env.fire s = []) (pre : List (Operation σ.K σ.T))
    {p q : Prog σ} (h : Same quiet 1 p q) : Untold S pre p q := by
  refine ⟨⟨?_, ?_⟩, fun f f' o o' S1 S1' h1 h2 => ?_⟩
  · rintro ⟨f, ⟨o, S1⟩, h1⟩
    obtain ⟨f', S1', h2, _⟩ := C107_transaction quiet S S1 hS hq pre pre (fun _ => rfl) p q h f o h1
    exact ⟨f', _, h2⟩
  · rintro ⟨f, ⟨o, S1⟩, h1⟩
    obtain ⟨f', S1', h2, _⟩ := C107_transaction quiet S S1 hS hq pre pre (fun _ => rfl) q p h.symm f o h1
    exact ⟨f', _, h2⟩
  · obtain ⟨f3, S3, h3, h4⟩ := C107_transaction quiet S S1 hS hq pre pre (fun _ => rfl) p q h f o h1
    obtain ⟨rfl, rfl⟩ := transact_fuel h3 h2
    exact ⟨rfl, fun hne => (h4 hne).2⟩

/-! ## Deeper in programs -/

theorem Law.deeper {d d' : Nat} (hd : d ≤ d') {p q : Prog σ} (h : Law quiet d p q) : Law quiet d' p q := by
  cases h <;> constructor <;> first | assumption | omega

theorem Same.deeper {d : Nat} {p q : Prog σ} (h : Same quiet d p q) : ∀ d', d ≤ d' → Same quiet d' p q := by
  induction h with
  | law h => exact fun d' hd => .law (h.deeper hd)
  | symm _ ih => exact fun d' hd => .symm (ih d' hd)
  | trans _ _ ih ih' => exact fun d' hd => .trans (ih d' hd) (ih' d' hd)
  | done d r => exact fun d' _ => .done d' r
  | panic d => exact fun d' _ => .panic d'
  | reenter d => exact fun d' _ => .reenter d'
  | save c n _ ih => exact fun d' hd => .save c n (ih d' hd)
  | delete c i _ ih => exact fun d' hd => .delete c i (ih d' hd)
  | get c i _ ih => exact fun d' hd => .get c i fun a => ih a d' hd
  | contains c i _ ih => exact fun d' hd => .contains c i fun a => ih a d' hd
  | tx c _ _ ihb ih => exact fun d' hd => .tx c (ihb _ (by omega)) fun a => ih a d' hd
  | runTriggers c s _ ih => exact fun d' hd => .runTriggers c s fun a => ih a d' hd
  | withTarget n _ ih => exact fun d' hd => .withTarget n (ih d' hd)
  | targetRead c _ ih => exact fun d' hd => .targetRead c fun a => ih a d' hd
  | targetWrite c f _ ih => exact fun d' hd => .targetWrite c f fun a => ih a d' hd
  | resRead t _ ih => exact fun d' hd => .resRead t fun a => ih a d' hd
  | resWrite t f _ ih => exact fun d' hd => .resWrite t f fun a => ih a d' hd
  | resScope t e _ _ ihb ih => exact fun d' hd => .resScope t e (fun v => ihb v d' hd) fun a => ih a d' hd
  | resAssign t x _ ih => exact fun d' hd => .resAssign t x (ih d' hd)
  | catchUnwind _ _ ihb ih => exact fun d' hd => .catchUnwind (ihb d' hd) fun a => ih a d' hd
  | forget _ ih => exact fun d' hd => .forget (ih d' hd)

theorem Replaced.same {b b' : Prog σ} (hb : Same quiet 1 b b') {d : Nat} {q q' : Prog σ} (h : Replaced b b' d q q') : Same quiet d q q' := by
  induction h with
  | here hd => exact hb.deeper _ hd
  | done d r => exact .done d r
  | panic d => exact .panic d
  | reenter d => exact .reenter d
  | save c n _ ih => exact .save c n ih
  | delete c i _ ih => exact .delete c i ih
  | get c i _ ih => exact .get c i ih
  | contains c i _ ih => exact .contains c i ih
  | tx c _ _ ihb ih => exact .tx c ihb ih
  | runTriggers c s _ ih => exact .runTriggers c s ih
  | withTarget n _ ih => exact .withTarget n ih
  | targetRead c _ ih => exact .targetRead c ih
  | targetWrite c f _ ih => exact .targetWrite c f ih
  | resRead t _ ih => exact .resRead t ih
  | resWrite t f _ ih => exact .resWrite t f ih
  | resScope t e _ _ ihb ih => exact .resScope t e ihb ih
  | resAssign t x _ ih => exact .resAssign t x ih
  | catchUnwind _ _ ihb ih => exact .catchUnwind ihb ih
  | forget _ ih => exact .forget ih

theorem ReplacedIn.redone {b b' : Prog σ} (hb : Same (fun _ => False) 1 b b') {u u' : Use σ} (h : ReplacedIn b b' u u') :
    Redone (fun _ => False) u u' := by
  cases h with
  | tx pre h => exact .tx (fun _ => rfl) (h.same hb)
  | trigger s h => exact .trigger (fun h => h) (h.same hb)
  | register t v => exact .register t v
  | update op => exact .update op
  | get i => exact .get i
  | iter => exact .iter
  | read t => exact .read t
  | write t f => exact .write t f

/-! ## Schemas on which something is found -/

theorem schema_showing [LawfulSig σ] (g : Graph σ.K σ.T) (hg : g.Reachable) (ρ : (t : σ.Ty) → Option (σ.Val t)) (L : List σ.Ty) :
    ∃ S : Schema σ, (S.Used ∧ ∀ s, S.env.fire s = []) ∧ S.guard = g ∧ ∀ t, (S.env.resources.res t).peek S.heap = if t ∈ L then ρ t else none := by
  induction L with
  | nil => exact ⟨.fromGraph g, ⟨⟨g, [], hg, .nil _⟩, fun _ => rfl⟩, rfl, fun t => rfl⟩
  | cons u L ih =>
    obtain ⟨S, ⟨h1, h0⟩, h2, h3⟩ := ih
    cases hu : ρ u with
    | none =>
      refine ⟨S, ⟨h1, h0⟩, h2, fun t => ?_⟩
      rw [h3]
      by_cases e : t = u
      · subst e; simp [hu]
      · simp [e]
    | some v =>
      refine ⟨S.withResource u v, ⟨used_register h1 u v, h0⟩, h2, fun t => ?_⟩
      rw [peek_withResource (used_sane h1)]
      by_cases e : t = u
      · subst e; simp [hu]
      · simp [e, h3]

/-- What is found from a context. -/
def sightOf (R : ResourceSet σ.Ty) (s : St σ) (f : Nat) : Sight σ :=
  ⟨fun i => ctxGet s.graph s.frames f i,
    fun t => if s.resBlocks ⟨TriggerSet.empty, R⟩ t false = true then none else some ((R.res t).peek s.heap)⟩

/-- How it ends. -/
def leafOut : Option (Except Error σ.V) → Out (Except Error σ.V)
  | none => .panic
  | some r => .ret r

theorem evalBy_asking (R : ResourceSet σ.Ty) (fire : Firing σ) (x : Asking σ) (f : Nat) (env : List Nat) (s : St σ) :
    evalBy R fire x.prog (f :: env) s = match x.doing (sightOf R s f) with
      | none => some (.stuck, s)
      | some (l, e) => some (leafOut e, pushAll s f l) := by
  induction x with
  | leaf l e =>
    simp only [Asking.prog, Asking.doing]
    rw [evalBy_ops (c := 0) (f := f) rfl]
    cases e <;> rfl
  | look i k ih =>
    simp only [Asking.prog, Asking.doing]
    rw [evalBy_get (c := 0) (f := f) rfl, ih]
    rfl
  | read t k ih =>
    simp only [Asking.prog, Asking.doing, evalBy, sightOf]
    by_cases h : s.resBlocks ⟨TriggerSet.empty, R⟩ t false = true
    · simp only [h, if_true]
    · simp only [h, Bool.false_eq_true, if_false]
      exact ih _

/-- A transaction, by what its closure does. -/
theorem transact_of_evalBy {S : Schema σ} {p : Prog σ} {o : Out (Except Error σ.V)} {s : St σ}
    (h : evalBy S.env.resources (fireBy S.env 0) p [0] (S.begin []) = some (o, s)) :
    ∃ fuel S1, S.transact fuel [] p = some (o, S1) ∧ ∀ v, o = .ret (.ok v) → S1.guard = commitRoot s := by
  obtain ⟨fuel, he⟩ := eval_of_evalBy S.env 0 p [0] (S.begin []) _ h
  rcases o with (e | v) | _ | _
  · exact ⟨fuel, _, by unfold Schema.transact; rw [he], fun _ h => by cases h⟩
  · exact ⟨fuel, _, by unfold Schema.transact; rw [he], fun _ _ => guard_graph _⟩
  · exact ⟨fuel, _, by unfold Schema.transact; rw [he], fun _ h => by cases h⟩
  · exact ⟨fuel, _, by unfold Schema.transact; rw [he], fun _ h => by cases h⟩

/-! ## The programs around -/

/-- Runs the closure in a transaction of its own, catching its panic, and writes to the context around before that transaction is
committed. -/
def afterwards (o : Operation σ.K σ.T) (b : Prog σ) : Prog σ :=
  .tx 0 (.catchUnwind b fun _ => .op 1 o (.done (.ok σ.unit))) .done

/-- Runs the closure while a resource is being written. -/
def meanwhile (t : σ.Ty) (b : Prog σ) : Prog σ := .resScope t true (fun _ => b) fun _ => .done (.ok σ.unit)

theorem afterwards_replaced (o : Operation σ.K σ.T) (b b' : Prog σ) : Replaced b b' 1 (afterwards o b) (afterwards o b') := by
  refine .tx 0 (.catchUnwind (.here (by omega)) fun _ => ?_) fun r => .done _ r
  cases o with
  | save n => exact .save 1 n (.done _ _)
  | delete i => exact .delete 1 i (.done _ _)

theorem meanwhile_replaced (t : σ.Ty) (b b' : Prog σ) : Replaced b b' 1 (meanwhile t b) (meanwhile t b') :=
  .resScope t true (fun _ => .here (by omega)) fun _ => .done _ _

theorem afterwards_same (o : Operation σ.K σ.T) {b b' : Prog σ} (h : Same quiet 1 b b') : Same quiet 1 (afterwards o b) (afterwards o b') :=
  (afterwards_replaced o b b').same h

theorem meanwhile_same (t : σ.Ty) {b b' : Prog σ} (h : Same quiet 1 b b') : Same quiet 1 (meanwhile t b) (meanwhile t b') :=
  (meanwhile_replaced t b b').same h

theorem sight_begin (S : Schema σ) : sightOf S.env.resources (S.begin []) 0 = ⟨fun i => S.guard.get i, fun t => some ((S.env.resources.res t).peek S.heap)⟩ := by
  unfold sightOf
  congr 1
  · funext i
    rw [ctxGet]
    rfl
  · funext t
    have : (S.begin []).resBlocks ⟨TriggerSet.empty, S.env.resources⟩ t false = false := by
      unfold St.resBlocks
      split <;> rfl
    rw [this]
    rfl

theorem runs_plainly {S : Schema σ} {x : Asking σ} {l : List (Operation σ.K σ.T)} {e : Option (Except Error σ.V)}
    (h : x.doing ⟨fun i => S.guard.get i, fun t => some ((S.env.resources.res t).peek S.heap)⟩ = some (l, e)) :
    ∃ fuel S1, S.transact fuel [] x.prog = some (leafOut e, S1) := by
  rw [← sight_begin] at h
  have := evalBy_asking S.env.resources (fireBy S.env 0) x 0 [] (S.begin [])
  rw [h] at this
  obtain ⟨fuel, S1, h1, _⟩ := transact_of_evalBy this
  exact ⟨fuel, S1, h1⟩

theorem runs_afterwards [LawfulSig σ] {S : Schema σ} (hS : S.Used) {x : Asking σ} {l : List (Operation σ.K σ.T)} {e : Option (Except Error σ.V)}
    (h : x.doing ⟨fun i => S.guard.get i, fun t => some ((S.env.resources.res t).peek S.heap)⟩ = some (l, e)) (o : Operation σ.K σ.T) :
    ∃ fuel S1, S.transact fuel [] (afterwards o x.prog) = some (.ret (.ok σ.unit), S1) ∧
      ∀ i, S1.guard.get i = (lastOp (o :: l) i).getD (S.guard.get i) := by
  have hs : sightOf S.env.resources (openChild (S.begin []) 0) 1 = sightOf S.env.resources (S.begin []) 0 := by
    unfold sightOf
    congr 1
    funext i
    exact ctxGet_opened (s := S.begin []) (f := 0) (by show 0 < 1; omega) i
  have h1 := evalBy_asking S.env.resources (fireBy S.env 0) x 1 [0] (openChild (S.begin []) 0)
  rw [hs, sight_begin, h] at h1
  have h2 : evalBy S.env.resources (fireBy S.env 0) (.catchUnwind x.prog fun _ => .op 1 o (.done (.ok σ.unit))) [1, 0] (openChild (S.begin []) 0) =
      some (.ret (.ok σ.unit), pushOp (pushAll (openChild (S.begin []) 0) 1 l) 0 o) := by
    simp only [evalBy, h1]
    cases e <;> simp only [leafOut] <;> rw [evalBy_op] <;> rfl
  have h3 : evalBy S.env.resources (fireBy S.env 0) (afterwards o x.prog) [0] (S.begin []) =
      some (.ret (.ok σ.unit), commitChild (pushOp (pushAll (openChild (S.begin []) 0) 1 l) 0 o) 1) := by
    unfold afterwards
    rw [evalBy]
    simp only [List.getElem?_cons_zero, show (S.begin []).frames.length = 1 from rfl, h2]
    rfl
  obtain ⟨fuel, S1, h4, h5⟩ := transact_of_evalBy h3
  refine ⟨fuel, S1, h4, fun i => ?_⟩
  rw [h5 _ rfl]
  have h6 : commitRoot (commitChild (pushOp (pushAll (openChild (S.begin []) 0) 1 l) 0 o) 1) = S.guard.commit (o :: l) := rfl
  rw [h6, get_commit_lastOp (by rw [guard_graph]; exact (used_sane hS).valid)]

/-- What is found while a resource is being written. -/
theorem sight_meanwhile [LawfulSig σ] {S : Schema σ} (hS : S.Used) {t : σ.Ty} {p : Nat} (hp : (S.env.resources.res t).lock = some p) :
    sightOf S.env.resources (lockRes (S.begin []) p true) 0 =
      ⟨fun i => S.guard.get i, fun u => if t = u then none else some ((S.env.resources.res u).peek S.heap)⟩ := by
  have h0 := sight_begin S
  unfold sightOf at h0 ⊢
  rw [Sight.mk.injEq] at h0
  congr 1
  · exact h0.1
  · funext u
    have : (lockRes (S.begin []) p true).resBlocks ⟨TriggerSet.empty, S.env.resources⟩ u false = true ↔ t = u := by
      unfold St.resBlocks
      constructor
      · intro h
        split at h
        · cases h
        · rename_i p' hp'
          simp [St.blocks, lockRes, Schema.begin] at h
          subst h
          exact (used_sane hS).own t u p hp hp'
      · rintro rfl
        simp [hp, St.blocks, lockRes]
    by_cases e : t = u
    · rw [if_pos (this.2 e), if_pos e]
    · rw [if_neg (fun h => e (this.1 h)), if_neg e]
      rfl

theorem runs_meanwhile [LawfulSig σ] {S : Schema σ} (hS : S.Used) {t : σ.Ty} {v : σ.Val t} (hv : (S.env.resources.res t).peek S.heap = some v)
    (x : Asking σ) : ∃ fuel o S1, S.transact fuel [] (meanwhile t x.prog) = some (o, S1) ∧
      (o = .stuck ↔ x.doing ⟨fun i => S.guard.get i, fun u => if t = u then none else some ((S.env.resources.res u).peek S.heap)⟩ = none) := by
  obtain ⟨p, hp⟩ : ∃ p, (S.env.resources.res t).lock = some p := by
    cases h : (S.env.resources.res t).lock with
    | none => unfold Res.peek at hv; rw [h] at hv; cases hv
    | some p => exact ⟨p, rfl⟩
  have h1 := evalBy_asking S.env.resources (fireBy S.env 0) x 0 [] (lockRes (S.begin []) p true)
  rw [sight_meanwhile hS hp] at h1
  have h2 : ∃ o s, evalBy S.env.resources (fireBy S.env 0) (meanwhile t x.prog) [0] (S.begin []) = some (o, s) ∧
      (o = .stuck ↔ x.doing ⟨fun i => S.guard.get i, fun u => if t = u then none else some ((S.env.resources.res u).peek S.heap)⟩ = none) := by
    unfold meanwhile
    rw [evalBy]
    have hb : (S.begin []).blocks p true = false := rfl
    simp only [hp, hb, show (S.begin []).heap = S.heap from rfl, hv, h1]
    generalize x.doing _ = z
    match z with
    | none => exact ⟨_, _, rfl, by simp⟩
    | some (l, none) => exact ⟨_, _, rfl, by simp⟩
    | some (l, some r) => exact ⟨_, _, rfl, by simp⟩
  obtain ⟨o, s, h3, h4⟩ := h2
  obtain ⟨fuel, S1, h5, _⟩ := transact_of_evalBy h3
  exact ⟨fuel, o, S1, h5, h4⟩

/-! ## All that can be told is told -/

theorem doing_free {w : Sight σ} (h : ∀ t, w.read t ≠ none) (x : Asking σ) : ∃ r, x.doing w = some r := by
  induction x with
  | leaf l e => exact ⟨_, rfl⟩
  | look i k ih => exact ih _
  | read t k ih =>
    simp only [Asking.doing]
    cases hr : w.read t with
    | none => exact (h t hr).elim
    | some v => exact ih v

theorem doing_mono {w w' : Sight σ} (hg : w'.get = w.get) (h : ∀ t v, w.read t = some v → w'.read t = some v) (x : Asking σ)
    {r : List (Operation σ.K σ.T) × Option (Except Error σ.V)} (hr : x.doing w = some r) : x.doing w' = some r := by
  induction x with
  | leaf l e => exact hr
  | look i k ih => simp only [Asking.doing, hg] at hr ⊢; exact ih _ hr
  | read t k ih =>
    simp only [Asking.doing] at hr ⊢
    cases hw : w.read t with
    | none => rw [hw] at hr; cases hr
    | some v => rw [hw] at hr; rw [h t v hw]; exact ih v hr

theorem leafOut_inj {e e' : Option (Except Error σ.V)} (h : leafOut e' = leafOut e) : e' = e := by
  cases e <;> cases e' <;> simp_all [leafOut]

section
variable [LawfulSig σ] (hid : ∀ i : σ.K, ∃ n : σ.T, (id n == i) = true) (hval : ∀ t, Nonempty (σ.Val t)) {x y : Asking σ}
  (h1 : ∀ S : Schema σ, (S.Used ∧ ∀ s, S.env.fire s = []) → Untold S [] x.prog y.prog)
  (h2 : ∀ (S : Schema σ) o, (S.Used ∧ ∀ s, S.env.fire s = []) → Untold S [] (afterwards o x.prog) (afterwards o y.prog))
  (h3 : ∀ (S : Schema σ) t, (S.Used ∧ ∀ s, S.env.fire s = []) → Untold S [] (meanwhile t x.prog) (meanwhile t y.prog))
include hid h1 h2

theorem tied_free {w : Sight σ} (hw : w.Real) (hf : ∀ t, w.read t ≠ none) : Asking.Tied (x.doing w) (y.doing w) := by
  obtain ⟨⟨l, e⟩, hx⟩ := doing_free hf x
  obtain ⟨⟨l', e'⟩, hy⟩ := doing_free hf y
  obtain ⟨⟨g, hg, hgw⟩, ⟨L, hL⟩, _⟩ := hw
  obtain ⟨S, hS, hSg, hSr⟩ := schema_showing g hg (fun t => (w.read t).getD none) L
  have hsight : (⟨fun i => S.guard.get i, fun t => some ((S.env.resources.res t).peek S.heap)⟩ : Sight σ) = w := by
    obtain ⟨wg, wr⟩ := w
    congr 1
    · funext i; rw [hSg]; exact hgw i
    · funext t
      rw [hSr]
      cases hr : wr t with
      | none => exact (hf t hr).elim
      | some v =>
        by_cases ht : t ∈ L
        · simp [ht, hr]
        · have := hL t ht
          simp only at this
          rw [hr] at this
          simp [ht, ← Option.some.inj this]
  rw [← hsight] at hx hy
  obtain ⟨f1, S1, r1⟩ := runs_plainly hx
  obtain ⟨f2, S2, r2⟩ := runs_plainly hy
  have he : e' = e := leafOut_inj ((h1 S hS).same _ _ _ _ _ _ r1 r2).1
  rw [← hsight, hx, hy, he]
  refine .ends e fun i => ?_
  have key : ∀ o : Operation σ.K σ.T, (lastOp (o :: l') i).getD (S.guard.get i) = (lastOp (o :: l) i).getD (S.guard.get i) := by
    intro o
    obtain ⟨f3, S3, r3, r4⟩ := runs_afterwards hS.1 hx o
    obtain ⟨f5, S5, r5, r6⟩ := runs_afterwards hS.1 hy o
    rw [← r4, ← r6]
    exact ((h2 S o hS).same _ _ _ _ _ _ r3 r5).2 (by intro h; cases h) i
  obtain ⟨n, hn⟩ := hid i
  have k1 := key (.delete i)
  have k2 := key (.save n)
  have hii : (i == i) = true := Graph.beq_iff.2 ReflCmp.compare_self
  have e1 : ∀ l : List (Operation σ.K σ.T), (lastOp (.delete i :: l) i).getD (S.guard.get i) = (lastOp l i).getD none := by
    intro l
    simp only [lastOp, Operation.id, Operation.leaves, hii, if_true]
    cases lastOp l i <;> rfl
  have e2 : ∀ l : List (Operation σ.K σ.T), (lastOp (.save n :: l) i).getD (S.guard.get i) = (lastOp l i).getD (some n) := by
    intro l
    simp only [lastOp, Operation.id, Operation.leaves, hn, if_true]
    cases lastOp l i <;> rfl
  rw [e1, e1] at k1
  rw [e2, e2] at k2
  cases ha : lastOp l i <;> cases hb : lastOp l' i <;> simp only [ha, hb, Option.getD_some, Option.getD_none] at k1 k2 ⊢
  · rw [k1] at k2; cases k2
  · rw [← k1] at k2; cases k2
  · rw [k1]

include hval h3

theorem tied {w : Sight σ} (hw : w.Real) : Asking.Tied (x.doing w) (y.doing w) := by
  by_cases hf : ∀ t, w.read t ≠ none
  · exact tied_free hid h1 h2 hw hf
  · obtain ⟨t, ht⟩ : ∃ t, w.read t = none := by
      apply Classical.byContradiction
      intro hno
      exact hf fun t ht => hno ⟨t, ht⟩
    have free : ∀ u, (w.have' t none).read u ≠ none := by
      intro u hu
      by_cases e : t = u
      · subst e; simp [Sight.have'] at hu
      · simp only [Sight.have', dif_neg e] at hu
        exact e (hw.one t u ht hu)
    have hmono : ∀ z : Asking σ, ∀ r, z.doing w = some r → z.doing (w.have' t none) = some r := fun z r hr => by
      refine doing_mono (w := w) (w' := w.have' t none) rfl (fun u v hu => ?_) z hr
      have : t ≠ u := fun e => by subst e; rw [ht] at hu; cases hu
      simp only [Sight.have', dif_neg this]
      exact hu
    have hfree := tied_free hid h1 h2 (hw.have' t none) free
    obtain ⟨g, hg, hgw⟩ := hw.nodes
    obtain ⟨L, hL⟩ := hw.few
    obtain ⟨v0⟩ := hval t
    obtain ⟨S, hS, hSg, hSr⟩ := schema_showing g hg (fun u => if e : t = u then some (e ▸ v0) else (w.read u).getD none) (t :: L)
    have hv : (S.env.resources.res t).peek S.heap = some v0 := by rw [hSr]; simp
    have hsight : (⟨fun i => S.guard.get i, fun u => if t = u then none else some ((S.env.resources.res u).peek S.heap)⟩ : Sight σ) = w := by
      have hone := hw.one
      obtain ⟨wg, wr⟩ := w
      congr 1
      · funext i; rw [hSg]; exact hgw i
      · funext u
        by_cases e : t = u
        · subst e; simp only [if_true]; exact ht.symm
        · rw [if_neg e, hSr]
          cases hr : wr u with
          | none => exact (e (hone t u ht hr)).elim
          | some v =>
            by_cases hu : u ∈ L
            · simp [hu, e, hr]
            · have := hL u hu
              simp only at this
              rw [hr] at this
              simp [hu, Ne.symm e, ← Option.some.inj this]
    obtain ⟨f1, o1, S1, r1, q1⟩ := runs_meanwhile hS.1 hv x
    obtain ⟨f2, o2, S2, r2, q2⟩ := runs_meanwhile hS.1 hv y
    have ho : o2 = o1 := ((h3 S t hS).same _ _ _ _ _ _ r1 r2).1
    rw [hsight] at q1 q2
    cases hx : x.doing w with
    | none =>
      rw [q2.1 (ho.trans (q1.2 hx))]
      exact .never
    | some r =>
      cases hy : y.doing w with
      | none =>
        have := q1.1 (ho.symm.trans (q2.2 hy))
        rw [hx] at this; cases this
      | some r' =>
        rw [hmono x r hx, hmono y r' hy] at hfree
        exact hfree

end

end Plotline
