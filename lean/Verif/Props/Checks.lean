import Verif.Lemmas.Checks
import Verif.Lemmas.Alike
import Verif.Lemmas.Triggers
import Verif.Props.Nesting
import Verif.Props.Transaction
import Verif.Spec.Fixtures

/-! # Property C118: invariants of the graph that triggers check -/

namespace Plotline

open Std

set_option linter.unusedSectionVars false

variable {σ : Sig}

theorem every_of_fire {E : Env σ} {φ : Prog σ → Prop} (h : ∀ s, ∀ p ∈ E.fire s, p.Every φ) : E.Every φ := by
  intro s ts hts t ht
  exact h s t (by rw [Env.fire, hts]; exact ht)

theorem guard_filed [LawfulSig σ] {S : Schema σ} (hS : S.graph.Reachable) : FMap.Filed (σ := σ) S.guard.get := by
  rw [guard_graph]; exact Filed.get hS

/-- C118: in any open context, of triggers that use their own contexts only and among which the last ones check, whatever goes through
`Save` and `Delete` keeps the invariant of what the context shows: however it ends, and at every point of it that is one of its own. -/
theorem C118_context [LawfulSig σ] {g : Graph σ.K σ.T} (hg : g.Reachable) (E : Env σ) (htr : E.Every Prog.Own) (I : FMap σ.K σ.T → Prop)
    (hsave : SaveChecked E I) (hdel : DeleteChecked E I) (fuel : Nat) (env : List Nat) (f : Nat) (p : Prog σ) (hp : p.Through) (s s' : St σ)
    (hs : Reachable g s) (fr : Frame σ.K σ.T) (hf : s.frames[f]? = some fr) (hl : fr.leaked = false)
    (hI : I (ctxGet s.graph s.frames f)) (out : Out (Except Error σ.V))
    (h : eval E fuel (f :: env) p s = some (out, s')) : I (ctxGet s'.graph s'.frames f) := by
  have key := C15_any_context E htr fuel env f p hp.own s hs fr hf hl
  rw [h] at key
  match hc : copyRun E fuel p
      { map := ctxGet s.graph s.frames f, issued := fr.ops, target := fr.target, heap := s.heap, inUse := s.locks } with
  | none => rw [hc] at key; cases key
  | some (o, v) =>
    rw [hc] at key
    simp only [Option.map_some, Option.some.injEq, Prod.mk.injEq] at key
    rw [key.2.1]
    exact (copyRun_through E I hsave hdel fuel p _ o v hp ⟨Filed.ctx hg hs (List.getElem?_eq_some_iff.1 hf).1, hI⟩ hc).2

/-- C118: a transaction whose closure changes the graph by `Save` and `Delete` only keeps an invariant that the last triggers check,
however it ends. -/
theorem C118_transaction [LawfulSig σ] (S S' : Schema σ) (hS : S.graph.Reachable) (htr : S.env.Every Prog.Own) (I : FMap σ.K σ.T → Prop)
    (hsave : SaveChecked S.env I) (hdel : DeleteChecked S.env I) (hI : I S.guard.get) (fuel : Nat) (body : Prog σ) (hb : body.Decent)
    (out : Out (Except Error σ.V)) (h : S.transact fuel [] body = some (out, S')) : I S'.guard.get := by
  have hown : body.Every Prog.Own := by
    rcases hb with hb | ⟨n, rfl⟩ | ⟨i, rfl⟩
    · exact hb.own
    · exact saveBody_own n
    · exact deleteBody_own i
  have key := C15_copy_run_replace S hS fuel [] body hown htr
  rw [h] at key
  unfold copyTransact at key
  simp only [Option.map_some, bind, Option.bind] at key
  split at key
  · cases key
  · next r hc =>
    obtain ⟨o, v⟩ := r
    dsimp only at key
    have hf := guard_filed hS
    split at key
    · next a v' heq =>
      cases heq
      simp only [Option.some.injEq, Prod.mk.injEq] at key
      rw [key.2.1]
      rcases hb with hb | hb
      · exact (copyRun_through S.env I hsave hdel fuel body _ _ v hb ⟨by exact hf, by exact hI⟩ hc).2
      · exact copyRun_ops S.env I hsave hdel fuel body hb ⟨S.guard.get, [], none, S.heap, []⟩ v a ⟨hf, hI⟩ hc
    · next heq =>
      cases heq
      simp only [Option.some.injEq, Prod.mk.injEq] at key
      rw [key.2.1]; exact hI

theorem history_reachable [LawfulSig σ] (S S' : Schema σ) (hS : S.graph.Reachable) (fuel : Nat) (ps : List (Prog σ))
    (outs : List (Out (Except Error σ.V))) (h : S.history fuel ps = some (outs, S')) : S'.graph.Reachable := by
  induction ps generalizing S outs with
  | nil => simp only [Schema.history] at h; cases h; exact hS
  | cons p ps ih =>
    simp only [Schema.history, bind, Option.bind] at h
    split at h
    · cases h
    · next r h1 =>
      obtain ⟨o, S1⟩ := r
      dsimp only at h
      split at h
      · cases h
      · next r h2 =>
        obtain ⟨os, S2⟩ := r
        cases h
        exact ih S1 (C13_stays_reachable S S1 hS fuel [] p o h1) os h2

/-- C118: and so does every course of such transactions, whichever of them fail or panic. -/
theorem C118_history [LawfulSig σ] (S S' : Schema σ) (hS : S.graph.Reachable) (htr : S.env.Every Prog.Own) (I : FMap σ.K σ.T → Prop)
    (hsave : SaveChecked S.env I) (hdel : DeleteChecked S.env I) (hI : I S.guard.get) (fuel : Nat) (ps : List (Prog σ))
    (hps : ∀ p ∈ ps, p.Decent) (outs : List (Out (Except Error σ.V))) (h : S.history fuel ps = some (outs, S')) : I S'.guard.get := by
  induction ps generalizing S outs with
  | nil => simp only [Schema.history] at h; cases h; exact hI
  | cons p ps ih =>
    simp only [Schema.history, bind, Option.bind] at h
    split at h
    · cases h
    · next r h1 =>
      obtain ⟨o, S1⟩ := r
      dsimp only at h
      split at h
      · cases h
      · next r h2 =>
        obtain ⟨os, S2⟩ := r
        cases h
        have he : S1.env = S.env := by
          simp only [Schema.transact] at h1
          split at h1 <;> cases h1 <;> rfl
        exact ih S1 (C13_stays_reachable S S1 hS fuel [] p o h1) (he ▸ htr) (he ▸ hsave) (he ▸ hdel)
          (C118_transaction S S1 hS htr I hsave hdel hI fuel p (hps p (List.mem_cons_self ..)) o h1)
          (fun q hq => hps q (List.mem_cons_of_mem _ hq)) os h2

/-! ## Nodes that are checked -/

theorem used_reachable [LawfulSig σ] {S : Schema σ} (h : S.Used) : S.graph.Reachable := by
  obtain ⟨g, l, hg, hl⟩ := h
  have key : ∀ {S1 S2 : Schema σ} {l : List (Use σ × Seen σ)}, Session S1 l S2 → S1.graph.Reachable → S2.graph.Reachable := by
    intro S1 S2 l h
    induction h with
    | nil => exact fun h => h
    | cons h1 _ ih =>
      intro hr
      refine ih ?_
      cases h1 with
      | tx ht hne => exact C13_stays_reachable _ _ hr _ _ _ _ ht
      | update op =>
        show (Graph.applyOp _ op).Reachable
        rw [guard_graph]
        cases op with
        | save n => exact .insert _ n hr
        | delete i => exact .remove _ i hr
      | _ => exact hr
  exact key hl hg

/-- C118: let a schema in use have triggers that go through `Save` and `Delete`, and nodes that satisfy `P`. Register a trigger before
saves that refuses what does not. Then after every course of transactions that change the graph by `Save` and `Delete` only, whatever the
triggers do to the nodes that are saved, all nodes satisfy `P`. -/
theorem C118_nodes [LawfulSig σ] (S S' : Schema σ) (hS : S.Used) (htr : ∀ s, ∀ p ∈ S.env.fire s, p.Through) (P : σ.T → Bool) (e : Error)
    (h0 : ∀ n ∈ S.guard.iter, P n = true) (fuel : Nat) (ps : List (Prog σ)) (hps : ∀ p ∈ ps, p.Decent)
    (outs : List (Out (Except Error σ.V)))
    (h : (S.withTrigger .beforeSave (requireTarget P e)).history fuel ps = some (outs, S')) : ∀ n ∈ S'.guard.iter, P n = true := by
  have hreach := used_reachable hS
  have hthr : ∀ s, ∀ p ∈ (S.withTrigger .beforeSave (requireTarget P e)).env.fire s, p.Through := by
    intro s p hp
    rw [fire_withTrigger (used_sane hS)] at hp
    split at hp
    · rcases List.mem_append.1 hp with hp | hp
      · exact htr s p hp
      · rw [List.mem_singleton.1 hp]
        exact .targetRead fun x => by cases x <;> exact .done _
    · exact htr s p hp
  have hI := C118_history (S.withTrigger .beforeSave (requireTarget P e)) S' hreach (every_of_fire fun s p hp => (hthr s p hp).own)
    (fun m => ∀ i n, m i = some n → P n = true)
    (Or.inl ⟨S.env.fire .beforeSave, requireTarget P e, by rw [fire_withTrigger (used_sane hS), if_pos rfl], htr _, ?_, hthr _⟩)
    (Or.inr (Or.inr ⟨?_, ?_⟩)) ?_ fuel ps hps outs h
  · intro n hn
    have hr : S'.graph.Reachable := history_reachable (S.withTrigger .beforeSave (requireTarget P e)) S' hreach fuel ps outs h
    rw [guard_graph] at hn hI
    exact hI _ n ((Graph.mem_iter _ hr.valid n).1 hn)
  · intro fuel v v' a _ hv hr
    cases fuel with
    | zero => simp [copyRun] at hr
    | succ fuel =>
      simp only [requireTarget, copyRun] at hr
      cases fuel with
      | zero => simp [copyRun] at hr
      | succ fuel =>
        cases ht : v.targetVal with
        | none =>
          rw [ht] at hr
          simp only [copyRun, Option.some.injEq, Prod.mk.injEq] at hr
          rw [← hr.2]
          exact ⟨hv, fun n hn => by rw [ht] at hn; cases hn⟩
        | some m =>
          rw [ht] at hr
          simp only [copyRun, Option.some.injEq, Prod.mk.injEq] at hr
          rw [← hr.2]
          refine ⟨hv, fun n hn => ?_⟩
          rw [ht] at hn; cases hn
          have hP : P m = true := by
            cases hP : P m with
            | true => rfl
            | false => rw [hP] at hr; simp at hr
          intro j n' hj
          simp only [FMap.put] at hj
          split at hj
          · cases hj; exact hP
          · exact hv j n' hj
  · intro m i _ hm j n hj
    simp only [FMap.del] at hj
    split at hj
    · cases hj
    · exact hm j n hj
  · intro p hp
    rcases List.mem_append.1 hp with hp | hp <;> exact hthr _ p hp
  · intro i n hn
    have hg : (S.withTrigger .beforeSave (requireTarget P e)).guard = S.guard := rfl
    rw [hg] at hn
    refine h0 n ?_
    rw [guard_graph] at hn ⊢
    rw [Graph.mem_iter _ hreach.valid]
    have := Graph.get_some_id _ hreach.valid hn
    rw [← Graph.get_congr _ this]; exact hn

/-! ## Links that are checked -/

/-- C118: let nodes refer to others and know those that refer to them. On a schema in use without dangling links, whose triggers go
through `Save` and `Delete` and do not touch targets before deletions, register the two checks. Then no course of transactions that change
the graph by `Save` and `Delete` only leaves a dangling link. -/
theorem C118_links [LawfulSig σ] (L : Linking σ) (S S' : Schema σ) (hS : S.Used) (htr : ∀ s, ∀ p ∈ S.env.fire s, p.Through)
    (haim : ∀ p ∈ S.env.fire .beforeDelete, p.Aims) (e : Error) (h0 : L.Linked S.guard.get) (fuel : Nat) (ps : List (Prog σ))
    (hps : ∀ p ∈ ps, p.Decent) (outs : List (Out (Except Error σ.V)))
    (h : ((S.withTrigger .beforeSave (L.beforeSave e)).withTrigger .beforeDelete (L.beforeDelete e)).history fuel ps = some (outs, S')) :
    L.Linked S'.guard.get := by
  have hs1 : (S.withTrigger .beforeSave (L.beforeSave e)).Used := by
    obtain ⟨g, l, hg, hl⟩ := hS
    have key : ∀ {S1 S2 : Schema σ} {l : List (Use σ × Seen σ)}, Session S1 l S2 →
        ∃ l', Session S1 l' (S2.withTrigger .beforeSave (L.beforeSave e)) := by
      intro S1 S2 l h
      induction h with
      | nil S => exact ⟨_, .cons (.trigger S .beforeSave (L.beforeSave e)) (.nil _)⟩
      | cons h1 _ ih => obtain ⟨l', hl'⟩ := ih; exact ⟨_, .cons h1 hl'⟩
    obtain ⟨l', hl'⟩ := key hl
    exact ⟨g, l', hg, hl'⟩
  have hf : ∀ s, ((S.withTrigger .beforeSave (L.beforeSave e)).withTrigger .beforeDelete (L.beforeDelete e)).env.fire s =
      match s with
      | .beforeSave => S.env.fire .beforeSave ++ [L.beforeSave e]
      | .beforeDelete => S.env.fire .beforeDelete ++ [L.beforeDelete e]
      | s => S.env.fire s := by
    intro s
    rw [fire_withTrigger (used_sane hs1), fire_withTrigger (used_sane hS)]
    cases s <;> simp
  have hthr : ∀ s, ∀ p ∈ ((S.withTrigger .beforeSave (L.beforeSave e)).withTrigger .beforeDelete (L.beforeDelete e)).env.fire s,
      p.Through := by
    intro s p hp
    rw [hf] at hp
    split at hp
    · rcases List.mem_append.1 hp with hp | hp
      · exact htr _ p hp
      · rw [List.mem_singleton.1 hp]; exact L.beforeSave_through e
    · rcases List.mem_append.1 hp with hp | hp
      · exact htr _ p hp
      · rw [List.mem_singleton.1 hp]; exact L.beforeDelete_through e
    · exact htr _ p hp
  exact C118_history ((S.withTrigger .beforeSave (L.beforeSave e)).withTrigger .beforeDelete (L.beforeDelete e)) S' (show S.graph.Reachable from used_reachable hS)
    (every_of_fire fun s p hp => (hthr s p hp).own) L.Linked
    (Or.inl ⟨_, _, hf .beforeSave, htr _, L.vetsSave _ e, hthr _⟩)
    (Or.inl ⟨_, _, hf .beforeDelete, fun p hp => ⟨htr _ p hp, haim p hp⟩, L.beforeDelete_aims e, L.vetsDelete _ e, hthr _⟩)
    h0 fuel ps hps outs h

/-! ### Nodes with links, in action

The body of a document with key `k` is a set of bits: bit `2 j` for a link to the document `j`, bit `2 j + 1` for one from there. -/

def bitLinks : Linking demo where
  refs := fun d => (List.range 4).filter fun j => d.body.testBit (2 * j)
  backs := fun d => (List.range 4).filter fun j => d.body.testBit (2 * j + 1)

/-- Document 1 links to document 2, which knows of it; 3 stands alone. -/
def linkedGraph : Graph Nat Doc := Graph.fromIter ([⟨1, 16⟩, ⟨2, 8⟩, ⟨3, 0⟩] : List Doc)

def linkedSchema : Schema demo :=
  ((Schema.fromGraph (σ := demo) linkedGraph).withTrigger .beforeSave (bitLinks.beforeSave (.msg "dangling"))).withTrigger .beforeDelete
    (bitLinks.beforeDelete (.msg "referred to"))

example : (Schema.fromGraph (σ := demo) linkedGraph).Used := ⟨_, [], .fromIter _, .nil _⟩

/-- To see that all links are good, look at each node. -/
theorem bitLinks_linked (l : List Doc) (h : ∀ n ∈ (Graph.fromIter (K := Nat) l).iter, ∀ k ∈ bitLinks.refs n,
    ((Graph.fromIter (K := Nat) l).get k).any (fun n' => among (σ := demo) n.key (bitLinks.backs n')) = true) :
    bitLinks.Linked (Schema.fromGraph (σ := demo) (Graph.fromIter l)).guard.get := by
  intro i n hi k hk
  have hv := (Graph.Reachable.fromIter (K := Nat) l).valid
  have hid : (i == n.key) = true := Graph.get_some_id _ hv hi
  have hin : i = n.key := by simpa using hid
  subst hin
  have := h n ((Graph.mem_iter _ hv n).2 hi) k hk
  cases hg : (Graph.fromIter (K := Nat) l).get k with
  | none => rw [hg] at this; cases this
  | some n' => rw [hg] at this; exact ⟨n', hg, this⟩

example : bitLinks.Linked (Schema.fromGraph (σ := demo) linkedGraph).guard.get := bitLinks_linked _ (by decide +kernel)

/-- In turn: a link to what is not there is refused; what is referred to is not deleted; 3 learns of 1, and 1 then links to it rather than
to 2; which may be deleted now, all in one transaction, with an error in between made good. -/
example : (linkedSchema.history 60 [saveBody (⟨0, 64⟩ : Doc), saveBody (⟨0, 1⟩ : Doc), deleteBody (2 : Nat),
      .saveOp 0 (⟨3, 8⟩ : Doc) fun _ => .deleteOp 0 (2 : Nat) fun _ => .saveOp 0 (⟨1, 64⟩ : Doc) fun _ => .deleteOp 0 (2 : Nat) .done]).map
        (fun r => (r.1, r.2.guard.iter)) =
    some ([.ret (.error (.msg "dangling")), .ret (.error (.msg "dangling")), .ret (.error (.msg "referred to")), .ret (.ok ())],
      [⟨1, 64⟩, ⟨3, 8⟩]) := by decide +kernel

example : (Prog.saveOp 0 (⟨3, 8⟩ : Doc) fun _ => .deleteOp 0 (2 : Nat) fun _ => .saveOp 0 (⟨1, 64⟩ : Doc) fun _ =>
    .deleteOp 0 (2 : Nat) .done : Prog demo).Decent :=
  Or.inl (.saveOp fun _ => .deleteOp fun _ => .saveOp fun _ => .deleteOp fun x => .done x)

/-- A node type of which documents with body 7 are forbidden, checked before saves. -/
def noSevens : Prog demo := requireTarget (σ := demo) (fun d : Doc => d.body != 7) (.msg "seven")

/-- A trigger that makes sevens of sixes. -/
def sixToSeven : Prog demo := .targetWrite 0 (fun d : Doc => (if d.body = 6 then ⟨d.key, 7⟩ else d, false)) fun _ => .done (.ok ())

/-- Registered before the check, it may do so and is found out. -/
example : ((((Schema.fromGraph (σ := demo) Graph.empty).withTrigger .beforeSave sixToSeven).withTrigger .beforeSave noSevens).history 40
      [saveBody (⟨1, 5⟩ : Doc), saveBody (⟨2, 6⟩ : Doc), saveBody (⟨3, 7⟩ : Doc)]).map (fun r => (r.1, r.2.guard.iter)) =
    some ([.ret (.ok ()), .ret (.error (.msg "seven")), .ret (.error (.msg "seven"))], [⟨1, 5⟩]) := by decide +kernel

example : (sixToSeven : Prog demo).Through := .targetWrite fun _ => .done _

/-! ### What the conditions are for -/

/-- C118: the check has to come last. A trigger registered after it may change what it approved. -/
theorem C118_last : ∃ (S S' : Schema demo) (P : Doc → Bool) (e : Error) (late : Prog demo) (n : Doc) (out : Out (Except Error Unit)),
    S.Used ∧ (∀ s, S.env.fire s = []) ∧ late.Through ∧ (∀ n ∈ S.guard.iter, P n = true) ∧
      ((S.withTrigger .beforeSave (requireTarget P e)).withTrigger .beforeSave late).save 20 n = some (out, S') ∧
      ∃ n ∈ S'.guard.iter, P n = false := by
  refine ⟨.fromGraph Graph.empty, _, fun d => d.body != 7, .msg "seven", sixToSeven, ⟨2, 6⟩, .ret (.ok ()), ⟨_, [], .empty, .nil _⟩,
    fun s => by cases s <;> rfl, .targetWrite fun _ => .done _, fun n hn => (by cases hn), rfl, ⟨2, 7⟩, ?_, rfl⟩
  decide +kernel

/-- C118: the functions of the context itself are not checked: one `ctx.save` brings in a node that `Save` refuses. -/
theorem C118_unchecked : ∃ (S S1 S2 : Schema demo) (P : Doc → Bool) (e : Error) (n : Doc), S.Used ∧ (∀ s, S.env.fire s = []) ∧
    (∀ n ∈ S.guard.iter, P n = true) ∧
      (S.withTrigger .beforeSave (requireTarget P e)).save 20 n = some (.ret (.error e), S1) ∧
      (S.withTrigger .beforeSave (requireTarget P e)).transact 20 [] (.save 0 n (.done (.ok ()))) = some (.ret (.ok ()), S2) ∧
      (∀ n ∈ S1.guard.iter, P n = true) ∧ ∃ n ∈ S2.guard.iter, P n = false := by
  refine ⟨.fromGraph Graph.empty, _, _, fun d => d.body != 7, .msg "seven", ⟨2, 7⟩, ⟨_, [], .empty, .nil _⟩,
    fun s => by cases s <;> rfl, fun n hn => (by cases hn), rfl, rfl, fun n hn => (by cases hn), ⟨2, 7⟩, ?_, rfl⟩
  decide +kernel

/-- C118: nor does it do to use the context of an enclosing transaction. The checks look at the context they are run on, which does not
show what the transaction inside has changed: here that has deleted document 2, and a link to 2 is saved around it. -/
theorem C118_around : ∃ (S S' : Schema demo) (e : Error), S.Used ∧ (∀ s, S.env.fire s = []) ∧ bitLinks.Linked S.guard.get ∧
    ((S.withTrigger .beforeSave (bitLinks.beforeSave e)).withTrigger .beforeDelete (bitLinks.beforeDelete e)).transact 60 []
        (.tx 0 (.deleteOp 0 (2 : Nat) fun _ => .saveOp 1 (⟨0, 16⟩ : Doc) .done) .done) = some (.ret (.ok ()), S') ∧
      ¬ bitLinks.Linked S'.guard.get := by
  refine ⟨.fromGraph (Graph.fromIter [⟨2, 2⟩]), _, .msg "no", ⟨_, [], .fromIter _, .nil _⟩, fun s => by cases s <;> rfl,
    bitLinks_linked _ (by decide +kernel), by with_unfolding_all rfl, fun h => ?_⟩
  obtain ⟨n', hn', _⟩ := h (0 : Nat) (⟨0, 16⟩ : Doc) (by decide +kernel) (2 : Nat) (by decide +kernel)
  have : ∀ x : Option Doc, x = none → x = some n' → False := fun x h1 h2 => by rw [h1] at h2; cases h2
  exact this _ (by decide +kernel) hn'

/-- C118: `Delete` deletes what it was asked to, whatever becomes of the target. A trigger that puts another node there diverts the
check. -/
theorem C118_diverted : ∃ (S S' : Schema demo) (e : Error) (divert : Prog demo), S.Used ∧ (∀ s, S.env.fire s = []) ∧
    bitLinks.Linked S.guard.get ∧ divert.Through ∧
    ((S.withTrigger .beforeDelete divert).withTrigger .beforeDelete (bitLinks.beforeDelete e)).delete 60 (2 : Nat) =
      some (.ret (.ok ()), S') ∧ ¬ bitLinks.Linked S'.guard.get := by
  refine ⟨.fromGraph linkedGraph, _, .msg "no", .targetWrite 0 (fun _ => (⟨3, 0⟩, false)) fun _ => .done (.ok ()),
    ⟨_, [], .fromIter _, .nil _⟩, fun s => by cases s <;> rfl, bitLinks_linked _ (by decide +kernel), .targetWrite fun _ => .done _,
    by with_unfolding_all rfl, fun h => ?_⟩
  obtain ⟨n', hn', _⟩ := h (1 : Nat) (⟨1, 16⟩ : Doc) (by decide +kernel) (2 : Nat) (by decide +kernel)
  have : ∀ x : Option Doc, x = none → x = some n' → False := fun x h1 h2 => by rw [h1] at h2; cases h2
  exact this _ (by decide +kernel) hn'

end Plotline
