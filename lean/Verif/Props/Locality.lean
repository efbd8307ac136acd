import Verif.Lemmas.Locality
import Verif.Props.Transaction
import Verif.Lemmas.Triggers
import Verif.Props.Graph

/-! # Properties C63–C66: what a transaction looks at and what it writes -/

namespace Plotline

open Std

set_option linter.unusedSectionVars false

variable {σ : Sig}

/-! ## C63 -/

/-- C63: a transaction that ends on one schema ends the same way on any other with the same triggers and resources
whose graph has the same nodes under the ids the transaction looks up, leaves the same resources, and applies the same
operations to the graph. -/
theorem C63_reads_only_what_it_looks_up (S S' S1 : Schema σ) (fuel : Nat) (pre : List (Operation σ.K σ.T))
    (body : Prog σ) (out : Out (Except Error σ.V)) (henv : S'.env = S.env) (hheap : S'.heap = S.heap)
    (hlook : ∀ i, LooksUp S pre body i → S'.guard.get i = S.guard.get i)
    (h : S.transact fuel pre body = some (out, S1)) (hne : out ≠ .stuck) :
    ∃ fuel' S1' ops, S'.transact fuel' pre body = some (out, S1') ∧ S1'.heap = S1.heap ∧
      S1.guard = S.guard.commit ops ∧ S1'.guard = S'.guard.commit ops := by
  have e : ∀ S : Schema σ, S.guard = S.graph := fun S => by unfold Schema.guard; split <;> rfl
  obtain ⟨ops, _, hg, _, _, hr⟩ := transact_on h hne
  obtain ⟨fuel', S1', ht, hg', hh, _, _⟩ := hr S' henv hheap hlook
  exact ⟨fuel', S1', ops, ht, hh, by rw [e, e, hg], by rw [e, e, hg']⟩

/-- C63, id by id: where the two graphs agreed they agree afterwards. -/
theorem C63_same_afterwards [LawfulSig σ] (S S' S1 : Schema σ) (hS : S.graph.Reachable) (hS' : S'.graph.Reachable)
    (fuel : Nat) (pre : List (Operation σ.K σ.T))
    (body : Prog σ) (out : Out (Except Error σ.V)) (henv : S'.env = S.env) (hheap : S'.heap = S.heap)
    (hlook : ∀ i, LooksUp S pre body i → S'.guard.get i = S.guard.get i)
    (h : S.transact fuel pre body = some (out, S1)) (hne : out ≠ .stuck) :
    ∃ fuel' S1', S'.transact fuel' pre body = some (out, S1') ∧
      ∀ q, S'.guard.get q = S.guard.get q → S1'.guard.get q = S1.guard.get q := by
  have e : ∀ S : Schema σ, S.guard = S.graph := fun S => by unfold Schema.guard; split <;> rfl
  obtain ⟨fuel', S1', ops, ht, _, hg, hg'⟩ :=
    C63_reads_only_what_it_looks_up S S' S1 fuel pre body out henv hheap hlook h hne
  refine ⟨fuel', S1', ht, fun q hq => ?_⟩
  rw [hg, hg', get_commit S'.guard ((e S').symm ▸ hS'.valid), get_commit S.guard ((e S).symm ▸ hS.valid)]
  exact applyAll_local _ _ _ _ hq

/-- Looks up 1, and saves 7 with what it finds. -/
def copyOne : Prog demo := .get 0 (1 : Nat) fun
  | some d => .save 0 ⟨7, d.body⟩ (.done (.ok ()))
  | none => .done (.error (.msg "none"))

def otherSchema : Schema demo := Schema.fromGraph (Graph.fromIter [⟨1, 10⟩, ⟨2, 99⟩, ⟨5, 50⟩])

example : demoSchema.calls [] copyOne 10 = ([1], [.save ⟨7, 10⟩]) := by decide +kernel
example : ∀ i, LooksUp demoSchema [] copyOne i → otherSchema.guard.get i = demoSchema.guard.get i := by
  intro i hi
  have := looksUp_calls (n := 10) (by decide +kernel) hi
  rw [show (demoSchema.calls [] copyOne 10).1 = [1] by decide +kernel] at this
  rw [List.mem_singleton.1 this]; decide +kernel
example : (demoSchema.transact 10 [] copyOne).map (fun r => (r.1, r.2.graph.iter)) =
      some (.ret (.ok ()), [⟨1, 10⟩, ⟨2, 20⟩, ⟨7, 10⟩]) ∧
    (otherSchema.transact 10 [] copyOne).map (fun r => (r.1, r.2.graph.iter)) =
      some (.ret (.ok ()), [⟨1, 10⟩, ⟨2, 99⟩, ⟨5, 50⟩, ⟨7, 10⟩]) := by decide +kernel

/-! ## C64 -/

/-- C64: if a transaction changes what an id reads as, then it, or what happened on its `Background` before, or a trigger
it ran, saved a node under that id or deleted it. -/
theorem C64_changes_only_what_it_writes [LawfulSig σ] (S S1 : Schema σ) (hS : S.graph.Reachable) (fuel : Nat)
    (pre : List (Operation σ.K σ.T)) (body : Prog σ) (out : Out (Except Error σ.V))
    (h : S.transact fuel pre body = some (out, S1)) (q : σ.K) (hq : S1.guard.get q ≠ S.guard.get q) :
    Writes S pre body q := by
  have e : ∀ S : Schema σ, S.guard = S.graph := fun S => by unfold Schema.guard; split <;> rfl
  by_cases hne : out = .stuck
  · obtain ⟨_, _, _, _, _, hfail⟩ := transact_some h
    rw [e, e, hfail (by rw [hne]; intro v hv; cases hv)] at hq
    exact (hq rfl).elim
  · obtain ⟨ops, hops, hg, _, _, _⟩ := transact_on h hne
    rw [e, e, hg, get_commit _ hS.valid] at hq
    by_cases hex : ∃ op ∈ ops, (op.id == q) = true
    · obtain ⟨op, hm, hid⟩ := hex
      exact ⟨op, hops op hm, hid⟩
    · refine (hq (applyAll_untouched _ _ _ fun op hm => ?_)).elim
      cases hb : (op.id == q) with
      | false => rfl
      | true => exact (hex ⟨op, hm, hb⟩).elim

/-- C64: and what a node it changed reads as is the node it saved last under that id, or nothing. -/
theorem C64_to_what_it_wrote [LawfulSig σ] (S S1 : Schema σ) (hS : S.graph.Reachable) (fuel : Nat)
    (pre : List (Operation σ.K σ.T)) (body : Prog σ) (out : Out (Except Error σ.V))
    (h : S.transact fuel pre body = some (out, S1)) (q : σ.K) (n : σ.T) (hn : S1.guard.get q = some n) :
    S.guard.get q = some n ∨ (.save n ∈ pre ∨ Issues S pre body (.save n)) ∧ (id n == q) = true := by
  have e : ∀ S : Schema σ, S.guard = S.graph := fun S => by unfold Schema.guard; split <;> rfl
  by_cases hne : out = .stuck
  · obtain ⟨_, _, _, _, _, hfail⟩ := transact_some h
    rw [e, hfail (by rw [hne]; intro v hv; cases hv)] at hn
    exact .inl (by rw [e]; exact hn)
  · obtain ⟨ops, hops, hg, _, _, _⟩ := transact_on h hne
    rw [e, hg, get_commit _ hS.valid, applyAll_find] at hn
    split at hn
    · rename_i m hf
      cases hn
      have hm := List.mem_reverse.1 (List.mem_of_find?_eq_some hf)
      have hid := List.find?_some hf
      exact .inr ⟨hops _ hm, hid⟩
    · cases hn
    · exact .inl (by rw [e]; exact hn)

example : (demoSchema.transact 10 [] (.tx 0 (.delete 0 1 (.done (.ok ()))) fun _ => copyOne)).map (fun r => (r.1, r.2.graph.iter)) =
    some (.ret (.error (.msg "none")), [⟨1, 10⟩, ⟨2, 20⟩]) := by decide +kernel
example : Writes demoSchema [] copyOne 7 ∧ ¬ Writes demoSchema [] copyOne 1 := by
  constructor
  · refine ⟨.save ⟨7, 10⟩, .inr ⟨0, .done (.ok ()), [0], [], demoSchema.begin [], .head ?_ (.refl _)⟩, by decide⟩
    have h : ctxGet (demoSchema.begin []).graph (demoSchema.begin []).frames 0 1 = some ⟨1, 10⟩ := by decide +kernel
    show some (Conf.mk (Control.run [0] _) [] (demoSchema.begin [])) = _
    rw [h]
  · intro h
    obtain ⟨op, ho, hq⟩ := writes_calls (n := 10) (by decide +kernel) h
    rw [show (demoSchema.calls [] copyOne 10).2 = [.save ⟨7, 10⟩] by decide +kernel] at ho
    rw [List.mem_singleton.1 ho] at hq
    exact absurd hq (by decide)

/-! ## C65 -/

/-- C65: two transactions that write to different ids and neither of which looks up what the other writes return the same
whichever goes first, and leave the same schema. -/
theorem C65_disjoint_transactions_commute [LawfulSig σ] (S SA SB : Schema σ) (hS : S.graph.Reachable)
    (fuelA fuelB : Nat) (preA preB : List (Operation σ.K σ.T)) (A B : Prog σ) (outA outB : Out (Except Error σ.V))
    (hA : S.transact fuelA preA A = some (outA, SA)) (hB : S.transact fuelB preB B = some (outB, SB))
    (hneA : outA ≠ .stuck) (hneB : outB ≠ .stuck) (hhA : SA.heap = S.heap) (hhB : SB.heap = S.heap)
    (hww : ∀ q, ¬ (Writes S preA A q ∧ Writes S preB B q))
    (hwr : ∀ q, ¬ (Writes S preA A q ∧ LooksUp S preB B q))
    (hrw : ∀ q, ¬ (LooksUp S preA A q ∧ Writes S preB B q)) :
    ∃ fuel SAB SBA, SA.transact fuel preB B = some (outB, SAB) ∧ SB.transact fuel preA A = some (outA, SBA) ∧
      (∀ q, SAB.guard.get q = SBA.guard.get q) ∧ SAB.guard.iter = SBA.guard.iter ∧ SAB.heap = SBA.heap ∧
      SAB.poisoned = SBA.poisoned ∧ SAB.env = SBA.env := by
  have e : ∀ S : Schema σ, S.guard = S.graph := fun S => by unfold Schema.guard; split <;> rfl
  obtain ⟨opsA, hopsA, hgA, heA, hpA, hrA⟩ := transact_on hA hneA
  obtain ⟨opsB, hopsB, hgB, heB, hpB, hrB⟩ := transact_on hB hneB
  obtain ⟨f1, SAB, h1, hg1, hh1, he1, hp1⟩ := hrB SA heA hhA fun i hi => by
    by_cases hc : SA.guard.get i = S.guard.get i
    · exact hc
    · exact (hwr i ⟨C64_changes_only_what_it_writes S SA hS fuelA preA A outA hA i hc, hi⟩).elim
  obtain ⟨f2, SBA, h2, hg2, hh2, he2, hp2⟩ := hrA SB heB hhB fun i hi => by
    by_cases hc : SB.guard.get i = S.guard.get i
    · exact hc
    · exact (hrw i ⟨hi, C64_changes_only_what_it_writes S SB hS fuelB preB B outB hB i hc⟩).elim
  have hget : ∀ q, SAB.graph.get q = SBA.graph.get q := by
    intro q
    rw [hg1, hg2, get_commit _ (hgA ▸ valid_commit _ hS.valid _), get_commit _ (hgB ▸ valid_commit _ hS.valid _), hgA, hgB,
      get_commit _ hS.valid, get_commit _ hS.valid]
    by_cases hex : ∃ op ∈ opsA, (op.id == q) = true
    · obtain ⟨op, hm, hid⟩ := hex
      have hno : ∀ o ∈ opsB, (o.id == q) = false := by
        intro o ho
        cases hb : (o.id == q) with
        | false => rfl
        | true => exact (hww q ⟨⟨op, hopsA op hm, hid⟩, ⟨o, hopsB o ho, hb⟩⟩).elim
      rw [applyAll_untouched _ opsB _ hno]
      exact applyAll_local _ _ _ _ (applyAll_untouched _ opsB _ hno).symm
    · have hno : ∀ o ∈ opsA, (o.id == q) = false := by
        intro o ho
        cases hb : (o.id == q) with
        | false => rfl
        | true => exact (hex ⟨o, ho, hb⟩).elim
      rw [applyAll_untouched _ opsA q hno]
      exact applyAll_local _ _ _ _ (applyAll_untouched _ opsA _ hno)
  have hv1 : SAB.graph.Valid := by rw [hg1, hgA]; exact valid_commit _ (valid_commit _ hS.valid _) _
  have hv2 : SBA.graph.Valid := by rw [hg2, hgB]; exact valid_commit _ (valid_commit _ hS.valid _) _
  refine ⟨max f1 f2, SAB, SBA, transact_mono_le _ (Nat.le_max_left ..) h1, transact_mono_le _ (Nat.le_max_right ..) h2,
    by rw [e, e]; exact hget, by rw [e, e]; exact iter_ext hv1 hv2 hget, ?_, ?_, he1.trans he2.symm⟩
  · rw [hh1, hh2, hhA, hhB]
  · rw [Bool.eq_iff_iff, hp1, hp2, hpA, hpB]
    constructor <;> rintro ((h | h) | h) <;> simp [h]

/-- Deletes 2 if it is there, panics otherwise. -/
def dropTwo : Prog demo := .contains 0 (2 : Nat) fun
  | true => .delete 0 (2 : Nat) (.done (.ok ()))
  | false => .panic

example : ∀ q, ¬ (Writes demoSchema [] copyOne q ∧ LooksUp demoSchema [] dropTwo q) := by
  rintro q ⟨hw, hl⟩
  obtain ⟨op, ho, hq⟩ := writes_calls (n := 10) (by decide +kernel) hw
  have hl := looksUp_calls (n := 10) (by decide +kernel) hl
  rw [show (demoSchema.calls [] copyOne 10).2 = [.save ⟨7, 10⟩] by decide +kernel] at ho
  rw [show (demoSchema.calls [] dropTwo 10).1 = [2] by decide +kernel] at hl
  rw [List.mem_singleton.1 ho, List.mem_singleton.1 hl] at hq
  exact absurd hq (by decide)
/-- The condition matters: these two write to different ids, but the first looks up what the second deletes. -/
example : ((demoSchema.transact 10 [] copyOne).bind fun r => r.2.transact 10 [] (.delete 0 (1 : Nat) (.done (.ok ())))).map
      (fun r => r.2.graph.iter) = some [⟨2, 20⟩, ⟨7, 10⟩] ∧
    ((demoSchema.transact 10 [] (.delete 0 (1 : Nat) (.done (.ok ())))).bind fun r => r.2.transact 10 [] copyOne).map
      (fun r => r.2.graph.iter) = some [⟨2, 20⟩] := by decide +kernel
example : ((demoSchema.transact 10 [] copyOne).bind fun r => r.2.transact 10 [] dropTwo).map
      (fun r => (r.1, r.2.graph.iter)) = some (.ret (.ok ()), [⟨1, 10⟩, ⟨7, 10⟩]) ∧
    ((demoSchema.transact 10 [] dropTwo).bind fun r => r.2.transact 10 [] copyOne).map
      (fun r => (r.1, r.2.graph.iter)) = some (.ret (.ok ()), [⟨1, 10⟩, ⟨7, 10⟩]) := by decide +kernel

/-! ## C66 -/

section
variable {K T : Type} [Ord K] [TransOrd K] [BEq K] [LawfulBEqOrd K] [Identify T K]

/-- C66: two graphs that give the same answers to lookups are iterated the same, however each came about. -/
theorem C66_lookups_determine_iteration (g g' : Graph K T) (hg : g.Reachable) (hg' : g'.Reachable)
    (h : ∀ q, g.get q = g'.get q) : g.iter = g'.iter := iter_ext hg.valid hg'.valid h

/-- C66: and the other way round: graphs that are iterated the same give the same answers to lookups. -/
theorem C66_iteration_determines_lookups (g g' : Graph K T) (hg : g.Reachable) (hg' : g'.Reachable)
    (h : g.iter = g'.iter) (q : K) : g.get q = g'.get q := by
  have key : ∀ (a b : Graph K T), a.Reachable → b.Reachable → a.iter = b.iter → ∀ n, a.get q = some n → b.get q = some n := by
    intro a b ha hb hab n hn
    have hid := Graph.get_some_id a ha.valid hn
    have hm : n ∈ b.iter := hab ▸ (C03_exact a ha n).2 ⟨q, hn⟩
    rw [Graph.mem_iter b hb.valid] at hm
    rw [← hm]; exact Graph.get_congr b hid
  cases hn : g.get q with
  | some n => exact (key g g' hg hg' h n hn).symm
  | none =>
    cases hn' : g'.get q with
    | none => rfl
    | some n => rw [key g' g hg' hg h.symm n hn'] at hn; cases hn

/-- C66: rebuilding a graph from the nodes it is iterated over, in whatever order, gives a graph that cannot be told
apart from it. -/
theorem C66_rebuild (g : Graph K T) (hg : g.Reachable) (l : List T) (hl : l.Perm g.iter) :
    (Graph.fromIter l).iter = g.iter ∧ ∀ q, (Graph.fromIter l).get q = g.get q := by
  have hget : ∀ q, (Graph.fromIter l : Graph K T).get q = g.get q := by
    intro q
    rw [C04_last_wins]
    cases hf : l.reverse.find? (fun n => q == id n) with
    | some m =>
      have hm := hl.mem_iff.1 (List.mem_reverse.1 (List.mem_of_find?_eq_some hf))
      have hid := List.find?_some hf
      rw [Graph.mem_iter g hg.valid] at hm
      rw [← hm]; exact Graph.get_congr g (BEq.symm hid)
    | none =>
      cases hn : g.get q with
      | none => rfl
      | some n =>
        have hm := hl.mem_iff.2 ((C03_exact g hg n).2 ⟨q, hn⟩)
        have hid := Graph.get_some_id g hg.valid hn
        exact (List.find?_eq_none.1 hf n (List.mem_reverse.2 hm) hid).elim
  exact ⟨C66_lookups_determine_iteration _ _ (.fromIter l) hg hget, hget⟩

example : (Graph.after [.remove 3, .insert (⟨2, 9⟩ : Doc), .insert ⟨3, 0⟩, .insert ⟨1, 0⟩, .insert ⟨2, 0⟩]).iter =
    (Graph.fromIter [⟨2, 9⟩, (⟨1, 0⟩ : Doc)]).iter := by decide

end

/-! ## C16, exactly -/

/-- C16, for every closure and every trigger: when `tx.with` returns `Ok`, the graph is the old one with every operation
registered in the transaction's context applied in order, unless the closure forgot the context it was handed, and in that case
the graph is the old one. Missing from C16: the operations in that case. -/
theorem C16_ok_means_applied_or_forgotten_partial (S S' : Schema σ) (fuel : Nat) (pre : List (Operation σ.K σ.T)) (body : Prog σ)
    (v : σ.V) (h : S.transact fuel pre body = some (.ret (.ok v), S')) :
    ∃ s ops, eval S.env fuel [0] body (S.begin pre) = some (.ret (.ok v), s) ∧ Pending s.frames 0 ops ∧ pre <+: ops ∧
      (¬ Forgets S pre body → S'.graph = S.graph.commit ops) ∧ (Forgets S pre body → S'.graph = S.graph) := by
  obtain ⟨s, he, _, _, hok, _⟩ := transact_some h
  obtain ⟨hgr, fr, hfr, hpar, hpre⟩ := root_after he
  have hf0 : s.frames[0]? = some fr := by rw [hfr]; rfl
  have hl : s.rootLeaked = fr.leaked := by simp [St.rootLeaked, hf0]
  have hiff := forgets_iff he (by simp)
  rw [hl] at hiff
  refine ⟨s, fr.ops, he, .root hf0 hpar, hpre, ?_, ?_⟩ <;> intro hF <;> rw [hok ⟨v, rfl⟩]
  · have : fr.leaked = false := by cases hx : fr.leaked with
      | false => rfl
      | true => exact (hF (hiff.1 hx)).elim
    simp [commitRoot, hf0, this, hgr]
  · simp [commitRoot, hf0, hiff.2 hF, hgr]

/-- C18, with operations registered before the closure runs: if neither the closure nor any trigger saves or deletes, those are
what is applied, if the closure returns `Ok` without forgetting its context; else the graph is identical. -/
theorem C18_registered_before (S S' : Schema σ) (fuel : Nat) (pre : List (Operation σ.K σ.T)) (body : Prog σ)
    (out : Out (Except Error σ.V)) (hbody : body.Every Prog.Quiet) (htr : S.env.Every Prog.Quiet)
    (h : S.transact fuel pre body = some (out, S')) :
    (((∃ v, out = .ret (.ok v)) ∧ ¬ Forgets S pre body) → S'.guard = S.guard.commit pre) ∧
    (¬ ((∃ v, out = .ret (.ok v)) ∧ ¬ Forgets S pre body) → S'.guard = S.guard) := by
  have e : ∀ S : Schema σ, S.guard = S.graph := fun S => by unfold Schema.guard; split <;> rfl
  rw [e, e]
  by_cases hv : ∃ v, out = .ret (.ok v)
  · obtain ⟨v, rfl⟩ := hv
    obtain ⟨s, ops, he, hp, _, h1, h2⟩ := C16_ok_means_applied_or_forgotten_partial S S' fuel pre body v h
    obtain ⟨_, fr, hfr, hpar, _⟩ := root_after he
    have hf0 : s.frames[0]? = some fr := by rw [hfr]; rfl
    have hq := eval_quiet htr hbody (begin_env S pre) he 0 (by simp [Schema.begin])
    rw [hf0] at hq
    have hops : fr.ops = pre := by simpa [Schema.begin] using hq
    have hops' : ops = pre := by
      cases hp with
      | root hf _ => rw [hf0] at hf; cases hf; exact hops
      | child hf hpar' _ => rw [hf0] at hf; cases hf; rw [hpar] at hpar'; cases hpar'
    rw [hops'] at h1
    refine ⟨fun h => h1 h.2, fun h => h2 ?_⟩
    exact Classical.byContradiction fun hF => h ⟨⟨v, rfl⟩, hF⟩
  · obtain ⟨s, he, _, _, _, hfail⟩ := transact_some h
    exact ⟨fun h => (hv h.1).elim, fun _ => hfail fun v hv' => hv ⟨v, hv'⟩⟩

example : (demoSchema.transact 20 [.delete 1] (.get 0 1 fun | some _ => .panic | none => .done (.ok ()))).map (fun r => (r.1, r.2.graph.iter)) =
    some (.ret (.ok ()), [⟨2, 20⟩]) := by decide +kernel

example : Forgets demoSchema [] (.save 0 ⟨7, 70⟩ (.forget (.done (.ok ())))) :=
  ⟨[], _, _, _, .head rfl (.refl _)⟩
-- the closure of a subtransaction may forget its context, and its caller may still have it applied all the same
example : (demoSchema.transact 10 [] (.save 0 ⟨7, 70⟩ (.tx 0 (.save 0 ⟨8, 80⟩ (.forget (.done (.ok ())))) fun r => .done r))).map
    (fun r => (r.1, r.2.graph.iter)) = some (.ret (.ok ()), [⟨1, 10⟩, ⟨2, 20⟩, ⟨7, 70⟩]) := by decide +kernel

end Plotline
