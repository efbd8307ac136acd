import Verif.Lemmas.Component
import Verif.Props.Private

/-! # C93: programs cannot break the invariants of components

A component keeps an invariant of its own resources if its triggers restore it, in groups of triggers registered right after one
another. `Avoids` describes the programs that leave those resources alone. -/

namespace Plotline

open Std

set_option linter.unusedSectionVars false

variable {σ : Sig} {H : σ.Ty → Prop} {P : Readings σ → Prop}

theorem Grouped.snoc {l : List (Prog σ)} (h : Grouped H P l) {p : Prog σ} (hp : p.Avoids H) : Grouped H P (l ++ [p]) := by
  induction h with
  | nil => exact .other hp .nil
  | other h1 _ ih => exact .other h1 ih
  | own h1 h2 _ ih => rw [List.append_assoc]; exact .own h1 h2 ih

theorem Grouped.append {l l' : List (Prog σ)} (h : Grouped H P l) (h' : Grouped H P l') : Grouped H P (l ++ l') := by
  induction h with
  | nil => exact h'
  | other h1 _ ih => exact .other h1 ih
  | own h1 h2 _ ih => rw [List.append_assoc]; exact .own h1 h2 ih

theorem Grouped.avoiding {l : List (Prog σ)} (h : ∀ p ∈ l, p.Avoids H) : Grouped H P l := by
  induction l with
  | nil => exact .nil
  | cons p l ih => exact .other (h p List.mem_cons_self) (ih fun q hq => h q (List.mem_cons_of_mem _ hq))

/-- C93: a transaction whose body leaves the resources of a component alone, and that comes to an end, does not break the
invariant of the component, however it ends: also if its closure returns an error or panics, and whatever nested transactions,
triggers, resources and panics there are in it. -/
theorem C93_transaction [LawfulSig σ] (hP : OnlyOf H P) (S S1 : Schema σ) (hS : S.Used) (hf : ∀ s, Grouped H P (S.env.fire s))
    (hi : P S.readings) (fuel : Nat) (pre : List (Operation σ.K σ.T)) (body : Prog σ) (hb : body.Avoids H)
    (out : Out (Except Error σ.V)) (hne : out ≠ .stuck) (h : S.transact fuel pre body = some (out, S1)) : P S1.readings := by
  have hs := used_sane hS
  obtain ⟨s, he, h1, h2, _⟩ := transact_some h
  have := eval_intact hs.own hP hf fuel [0] body (S.begin pre) s out hb
    ⟨fun x hx => (by cases hx), hs.inHeap, hi⟩ he hne
  have e : S1.readings = s.readings S.env := by unfold Schema.readings St.readings; rw [h1, h2]
  rw [e]
  exact this.holds

/-- C93: the same of every course of uses of a schema that leaves the resources of the component alone. -/
theorem C93_session [LawfulSig σ] (hP : OnlyOf H P) (S S1 : Schema σ) (hS : S.Used) (hf : ∀ s, Grouped H P (S.env.fire s))
    (hi : P S.readings) (l : List (Use σ × Seen σ)) (hl : ∀ x ∈ l, x.1.Avoids H) (h : Session S l S1) :
    P S1.readings ∧ ∀ s, Grouped H P (S1.env.fire s) := by
  induction h with
  | nil => exact ⟨hi, hf⟩
  | @cons S S2 S3 u a l h1 _ ih =>
    have hs := used_sane hS
    have hu := hl _ List.mem_cons_self
    have hl' := fun x hx => hl x (List.mem_cons_of_mem _ hx)
    have hS2 : S2.Used := Session.used hS (.cons h1 (.nil _))
    cases h1 with
    | register t v =>
      refine ih hS2 hf (hP _ _ (fun w hw => ?_) hi) hl'
      unfold Schema.readings
      rw [peek_withResource hs, dif_neg (fun e : w = t => hu (by rw [← e]; exact hw))]
    | trigger s p =>
      refine ih hS2 (fun s' => ?_) hi hl'
      rw [fire_withTrigger hs]
      split
      · exact (hf s').snoc hu
      · exact hf s'
    | tx ht hne =>
      refine ih hS2 ?_ (C93_transaction hP S S2 hS hf hi _ _ _ hu _ hne ht) hl'
      obtain ⟨_, _, h1, _⟩ := transact_some ht
      rw [h1]; exact hf
    | update op => exact ih hS2 hf hi hl'
    | get i => exact ih hS2 hf hi hl'
    | iter => exact ih hS2 hf hi hl'
    | read t => exact ih hS2 hf hi hl'
    | write t f =>
      refine ih hS2 hf (hP _ _ (fun w hw => ?_) hi) hl'
      have e : t ≠ w := fun e => hu (by rw [e]; exact hw)
      show (S.env.resources.res w).peek _ = (S.env.resources.res w).peek S.heap
      rw [withMut_peek]
      cases hx : (S.env.resources.res t).peek S.heap with
      | none => rfl
      | some v =>
        obtain ⟨p, hq⟩ := peek_lock hx
        simp only [hq]
        split <;> exact peek_cell_other _ _ (fun hq' => e (hs.own _ _ _ hq hq')) _

/-! ## The index of the interval plugin and a journal -/

section
variable {K T I B : Type} {V : Nat → Type} [Ord K] [BEq K] [Identify T K] [Ord B] [BEq I] [Interval I B]

/-- The values of the resources beside the plugin's: the first one is a journal of what was done to an index. -/
abbrev Noted (K I : Type) (V : Nat → Type) : Nat → Type
  | 0 => List (IEvent (NodeInterval K I))
  | n + 1 => V n

/-- A trigger that writes down the intervals of its target. -/
def note (extract : T → List I) (ev : NodeInterval K I → IEvent (NodeInterval K I)) : Prog (PSigOf K T I B (Noted K I V)) :=
  .targetRead 0 fun
    | none => .done (.ok ())
    | some n => .resWrite (.other 0) (fun es => (es ++ (intervalsOf extract [n]).map ev, false)) fun _ => .done (.ok ())

/-- The plugin, installed where its index exists, and right after it a journal of its own kind. -/
def journaled (fuel : Nat) (extract : T → List I) (S : Schema (PSigOf K T I B (Noted K I V))) :
    Schema (PSigOf K T I B (Noted K I V)) :=
  (((install true fuel extract S).withResource (.other 0) []).withTrigger .afterSave (note extract .insert)).withTrigger
    .afterDelete (note extract .delete)

/-- The resource types of the two. -/
def OfIndex (t : PTy) : Prop := t = .extractor ∨ t = .treeOfId ∨ t = .other 0

/-- The index is what the events in the journal make of the empty tree. -/
def Replays (extract : T → List I) (m : Readings (PSigOf K T I B (Noted K I V))) : Prop :=
  m .extractor = some extract ∧ ∃ (t : ITree (NodeInterval K I) B) (es : List (IEvent (NodeInterval K I))),
    m .treeOfId = some t ∧ m (.other 0) = some es ∧ Built es t

theorem replays_only (extract : T → List I) : OnlyOf (σ := PSigOf K T I B (Noted K I V)) OfIndex (Replays extract) := by
  rintro m m' h ⟨h1, t, es, h2, h3, h4⟩
  exact ⟨(h _ (.inl rfl)).trans h1, t, es, (h _ (.inr (.inl rfl))).trans h2, (h _ (.inr (.inr rfl))).trans h3, h4⟩

theorem note_confined (extract : T → List I) (ev : NodeInterval K I → IEvent (NodeInterval K I)) :
    Confined (σ := PSigOf K T I B (Noted K I V)) OfIndex (note extract ev) := by
  refine .target fun a => ?_
  cases a with
  | none => exact .done _
  | some n => exact .write (.inr (.inr rfl)) fun _ => .done _

theorem onSave_confined : Confined (σ := PSigOf K T I B (Noted K I V)) OfIndex onSave := by
  refine .target fun a => ?_
  cases a with
  | none => exact .done _
  | some n =>
    refine .read (.inl rfl) fun x => ?_
    cases x with
    | none => exact .done _
    | some f => exact .write (.inr (.inl rfl)) fun _ => .done _

theorem onDelete_confined (fuel : Nat) : Confined (σ := PSigOf K T I B (Noted K I V)) OfIndex (onDelete fuel) := by
  refine .target fun a => ?_
  cases a with
  | none => exact .done _
  | some n =>
    refine .read (.inl rfl) fun x => ?_
    cases x with
    | none => exact .done _
    | some f =>
      refine .read (.inr (.inl rfl)) fun x => ?_
      cases x with
      | none => exact .done _
      | some t =>
        simp only
        split
        · exact .reenter
        · exact .write (.inr (.inl rfl)) fun _ => .done _

theorem save_restores (extract : T → List I) :
    Restores (σ := PSigOf K T I B (Noted K I V)) (Replays extract) [onSave, note extract .insert] := by
  rintro look has target m ⟨h1, t, es, h2, h3, h4⟩ _
  cases target with
  | none => exact ⟨h1, t, es, h2, h3, h4⟩
  | some n =>
    simp only [actsAll, onSave, withIntervals, note, Prog.acts, h1, h2, Bool.false_eq_true, if_false]
    rw [put_other _ (by intro e; cases e), h3]
    simp only
    refine ⟨?_, insertEach (nodeIntervals extract n) t, es ++ (intervalsOf extract [n]).map .insert, ?_, put_self _ _, ?_⟩
    · rw [put_other _ (by intro e; cases e), put_other _ (by intro e; cases e)]; exact h1
    · rw [put_other _ (by intro e; cases e), put_self]
    · have := insertEach_built h4 (nodeIntervals extract n)
      simpa [intervalsOf, nodeIntervals] using this

theorem delete_restores (fuel : Nat) (extract : T → List I) :
    Restores (σ := PSigOf K T I B (Noted K I V)) (Replays extract) [onDelete fuel, note extract .delete] := by
  rintro look has target m ⟨h1, t, es, h2, h3, h4⟩ hne
  cases target with
  | none => exact ⟨h1, t, es, h2, h3, h4⟩
  | some n =>
    simp only [actsAll, onDelete, withIntervals, note, Prog.acts, h1, h2] at hne ⊢
    cases hd : deleteEach fuel (nodeIntervals extract n) t with
    | none => simp only [hd, Prog.acts] at hne; exact absurd rfl hne
    | some t' =>
      simp only [Prog.acts, h2, Bool.false_eq_true, if_false]
      rw [put_other _ (by intro e; cases e), h3]
      simp only
      refine ⟨?_, t', es ++ (intervalsOf extract [n]).map .delete, ?_, put_self _ _, ?_⟩
      · rw [put_other _ (by intro e; cases e), put_other _ (by intro e; cases e)]; exact h1
      · rw [put_other _ (by intro e; cases e), put_self]
      · have := deleteEach_built h4 fuel (nodeIntervals extract n) hd
        simpa [intervalsOf, nodeIntervals] using this

variable [TransOrd K] [LawfulBEqOrd K]

theorem journaled_session (fuel : Nat) (extract : T → List I) (S : Schema (PSigOf K T I B (Noted K I V))) :
    ∃ l, Session S l (journaled fuel extract S) :=
  ⟨[_, _, _, _, _, _, _], .cons (.register ..) (.cons (.register ..) (.cons (.trigger ..) (.cons (.trigger ..) (.cons (.register ..)
    (.cons (.trigger ..) (.cons (.trigger ..) (.nil _)))))))⟩

theorem install_index (fuel : Nat) (extract : T → List I) (S : Schema (PSigOf K T I B (Noted K I V))) (hS : S.Used) :
    Replays extract (journaled fuel extract S).readings := by
  have h0 := used_sane hS
  have h1 := sane_withResource h0 PTy.extractor extract
  have h2 := sane_withResource h1 PTy.treeOfId (ITree.nil : ITree (NodeInterval K I) B)
  have e : (journaled fuel extract S).readings =
      (((S.withResource PTy.extractor extract).withResource PTy.treeOfId (ITree.nil : ITree (NodeInterval K I) B)).withResource
        (PTy.other 0) ([] : List (IEvent (NodeInterval K I)))).readings := rfl
  rw [e]
  refine ⟨?_, .nil, [], ?_, ?_, .empty⟩
  · unfold Schema.readings
    rw [peek_withResource h2, dif_neg (by intro e; cases e), peek_withResource h1, dif_neg (by intro e; cases e),
      peek_withResource h0, dif_pos rfl]
  · unfold Schema.readings
    rw [peek_withResource h2, dif_neg (by intro e; cases e), peek_withResource h1, dif_pos rfl]
  · unfold Schema.readings
    rw [peek_withResource h2, dif_pos rfl]

theorem journaled_fire (fuel : Nat) (extract : T → List I) (S : Schema (PSigOf K T I B (Noted K I V))) (hS : S.Used) (s : Sched) :
    (journaled fuel extract S).env.fire s =
      if s = .afterSave then S.env.fire s ++ [onSave, note extract .insert]
      else if s = .afterDelete then S.env.fire s ++ [onDelete fuel, note extract .delete] else S.env.fire s := by
  have h0 := used_sane hS
  have h2 := sane_withResource (sane_withResource h0 PTy.extractor extract) PTy.treeOfId (ITree.nil : ITree (NodeInterval K I) B)
  have h3 := sane_gives h2 (.trigger _ .afterSave onSave)
  have h4 := sane_gives h3 (.trigger _ .afterDelete (onDelete fuel))
  have h5 := sane_withResource h4 (PTy.other 0) ([] : List (IEvent (NodeInterval K I)))
  have h6 := sane_gives h5 (.trigger _ .afterSave (note extract .insert))
  have e4 := fire_withTrigger h6 .afterDelete s (note extract .delete)
  have e3 := fire_withTrigger h5 .afterSave s (note extract .insert)
  have e2 := fire_withTrigger h3 .afterDelete s (onDelete fuel)
  have e1 := fire_withTrigger h2 .afterSave s (onSave (K := K) (T := T) (I := I) (B := B) (W := Noted K I V))
  have e0 : (((S.withResource PTy.extractor extract).withResource PTy.treeOfId (ITree.nil : ITree (NodeInterval K I) B))).env.fire s =
      S.env.fire s := rfl
  have e5 : ∀ S' : Schema (PSigOf K T I B (Noted K I V)), (S'.withResource (PTy.other 0) ([] : List (IEvent (NodeInterval K I)))).env.fire s =
      S'.env.fire s := fun _ => rfl
  refine e4.trans ?_
  rw [e3, e5, e2, e1, e0]
  cases s <;> simp

/-- C93: install the plugin, for a node type that is its own id type, on any schema in use, and beside it a journal that writes
down the intervals of what is saved and deleted. After any course of uses that leaves the two alone and comes to its end, the
index is exactly what the events in the journal make of the empty tree, in their order: whatever transactions there were, nested
or not, committed, failed or panicked, and whatever other triggers and resources. -/
theorem C93_index (fuel : Nat) (extract : T → List I) (S S1 : Schema (PSigOf K T I B (Noted K I V))) (hS : S.Used)
    (ht : ∀ s, ∀ p ∈ S.env.fire s, p.Avoids OfIndex)
    (l : List (Use (PSigOf K T I B (Noted K I V)) × Seen (PSigOf K T I B (Noted K I V)))) (hl : ∀ x ∈ l, x.1.Avoids OfIndex)
    (h : Session (journaled fuel extract S) l S1) :
    ∃ (t : ITree (NodeInterval K I) B) (es : List (IEvent (NodeInterval K I))),
      S1.readings .treeOfId = some t ∧ S1.readings (.other 0) = some es ∧ Built es t := by
  obtain ⟨l0, h0⟩ := journaled_session fuel extract S
  refine (C93_session (replays_only extract) _ S1 (Session.used hS h0) (fun s => ?_) (install_index fuel extract S hS) l hl h).1.2
  have hg : Grouped OfIndex (Replays extract) (S.env.fire s) := .avoiding (ht s)
  rw [journaled_fire fuel extract S hS]
  split
  · refine hg.append ?_
    rw [← List.append_nil [onSave, note extract .insert]]
    refine .own (fun p hp => ?_) (save_restores extract) .nil
    simp only [List.mem_cons, List.not_mem_nil, or_false] at hp
    rcases hp with rfl | rfl
    · exact onSave_confined
    · exact note_confined _ _
  · split
    · refine hg.append ?_
      rw [← List.append_nil [onDelete fuel, note extract .delete]]
      refine .own (fun p hp => ?_) (delete_restores fuel extract) .nil
      simp only [List.mem_cons, List.not_mem_nil, or_false] at hp
      rcases hp with rfl | rfl
      · exact onDelete_confined fuel
      · exact note_confined _ _
    · exact hg

end

/-! ## Examples -/

/-- The resource types of a component that counts the saves twice. -/
def OfCounts (t : Nat) : Prop := t = 8 ∨ t = 9

/-- Its invariant: the counts agree. -/
def EqualCounts (m : Readings demo) : Prop := ∃ n : Nat, m 8 = some n ∧ m 9 = some n

/-- Its triggers: each counts in one of the resources. -/
def countIn (t : Nat) : Prog demo := .resWrite t (fun n => (n + 1, false)) fun _ => .done (.ok ())

theorem countIn_confined (t : Nat) (h : OfCounts t) : Confined (σ := demo) OfCounts (countIn t) := .write h fun _ => .done _

theorem twins_only : OnlyOf (σ := demo) OfCounts EqualCounts := by
  rintro m m' h ⟨n, h1, h2⟩
  exact ⟨n, (h 8 (.inl rfl)).trans h1, (h 9 (.inr rfl)).trans h2⟩

theorem twins_restored : Restores (σ := demo) EqualCounts [countIn 8, countIn 9] := by
  rintro look has target m ⟨n, h1, h2⟩ _
  have e1 : m 8 = some n := h1
  have e2 : m 9 = some n := h2
  simp only [actsAll, countIn, Prog.acts, e1, Bool.false_eq_true, if_false]
  rw [put_other _ (by decide), e2]
  simp only
  exact ⟨n + 1, by rw [put_other _ (by decide), put_self], by rw [put_self]⟩

/-- The second alone does not restore it, so the two have to be registered right after one another. -/
example : ¬ Restores (σ := demo) EqualCounts [countIn 8] := by
  intro h
  obtain ⟨n, h1, h2⟩ := h (fun _ => none) (fun _ => false) none (fun _ => some (0 : Nat)) ⟨0, rfl, rfl⟩ (fun e => by cases e)
  have e1 : some 1 = some n := h1
  have e2 : some 0 = some n := h2
  cases e1; cases e2

def twinned : Schema demo :=
  (((demoSchema.withResource 8 (0 : Nat)).withResource 9 (0 : Nat)).withTrigger .afterSave (countIn 8)).withTrigger .afterSave (countIn 9)

/-- `twinned` is a schema as in `C93_session`. -/
theorem twinned_grouped : twinned.Used ∧ EqualCounts twinned.readings ∧ ∀ s, Grouped (σ := demo) OfCounts EqualCounts (twinned.env.fire s) := by
  refine ⟨Session.used demo_used (.cons (.register ..) (.cons (.register ..) (.cons (.trigger ..) (.cons (.trigger ..) (.nil _))))),
    ⟨0, rfl, rfl⟩, fun s => ?_⟩
  cases s
  case afterSave =>
    refine Grouped.own (b := [countIn 8, countIn 9]) (l := []) (fun p hp => ?_) twins_restored .nil
    simp only [List.mem_cons, List.not_mem_nil, or_false] at hp
    rcases hp with rfl | rfl
    · exact countIn_confined _ (.inl rfl)
    · exact countIn_confined _ (.inr rfl)
  all_goals exact .nil

/-- What is left of the counts. -/
def countsOf (r : Out (Except Error Unit) × Schema demo) : Out (Except Error Unit) × List Doc × Option Nat × Option Nat :=
  (r.1, r.2.guard.iter, (r.2.env.resources.res 8).peek r.2.heap, (r.2.env.resources.res 9).peek r.2.heap)

/-- A body that saves, and then saves in a nested transaction that panics half way. -/
def halfway : Prog demo :=
  .saveOp 0 ⟨3, 30⟩ fun _ => .catchUnwind (.tx 0 (.saveOp 0 ⟨4, 40⟩ fun _ => .panic) fun _ => .done (.ok ())) fun _ => .done (.error .noop)

example : (twinned.transact 30 [] halfway).map countsOf =
    some (.ret (.error .noop), [⟨1, 10⟩, ⟨2, 20⟩], some 2, some 2) := by decide +kernel
/-- With a trigger that fails in between them, the counts come apart. -/
example : (((((demoSchema.withResource 8 (0 : Nat)).withResource 9 (0 : Nat)).withTrigger .afterSave (countIn 8)).withTrigger .afterSave
      (.done (.error .noop))).withTrigger .afterSave (countIn 9) |>.transact 30 [] (saveBody ⟨3, 30⟩)).map countsOf =
    some (.ret (.error .noop), [⟨1, 10⟩, ⟨2, 20⟩], some 1, some 0) := by decide +kernel

deriving instance DecidableEq for IEvent

/-- The plugin and its journal on a transaction that is given up: the graph is as before, index and journal agree. -/
def loggedLoose : Schema (PSigOf LooseId LooseId Span Nat (Noted LooseId Span fun _ => Nat)) :=
  journaled 20 looseSpans (Schema.fromGraph Graph.empty)

/-- What is left of the graph, of the index and of the journal. -/
def journalOf (r : Out (Except Error Unit) × Schema (PSigOf LooseId LooseId Span Nat (Noted LooseId Span fun _ => Nat))) :
    Out (Except Error Unit) × List LooseId × Option (List (NodeInterval LooseId Span)) × Option (List (IEvent (NodeInterval LooseId Span))) :=
  (r.1, r.2.guard.iter, ((r.2.env.resources.res .treeOfId).peek r.2.heap).map ITree.inorder,
    (r.2.env.resources.res (.other 0)).peek r.2.heap)

set_option synthInstance.maxSize 1000 in
example : (loggedLoose.transact 30 []
      (.saveOp 0 ⟨1, 5⟩ fun _ => .saveOp 0 ⟨2, 8⟩ fun _ => .deleteOp 0 ⟨1, 0⟩ fun _ => .done (.error .noop))).map journalOf =
    some (.ret (.error .noop), [], some [⟨⟨2, 8⟩, 8, 8⟩],
      some [.insert ⟨⟨1, 5⟩, 5, 5⟩, .insert ⟨⟨2, 8⟩, 8, 8⟩, .delete ⟨⟨1, 5⟩, 5, 5⟩]) := by decide +kernel

end Plotline
