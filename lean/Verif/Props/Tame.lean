import Verif.Lemmas.Wild
import Verif.Props.Private

/-! # C94: what the interval plugin can do to a program

Where the index exists, deleting from it may never return (`C51_hangs`). That is all a program can notice of the plugin. -/

namespace Plotline

open Std

set_option linter.unusedSectionVars false

section
variable {K T I B : Type} {W : Nat → Type} [Ord K] [BEq K] [Identify T K] [Ord B] [BEq I] [Interval I B]

/-- No resource type is known not to be registered. -/
def Unmade (_ : PTy) : Prop := False

/-- `onDelete`, if deletions that never return left the index as it is. -/
def onDeleteSoft (fuel : Nat) : Prog (PSigOf K T I B W) :=
  withIntervals fun
    | none => .done (.ok ())
    | some is => .resRead .treeOfId fun
      | none => .done (.ok ())
      | some t =>
        match deleteEach fuel is t with
        | none => .done (.ok ())
        | some t' => .resWrite .treeOfId (fun _ => (t', false)) fun _ => .done (.ok ())

theorem onDelete_softer (fuel : Nat) : Softer (σ := PSigOf K T I B W) (onDelete fuel) (onDeleteSoft fuel) := by
  refine .target fun a => ?_
  cases a with
  | none => exact .done _
  | some n =>
    refine .read fun x => ?_
    cases x with
    | none => exact .done _
    | some f =>
      refine .read fun x => ?_
      cases x with
      | none => exact .done _
      | some t =>
        cases hd : deleteEach fuel (nodeIntervals f n) t with
        | none => simp only [hd]; exact .hangs _
        | some t' => simp only [hd]; exact .write fun _ => .done _

theorem onSave_watches : Observes (σ := PSigOf K T I B W) OfPlugin Unmade onSave := by
  refine .target fun a => ?_
  cases a with
  | none => exact .done _
  | some n =>
    refine .read (.inl rfl) fun x _ => ?_
    cases x with
    | none => exact .done _
    | some f => exact .write (.inr (.inr rfl)) (fun _ => rfl) fun _ => .done _

theorem onDelete_watches (fuel : Nat) : Observes (σ := PSigOf K T I B W) OfPlugin Unmade (onDeleteSoft fuel) := by
  refine .target fun a => ?_
  cases a with
  | none => exact .done _
  | some n =>
    refine .read (.inl rfl) fun x _ => ?_
    cases x with
    | none => exact .done _
    | some f =>
      refine .read (.inr (.inr rfl)) fun x _ => ?_
      cases x with
      | none => exact .done _
      | some t =>
        simp only
        split
        · exact .done _
        · exact .write (.inr (.inr rfl)) (fun _ => rfl) fun _ => .done _

/-- `install`, with that in place of `onDelete`. -/
def installSoft (fuel : Nat) (extract : T → List I) (S : Schema (PSigOf K T I B W)) : Schema (PSigOf K T I B W) :=
  (((S.withResource .extractor extract).withResource .treeOfId .nil).withTrigger .afterSave onSave).withTrigger .afterDelete
    (onDeleteSoft fuel)

variable [TransOrd K] [LawfulBEqOrd K]

theorem installSoft_gives (fuel : Nat) (extract : T → List I) (S : Schema (PSigOf K T I B W)) :
    ∃ l, (∀ x ∈ l, x.1.Private OfPlugin Unmade) ∧ Session S l (installSoft fuel extract S) := by
  refine ⟨[(.register .extractor extract, .nothing), (.register .treeOfId .nil, .nothing), (.trigger .afterSave onSave, .nothing),
    (.trigger .afterDelete (onDeleteSoft fuel), .nothing)], fun x hx => ?_,
    .cons (.register ..) (.cons (.register ..) (.cons (.trigger ..) (.cons (.trigger ..) (.nil _))))⟩
  simp only [List.mem_cons, List.not_mem_nil, or_false] at hx
  rcases hx with rfl | rfl | rfl | rfl
  · exact ⟨.inl rfl, fun h => h⟩
  · exact ⟨.inr (.inr rfl), fun h => h⟩
  · exact onSave_watches
  · exact onDelete_watches fuel

theorem install_gentle (fuel : Nat) (extract : T → List I) (S : Schema (PSigOf K T I B W)) (hS : S.Used) :
    Gentle (install true fuel extract S) (installSoft fuel extract S) := by
  have h0 := used_sane hS
  have h2 := sane_withResource (sane_withResource h0 PTy.extractor extract) PTy.treeOfId (ITree.nil : ITree (NodeInterval K I) B)
  have h3 := sane_gives h2 (.trigger _ .afterSave onSave)
  refine ⟨rfl, rfl, rfl, fun s => ?_⟩
  have e1 := fire_withTrigger h3 .afterDelete s (onDelete fuel)
  have e2 := fire_withTrigger h3 .afterDelete s (onDeleteSoft fuel)
  refine (congr (congrArg Softened e1) e2).mpr ?_
  split
  · exact Softened.append (.refl _) (.soft (onDelete_softer fuel) .nil)
  · exact .refl _

/-- C94: where its index exists, the plugin can keep a program from going on, and nothing else. Every course of uses that comes
to its end with the plugin installed, and has nothing to do with the plugin's resources, is one the program goes without the
plugin, with the same answers, and it is left with the same nodes and the same resources. -/
theorem C94_plugin (fuel : Nat) (extract : T → List I) (S S1' : Schema (PSigOf K T I B W)) (hS : S.Used)
    (ht : ∀ s, ∀ p ∈ S.env.fire s, p.Avoids OfPlugin)
    (l : List (Use (PSigOf K T I B W) × Seen (PSigOf K T I B W))) (hl : ∀ x ∈ l, x.1.Avoids OfPlugin)
    (h : Session (install true fuel extract S) l S1') :
    ∃ S1, Session S l S1 ∧ (∀ i, S1.guard.get i = S1'.guard.get i) ∧
      ∀ t, ¬ OfPlugin t → (S1.env.resources.res t).peek S1.heap = (S1'.env.resources.res t).peek S1'.heap := by
  obtain ⟨l0, hp, h0⟩ := installSoft_gives fuel extract S
  have hu : (install true fuel extract S).Used :=
    Session.used hS (.cons (.register ..) (.cons (.register ..) (.cons (.trigger ..) (.cons (.trigger ..) (.nil _)))))
  have hu' : (installSoft fuel extract S).Used := Session.used hS h0
  obtain ⟨S2, h2, hg⟩ := session_tame h _ (used_sane hu) (used_sane hu') (install_gentle fuel extract S hS)
  obtain ⟨S3, h3, hb⟩ := C85_erase (H := OfPlugin) (N := Unmade) S S (installSoft fuel extract S) hS hS
    (.refl ht (fun _ _ h => h.elim)) [] l0 (by rw [← List.append_nil l0]; exact .extras hp .nil) h0
  cases h3
  obtain ⟨S1, h4, hb'⟩ := C85_erase S _ S2 hS hu' hb l l (.keeps hl) h2
  refine ⟨S1, h4, fun i => ?_, fun t hn => ?_⟩
  · rw [← hb'.nodes, guard_graph, guard_graph, hg.graph]
  · rw [← hb'.reads t hn, hg.heap, hg.resources]

/-- C94: conversely, a program that goes some course without the plugin goes the same course with it, gets the same answers and is
left with the same nodes and resources, or one of its transactions hangs. It does not fail otherwise, nor does it panic. -/
theorem C94_or_hangs (fuel : Nat) (extract : T → List I) (S S1 : Schema (PSigOf K T I B W)) (hS : S.Used)
    (ht : ∀ s, ∀ p ∈ S.env.fire s, p.Avoids OfPlugin)
    (l : List (Use (PSigOf K T I B W) × Seen (PSigOf K T I B W))) (hl : ∀ x ∈ l, x.1.Avoids OfPlugin) (h : Session S l S1) :
    (∃ S1', Session (install true fuel extract S) l S1' ∧ (∀ i, S1'.guard.get i = S1.guard.get i) ∧
      ∀ t, ¬ OfPlugin t → (S1'.env.resources.res t).peek S1'.heap = (S1.env.resources.res t).peek S1.heap) ∨
    ∃ l1 pre body a l2 S2 fuel' S3, l = l1 ++ (.tx pre body, a) :: l2 ∧ Session (install true fuel extract S) l1 S2 ∧
      S2.transact fuel' pre body = some (.stuck, S3) := by
  obtain ⟨l0, hp, h0⟩ := installSoft_gives fuel extract S
  have hu : (install true fuel extract S).Used :=
    Session.used hS (.cons (.register ..) (.cons (.register ..) (.cons (.trigger ..) (.cons (.trigger ..) (.nil _)))))
  have hu' : (installSoft fuel extract S).Used := Session.used hS h0
  obtain ⟨S3, h3, hb⟩ := C85_erase (H := OfPlugin) (N := Unmade) S S (installSoft fuel extract S) hS hS
    (.refl ht (fun _ _ h => h.elim)) [] l0 (by rw [← List.append_nil l0]; exact .extras hp .nil) h0
  cases h3
  obtain ⟨l', S2, e1, e2, h2, hb'⟩ := C85_insert S _ S1 hS hu' hb l h (l.map (·.1))
    (.keeps fun u hu => by obtain ⟨x, hx, rfl⟩ := List.mem_map.1 hu; exact hl x hx)
  have e : l = l' := Insert.same_length e2 (by rw [← List.length_map (f := (·.1)), e1, List.length_map])
  rw [← e] at h2
  rcases session_wild h2 _ (used_sane hu) (used_sane hu') (install_gentle fuel extract S hS) with ⟨S1', h4, hg⟩ | h4
  · refine .inl ⟨S1', h4, fun i => ?_, fun t hn => ?_⟩
    · rw [← hb'.nodes, guard_graph, guard_graph, hg.graph]
    · rw [← hb'.reads t hn, hg.heap, hg.resources]
  · exact .inr h4

end

/-! ## Examples -/

/-- A schema with a resource of its own and the plugin. -/
def looseSchema : Schema (PSig LooseId LooseId Span Nat) :=
  (Schema.fromGraph Graph.empty).withResource (.other 0) (7 : Nat)

/-- A body that saves three nodes, and one that deletes the first of them and counts. -/
def saveThree : Prog (PSig LooseId LooseId Span Nat) :=
  .saveOp 0 ⟨1, 5⟩ fun _ => .saveOp 0 ⟨2, 1⟩ fun _ => .saveOp 0 ⟨3, 7⟩ fun _ => .done (.ok ())
def deleteOne (i : LooseId) : Prog (PSig LooseId LooseId Span Nat) :=
  .deleteOp 0 i fun _ => .resWrite (.other 0) (fun n => (n + 1, false)) fun _ => .done (.ok ())

/-- What can be seen of one after the other. -/
def seenLoose (S : Schema (PSig LooseId LooseId Span Nat)) (i : LooseId) :
    Option (Out (Except Error Unit) × List LooseId × Option Nat) :=
  (S.transact 20 [] saveThree).bind fun r => (r.2.transact 20 [] (deleteOne i)).map fun r =>
    (r.1, r.2.guard.iter, (r.2.env.resources.res (.other 0)).peek r.2.heap)

/-- Deleting the second node goes the same course with the plugin as without; deleting the first hangs with it only. -/
example : seenLoose (install true 20 looseSpans looseSchema) ⟨2, 0⟩ = some (.ret (.ok ()), [⟨1, 5⟩, ⟨3, 7⟩], some 8) := by decide +kernel
example : seenLoose looseSchema ⟨2, 0⟩ = some (.ret (.ok ()), [⟨1, 5⟩, ⟨3, 7⟩], some 8) := by decide +kernel
example : (seenLoose (install true 20 looseSpans looseSchema) ⟨1, 0⟩).map (·.1) = some .stuck := by decide +kernel
example : seenLoose looseSchema ⟨1, 0⟩ = some (.ret (.ok ()), [⟨2, 1⟩, ⟨3, 7⟩], some 8) := by decide +kernel

/-- The body is one the theorems speak of, and the schema in use. -/
example : ∀ i, (deleteOne i).Avoids OfPlugin := by
  intro i
  refine ⟨fun a => ?_, fun a => ⟨(by rintro (h | h | h) <;> cases h), fun _ => trivial⟩⟩
  cases a with
  | none => trivial
  | some n => intro a; cases a <;> (try trivial) <;> intro a <;> cases a <;> trivial

end Plotline
