import Verif.Lemmas.Private
import Verif.Props.Alike
import Verif.Props.Plugin

/-! # C85: components that keep to themselves do not show

`Observes` describes the triggers of a component that has resource types of its own and otherwise only looks; `Avoids` describes
the rest of a program, which does not use those types. -/

namespace Plotline

open Std

set_option linter.unusedSectionVars false

variable {σ : Sig} {H N : σ.Ty → Prop}

/-- C85: take any course of uses in which components register their resources and triggers, work on their resources, look at the
graph and run transactions of their own, wherever and as often as they like. Without them, the rest of the program goes the same
course with the same answers, and is left with the same nodes and resources. -/
theorem C85_erase [LawfulSig σ] (S S' S1' : Schema σ) (hS : S.Used) (hS' : S'.Used) (hb : Beside H N S S')
    (l l' : List (Use σ × Seen σ)) (hi : Insert H N (·.1) l l') (h : Session S' l' S1') :
    ∃ S1, Session S l S1 ∧ Beside H N S1 S1' := by
  have hs := used_sane hS
  have hs' := used_sane hS'
  obtain ⟨S2', h2, ha⟩ := session_alike h hs' (hs.with_graph hs') hb.alike
  obtain ⟨S1, h3, h4, _⟩ := session_erase hi h2 hs (hs.with_graph hs') hb.with_graph rfl
  exact ⟨S1, h3, h4.of_alike ha.symm⟩

/-- C85: conversely, what components do can be put into any course of the rest of the program, at any place: none of it fails to
come to an end, and the answers the rest gets are the ones it got. -/
theorem C85_insert [LawfulSig σ] (S S' S1 : Schema σ) (hS : S.Used) (hS' : S'.Used) (hb : Beside H N S S')
    (l : List (Use σ × Seen σ)) (h : Session S l S1) (us : List (Use σ)) (hi : Insert H N (fun u => u) (l.map (·.1)) us) :
    ∃ l' S1', l'.map (·.1) = us ∧ Insert H N (·.1) l l' ∧ Session S' l' S1' ∧ Beside H N S1 S1' := by
  have hs := used_sane hS
  have hs' := used_sane hS'
  obtain ⟨l', S2', h1, h2, h3, h4, _⟩ := session_insert h rfl hi hs (hs.with_graph hs') hb.with_graph rfl
  obtain ⟨S1', h5, ha⟩ := session_alike h3 (hs.with_graph hs') hs' hb.alike.symm
  exact ⟨l', S1', h1, h2, h5, h4.of_alike ha⟩

/-- C85: a transaction ends in the same way with and without the components' triggers, also if it blocks for ever or does not
end. -/
theorem C85_transaction [LawfulSig σ] (S S' : Schema σ) (hS : S.Used) (hS' : S'.Used) (hb : Beside H N S S')
    (hg : S'.graph = S.graph) (pre : List (Operation σ.K σ.T)) (body : Prog σ) (hp : body.Avoids H)
    (out : Out (Except Error σ.V)) :
    (∃ fuel S1, S.transact fuel pre body = some (out, S1)) ↔ ∃ fuel S1', S'.transact fuel pre body = some (out, S1') := by
  constructor
  · rintro ⟨fuel, S1, h⟩
    obtain ⟨f, S1', h', _⟩ := transact_mix (used_sane hS) (used_sane hS') hb hg hp h
    exact ⟨f, S1', h'⟩
  · rintro ⟨fuel, S1, h⟩
    obtain ⟨f, S1', h', _⟩ := transact_mix (used_sane hS') (used_sane hS) hb.symm hg.symm hp h
    exact ⟨f, S1', h'⟩

/-- A schema without components is one that differs from itself in components only. -/
theorem Beside.refl {S : Schema σ} (ht : ∀ s, ∀ p ∈ S.env.fire s, p.Avoids H)
    (ha : ∀ t, H t → N t → (S.env.resources.res t).peek S.heap = none) : Beside H N S S := by
  refine ⟨fun _ => rfl, fun s => ?_, fun _ _ => rfl, ha, ha⟩
  have := ht s
  generalize S.env.fire s = l at this
  induction l with
  | nil => exact .nil
  | cons p l ih => exact .keep (this p List.mem_cons_self) (ih fun q hq => this q (List.mem_cons_of_mem _ hq))

/-- C85: from the beginning of a schema on. -/
theorem C85_from_graph [LawfulSig σ] (g : Graph σ.K σ.T) (hg : g.Reachable) (l l' : List (Use σ × Seen σ))
    (hi : Insert H N (·.1) l l') (S1' : Schema σ) (h : Session (.fromGraph g) l' S1') :
    ∃ S1, Session (.fromGraph g) l S1 ∧ Beside H N S1 S1' :=
  have hu : (Schema.fromGraph g : Schema σ).Used := ⟨g, [], hg, .nil _⟩
  C85_erase _ _ _ hu hu (.refl (fun s p hp => by cases hp) (fun _ _ _ => rfl)) l l' hi h

theorem Insert.length {α : Type} {use : α → Use σ} {l l' : List α} (h : Insert H N use l l') : l.length ≤ l'.length := by
  induction h with
  | nil => exact Nat.le_refl _
  | keep _ _ ih => exact Nat.succ_le_succ ih
  | extra _ _ ih => exact Nat.le_succ_of_le ih

theorem Insert.same_length {α : Type} {use : α → Use σ} {l l' : List α} (h : Insert H N use l l') (e : l'.length = l.length) :
    l = l' := by
  induction h with
  | nil => rfl
  | keep _ _ ih => rw [ih (by simpa using e)]
  | extra _ h1 _ => have := h1.length; simp at e; omega

/-! ## The interval plugin -/

section
variable {K T I B : Type} [Ord K] [BEq K] [Identify T K] [Ord B] [BEq I] [Interval I B]

/-- The resource types the plugin uses. -/
def OfPlugin (t : PTy) : Prop := t = .extractor ∨ t = .treeOfNode ∨ t = .treeOfId

/-- The one its triggers use and `install` does not register. -/
def NotMade (t : PTy) : Prop := t = .treeOfId

theorem onSave_observes (N : PTy → Prop) : Observes (σ := PSig K T I B) OfPlugin N onSave := by
  refine .target fun a => ?_
  cases a with
  | none => exact .done _
  | some n =>
    refine .read (.inl rfl) fun x _ => ?_
    cases x with
    | none => exact .done _
    | some f => exact .write (.inr (.inr rfl)) (fun _ => rfl) fun _ => .done _

theorem onDelete_observes (fuel : Nat) : Observes (σ := PSig K T I B) OfPlugin NotMade (onDelete fuel) := by
  refine .target fun a => ?_
  cases a with
  | none => exact .done _
  | some n =>
    refine .read (.inl rfl) fun x _ => ?_
    cases x with
    | none => exact .done _
    | some f =>
      refine .read (.inr (.inr rfl)) fun t ht => ?_
      cases ht rfl
      exact .done _

/-- The uses of the schema that installing the plugin makes. -/
def installing (fuel : Nat) (extract : T → List I) : List (Use (PSig K T I B)) :=
  [.register .extractor extract, .register .treeOfNode .nil, .trigger .afterSave onSave, .trigger .afterDelete (onDelete fuel)]

/-- They are what `install` does. -/
theorem installing_gives [TransOrd K] [LawfulBEqOrd K] (fuel : Nat) (extract : T → List I) (S S' : Schema (PSig K T I B)) :
    (∃ l, l.map (·.1) = installing fuel extract ∧ Session S l S') ↔ S' = install false fuel extract S := by
  constructor
  · rintro ⟨l, hl, h⟩
    cases h with
    | nil => cases hl
    | cons h1 h =>
    cases h with
    | nil => cases hl
    | cons h2 h =>
    cases h with
    | nil => cases hl
    | cons h3 h =>
    cases h with
    | nil => cases hl
    | cons h4 h =>
    cases h with
    | cons h5 h => cases hl
    | nil =>
      simp only [List.map, installing, List.cons.injEq] at hl
      obtain ⟨rfl, rfl, rfl, rfl, _⟩ := hl
      cases h1; cases h2; cases h3; cases h4
      rfl
  · rintro rfl
    exact ⟨[_, _, _, _], rfl, .cons (.register ..) (.cons (.register ..) (.cons (.trigger ..) (.cons (.trigger ..) (.nil _))))⟩

theorem Insert.keeps {α : Type} {use : α → Use σ} {l : List α} (h : ∀ x ∈ l, (use x).Avoids H) : Insert H N use l l := by
  induction l with
  | nil => exact .nil
  | cons x l ih => exact .keep (h x List.mem_cons_self) (ih fun y hy => h y (List.mem_cons_of_mem _ hy))

theorem Insert.extras {α : Type} {use : α → Use σ} {l l1 l' : List α} (h : ∀ x ∈ l1, (use x).Private H N)
    (hl : Insert H N use l l') : Insert H N use l (l1 ++ l') := by
  induction l1 with
  | nil => exact hl
  | cons x l1 ih => exact .extra (h x List.mem_cons_self) (ih fun y hy => h y (List.mem_cons_of_mem _ hy))

theorem installing_private (fuel : Nat) (extract : T → List I) :
    ∀ u ∈ installing fuel extract, Use.Private (σ := PSig K T I B) OfPlugin NotMade u := by
  intro u hu
  simp only [installing, List.mem_cons, List.not_mem_nil, or_false] at hu
  rcases hu with rfl | rfl | rfl | rfl
  · exact ⟨.inl rfl, fun h => by cases h⟩
  · exact ⟨.inr (.inl rfl), fun h => by cases h⟩
  · exact onSave_observes _
  · exact onDelete_observes fuel

/-- C85: the interval plugin, as it is for node types that are not their own id types, does not show. A program that has nothing to
do with its resources can go a course of uses after installing it exactly if it can without, with the same answers. -/
theorem C85_plugin [TransOrd K] [LawfulBEqOrd K] (fuel : Nat) (extract : T → List I) (S : Schema (PSig K T I B)) (hS : S.Used)
    (ht : ∀ s, ∀ p ∈ S.env.fire s, p.Avoids OfPlugin) (ha : (S.env.resources.res .treeOfId).peek S.heap = none)
    (l : List (Use (PSig K T I B) × Seen (PSig K T I B))) (hl : ∀ x ∈ l, x.1.Avoids OfPlugin) :
    (∃ S1, Session S l S1) ↔ ∃ S1', Session (install false fuel extract S) l S1' := by
  have hb : Beside OfPlugin NotMade S S := .refl ht (fun t _ hn => by cases hn; exact ha)
  obtain ⟨l0, hl0, h0⟩ := (installing_gives fuel extract S (install false fuel extract S)).2 rfl
  obtain ⟨S2, h2, hb2⟩ := C85_erase (H := OfPlugin) (N := NotMade) S S _ hS hS hb [] l0
    (by
      rw [← List.append_nil l0]
      exact .extras (fun x hx => installing_private fuel extract x.1 (by rw [← hl0]; exact List.mem_map_of_mem hx)) .nil) h0
  cases h2
  have hS' := Session.used hS h0
  constructor
  · rintro ⟨S1, h⟩
    obtain ⟨l', S1', e1, e2, h', _⟩ := C85_insert S _ S1 hS hS' hb2 l h (l.map (·.1))
      (.keeps fun u hu => by obtain ⟨x, hx, rfl⟩ := List.mem_map.1 hu; exact hl x hx)
    exact ⟨S1', by rw [Insert.same_length e2 (by rw [← List.length_map (f := (·.1)), e1, List.length_map])]; exact h'⟩
  · rintro ⟨S1', h⟩
    obtain ⟨S1, h', _⟩ := C85_erase S _ S1' hS hS' hb2 l l (.keeps hl) h
    exact ⟨S1, h'⟩

end

/-! ## Examples -/

/-- The resource type of the component, and that it is registered. -/
def OfCounter (t : Nat) : Prop := t = 9
def Registered (_ : Nat) : Prop := False

/-- A component that counts the saves it is told of, in a resource of its own. -/
def counter : Prog demo := .resWrite 9 (fun n => (n + 1, false)) fun _ => .done (.ok ())

theorem counter_observes : Observes (σ := demo) OfCounter Registered counter := .write rfl (fun _ => rfl) fun _ => .done _

/-- The rest of the program: saves a document and counts in resource 4. -/
def restOf : Prog demo := .saveOp 0 ⟨3, 30⟩ fun _ => .resWrite 4 (fun n => (n + 1, false)) fun b => .done (if b then .ok () else .error .noop)

theorem restOf_avoids : restOf.Avoids OfCounter := by
  refine ⟨fun a => ?_, fun a => ⟨(by unfold OfCounter; decide), fun _ => trivial⟩⟩
  cases a with
  | error e => trivial
  | ok u =>
    intro a
    cases a with
    | none => intro r; cases r <;> trivial
    | some n => intro r; cases r <;> trivial

def plainSchema : Schema demo := demoSchema.withResource 4 (10 : Nat)
def countedSchema : Schema demo := (plainSchema.withResource 9 (0 : Nat)).withTrigger .afterSave counter

theorem counted_beside : Beside (σ := demo) OfCounter Registered plainSchema countedSchema := by
  have hu : plainSchema.Used := used_register demo_used _ _
  obtain ⟨S1, h1, hb⟩ := C85_erase (σ := demo) (H := OfCounter) (N := Registered) plainSchema plainSchema countedSchema hu hu
    (.refl (fun s p hp => by cases hp) (fun _ _ h => h.elim)) [] [(.register 9 (0 : Nat), .nothing), (.trigger .afterSave counter, .nothing)]
    (.extra (show Use.Private OfCounter Registered (Use.register (σ := demo) 9 (0 : Nat)) from ⟨rfl, fun h => h⟩)
      (.extra (show Use.Private OfCounter Registered (Use.trigger (σ := demo) .afterSave counter) from counter_observes) .nil)) (.cons (.register ..) (.cons (.trigger ..) (.nil _)))
  cases h1
  exact hb

/-- What can be read afterwards. -/
def readCount (r : Out (Except Error Unit) × Schema demo) : Out (Except Error Unit) × List Doc × Option Nat × Option Nat :=
  (r.1, r.2.guard.iter, (r.2.env.resources.res 4).peek r.2.heap, (r.2.env.resources.res 9).peek r.2.heap)

example : (plainSchema.transact 20 [] restOf).map readCount =
    some (.ret (.ok ()), [⟨1, 10⟩, ⟨2, 20⟩, ⟨3, 30⟩], some 11, none) := by decide +kernel
example : (countedSchema.transact 20 [] restOf).map readCount =
    some (.ret (.ok ()), [⟨1, 10⟩, ⟨2, 20⟩, ⟨3, 30⟩], some 11, some 1) := by decide +kernel

/-- A component that fails does show, and is not one that only observes. -/
example : ¬ Observes (σ := demo) OfCounter Registered (.done (.error .noop)) := by intro h; cases h
example : ((plainSchema.withTrigger .afterSave (.done (.error .noop))).transact 20 [] (saveBody ⟨3, 30⟩)).map readCount =
    some (.ret (.error .noop), [⟨1, 10⟩, ⟨2, 20⟩], some 10, none) := by decide +kernel
/-- So does one that saves nodes. -/
example : ¬ Observes (σ := demo) OfCounter Registered (.save 0 ⟨7, 7⟩ (.done (.ok ()))) := by intro h; cases h

end Plotline
