import Verif.Spec.Shell
import Verif.Props.Args
import Verif.Props.Listing

/-! # C90: what the shell sees -/

namespace Plotline

theorem says_repo {here : FilePath} {v : Invocation} {r : LocalRepo} (h : Says here v.options r) : v.repo here = r := by
  obtain ⟨h1, h2⟩ := h
  cases r with | mk c e =>
  simp only at h1 h2
  subst h1 h2
  cases v with | mk o _ _ _ =>
  cases o with | mk oc oe => cases oc <;> cases oe <;> rfl

theorem plotline_line {ws : List Word} {v : Invocation} (hl : Line ws v) {here : FilePath} {r : LocalRepo} (hr : Says here v.options r)
    (fuel : Nat) (fs : Fs) (walk : FilePath → List FilePath) :
    plotline fuel here fs walk ws = (plotDoc fuel r fs (walk r.context) v.id v.command).map .ran := by
  unfold plotline
  rw [(C87_grammar ws v).2 hl]
  simp only [says_repo hr]

theorem Lines.spells {s : List Char} {ids : List FilePath} (h : Lines s ids) : ∀ p ∈ ids, ∃ t, Spells t p := by
  induction h with
  | nil => intro p hp; cases hp
  | line _ _ h _ ih =>
    intro p hp
    rcases List.mem_cons.1 hp with rfl | hp
    · exact ⟨_, h⟩
    · exact ih p hp

variable (here : FilePath) (fs : Fs) (walk : FilePath → List FilePath) (plain : Char → Bool) (room : Option Nat) {ws : List Word}
  {o : Options} {r : LocalRepo} (hr : Says here o r)

section
include hr

theorem list_ends {i : Option Word} (hl : Line ws ⟨o, i, .list, none⟩) {re : Re} (hre : Alts (writtenExt r.extension) re) :
    Exits here fs walk plain room ws (match room with
      | some n =>
        ⟨if (r.schema (walk r.context)).guard.iter.length ≤ n then 0 else 101,
          listText plain (((r.schema (walk r.context)).guard.iter.map fun node => node.id).take n), none⟩
      | none => ⟨0, listText plain ((r.schema (walk r.context)).guard.iter.map fun node => node.id), none⟩) := by
  refine ⟨0, fun fuel _ => ⟨.ran ⟨.ret (.ok ()), (r.schema (walk r.context)).guard.iter.map fun node => node.id,
    r.schema (walk r.context), fs⟩, ?_, ?_⟩⟩
  · rw [plotline_line hl hr]
    simp only [plotDoc]
    rw [plot_ok ((C72_grammar _ re).2 hre)]
    rfl
  · cases room with
    | none => rfl
    | some n =>
      simp only [Process.exit, Ran.exit, List.length_map]
      by_cases h : (r.schema (walk r.context)).guard.iter.length ≤ n
      · rw [if_neg (by omega), if_pos h, List.take_of_length_le (by simpa using h)]
      · rw [if_pos (by omega), if_neg h]

/-- C90, listing: the process writes the lines of the listing there is room for, and ends with status 0 exactly if there is room for all;
otherwise with 101. -/
theorem C90_list {i : Option Word} (hl : Line ws ⟨o, i, .list, none⟩) {re : Re} (hre : Alts (writtenExt r.extension) re)
    {ignored : FilePath → Bool} (hf : fs.Named) (hw : Walk ignored r.context fs (walk r.context)) :
    ∃ x, Exits here fs walk plain room ws x ∧ x.stderr = none ∧
      Lines x.stdout (match room with
        | some n => ((r.schema (walk r.context)).guard.iter.map fun node => node.id).take n
        | none => (r.schema (walk r.context)).guard.iter.map fun node => node.id) ∧
      x.status = match room with
        | some n => if (r.schema (walk r.context)).guard.iter.length ≤ n then 0 else 101
        | none => 0 := by
  obtain ⟨ran, h1, h2⟩ := C84_lines plain 0 r re hre ignored fs hf (walk r.context) hw none
  rw [plot_ok ((C72_grammar _ re).2 hre)] at h1
  cases h1
  have hs := h2.spells
  refine ⟨_, list_ends here fs walk plain room hr hl hre, ?_, ?_, ?_⟩
  · cases room <;> rfl
  · cases room with
    | none => exact listText_lines plain _ hs
    | some n => exact listText_lines plain _ fun p hp => hs p (List.mem_of_mem_take hp)
  · cases room <;> rfl

/-- C90, saving: with an id the process ends with status 0 and writes nothing. -/
theorem C90_save {i : Word} {content : Option Word} (hl : Line ws ⟨o, some i, .save, content⟩)
    {re : Re} (hre : Alts (writtenExt r.extension) re) : Exits here fs walk plain room ws ⟨0, [], none⟩ := by
  obtain ⟨fuel0, ran, h1, h2, h3, _⟩ := C59_save fs r ⟨re, (C72_grammar _ re).2 hre⟩ (walk r.context) (parsePath i) (content.map utf8)
  refine ⟨fuel0, fun fuel hf => ⟨.ran ran, ?_, ?_⟩⟩
  · rw [plotline_line hl hr]
    exact congrArg (Option.map Process.ran) (h1 fuel hf)
  · simp only [Process.exit, Ran.exit, h2, h3, List.length_nil, Nat.not_lt_zero, if_false]
    cases room <;> rfl

/-- C90, deleting: the process ends with status 0 if the path of the id is listed, and with 1 and a message otherwise. -/
theorem C90_delete {i : Word} (hl : Line ws ⟨o, some i, .delete, none⟩) {re : Re} (hre : Alts (writtenExt r.extension) re)
    {p : FilePath} (hp : Spells i p) :
    (p ∈ (r.schema (walk r.context)).guard.iter.map (fun node => node.id) → Exits here fs walk plain room ws ⟨0, [], none⟩) ∧
    (p ∉ (r.schema (walk r.context)).guard.iter.map (fun node => node.id) →
      Exits here fs walk plain room ws ⟨1, [], some "Error: nothing to apply\n".toList⟩) := by
  obtain ⟨fuel0, ran, h1, h2, h3⟩ := C59_delete fs r ⟨re, (C72_grammar _ re).2 hre⟩ (walk r.context) p
  have hrun : ∀ fuel, fuel0 ≤ fuel → plotline fuel here fs walk ws = some (.ran ran) := by
    intro fuel hf
    rw [plotline_line hl hr]
    simp only [plotDoc, Option.map_some, (C75_spelling i p).1 hp]
    exact congrArg (Option.map Process.ran) (h1 fuel hf)
  rcases h3 with ⟨h3, h4, _⟩ | ⟨h3, h4, _⟩
  · refine ⟨fun _ => ⟨fuel0, fun fuel hf => ⟨_, hrun fuel hf, ?_⟩⟩, fun h => absurd h3 h⟩
    simp only [Process.exit, Ran.exit, h4, h2, List.length_nil, Nat.not_lt_zero, if_false]
    cases room <;> rfl
  · refine ⟨fun h => absurd h h3, fun _ => ⟨fuel0, fun fuel hf => ⟨_, hrun fuel hf, ?_⟩⟩⟩
    simp only [Process.exit, Ran.exit, h4, h2]
    rfl

/-- C90: without an id saving and deleting end with status 1 and a message. -/
theorem C90_no_id {a : Action} {content : Option Word} (hl : Line ws ⟨o, none, a, content⟩) (ha : a ≠ .list)
    {re : Re} (hre : Alts (writtenExt r.extension) re) :
    Exits here fs walk plain room ws ⟨1, [], some "Error: node id must be set\n".toList⟩ := by
  refine ⟨0, fun fuel _ => ⟨.ran ⟨.ret (.error .idNotSet), [], r.schema (walk r.context), fs⟩, ?_, rfl⟩⟩
  rw [plotline_line hl hr]
  simp only [plotDoc, Option.map_none]
  rw [plot_ok ((C72_grammar _ re).2 hre), C56_no_id]
  · rfl
  · intro h
    cases a
    · cases h
    · exact ha rfl
    · cases h

/-- C90: with an extension that makes no pattern, every command ends with status 101 and writes nothing. -/
theorem C90_no_pattern {i : Option Word} {a : Action} {content : Option Word} (hl : Line ws ⟨o, i, a, content⟩)
    (hm : ¬ BeyondModel (writtenExt r.extension)) (hre : ¬ ∃ re, Alts (writtenExt r.extension) re) :
    Exits here fs walk plain room ws ⟨101, [], none⟩ := by
  refine ⟨0, fun fuel _ => ?_⟩
  obtain ⟨ran, h1, h2, h3, _⟩ := C72_invalid fuel r hm hre fs (walk r.context) (i.map parsePath) (Invocation.command ⟨o, i, a, content⟩)
  refine ⟨.ran ran, ?_, ?_⟩
  · rw [plotline_line hl hr]
    simp only [plotDoc]
    rw [h1]; rfl
  · simp only [Process.exit, Ran.exit, h2, h3]
    rfl

/-- C90: every process that gets past its command line ends, in one way, with status 0, 1 or 101. Only with status 1 it reports an
error, and only listing writes to the standard output. -/
theorem C90_status {i : Option Word} {a : Action} {content : Option Word} (hl : Line ws ⟨o, i, a, content⟩)
    (hm : ¬ BeyondModel (writtenExt r.extension)) :
    ∃ x, Exits here fs walk plain room ws x ∧ (∀ y, Exits here fs walk plain room ws y → y = x) ∧
      (x.status = 0 ∨ x.status = 1 ∨ x.status = 101) ∧ (x.status = 1 ↔ x.stderr ≠ none) ∧ (x.stdout ≠ [] → a = .list) := by
  have key : ∃ x, Exits here fs walk plain room ws x ∧
      (x.status = 0 ∨ x.status = 1 ∨ x.status = 101) ∧ (x.status = 1 ↔ x.stderr ≠ none) ∧ (x.stdout ≠ [] → a = .list) := by
    by_cases hre : ∃ re, Alts (writtenExt r.extension) re
    · obtain ⟨re, hre⟩ := hre
      cases a with
      | list =>
        have hc : content = none := by
          cases hl with | mk _ _ _ _ h => exact h (by simp)
        subst hc
        refine ⟨_, list_ends here fs walk plain room hr hl hre, ?_, ?_, fun _ => rfl⟩
        · cases room with
          | none => exact .inl rfl
          | some n =>
            by_cases h : (r.schema (walk r.context)).guard.iter.length ≤ n
            · exact .inl (if_pos h)
            · exact .inr (.inr (if_neg h))
        · cases room with
          | none => simp
          | some n => simp only [ne_eq, not_true_eq_false, iff_false]; split <;> decide
      | save =>
        cases i with
        | none => exact ⟨_, C90_no_id here fs walk plain room hr hl (by simp) hre, .inr (.inl rfl), by simp, by simp⟩
        | some i => exact ⟨_, C90_save here fs walk plain room hr hl hre, .inl rfl, by simp, by simp⟩
      | delete =>
        cases i with
        | none => exact ⟨_, C90_no_id here fs walk plain room hr hl (by simp) hre, .inr (.inl rfl), by simp, by simp⟩
        | some i =>
          have hc : content = none := by
            cases hl with | mk _ _ _ _ h => exact h (by simp)
          subst hc
          obtain ⟨h1, h2⟩ := C90_delete here fs walk plain room hr hl hre ((C75_spelling i _).2 rfl)
          by_cases h : parsePath i ∈ (r.schema (walk r.context)).guard.iter.map (fun node => node.id)
          · exact ⟨_, h1 h, .inl rfl, by simp, by simp⟩
          · exact ⟨_, h2 h, .inr (.inl rfl), by simp, by simp⟩
    · exact ⟨_, C90_no_pattern here fs walk plain room hr hl hm hre, .inr (.inr rfl), by simp, by simp⟩
  obtain ⟨x, hx, h⟩ := key
  refine ⟨x, hx, fun y hy => ?_, h⟩
  obtain ⟨f1, h1⟩ := hx
  obtain ⟨f2, h2⟩ := hy
  obtain ⟨p, k1, k2⟩ := h1 (max f1 f2) (Nat.le_max_left ..)
  obtain ⟨q, k3, k4⟩ := h2 (max f1 f2) (Nat.le_max_right ..)
  rw [k1] at k3; cases k3
  rw [k2] at k4; exact (Option.some.inj k4).symm

end

/-- A listing, whole and into a pipe that is closed after a line; a deletion that works, and one that does not; one without an id; and
an extension that makes no pattern. -/
example : (plotline 20 ["home".toList] homeFs (fun _ => homeWalk) (wordsOf ["doc", "ls"])).map (Process.exit (fun _ => true) none) =
      some (some ⟨0, "\"b\"\n\"x/a\"\n".toList, none⟩) ∧
    (plotline 20 ["home".toList] homeFs (fun _ => homeWalk) (wordsOf ["doc", "ls"])).map (Process.exit (fun _ => true) (some 1)) =
      some (some ⟨101, "\"b\"\n".toList, none⟩) ∧
    (plotline 20 ["home".toList] homeFs (fun _ => homeWalk) (wordsOf ["doc", "b", "delete"])).map (Process.exit (fun _ => true) none) =
      some (some ⟨0, [], none⟩) ∧
    (plotline 20 ["home".toList] homeFs (fun _ => homeWalk) (wordsOf ["doc", "c", "delete"])).map (Process.exit (fun _ => true) none) =
      some (some ⟨1, [], some "Error: nothing to apply\n".toList⟩) ∧
    (plotline 20 ["home".toList] homeFs (fun _ => homeWalk) (wordsOf ["doc", "delete"])).map (Process.exit (fun _ => true) none) =
      some (some ⟨1, [], some "Error: node id must be set\n".toList⟩) ∧
    (plotline 20 ["home".toList] homeFs (fun _ => homeWalk) (wordsOf ["-e(", "doc", "ls"])).map (Process.exit (fun _ => true) none) =
      some (some ⟨101, [], none⟩) := by decide +kernel

end Plotline
