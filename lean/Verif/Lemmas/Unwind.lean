import Verif.Spec.Unwind

/-! # What running a program does to locks -/

namespace Plotline

variable {V : Type}

/-- What can be told about a run. -/
structure LatchRun (bare late : Bool) (held : List (Nat × Bool)) (s s' : Latches V) (ev : List Doing) : Prop where
  trace : s'.trace = s.trace ++ ev
  length : s'.cells.length = s.cells.length
  spoiled : ∀ p, SpoiledAt s'.cells p ↔ SpoiledAt s.cells p ∨ Spoiled ev p
  refused : ∀ i p excl, ev[i]? = some (.refused p excl) → s.cells.length ≤ p ∨ SpoiledAt s.cells p ∨ Spoiled (ev.take i) p
  opened : ∀ i p excl, ev[i]? = some (.opened p excl) → p < s.cells.length ∧ ¬ SpoiledAt s.cells p ∧ ¬ Spoiled (ev.take i) p
  late : ∀ p excl l k, .closed p excl l k ∈ ev → (late = true → l = true) ∧ (bare = true → late = false → l = false)
  other : ∀ p, (p, true) ∉ held → (∀ excl, .opened p excl ∈ ev → excl = false) → s'.cells[p]? = s.cells[p]?

theorem LatchRun.refl (bare late : Bool) (held : List (Nat × Bool)) (s : Latches V) : LatchRun bare late held s s [] :=
  ⟨by simp, rfl, fun p => by simp [Spoiled], fun i p excl h => by simp at h, fun i p excl h => by simp at h,
    fun p excl l k h => by simp at h, fun _ _ _ => rfl⟩

theorem Spoiled.append {a b : List Doing} {p : Nat} : Spoiled (a ++ b) p ↔ Spoiled a p ∨ Spoiled b p := by
  simp [Spoiled]

theorem LatchRun.trans {bare l1 l2 late : Bool} {held : List (Nat × Bool)} {s s1 s2 : Latches V} {ev ev' : List Doing}
    (h1 : LatchRun bare l1 held s s1 ev) (h2 : LatchRun bare l2 held s1 s2 ev') (e1 : l1 = late)
    (e2 : l2 = late ∨ bare = false ∧ l2 = true) : LatchRun bare late held s s2 (ev ++ ev') := by
  subst e1
  refine ⟨by rw [h2.trace, h1.trace, List.append_assoc], h2.length.trans h1.length, fun p => ?_, fun i p excl h => ?_, fun i p excl h => ?_,
    fun p excl l k h => ?_, fun p hp ho => ?_⟩
  · rw [h2.spoiled, h1.spoiled, Spoiled.append, or_assoc]
  · by_cases hi : i < ev.length
    · rw [List.getElem?_append_left hi] at h
      rw [List.take_append_of_le_length (by omega)]
      exact h1.refused i p excl h
    · rw [List.getElem?_append_right (by omega)] at h
      have e : (ev ++ ev').take i = ev ++ ev'.take (i - ev.length) := by
        rw [List.take_append, List.take_of_length_le (by omega)]
      rw [e, Spoiled.append]
      have := h2.refused _ p excl h
      rw [h1.length, h1.spoiled] at this
      rcases this with h | (h | h) | h
      · exact .inl h
      · exact .inr (.inl h)
      · exact .inr (.inr (.inl h))
      · exact .inr (.inr (.inr h))
  · by_cases hi : i < ev.length
    · rw [List.getElem?_append_left hi] at h
      rw [List.take_append_of_le_length (by omega)]
      exact h1.opened i p excl h
    · rw [List.getElem?_append_right (by omega)] at h
      have e : (ev ++ ev').take i = ev ++ ev'.take (i - ev.length) := by
        rw [List.take_append, List.take_of_length_le (by omega)]
      rw [e, Spoiled.append]
      have := h2.opened _ p excl h
      rw [h1.length, h1.spoiled] at this
      exact ⟨this.1, fun h => this.2.1 (.inl h), fun h => h.elim (fun h => this.2.1 (.inr h)) this.2.2⟩
  · rcases List.mem_append.1 h with h | h
    · exact h1.late p excl l k h
    · have := h2.late p excl l k h
      rcases e2 with rfl | ⟨hb, rfl⟩
      · exact this
      · exact ⟨fun _ => this.1 rfl, fun e => by rw [hb] at e; cases e⟩
  · rw [h2.other p hp fun excl h => ho excl (List.mem_append_right _ h), h1.other p hp fun excl h => ho excl (List.mem_append_left _ h)]

theorem spoiledAt_modify_val {cells : List (Latch V)} {q : Nat} {f : V → V} {p : Nat} :
    SpoiledAt (cells.modify q fun l => { l with val := f l.val }) p ↔ SpoiledAt cells p := by
  unfold SpoiledAt
  rw [List.getElem?_modify]
  by_cases e : q = p
  · subst e
    cases cells[q]? <;> simp
  · simp [e]

theorem spoiledAt_modify {cells : List (Latch V)} {q : Nat} {p : Nat} (hq : q < cells.length) :
    SpoiledAt (cells.modify q fun l => { l with poisoned := true }) p ↔ SpoiledAt cells p ∨ p = q := by
  unfold SpoiledAt
  rw [List.getElem?_modify]
  by_cases e : q = p
  · subst e
    rw [List.getElem?_eq_getElem hq]; simp
  · simp [e, Ne.symm e]

theorem ran_refused {bare late : Bool} {held : List (Nat × Bool)} {s : Latches V} {p : Nat} {excl : Bool}
    (h : s.cells.length ≤ p ∨ SpoiledAt s.cells p) :
    LatchRun bare late held s { s with trace := s.trace ++ [.refused p excl] } [.refused p excl] := by
  refine ⟨rfl, rfl, fun q => by simp [Spoiled], fun i q ex hi => ?_, fun i q ex hi => ?_, fun q ex l k hm => by simp at hm, fun _ _ _ => rfl⟩
  · cases i with
    | zero => simp at hi; obtain ⟨rfl, rfl⟩ := hi; rcases h with h | h
              · exact .inl h
              · exact .inr (.inl h)
    | succ i => simp at hi
  · cases i with
    | zero => simp at hi
    | succ i => simp at hi

/-- The closure of an access was left. -/
theorem ran_closed {bare late : Bool} {held : List (Nat × Bool)} {s s1 : Latches V} {p : Nat} {excl : Bool} {ev : List Doing}
    (hp : p < s.cells.length) (hns : ¬ SpoiledAt s.cells p)
    (h : LatchRun bare late ((p, excl) :: held) { s with trace := s.trace ++ [.opened p excl] } s1 ev) :
    LatchRun bare late held s s1 (.opened p excl :: ev) := by
  refine ⟨by rw [h.trace]; simp, h.length, fun q => ?_, fun i q ex hi => ?_, fun i q ex hi => ?_, fun q ex l k hm => ?_, fun q hq ho => ?_⟩
  · rw [h.spoiled]; simp [Spoiled]
  · cases i with
    | zero => simp at hi
    | succ i =>
      have := h.refused i q ex (by simpa using hi)
      simpa [Spoiled] using this
  · cases i with
    | zero =>
      simp at hi
      obtain ⟨rfl, rfl⟩ := hi
      exact ⟨hp, hns, by simp [Spoiled]⟩
    | succ i =>
      have := h.opened i q ex (by simpa using hi)
      simpa [Spoiled] using this
  · exact h.late q ex l k (by simpa using hm)
  · refine h.other q ?_ fun ex h1 => ho ex (List.mem_cons_of_mem _ h1)
    intro h1
    rcases List.mem_cons.1 h1 with e | h1
    · cases e
      have := ho true List.mem_cons_self
      cases this
    · exact hq h1

theorem ran_close {bare late : Bool} {held : List (Nat × Bool)} {s s1 : Latches V} {p : Nat} {excl k : Bool} {ev : List Doing}
    (hp : p < s.cells.length) (hop : .opened p excl ∈ ev) (h : LatchRun bare late held s s1 ev) :
    LatchRun bare late held s
      { cells := if excl && !late && k then s1.cells.modify p fun l => { l with poisoned := true } else s1.cells
        trace := s1.trace ++ [.closed p excl late k] } (ev ++ [.closed p excl late k]) := by
  have hlen : s1.cells.length = s.cells.length := h.length
  refine ⟨by rw [h.trace]; simp, ?_, fun q => ?_, fun i q ex hi => ?_, fun i q ex hi => ?_, fun q ex l k' hm => ?_, fun q hq ho => ?_⟩
  · dsimp only; split
    · simpa using h.length
    · exact h.length
  · rw [Spoiled.append]
    dsimp only
    split
    · rename_i hc
      simp only [Bool.and_eq_true, Bool.not_eq_true'] at hc
      obtain ⟨⟨rfl, rfl⟩, rfl⟩ := hc
      rw [spoiledAt_modify (by omega), h.spoiled, or_assoc]
      simp [Spoiled]
    · rename_i hc
      rw [h.spoiled]
      have : ¬ Spoiled [.closed p excl late k] q := by
        unfold Spoiled
        intro hm
        simp only [List.mem_singleton, Doing.closed.injEq] at hm
        obtain ⟨_, rfl, rfl, rfl⟩ := hm
        exact hc rfl
      simp [this]
  · rw [List.getElem?_append] at hi
    split at hi
    · rename_i hlt
      rw [List.take_append_of_le_length (by omega)]
      exact h.refused i q ex hi
    · rename_i hge
      cases hj : i - ev.length with
      | zero => rw [hj] at hi; simp at hi
      | succ j => rw [hj] at hi; simp at hi
  · rw [List.getElem?_append] at hi
    split at hi
    · rename_i hlt
      rw [List.take_append_of_le_length (by omega)]
      exact h.opened i q ex hi
    · rename_i hge
      cases hj : i - ev.length with
      | zero => rw [hj] at hi; simp at hi
      | succ j => rw [hj] at hi; simp at hi
  · rcases List.mem_append.1 hm with hm | hm
    · exact h.late q ex l k' hm
    · simp only [List.mem_singleton, Doing.closed.injEq] at hm
      obtain ⟨_, _, rfl, _⟩ := hm
      exact ⟨fun e => e, fun _ e => e⟩
  · have h1 := h.other q hq fun ex h1 => ho ex (List.mem_append_left _ h1)
    dsimp only
    split
    · rename_i hc
      simp only [Bool.and_eq_true] at hc
      rw [List.getElem?_modify]
      by_cases e : p = q
      · subst e
        have := ho excl (List.mem_append_left _ hop)
        rw [this] at hc; simp at hc
      · simp [e, h1]
    · exact h1

theorem run_ran (a : Deed V) : ∀ (bare late : Bool) (held : List (Nat × Bool)) (s s' : Latches V) (f : Upshot),
    (bare = true → a.Bare) → a.run late held s = (f, s') → ∃ ev, LatchRun bare late held s s' ev := by
  induction a with
  | skip => intro bare late held s s' f _ h; cases h; exact ⟨[], .refl ..⟩
  | panic => intro bare late held s s' f _ h; cases h; exact ⟨[], .refl ..⟩
  | poke i g =>
    intro bare late held s s' f _ h
    simp only [Deed.run] at h
    split at h
    · rename_i p hp
      cases h
      refine ⟨[], by simp, by simp, fun q => ?_, fun i q ex hi => by simp at hi, fun i q ex hi => by simp at hi,
        fun q ex l k hm => by simp at hm, fun q hq _ => ?_⟩
      · dsimp only; rw [spoiledAt_modify_val]; simp [Spoiled]
      · dsimp only
        rw [List.getElem?_modify]
        by_cases e : p = q
        · subst e; exact absurd (List.mem_of_getElem? hp) hq
        · simp [e]
    · cases h; exact ⟨[], .refl ..⟩
  | seq a b iha ihb =>
    intro bare late held s s' f hb h
    simp only [Deed.run] at h
    cases ha : a.run late held s with
    | mk f1 s1 =>
      obtain ⟨ev, h1⟩ := iha bare late held s s1 f1 (fun e => (hb e).1) ha
      rw [ha] at h
      cases f1 with
      | calm =>
        obtain ⟨ev', h2⟩ := ihb bare late held s1 s' f (fun e => (hb e).2) h
        exact ⟨ev ++ ev', h1.trans h2 rfl (.inl rfl)⟩
      | unwinding => cases h; exact ⟨ev, h1⟩
      | aborted => cases h; exact ⟨ev, h1⟩
      | stuck => cases h; exact ⟨ev, h1⟩
  | choose i c a b iha ihb =>
    intro bare late held s s' f hb h
    simp only [Deed.run] at h
    split at h
    · split at h
      · exact iha bare late held s s' f (fun e => (hb e).1) h
      · exact ihb bare late held s s' f (fun e => (hb e).2) h
    · cases h; exact ⟨[], .refl ..⟩
  | access p excl a b iha ihb =>
    intro bare late held s s' f hb h
    have hr : (s.cells.length ≤ p ∨ SpoiledAt s.cells p) → b.run late held { s with trace := s.trace ++ [.refused p excl] } = (f, s') →
        ∃ ev, LatchRun bare late held s s' ev := by
      intro h1 h2
      obtain ⟨ev, h3⟩ := ihb bare late held _ s' f (fun e => (hb e).2) h2
      exact ⟨_, (ran_refused h1).trans h3 rfl (.inl rfl)⟩
    simp only [Deed.run] at h
    split at h
    · rename_i hn
      exact hr (.inl (List.getElem?_eq_none_iff.1 hn)) h
    · rename_i l hl
      split at h
      · split at h
        · rename_i hpo
          exact hr (.inr ⟨l, hl, hpo⟩) h
        · rename_i hpo
          have hp : p < s.cells.length := (List.getElem?_eq_some_iff.1 hl).1
          have hns : ¬ SpoiledAt s.cells p := by
            rintro ⟨l', hl', h1⟩
            rw [hl] at hl'; cases hl'; exact hpo h1
          cases ha : a.run late ((p, excl) :: held) { s with trace := s.trace ++ [.opened p excl] } with
          | mk f1 s1 =>
            obtain ⟨ev, h1⟩ := iha bare late _ _ s1 f1 (fun e => (hb e).1) ha
            have h2 := ran_closed hp hns h1
            rw [ha] at h
            cases f1 with
            | calm =>
              have := ran_close (k := false) hp List.mem_cons_self h2
              simp only [Bool.and_false, Bool.false_eq_true, if_false] at this
              cases h
              exact ⟨_, this⟩
            | unwinding =>
              have := ran_close (k := true) hp List.mem_cons_self h2
              simp only [Bool.and_true] at this
              cases h
              exact ⟨_, this⟩
            | aborted => cases h; exact ⟨_, h2⟩
            | stuck => cases h; exact ⟨_, h2⟩
      · cases h; exact ⟨[], .refl ..⟩
  | guarded d a ihd iha =>
    intro bare late held s s' f hb h
    have hbf : bare = false := by
      cases bare with
      | false => rfl
      | true => exact (hb rfl).elim
    subst hbf
    simp only [Deed.run] at h
    cases ha : a.run late held s with
    | mk f1 s1 =>
      obtain ⟨ev, h1⟩ := iha false late held s s1 f1 (fun e => (by cases e)) ha
      rw [ha] at h
      cases f1 with
      | calm =>
        obtain ⟨ev', h2⟩ := ihd false late held s1 s' f (fun e => (by cases e)) h
        exact ⟨ev ++ ev', h1.trans h2 rfl (.inl rfl)⟩
      | unwinding =>
        dsimp only at h
        cases hd : d.run true held s1 with
        | mk f2 s2 =>
          obtain ⟨ev', h2⟩ := ihd false true held s1 s2 f2 (fun e => (by cases e)) hd
          rw [hd] at h
          have := h1.trans h2 rfl (.inr ⟨rfl, rfl⟩)
          cases f2 <;> cases h <;> exact ⟨_, this⟩
      | aborted => cases h; exact ⟨ev, h1⟩
      | stuck => cases h; exact ⟨ev, h1⟩
  | catching a b iha ihb =>
    intro bare late held s s' f hb h
    simp only [Deed.run] at h
    cases ha : a.run late held s with
    | mk f1 s1 =>
      obtain ⟨ev, h1⟩ := iha bare late held s s1 f1 (fun e => (hb e).1) ha
      rw [ha] at h
      cases f1 with
      | unwinding =>
        obtain ⟨ev', h2⟩ := ihb bare late held s1 s' f (fun e => (hb e).2) h
        exact ⟨ev ++ ev', h1.trans h2 rfl (.inl rfl)⟩
      | calm => cases h; exact ⟨ev, h1⟩
      | aborted => cases h; exact ⟨ev, h1⟩
      | stuck => cases h; exact ⟨ev, h1⟩

end Plotline
