import Verif.Lemmas.Unwind

/-! # C117: panics while the thread is panicking already -/

namespace Plotline

variable {V : Type}

/-- A resource or target is disabled exactly if it was at the start, or a closure given it by `with_mut` was left by a panic, where the
thread was not panicking when that call was made. -/
theorem C117_disabled {a : Deed V} {late : Bool} {cells : List (Latch V)} {f : Upshot} {s' : Latches V}
    (h : a.run late [] ⟨cells, []⟩ = (f, s')) (p : Nat) : SpoiledAt s'.cells p ↔ SpoiledAt cells p ∨ Spoiled s'.trace p := by
  obtain ⟨ev, hr⟩ := run_ran a false late [] ⟨cells, []⟩ s' f (fun e => (by cases e)) h
  rw [hr.spoiled, hr.trace]; rfl

/-- A closure is called exactly if the resource or target is there and was not disabled before. -/
theorem C117_called {a : Deed V} {late : Bool} {cells : List (Latch V)} {f : Upshot} {s' : Latches V}
    (h : a.run late [] ⟨cells, []⟩ = (f, s')) {x y : List Doing} {e : Doing} (he : s'.trace = x ++ e :: y) (p : Nat) (excl : Bool) :
    (e = .opened p excl → p < cells.length ∧ ¬ SpoiledAt cells p ∧ ¬ Spoiled x p) ∧
    (e = .refused p excl → cells.length ≤ p ∨ SpoiledAt cells p ∨ Spoiled x p) := by
  obtain ⟨ev, hr⟩ := run_ran a false late [] ⟨cells, []⟩ s' f (fun e => (by cases e)) h
  have ht : ev = x ++ e :: y := by
    have := hr.trace
    rw [he] at this
    simpa using this.symm
  have hi : ev[x.length]? = some e := by rw [ht]; simp
  have hx : ev.take x.length = x := by rw [ht]; simp
  constructor
  · rintro rfl
    have := hr.opened _ p excl hi
    rwa [hx] at this
  · rintro rfl
    have := hr.refused _ p excl hi
    rwa [hx] at this

/-- Whatever is done while the thread is panicking disables nothing. -/
theorem C117_late {a : Deed V} {held : List (Nat × Bool)} {s s' : Latches V} {f : Upshot} (h : a.run true held s = (f, s')) (p : Nat) :
    SpoiledAt s'.cells p ↔ SpoiledAt s.cells p := by
  obtain ⟨ev, hr⟩ := run_ran a false true held s s' f (fun e => (by cases e)) h
  rw [hr.spoiled]
  constructor
  · rintro (h | h)
    · exact h
    · have := (hr.late _ _ _ _ h).1 rfl
      cases this
  · exact .inl

/-- So destructors run by unwinding disable nothing beyond what the panic they are run for did. -/
theorem C117_destructors {d a : Deed V} {late : Bool} {held : List (Nat × Bool)} {s s1 s' : Latches V} {f : Upshot}
    (ha : a.run late held s = (.unwinding, s1)) (h : (Deed.guarded d a).run late held s = (f, s')) (p : Nat) :
    f ≠ .calm ∧ (SpoiledAt s'.cells p ↔ SpoiledAt s1.cells p) := by
  simp only [Deed.run, ha] at h
  cases hd : d.run true held s1 with
  | mk f2 s2 =>
    rw [hd] at h
    have := C117_late hd p
    cases f2 <;> cases h <;> exact ⟨by simp, this⟩

/-- What is not disabled although a closure given it panicked keeps what that left in it, and later closures are given that: here a
destructor changes the value, panics and catches this. -/
theorem C117_torn (cells : List (Latch V)) (p : Nat) (v : V) (hp : cells[p]? = some ⟨v, false⟩) (g : V → V) (after : Deed V) (late : Bool) :
    ∃ tr, (Deed.seq (.catching (.guarded (.catching (.access p true (.seq (.poke 0 g) .panic) .skip) .skip) .panic) .skip) after).run late []
        ⟨cells, []⟩ = after.run late [] ⟨cells.set p ⟨g v, false⟩, tr⟩ ∧
      .closed p true true true ∈ tr := by
  have hlt := (List.getElem?_eq_some_iff.1 hp).1
  have e : (cells.modify p fun l => { l with val := g l.val }) = cells.set p ⟨g v, false⟩ := by
    apply List.ext_getElem?
    intro i
    rw [List.getElem?_modify, List.getElem?_set]
    by_cases hi : p = i
    · subst hi; rw [hp]; simp [hlt]
    · simp [hi]
  refine ⟨_, by simp [Deed.run, hp, mayLock, e]; rfl, by simp⟩

/-- If all destructors catch their panics the process is not aborted. -/
theorem C117_careful (a : Deed V) : a.Careful → ∀ late held s, (a.run late held s).1 ≠ .aborted := by
  induction a with
  | skip => intro _ _ _ _; simp [Deed.run]
  | panic => intro _ _ _ _; simp [Deed.run]
  | poke i g => intro _ _ _ _; simp only [Deed.run]; split <;> simp
  | guarded d a ihd iha =>
    rintro ⟨ha, hd, d', rfl⟩ late held s
    have h1 := iha ha late held s
    have h2 := ihd hd
    simp only [Deed.run] at h2 ⊢
    cases hr : a.run late held s with
    | mk f s1 =>
      rw [hr] at h1
      cases f with
      | calm => exact h2 late held s1
      | unwinding =>
        have h3 := h2 true held s1
        dsimp only
        cases hd' : d'.run true held s1 with
        | mk f2 s2 =>
          rw [hd'] at h3
          cases f2 <;> simp at h3 ⊢
      | aborted => simp at h1
      | stuck => simp
  | seq a b iha ihb =>
    intro hb late held s
    have h1 := iha hb.1 late held s
    simp only [Deed.run]
    split
    · exact ihb hb.2 _ _ _
    · exact h1
  | choose i c a b iha ihb =>
    intro hb late held s
    simp only [Deed.run]
    split
    · split
      · exact iha hb.1 _ _ _
      · exact ihb hb.2 _ _ _
    · simp
  | access p excl a b iha ihb =>
    intro hb late held s
    simp only [Deed.run]
    split
    · exact ihb hb.2 _ _ _
    · split
      · split
        · exact ihb hb.2 _ _ _
        · have h1 := iha hb.1 late ((p, excl) :: held) { s with trace := s.trace ++ [.opened p excl] }
          split
          · simp
          · simp
          · exact h1
      · simp
  | catching a b iha ihb =>
    intro hb late held s
    have h1 := iha hb.1 late held s
    simp only [Deed.run]
    split
    · exact ihb hb.2 _ _ _
    · exact h1

theorem Deed.Bare.careful {a : Deed V} (h : a.Bare) : a.Careful := by
  induction a with
  | skip => trivial
  | panic => trivial
  | poke i g => trivial
  | guarded d a => exact h.elim
  | seq a b iha ihb => exact ⟨iha h.1, ihb h.2⟩
  | choose i c a b iha ihb => exact ⟨iha h.1, ihb h.2⟩
  | access p excl a b iha ihb => exact ⟨iha h.1, ihb h.2⟩
  | catching a b iha ihb => exact ⟨iha h.1, ihb h.2⟩

/-- Without values with destructors that is otherwise: any panic that leaves a closure of `with_mut` disables the resource or target,
and the process is not aborted. -/
theorem C117_bare {a : Deed V} (hb : a.Bare) {cells : List (Latch V)} {f : Upshot} {s' : Latches V}
    (h : a.run false [] ⟨cells, []⟩ = (f, s')) :
    (∀ p late, .closed p true late true ∈ s'.trace → SpoiledAt s'.cells p) ∧ f ≠ .aborted := by
  constructor
  · intro p late hm
    obtain ⟨ev, hr⟩ := run_ran a true false [] ⟨cells, []⟩ s' f (fun _ => hb) h
    have ht : s'.trace = ev := by rw [hr.trace]; rfl
    rw [ht] at hm
    have := (hr.late _ _ _ _ hm).2 rfl rfl
    subst this
    exact (hr.spoiled p).2 (.inr hm)
  · have := C117_careful a hb.careful false [] ⟨cells, []⟩
    rw [h] at this
    exact this

/-- What no closure is given by `with_mut` is not changed, nor disabled. -/
theorem C117_others {a : Deed V} {late : Bool} {cells : List (Latch V)} {f : Upshot} {s' : Latches V}
    (h : a.run late [] ⟨cells, []⟩ = (f, s')) (p : Nat) (hp : .opened p true ∉ s'.trace) : s'.cells[p]? = cells[p]? := by
  obtain ⟨ev, hr⟩ := run_ran a false late [] ⟨cells, []⟩ s' f (fun e => (by cases e)) h
  have ht : s'.trace = ev := by rw [hr.trace]; rfl
  refine hr.other p (by simp) fun excl he => ?_
  cases excl with
  | false => rfl
  | true => exact absurd (ht ▸ he) hp

/-- A panic that leaves a destructor run by unwinding aborts the process: nothing catches it, and nothing is done any more. -/
theorem C117_aborts {d a b c : Deed V} {late : Bool} {held : List (Nat × Bool)} {s s1 s2 : Latches V}
    (ha : a.run late held s = (.unwinding, s1)) (hd : d.run true held s1 = (.unwinding, s2)) :
    (Deed.catching (.seq (.guarded d a) b) c).run late held s = (.aborted, s2) := by
  simp only [Deed.run, ha, hd]

/-- A call on what a closure around it has been given, of `with_mut` or in one of `with_mut`, never returns: also if the resource or
target is disabled, also in a destructor, and catching panics does not help. -/
theorem C117_waits {a b c : Deed V} {late : Bool} {held : List (Nat × Bool)} {s : Latches V} {p : Nat} {excl x : Bool}
    (hp : p < s.cells.length) (hh : (p, x) ∈ held) (he : excl = true ∨ x = true) :
    (Deed.catching (.access p excl a b) c).run late held s = (.stuck, s) := by
  have hm : mayLock held p excl = false := by
    rw [mayLock, List.all_eq_false]
    refine ⟨(p, x), hh, ?_⟩
    rcases he with rfl | rfl <;> simp
  simp only [Deed.run, List.getElem?_eq_getElem hp, hm, Bool.false_eq_true, if_false]

/-- Only such calls wait: a program that uses in its closures no resource or target of those around them, unless both only read it,
comes to an end. -/
theorem C117_ends (a : Deed V) : ∀ (late : Bool) (held : List (Nat × Bool)) (s : Latches V), a.Apart held →
    (a.run late held s).1 ≠ .stuck := by
  induction a with
  | skip => intro _ _ _ _; simp [Deed.run]
  | panic => intro _ _ _ _; simp [Deed.run]
  | poke i g => intro _ _ _ _; simp only [Deed.run]; split <;> simp
  | guarded d a ihd iha =>
    intro late held s hp
    have h1 := iha late held s hp.2
    simp only [Deed.run]
    cases hr : a.run late held s with
    | mk f s1 =>
      rw [hr] at h1
      cases f with
      | calm => exact ihd late held s1 hp.1
      | unwinding =>
        have h3 := ihd true held s1 hp.1
        dsimp only
        cases hd' : d.run true held s1 with
        | mk f2 s2 =>
          rw [hd'] at h3
          cases f2 <;> simp at h3 ⊢
      | aborted => simp
      | stuck => simp at h1
  | seq a b iha ihb =>
    intro late held s hp
    have h1 := iha late held s hp.1
    simp only [Deed.run]
    split
    · exact ihb _ _ _ hp.2
    · exact h1
  | choose i c a b iha ihb =>
    intro late held s hp
    simp only [Deed.run]
    split
    · split
      · exact iha _ _ _ hp.1
      · exact ihb _ _ _ hp.2
    · simp
  | access p excl a b iha ihb =>
    intro late held s hp
    have hm : mayLock held p excl = true := by
      rw [mayLock, List.all_eq_true]
      intro x hx
      obtain ⟨q, x⟩ := x
      by_cases e : q = p
      · subst e
        obtain ⟨rfl, rfl⟩ := hp.1 x hx
        simp
      · simp [e]
    simp only [Deed.run, hm, if_true]
    split
    · exact ihb _ _ _ hp.2.2
    · split
      · exact ihb _ _ _ hp.2.2
      · have h1 := iha late ((p, excl) :: held) { s with trace := s.trace ++ [.opened p excl] } hp.2.1
        split
        · simp
        · simp
        · exact h1
  | catching a b iha ihb =>
    intro late held s hp
    have h1 := iha late held s hp.1
    simp only [Deed.run]
    split
    · exact ihb _ _ _ hp.2
    · exact h1

/-! ## Cases -/

/-- A closure that changes a number and panics. -/
def spoil : Deed Nat := .access 0 true (.seq (.poke 0 (· + 7)) .panic) .skip

/-- It uses nothing in its closures that those around them have. -/
example : (Deed.guarded spoil (.access 1 true .panic .skip) : Deed Nat).Apart [] := by
  refine ⟨⟨?_, ⟨trivial, trivial⟩, trivial⟩, ?_, trivial, trivial⟩ <;> simp

/-- Nor does this, which reads in a closure what the closure reads: it comes to an end, also in a destructor. -/
example : (Deed.access 0 false (.guarded (.access 0 false .skip .skip) .panic) .skip : Deed Nat).Apart [] := by
  refine ⟨?_, ⟨⟨?_, trivial, trivial⟩, trivial⟩, trivial⟩ <;> simp

example : ((Deed.access 0 false (.guarded (.access 0 false .skip .skip) .panic) .skip : Deed Nat).run false [] ⟨[⟨1, false⟩], []⟩).1 =
    .unwinding := rfl

/-- Whether a closure panics may depend on what it was given: here only in the second of two calls. -/
example : (Deed.seq (.access 0 true (.choose 0 (· < 5) (.poke 0 (· + 7)) .panic) .skip)
      (.access 0 true (.choose 0 (· < 5) (.poke 0 (· + 7)) .panic) .skip)).run false [] ⟨[⟨1, false⟩], []⟩ =
    (.unwinding, ⟨[⟨8, true⟩], [.opened 0 true, .closed 0 true false false, .opened 0 true, .closed 0 true false true]⟩) := rfl

/-- Outside of destructors that disables the resource: the next closure is not called. -/
example : (Deed.seq (.catching spoil .skip) (.access 0 false .skip .skip)).run false [] ⟨[⟨1, false⟩], []⟩ =
    (.calm, ⟨[⟨8, true⟩], [.opened 0 true, .closed 0 true false true, .refused 0 false]⟩) := rfl

/-- In a destructor that is run by unwinding it does not. -/
example : (Deed.seq (.catching (.guarded (.catching spoil .skip) .panic) .skip) (.access 0 false .skip .skip)).run false [] ⟨[⟨1, false⟩], []⟩ =
    (.calm, ⟨[⟨8, false⟩], [.opened 0 true, .closed 0 true true true, .opened 0 false, .closed 0 false false false]⟩) := rfl

/-- In a destructor that is run without a panic it does, even if another is caught meanwhile. -/
example : (Deed.guarded (.catching spoil .skip) (.catching .panic .skip)).run false [] ⟨[⟨1, false⟩], []⟩ =
    (.calm, ⟨[⟨8, true⟩], [.opened 0 true, .closed 0 true false true]⟩) := rfl

/-- If the destructor does not catch the panic the process is aborted. -/
example : (Deed.catching (.guarded spoil .panic) .skip).run false [] ⟨[⟨1, false⟩], []⟩ =
    (.aborted, ⟨[⟨8, false⟩], [.opened 0 true, .closed 0 true true true]⟩) := rfl

/-- A panic out of a destructor that is run without one goes on to the caller. -/
example : (Deed.catching (.guarded spoil .skip) (.access 0 false .skip .skip)).run false [] ⟨[⟨1, false⟩], []⟩ =
    (.calm, ⟨[⟨8, true⟩], [.opened 0 true, .closed 0 true false true, .refused 0 false]⟩) := rfl

/-- The closure the panic goes through is not one of those: its resource is disabled, also if a destructor in it uses another. -/
example : (Deed.access 0 true (.guarded (.access 1 true (.poke 0 (· + 1)) .skip) .panic) .skip).run false [] ⟨[⟨1, false⟩, ⟨2, false⟩], []⟩ =
    (.unwinding, ⟨[⟨1, true⟩, ⟨3, false⟩],
      [.opened 0 true, .opened 1 true, .closed 1 true true false, .closed 0 true false true]⟩) := rfl

/-- A destructor that uses the resource of the closure it is in waits for ever. -/
example : ((Deed.access 0 true (.guarded spoil .panic) .skip).run false [] ⟨[⟨1, false⟩], []⟩).1 = .stuck := rfl

end Plotline
