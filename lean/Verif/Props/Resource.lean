import Verif.Lemmas.Resource
import Verif.Lemmas.Ops
import Verif.Props.Transaction

/-! # Properties C31 to C35: resources and scoped access -/

namespace Plotline

open Std

set_option linter.unusedSectionVars false

section
variable {Ty : Type} [Ord Ty] [DecidableEq Ty] [TransOrd Ty] [LawfulEqOrd Ty] {Val : Ty → Type}

/-! ## C31 -/

/-- C31: after any sequence of registrations, `Res` for `t` reads the last registered value of that type, and exists exactly
if there is one. -/
theorem C31_last_registration_wins (regs : List (Dyn Val)) (t : Ty) :
    let s := ResState.run (regs.map fun d => ResEvent.register d.1 d.2)
    (s.set.res t).peek s.heap = regs.reverse.findSome? (Dyn.downcast t) ∧
    ((s.set.res t).exists s.heap = true ↔ ∃ d ∈ regs, d.1 = t) := by
  have hpeek : ∀ regs : List (Dyn Val),
      ((ResState.run (regs.reverse.map fun d => ResEvent.register d.1 d.2)).set.res t).peek
        (ResState.run (regs.reverse.map fun d => ResEvent.register d.1 d.2)).heap = regs.findSome? (Dyn.downcast t) := by
    intro regs
    induction regs with
    | nil => rfl
    | cons d regs ih =>
      simp only [List.reverse_cons, List.map_append, List.map_cons, List.map_nil, run_snoc, List.findSome?_cons]
      have hi := run_inv (regs.reverse.map fun d => ResEvent.register d.1 d.2)
      generalize ResState.run (regs.reverse.map fun d => ResEvent.register d.1 d.2) = s at ih hi ⊢
      have hget : ((s.step (.register d.1 d.2)).set.res t) = if t = d.1 then ⟨some s.heap.length⟩ else s.set.res t := by
        show Res.mk (BTreeMap.findL t (BTreeMap.insertL d.1 _ _)) = _
        rw [BTreeMap.findL_insertL hi.sorted]
        by_cases e : t = d.1
        · simp [e]
        · simp [e]; rfl
      rw [hget]
      by_cases e : t = d.1
      · obtain ⟨t', v⟩ := d
        subst e
        simp only [if_true, downcast_self]
        simp [Res.peek, ResState.step, ResourceSet.withResource, downcast_self]
      · simp only [if_neg e]
        have hd : d.downcast t = none := by simp [Dyn.downcast, Ne.symm e]
        rw [hd, ← ih]
        apply peek_congr
        intro p hp
        have hlt : p < s.heap.length := by
          have h1 := (List.getElem?_eq_some_iff.1 ((hi.set t p).1 hp).1).1
          rw [← hi.types] at h1; simpa using h1
        show (s.heap ++ [_])[p]? = _
        rw [List.getElem?_append_left hlt]
  intro s
  have h1 : (s.set.res t).peek s.heap = regs.reverse.findSome? (Dyn.downcast t) := by
    have := hpeek regs.reverse
    rw [List.reverse_reverse] at this
    exact this
  refine ⟨h1, ?_⟩
  unfold Res.exists Res.with
  rw [h1]
  cases hf : regs.reverse.findSome? (Dyn.downcast t) with
  | none =>
    simp only [Bool.false_eq_true, false_iff]
    rintro ⟨d, hd, rfl⟩
    have := List.findSome?_eq_none_iff.1 hf d (by simpa using hd)
    obtain ⟨t', v⟩ := d
    rw [downcast_self] at this; cases this
  | some v =>
    simp only [true_iff]
    obtain ⟨d, hd, hv⟩ := List.exists_of_findSome?_eq_some hf
    refine ⟨d, by simpa using hd, ?_⟩
    unfold Dyn.downcast at hv
    split at hv
    · assumption
    · cases hv

/-! ## C32 -/

/-- C32: whatever happened before, a handle that refers to no registration reads nothing; a handle is `Refers` to the last
registration of its type when it was taken, or dangling. -/
theorem C32_handles (es : List (ResEvent Val)) (t : Ty) (more : List (ResEvent Val)) :
    (∃ r, Refers (es ++ .take t :: more) (taken es) t r ∧ IsLast (registrations es) t r) ∨
    (t ∉ registrations es ∧ reads (es ++ .take t :: more) (taken es) t = none) := by
  by_cases h : t ∈ registrations es
  · obtain ⟨r, hr⟩ := exists_isLast h
    exact .inl ⟨r, ⟨es, more, rfl, rfl, hr⟩, hr⟩
  · refine .inr ⟨h, ?_⟩
    have hd : Dangling (es ++ .take t :: more) (taken es) t := ⟨es, more, rfl, rfl, h⟩
    unfold reads
    rw [hd.handle]; rfl

/-- C32: after any history, a value written through one handle is what every handle to the same registration reads next. -/
theorem C32_write_is_shared (es : List (ResEvent Val)) (h1 h2 r : Nat) (t : Ty) (f : Val t → Val t × Bool) (v : Val t)
    (hr1 : Refers es h1 t r) (hr2 : Refers es h2 t r) (hv : reads es h1 t = some v) (hf : (f v).2 = false) :
    reads (es ++ [.write h1 t f]) h2 t = some (f v).1 := by
  rw [hr1.reads] at hv
  rw [(hr2.append _).reads, write_heap hr1, hv]
  simp only
  rw [peek_set_self _ _ _ _ hr1.lt, hf]; rfl

/-- C32: a write through one handle changes nothing for handles to other registrations, of its own or another type. -/
theorem C32_write_is_local (es : List (ResEvent Val)) (h1 h2 r1 r2 : Nat) (t1 t2 : Ty) (f : Val t1 → Val t1 × Bool)
    (hr1 : Refers es h1 t1 r1) (hr2 : Refers es h2 t2 r2) (hne : r1 ≠ r2) :
    reads (es ++ [.write h1 t1 f]) h2 t2 = reads es h2 t2 := by
  rw [(hr2.append _).reads, hr2.reads, write_heap hr1]
  split
  · rfl
  · exact peek_set_other _ _ _ _ hne

/-- C32: registering a value, of whatever type, changes nothing for the handles there are. -/
theorem C32_old_handles_keep (es : List (ResEvent Val)) (h r : Nat) (t t' : Ty) (v : Val t') (hr : Refers es h t r) :
    reads (es ++ [.register t' v]) h t = reads es h t := by
  rw [(hr.append _).reads, hr.reads, run_snoc]
  apply peek_congr
  intro p hp
  cases hp
  show ((ResState.run es).heap ++ [_])[r]? = _
  rw [List.getElem?_append_left hr.lt]

/-- C32: a handle taken right after a registration reads the registered value, and refers to a registration no earlier handle
refers to. -/
theorem C32_new_handle (es : List (ResEvent Val)) (t : Ty) (v : Val t) :
    reads (es ++ [.register t v, .take t]) (taken es) t = some v ∧
    Refers (es ++ [.register t v, .take t]) (taken es) t (registrations es).length ∧
    ∀ h t' r, Refers es h t' r → r ≠ (registrations es).length := by
  have hreg : registrations (es ++ [.register t v]) = registrations es ++ [t] := by simp [registrations_append, registrations]
  have hr : Refers (es ++ [.register t v, .take t]) (taken es) t (registrations es).length :=
    ⟨es ++ [.register t v], [], by simp, by simp [taken_append, taken], by rw [hreg, isLast_snoc, if_pos rfl]⟩
  have hlen : (ResState.run es).heap.length = (registrations es).length := by rw [← (run_inv es).types]; simp
  refine ⟨?_, hr, ?_⟩
  · rw [hr.reads]
    have : (ResState.run (es ++ [.register t v, .take t])).heap = (ResState.run es).heap ++ [⟨⟨t, v⟩, false⟩] := by
      rw [run_append]; rfl
    rw [this, ← hlen]
    simp [Res.peek, downcast_self]
  · intro h t' r h'
    have := h'.lt
    omega

/-- C32: taking a handle changes nothing for the handles there are. -/
theorem C32_take_is_silent (es : List (ResEvent Val)) (h r : Nat) (t t' : Ty) (hr : Refers es h t r) :
    reads (es ++ [.take t']) h t = reads es h t := by
  rw [(hr.append _).reads, hr.reads, run_snoc]; rfl

/-! ## C33 -/

/-- C33: once a writer panicked on a registration, then after any further history every handle to that registration reads
nothing, does not exist, and neither `with` nor `with_mut` runs its closure or changes anything. -/
theorem C33_poisoned_for_good (es more : List (ResEvent Val)) (h1 h2 r : Nat) (t : Ty) (f : Val t → Val t × Bool) (v : Val t)
    (hr1 : Refers es h1 t r) (hv : reads es h1 t = some v) (hf : (f v).2 = true)
    (hr2 : Refers (es ++ [.write h1 t f] ++ more) h2 t r) :
    let s := ResState.run (es ++ [.write h1 t f] ++ more)
    ∃ res, s.handle h2 t = some res ∧ res.peek s.heap = none ∧ res.exists s.heap = false ∧
      (∀ (R : Type) (q : Val t → Option R), res.with s.heap q = .unavailable) ∧
      (∀ (R : Type) (q : Val t → Val t × Option R), res.withMut s.heap q = (.unavailable, s.heap)) := by
  intro s
  -- the cell stays poisoned
  have hp : ∀ more : List (ResEvent Val), ∃ c, (ResState.run (es ++ [.write h1 t f] ++ more)).heap[r]? = some c ∧
      c.poisoned = true := by
    have gen : ∀ more : List (ResEvent Val), ∃ c,
        (ResState.run (es ++ [.write h1 t f] ++ more.reverse)).heap[r]? = some c ∧ c.poisoned = true := by
      intro more
      induction more with
      | nil =>
        rw [hr1.reads] at hv
        simp only [List.reverse_nil, List.append_nil]
        rw [write_heap hr1, hv]
        simp only
        exact ⟨⟨⟨t, (f v).1⟩, (f v).2⟩, by simp [hr1.lt], hf⟩
      | cons e more ih =>
        obtain ⟨c, hc, hp⟩ := ih
        rw [List.reverse_cons, ← List.append_assoc, run_snoc]
        generalize ResState.run (es ++ [.write h1 t f] ++ more.reverse) = st at hc ⊢
        have hlt := (List.getElem?_eq_some_iff.1 hc).1
        cases e with
        | register t' v' =>
          refine ⟨c, ?_, hp⟩
          show (st.heap ++ [_])[r]? = _
          rw [List.getElem?_append_left hlt]; exact hc
        | take t' => exact ⟨c, hc, hp⟩
        | write h t' f' =>
          refine ⟨c, ?_, hp⟩
          simp only [ResState.step]
          split
          · exact hc
          · rename_i res _
            obtain ⟨l⟩ := res
            cases l with
            | none => exact hc
            | some q =>
              simp only [withMut_heap]
              split
              · exact hc
              · rename_i w hw
                have hne : q ≠ r := by
                  rintro rfl
                  simp [Res.peek, hc, hp] at hw
                simpa [hne] using hc
    have := gen more.reverse
    simpa using fun m => (by simpa using gen m.reverse :
      ∃ c, (ResState.run (es ++ [.write h1 t f] ++ m)).heap[r]? = some c ∧ c.poisoned = true)
  obtain ⟨c, hc, hpo⟩ := hp more
  change s.heap[r]? = some c at hc
  refine ⟨⟨some r⟩, hr2.handle, ?_⟩
  clear_value s
  refine ⟨?_, ?_, ?_, ?_⟩
  · simp [Res.peek, hc, hpo]
  · simp [Res.exists, Res.with, Res.peek, hc, hpo]
  · intro R q; simp [Res.with, Res.peek, hc, hpo]
  · intro R q; simp [Res.withMut, hc, hpo]

/-- C33: other registrations are unaffected by a panicking writer; a fresh registration of the type works. -/
theorem C33_others_unaffected (es : List (ResEvent Val)) (h1 h2 r1 r2 : Nat) (t1 t2 : Ty) (f : Val t1 → Val t1 × Bool)
    (v : Val t1) (hr1 : Refers es h1 t1 r1) (hr2 : Refers es h2 t2 r2) (hne : r1 ≠ r2) :
    reads (es ++ [.write h1 t1 f]) h2 t2 = reads es h2 t2 ∧
    reads (es ++ [.write h1 t1 f] ++ [.register t1 v, .take t1]) (taken es) t1 = some v := by
  refine ⟨C32_write_is_local es h1 h2 r1 r2 t1 t2 f hr1 hr2 hne, ?_⟩
  have := (C32_new_handle (es ++ [.write h1 t1 f]) t1 v).1
  have ht : taken (es ++ [.write h1 t1 f]) = taken es := by simp [taken_append, taken]
  rw [ht] at this; exact this

/-! ## C35 -/

/-- C35 is false of the code for tuples with a member twice: `with_mut` never returns, although both are available. -/
theorem C35_refuted : ∃ (heap : Heap (fun _ : Nat => Nat)) (hs : Handles [0, 0]) (vs : Values (fun _ : Nat => Nat) [0, 0]),
    hs.Read heap vs ∧ ∀ (R : Type) (f : Values (fun _ : Nat => Nat) [0, 0] → Values (fun _ : Nat => Nat) [0, 0] × Option R),
      hs.withMut heap f = (.stuck, heap) := by
  refine ⟨[⟨⟨0, 7⟩, false⟩], .cons ⟨some 0⟩ (.cons ⟨some 0⟩ .nil), .cons 7 (.cons 7 .nil), ?_, ?_⟩
  · exact .cons rfl (.cons rfl .nil)
  · intro R f; rfl

/-- C35 for `with`, any number of members, members may repeat: if all members are available the closure runs on their values
in order and its result (or panic) is the result. -/
theorem C35_with_available {R : Type} (heap : Heap Val) {ts : List Ty} (hs : Handles ts) (vs : Values Val ts)
    (hr : hs.Read heap vs) (f : Values Val ts → Option R) :
    hs.with heap f = match f vs with | some r => .ran r | none => .panicked := by
  unfold Handles.with
  rw [(derefAll_read heap hs vs).2 hr]
  rfl

/-- C35 for `with`: if some member is not available the result is `None` without running the closure. -/
theorem C35_with_unavailable {R : Type} (heap : Heap Val) {ts : List Ty} (hs : Handles ts)
    (hr : ¬ ∃ vs, hs.Read heap vs) (f : Values Val ts → Option R) : hs.with heap f = .unavailable := by
  unfold Handles.with
  cases h : derefAll heap ts (readGuards heap hs) with
  | none => rfl
  | some vs => exact absurd ⟨vs, (derefAll_read heap hs vs).1 h⟩ hr

/-- C35 for `with_mut`, any number of members referring to different cells: if all are available the closure runs on their
values in order; when it returns every member holds the value it left; when it panics no member is available any more; no
other cell changes.
Missing from C35: tuples with two members for the same resource, on which `with_mut` blocks (`C35_refuted`). -/
theorem C35_with_mut_available_partial {R : Type} (heap : Heap Val) {ts : List Ty} (hs : Handles ts) (vs : Values Val ts)
    (hd : hs.cells.Nodup) (hr : hs.Read heap vs) (f : Values Val ts → Values Val ts × Option R) :
    (∀ r, (f vs).2 = some r → (hs.withMut heap f).1 = .ran r ∧ hs.Read (hs.withMut heap f).2 (f vs).1) ∧
    ((f vs).2 = none → (hs.withMut heap f).1 = .panicked ∧ hs.Dead (hs.withMut heap f).2) ∧
    (∀ q, q ∉ hs.cells → (hs.withMut heap f).2[q]? = heap[q]?) := by
  unfold Handles.withMut
  rw [writeGuards_eq heap hs [] hd (by simp)]
  simp only [(derefAll_read heap hs vs).2 hr]
  rcases hf : f vs with ⟨vs', o⟩
  cases o
  case none =>
    refine ⟨(by intro r h; cases h), fun _ => ⟨rfl, ?_⟩, fun q hq => writeBack_other true heap hs vs' heap q hq⟩
    exact writeBack_read true heap hs vs vs' heap hd hr rfl
  case some r =>
    refine ⟨fun r' h => ?_, (by intro h; cases h), fun q hq => writeBack_other false heap hs vs' heap q hq⟩
    cases h
    exact ⟨rfl, writeBack_read false heap hs vs vs' heap hd hr rfl⟩

/-- C35 for `with_mut`: if some member is not available the result is `None` without running the closure and nothing
changes. -/
theorem C35_with_mut_unavailable_partial {R : Type} (heap : Heap Val) {ts : List Ty} (hs : Handles ts)
    (hd : hs.cells.Nodup) (hr : ¬ ∃ vs, hs.Read heap vs) (f : Values Val ts → Values Val ts × Option R) :
    hs.withMut heap f = (.unavailable, heap) := by
  unfold Handles.withMut
  rw [writeGuards_eq heap hs [] hd (by simp)]
  simp only
  cases h : derefAll heap ts (readGuards heap hs) with
  | none => rfl
  | some vs => exact absurd ⟨vs, (derefAll_read heap hs vs).1 h⟩ hr

/-- C35, exactly when `with_mut` does not return: two members refer to the same resource and nobody panicked while writing
it. -/
theorem C35_with_mut_waits_iff_partial {R : Type} (heap : Heap Val) {ts : List Ty} (hs : Handles ts)
    (f : Values Val ts → Values Val ts × Option R) : (hs.withMut heap f).1 = .stuck ↔ hs.Clash heap := by
  obtain ⟨h1, h2⟩ := writeGuards_cases heap hs [] (by simp)
  unfold Handles.withMut
  by_cases hc : hs.Clash heap
  · rw [h1 (.inl hc)]; exact ⟨fun _ => hc, fun _ => rfl⟩
  · rw [h2 (fun h => h.elim hc fun ⟨_, _, h⟩ => by cases h)]
    simp only
    refine ⟨fun h => ?_, fun h => (hc h).elim⟩
    split at h
    · cases h
    · split at h <;> cases h

/-- C35: in all other cases a tuple with an unavailable member gives `None` without running the closure, and nothing changes,
also when a member that cannot be had any more is there twice. -/
theorem C35_with_mut_unavailable {R : Type} (heap : Heap Val) {ts : List Ty} (hs : Handles ts)
    (hc : ¬ hs.Clash heap) (hr : ¬ ∃ vs, hs.Read heap vs) (f : Values Val ts → Values Val ts × Option R) :
    hs.withMut heap f = (.unavailable, heap) := by
  unfold Handles.withMut
  rw [(writeGuards_cases heap hs [] (by simp)).2 (fun h => h.elim hc fun ⟨_, _, h⟩ => by cases h)]
  simp only
  cases h : derefAll heap ts (readGuards heap hs) with
  | none => rfl
  | some vs => exact absurd ⟨vs, (derefAll_read heap hs vs).1 h⟩ hr

example : Handles.withMut (Val := fun _ : Nat => Nat) (R := Nat) (.cons (t := 0) ⟨some 0⟩ (.cons (t := 0) ⟨some 0⟩ .nil)) [⟨⟨0, 7⟩, true⟩]
    (fun vs => (vs, some 1)) = (.unavailable, [⟨⟨0, 7⟩, true⟩]) := rfl

/-- C35: whatever the members, `with_mut` that does not run its closure changes nothing. -/
theorem C35_all_or_nothing {R : Type} (heap : Heap Val) {ts : List Ty} (hs : Handles ts)
    (f : Values Val ts → Values Val ts × Option R)
    (h : (hs.withMut heap f).1 = .unavailable ∨ (hs.withMut heap f).1 = .stuck) : (hs.withMut heap f).2 = heap := by
  unfold Handles.withMut at h ⊢
  split
  · rfl
  · rename_i gs hg
    split
    · rfl
    · rename_i vs hv
      rw [hg] at h
      simp only [hv] at h
      split at h <;> simp at h

end

/-! Examples for C31 to C33 and C35. -/

section
abbrev natVal : Nat → Type := fun _ => Nat

example : (let s := ResState.run (Val := natVal) [.register 1 10, .register 2 20, .register 1 11]
    ((s.set.res 1).peek s.heap, (s.set.res 2).peek s.heap, (s.set.res 3).exists s.heap)) = (some 11, some 20, false) := by
  decide +kernel

/-- Two handles to the first registration of type 1, one to the second, one to type 2. -/
def resHistory : List (ResEvent natVal) :=
  [.register 1 10, .take 1, .take 1, .register 1 11, .take 1, .register 2 20, .take 2]

example : Refers resHistory 0 1 0 ∧ Refers resHistory 1 1 0 ∧ Refers resHistory 2 1 1 ∧ Refers resHistory 3 2 2 := by
  have hl : ∀ (ts : List Nat) (t r : Nat), ts[r]? = some t → (∀ j, j < ts.length → r < j → ts[j]? ≠ some t) → IsLast ts t r :=
    fun ts t r h1 h2 => ⟨h1, fun j hj hc => h2 j (List.getElem?_eq_some_iff.1 hc).1 hj hc⟩
  refine ⟨⟨resHistory.take 1, resHistory.drop 2, rfl, rfl, hl _ _ _ rfl (by decide)⟩,
    ⟨resHistory.take 2, resHistory.drop 3, rfl, rfl, hl _ _ _ rfl (by decide)⟩,
    ⟨resHistory.take 4, resHistory.drop 5, rfl, rfl, hl _ _ _ rfl (by decide)⟩,
    ⟨resHistory.take 6, resHistory.drop 7, rfl, rfl, hl _ _ _ rfl (by decide)⟩⟩

example : (reads resHistory 0 1, reads resHistory 1 1, reads resHistory 2 1, reads resHistory 3 2) =
    (some 10, some 10, some 11, some 20) := by decide +kernel
example : (let es := resHistory ++ [.write 0 1 fun v => (v + 5, false)]
    (reads es 0 1, reads es 1 1, reads es 2 1, reads es 3 2)) = (some 15, some 15, some 11, some 20) := by decide +kernel
example : (let es := resHistory ++ [.write 0 1 fun v => (v + 5, true), .write 1 1 fun _ => (99, false)]
    (reads es 0 1, reads es 1 1, reads es 2 1, reads es 3 2)) = (none, none, some 11, some 20) := by decide +kernel

/-- Two available members, one poisoned. -/
def tupleHeap : Heap natVal := [⟨⟨1, 10⟩, false⟩, ⟨⟨2, 20⟩, false⟩, ⟨⟨3, 30⟩, true⟩]

def pair : Handles [1, 2] := .cons ⟨some 0⟩ (.cons ⟨some 1⟩ .nil)
def triple : Handles [1, 2, 3] := .cons ⟨some 0⟩ (.cons ⟨some 1⟩ (.cons ⟨some 2⟩ .nil))

example : pair.Read tupleHeap (.cons (Val := natVal) (t := 1) (10 : Nat) (.cons (t := 2) (20 : Nat) .nil)) ∧ pair.cells.Nodup :=
  ⟨.cons rfl (.cons rfl .nil), by decide⟩
example : ¬ ∃ vs : Values natVal [1, 2, 3], triple.Read tupleHeap vs := by
  rintro ⟨vs, h⟩
  cases h with | cons _ h => cases h with | cons _ h => cases h with | cons h _ => cases h
end

/-! ## C34 -/

section
variable {σ : Sig}

/-- A schema with one resource, of type 4. -/
def counterSchema : Schema demo := demoSchema.withResource 4 (10 : Nat)

/-- C34 is false of the code: a transaction that fails after writing a resource leaves the write. -/
theorem C34_refuted : ∃ (S S' : Schema demo) (body : Prog demo) (t : Nat),
    S.transact 10 [] body = some (.ret (.error (.msg "no")), S') ∧
    (S.env.resources.res t).peek S.heap = some (10 : Nat) ∧ (S'.env.resources.res t).peek S'.heap = some (11 : Nat) := by
  refine ⟨counterSchema, { counterSchema with heap := [⟨⟨4, (11 : Nat)⟩, false⟩] },
    .resWrite 4 (fun v : Nat => (v + 1, false)) fun _ => .done (.error (.msg "no")), 4, rfl, ?_, ?_⟩ <;> decide +kernel

/-- C34, what does hold: a transaction that does not return `Ok`, and neither writes a resource itself nor has a trigger that
does, leaves graph, resource set and resources identical.
Missing from C34: closures and triggers that write resources. -/
theorem C34_no_trace_partial (S S' : Schema σ) (fuel : Nat) (pre : List (Operation σ.K σ.T)) (body : Prog σ)
    (out : Out (Except Error σ.V)) (hbody : body.Every Prog.NoResWrite) (htr : S.env.Every Prog.NoResWrite)
    (h : S.transact fuel pre body = some (out, S')) (hfail : ∀ v, out ≠ .ret (.ok v)) :
    S'.guard = S.guard ∧ S'.heap = S.heap ∧ S'.env = S.env := by
  refine ⟨C12_failure_keeps_graph S S' fuel pre body out h hfail, ?_, ?_⟩
  · obtain ⟨s, he, _, hheap, _⟩ := transact_some h
    rw [hheap, eval_heap htr hbody (begin_env S pre) he]; rfl
  · obtain ⟨s, _, henv, _⟩ := transact_some h; exact henv

/-- C34, whatever the closure does: a transaction that does not return `Ok` leaves the graph, the registered triggers and the
set of registered resources identical; only values of resources may change. -/
theorem C34_graph_and_registrations (S S' : Schema σ) (fuel : Nat) (pre : List (Operation σ.K σ.T)) (body : Prog σ)
    (out : Out (Except Error σ.V)) (h : S.transact fuel pre body = some (out, S')) (hfail : ∀ v, out ≠ .ret (.ok v)) :
    S'.guard = S.guard ∧ S'.env = S.env := by
  obtain ⟨s, _, henv, _⟩ := transact_some h
  exact ⟨C12_failure_keeps_graph S S' fuel pre body out h hfail, henv⟩

example : (Prog.save (σ := demo) 0 ⟨7, 70⟩ (.resRead 4 fun _ => .done (.error (.msg "no")))).Every Prog.NoResWrite := by
  simp [Prog.Every, Prog.NoResWrite]

end

end Plotline
