import Verif.Spec.Resource
import Verif.Lemmas.BTree

/-! # Histories of resource use -/

namespace Plotline

open Std

set_option linter.unusedSectionVars false

variable {Ty : Type} [Ord Ty] [DecidableEq Ty] {Val : Ty → Type}

theorem registrations_append (a b : List (ResEvent Val)) : registrations (a ++ b) = registrations a ++ registrations b := by
  induction a with
  | nil => rfl
  | cons e a ih => cases e <;> simp [registrations, ih]

theorem taken_append (a b : List (ResEvent Val)) : taken (a ++ b) = taken a + taken b := by
  induction a with
  | nil => simp [taken]
  | cons e a ih => cases e <;> simp [taken, ih] <;> omega

theorem run_append (a b : List (ResEvent Val)) : ResState.run (a ++ b) = b.foldl ResState.step (ResState.run a) := by
  simp [ResState.run]

theorem run_snoc (a : List (ResEvent Val)) (e : ResEvent Val) : ResState.run (a ++ [e]) = (ResState.run a).step e := by
  rw [run_append]; rfl

theorem IsLast.unique {ts : List Ty} {t : Ty} {r r' : Nat} (h : IsLast ts t r) (h' : IsLast ts t r') : r = r' := by
  rcases Nat.lt_trichotomy r r' with hl | hl | hl
  · exact absurd h'.1 (h.2 r' hl)
  · exact hl
  · exact absurd h.1 (h'.2 r hl)

theorem IsLast.mem {ts : List Ty} {t : Ty} {r : Nat} (h : IsLast ts t r) : t ∈ ts := List.mem_of_getElem? h.1

theorem isLast_snoc (ts : List Ty) (t0 t : Ty) (r : Nat) :
    IsLast (ts ++ [t0]) t r ↔ if t = t0 then r = ts.length else IsLast ts t r := by
  split
  · rename_i h
    subst h
    constructor
    · intro h
      refine h.unique ⟨by simp, fun j hj hc => ?_⟩
      have := (List.getElem?_eq_some_iff.1 hc).1
      simp at this; omega
    · rintro rfl
      refine ⟨by simp, fun j hj hc => ?_⟩
      have := (List.getElem?_eq_some_iff.1 hc).1
      simp at this; omega
  · rename_i hne
    have key : ∀ j : Nat, (ts ++ [t0])[j]? = some t ↔ ts[j]? = some t := by
      intro j
      rcases Nat.lt_trichotomy j ts.length with hl | rfl | hl
      · rw [List.getElem?_append_left hl]
      · simp [Ne.symm hne]
      · rw [List.getElem?_eq_none (by simp; omega), List.getElem?_eq_none (by omega)]
    unfold IsLast
    simp only [key]
    constructor
    · rintro ⟨h1, h2⟩; exact ⟨h1, fun j hj hc => h2 j hj ((key j).2 hc)⟩
    · rintro ⟨h1, h2⟩; exact ⟨h1, fun j hj hc => h2 j hj ((key j).1 hc)⟩

theorem exists_isLast {ts : List Ty} {t : Ty} (h : t ∈ ts) : ∃ r, IsLast ts t r := by
  have gen : ∀ us : List Ty, t ∈ us.reverse → ∃ r, IsLast us.reverse t r := by
    intro us
    induction us with
    | nil => intro h; simp at h
    | cons u us ih =>
      intro h
      rw [List.reverse_cons]
      by_cases e : t = u
      · exact ⟨us.reverse.length, (isLast_snoc ..).2 (by rw [if_pos e])⟩
      · obtain ⟨r, hr⟩ := ih (by simp [e] at h; simpa using h)
        exact ⟨r, (isLast_snoc ..).2 (by rw [if_neg e]; exact hr)⟩
  have := gen ts.reverse (by simpa using h)
  simpa using this

theorem downcast_self (t : Ty) (v : Val t) : Dyn.downcast t (⟨t, v⟩ : Dyn Val) = some v := by simp [Dyn.downcast]

/-- The cell a successful or panicking writer leaves, and that nothing else changes. -/
theorem withMut_heap {t : Ty} {R : Type} (p : Nat) (heap : Heap Val) (f : Val t → Val t × Option R) :
    ((⟨some p⟩ : Res t).withMut heap f).2 =
      match (⟨some p⟩ : Res t).peek heap with
      | none => heap
      | some v => heap.set p ⟨⟨t, (f v).1⟩, (f v).2.isNone⟩ := by
  unfold Res.withMut Res.peek
  simp only
  cases heap[p]? with
  | none => rfl
  | some cell =>
    by_cases hp : cell.poisoned
    · simp [hp]
    · simp only [hp]
      cases hd : cell.val.downcast t with
      | none => simp
      | some v =>
        simp only
        rcases hf : f v with ⟨v', (_ | x)⟩ <;> simp [hf]

theorem peek_set_self {t : Ty} (p : Nat) (heap : Heap Val) (v : Val t) (b : Bool) (hp : p < heap.length) :
    (⟨some p⟩ : Res t).peek (heap.set p ⟨⟨t, v⟩, b⟩) = if b then none else some v := by
  simp [Res.peek, hp, downcast_self]

theorem peek_set_other {t : Ty} (p q : Nat) (heap : Heap Val) (c : Lock (Dyn Val)) (h : p ≠ q) :
    (⟨some q⟩ : Res t).peek (heap.set p c) = (⟨some q⟩ : Res t).peek heap := by
  simp [Res.peek, h]

theorem peek_lt {t : Ty} {p : Nat} {heap : Heap Val} {v : Val t} (h : (⟨some p⟩ : Res t).peek heap = some v) :
    p < heap.length := by
  unfold Res.peek at h
  simp only at h
  cases hc : heap[p]? with
  | none => simp [hc] at h
  | some c => exact (List.getElem?_eq_some_iff.1 hc).1

theorem peek_none {t : Ty} (heap : Heap Val) : (⟨none⟩ : Res t).peek heap = none := rfl

/-- What holds of the state after any history. -/
structure ResInv (es : List (ResEvent Val)) (s : ResState Val) : Prop where
  types : s.heap.map (fun c => c.val.1) = registrations es
  sorted : BTreeMap.Sorted s.set.resources.entries
  set : ∀ t r, s.set.resources.get t = some r ↔ IsLast (registrations es) t r
  handles : s.handles.length = taken es

section
variable [TransOrd Ty] [LawfulEqOrd Ty]

theorem step_types (s : ResState Val) (h : Nat) (t : Ty) (f : Val t → Val t × Bool) :
    (s.step (.write h t f)).heap.map (fun c => c.val.1) = s.heap.map (fun c => c.val.1) := by
  simp only [ResState.step]
  split
  · rfl
  · rename_i r _
    obtain ⟨l⟩ := r
    cases l with
    | none => rfl
    | some p =>
      simp only [withMut_heap]
      split
      · rfl
      · rename_i v hv
        have hp := peek_lt hv
        have ht : (s.heap[p].val).1 = t := by
          unfold Res.peek at hv
          simp only [List.getElem?_eq_getElem hp] at hv
          split at hv
          · cases hv
          · unfold Dyn.downcast at hv
            split at hv
            · assumption
            · cases hv
        apply List.ext_getElem?
        intro i
        simp only [List.getElem?_map, List.getElem?_set]
        by_cases hi : p = i
        · subst hi; simp [hp, ht]
        · simp [hi]

theorem step_handles_prefix (s : ResState Val) (e : ResEvent Val) : s.handles <+: (s.step e).handles := by
  cases e with
  | register t v => exact List.prefix_refl _
  | take t => exact List.prefix_append _ _
  | write h t f => simp only [ResState.step]; split <;> exact List.prefix_refl _

theorem foldl_handles_prefix (es : List (ResEvent Val)) (s : ResState Val) :
    s.handles <+: (es.foldl ResState.step s).handles := by
  induction es generalizing s with
  | nil => exact List.prefix_refl _
  | cons e es ih => exact (step_handles_prefix s e).trans (ih _)

theorem run_inv (es : List (ResEvent Val)) : ResInv es (ResState.run es) := by
  have gen : ∀ es : List (ResEvent Val), ResInv es.reverse (ResState.run es.reverse) := by
    intro es
    induction es with
    | nil =>
      refine ⟨rfl, List.Pairwise.nil, fun t r => ?_, rfl⟩
      simp [ResState.run, ResourceSet.empty, BTreeMap.get, BTreeMap.empty, BTreeMap.findL, IsLast, registrations]
    | cons e es ih =>
      rw [List.reverse_cons, run_snoc]
      generalize es.reverse = l at ih ⊢
      cases e with
      | register t v =>
        refine ⟨?_, BTreeMap.sorted_insertL ih.sorted, fun t' r => ?_, ?_⟩
        · simp only [ResState.step, ResourceSet.withResource, List.map_append, ih.types, registrations_append]; rfl
        · have hl : (ResState.run l).heap.length = (registrations l).length := by rw [← ih.types]; simp
          rw [registrations_append]
          show BTreeMap.findL t' (BTreeMap.insertL t _ _) = some r ↔ IsLast (_ ++ [t]) t' r
          rw [BTreeMap.findL_insertL ih.sorted, isLast_snoc]
          by_cases e : t' = t
          · subst e
            simp only [compare_eq_iff_eq, if_true, Option.some.injEq, hl]
            exact eq_comm
          · rw [if_neg e, if_neg (by simpa using e)]; exact ih.set t' r
        · simp only [ResState.step, taken_append, taken, ih.handles]; rfl
      | take t =>
        refine ⟨?_, ih.sorted, fun t' r => ?_, ?_⟩
        · simpa [ResState.step, registrations_append, registrations] using ih.types
        · simpa [ResState.step, registrations_append, registrations] using ih.set t' r
        · simp [ResState.step, taken_append, taken, ih.handles]
      | write h t f =>
        have hset : ((ResState.run l).step (.write h t f)).set = (ResState.run l).set := by
          simp only [ResState.step]; split <;> rfl
        have hh : ((ResState.run l).step (.write h t f)).handles = (ResState.run l).handles := by
          simp only [ResState.step]; split <;> rfl
        refine ⟨?_, by rw [hset]; exact ih.sorted, fun t' r => ?_, ?_⟩
        · rw [step_types, ih.types, registrations_append]; simp [registrations]
        · rw [hset, registrations_append]; simpa [registrations] using ih.set t' r
        · rw [hh, ih.handles, taken_append]; rfl
  have := gen es.reverse
  simpa using this

/-- The handle taken at a given point of a history. -/
theorem handle_at (pre post : List (ResEvent Val)) (t : Ty) :
    (ResState.run (pre ++ .take t :: post)).handle (taken pre) t = some ⟨(ResState.run pre).set.resources.get t⟩ := by
  have hp : ((ResState.run pre).step (.take t)).handles <+: (ResState.run (pre ++ .take t :: post)).handles := by
    rw [run_append]; exact foldl_handles_prefix post _
  obtain ⟨rest, hr⟩ := hp
  unfold ResState.handle
  rw [← hr, ← (run_inv pre).handles]
  simp [ResState.step, ResourceSet.res]

theorem Refers.handle {es : List (ResEvent Val)} {h : Nat} {t : Ty} {r : Nat} (hr : Refers es h t r) :
    (ResState.run es).handle h t = some ⟨some r⟩ := by
  obtain ⟨pre, post, rfl, rfl, hl⟩ := hr
  rw [handle_at, ((run_inv pre).set t r).2 hl]

theorem Dangling.handle {es : List (ResEvent Val)} {h : Nat} {t : Ty} (hd : Dangling es h t) :
    (ResState.run es).handle h t = some ⟨none⟩ := by
  obtain ⟨pre, post, rfl, rfl, hl⟩ := hd
  rw [handle_at]
  cases hg : (ResState.run pre).set.resources.get t with
  | none => rfl
  | some r => exact absurd (((run_inv pre).set t r).1 hg).mem hl

theorem Refers.append {es : List (ResEvent Val)} {h : Nat} {t : Ty} {r : Nat} (hr : Refers es h t r)
    (more : List (ResEvent Val)) : Refers (es ++ more) h t r := by
  obtain ⟨pre, post, rfl, rfl, hl⟩ := hr
  exact ⟨pre, post ++ more, by simp, rfl, hl⟩

theorem Refers.lt {es : List (ResEvent Val)} {h : Nat} {t : Ty} {r : Nat} (hr : Refers es h t r) :
    r < (ResState.run es).heap.length := by
  have hi := run_inv es
  obtain ⟨pre, post, rfl, rfl, hl⟩ := hr
  have h1 : r < (registrations pre).length := (List.getElem?_eq_some_iff.1 hl.1).1
  have h2 : (ResState.run (pre ++ .take t :: post)).heap.length = (registrations (pre ++ .take t :: post)).length := by
    rw [← hi.types]; simp
  rw [h2, registrations_append]
  simp only [List.length_append]; omega

theorem Refers.reads {es : List (ResEvent Val)} {h : Nat} {t : Ty} {r : Nat} (hr : Refers es h t r) :
    reads es h t = (⟨some r⟩ : Res t).peek (ResState.run es).heap := by
  unfold Plotline.reads; rw [hr.handle]

/-- The cells after one more write. -/
theorem write_heap {es : List (ResEvent Val)} {h : Nat} {t : Ty} {r : Nat} (hr : Refers es h t r)
    (f : Val t → Val t × Bool) :
    (ResState.run (es ++ [.write h t f])).heap =
      match (⟨some r⟩ : Res t).peek (ResState.run es).heap with
      | none => (ResState.run es).heap
      | some v => (ResState.run es).heap.set r ⟨⟨t, (f v).1⟩, (f v).2⟩ := by
  rw [run_snoc]
  simp only [ResState.step, hr.handle, withMut_heap]
  cases (⟨some r⟩ : Res t).peek (ResState.run es).heap with
  | none => rfl
  | some v => simp only; cases (f v).2 <;> rfl

end

end Plotline

/-! ## Tuples -/

namespace Plotline

set_option linter.unusedSectionVars false

variable {Ty : Type} [Ord Ty] [DecidableEq Ty] {Val : Ty → Type}

theorem readGuard_eq {t : Ty} (r : Res t) (heap : Heap Val) (v : Val t) (h : r.peek heap = some v) :
    r.readGuard heap = r.lock := by
  unfold Res.peek at h
  unfold Res.readGuard
  cases hl : r.lock with
  | none => rfl
  | some p =>
    simp only [hl] at h ⊢
    cases hc : heap[p]? with
    | none => simp [hc] at h
    | some cell =>
      simp only [hc] at h ⊢
      by_cases hp : cell.poisoned <;> simp_all

theorem readGuard_some {t : Ty} {r : Res t} {heap : Heap Val} {p : Nat} (h : r.readGuard heap = some p) : r.lock = some p := by
  unfold Res.readGuard at h
  cases hl : r.lock with
  | none => simp [hl] at h
  | some p' =>
    simp only [hl] at h
    cases hc : heap[p']? with
    | none => simp [hc] at h
    | some cell =>
      simp only [hc] at h
      by_cases hpo : cell.poisoned <;> simp_all

theorem read_cons {heap : Heap Val} {t : Ty} {ts : List Ty} {r : Res t} {rs : Handles ts} {v : Val t} {vs : Values Val ts} :
    Handles.Read heap (.cons r rs) (.cons v vs) ↔ r.peek heap = some v ∧ Handles.Read heap rs vs :=
  ⟨fun h => by cases h with | cons a b => exact ⟨a, b⟩, fun h => .cons h.1 h.2⟩

theorem derefAll_read (heap : Heap Val) {ts : List Ty} (hs : Handles ts) (vs : Values Val ts) :
    derefAll heap ts (readGuards heap hs) = some vs ↔ Handles.Read heap hs vs := by
  induction hs with
  | nil => cases vs; simp only [derefAll, true_iff]; exact .nil
  | @cons t ts r rs ih =>
    cases vs with
    | cons v vs =>
    rw [read_cons, ← ih vs]
    simp only [readGuards]
    unfold Res.peek Res.readGuard
    cases hl : r.lock with
    | none => simp [derefAll]
    | some p =>
      simp only
      cases hc : heap[p]? with
      | none => simp [derefAll]
      | some cell =>
        simp only
        by_cases hp : cell.poisoned
        · simp [hp, derefAll]
        · simp only [hp, derefAll, hc, Bool.false_eq_true, if_false]
          cases hd : cell.val.downcast t with
          | none => simp
          | some w =>
            simp only [Option.map_eq_some_iff, Option.some.injEq]
            constructor
            · rintro ⟨a, ha, he⟩; cases he; exact ⟨rfl, ha⟩
            · rintro ⟨rfl, h⟩; exact ⟨vs, h, rfl⟩

theorem not_clash_cons_none {t : Ty} {ts : List Ty} {heap : Heap Val} {r : Res t} {rs : Handles ts} (hl : r.lock = none) :
    (Handles.cons r rs).Clash heap ↔ rs.Clash heap := by
  unfold Handles.Clash
  have hc : (Handles.cons r rs).cells = rs.cells := by simp [Handles.cells, hl]
  rw [hc]

theorem clash_cons_some {t : Ty} {ts : List Ty} {heap : Heap Val} {r : Res t} {rs : Handles ts} {p : Nat} (hl : r.lock = some p) :
    (Handles.cons r rs).Clash heap ↔ rs.Clash heap ∨ (p ∈ rs.cells ∧ Healthy heap p) := by
  unfold Handles.Clash
  have hc : (Handles.cons r rs).cells = p :: rs.cells := by simp [Handles.cells, hl]
  rw [hc]
  constructor
  · rintro ⟨i, j, q, hij, hi, hj, hh⟩
    cases j with
    | zero => omega
    | succ j =>
      rw [List.getElem?_cons_succ] at hj
      cases i with
      | zero =>
        rw [List.getElem?_cons_zero, Option.some.injEq] at hi
        subst hi; exact .inr ⟨List.mem_of_getElem? hj, hh⟩
      | succ i => exact .inl ⟨i, j, q, by omega, by rwa [List.getElem?_cons_succ] at hi, hj, hh⟩
  · rintro (⟨i, j, q, hij, hi, hj, hh⟩ | ⟨hm, hh⟩)
    · exact ⟨i + 1, j + 1, q, by omega, by simpa using hi, by simpa using hj, hh⟩
    · obtain ⟨j, hj⟩ := List.mem_iff_getElem?.1 hm
      exact ⟨0, j + 1, p, by omega, by simp, by simpa using hj, hh⟩

/-- Write locks are had for all members, or two of them clash. -/
theorem writeGuards_cases (heap : Heap Val) {ts : List Ty} (hs : Handles ts) (held : List Nat)
    (hheld : ∀ p ∈ held, Healthy heap p) :
    ((hs.Clash heap ∨ ∃ p ∈ hs.cells, p ∈ held) → writeGuards heap hs held = none) ∧
    (¬ (hs.Clash heap ∨ ∃ p ∈ hs.cells, p ∈ held) → writeGuards heap hs held = some (readGuards heap hs)) := by
  induction hs generalizing held with
  | nil =>
    refine ⟨?_, fun _ => rfl⟩
    rintro (⟨i, j, p, _, hi, _⟩ | ⟨p, hp, _⟩)
    · simp [Handles.cells] at hi
    · simp [Handles.cells] at hp
  | @cons t ts r rs ih =>
    simp only [writeGuards, readGuards, Res.readGuard]
    cases hl : r.lock with
    | none =>
      simp only
      have hc : (Handles.cons r rs).cells = rs.cells := by simp [Handles.cells, hl]
      rw [not_clash_cons_none hl, hc]
      obtain ⟨h1, h2⟩ := ih held hheld
      exact ⟨fun h => by rw [h1 h]; rfl, fun h => by rw [h2 h]; rfl⟩
    | some p =>
      simp only
      have hc : (Handles.cons r rs).cells = p :: rs.cells := by simp [Handles.cells, hl]
      rw [clash_cons_some hl, hc]
      by_cases hp : p ∈ held
      · have : held.contains p = true := by simpa using hp
        simp only [this, if_true]
        exact ⟨fun _ => trivial, fun h => (h (.inr ⟨p, by simp, hp⟩)).elim⟩
      · have hpf : held.contains p = false := by simpa using hp
        simp only [hpf, Bool.false_eq_true, if_false]
        have hsame : ¬ Healthy heap p → ((rs.Clash heap ∨ p ∈ rs.cells ∧ Healthy heap p) ∨ (∃ q ∈ p :: rs.cells, q ∈ held) ↔
            rs.Clash heap ∨ ∃ q ∈ rs.cells, q ∈ held) := by
          intro hn
          constructor
          · rintro ((h | h) | ⟨q, hq, hqh⟩)
            · exact .inl h
            · exact (hn h.2).elim
            · rcases List.mem_cons.1 hq with rfl | hq
              · exact (hp hqh).elim
              · exact .inr ⟨q, hq, hqh⟩
          · rintro (h | ⟨q, hq, hqh⟩)
            · exact .inl (.inl h)
            · exact .inr ⟨q, List.mem_cons_of_mem _ hq, hqh⟩
        obtain ⟨h1, h2⟩ := ih held hheld
        cases hcell : heap[p]? with
        | none =>
          have hn : ¬ Healthy heap p := by rintro ⟨c, hc, _⟩; rw [hcell] at hc; cases hc
          rw [hsame hn]
          exact ⟨fun h => by rw [h1 h]; rfl, fun h => by rw [h2 h]; rfl⟩
        | some cell =>
          simp only
          cases hpo : cell.poisoned with
          | true =>
            have hn : ¬ Healthy heap p := by rintro ⟨c, hc, hf⟩; rw [hcell] at hc; cases hc; rw [hpo] at hf; cases hf
            rw [hsame hn]
            simp only [if_true]
            exact ⟨fun h => by rw [h1 h]; rfl, fun h => by rw [h2 h]; rfl⟩
          | false =>
            simp only [Bool.false_eq_true, if_false]
            have hh : Healthy heap p := ⟨cell, hcell, hpo⟩
            obtain ⟨h1, h2⟩ := ih (p :: held) (by
              intro q hq
              rcases List.mem_cons.1 hq with rfl | hq
              · exact hh
              · exact hheld q hq)
            have hiff : ((rs.Clash heap ∨ p ∈ rs.cells ∧ Healthy heap p) ∨ ∃ q ∈ p :: rs.cells, q ∈ held) ↔
                (rs.Clash heap ∨ ∃ q ∈ rs.cells, q ∈ p :: held) := by
              constructor
              · rintro ((h | h) | ⟨q, hq, hqh⟩)
                · exact .inl h
                · exact .inr ⟨p, h.1, by simp⟩
                · rcases List.mem_cons.1 hq with rfl | hq
                  · exact (hp hqh).elim
                  · exact .inr ⟨q, hq, List.mem_cons_of_mem _ hqh⟩
              · rintro (h | ⟨q, hq, hqh⟩)
                · exact .inl (.inl h)
                · rcases List.mem_cons.1 hqh with rfl | hqh
                  · exact .inl (.inr ⟨hq, hh⟩)
                  · exact .inr ⟨q, List.mem_cons_of_mem _ hq, hqh⟩
            rw [hiff]
            exact ⟨fun h => by rw [h1 h]; rfl, fun h => by rw [h2 h]; rfl⟩

theorem writeGuards_eq (heap : Heap Val) {ts : List Ty} (hs : Handles ts) (held : List Nat)
    (hn : hs.cells.Nodup) (hh : ∀ p ∈ hs.cells, p ∉ held) :
    writeGuards heap hs held = some (readGuards heap hs) := by
  induction hs generalizing held with
  | nil => rfl
  | @cons t ts r rs ih =>
    simp only [writeGuards, readGuards, Res.readGuard]
    cases hl : r.lock with
    | none =>
      simp only [Handles.cells, hl, Option.toList_none, List.nil_append] at hn hh
      simp only
      rw [ih held hn hh]; rfl
    | some p =>
      simp only [Handles.cells, hl, Option.toList_some, List.singleton_append, List.nodup_cons, List.mem_cons] at hn hh
      have hp : held.contains p = false := by
        simpa using hh p (.inl rfl)
      simp only [hp, Bool.false_eq_true, if_false]
      cases heap[p]? with
      | none => simp only; rw [ih held hn.2 (fun q hq => hh q (.inr hq))]; rfl
      | some cell =>
        simp only
        by_cases hpo : cell.poisoned
        · simp only [hpo, if_true]; rw [ih held hn.2 (fun q hq => hh q (.inr hq))]; rfl
        · simp only [hpo, Bool.false_eq_true, if_false]
          rw [ih (p :: held) hn.2]
          · rfl
          · intro q hq hm
            rcases List.mem_cons.1 hm with rfl | hm
            · exact hn.1 hq
            · exact hh q (.inr hq) hm

theorem writeBack_other (b : Bool) (heap0 : Heap Val) {ts : List Ty} (hs : Handles ts) (vs : Values Val ts) (heap : Heap Val)
    (q : Nat) (hq : q ∉ hs.cells) : (writeBack b (readGuards heap0 hs) vs heap)[q]? = heap[q]? := by
  induction hs generalizing heap with
  | nil => cases vs; rfl
  | @cons t ts r rs ih =>
    cases vs with
    | cons v vs =>
    simp only [Handles.cells, List.mem_append, not_or] at hq
    simp only [readGuards]
    cases hg : r.readGuard heap0 with
    | none => simp only [writeBack]; exact ih vs heap hq.2
    | some p =>
      simp only [writeBack]
      rw [ih vs _ hq.2, List.getElem?_set_ne]
      rintro rfl
      exact hq.1 (by simp [readGuard_some hg])

theorem peek_congr {t : Ty} (r : Res t) (heap heap' : Heap Val) (h : ∀ p, r.lock = some p → heap'[p]? = heap[p]?) :
    r.peek heap' = r.peek heap := by
  unfold Res.peek
  cases hl : r.lock with
  | none => rfl
  | some p => simp only [h p hl]

/-- After the closure of `with_mut` ran on an available tuple with distinct cells. -/
theorem writeBack_read (b : Bool) (heap0 : Heap Val) {ts : List Ty} (hs : Handles ts) (vs vs' : Values Val ts)
    (heap : Heap Val) (hn : hs.cells.Nodup) (hr : hs.Read heap0 vs) (hlen : heap.length = heap0.length) :
    if b then hs.Dead (writeBack b (readGuards heap0 hs) vs' heap)
    else hs.Read (writeBack b (readGuards heap0 hs) vs' heap) vs' := by
  induction hr generalizing heap with
  | nil => cases vs'; cases b <;> constructor
  | @cons t ts r rs v vs h1 h2 ih =>
    cases vs' with
    | cons v' vs' =>
    obtain ⟨l⟩ := r
    cases l with
    | none => cases h1
    | some p =>
      simp only [Handles.cells, Option.toList_some, List.singleton_append, List.nodup_cons] at hn
      have hpl : p < heap.length := by rw [hlen]; exact peek_lt h1
      simp only [readGuards, readGuard_eq _ heap0 v h1, writeBack]
      have hrest := ih vs' (heap.set p ⟨⟨t, v'⟩, b⟩) hn.2 (by simpa using hlen)
      have hself : (⟨some p⟩ : Res t).peek (writeBack b (readGuards heap0 rs) vs' (heap.set p ⟨⟨t, v'⟩, b⟩)) =
          if b then none else some v' := by
        rw [← peek_set_self p heap v' b hpl]
        apply peek_congr
        intro q hq
        cases hq
        exact writeBack_other b heap0 rs vs' _ p hn.1
      cases b with
      | true => exact .cons hself hrest
      | false => exact .cons hself hrest

end Plotline
