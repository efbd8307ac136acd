import Verif.Lemmas.Holdings

/-! # C113: when resources are destroyed, and handles that outlive the schema -/

namespace Plotline

open Std

variable {Ty : Type} [Ord Ty] [DecidableEq Ty] [TransOrd Ty] [LawfulEqOrd Ty] {Val : Ty → Type} {D : Nat → Bool}
  {h : List (HoldCall Val × HoldAnswer Val)} {s s' : Holdings Val}

/-- At any time what was destroyed, once, is what was registered and has no owner. -/
theorem C113_destroyed (hk : Keeps D h s) :
    (s.drops.map Prod.fst).Nodup ∧ ∀ r, r ∈ s.drops.map Prod.fst ↔ r < (typesOf h).length ∧ ¬ Owned h r := by
  have hi := keeps_inv hk
  refine ⟨hi.sound.nodup, fun r => ?_⟩
  rw [hi.sound.mem r (by simp), hi.length, ← hi.owned r]
  simp

/-- It is destroyed with the value closures left, and stays as it was. -/
theorem C113_with (hk : Keeps D h s) {r : Nat} {d : Dyn Val} (hm : (r, d) ∈ s.drops) : ∃ b, valueOf h r = some (d, b) := by
  have hi := keeps_inv hk
  obtain ⟨c, hc, rfl⟩ := hi.sound.vals r d hm
  exact ⟨c.poisoned, by rw [← hi.vals r, hc]; rfl⟩

/-- What a call destroys. -/
theorem C113_when (hk : Keeps D h s) {x : HoldCall Val} {a : HoldAnswer Val} (hs : s.step D x = some (a, s')) (ha : a ≠ .abort) :
    ∃ new, s'.drops = s.drops ++ new ∧ ∀ r, r ∈ new.map Prod.fst ↔
      (Owned h r ∨ (typesOf h).length ≤ r ∧ r < (typesOf ((x, a) :: h)).length) ∧ ¬ Owned ((x, a) :: h) r := by
  have h1 := C113_destroyed hk
  have h2 := C113_destroyed (hk.call hs ha)
  have hle : (typesOf h).length ≤ (typesOf ((x, a) :: h)).length := by
    cases x <;> simp [typesOf]
  obtain ⟨new, e⟩ : s.drops <+: s'.drops := by
    have hi := keeps_inv hk
    cases x with
    | register t v =>
      cases hset : s.set with
      | none => simp only [Holdings.step, hset] at hs; cases hs
      | some set => exact (register_core hi hset hs).2.2.1
    | take t => rw [(hi.take hs).2.1]; exact List.prefix_refl _
    | read k t =>
      simp only [Holdings.step] at hs
      split at hs
      · cases hs
      · split at hs
        · rw [Option.some.injEq, Prod.mk.injEq] at hs; rw [← hs.2]; exact List.prefix_refl _
        · cases hs
    | write k t f => rw [(hi.write hs).1]; exact List.prefix_refl _
    | dropHandle k =>
      obtain ⟨_, _, _, _, _, _, hp, _⟩ := dropHandle_core hi hs
      exact hp
    | forgetHandle k => rw [(hi.forgetHandle hs).2.1]; exact List.prefix_refl _
    | dropSchema => exact (dropSchema_core hi hs).2.2.1
  refine ⟨new, e.symm, fun r => ?_⟩
  have hn := h2.1
  rw [← e, List.map_append, List.nodup_append] at hn
  have hm := h2.2 r
  rw [← e, List.map_append, List.mem_append, h1.2 r] at hm
  have hlt : Owned h r → r < (typesOf h).length := by
    intro ho
    rcases ho with ⟨_, t, ht⟩ | ⟨k, t, ht, _⟩
    · exact lastRegOf_lt ht
    · have hi := keeps_inv hk
      rw [← hi.handles, List.getElem?_map, Option.map_eq_some_iff] at ht
      obtain ⟨x, hx, he⟩ := ht
      rw [← hi.length]
      exact hi.cells x (List.mem_of_getElem? hx) r (Prod.mk.inj he).2
  constructor
  · intro hr
    have h3 := hm.1 (.inr hr)
    refine ⟨?_, h3.2⟩
    have hnr : r ∉ s.drops.map Prod.fst := fun h' => hn.2.2 r h' r hr rfl
    rw [h1.2 r] at hnr
    by_cases ho : Owned h r
    · exact .inl ho
    · exact .inr ⟨Nat.not_lt.1 fun hl => hnr ⟨hl, ho⟩, h3.1⟩
  · rintro ⟨ho, hno⟩
    refine (hm.2 ⟨?_, hno⟩).resolve_left fun h' => ?_
    · rcases ho with ho | ho
      · exact Nat.lt_of_lt_of_le (hlt ho) hle
      · exact ho.2
    · rcases ho with ho | ho
      · exact h'.2 ho
      · exact Nat.not_lt.2 ho.1 h'.1

/-- How a call ends is decided by how many of the destructors it runs panic. -/
theorem C113_panics (hk : Keeps D h s) {x : HoldCall Val} {a : HoldAnswer Val} (hs : s.step D x = some (a, s')) :
    if x.letsGo then a.Fits (panicsIn D s.drops.length s'.drops.length) else s'.drops = s.drops := by
  have hi := keeps_inv hk
  cases x with
  | register t v =>
    cases hset : s.set with
    | none => simp only [Holdings.step, hset] at hs; cases hs
    | some set => exact (register_core hi hset hs).2.2.2.1
  | take t => exact (hi.take hs).2.1
  | read k t =>
    simp only [Holdings.step] at hs
    split at hs
    · cases hs
    · split at hs
      · rw [Option.some.injEq, Prod.mk.injEq] at hs; exact congrArg Holdings.drops hs.2.symm
      · cases hs
  | write k t f => exact (hi.write hs).1
  | dropHandle k =>
    obtain ⟨_, _, _, _, _, _, _, hp, _⟩ := dropHandle_core hi hs
    exact hp
  | forgetHandle k => exact (hi.forgetHandle hs).2.1
  | dropSchema => exact (dropSchema_core hi hs).2.2.2.1

/-- When nothing panics, registering destroys the last of its type, unless there is a handle on it, and nothing else. -/
theorem C113_replaced (hk : Keeps D h s) {t : Ty} {v : Val t} (hs : s.step D (.register t v) = some (.none, s')) :
    ∃ new, s'.drops = s.drops ++ new ∧ ∀ r, r ∈ new.map Prod.fst ↔ lastRegOf (typesOf h) t = some r ∧ ¬ HandleOn h r := by
  obtain ⟨new, e, hnew⟩ := C113_when hk hs (by simp)
  refine ⟨new, e, fun r => ?_⟩
  have hi := keeps_inv hk
  have hg : schemaGone h = false := by
    rw [← hi.gone]
    cases hset : s.set with
    | none => simp only [Holdings.step, hset] at hs; cases hs
    | some set => rfl
  have hh : HandleOn ((.register t v, .none) :: h) r ↔ HandleOn h r := by
    unfold HandleOn
    simp only [handlesOf, handleDropped_cons, reduceCtorEq, false_or]
  have ho' : Owned ((.register t v, .none) :: h) r ↔ (∃ u, lastRegOf (t :: typesOf h) u = some r) ∨ HandleOn h r := by
    unfold Owned
    rw [hh]
    simp only [schemaGone, hg, true_and, typesOf]
  rw [hnew, ho']
  constructor
  · rintro ⟨ho, hno⟩
    refine ⟨?_, fun h' => hno (.inr h')⟩
    rcases ho with (⟨_, u, hu⟩ | ho) | ⟨h1, h2⟩
    · by_cases e : u = t
      · exact e ▸ hu
      · exact (hno (.inl ⟨u, by simp only [lastRegOf]; rw [if_neg fun e' => e e'.symm]; exact hu⟩)).elim
    · exact (hno (.inr ho)).elim
    · simp only [typesOf, List.length_cons] at h2
      exact (hno (.inl ⟨t, by simp only [lastRegOf, if_true, Option.some.injEq]; omega⟩)).elim
  · rintro ⟨hl, hno⟩
    refine ⟨.inl (.inl ⟨hg, t, hl⟩), ?_⟩
    rintro (⟨u, hu⟩ | h')
    · simp only [lastRegOf] at hu
      split at hu
      · cases hu; exact absurd (lastRegOf_lt hl) (Nat.lt_irrefl _)
      · rename_i e; exact e (lastRegOf_inj hl hu)
    · exact hno h'

/-- Registering panics, or ends the process, exactly if it replaces a value without a handle, whose destructor panics. -/
theorem C113_register_panics (hk : Keeps D h s) {t : Ty} {v : Val t} {a : HoldAnswer Val}
    (hs : s.step D (.register t v) = some (a, s')) :
    a ≠ .none ↔ D s.drops.length = true ∧ ∃ r, lastRegOf (typesOf h) t = some r ∧ ¬ HandleOn h r := by
  have hi := keeps_inv hk
  constructor
  · intro ha
    simp only [Holdings.step] at hs
    cases hset : s.set with
    | none => rw [hset] at hs; cases hs
    | some set =>
      rw [hset] at hs
      dsimp only at hs
      have hget : (set.res t).lock = lastRegOf (typesOf h) t := hi.set set hset t
      rw [hget] at hs
      cases hl : lastRegOf (typesOf h) t with
      | none => rw [hl] at hs; cases hs; exact (ha rfl).elim
      | some p =>
        rw [hl] at hs
        dsimp only at hs
        by_cases hc : ({ s with set := some (set.withResource s.heap t v).1, heap := (set.withResource s.heap t v).2 } :
            Holdings Val).strongCount p = 0
        · refine ⟨?_, p, rfl, fun hon => ?_⟩
          · cases hd : D s.drops.length with
            | true => rfl
            | false =>
              exfalso
              rw [letGo_calm (s := { s with set := some (set.withResource s.heap t v).1, heap := (set.withResource s.heap t v).2 })
                false p hd] at hs
              cases hs
              exact ha rfl
          · obtain ⟨k, u, hk', hd⟩ := hon
            rw [← hi.handles, List.getElem?_map, Option.map_eq_some_iff] at hk'
            obtain ⟨x, hx, he⟩ := hk'
            have : 0 < s.handles.countP fun x => x.status != .dropped && x.cell == some p :=
              List.countP_pos_iff.2 ⟨x, List.mem_of_getElem? hx, by
                simp only [Bool.and_eq_true, bne_iff_ne, ne_eq, beq_iff_eq]
                exact ⟨fun e => hd ((hi.dropped k).2 ⟨x, hx, e⟩), (Prod.mk.inj he).2⟩⟩
            unfold Holdings.strongCount at hc
            dsimp only at hc
            omega
        · simp only [Holdings.letGo, if_neg hc, Option.some.injEq, Prod.mk.injEq] at hs
          exact (ha hs.1.symm).elim
  · rintro ⟨hd, r, hl, hno⟩ rfl
    obtain ⟨new, e, hnew⟩ := C113_replaced hk hs
    have hp := C113_panics hk hs
    have hr := (hnew r).2 ⟨hl, hno⟩
    have hlen : 0 < new.length := by
      cases new with
      | nil => cases hr
      | cons => simp
    rw [if_pos (by rfl)] at hp
    have h0 : panicsIn D s.drops.length s'.drops.length = 0 := hp
    rw [e, List.length_append, panicsIn_add D (b := s.drops.length + 1) (by omega) (by omega), panicsIn_succ, if_pos hd] at h0
    omega

/-- If registering panics the schema is lost, with everything that has no handle. -/
theorem C113_lost (hk : Keeps D h s) {t : Ty} {v : Val t} (hs : s.step D (.register t v) = some (.panic, s')) (r : Nat) :
    r ∈ s'.drops.map Prod.fst ↔ r ≤ (typesOf h).length ∧ ¬ HandleOn h r := by
  rw [(C113_destroyed (hk.call hs (by simp))).2 r]
  have hh : HandleOn ((.register t v, .panic) :: h) r ↔ HandleOn h r := by
    unfold HandleOn
    simp only [handlesOf, handleDropped_cons, reduceCtorEq, false_or]
  unfold Owned
  rw [hh]
  simp only [schemaGone, Bool.true_eq_false, false_and, false_or, typesOf, List.length_cons, Nat.lt_succ_iff]

/-- Reading through a handle shows the value of the registration it was taken from, unless there was none or a closure changing it
panicked, whatever else was registered or dropped since. -/
theorem C113_read (hk : Keeps D h s) {k : Nat} {t : Ty} {a : HoldAnswer Val} (hs : s.step D (.read k t) = some (a, s')) :
    ∃ v, a = .value t v ∧ ∀ w, v = some w ↔ ∃ r, (handlesOf h)[k]? = some (t, some r) ∧ valueOf h r = some (⟨t, w⟩, false) := by
  have hi := keeps_inv hk
  simp only [Holdings.step] at hs
  cases hx : s.handle k with
  | none => rw [hx] at hs; cases hs
  | some x =>
    rw [hx] at hs
    dsimp only at hs
    obtain ⟨hk', _⟩ := handle_eq.1 hx
    split at hs
    · rename_i ht
      cases hs
      refine ⟨_, rfl, fun w => ?_⟩
      rw [hi.at hk', ht]
      cases hp : x.cell with
      | none => simp [Res.peek]
      | some p =>
        simp only [Option.some.injEq, Prod.mk.injEq, true_and, Res.peek]
        have hv := hi.vals p
        cases hc : s.heap[p]? with
        | none =>
          rw [hc] at hv
          constructor
          · intro e; cases e
          · rintro ⟨r, rfl, e⟩; rw [← hv] at e; cases e
        | some c =>
          rw [hc] at hv
          dsimp only
          constructor
          · intro e
            split at e
            · cases e
            · rename_i hpo
              refine ⟨p, rfl, ?_⟩
              rw [← hv]
              unfold Dyn.downcast at e
              split at e
              · rename_i he
                obtain ⟨⟨u, y⟩, b⟩ := c
                dsimp only at he e hpo ⊢
                subst he
                cases e
                rw [show b = false by simpa using hpo]
                rfl
              · cases e
          · rintro ⟨r, rfl, e⟩
            rw [← hv] at e
            rw [Option.map_some, Option.some.injEq] at e
            have e1 := congrArg Prod.fst e
            have e2 := congrArg Prod.snd e
            dsimp only at e1 e2
            rw [e1, e2]
            simp [Dyn.downcast]
    · cases hs

/-- A closure that changes a value is called exactly if reading would show one; what it does then decides how the call ends. -/
theorem C113_write (hk : Keeps D h s) {k : Nat} {t : Ty} {f : Val t → Val t × Bool} {a : HoldAnswer Val}
    (hs : s.step D (.write k t f) = some (a, s')) :
    ∃ v, s.step D (.read k t) = some (.value t v, s) ∧
      a = match v with
        | none => .ran false
        | some v => if (f v).2 then .panic else .ran true := by
  simp only [Holdings.step] at hs ⊢
  cases hx : s.handle k with
  | none => rw [hx] at hs; cases hs
  | some x =>
    rw [hx] at hs
    dsimp only at hs ⊢
    split at hs
    · rename_i ht
      rw [if_pos ht]
      refine ⟨_, rfl, ?_⟩
      cases hp : x.cell with
      | none =>
        simp only [Res.withMut, hp, Option.some.injEq, Prod.mk.injEq] at hs
        rw [← hs.1]; rfl
      | some p =>
        simp only [Res.peek]
        cases hc : s.heap[p]? with
        | none =>
          simp only [Res.withMut, hp, hc, Option.some.injEq, Prod.mk.injEq] at hs
          rw [← hs.1]
        | some c =>
          simp only [Res.withMut, hp, hc] at hs
          dsimp only
          by_cases hpo : c.poisoned = true
          · rw [if_pos hpo] at hs ⊢
            simp only [Option.some.injEq, Prod.mk.injEq] at hs
            rw [← hs.1]
          · rw [if_neg hpo] at hs ⊢
            cases hd : c.val.downcast t with
            | none =>
              rw [hd] at hs
              simp only [Option.some.injEq, Prod.mk.injEq] at hs
              rw [← hs.1]
            | some v =>
              rw [hd] at hs
              dsimp only at hs ⊢
              cases hf : (f v).2 <;> simp [hf] at hs <;> simp [← hs.1]
    · cases hs

/-- The calls that are possible: those of the schema, while it is there, and those of handles, until they are given up. -/
theorem C113_possible (hk : Keeps D h s) (x : HoldCall Val) :
    (s.step D x).isSome = true ↔
      match x with
      | .register _ _ | .take _ | .dropSchema => schemaGone h = false
      | .read k t | .write k t _ => (∃ r, (handlesOf h)[k]? = some (t, r)) ∧ ¬ HandleDropped h k ∧ ¬ HandleForgotten h k
      | .dropHandle k | .forgetHandle k => k < (handlesOf h).length ∧ ¬ HandleDropped h k ∧ ¬ HandleForgotten h k := by
  have hi := keeps_inv hk
  have hset : s.set.isSome = true ↔ schemaGone h = false := by
    rw [← hi.gone]; cases s.set <;> simp
  have hlive : ∀ k x, s.handle k = some x ↔ s.handles[k]? = some x ∧ ¬ HandleDropped h k ∧ ¬ HandleForgotten h k := by
    intro k x
    rw [handle_eq, hi.dropped, hi.forgotten]
    constructor
    · rintro ⟨hx, hl⟩
      refine ⟨hx, ?_, ?_⟩
      · rintro ⟨y, hy, hd⟩; rw [hx] at hy; cases hy; rw [hl] at hd; cases hd
      · rintro ⟨y, hy, hd⟩; rw [hx] at hy; cases hy; rw [hl] at hd; cases hd
    · rintro ⟨hx, h1, h2⟩
      refine ⟨hx, ?_⟩
      cases hst : x.status with
      | live => rfl
      | dropped => exact (h1 ⟨x, hx, hst⟩).elim
      | forgotten => exact (h2 ⟨x, hx, hst⟩).elim
  have htyped : ∀ k t, (∃ x, s.handle k = some x ∧ x.type = t) ↔
      (∃ r, (handlesOf h)[k]? = some (t, r)) ∧ ¬ HandleDropped h k ∧ ¬ HandleForgotten h k := by
    intro k t
    constructor
    · rintro ⟨x, hx, ht⟩
      obtain ⟨h1, h2⟩ := (hlive k x).1 hx
      exact ⟨⟨x.cell, by rw [hi.at h1, ht]⟩, h2⟩
    · rintro ⟨⟨r, hr⟩, h2⟩
      rw [← hi.handles, List.getElem?_map, Option.map_eq_some_iff] at hr
      obtain ⟨x, hx, he⟩ := hr
      exact ⟨x, (hlive k x).2 ⟨hx, h2⟩, (Prod.mk.inj he).1⟩
  have hany : ∀ k, (∃ x, s.handle k = some x) ↔ k < (handlesOf h).length ∧ ¬ HandleDropped h k ∧ ¬ HandleForgotten h k := by
    intro k
    rw [← hi.handles, List.length_map]
    constructor
    · rintro ⟨x, hx⟩
      obtain ⟨h1, h2⟩ := (hlive k x).1 hx
      exact ⟨(List.getElem?_eq_some_iff.1 h1).1, h2⟩
    · rintro ⟨hl, h2⟩
      exact ⟨_, (hlive k _).2 ⟨List.getElem?_eq_getElem hl, h2⟩⟩
  cases x with
  | register t v =>
    dsimp only
    rw [← hset]
    simp only [Holdings.step]
    cases s.set with
    | none => simp
    | some set =>
      dsimp only
      split
      · simp
      · split <;> simp
  | take t =>
    dsimp only
    rw [← hset]
    simp only [Holdings.step]
    cases s.set <;> simp
  | dropSchema =>
    dsimp only
    rw [← hset]
    simp only [Holdings.step]
    cases s.set <;> simp
  | read k t =>
    dsimp only
    rw [← htyped]
    simp only [Holdings.step]
    cases s.handle k with
    | none => simp
    | some x => by_cases e : x.type = t <;> simp [e]
  | write k t f =>
    dsimp only
    rw [← htyped]
    simp only [Holdings.step]
    cases s.handle k with
    | none => simp
    | some x =>
      by_cases e : x.type = t
      · simp only [e, if_true]
        split <;> simp [e]
      · simp [e]
  | dropHandle k =>
    dsimp only
    rw [← hany]
    simp only [Holdings.step]
    cases s.handle k with
    | none => simp
    | some x =>
      dsimp only
      split <;> simp
  | forgetHandle k =>
    dsimp only
    rw [← hany]
    simp only [Holdings.step]
    cases s.handle k <;> simp

/-- When the schema is gone and every handle was dropped, everything registered was destroyed, once. -/
theorem C113_nothing_leaks (hk : Keeps D h s) (hg : schemaGone h = true) (hd : ∀ k, k < (handlesOf h).length → HandleDropped h k) :
    (s.drops.map Prod.fst).Perm (List.range (typesOf h).length) := by
  obtain ⟨h1, h2⟩ := C113_destroyed hk
  rw [List.perm_ext_iff_of_nodup h1 List.nodup_range]
  intro r
  rw [h2 r, List.mem_range]
  refine ⟨And.left, fun hr => ⟨hr, ?_⟩⟩
  rintro (⟨h', _⟩ | ⟨k, t, hk', hn⟩)
  · rw [hg] at h'; cases h'
  · exact hn (hd k (List.getElem?_eq_some_iff.1 hk').1)

/-- What a forgotten handle was on is never destroyed. -/
theorem C113_forgotten (hk : Keeps D h s) {k r : Nat} {t : Ty} (hf : HandleForgotten h k)
    (hr : (handlesOf h)[k]? = some (t, some r)) : r ∉ s.drops.map Prod.fst := by
  have hi := keeps_inv hk
  rw [(C113_destroyed hk).2 r]
  rintro ⟨_, hn⟩
  refine hn (.inr ⟨k, t, hr, fun hd => ?_⟩)
  obtain ⟨x, hx, h1⟩ := (hi.dropped k).1 hd
  obtain ⟨y, hy, h2⟩ := (hi.forgotten k).1 hf
  rw [hx] at hy
  cases hy
  rw [h1] at h2
  cases h2

/-! ## A session: two resources, one of them registered twice while there is a handle on it -/

/-- Two types of resources, both with numbers for values. -/
abbrev heldVal : Bool → Type := fun _ => Nat

/-- How a list of calls goes on. -/
def heldRun (D : Nat → Bool) : List (HoldCall heldVal) → List (HoldCall heldVal × HoldAnswer heldVal) → Holdings heldVal →
    Option (List (HoldCall heldVal × HoldAnswer heldVal) × Holdings heldVal)
  | [], h, s => some (h, s)
  | c :: cs, h, s =>
    match s.step D c with
    | none => none
    | some (.abort, s') => some ((c, .abort) :: h, s')
    | some (a, s') => heldRun D cs ((c, a) :: h) s'

/-- What was destroyed, and whether there still is a schema. -/
def heldEnd (D : Nat → Bool) (cs : List (HoldCall heldVal)) : Option (List (Nat × Nat) × Bool) :=
  (heldRun D cs [] Holdings.start).map fun r => (r.2.drops.map fun d => (d.1, d.2.2), r.2.set.isSome)

/-- Answers, to be compared. -/
def heldShow : HoldAnswer heldVal → Nat × Option Nat
  | .none => (0, none)
  | .value _ v => (1, v)
  | .ran b => (if b then 2 else 3, none)
  | .panic => (4, none)
  | .abort => (5, none)

/-- How the calls ended, first one first. -/
def heldAnswers (D : Nat → Bool) (cs : List (HoldCall heldVal)) : Option (List (Nat × Option Nat)) :=
  (heldRun D cs [] Holdings.start).map fun r => (r.1.map fun x => heldShow x.2).reverse

/-- Register `10` and `20` of different types, take a handle on the first and replace it by `30`: nothing is destroyed. The handle
changes the old value and still shows it. Dropping the schema destroys `20` and `30`; the handle works on. Dropping it destroys what
it changed `10` into. -/
abbrev heldSession : List (HoldCall heldVal) :=
  [.register false (10 : Nat), .register true (20 : Nat), .take false, .register false (30 : Nat),
    .write 0 false (fun v : Nat => (v + 1, false)), .read 0 false, .dropSchema, .read 0 false, .dropHandle 0]

example : heldEnd (fun _ => false) heldSession = some ([(2, 30), (1, 20), (0, 11)], false) := by decide +kernel

example : heldAnswers (fun _ => false) heldSession =
    some [(0, none), (0, none), (0, none), (0, none), (2, none), (1, some 11), (0, none), (1, some 11), (0, none)] := by decide +kernel

/-- Without a handle the replaced value is destroyed; if that panics, all that the schema had goes with it, the new value too. -/
example : heldEnd (fun n => n == 0) [.register false (10 : Nat), .register true (20 : Nat), .register false (30 : Nat)] =
    some ([(0, 10), (2, 30), (1, 20)], false) := by decide +kernel

/-- A panic while another unwinds ends the process. -/
example : heldAnswers (fun n => n == 0 || n == 1) [.register false (10 : Nat), .register true (20 : Nat), .register false (30 : Nat)] =
    some [(0, none), (0, none), (5, none)] := by decide +kernel

example : heldAnswers (fun n => n == 1) [.register false (10 : Nat), .register true (20 : Nat), .dropSchema] =
    some [(0, none), (0, none), (4, none)] := by decide +kernel

/-- A panic in a closure makes the handle show nothing; the value is still destroyed, as the closure left it. -/
example : heldAnswers (fun _ => false) [.register false (10 : Nat), .take false, .write 0 false (fun v : Nat => (v + 1, true)),
    .read 0 false, .write 0 false (fun v : Nat => (v, false)), .dropHandle 0, .dropSchema] =
    some [(0, none), (0, none), (4, none), (1, none), (3, none), (0, none), (0, none)] ∧
    heldEnd (fun _ => false) [.register false (10 : Nat), .take false, .write 0 false (fun v : Nat => (v + 1, true)),
      .dropHandle 0, .dropSchema] = some ([(0, 11)], false) := by decide +kernel

/-- With a forgotten handle the value is never destroyed; a handle on nothing shows nothing. -/
example : heldEnd (fun _ => false) [.register false (10 : Nat), .take false, .forgetHandle 0, .dropSchema] = some ([], false) ∧
    heldAnswers (fun _ => false) [.take false, .register false (10 : Nat), .read 0 false] =
      some [(0, none), (0, none), (1, none)] := by decide +kernel

/-- A dropped handle cannot be used, nor a dropped schema, nor a handle at another type. -/
example : heldEnd (fun _ => false) [.register false (10 : Nat), .take false, .dropHandle 0, .read 0 false] = none ∧
    heldEnd (fun _ => false) [.dropSchema, .register false (10 : Nat)] = none ∧
    heldEnd (fun _ => false) [.register false (10 : Nat), .take false, .read 0 true] = none := by decide +kernel

/-- Such runs are what the theorems are about. -/
theorem heldRun_keeps (D : Nat → Bool) (cs : List (HoldCall heldVal)) : ∀ h s h' s', Keeps D h s →
    heldRun D cs h s = some (h', s') → (∀ c h0, h' ≠ (c, .abort) :: h0) → Keeps D h' s' := by
  induction cs with
  | nil => intro h s h' s' hk hr _; cases hr; exact hk
  | cons c cs ih =>
    intro h s h' s' hk hr ha
    simp only [heldRun] at hr
    split at hr
    · cases hr
    · cases hr; exact (ha _ _ rfl).elim
    · rename_i a s1 hne hs
      exact ih _ _ _ _ (hk.call hs hne) hr ha

end Plotline
