import Verif.Lemmas.Locality
import Verif.Lemmas.Scopes

/-! The machine on other resources, and which resources it leaves alone. -/

namespace Plotline

set_option linter.unusedSectionVars false

variable {σ : Sig}

/-- A relation between lock cells that the API cannot tell apart. -/
structure CellRel (R : Lock (Dyn σ.Val) → Lock (Dyn σ.Val) → Prop) : Prop where
  refl : ∀ a, R a a
  flag : ∀ a b, R a b → a.poisoned = b.poisoned
  val : ∀ a b, R a b → a.poisoned = false → a = b
  poison : ∀ a b, R a b → R { a with poisoned := true } { b with poisoned := true }

theorem cellRel_eq : CellRel (σ := σ) Eq where
  refl _ := rfl
  flag _ _ h := by rw [h]
  val _ _ h _ := h
  poison _ _ h := by rw [h]

/-- The same, or both poisoned. -/
def Lock.Alike (a b : Lock (Dyn σ.Val)) : Prop := a = b ∨ (a.poisoned = true ∧ b.poisoned = true)

theorem cellRel_alike : CellRel (σ := σ) Lock.Alike where
  refl _ := .inl rfl
  flag a b h := by
    rcases h with h | ⟨h1, h2⟩
    · rw [h]
    · rw [h1, h2]
  val a b h hf := by
    rcases h with h | ⟨h1, _⟩
    · exact h
    · rw [h1] at hf; cases hf
  poison _ _ _ := .inr ⟨rfl, rfl⟩

variable {R : Lock (Dyn σ.Val) → Lock (Dyn σ.Val) → Prop}

theorem rel_refl (hR : CellRel R) (a : Option (Lock (Dyn σ.Val))) : Option.Rel R a a := by
  cases a with
  | none => exact .none
  | some a => exact .some (hR.refl a)

theorem peek_rel (hR : CellRel R) {t : σ.Ty} (r : Res t) (h1 h2 : Heap σ.Val)
    (h : ∀ p, r.lock = some p → Option.Rel R h1[p]? h2[p]?) : r.peek h2 = r.peek h1 := by
  unfold Res.peek
  cases hl : r.lock with
  | none => rfl
  | some p =>
    have := h p hl
    cases hx : h1[p]? with
    | none =>
      rw [hx] at this
      cases hy : h2[p]? with
      | none => simp only [hx, hy]
      | some b => rw [hy] at this; cases this
    | some a =>
      rw [hx] at this
      cases hy : h2[p]? with
      | none => rw [hy] at this; cases this
      | some b =>
        rw [hy] at this
        cases this with
        | some hab =>
          simp only [hx, hy]
          cases hp : a.poisoned with
          | true => rw [← hR.flag _ _ hab, hp]; rfl
          | false => rw [← hR.val _ _ hab hp, hp]

theorem set_rel (hR : CellRel R) (h1 h2 : Heap σ.Val) (p : Nat) (c : Lock (Dyn σ.Val)) (q : Nat)
    (h : Option.Rel R h1[q]? h2[q]?) : Option.Rel R (h1.set p c)[q]? (h2.set p c)[q]? := by
  by_cases e : p = q
  · subst e
    rw [List.getElem?_set_self', List.getElem?_set_self']
    cases hx : h1[p]? with
    | none =>
      rw [hx] at h
      cases hy : h2[p]? with
      | none => exact .none
      | some b => rw [hy] at h; cases h
    | some a =>
      rw [hx] at h
      cases hy : h2[p]? with
      | none => rw [hy] at h; cases h
      | some b => exact .some (hR.refl c)
  · rw [List.getElem?_set_ne e, List.getElem?_set_ne e]; exact h

theorem modify_rel (hR : CellRel R) (h1 h2 : Heap σ.Val) (p q : Nat) (h : Option.Rel R h1[q]? h2[q]?) :
    Option.Rel R (h1.modify p fun cell => { cell with poisoned := true })[q]?
      (h2.modify p fun cell => { cell with poisoned := true })[q]? := by
  rw [List.getElem?_modify, List.getElem?_modify]
  cases hx : h1[q]? with
  | none =>
    rw [hx] at h
    cases hy : h2[q]? with
    | none => exact .none
    | some b => rw [hy] at h; cases h
  | some a =>
    rw [hx] at h
    cases hy : h2[q]? with
    | none => rw [hy] at h; cases h
    | some b =>
      rw [hy] at h
      cases h with
      | some hab =>
        refine Option.Rel.some ?_
        dsimp only
        split
        · exact hR.poison _ _ hab
        · exact hab

/-- The answer and the effect of `with_mut`, by what is read. -/
theorem withMut_peek {t : σ.Ty} {A : Type} (r : Res t) (heap : Heap σ.Val) (f : σ.Val t → σ.Val t × Option A) :
    r.withMut heap f =
      match r.peek heap, r.lock with
      | some v, some p =>
        ((match (f v).2 with | some x => .ran x | none => .panicked), heap.set p ⟨⟨t, (f v).1⟩, (f v).2.isNone⟩)
      | _, _ => (.unavailable, heap) := by
  unfold Res.withMut Res.peek
  cases hl : r.lock with
  | none => rfl
  | some p =>
    dsimp only
    cases hx : heap[p]? with
    | none => rfl
    | some cell =>
      dsimp only
      cases hp : cell.poisoned with
      | true => simp
      | false =>
        simp only [Bool.false_eq_true, if_false]
        cases hd : cell.val.downcast t with
        | none => rfl
        | some v =>
          dsimp only
          rcases hf : f v with ⟨v', _ | x⟩ <;> simp

/-- The cell the next call asks for. -/
def Control.uses (E : Env σ) : Control σ → Option Nat
  | .run _ (.resRead t _) => (E.resources.res t).lock
  | .run _ (.resWrite t _ _) => (E.resources.res t).lock
  | .run _ (.resScope t _ _ _) => (E.resources.res t).lock
  | _ => none

/-- The cell the next call asks for to write it. -/
def Control.mutates (E : Env σ) : Control σ → Option Nat
  | .run _ (.resWrite t _ _) => (E.resources.res t).lock
  | .run _ (.resScope t true _ _) => (E.resources.res t).lock
  | _ => none

def St.onHeap (s : St σ) (heap : Heap σ.Val) : St σ := { s with heap := heap }

def Conf.onHeap (c : Conf σ) (heap : Heap σ.Val) : Conf σ := ⟨c.control, c.stack, c.st.onHeap heap⟩

theorem commitChild_onHeap (s : St σ) (heap : Heap σ.Val) (n : Nat) :
    commitChild (s.onHeap heap) n = (commitChild s n).onHeap heap := by
  unfold commitChild closeChild St.onHeap
  dsimp only
  split
  · rfl
  · split
    · rfl
    · split <;> rfl

theorem commitChild_heap' (s : St σ) (n : Nat) : (commitChild s n).heap = s.heap := by
  obtain ⟨fs, h⟩ := commitChild_eq_frames s n
  rw [h]

/-- A step on other resources that agree where it looks: the same step, resources that agreed still do, and only the ones in use
by a writer change. -/
theorem step_heap (E : Env σ) (hR : CellRel R) {c c' : Conf σ} (heap : Heap σ.Val)
    (hu : ∀ p, c.control.uses E = some p → Option.Rel R c.st.heap[p]? heap[p]?) (h : c.step E = some c') :
    ∃ heap', (c.onHeap heap).step E = some (c'.onHeap heap') ∧
      (∀ q : Nat, Option.Rel R c.st.heap[q]? heap[q]? → Option.Rel R c'.st.heap[q]? heap'[q]?) ∧
      ∀ q : Nat, c.control.mutates E ≠ some q → (q, true) ∉ c.st.locks → (q, true) ∉ openScopes c.stack →
        heap'[q]? = heap[q]? := by
  obtain ⟨control, K, s⟩ := c
  unfold Conf.onHeap
  have same : ∀ (co : Control σ) (K' : List (Kont σ)) (s' : St σ), s'.heap = s.heap →
      Conf.step E ⟨control, K, s.onHeap heap⟩ = some ⟨co, K', s'.onHeap heap⟩ →
      some (⟨co, K', s'⟩ : Conf σ) = some c' →
      ∃ heap', Conf.step E ⟨control, K, s.onHeap heap⟩ = some ⟨c'.control, c'.stack, c'.st.onHeap heap'⟩ ∧
        (∀ q : Nat, Option.Rel R s.heap[q]? heap[q]? → Option.Rel R c'.st.heap[q]? heap'[q]?) ∧
        ∀ q : Nat, control.mutates E ≠ some q → (q, true) ∉ s.locks → (q, true) ∉ openScopes K → heap'[q]? = heap[q]? := by
    rintro co K' s' hh hs e
    cases e
    exact ⟨heap, hs, fun q hq => by rw [hh]; exact hq, fun _ _ _ _ => rfl⟩
  cases control with
  | run env p =>
    cases p with
    | done r => exact same _ _ s rfl rfl h
    | panic => exact same _ _ s rfl rfl h
    | reenter => exact same _ _ s rfl rfl h
    | save c n k =>
      simp only [Conf.step] at h
      split at h
      · rename_i hc; exact same _ _ s rfl (by simp only [Conf.step, hc] <;> rfl) h
      · rename_i hc; exact same _ _ (pushOp s _ _) rfl (by simp only [Conf.step, hc] <;> rfl) h
    | delete c i k =>
      simp only [Conf.step] at h
      split at h
      · rename_i hc; exact same _ _ s rfl (by simp only [Conf.step, hc] <;> rfl) h
      · rename_i hc; exact same _ _ (pushOp s _ _) rfl (by simp only [Conf.step, hc] <;> rfl) h
    | get c i k =>
      simp only [Conf.step] at h
      split at h
      · rename_i hc; exact same _ _ s rfl (by simp only [Conf.step, hc] <;> rfl) h
      · rename_i hc; exact same _ _ s rfl (by simp only [Conf.step, hc] <;> rfl) h
    | contains c i k =>
      simp only [Conf.step] at h
      split at h
      · rename_i hc; exact same _ _ s rfl (by simp only [Conf.step, hc] <;> rfl) h
      · rename_i hc; exact same _ _ s rfl (by simp only [Conf.step, hc] <;> rfl) h
    | tx c body k =>
      simp only [Conf.step] at h
      split at h
      · rename_i hc; exact same _ _ s rfl (by simp only [Conf.step, hc] <;> rfl) h
      · rename_i hc; exact same _ _ (openChild s _) rfl (by simp only [Conf.step, hc] <;> rfl) h
    | runTriggers c sch k =>
      simp only [Conf.step] at h
      split at h
      · rename_i hc; exact same _ _ s rfl (by simp only [Conf.step, hc] <;> rfl) h
      · rename_i hc
        split at h
        · rename_i hs; exact same _ _ s rfl (by simp only [Conf.step, hc, hs] <;> rfl) h
        · rename_i hs; exact same _ _ s rfl (by simp only [Conf.step, hc, hs] <;> rfl) h
        · rename_i hs; exact same _ _ s rfl (by simp only [Conf.step, hc, hs] <;> rfl) h
    | withTarget n k =>
      simp only [Conf.step] at h
      split at h
      · rename_i hc; exact same _ _ s rfl (by simp only [Conf.step, hc] <;> rfl) h
      · rename_i hc; exact same _ _ (setTarget s _ _) rfl (by simp only [Conf.step, hc] <;> rfl) h
    | targetRead c k =>
      simp only [Conf.step] at h
      split at h
      · rename_i hc; exact same _ _ s rfl (by simp only [Conf.step, hc] <;> rfl) h
      · rename_i hc; exact same _ _ s rfl (by simp only [Conf.step, hc] <;> rfl) h
    | targetWrite c fn k =>
      simp only [Conf.step] at h
      split at h
      · rename_i hc; exact same _ _ s rfl (by simp only [Conf.step, hc] <;> rfl) h
      · rename_i f hc
        have hr : readTarget (s.onHeap heap) f = readTarget s f := rfl
        split at h
        · rename_i hn; exact same _ _ s rfl (by simp only [Conf.step, hc, hr, hn] <;> rfl) h
        · rename_i hn
          split at h
          · rename_i hs; exact same _ _ (writeTarget s _ _ _) rfl (by simp only [Conf.step, hc, hr, hn, hs] <;> rfl) h
          · rename_i hs; exact same _ _ (writeTarget s _ _ _) rfl (by simp only [Conf.step, hc, hr, hn, hs] <;> rfl) h
    | resRead t k =>
      simp only [Conf.step] at h
      have hb : (s.onHeap heap).resBlocks E t false = s.resBlocks E t false := rfl
      have hp : (E.resources.res t).peek (s.onHeap heap).heap = (E.resources.res t).peek s.heap :=
        peek_rel hR _ _ _ hu
      split at h
      · rename_i hc; exact same _ _ s rfl (by simp only [Conf.step, hb, hc] <;> rfl) h
      · rename_i hc; exact same _ _ s rfl (by simp only [Conf.step, hb, hp, if_neg hc] <;> rfl) h
    | resWrite t fn k =>
      simp only [Conf.step] at h
      have hb : (s.onHeap heap).resBlocks E t true = s.resBlocks E t true := rfl
      have hp : (E.resources.res t).peek heap = (E.resources.res t).peek s.heap := peek_rel hR _ _ _ hu
      have hh : (s.onHeap heap).heap = heap := rfl
      split at h
      · rename_i hc; exact same _ _ s rfl (by simp only [Conf.step, hb, hc] <;> rfl) h
      · rename_i hnb
        rw [withMut_peek] at h
        cases hl : (E.resources.res t).lock with
        | none =>
          have hpk : (E.resources.res t).peek s.heap = none := by unfold Res.peek; rw [hl]
          rw [hpk, hl] at h
          exact same _ _ s rfl (by simp only [Conf.step, hb, if_neg hnb, hh, withMut_peek, hp, hpk, hl] <;> rfl) h
        | some p =>
          cases hv : (E.resources.res t).peek s.heap with
          | none =>
            rw [hv, hl] at h
            exact same _ _ s rfl (by simp only [Conf.step, hb, if_neg hnb, hh, withMut_peek, hp, hv, hl] <;> rfl) h
          | some v =>
            rw [hv, hl] at h
            dsimp only at h
            refine ⟨heap.set p ⟨⟨t, (fn v).1⟩, (if (fn v).2 = true then none else some ()).isNone⟩, ?_, ?_, ?_⟩
            · simp only [Conf.step, hb, if_neg hnb, hh, withMut_peek, hp, hv, hl]
              cases hf : (fn v).2 <;> (simp only [hf] at h ⊢; cases h; rfl)
            · intro q hq
              have : c'.st.heap = s.heap.set p ⟨⟨t, (fn v).1⟩, (if (fn v).2 = true then none else some ()).isNone⟩ := by
                cases hf : (fn v).2 <;> (simp only [hf] at h ⊢; cases h; rfl)
              rw [this]
              exact set_rel hR _ _ _ _ _ hq
            · intro q hq _ _
              exact List.getElem?_set_ne fun e => hq (by simp only [Control.mutates, hl, e])
    | resScope t excl body k =>
      simp only [Conf.step] at h
      split at h
      · rename_i hl
        exact same _ _ s rfl (by simp only [Conf.step, hl] <;> rfl) h
      · rename_i p hl
        have hb : (s.onHeap heap).blocks p excl = s.blocks p excl := rfl
        have hp : (E.resources.res t).peek (s.onHeap heap).heap = (E.resources.res t).peek s.heap :=
          peek_rel hR _ _ _ hu
        split at h
        · rename_i hc; exact same _ _ s rfl (by simp only [Conf.step, hl, hb, hc] <;> rfl) h
        · rename_i hnb
          split at h
          · rename_i hv; exact same _ _ s rfl (by simp only [Conf.step, hl, hb, if_neg hnb, hp, hv] <;> rfl) h
          · rename_i hv
            exact same _ _ (lockRes s p excl) rfl (by simp only [Conf.step, hl, hb, if_neg hnb, hp, hv] <;> rfl) h
    | resAssign t x k =>
      simp only [Conf.step] at h
      split at h
      · rename_i hc; exact same _ _ s rfl (by simp only [Conf.step, hc] <;> rfl) h
      · rename_i p hl
        have hb : (s.onHeap heap).locks = s.locks := rfl
        split at h
        · rename_i hk
          cases h
          refine ⟨heap.set p ⟨⟨t, x⟩, false⟩, by simp only [Conf.step, hl, hb, if_pos hk] <;> rfl, fun q hq => set_rel hR _ _ _ _ _ hq, ?_⟩
          intro q _ hq _
          refine List.getElem?_set_ne fun e => hq ?_
          rw [← e]
          show (p, true) ∈ s.locks
          simpa using hk
        · rename_i hc; exact same _ _ s rfl (by simp only [Conf.step, hl, hb, if_neg hc] <;> rfl) h
    | catchUnwind body k => exact same _ _ s rfl rfl h
    | forget k =>
      simp only [Conf.step] at h
      split at h
      · rename_i hc; exact same _ _ s rfl (by simp only [Conf.step, hc] <;> rfl) h
      · rename_i hc; exact same _ _ (leakFrame s _) rfl (by simp only [Conf.step, hc] <;> rfl) h
  | back out =>
    rcases out with (e | v) | _ | _
    · cases K with
      | nil => simp [Conf.step] at h
      | cons k K =>
        cases k with
        | tx n env k => exact same _ _ (closeChild s n) rfl rfl h
        | triggers f rest env k =>
          simp only [Conf.step] at h
          exact same _ _ s rfl (by simp only [Conf.step] <;> rfl) h
        | resScope p excl env k => exact same _ _ (unlockRes s) rfl rfl h
        | catchUnwind env k => exact same _ _ s rfl rfl h
    · cases K with
      | nil => simp [Conf.step] at h
      | cons k K =>
        cases k with
        | tx n env k =>
          refine same _ _ (commitChild s n) (commitChild_heap' _ _) ?_ h
          simp only [Conf.step, commitChild_onHeap]
        | triggers f rest env k => cases rest <;> exact same _ _ s rfl rfl h
        | resScope p excl env k => exact same _ _ (unlockRes s) rfl rfl h
        | catchUnwind env k => exact same _ _ s rfl rfl h
    · cases K with
      | nil => simp [Conf.step] at h
      | cons k K =>
        cases k with
        | tx n env k => exact same _ _ (closeChild s n) rfl rfl h
        | triggers f rest env k =>
          simp only [Conf.step] at h
          exact same _ _ s rfl (by simp only [Conf.step] <;> rfl) h
        | resScope p excl env k =>
          cases excl with
          | false => exact same _ _ (unwindRes s p false) rfl rfl h
          | true =>
            cases h
            refine ⟨heap.modify p fun cell => { cell with poisoned := true }, rfl,
              fun q hq => modify_rel hR _ _ _ _ hq, fun q _ _ hq => ?_⟩
            rw [List.getElem?_modify]
            have : ¬ p = q := fun e => hq (by rw [e]; exact List.mem_cons_self)
            simp [this]
        | catchUnwind env k => exact same _ _ s rfl rfl h
    · simp [Conf.step] at h

/-- Who writes is known. -/
theorem step_holders (E : Env σ) (M : Nat → Prop) {c c' : Conf σ} (h : c.step E = some c')
    (hm : ∀ q, c.control.mutates E = some q → M q) (hk : ∀ q, (q, true) ∈ openScopes c.stack → M q) :
    ∀ q, (q, true) ∈ openScopes c'.stack → M q := by
  obtain ⟨control, K, s⟩ := c
  have same : openScopes c'.stack = openScopes K → ∀ q, (q, true) ∈ openScopes c'.stack → M q := by
    intro e; rw [e]; exact hk
  cases control with
  | run env p =>
    cases p with
    | done r => cases h; exact same rfl
    | panic => cases h; exact same rfl
    | reenter => cases h; exact same rfl
    | save c n k => simp only [Conf.step] at h; split at h <;> cases h <;> exact same rfl
    | delete c i k => simp only [Conf.step] at h; split at h <;> cases h <;> exact same rfl
    | get c i k => simp only [Conf.step] at h; split at h <;> cases h <;> exact same rfl
    | contains c i k => simp only [Conf.step] at h; split at h <;> cases h <;> exact same rfl
    | tx c body k => simp only [Conf.step] at h; split at h <;> cases h <;> exact same rfl
    | runTriggers c sch k =>
      simp only [Conf.step] at h
      split at h
      · cases h; exact same rfl
      · split at h <;> cases h <;> exact same rfl
    | withTarget n k => simp only [Conf.step] at h; split at h <;> cases h <;> exact same rfl
    | targetRead c k => simp only [Conf.step] at h; split at h <;> cases h <;> exact same rfl
    | targetWrite c fn k =>
      simp only [Conf.step] at h
      split at h
      · cases h; exact same rfl
      · split at h
        · cases h; exact same rfl
        · split at h <;> cases h <;> exact same rfl
    | resRead t k => simp only [Conf.step] at h; split at h <;> cases h <;> exact same rfl
    | resWrite t fn k =>
      simp only [Conf.step] at h
      split at h
      · cases h; exact same rfl
      · split at h <;> cases h <;> exact same rfl
    | resScope t excl body k =>
      simp only [Conf.step] at h
      split at h
      · cases h; exact same rfl
      · rename_i p hl
        split at h
        · cases h; exact same rfl
        · split at h
          · cases h; exact same rfl
          · cases h
            intro q hq
            rcases List.mem_cons.1 hq with e | hq
            · cases e; exact hm _ (by simp only [Control.mutates, hl])
            · exact hk q hq
    | resAssign t x k =>
      simp only [Conf.step] at h
      split at h
      · cases h; exact same rfl
      · split at h <;> cases h <;> exact same rfl
    | catchUnwind body k => cases h; exact same rfl
    | forget k => simp only [Conf.step] at h; split at h <;> cases h <;> exact same rfl
  | back out =>
    have tail : ∀ q, (q, true) ∈ openScopes K.tail → M q := by
      intro q hq
      refine hk q ?_
      cases K with
      | nil => exact hq
      | cons k K => cases k <;> first | exact hq | exact List.mem_cons_of_mem _ hq
    rcases out with (e | v) | _ | _
    · cases K with
      | nil => simp [Conf.step] at h
      | cons k K => cases k <;> (simp only [Conf.step] at h; cases h; exact tail)
    · cases K with
      | nil => simp [Conf.step] at h
      | cons k K =>
        cases k with
        | triggers f rest env k => cases rest <;> (cases h; exact tail)
        | tx n env k => cases h; exact tail
        | resScope p excl env k => cases h; exact tail
        | catchUnwind env k => cases h; exact tail
    · cases K with
      | nil => simp [Conf.step] at h
      | cons k K => cases k <;> (simp only [Conf.step] at h; cases h; exact tail)
    · simp [Conf.step] at h

/-- A run on another graph and other resources that agree where it looks. -/
theorem steps_on_heap {E : Env σ} (hR : CellRel R) (M : Nat → Prop) {a b : Conf σ} (g : Graph σ.K σ.T)
    (h : Conf.Steps E a b) : ∀ heap : Heap σ.Val,
    (∀ c, Conf.Steps E a c → ∀ i, c.control.lookup = some i → g.get i = a.st.graph.get i) →
    (∀ c, Conf.Steps E a c → ∀ p, c.control.uses E = some p → Option.Rel R a.st.heap[p]? heap[p]?) →
    (∀ c, Conf.Steps E a c → ∀ q, c.control.mutates E = some q → M q) →
    a.st.locks = openScopes a.stack → (∀ q, (q, true) ∈ openScopes a.stack → M q) →
    ∃ heap', Conf.Steps E ((a.on g).onHeap heap) ((b.on g).onHeap heap') ∧ b.st.graph = a.st.graph ∧
      (∀ q : Nat, Option.Rel R a.st.heap[q]? heap[q]? → Option.Rel R b.st.heap[q]? heap'[q]?) ∧
      (∀ q : Nat, ¬ M q → heap'[q]? = heap[q]?) := by
  induction h with
  | refl c => intro heap _ _ _ _ _; exact ⟨heap, .refl _, rfl, fun _ h => h, fun _ _ => rfl⟩
  | @head c c' c'' h1 _ ih =>
    intro heap hg hu hm hl hk
    obtain ⟨h2, h3⟩ := step_on E g (hg c (.refl _)) h1
    obtain ⟨heap1, h4, h5, h6⟩ := step_heap E hR (c := c.on g) heap (hu c (.refl _)) h2
    obtain ⟨heap2, h7, h8, h9, h10⟩ := ih heap1 (fun d hd i hi => by rw [h3]; exact hg d (.head h1 hd) i hi)
      (fun d hd p hp => h5 p (hu d (.head h1 hd) p hp)) (fun d hd q hq => hm d (.head h1 hd) q hq)
      (step_locks E h1 hl) (step_holders E M h1 (hm c (.refl _)) hk)
    refine ⟨heap2, .head h4 h7, h8.trans h3, fun q hq => h9 q (h5 q hq), fun q hq => ?_⟩
    rw [h10 q hq]
    exact h6 q (fun e => hq (hm c (.refl _) q e)) (fun e => hq (hk q (by rw [← hl]; exact e))) fun e => hq (hk q e)

theorem uses_reaches {S : Schema σ} {pre : List (Operation σ.K σ.T)} {body : Prog σ} {c : Conf σ} {p : Nat}
    (h : Conf.Steps S.env ⟨.run [0] body, [], S.begin pre⟩ c) (hp : c.control.uses S.env = some p) :
    ∃ t, UsesRes S pre body t ∧ (S.env.resources.res t).lock = some p := by
  obtain ⟨control, K, s⟩ := c
  dsimp only at hp
  unfold Control.uses at hp
  split at hp
  · exact ⟨_, .inl ⟨_, _, _, _, h⟩, hp⟩
  · exact ⟨_, .inr (.inl ⟨_, _, _, _, _, h⟩), hp⟩
  · exact ⟨_, .inr (.inr ⟨_, _, _, _, _, _, h⟩), hp⟩
  · cases hp

theorem mutates_reaches {S : Schema σ} {pre : List (Operation σ.K σ.T)} {body : Prog σ} {c : Conf σ} {p : Nat}
    (h : Conf.Steps S.env ⟨.run [0] body, [], S.begin pre⟩ c) (hp : c.control.mutates S.env = some p) :
    ∃ t, WritesRes S pre body t ∧ (S.env.resources.res t).lock = some p := by
  obtain ⟨control, K, s⟩ := c
  dsimp only at hp
  unfold Control.mutates at hp
  split at hp
  · exact ⟨_, .inl ⟨_, _, _, _, _, h⟩, hp⟩
  · exact ⟨_, .inr ⟨_, _, _, _, _, h⟩, hp⟩
  · cases hp

/-- The cells a transaction asks for to write them. -/
def Written (S : Schema σ) (pre : List (Operation σ.K σ.T)) (body : Prog σ) (q : Nat) : Prop :=
  ∃ t, WritesRes S pre body t ∧ (S.env.resources.res t).lock = some q

/-- What a finished transaction does, on its schema and on others that agree where it looks, resources included. -/
theorem transact_on_heap {S S1 : Schema σ} {fuel : Nat} {pre : List (Operation σ.K σ.T)} {body : Prog σ}
    {out : Out (Except Error σ.V)} (h : S.transact fuel pre body = some (out, S1)) (hne : out ≠ .stuck) :
    ∃ ops : List (Operation σ.K σ.T), (∀ op ∈ ops, op ∈ pre ∨ Issues S pre body op) ∧ S1.graph = S.graph.commit ops ∧
      S1.env = S.env ∧ (S1.poisoned = true ↔ S.poisoned = true ∨ out = .panic) ∧
      ∀ R : Lock (Dyn σ.Val) → Lock (Dyn σ.Val) → Prop, CellRel R → ∀ S' : Schema σ, S'.env = S.env →
        (∀ t p, UsesRes S pre body t → (S.env.resources.res t).lock = some p → Option.Rel R S.heap[p]? S'.heap[p]?) →
        (∀ i, LooksUp S pre body i → S'.guard.get i = S.guard.get i) →
        ∃ fuel' S1', S'.transact fuel' pre body = some (out, S1') ∧ S1'.graph = S'.graph.commit ops ∧
          (∀ q : Nat, Option.Rel R S.heap[q]? S'.heap[q]? → Option.Rel R S1.heap[q]? S1'.heap[q]?) ∧
          (∀ q : Nat, ¬ Written S pre body q → S1'.heap[q]? = S'.heap[q]?) ∧
          S1'.env = S.env ∧ (S1'.poisoned = true ↔ S'.poisoned = true ∨ out = .panic) := by
  have e : ∀ S : Schema σ, S.guard = S.graph := fun S => by unfold Schema.guard; split <;> rfl
  obtain ⟨s, he, henv, hheap, hok, hfail⟩ := transact_some h
  obtain ⟨hgr, fr, hfr, _, _⟩ := root_after he
  have hst := eval_steps S.env fuel _ _ _ _ _ [] he hne
  have hlog : ∀ op ∈ fr.ops, op ∈ pre ∨ Issues S pre body op := by
    intro op ho
    rcases steps_logged hst (op := op) ⟨fr, by rw [hfr]; simp, ho⟩ with ⟨fr', hm, ho'⟩ | ⟨c, hc, hi⟩
    · left
      simp only [Schema.begin, List.mem_singleton] at hm
      rw [hm] at ho'; exact ho'
    · exact .inr (issue_reaches hc hi)
  -- the same run on another schema
  have hrun : ∀ R : Lock (Dyn σ.Val) → Lock (Dyn σ.Val) → Prop, CellRel R → ∀ S' : Schema σ, S'.env = S.env →
      (∀ t p, UsesRes S pre body t → (S.env.resources.res t).lock = some p → Option.Rel R S.heap[p]? S'.heap[p]?) →
      (∀ i, LooksUp S pre body i → S'.guard.get i = S.guard.get i) →
      ∃ fuel' heap', eval S'.env fuel' [0] body (S'.begin pre) = some (out, (s.on S'.graph).onHeap heap') ∧
        (∀ q : Nat, Option.Rel R S.heap[q]? S'.heap[q]? → Option.Rel R s.heap[q]? heap'[q]?) ∧
        (∀ q : Nat, ¬ Written S pre body q → heap'[q]? = S'.heap[q]?) := by
    intro R hR S' hE hH hL
    have hb : S'.begin pre = ((S.begin pre).on S'.graph).onHeap S'.heap := by
      unfold Schema.begin St.on St.onHeap; rw [e]
    rw [hb, hE]
    obtain ⟨heap', h1, _, h2, h3⟩ := steps_on_heap hR (Written S pre body) S'.graph hst S'.heap
      (fun c hc i hi => by
        have := hL i (lookup_reaches hc hi)
        rw [e] at this
        rw [this]; rfl)
      (fun c hc p hp => by
        obtain ⟨t, ht, hl⟩ := uses_reaches hc hp
        exact hH t p ht hl)
      (fun c hc q hq => mutates_reaches hc hq) rfl (fun q hq => by cases hq)
    obtain ⟨fuel', hf⟩ := Conf.Steps.eval h1
    exact ⟨fuel', heap', hf, h2, h3⟩
  have hcommit : ∀ (g : Graph σ.K σ.T) (heap : Heap σ.Val),
      commitRoot ((s.on g).onHeap heap) = g.commit (if fr.leaked then [] else fr.ops) := by
    intro g heap
    have : ((s.on g).onHeap heap).frames[0]? = some fr := by show s.frames[0]? = _; rw [hfr]; rfl
    unfold commitRoot
    rw [this]
    show (if fr.leaked = true then g else g.commit fr.ops) = _
    cases hl : fr.leaked <;> simp [Graph.commit]
  have hself : (s.on s.graph).onHeap s.heap = s := rfl
  have hp1 : S1.poisoned = true ↔ S.poisoned = true ∨ out = .panic := by
    unfold Schema.transact at h
    rw [he] at h
    rcases out with (x | v) | _ | _ <;> cases h <;> simp
  by_cases hv : ∃ v, out = .ret (.ok v)
  · refine ⟨if fr.leaked then [] else fr.ops, ?_, ?_, henv, hp1, ?_⟩
    · intro op ho
      split at ho
      · cases ho
      · exact hlog op ho
    · rw [hok hv, ← hself, hcommit, hgr]
    · intro R hR S' hE hH hL
      obtain ⟨fuel', heap', hf, h2, h3⟩ := hrun R hR S' hE hH hL
      obtain ⟨v, rfl⟩ := hv
      refine ⟨fuel', { S' with graph := commitRoot ((s.on S'.graph).onHeap heap'), heap := heap' }, ?_, hcommit _ _,
        fun q hq => by rw [hheap]; exact h2 q hq, h3, hE, by simp⟩
      unfold Schema.transact; rw [hf]; rfl
  · refine ⟨[], (by simp), ?_, henv, hp1, ?_⟩
    · rw [hfail fun v hv' => hv ⟨v, hv'⟩]; rfl
    · intro R hR S' hE hH hL
      obtain ⟨fuel', heap', hf, h2, h3⟩ := hrun R hR S' hE hH hL
      have h2 : ∀ q : Nat, Option.Rel R S.heap[q]? S'.heap[q]? → Option.Rel R S1.heap[q]? heap'[q]? :=
        fun q hq => by rw [hheap]; exact h2 q hq
      rcases out with (x | v) | _ | _
      · refine ⟨fuel', { S' with graph := S'.graph, heap := heap' }, ?_, rfl, h2, h3, hE, by simp⟩
        unfold Schema.transact; rw [hf]; rfl
      · exact (hv ⟨v, rfl⟩).elim
      · refine ⟨fuel', { S' with graph := S'.graph, heap := heap', poisoned := true }, ?_, rfl, h2, h3, hE, by simp⟩
        unfold Schema.transact; rw [hf]; rfl
      · exact (hne rfl).elim

/-- A finished transaction leaves the cells it does not ask for to write as they are. -/
theorem transact_unwritten {S S1 : Schema σ} {fuel : Nat} {pre : List (Operation σ.K σ.T)} {body : Prog σ}
    {out : Out (Except Error σ.V)} (h : S.transact fuel pre body = some (out, S1)) (hne : out ≠ .stuck) (q : Nat)
    (hq : ¬ Written S pre body q) : S1.heap[q]? = S.heap[q]? := by
  obtain ⟨_, _, _, _, _, hr⟩ := transact_on_heap h hne
  obtain ⟨f, S1', h1, _, h2, h3, _⟩ := hr Eq cellRel_eq S rfl (fun _ _ _ _ => rel_refl cellRel_eq _) fun _ _ => rfl
  have hsame : S1' = S1 := by
    have a := transact_mono_le _ (Nat.le_max_left f fuel) h1
    have b := transact_mono_le _ (Nat.le_max_right f fuel) h
    rw [a] at b; cases b; rfl
  rw [← hsame]; exact h3 q hq

/-! ## Computing what a transaction uses -/

/-- The resource the next call asks for, and whether to write it. -/
def Control.asks : Control σ → Option (σ.Ty × Bool)
  | .run _ (.resRead t _) => some (t, false)
  | .run _ (.resWrite t _ _) => some (t, true)
  | .run _ (.resScope t excl _ _) => some (t, excl)
  | _ => none

/-- The resources asked for in at most `n` steps of a transaction. -/
def Schema.asks (S : Schema σ) (pre : List (Operation σ.K σ.T)) (body : Prog σ) (n : Nat) : List (σ.Ty × Bool) :=
  (Conf.trace S.env n ⟨.run [0] body, [], S.begin pre⟩).filterMap fun c => c.control.asks

theorem usesRes_asks {S : Schema σ} {pre : List (Operation σ.K σ.T)} {body : Prog σ} {n : Nat}
    (hn : Conf.ends S.env n ⟨.run [0] body, [], S.begin pre⟩ = true) {t : σ.Ty} (h : UsesRes S pre body t) :
    ∃ excl, (t, excl) ∈ S.asks pre body n := by
  rcases h with ⟨k, _, _, _, h⟩ | ⟨fn, k, _, _, _, h⟩ | ⟨excl, b, k, _, _, _, h⟩
  · exact ⟨false, List.mem_filterMap.2 ⟨_, mem_trace h hn, rfl⟩⟩
  · exact ⟨true, List.mem_filterMap.2 ⟨_, mem_trace h hn, rfl⟩⟩
  · exact ⟨excl, List.mem_filterMap.2 ⟨_, mem_trace h hn, rfl⟩⟩

theorem writesRes_asks {S : Schema σ} {pre : List (Operation σ.K σ.T)} {body : Prog σ} {n : Nat}
    (hn : Conf.ends S.env n ⟨.run [0] body, [], S.begin pre⟩ = true) {t : σ.Ty} (h : WritesRes S pre body t) :
    (t, true) ∈ S.asks pre body n := by
  rcases h with ⟨fn, k, _, _, _, h⟩ | ⟨b, k, _, _, _, h⟩
  · exact List.mem_filterMap.2 ⟨_, mem_trace h hn, rfl⟩
  · exact List.mem_filterMap.2 ⟨_, mem_trace h hn, rfl⟩

/-- Resources of made schemas that read the same are the same or both poisoned. -/
theorem alike_of_peek [LawfulSig σ] {S S' : Schema σ} (hS : Made S) (hS' : Made S') (henv : S'.env = S.env) {t : σ.Ty} {p : Nat}
    (hl : (S.env.resources.res t).lock = some p)
    (h : (S'.env.resources.res t).peek S'.heap = (S.env.resources.res t).peek S.heap) :
    Option.Rel Lock.Alike S.heap[p]? S'.heap[p]? := by
  have h1 := (made_cells hS).2.1 t p hl
  have h2 := (made_cells hS').2.1 t p (by rw [henv]; exact hl)
  have t1 := made_typed hS t p hl _ (List.getElem?_eq_getElem h1)
  have t2 := made_typed hS' t p (by rw [henv]; exact hl) _ (List.getElem?_eq_getElem h2)
  rw [henv] at h
  unfold Res.peek at h
  rw [hl] at h
  dsimp only at h
  rw [List.getElem?_eq_getElem h1, List.getElem?_eq_getElem h2] at h
  rw [List.getElem?_eq_getElem h1, List.getElem?_eq_getElem h2]
  refine .some ?_
  generalize S.heap[p] = a at t1 h
  generalize S'.heap[p] = b at t2 h
  obtain ⟨⟨u, x⟩, pa⟩ := a
  obtain ⟨⟨w, y⟩, pb⟩ := b
  cases t1
  cases t2
  dsimp only at h
  rw [downcast_self, downcast_self] at h
  cases pa <;> cases pb
  · simp at h; rw [h]; exact .inl rfl
  · simp at h
  · simp at h
  · exact .inr ⟨rfl, rfl⟩

end Plotline
