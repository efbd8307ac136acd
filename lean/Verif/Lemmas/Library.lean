import Verif.Spec.Library
import Verif.Lemmas.App
import Verif.Lemmas.Lazy

/-! # Lemmas about schemas of lazy documents -/

namespace Plotline

open Std

/-! ## Calls without changes inside of nodes -/

section
variable {σ : Sig}

def Call.inside : Call σ → Bool
  | .touch _ _ => true
  | _ => false

/-- The calls are the same but for changes inside of targets. -/
inductive SameCalls : List (Call σ) → List (Call σ) → Prop where
  | nil : SameCalls [] []
  | touch {h h' : List (Call σ)} (j : Nat) (f : σ.T → σ.T) : SameCalls h h' → SameCalls (.touch j f :: h) h'
  | cons {h h' : List (Call σ)} (c : Call σ) : SameCalls h h' → SameCalls (c :: h) (c :: h')

theorem SameCalls.txOf {h h' : List (Call σ)} (hs : SameCalls h h') (c : Nat) : Plotline.txOf h c = Plotline.txOf h' c := by
  induction hs with
  | nil => rfl
  | touch j f _ ih => exact ih
  | cons x _ ih => cases x <;> simp only [Plotline.txOf, ih]

theorem SameCalls.parentTx {h h' : List (Call σ)} (hs : SameCalls h h') (t : Nat) : Plotline.parentTx h t = Plotline.parentTx h' t := by
  induction hs with
  | nil => rfl
  | touch j f _ ih => exact ih
  | cons x hs ih => cases x <;> simp only [Plotline.parentTx, ih, hs.txOf]

theorem SameCalls.leaked {h h' : List (Call σ)} (hs : SameCalls h h') (t : Nat) : Leaked h t ↔ Leaked h' t := by
  induction hs with
  | nil => exact Iff.rfl
  | touch j f _ ih => exact ih
  | cons x hs ih => cases x <;> simp only [Leaked, ih, hs.txOf]

theorem SameCalls.lastWriteOf {h h' : List (Call σ)} (hs : SameCalls h h') (t : Nat) (i : σ.K) :
    Plotline.lastWriteOf h t i = Plotline.lastWriteOf h' t i := by
  induction hs generalizing t with
  | nil => rfl
  | touch j f _ ih => exact ih t
  | cons x hs ih =>
    cases x with
    | commit s =>
      simp only [Plotline.lastWriteOf, ih]
      rename_i h h'
      have e : (Plotline.parentTx h s = some t ∧ ¬ Leaked h s) ↔ (Plotline.parentTx h' s = some t ∧ ¬ Leaked h' s) :=
        and_congr (by rw [hs.parentTx s]) (not_congr (hs.leaked s))
      by_cases hc : Plotline.parentTx h' s = some t ∧ ¬ Leaked h' s
      · rw [if_pos (e.2 hc), if_pos hc]
      · rw [if_neg (fun h => hc (e.1 h)), if_neg hc]
    | _ => simp only [Plotline.lastWriteOf, ih, hs.txOf]

theorem SameCalls.sees {h h' : List (Call σ)} (hs : SameCalls h h') {b : Option σ.T} {i : σ.K} {t : Nat} {r : Option σ.T} :
    Sees b h i t r ↔ Sees b h' i t r := by
  constructor
  · intro hr
    induction hr with
    | written hw => exact .written (hs.lastWriteOf _ _ ▸ hw)
    | inherited hw hp _ ih => exact .inherited (hs.lastWriteOf _ _ ▸ hw) (hs.parentTx _ ▸ hp) ih
    | stored hw => exact .stored (hs.lastWriteOf _ _ ▸ hw)
  · intro hr
    induction hr with
    | written hw => exact .written ((hs.lastWriteOf _ _).symm ▸ hw)
    | inherited hw hp _ ih => exact .inherited ((hs.lastWriteOf _ _).symm ▸ hw) ((hs.parentTx _).symm ▸ hp) ih
    | stored hw => exact .stored ((hs.lastWriteOf _ _).symm ▸ hw)

/-- A call that puts nothing under the id leaves what is there. -/
theorem storedAt_unput {g : Graph σ.K σ.T} {h : List (AppCall σ)} {x : AppCall σ} {i : σ.K} (ht : x.touches = false) (hp : ¬ Puts h i x) :
    storedAt g (x :: h) i = storedAt g h i := by
  cases x with
  | touch n j f => cases ht
  | insert n v => exact if_neg hp
  | remove n j => exact if_neg hp
  | replace n l => exact absurd trivial hp
  | inTx y c =>
    cases c with
    | commit t =>
      cases t with
      | zero =>
        simp only [storedAt]
        split
        · rfl
        · rename_i hl
          cases hw : lastWriteOf (callsOf y h) 0 i with
          | none => rfl
          | some v => exact absurd ⟨hl, v, hw⟩ hp
      | succ t => rfl
    | _ => rfl
  | _ => rfl

/-- What a call puts under the id does not depend on what was there. -/
theorem storedAt_put {g : Graph σ.K σ.T} {h h' : List (AppCall σ)} {x : AppCall σ} {i : σ.K} (hs : ∀ n, SameCalls (callsOf n h) (callsOf n h'))
    (hp : Puts h i x) : storedAt g (x :: h) i = storedAt g (x :: h') i := by
  cases x with
  | insert n v => exact (if_pos hp).trans (if_pos hp).symm
  | remove n j => exact (if_pos hp).trans (if_pos hp).symm
  | replace n l => rfl
  | inTx y c =>
    cases c with
    | commit t =>
      cases t with
      | zero =>
        obtain ⟨h1, v, h2⟩ := hp
        simp only [storedAt]
        rw [if_neg h1, if_neg (fun h3 => h1 (((hs y).leaked 0).2 h3)), ← (hs y).lastWriteOf, h2]
        rfl
      | succ t => exact hp.elim
    | _ => exact hp.elim
  | _ => exact hp.elim

theorem puts_congr {h h' : List (AppCall σ)} {x : AppCall σ} {i : σ.K} (hs : ∀ n, SameCalls (callsOf n h) (callsOf n h')) :
    Puts h i x ↔ Puts h' i x := by
  cases x with
  | inTx y c =>
    cases c with
    | commit t =>
      cases t with
      | zero => simp only [Puts, (hs y).leaked, (hs y).lastWriteOf]
      | succ t => exact Iff.rfl
    | _ => exact Iff.rfl
  | _ => exact Iff.rfl

theorem callsOf_cons {h h' : List (AppCall σ)} (hs : ∀ n, SameCalls (callsOf n h) (callsOf n h')) (x : AppCall σ) (n : Nat) :
    SameCalls (callsOf n (x :: h)) (callsOf n (x :: h')) := by
  cases x <;> simp only [callsOf]
  all_goals first
    | exact hs n
    | (split
       · exact .cons _ (hs n)
       · exact hs n)

end

/-! ## Targets in use -/

section
variable {σ : Sig}

/-- Targets in use have a value, and one in use by `with_mut` is in use only once. -/
structure UseInv (w : World σ) : Prop where
  excl : w.guards.Pairwise fun l l' => l.1 = l'.1 → l.2 = false ∧ l'.2 = false
  whole : ∀ l ∈ w.guards, ∃ c, w.cells[l.1]? = some c ∧ c.poisoned = false

theorem useInv_cells {w w' : World σ} (hI : UseInv w) (hg : w'.guards = w.guards)
    (hc : ∀ l ∈ w.guards, ∀ c, w.cells[l.1]? = some c → c.poisoned = false → ∃ c', w'.cells[l.1]? = some c' ∧ c'.poisoned = false) : UseInv w' := by
  refine ⟨by rw [hg]; exact hI.excl, fun l hl => ?_⟩
  rw [hg] at hl
  obtain ⟨c, h1, h2⟩ := hI.whole l hl
  exact hc l hl c h1 h2

theorem useInv_same {w w' : World σ} (hI : UseInv w) (hg : w'.guards = w.guards) (hc : w'.cells = w.cells) : UseInv w' :=
  useInv_cells hI hg fun l _ c h1 h2 => ⟨c, by rw [hc]; exact h1, h2⟩

theorem not_blocked {w : World σ} {p : Nat} {excl : Bool} (hb : ¬ w.blocked p excl = true) {l : Nat × Bool} (hl : l ∈ w.guards)
    (hp : l.1 = p) : excl = false ∧ l.2 = false := by
  simp only [World.blocked, List.any_eq_true, Bool.and_eq_true, beq_iff_eq, Bool.or_eq_true] at hb
  constructor
  · cases he : excl with
    | false => rfl
    | true => exact absurd ⟨l, hl, hp, .inl he⟩ hb
  · cases he : l.2 with
    | false => rfl
    | true => exact absurd ⟨l, hl, hp, .inr he⟩ hb

theorem useInv_step {w w' : World σ} {x : Call σ} {a : Answer σ.T} (hI : UseInv w) (hs : w.step x = some (a, w')) : UseInv w' := by
  cases x with
  | withTarget c n =>
    simp only [World.step] at hs
    split at hs
    · cases hs
      refine useInv_cells hI rfl fun l _ c h1 h2 => ⟨c, ?_, h2⟩
      rw [List.getElem?_append_left (List.getElem?_eq_some_iff.1 h1).1]; exact h1
    · cases hs
  | writeTarget k f =>
    simp only [World.step] at hs
    split at hs
    · cases hs; exact hI
    · rename_i p _
      split at hs
      · rename_i l _
        split at hs
        · cases hs; exact hI
        · rename_i hb
          have hne : ∀ l ∈ w.guards, p ≠ l.1 := fun l hl hp => by cases (not_blocked hb hl hp.symm).1
          split at hs
          · cases hs; exact hI
          · split at hs <;> cases hs
            all_goals
              refine useInv_cells hI rfl fun l hl c h1 h2 => ⟨c, ?_, h2⟩
              rw [List.getElem?_set_ne (hne l hl)]; exact h1
      · cases hs
    · cases hs
  | enter k excl =>
    simp only [World.step] at hs
    split at hs
    · cases hs; exact hI
    · rename_i p _
      split at hs
      · rename_i l hl
        split at hs
        · cases hs; exact hI
        · rename_i hb
          split at hs
          · cases hs; exact hI
          · rename_i hpo
            cases hs
            refine ⟨List.pairwise_cons.2 ⟨fun l' hl' hp => not_blocked hb hl' hp.symm, hI.excl⟩, fun l' hl' => ?_⟩
            rcases List.mem_cons.1 hl' with rfl | hl'
            · exact ⟨l, hl, by simpa using hpo⟩
            · exact hI.whole l' hl'
      · cases hs
    · cases hs
  | assign j n =>
    simp only [World.step] at hs
    split at hs
    · rename_i p _
      cases hs
      refine useInv_cells hI rfl fun l _ c h1 h2 => ?_
      by_cases he : p = l.1
      · subst he; exact ⟨_, (getElem?_modify_self _ _ _).trans (congrArg _ h1), h2⟩
      · exact ⟨c, by rw [getElem?_modify_ne _ _ he]; exact h1, h2⟩
    · cases hs
  | touch j n =>
    simp only [World.step] at hs
    split at hs
    · rename_i p _ _
      cases hs
      refine useInv_cells hI rfl fun l _ c h1 h2 => ?_
      by_cases he : p = l.1
      · subst he; exact ⟨_, (getElem?_modify_self _ _ _).trans (congrArg _ h1), h2⟩
      · exact ⟨c, by rw [getElem?_modify_ne _ _ he]; exact h1, h2⟩
    · cases hs
  | leave j panicked =>
    simp only [World.step] at hs
    split at hs
    · rename_i p excl hj
      cases hs
      refine ⟨hI.excl.sublist (List.eraseIdx_sublist _ _), fun l hl => ?_⟩
      obtain ⟨c, h1, h2⟩ := hI.whole l (List.mem_of_mem_eraseIdx hl)
      by_cases hb : (panicked && excl) = true
      · have he : excl = true := by simp at hb; exact hb.2
        have hne : p ≠ l.1 := by
          intro hp
          obtain ⟨k, hk1, hk2⟩ := List.mem_eraseIdx_iff_getElem?.1 hl
          have hjl := (List.getElem?_eq_some_iff.1 hj)
          have hkl := (List.getElem?_eq_some_iff.1 hk2)
          obtain ⟨hj1, hj2⟩ := hjl
          obtain ⟨hk3, hk4⟩ := hkl
          have hpw := List.pairwise_iff_getElem.1 hI.excl
          rcases Nat.lt_or_gt_of_ne hk1 with hlt | hlt
          · have := (hpw k j hk3 hj1 hlt (by rw [hj2, hk4]; exact hp.symm)).2
            rw [hj2, he] at this; cases this
          · have := (hpw j k hj1 hk3 hlt (by rw [hj2, hk4]; exact hp)).1
            rw [hj2, he] at this; cases this
        exact ⟨c, by simp only [hb, if_true]; rw [getElem?_modify_ne _ _ hne]; exact h1, h2⟩
      · exact ⟨c, by simp only [hb]; exact h1, h2⟩
    · cases hs
  | _ =>
    simp only [World.step, Option.map_eq_some_iff] at hs
    repeat' split at hs
    all_goals first
      | (cases hs; done)
      | (cases hs; exact useInv_same hI rfl rfl)
      | (obtain ⟨_, _, he⟩ := hs; cases he; exact useInv_same hI rfl rfl)

theorem Legal.use {g : Graph σ.K σ.T} {h : List (Call σ)} {w : World σ} (hl : Legal g h w) : UseInv w := by
  induction hl with
  | start => exact ⟨by simp [World.start], by simp [World.start]⟩
  | call _ hs _ ih => exact useInv_step ih hs

end

/-! ## Loading -/

section
variable {β : Sig}

instance [LawfulSig β] : LawfulSig (lazySig β) where
  transK := inferInstanceAs (TransOrd β.K)
  beqK := inferInstanceAs (LawfulBEqOrd β.K)
  transTy := inferInstanceAs (TransOrd β.Ty)
  eqTy := inferInstanceAs (LawfulEqOrd β.Ty)

theorem tryDeref_eq (repo : β.K → Option β.T) (l : LazyDocument β.K β.T) :
    l.tryDeref repo = (l.document.or (repo l.document_id), ⟨l.document_id, l.document.or (repo l.document_id)⟩,
      if l.document.isSome then [] else [l.document_id]) := by
  obtain ⟨i, _ | d⟩ := l
  · rw [tryDeref_unloaded]; simp
  · rw [tryDeref_loaded]; simp

theorem loading_eq (repo : β.K → Option β.T) (l : LazyDocument β.K β.T) :
    (loading repo).1 l = ⟨l.document_id, l.document.or (repo l.document_id)⟩ := by
  show (l.tryDeref repo).2.1 = _
  rw [tryDeref_eq]

variable {g : Graph β.K (lazySig β).T} {r : β.K → Option β.T} {h : List (LibCall β)} {b b' : Library β}

theorem full_outer (r : β.K → Option β.T) (h : List (LibCall β)) (n : Nat) :
    SameCalls (callsOf n (fullCalls r h)) (callsOf n (outerCalls h)) := by
  induction h generalizing n with
  | nil => exact .nil
  | cons x h ih =>
    cases x with
    | repo r' => exact ih n
    | app x => exact callsOf_cons ih x n
    | load n' i => exact ih n
    | loadTarget x j =>
      simp only [fullCalls, outerCalls, callsOf]
      split
      · exact .touch _ _ (ih n)
      · exact ih n
    | loadOwn k => exact ih n

/-- A document as it was put, with what was found since. -/
def withFound (p : LazyDocument β.K β.T) (d : Option β.T) : LazyDocument β.K β.T := ⟨p.document_id, p.document.or d⟩

/-- What the schema and the repository have come to. -/
structure LibInv (g : Graph β.K (lazySig β).T) (r : β.K → Option β.T) (h : List (LibCall β)) (b : Library β) : Prop where
  legal : AppLegal (σ := lazySig β) g (fullCalls r h) b.app
  repo : b.repo = repoNow r h
  noTouch : ∀ x, .app x ∈ h → x.touches = false
  stored : ∀ i, storedAt (σ := lazySig β) g (fullCalls r h) i = (putLast g h i).map fun p => withFound p (firstFound g r h i)

theorem withFound_none (p : LazyDocument β.K β.T) : withFound p none = p := by
  obtain ⟨i, d⟩ := p
  simp [withFound]

theorem step_app {x : AppCall (lazySig β)} {y : LibAnswer β} (hs : b.step (.app x) = some (y, b')) :
    x.touches = false ∧ ∃ q a, b.app.step x = some (q, a) ∧ y = .app q ∧ b' = { b with app := a, own := b.own ++ q.owned } := by
  simp only [Library.step] at hs
  split at hs
  · cases hs
  · rename_i ht
    obtain ⟨⟨q, a⟩, hq, he⟩ := Option.map_eq_some_iff.1 hs
    cases he
    exact ⟨by simpa using ht, q, a, hq, rfl, rfl⟩

theorem touch_none [LawfulSig β] {a : App (lazySig β)} (hr : a.schema.graph.Reachable) {n : Nat} {i : β.K} {f : Inner (lazySig β)} {x : AppAnswer (lazySig β)}
    {a' : App (lazySig β)} (hs : a.step (.touch n i f) = some (x, a')) (hn : a.schema.guard.get i = none) : a' = a := by
  obtain ⟨_, _, he⟩ := Option.map_eq_some_iff.1 hs
  cases he
  rw [schema_guard] at hn ⊢
  rw [Graph.touch_eq _ hr.valid _ f.2, hn]

theorem libInv_step [LawfulSig β] (hg : g.Reachable) (hI : LibInv g r h b) {x : LibCall β} {y : LibAnswer β}
    (hs : b.step x = some (y, b')) (hy : y ≠ .app .stuck) : LibInv g r (x :: h) b' := by
  have hG := hI.legal.gInv hg
  cases x with
  | repo r' =>
    cases hs
    refine ⟨hI.legal, rfl, fun x hx => hI.noTouch x (by simpa using hx), hI.stored⟩
  | app x =>
    obtain ⟨ht, q, a, hq, rfl, rfl⟩ := step_app hs
    refine ⟨.call hI.legal hq (fun h => hy (by rw [h])), hI.repo, ?_, fun i => ?_⟩
    · intro x' hx'
      rcases List.mem_cons.1 hx' with h1 | h1
      · cases h1; exact ht
      · exact hI.noTouch x' h1
    · simp only [fullCalls, putLast, outerCalls, firstFound]
      have hpc := puts_congr (x := x) (i := i) (full_outer r h)
      by_cases hp : Puts (outerCalls h) i x
      · rw [if_pos hp, storedAt_put (full_outer r h) (hpc.2 hp)]
        simp [withFound_none]
      · rw [if_neg hp, storedAt_unput ht (fun h => hp (hpc.1 h)), storedAt_unput ht hp]
        exact hI.stored i
  | load n j =>
    simp only [Library.step] at hs
    split at hs
    · cases hs
    · rename_i x a hq
      have hx : x = .none := by obtain ⟨_, _, he⟩ := Option.map_eq_some_iff.1 hq; cases he; rfl
      have hst : ∀ i, storedAt (σ := lazySig β) g (fullCalls r (.load n j :: h)) i =
          (putLast g (.load n j :: h) i).map fun p => withFound p (firstFound g r (.load n j :: h) i) := by
        intro i
        simp only [fullCalls, storedAt, putLast, outerCalls, firstFound]
        split
        · rw [hI.stored i]
          simp only [putLast]
          cases storedAt (σ := lazySig β) g (outerCalls h) i with
          | none => rfl
          | some p => simp [loading_eq, withFound, Option.or_assoc]
        · exact hI.stored i
      have hl : AppLegal (σ := lazySig β) g (fullCalls r (.load n j :: h)) a :=
        .call hI.legal (by rw [← hI.repo]; exact hq) (by simp [hx])
      have hnt : ∀ x, LibCall.app x ∈ LibCall.load n j :: h → x.touches = false := fun x hx => hI.noTouch x (by simpa using hx)
      split at hs
      · rename_i hn
        cases hs
        rw [touch_none hG.reach hq hn] at hl
        exact ⟨hl, hI.repo, hnt, hst⟩
      · cases hs
        exact ⟨hl, hI.repo, hnt, hst⟩
  | loadTarget x j =>
    simp only [Library.step] at hs
    split at hs
    · rename_i q a l hq _
      cases hs
      refine ⟨.call hI.legal (by rw [← hI.repo]; exact hq) ?_, hI.repo, fun x hx => hI.noTouch x (by simpa using hx), hI.stored⟩
      simp only [App.step] at hq
      split at hq
      · cases hq
      · split at hq <;> cases hq
      · rename_i w st _
        split at hq
        · cases hq
        · rename_i a' w' hw
          cases hq
          simp only [World.step] at hw
          split at hw
          · cases hw; simp [Answer.lift]
          · cases hw
    · cases hs
  | loadOwn k =>
    simp only [Library.step] at hs
    split at hs
    · cases hs
    · cases hs
      exact ⟨hI.legal, hI.repo, fun x hx => hI.noTouch x (by simpa using hx), hI.stored⟩

theorem LibLegal.inv [LawfulSig β] (hg : g.Reachable) (hl : LibLegal g r h b) : LibInv g r h b := by
  induction hl with
  | start => exact ⟨.start, rfl, by simp, fun i => by simp [fullCalls, putLast, outerCalls, firstFound, withFound_none]⟩
  | call _ hs hy ih => exact libInv_step hg ih hs hy

end

end Plotline
