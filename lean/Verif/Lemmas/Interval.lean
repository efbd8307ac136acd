import Verif.Spec.Interval

/-! # Lemmas about intervals and the interval tree -/

namespace Plotline

open Std

set_option linter.unusedSectionVars false

section
variable {B : Type} [Ord B] [TransOrd B]

/-! ## The order of bounds -/

def LeB (a b : B) : Prop := (compare a b).isLE = true
def LtB (a b : B) : Prop := compare a b = .lt

theorem LeB.refl (a : B) : LeB a a := by unfold LeB; rw [ReflOrd.compare_self]; rfl
theorem LeB.trans {a b c : B} (h1 : LeB a b) (h2 : LeB b c) : LeB a c := TransCmp.isLE_trans h1 h2
theorem not_leB {a b : B} : ¬ LeB a b ↔ LtB b a := by
  unfold LeB LtB
  rw [OrientedOrd.eq_swap (a := b) (b := a)]
  cases compare a b <;> simp
theorem LtB.le {a b : B} (h : LtB a b) : LeB a b := by unfold LeB; rw [h]; rfl
theorem LtB.trans_le {a b c : B} (h1 : LtB a b) (h2 : LeB b c) : LtB a c := TransCmp.lt_of_lt_of_isLE h1 h2
theorem LeB.trans_lt {a b c : B} (h1 : LeB a b) (h2 : LtB b c) : LtB a c := TransCmp.lt_of_isLE_of_lt h1 h2
theorem LtB.not_le {a b : B} (h : LtB a b) : ¬ LeB b a := fun h' => by
  have := h.trans_le h'
  unfold LtB at this
  rw [ReflOrd.compare_self] at this; cases this
theorem leB_of_eq {a b : B} (h : compare a b = .eq) : LeB a b := by unfold LeB; rw [h]; rfl
theorem leB_of_eq' {a b : B} (h : compare a b = .eq) : LeB b a := leB_of_eq (OrientedCmp.eq_symm h)
theorem LeB.total (a b : B) : LeB a b ∨ LtB b a := by
  by_cases h : LeB a b
  · exact .inl h
  · exact .inr (not_leB.1 h)
theorem ltB_iff {a b : B} : ltB a b = true ↔ LtB a b := by
  unfold ltB LtB; cases compare a b <;> simp
theorem ltB_false {a b : B} : ltB a b = false ↔ LeB b a := by
  rw [← Bool.not_eq_true, ltB_iff, ← not_leB, Classical.not_not]
theorem leB_iff {a b : B} : leB a b = true ↔ LeB a b := Iff.rfl

end

section
variable {I B : Type} [Ord B] [TransOrd B] [Interval I B]

/-! ## Intersection -/

open Interval

theorem overlap_iff {a b : I} (ha : Proper a) (hb : Proper b) :
    Overlap a b ↔ LeB (lo a) (hi b) ∧ LeB (lo b) (hi a) := by
  constructor
  · rintro ⟨x, ⟨h1, h2⟩, ⟨h3, h4⟩⟩
    exact ⟨LeB.trans h1 h4, LeB.trans h3 h2⟩
  · rintro ⟨h1, h2⟩
    rcases LeB.total (lo a) (lo b) with h | h
    · exact ⟨lo b, ⟨h, h2⟩, LeB.refl _, hb⟩
    · exact ⟨lo a, ⟨LeB.refl _, ha⟩, h.le, h1⟩

theorem intersects_overlap {a b : I} (ha : Proper a) (hb : Proper b) : intersects a b = true ↔ Overlap a b := by
  rw [overlap_iff ha hb]
  unfold intersects icontains
  simp only [Bool.or_eq_true, Bool.and_eq_true, leB_iff]
  have ha' : LeB (lo a) (hi a) := ha
  have hb' : LeB (lo b) (hi b) := hb
  constructor
  · rintro (((⟨h1, h2⟩ | ⟨h1, h2⟩) | ⟨h1, h2⟩) | ⟨h1, h2⟩)
    · exact ⟨h1.trans hb', h2⟩
    · exact ⟨h1, hb'.trans h2⟩
    · exact ⟨h2, h1.trans ha'⟩
    · exact ⟨ha'.trans h2, h1⟩
  · rintro ⟨h1, h2⟩
    rcases LeB.total (lo a) (lo b) with h | h
    · exact .inl (.inl (.inl ⟨h, h2⟩))
    · exact .inl (.inr ⟨h.le, h1⟩)

/-! ## The tree -/

namespace ITree

/-- Search order and maxima: every value satisfies `P`, values left of a node start before it, the others do not; `max` bounds
the high bounds below and is the high bound of some interval below or of a ghost that would belong there. -/
def Inv (G : I → Prop) : (I → Prop) → ITree I B → Prop
  | _, .nil => True
  | P, .node v m l r =>
    P v ∧ (∃ x, (x ∈ (ITree.node v m l r).inorder ∨ G x) ∧ P x ∧ compare (hi x) m = .eq) ∧
    (∀ x ∈ (ITree.node v m l r).inorder, LeB (hi x) m) ∧
    Inv G (fun x => P x ∧ LtB (lo x) (lo v)) l ∧ Inv G (fun x => P x ∧ LeB (lo v) (lo x)) r

theorem Inv.mono {G G' P P' : I → Prop} {t : ITree I B} (hG : ∀ x, G x → G' x) (hP : ∀ x, P x → P' x) (h : Inv G P t) :
    Inv G' P' t := by
  induction t generalizing P P' with
  | nil => trivial
  | node v m l r ihl ihr =>
    obtain ⟨h1, ⟨x, h2, h3, h4⟩, h5, h6, h7⟩ := h
    exact ⟨hP v h1, ⟨x, h2.imp id (hG x), hP x h3, h4⟩, h5, ihl (fun x hx => ⟨hP x hx.1, hx.2⟩) h6,
      ihr (fun x hx => ⟨hP x hx.1, hx.2⟩) h7⟩

theorem Inv.mem {G P : I → Prop} {t : ITree I B} (h : Inv G P t) : ∀ x ∈ t.inorder, P x := by
  induction t generalizing P with
  | nil => intro x hx; cases hx
  | node v m l r ihl ihr =>
    obtain ⟨h1, _, _, h6, h7⟩ := h
    intro x hx
    simp only [inorder, List.mem_append, List.mem_cons] at hx
    rcases hx with hx | rfl | hx
    · exact (ihl h6 x hx).1
    · exact h1
    · exact (ihr h7 x hx).1

theorem inorder_insert (t : ITree I B) (i : I) : (t.insert i).inorder.Perm (i :: t.inorder) := by
  induction t with
  | nil => exact .refl _
  | node v m l r ihl ihr =>
    simp only [insert]
    split
    · exact (ihl.append_right _)
    · refine ((ihr.cons v).append_left _).trans ?_
      exact (List.Perm.append_left _ (List.Perm.swap ..)).trans List.perm_middle

theorem Inv.insert {G P : I → Prop} {t : ITree I B} (h : Inv G P t) (i : I) (hi : P i) : Inv G P (t.insert i) := by
  induction t generalizing P with
  | nil =>
    refine ⟨hi, ⟨i, .inl (by simp [inorder]), hi, ReflCmp.compare_self⟩, ?_, trivial, trivial⟩
    intro x hx
    simp [inorder] at hx
    subst hx; exact LeB.refl _
  | node v m l r ihl ihr =>
    obtain ⟨h1, ⟨x, h2, h3, h4⟩, h5, h6, h7⟩ := h
    have hp := inorder_insert (ITree.node v m l r) i
    have hmem : ∀ y, y ∈ ((ITree.node v m l r).insert i).inorder ↔ y = i ∨ y ∈ (ITree.node v m l r).inorder := by
      intro y; rw [hp.mem_iff]; simp
    have hmax : ∀ l' r' : ITree I B, (∀ m', (ITree.node v m' l' r').inorder.Perm (i :: (ITree.node v m l r).inorder)) →
        let m' := if ltB m (Interval.hi i) then Interval.hi i else m
        (∃ x, (x ∈ (ITree.node v m' l' r').inorder ∨ G x) ∧ P x ∧ compare (Interval.hi x) m' = .eq) ∧
        ∀ x ∈ (ITree.node v m' l' r').inorder, LeB (Interval.hi x) m' := by
      intro l' r' hp' m'
      have hm : ∀ y, y ∈ (ITree.node v m' l' r').inorder ↔ y = i ∨ y ∈ (ITree.node v m l r).inorder := by
        intro y; rw [(hp' m').mem_iff]; simp
      by_cases e : ltB m (Interval.hi i) = true
      · have em : m' = Interval.hi i := by simp [m', e]
        refine ⟨⟨i, .inl ((hm i).2 (.inl rfl)), hi, by rw [em]; exact ReflCmp.compare_self⟩, ?_⟩
        intro y hy
        rw [em]
        rcases (hm y).1 hy with rfl | hy
        · exact LeB.refl _
        · exact (h5 y hy).trans (ltB_iff.1 e).le
      · have em : m' = m := by simp [m', e]
        refine ⟨⟨x, h2.imp (fun h => (hm x).2 (.inr h)) id, h3, by rw [em]; exact h4⟩, ?_⟩
        intro y hy
        rw [em]
        rcases (hm y).1 hy with rfl | hy
        · exact ltB_false.1 (by simpa using e)
        · exact h5 y hy
    simp only [ITree.insert] at hp ⊢
    split
    · rename_i e
      simp only [e, if_true] at hp
      obtain ⟨a, b⟩ := hmax (l.insert i) r (fun _ => hp)
      exact ⟨h1, a, b, ihl h6 ⟨hi, ltB_iff.1 e⟩, h7⟩
    · rename_i e
      simp only [e] at hp
      obtain ⟨a, b⟩ := hmax l (r.insert i) (fun _ => hp)
      exact ⟨h1, a, b, h6, ihr h7 ⟨hi, ltB_false.1 (by simpa using e)⟩⟩

/-! ### Deletion -/

theorem joinLoop_none (fuel : Nat) (root : ITree I B) (is : List I) (h : is ≠ []) : joinLoop fuel root is = none := by
  induction fuel generalizing root is with
  | zero => rfl
  | succ n ih =>
    have he : is.isEmpty = false := by cases is <;> simp at h ⊢
    have hd : is.drop (is.length / 2) ≠ [] := by
      intro hd
      have h1 := List.drop_eq_nil_iff.1 hd
      have h2 : 0 < is.length := List.length_pos_iff.2 h
      omega
    simp only [joinLoop, he]
    cases joinLoop n root (is.take (is.length / 2)) with
    | none => rfl
    | some r => exact ih r _ hd

theorem join_none (fuel : Nat) {lv rv : I} {lm rm : B} {ll lr rl rr : ITree I B} :
    join fuel (.node lv lm ll lr) (.node rv rm rl rr) = none := by
  unfold join
  simp only
  split
  · rfl
  · apply joinLoop_none
    intro h
    have := congrArg List.length h
    rw [List.length_eraseIdx] at this
    split at this <;> simp [inorder] at this <;> omega

variable [BEq I]

/-- The five ways deletion goes at a node. -/
theorem delete_node (fuel : Nat) (i v : I) (m : B) (l r t' : ITree I B) (h : (ITree.node v m l r).delete fuel i = some t') :
    ((v == i) = true ∧ r = .nil ∧ t' = l) ∨ ((v == i) = true ∧ l = .nil ∧ t' = r) ∨
    (∃ l', (v == i) = false ∧ LtB (lo i) (lo v) ∧ l.delete fuel i = some l' ∧ t' = .node v m l' r) ∨
    (∃ r', (v == i) = false ∧ LtB (lo v) (lo i) ∧ r.delete fuel i = some r' ∧ t' = .node v m l r') ∨
    ((v == i) = false ∧ t' = .node v m l r ∧ compare (lo i) (lo v) = .eq) := by
  unfold delete at h
  split at h
  · rename_i e
    split at h
    · rw [join_none] at h; cases h
    · cases h; exact .inl ⟨e, rfl, rfl⟩
    · cases h; exact .inr (.inl ⟨e, rfl, rfl⟩)
  · rename_i e
    have e : (v == i) = false := by simpa using e
    split at h
    · rename_i hlt
      obtain ⟨l', h1, rfl⟩ := Option.map_eq_some_iff.1 h
      exact .inr (.inr (.inl ⟨l', e, ltB_iff.1 hlt, h1, rfl⟩))
    · rename_i hlt
      split at h
      · rename_i hgt
        obtain ⟨r', h1, rfl⟩ := Option.map_eq_some_iff.1 h
        exact .inr (.inr (.inr (.inl ⟨r', e, ltB_iff.1 hgt, h1, rfl⟩)))
      · rename_i hgt
        cases h
        refine .inr (.inr (.inr (.inr ⟨e, rfl, ?_⟩)))
        have h1 : LeB (lo v) (lo i) := ltB_false.1 (by simpa using hlt)
        have h2 : LeB (lo i) (lo v) := ltB_false.1 (by simpa using hgt)
        cases hc : compare (lo i) (lo v) with
        | eq => rfl
        | lt => exact absurd h1 (LtB.not_le hc)
        | gt => unfold LeB at h2; rw [hc] at h2; cases h2

/-- Deletion that returns leaves the tree as it is or takes out one interval equal to the given one. -/
theorem delete_effect (fuel : Nat) (i : I) (t t' : ITree I B) (h : t.delete fuel i = some t') :
    t' = t ∨ ∃ x, (x == i) = true ∧ t.inorder.Perm (x :: t'.inorder) ∧
      ∀ G P : I → Prop, Inv G P t → Inv (fun y => G y ∨ y = x) P t' := by
  induction t generalizing t' with
  | nil => left; cases h; rfl
  | node v m l r ihl ihr =>
    rcases delete_node fuel i v m l r t' h with ⟨e, rfl, rfl⟩ | ⟨e, rfl, rfl⟩ | ⟨l', e, hlt, hd, rfl⟩ | ⟨r', e, hgt, hd, rfl⟩ |
      ⟨e, rfl, _⟩
    · refine .inr ⟨v, e, by simp [inorder], fun G P hI => ?_⟩
      exact hI.2.2.2.1.mono (fun _ h => .inl h) (fun _ h => h.1)
    · refine .inr ⟨v, e, by simp [inorder], fun G P hI => ?_⟩
      exact hI.2.2.2.2.mono (fun _ h => .inl h) (fun _ h => h.1)
    · rcases ihl l' hd with rfl | ⟨x, hx, hp, hI⟩
      · exact .inl rfl
      · have hperm : (ITree.node v m l r).inorder.Perm (x :: (ITree.node v m l' r).inorder) := hp.append_right _
        refine .inr ⟨x, hx, hperm, fun G P hg => ?_⟩
        obtain ⟨h1, ⟨y, h2, h3, h4⟩, h5, h6, h7⟩ := hg
        refine ⟨h1, ⟨y, ?_, h3, h4⟩, fun z hz => h5 z (hperm.mem_iff.2 (List.mem_cons_of_mem _ hz)), hI G _ h6,
          h7.mono (fun _ h => .inl h) (fun _ h => h)⟩
        rcases h2 with h2 | h2
        · rcases List.mem_cons.1 (hperm.mem_iff.1 h2) with rfl | h2
          · exact .inr (.inr rfl)
          · exact .inl h2
        · exact .inr (.inl h2)
    · rcases ihr r' hd with rfl | ⟨x, hx, hp, hI⟩
      · exact .inl rfl
      · have hperm : (ITree.node v m l r).inorder.Perm (x :: (ITree.node v m l r').inorder) :=
          ((hp.cons v).append_left l.inorder).trans
            ((List.Perm.append_left _ (List.Perm.swap ..)).trans List.perm_middle)
        refine .inr ⟨x, hx, hperm, fun G P hg => ?_⟩
        obtain ⟨h1, ⟨y, h2, h3, h4⟩, h5, h6, h7⟩ := hg
        refine ⟨h1, ⟨y, ?_, h3, h4⟩, fun z hz => h5 z (hperm.mem_iff.2 (List.mem_cons_of_mem _ hz)),
          h6.mono (fun _ h => .inl h) (fun _ h => h), hI G _ h7⟩
        rcases h2 with h2 | h2
        · rcases List.mem_cons.1 (hperm.mem_iff.1 h2) with rfl | h2
          · exact .inr (.inr rfl)
          · exact .inl h2
        · exact .inr (.inl h2)
    · exact .inl rfl

end ITree

/-! ## Histories -/

variable [BEq I]

open ITree

theorem Bag.mem {es : List (IEvent I)} {b gone : List I} (h : Bag es b gone) : ∀ x, x ∈ b ∨ x ∈ gone → .insert x ∈ es := by
  induction h with
  | empty => intro x hx; simp at hx
  | insert i _ ih =>
    intro x hx
    simp only [List.mem_cons] at hx
    simp only [List.mem_append, List.mem_singleton]
    rcases hx with (rfl | hx) | hx
    · exact .inr rfl
    · exact .inl (ih x (.inl hx))
    · exact .inl (ih x (.inr hx))
  | taken i y _ hy hp ih =>
    intro x hx
    simp only [List.mem_append]
    left
    simp only [List.mem_cons] at hx
    rcases hx with hx | rfl | hx
    · exact ih x (.inl (hp.mem_iff.2 (List.mem_cons_of_mem _ hx)))
    · exact ih _ (.inl (hp.mem_iff.2 (List.mem_cons_self ..)))
    · exact ih x (.inr hx)
  | idle i _ ih =>
    intro x hx
    exact List.mem_append_left _ (ih x hx)

/-- What is gone was asked to be deleted. -/
theorem Bag.gone {es : List (IEvent I)} {b gone : List I} (h : Bag es b gone) :
    ∀ x ∈ gone, ∃ i, .delete i ∈ es ∧ (x == i) = true := by
  induction h with
  | empty => intro x hx; cases hx
  | insert i _ ih =>
    intro x hx
    obtain ⟨j, hj, e⟩ := ih x hx
    exact ⟨j, List.mem_append_left _ hj, e⟩
  | taken i y _ hy hp ih =>
    intro x hx
    rcases List.mem_cons.1 hx with rfl | hx
    · exact ⟨i, by simp, hy⟩
    · obtain ⟨j, hj, e⟩ := ih x hx
      exact ⟨j, List.mem_append_left _ hj, e⟩
  | idle i _ ih =>
    intro x hx
    obtain ⟨j, hj, e⟩ := ih x hx
    exact ⟨j, List.mem_append_left _ hj, e⟩

/-- Every tree a client can have holds one of the bags its history may leave, in search order. -/
theorem Built.bag {es : List (IEvent I)} {t : ITree I B} (h : Built es t) :
    ∃ b gone, Bag es b gone ∧ t.inorder.Perm b ∧ Inv (· ∈ gone) (fun _ => True) t := by
  induction h with
  | empty => exact ⟨[], [], .empty, .refl _, trivial⟩
  | insert i _ ih =>
    obtain ⟨b, gone, h1, h2, h3⟩ := ih
    exact ⟨i :: b, gone, .insert i h1, (inorder_insert _ i).trans (h2.cons i), h3.insert i trivial⟩
  | delete fuel i _ hd ih =>
    obtain ⟨b, gone, h1, h2, h3⟩ := ih
    rcases delete_effect fuel i _ _ hd with rfl | ⟨x, hx, hp, hI⟩
    · exact ⟨b, gone, .idle i h1, h2, h3⟩
    · refine ⟨_, x :: gone, .taken i x h1 hx (h2.symm.trans hp), .refl _, ?_⟩
      refine (hI _ _ h3).mono (fun y hy => ?_) (fun _ h => h)
      rcases hy with hy | rfl
      · exact List.mem_cons_of_mem _ hy
      · exact List.mem_cons_self ..

theorem ITree.Inv.maxBounds {G P : I → Prop} {t : ITree I B} (h : Inv G P t) : MaxBounds t := by
  induction t generalizing P with
  | nil => trivial
  | node v m l r ihl ihr => exact ⟨h.2.2.1, ihl h.2.2.2.1, ihr h.2.2.2.2⟩

theorem ITree.Inv.searchOrder {G P : I → Prop} {t : ITree I B} (h : Inv G P t) : SearchOrder t := by
  induction t generalizing P with
  | nil => trivial
  | node v m l r ihl ihr =>
    exact ⟨fun x hx => (h.2.2.2.1.mem x hx).2, fun x hx => (h.2.2.2.2.mem x hx).2, ihl h.2.2.2.1, ihr h.2.2.2.2⟩

theorem SearchOrder.sorted {t : ITree I B} (h : SearchOrder t) : SortedLo t.inorder := by
  induction t with
  | nil => exact .nil
  | node v m l r ihl ihr =>
    obtain ⟨h1, h2, h3, h4⟩ := h
    refine List.pairwise_append.2 ⟨ihl h3, List.pairwise_cons.2 ⟨h2, ihr h4⟩, ?_⟩
    intro a ha b hb
    rcases List.mem_cons.1 hb with rfl | hb
    · exact LtB.le (h1 a ha)
    · exact LeB.trans (LtB.le (h1 a ha)) (h2 b hb)

theorem count_length (t : ITree I B) : t.count = t.inorder.length := by
  induction t with
  | nil => rfl
  | node v m l r ihl ihr => simp only [count, inorder, ihl, ihr, List.length_append, List.length_cons]; omega

theorem Bag.length {es : List (IEvent I)} {b gone : List I} (h : Bag es b gone) :
    b.length + gone.length = (inserted es).length := by
  unfold inserted
  induction h with
  | empty => rfl
  | insert i _ ih => simp [← ih]; omega
  | taken i x _ hx hp ih =>
    simp only [List.filterMap_append, List.length_append, ← ih, hp.length_eq, List.length_cons]
    simp; omega
  | idle i _ ih => simpa using ih

/-! ## Queries -/

theorem intersects_sound (t : ITree I B) (q : I) (h : t.intersects q = true) :
    ∃ x ∈ t.inorder, intersects x q = true := by
  induction t with
  | nil => cases h
  | node v m l r ihl ihr =>
    have hr : r.intersects q = true → ∃ x ∈ (ITree.node v m l r).inorder, intersects x q = true := by
      intro h
      obtain ⟨x, hx, e⟩ := ihr h
      exact ⟨x, by simp [inorder, hx], e⟩
    have hl : l.intersects q = true → ∃ x ∈ (ITree.node v m l r).inorder, intersects x q = true := by
      intro h
      obtain ⟨x, hx, e⟩ := ihl h
      exact ⟨x, by simp [inorder, hx], e⟩
    unfold ITree.intersects at h
    split at h
    · rename_i e; exact ⟨v, by simp [inorder], e⟩
    · split at h
      · exact hr h
      · split at h
        · exact hr h
        · exact hl h

/-- The query finds an overlapping interval if there is one, provided that no ghost overlaps. -/
theorem intersects_complete {G P : I → Prop} (t : ITree I B) (q : I) (hI : Inv G P t)
    (hp : ∀ x ∈ t.inorder, Proper x) (hq : Proper q) (hGp : ∀ x, G x → Proper x) (hG : ∀ x, G x → ¬ Overlap x q)
    (y : I) (hy : y ∈ t.inorder) (ho : Overlap y q) : t.intersects q = true := by
  induction t generalizing P y with
  | nil => cases hy
  | node v m l r ihl ihr =>
    obtain ⟨h1, _, _, h6, h7⟩ := hI
    have hpl : ∀ x ∈ l.inorder, Proper x := fun x hx => hp x (by simp [inorder, hx])
    have hpr : ∀ x ∈ r.inorder, Proper x := fun x hx => hp x (by simp [inorder, hx])
    have hpv : Proper v := hp v (by simp [inorder])
    unfold ITree.intersects
    split
    · rfl
    · rename_i hv
      have hyv : y ≠ v := by
        rintro rfl
        exact hv ((intersects_overlap hpv hq).2 ho)
      simp only [inorder, List.mem_append, List.mem_cons, hyv, false_or] at hy
      cases l with
      | nil =>
        rcases hy with hy | hy
        · cases hy
        · exact ihr h7 hpr y hy ho
      | node lv lm ll lr =>
        simp only [max?]
        obtain ⟨g1, ⟨x, g2, g3, g4⟩, g5, g6, g7⟩ := h6
        split
        · rename_i hlt
          have hlt := ltB_iff.1 hlt
          rcases hy with hy | hy
          · have := ((overlap_iff (hpl y hy) hq).1 ho).2
            exact absurd this ((LeB.trans_lt (g5 y hy) hlt).not_le)
          · exact ihr h7 hpr y hy ho
        · rename_i hlt
          have hlt : LeB (lo q) lm := ltB_false.1 (by simpa using hlt)
          rcases hy with hy | hy
          · exact ihl ⟨g1, ⟨x, g2, g3, g4⟩, g5, g6, g7⟩ hpl y hy ho
          · have hxq : LeB (lo q) (hi x) := hlt.trans (leB_of_eq' g4)
            have hpx : Proper x := g2.elim (hpl x) (hGp x)
            rcases LeB.total (lo x) (hi q) with hx | hx
            · have hxo : Overlap x q := (overlap_iff hpx hq).2 ⟨hx, hxq⟩
              rcases g2 with g2 | g2
              · exact ihl ⟨g1, ⟨x, .inl g2, g3, g4⟩, g5, g6, g7⟩ hpl x g2 hxo
              · exact absurd hxo (hG x g2)
            · exfalso
              have hyl : LeB (lo v) (lo y) := (h7.mem y hy).2
              have : LtB (lo x) (lo y) := g3.2.trans_le hyl
              exact (hx.trans_le this.le).not_le ((overlap_iff (hpr y hy) hq).1 ho).1

/-- A query misses what it is asked for exactly if it is misled. -/
theorem intersects_misled {G P : I → Prop} (t : ITree I B) (q : I) (hI : Inv G P t) (hp : ∀ x ∈ t.inorder, Proper x)
    (hq : Proper q) : (t.intersects q = false ∧ ∃ x ∈ t.inorder, Overlap x q) ↔ Misled q t := by
  induction t generalizing P with
  | nil =>
    constructor
    · rintro ⟨_, x, hx, _⟩; cases hx
    · intro h; cases h
  | node v m l r ihl ihr =>
    have hI' := hI
    obtain ⟨h1, _, _, h6, h7⟩ := hI
    have hpl : ∀ x ∈ l.inorder, Proper x := fun x hx => hp x (by simp [inorder, hx])
    have hpr : ∀ x ∈ r.inorder, Proper x := fun x hx => hp x (by simp [inorder, hx])
    have hpv : Proper v := hp v (by simp [inorder])
    have hv : ¬ Overlap v q ↔ intersects v q = false := by rw [← intersects_overlap hpv hq, Bool.not_eq_true]
    constructor
    · rintro ⟨hf, y, hy, ho⟩
      unfold ITree.intersects at hf
      split at hf
      · cases hf
      rename_i hvq
      have hvq : ¬ Overlap v q := hv.2 (by simpa using hvq)
      have hyv : y ≠ v := by rintro rfl; exact hvq ho
      simp only [inorder, List.mem_append, List.mem_cons, hyv, false_or] at hy
      cases l with
      | nil =>
        rcases hy with hy | hy
        · cases hy
        · exact .only v m r hvq ((ihr h7 hpr).1 ⟨hf, y, hy, ho⟩)
      | node lv lm ll lr =>
        simp only [max?] at hf
        split at hf
        · rename_i hlt
          have hlt := ltB_iff.1 hlt
          rcases hy with hy | hy
          · have := ((overlap_iff (hpl y hy) hq).1 ho).2
            exact absurd this ((LeB.trans_lt (h6.2.2.1 y hy) hlt).not_le)
          · exact .right v m lv lm ll lr r hvq hlt ((ihr h7 hpr).1 ⟨hf, y, hy, ho⟩)
        · rename_i hlt
          have hlt : LeB (lo q) lm := ltB_false.1 (by simpa using hlt)
          by_cases hex : ∃ x ∈ (ITree.node lv lm ll lr).inorder, Overlap x q
          · exact .left v m lv lm ll lr r hvq hlt ((ihl h6 hpl).1 ⟨hf, hex⟩)
          · rcases hy with hy | hy
            · exact absurd ⟨y, hy, ho⟩ hex
            · refine .here v m lv lm ll lr r hvq hlt (fun x hx => ?_) ⟨y, hy, ho⟩
              refine not_leB.1 fun hle => hex ⟨x, hx, (overlap_iff (hpl x hx) hq).2 ⟨?_, hle⟩⟩
              have h8 : LtB (lo x) (lo v) := (h6.mem x hx).2
              exact (h8.trans_le (h7.mem y hy).2).le.trans ((overlap_iff (hpr y hy) hq).1 ho).1
    · intro h
      cases h with
      | here _ _ lv lm ll lr _ hvq hlt hno hy =>
        obtain ⟨y, hy, ho⟩ := hy
        refine ⟨?_, y, by simp [inorder, hy], ho⟩
        unfold ITree.intersects
        rw [hv.1 hvq]
        simp only [max?, ltB_false.2 hlt, Bool.false_eq_true, if_false]
        rw [← Bool.not_eq_true]
        intro ht
        obtain ⟨x, hx, e⟩ := intersects_sound _ q ht
        exact LtB.not_le (hno x hx) ((overlap_iff (hpl x hx) hq).1 ((intersects_overlap (hpl x hx) hq).1 e)).2
      | left _ _ lv lm ll lr _ hvq hlt hm =>
        obtain ⟨hf, x, hx, ho⟩ := (ihl h6 hpl).2 hm
        refine ⟨?_, x, by simp only [inorder, List.mem_append] at hx ⊢; exact .inl hx, ho⟩
        rw [ITree.intersects, hv.1 hvq]
        simp only [max?, ltB_false.2 hlt, Bool.false_eq_true, if_false]
        exact hf
      | right _ _ lv lm ll lr _ hvq hlt hm =>
        obtain ⟨hf, x, hx, ho⟩ := (ihr h7 hpr).2 hm
        refine ⟨?_, x, by simp [inorder, hx], ho⟩
        rw [ITree.intersects, hv.1 hvq]
        simp only [max?, ltB_iff.2 hlt, Bool.false_eq_true, if_false, if_true]
        exact hf
      | only _ _ _ hvq hm =>
        obtain ⟨hf, x, hx, ho⟩ := (ihr h7 hpr).2 hm
        refine ⟨?_, x, by simp [inorder, hx], ho⟩
        rw [ITree.intersects, hv.1 hvq]
        exact hf

/-- The enumeration is the reversed in-order sequence, filtered. -/
theorem forEach_eq (t : ITree I B) (q : I) (hm : MaxBounds t) (hp : ∀ x ∈ t.inorder, Proper x) (hq : Proper q) :
    t.forEach q = t.inorder.reverse.filter fun x => intersects x q := by
  induction t with
  | nil => rfl
  | node v m l r ihl ihr =>
    obtain ⟨_, hl, hr⟩ := hm
    have hpl : ∀ x ∈ l.inorder, Proper x := fun x hx => hp x (by simp [inorder, hx])
    have hpr : ∀ x ∈ r.inorder, Proper x := fun x hx => hp x (by simp [inorder, hx])
    have hleft : (match l.max? with
        | none => []
        | some max => if ltB max (lo q) then [] else forEach q l) = l.inorder.reverse.filter fun x => intersects x q := by
      cases l with
      | nil => rfl
      | node lv lm ll lr =>
        simp only [max?]
        split
        · rename_i hlt
          have hlt := ltB_iff.1 hlt
          refine (List.filter_eq_nil_iff.2 ?_).symm
          intro x hx e
          have hx : x ∈ (ITree.node lv lm ll lr).inorder := by simpa using hx
          have := ((overlap_iff (hpl x hx) hq).1 ((intersects_overlap (hpl x hx) hq).1 e)).2
          exact (LeB.trans_lt (hl.1 x hx) hlt).not_le this
        · exact ihl hl hpl
    rw [forEach]
    refine Eq.trans (congrArg (fun z => forEach q r ++ (if intersects v q then [v] else []) ++ z) hleft) ?_
    rw [ihr hr hpr, inorder]
    simp only [List.reverse_append, List.reverse_cons, List.filter_append, List.append_assoc]
    congr 2
    by_cases e : intersects v q = true <;> simp [e]

/-! ## Rotations -/

theorem optMax_some (a : B) (b : Option B) : ∃ c, optMax (some a) b = some c ∧ LeB a c ∧ (∀ x, b = some x → LeB x c) ∧
    (c = a ∨ b = some c) := by
  cases b with
  | none => exact ⟨a, rfl, LeB.refl _, by simp, .inl rfl⟩
  | some b =>
    simp only [optMax]
    by_cases h : (compare a b).isGT = true
    · refine ⟨a, by simp [h], LeB.refl _, ?_, .inl rfl⟩
      rintro x ⟨⟩
      have : compare a b = .gt := by simpa using h
      exact LtB.le (OrientedCmp.gt_iff_lt.1 this)
    · refine ⟨b, by simp [h], ?_, by rintro x ⟨⟩; exact LeB.refl _, .inr rfl⟩
      unfold LeB; cases hc : compare a b <;> simp_all

theorem refreshed_exact (v : I) (l r : ITree I B) (hl : MaxExact l) (hr : MaxExact r) :
    MaxExact (.node v (refreshed v l r) l r) := by
  obtain ⟨c, hc, h1, h2, h3⟩ := optMax_some (hi v) l.max?
  obtain ⟨d, hd, g1, g2, g3⟩ := optMax_some c r.max?
  have e : refreshed v l r = d := by unfold refreshed; rw [hc, hd]; rfl
  rw [e]
  refine ⟨?_, ?_, hl, hr⟩
  · intro x hx
    simp only [inorder, List.mem_append, List.mem_cons] at hx
    rcases hx with hx | rfl | hx
    · cases l with
      | nil => cases hx
      | node lv lm ll lr => exact (LeB.trans (hl.1 x hx) (h2 lm rfl)).trans g1
    · exact h1.trans g1
    · cases r with
      | nil => cases hx
      | node rv rm rl rr => exact LeB.trans (hr.1 x hx) (g2 rm rfl)
  · rcases g3 with rfl | g3
    · rcases h3 with rfl | h3
      · exact ⟨v, by simp [inorder], ReflCmp.compare_self⟩
      · cases l with
        | nil => cases h3
        | node lv lm ll lr =>
          cases h3
          obtain ⟨x, hx, e⟩ := hl.2.1
          refine ⟨x, ?_, e⟩
          rw [inorder]; exact List.mem_append_left _ hx
    · cases r with
      | nil => cases g3
      | node rv rm rl rr =>
        cases g3
        obtain ⟨x, hx, e⟩ := hr.2.1
        refine ⟨x, ?_, e⟩
        rw [inorder]; exact List.mem_append_right _ (List.mem_cons_of_mem _ hx)

end

end Plotline
