import Verif.Lemmas.Interval

/-! # Properties C41 to C48 and C57: intervals and the interval tree -/

namespace Plotline

open Std Interval ITree

set_option linter.unusedSectionVars false

/-- Intervals of natural numbers, for the examples. -/
structure Span where
  lo : Nat
  hi : Nat
deriving DecidableEq

instance : Interval Span Nat := ⟨Span.lo, Span.hi⟩

instance : LawfulInterval Span Nat where
  lo_eq a b h := by rw [show a = b by simpa using h]; exact ReflCmp.compare_self
  hi_eq a b h := by rw [show a = b by simpa using h]; exact ReflCmp.compare_self

section
variable {I B : Type} [Ord B] [TransOrd B] [Interval I B]

/-! ## C41 -/

/-- C41: for proper intervals `intersects` is geometric overlap. -/
theorem C41_geometric (a b : I) (ha : Proper a) (hb : Proper b) : intersects a b = true ↔ Overlap a b :=
  intersects_overlap ha hb

/-- C41: it is symmetric, for all intervals, and reflexive on proper ones. -/
theorem C41_symmetric_reflexive (a b : I) : (intersects a b = intersects b a) ∧ (Proper a → intersects a a = true) := by
  constructor
  · unfold intersects
    cases icontains a (lo b) <;> cases icontains a (hi b) <;> cases icontains b (lo a) <;> cases icontains b (hi a) <;> rfl
  · intro h; exact (intersects_overlap h h).2 ⟨lo a, ⟨LeB.refl _, h⟩, LeB.refl _, h⟩

example : Proper (⟨2, 4⟩ : Span) ∧ intersects (⟨2, 4⟩ : Span) ⟨4, 9⟩ = true ∧ intersects (⟨2, 4⟩ : Span) ⟨5, 9⟩ = false := by
  refine ⟨by unfold Proper; decide, by decide, by decide⟩

variable [BEq I]

/-! ## C42 -/

/-- The history of a number of insertions. -/
theorem built_insertAll (is : List I) : Built (is.map IEvent.insert) (insertAll is : ITree I B) := by
  suffices h : ∀ is : List I, Built (is.reverse.map IEvent.insert) (insertAll is.reverse : ITree I B) by
    simpa using h is.reverse
  intro is
  induction is with
  | nil => exact .empty
  | cons i is ih => simpa [insertAll] using Built.insert i ih

theorem Bag.insertions {es : List (IEvent I)} {b gone : List I} (h : Bag es b gone) :
    ∀ is : List I, es = is.map IEvent.insert → gone = [] ∧ b.Perm is := by
  induction h with
  | empty =>
    intro is e
    cases is with
    | nil => exact ⟨rfl, .refl _⟩
    | cons _ _ => simp at e
  | @insert es b gone i _ ih =>
    intro is e
    rcases List.eq_nil_or_concat is with rfl | ⟨is', j, rfl⟩
    · simp at e
    · simp only [List.concat_eq_append, List.map_append, List.map_cons, List.map_nil] at e
      obtain ⟨he, e⟩ := List.append_inj' e rfl
      cases e
      obtain ⟨h1, h2⟩ := ih is' he
      refine ⟨h1, (h2.cons i).trans ?_⟩
      rw [List.concat_eq_append]
      exact (List.perm_append_comm (l₁ := [i]))
  | taken i x _ _ _ _ =>
    intro is e
    rcases List.eq_nil_or_concat is with rfl | ⟨is', j, rfl⟩
    · simp at e
    · simp only [List.concat_eq_append, List.map_append, List.map_cons, List.map_nil] at e
      obtain ⟨_, e⟩ := List.append_inj' e rfl
      cases e
  | idle i _ _ =>
    intro is e
    rcases List.eq_nil_or_concat is with rfl | ⟨is', j, rfl⟩
    · simp at e
    · simp only [List.concat_eq_append, List.map_append, List.map_cons, List.map_nil] at e
      obtain ⟨_, e⟩ := List.append_inj' e rfl
      cases e

/-- C42: after any insertions of proper intervals the query is true exactly if some inserted interval overlaps. -/
theorem C42_exact_after_insertions (is : List I) (q : I) (hp : ∀ i ∈ is, Proper i) (hq : Proper q) :
    (insertAll is : ITree I B).intersects q = true ↔ ∃ i ∈ is, Overlap i q := by
  obtain ⟨b, gone, hb, hperm, hI⟩ := (built_insertAll (B := B) is).bag
  obtain ⟨rfl, hbi⟩ := hb.insertions is rfl
  have hmem : ∀ x, x ∈ (insertAll is : ITree I B).inorder ↔ x ∈ is := fun x => (hperm.trans hbi).mem_iff
  constructor
  · intro h
    obtain ⟨x, hx, e⟩ := intersects_sound _ q h
    exact ⟨x, (hmem x).1 hx, (intersects_overlap (hp x ((hmem x).1 hx)) hq).1 e⟩
  · rintro ⟨x, hx, e⟩
    exact intersects_complete _ q hI (fun x hx => hp x ((hmem x).1 hx)) hq (by simp) (by simp) x ((hmem x).2 hx) e

/-! ## C43 -/

/-- C43: after any history of insertions and completed deletions of proper intervals, the tree holds a bag that history may
leave, such that for every query the closure is called exactly on the overlapping intervals of the bag, each as often as it is
there, in non-increasing order of low bounds. -/
theorem C43_enumeration (es : List (IEvent I)) (t : ITree I B) (h : Built es t) (hes : ProperHistory es) :
    ∃ b gone, Bag es b gone ∧ ∀ q, Proper q →
      (∃ miss, b.Perm (t.forEach q ++ miss) ∧ (∀ x ∈ t.forEach q, Overlap x q) ∧ ∀ x ∈ miss, ¬ Overlap x q) ∧
      (t.forEach q).Pairwise fun x y => (compare (lo y) (lo x)).isLE = true := by
  obtain ⟨b, gone, hb, hperm, hI⟩ := h.bag
  have hp : ∀ x ∈ t.inorder, Proper x := fun x hx => hes x (hb.mem x (.inl (hperm.mem_iff.1 hx)))
  refine ⟨b, gone, hb, fun q hq => ?_⟩
  rw [forEach_eq t q hI.maxBounds hp hq]
  refine ⟨⟨t.inorder.reverse.filter fun x => !(intersects x q), ?_, ?_, ?_⟩, ?_⟩
  · exact hperm.symm.trans ((List.reverse_perm _).symm.trans (List.filter_append_perm _ _).symm)
  · intro x hx
    obtain ⟨h1, h2⟩ := List.mem_filter.1 hx
    exact (intersects_overlap (hp x (by simpa using h1)) hq).1 h2
  · intro x hx ho
    obtain ⟨h1, h2⟩ := List.mem_filter.1 hx
    rw [(intersects_overlap (hp x (by simpa using h1)) hq).2 ho] at h2
    cases h2
  · exact List.Pairwise.sublist List.filter_sublist (List.pairwise_reverse.2 hI.searchOrder.sorted)

/-! ## C44 -/

/-- C44 is false of the code: after a deletion the query can miss an overlapping interval. -/
theorem C44_refuted : ∃ (es : List (IEvent Span)) (t : ITree Span Nat) (q x : Span),
    Built es t ∧ ProperHistory es ∧ Proper q ∧ x ∈ t.inorder ∧ Overlap x q ∧ t.intersects q = false := by
  refine ⟨[.insert ⟨5, 5⟩, .insert ⟨1, 1⟩, .insert ⟨2, 10⟩, .delete ⟨2, 10⟩, .insert ⟨7, 8⟩],
    .node ⟨5, 5⟩ 10 (.node ⟨1, 1⟩ 10 .nil .nil) (.node ⟨7, 8⟩ 8 .nil .nil), ⟨7, 7⟩, ⟨7, 8⟩, ?_, ?_, ?_, ?_, ?_, ?_⟩
  · have h1 : Built (I := Span) (B := Nat) [.insert ⟨5, 5⟩, .insert ⟨1, 1⟩, .insert ⟨2, 10⟩] _ :=
      built_insertAll (I := Span) [⟨5, 5⟩, ⟨1, 1⟩, ⟨2, 10⟩]
    have h2 := Built.delete (t' := .node ⟨5, 5⟩ 10 (.node ⟨1, 1⟩ 10 .nil .nil) .nil) 1 ⟨2, 10⟩ h1 (by decide)
    exact Built.insert ⟨7, 8⟩ h2
  · intro i hi
    simp at hi
    rcases hi with rfl | rfl | rfl | rfl <;> (unfold Proper; decide)
  · unfold Proper; decide
  · decide
  · exact ⟨7, by unfold InRange; decide, by unfold InRange; decide⟩
  · decide

/-- C44, what holds always: no false positives. -/
theorem C44_sound_partial (es : List (IEvent I)) (t : ITree I B) (q : I) (h : Built es t) (hes : ProperHistory es)
    (hq : Proper q) (ht : t.intersects q = true) : ∃ x ∈ t.inorder, Overlap x q := by
  obtain ⟨b, gone, hb, hperm, _⟩ := h.bag
  obtain ⟨x, hx, e⟩ := intersects_sound t q ht
  exact ⟨x, hx, (intersects_overlap (hes x (hb.mem x (.inl (hperm.mem_iff.1 hx)))) hq).1 e⟩

/-- C44, when it holds: the query is exact for every `q` that overlaps none of the intervals given to a deletion.
Missing from C44: queries overlapping an interval that was deleted (`C44_refuted`). -/
theorem C44_exact_partial [LawfulInterval I B] (es : List (IEvent I)) (t : ITree I B) (q : I) (h : Built es t)
    (hes : ProperHistory es) (hq : Proper q) (hdel : ∀ i, .delete i ∈ es → ¬ Overlap i q) :
    t.intersects q = true ↔ ∃ x ∈ t.inorder, Overlap x q := by
  refine ⟨C44_sound_partial es t q h hes hq, ?_⟩
  obtain ⟨b, gone, hb, hperm, hI⟩ := h.bag
  rintro ⟨x, hx, ho⟩
  have hin : ∀ x ∈ t.inorder, Proper x := fun x hx => hes x (hb.mem x (.inl (hperm.mem_iff.1 hx)))
  refine intersects_complete t q hI hin hq (fun x hx => hes x (hb.mem x (.inr hx))) ?_ x hx ho
  intro x hx hxo
  obtain ⟨i, hi, e⟩ := hb.gone x hx
  refine hdel i hi ?_
  obtain ⟨y, ⟨h1, h2⟩, h3⟩ := hxo
  have hlo := LawfulInterval.lo_eq (B := B) x i e
  have hhi := LawfulInterval.hi_eq (B := B) x i e
  exact ⟨y, ⟨LeB.trans (leB_of_eq' hlo) h1, LeB.trans h2 (leB_of_eq hhi)⟩, h3⟩

/-- C44, exactly when it fails: the query answers false although an overlapping interval is stored if and only if it is misled on
its way down, by a maximum that no interval stored below it reaches.
Missing from C44: those queries (`C44_refuted`). -/
theorem C44_misses_iff_partial (es : List (IEvent I)) (t : ITree I B) (q : I) (h : Built es t) (hes : ProperHistory es)
    (hq : Proper q) : (t.intersects q = false ∧ ∃ x ∈ t.inorder, Overlap x q) ↔ Misled q t := by
  obtain ⟨b, gone, hb, hperm, hI⟩ := h.bag
  exact intersects_misled t q hI (fun x hx => hes x (hb.mem x (.inl (hperm.mem_iff.1 hx)))) hq

/-- C44, in particular: the query is exact wherever the maxima are, as they are until the first deletion that takes something
out. -/
theorem C44_exact_maxima_partial (es : List (IEvent I)) (t : ITree I B) (q : I) (h : Built es t) (hes : ProperHistory es)
    (hq : Proper q) (hm : MaxExact t) : t.intersects q = true ↔ ∃ x ∈ t.inorder, Overlap x q := by
  refine ⟨C44_sound_partial es t q h hes hq, fun hx => ?_⟩
  cases hf : t.intersects q with
  | true => rfl
  | false =>
    exfalso
    have hmis := (C44_misses_iff_partial es t q h hes hq).1 ⟨hf, hx⟩
    clear hf hx h
    induction hmis with
    | here v m lv lm ll lr r _ hle hno _ =>
      obtain ⟨x, hx, e⟩ := hm.2.2.1.2.1
      exact LtB.not_le (hno x hx) (LeB.trans hle (leB_of_eq' e))
    | left v m lv lm ll lr r _ _ _ ih => exact ih hm.2.2.1
    | right v m lv lm ll lr r _ _ _ ih => exact ih hm.2.2.2
    | only v m r _ _ ih => exact ih hm.2.2.2

/-- The query of `C44_refuted` is misled at the root. -/
example : Misled (⟨7, 7⟩ : Span) (.node ⟨5, 5⟩ 10 (.node ⟨1, 1⟩ 10 .nil .nil) (.node ⟨7, 8⟩ 8 .nil .nil)) := by
  refine .here _ _ _ _ _ _ _ ?_ (by decide) (by decide) ⟨⟨7, 8⟩, by decide, 7, ?_⟩
  · intro ⟨x, h1, h2⟩
    revert h1 h2; unfold InRange
    intro h1 h2
    have a := h1.2; have b := h2.1
    simp only [Nat.isLE_compare, Interval.hi, Interval.lo] at a b
    omega
  · unfold InRange; decide

/-! ## C45 -/

/-- C45 is false of the code: deleting an interval whose node has two children never returns. -/
theorem C45_refuted : ∃ (es : List (IEvent Span)) (t : ITree Span Nat) (i : Span),
    Built es t ∧ ProperHistory es ∧ ∀ fuel, t.delete fuel i = none := by
  refine ⟨_, _, ⟨5, 5⟩, built_insertAll [⟨5, 5⟩, ⟨1, 1⟩, ⟨7, 7⟩], ?_, fun fuel => ?_⟩
  · intro i hi
    simp at hi
    rcases hi with rfl | rfl | rfl <;> (unfold Proper; decide)
  · exact join_none fuel (lv := (⟨1, 1⟩ : Span)) (rv := ⟨7, 7⟩) (lm := (1 : Nat)) (rm := (7 : Nat)) (ll := .nil) (lr := .nil)
      (rl := .nil) (rr := .nil)

/-- C45, exactly when it holds: deletion returns if and only if the node it finds, if any, has at most one child.
Missing from C45: deletion of a node with two children (`C45_refuted`). -/
theorem C45_returns_iff_partial (t : ITree I B) (i : I) :
    (∃ fuel t', t.delete fuel i = some t') ↔ ∀ l r, Finds i t l r → l = .nil ∨ r = .nil := by
  constructor
  · rintro ⟨fuel, t', h⟩ l r hf
    induction hf generalizing t' with
    | here v m l r e =>
      rcases delete_node fuel i v m l r t' h with ⟨_, h, _⟩ | ⟨_, h, _⟩ | ⟨_, e', _⟩ | ⟨_, e', _⟩ | ⟨e', _⟩
      · exact .inr h
      · exact .inl h
      all_goals rw [e] at e'; cases e'
    | left v m l r l' r' e hlt _ ih =>
      rcases delete_node fuel i v m l r t' h with ⟨e', _⟩ | ⟨e', _⟩ | ⟨l1, _, _, h1, _⟩ | ⟨_, _, hgt, _⟩ | ⟨_, _, heq⟩
      · rw [e] at e'; cases e'
      · rw [e] at e'; cases e'
      · exact ih l1 h1
      · exact absurd (LtB.le hlt) (LtB.not_le hgt)
      · rw [hlt] at heq; cases heq
    | right v m l r l' r' e hgt _ ih =>
      rcases delete_node fuel i v m l r t' h with ⟨e', _⟩ | ⟨e', _⟩ | ⟨_, _, hlt, _⟩ | ⟨r1, _, _, h1, _⟩ | ⟨_, _, heq⟩
      · rw [e] at e'; cases e'
      · rw [e] at e'; cases e'
      · exact absurd (LtB.le hlt) (LtB.not_le hgt)
      · exact ih r1 h1
      · exact absurd (leB_of_eq heq) (LtB.not_le hgt)
  · intro h
    refine ⟨0, ?_⟩
    induction t with
    | nil => exact ⟨.nil, rfl⟩
    | node v m l r ihl ihr =>
      unfold delete
      split
      · rename_i e
        rcases h l r (.here v m l r e) with rfl | rfl
        · exact ⟨r, rfl⟩
        · cases l with
          | nil => exact ⟨.nil, rfl⟩
          | node a b c d => exact ⟨_, rfl⟩
      · rename_i e
        have e : (v == i) = false := by simpa using e
        split
        · rename_i hlt
          obtain ⟨l', hl'⟩ := ihl fun a b hf => h a b (.left v m l r a b e (ltB_iff.1 hlt) hf)
          exact ⟨_, by rw [hl']; rfl⟩
        · split
          · rename_i hgt
            obtain ⟨r', hr'⟩ := ihr fun a b hf => h a b (.right v m l r a b e (ltB_iff.1 hgt) hf)
            exact ⟨_, by rw [hr']; rfl⟩
          · exact ⟨_, rfl⟩

/-! ## C46 -/

/-- C46 is false of the code: an interval stored below another one with the same low bound is not removed. -/
theorem C46_refuted : ∃ (es : List (IEvent Span)) (t : ITree Span Nat) (i : Span),
    Built es t ∧ ProperHistory es ∧ i ∈ t.inorder ∧ ∀ fuel, t.delete fuel i = some t := by
  refine ⟨_, _, ⟨5, 9⟩, built_insertAll [⟨5, 6⟩, ⟨5, 9⟩], ?_, by decide, fun fuel => rfl⟩
  intro i hi
  simp at hi
  rcases hi with rfl | rfl <;> (unfold Proper; decide)

/-- C46, what holds always: a deletion that returns leaves the stored intervals as they are, or takes out one that is equal
to the given one; it leaves the tree as it is when none is stored. -/
theorem C46_at_most_one_copy_partial (t t' : ITree I B) (i : I) (fuel : Nat) (h : t.delete fuel i = some t') :
    (t' = t ∨ ∃ x, (x == i) = true ∧ t.inorder.Perm (x :: t'.inorder)) ∧
    ((∀ x ∈ t.inorder, (x == i) = false) → t' = t) := by
  rcases delete_effect fuel i t t' h with rfl | ⟨x, hx, hp, _⟩
  · exact ⟨.inl rfl, fun _ => rfl⟩
  · refine ⟨.inr ⟨x, hx, hp⟩, fun hn => ?_⟩
    rw [hn x (hp.mem_iff.2 (List.mem_cons_self ..))] at hx; cases hx

/-- C46, when it holds: if the interval is stored, and no different one with the same low bound is, a deletion that returns
takes out one copy.
Missing from C46: different stored intervals with the same low bound (`C46_refuted`). -/
theorem C46_removes_partial [LawfulInterval I B] (es : List (IEvent I)) (t t' : ITree I B) (i : I) (fuel : Nat)
    (hb : Built es t) (hst : ∃ x ∈ t.inorder, (x == i) = true)
    (huniq : ∀ x ∈ t.inorder, compare (lo x) (lo i) = .eq → (x == i) = true) (h : t.delete fuel i = some t') :
    ∃ x, (x == i) = true ∧ t.inorder.Perm (x :: t'.inorder) := by
  have hs : SearchOrder t := by
    obtain ⟨b, gone, _, _, hI⟩ := hb.bag
    exact hI.searchOrder
  clear hb
  induction t generalizing t' with
  | nil => obtain ⟨x, hx, _⟩ := hst; cases hx
  | node v m l r ihl ihr =>
    obtain ⟨h1, h2, h3, h4⟩ := hs
    obtain ⟨x, hx, hxi⟩ := hst
    have hlo := LawfulInterval.lo_eq (B := B) x i hxi
    simp only [inorder, List.mem_append, List.mem_cons] at hx
    rcases delete_node fuel i v m l r t' h with ⟨e, rfl, rfl⟩ | ⟨e, rfl, rfl⟩ | ⟨l', e, hlt, hd, rfl⟩ | ⟨r', e, hgt, hd, rfl⟩ |
      ⟨e, rfl, heq⟩
    · exact ⟨v, e, by simp [inorder]⟩
    · exact ⟨v, e, by simp [inorder]⟩
    · have hxl : x ∈ l.inorder := by
        rcases hx with hx | rfl | hx
        · exact hx
        · rw [e] at hxi; cases hxi
        · exfalso
          exact LtB.not_le (hlt.trans_le (h2 x hx)) (leB_of_eq hlo)
      obtain ⟨y, hy, hp⟩ := ihl l' ⟨x, hxl, hxi⟩ (fun z hz => huniq z (by simp [inorder, hz])) hd h3
      exact ⟨y, hy, hp.append_right _⟩
    · have hxr : x ∈ r.inorder := by
        rcases hx with hx | rfl | hx
        · exfalso
          exact LtB.not_le (LtB.trans_le (h1 x hx) (LtB.le hgt)) (leB_of_eq' hlo)
        · rw [e] at hxi; cases hxi
        · exact hx
      obtain ⟨y, hy, hp⟩ := ihr r' ⟨x, hxr, hxi⟩ (fun z hz => huniq z (by simp [inorder, hz])) hd h4
      exact ⟨y, hy, ((hp.cons v).append_left l.inorder).trans
        ((List.Perm.append_left _ (List.Perm.swap ..)).trans List.perm_middle)⟩
    · have := huniq v (by simp [inorder]) (OrientedCmp.eq_symm heq)
      rw [e] at this; cases this

/-- C46, exactly when it holds: a deletion that returns takes out a copy if the search by low bound ends at an equal
interval, and otherwise leaves the tree as it is. -/
theorem C46_removes_iff_partial (t t' : ITree I B) (i : I) (fuel : Nat) (h : t.delete fuel i = some t') :
    ((∃ l r, Finds i t l r) → ∃ x, (x == i) = true ∧ t.inorder.Perm (x :: t'.inorder)) ∧
    ((¬ ∃ l r, Finds i t l r) → t' = t) := by
  induction t generalizing t' with
  | nil => cases h; exact ⟨fun ⟨_, _, hf⟩ => (by cases hf), fun _ => rfl⟩
  | node v m l r ihl ihr =>
    rcases delete_node fuel i v m l r t' h with ⟨e, rfl, rfl⟩ | ⟨e, rfl, rfl⟩ | ⟨l', e, hlt, hd, rfl⟩ | ⟨r', e, hgt, hd, rfl⟩ |
      ⟨e, rfl, heq⟩
    · exact ⟨fun _ => ⟨v, e, by simp [inorder]⟩, fun hn => (hn ⟨_, _, .here v m _ _ e⟩).elim⟩
    · exact ⟨fun _ => ⟨v, e, by simp [inorder]⟩, fun hn => (hn ⟨_, _, .here v m _ _ e⟩).elim⟩
    · obtain ⟨h1, h2⟩ := ihl l' hd
      constructor
      · rintro ⟨a, b, hf⟩
        cases hf with
        | here _ _ _ _ e' => rw [e] at e'; cases e'
        | left _ _ _ _ _ _ _ _ hf => obtain ⟨x, hx, hp⟩ := h1 ⟨a, b, hf⟩; exact ⟨x, hx, hp.append_right _⟩
        | right _ _ _ _ _ _ _ hgt _ => exact absurd (LtB.le hlt) (LtB.not_le hgt)
      · intro hn
        rw [h2 fun ⟨a, b, hf⟩ => hn ⟨a, b, .left v m l r a b e hlt hf⟩]
    · obtain ⟨h1, h2⟩ := ihr r' hd
      constructor
      · rintro ⟨a, b, hf⟩
        cases hf with
        | here _ _ _ _ e' => rw [e] at e'; cases e'
        | left _ _ _ _ _ _ _ hlt _ => exact absurd (LtB.le hlt) (LtB.not_le hgt)
        | right _ _ _ _ _ _ _ _ hf =>
          obtain ⟨x, hx, hp⟩ := h1 ⟨a, b, hf⟩
          exact ⟨x, hx, ((hp.cons v).append_left l.inorder).trans
            ((List.Perm.append_left _ (List.Perm.swap ..)).trans List.perm_middle)⟩
      · intro hn
        rw [h2 fun ⟨a, b, hf⟩ => hn ⟨a, b, .right v m l r a b e hgt hf⟩]
    · refine ⟨?_, fun _ => rfl⟩
      rintro ⟨a, b, hf⟩
      cases hf with
      | here _ _ _ _ e' => rw [e] at e'; cases e'
      | left _ _ _ _ _ _ _ hlt _ => rw [hlt] at heq; cases heq
      | right _ _ _ _ _ _ _ hgt _ => exact absurd (leB_of_eq heq) (LtB.not_le hgt)

/-! ## C47 -/

/-- C47: after any history the in-order sequence is sorted by low bound, every node's `max` bounds the high bounds of its
subtree, and the intervals are those inserted but for those taken out by deletions of equal ones. -/
theorem C47_shape (es : List (IEvent I)) (t : ITree I B) (h : Built es t) :
    SortedLo t.inorder ∧ MaxBounds t ∧ ∃ b gone, Bag es b gone ∧ t.inorder.Perm b ∧
      t.count + gone.length = (inserted es).length := by
  obtain ⟨b, gone, hb, hperm, hI⟩ := h.bag
  refine ⟨hI.searchOrder.sorted, hI.maxBounds, b, gone, hb, hperm, ?_⟩
  rw [count_length, hperm.length_eq, hb.length]

/-- C47: with insertions only, every node's `max` is the greatest high bound of its subtree. -/
theorem C47_max_exact_after_insertions (is : List I) : MaxExact (insertAll is : ITree I B) := by
  obtain ⟨b, gone, hb, _, hI⟩ := (built_insertAll (B := B) is).bag
  obtain ⟨rfl, _⟩ := hb.insertions is rfl
  generalize (insertAll is : ITree I B) = t at hI
  have : ∀ (t : ITree I B) (P : I → Prop), Inv (· ∈ ([] : List I)) P t → MaxExact t := by
    intro t
    induction t with
    | nil => intro P _; trivial
    | node v m l r ihl ihr =>
      rintro P ⟨_, ⟨x, hx, _, e⟩, h5, h6, h7⟩
      refine ⟨h5, ⟨x, ?_, e⟩, ihl _ h6, ihr _ h7⟩
      rcases hx with hx | hx
      · exact hx
      · cases hx
  exact this t _ hI

/-! ## C48 -/

/-- C48: rotations keep the in-order sequence. -/
theorem C48_inorder (t : ITree I B) : t.rotateLeft.inorder = t.inorder ∧ t.rotateRight.inorder = t.inorder := by
  constructor
  · unfold rotateLeft; split <;> simp [inorder]
  · unfold rotateRight; split <;> simp [inorder]

/-- C48: rotations keep every node's `max` the greatest high bound of its subtree. -/
theorem C48_maxima (t : ITree I B) (h : MaxExact t) : MaxExact t.rotateLeft ∧ MaxExact t.rotateRight := by
  constructor
  · unfold rotateLeft
    split
    · obtain ⟨_, _, hl, _, _, hrl, hrr⟩ := h
      exact refreshed_exact _ _ _ (refreshed_exact _ _ _ hl hrl) hrr
    · exact h
  · unfold rotateRight
    split
    · obtain ⟨_, _, ⟨_, _, hll, hlr⟩, hr⟩ := h
      exact refreshed_exact _ _ _ hll (refreshed_exact _ _ _ hlr hr)
    · exact h

/-! ## C57 -/

/-- C57 is false of the code: `rotate_left` can put an interval with the same low bound to the left. -/
theorem C57_refuted : ∃ (is : List Span), SearchOrder (insertAll is : ITree Span Nat) ∧
    ¬ SearchOrder (insertAll is : ITree Span Nat).rotateLeft := by
  refine ⟨[⟨5, 6⟩, ⟨5, 9⟩], ?_, ?_⟩
  · obtain ⟨_, _, _, _, hI⟩ := (built_insertAll (B := Nat) ([⟨5, 6⟩, ⟨5, 9⟩] : List Span)).bag
    exact hI.searchOrder
  · rintro ⟨h, _⟩
    have := h ⟨5, 6⟩ (by decide)
    exact absurd this (by decide)

/-- C57: `rotate_right` keeps the search order. -/
theorem C57_rotate_right (t : ITree I B) (h : SearchOrder t) : SearchOrder t.rotateRight := by
  unfold rotateRight
  split
  · rename_i v _ w _ _ _ _
    obtain ⟨h1, h2, ⟨h3, h4, h5, h6⟩, h7⟩ := h
    refine ⟨h3, ?_, h5, ⟨fun x hx => h1 x (by simp [inorder, hx]), h2, h6, h7⟩⟩
    intro x hx
    simp only [inorder, List.mem_append, List.mem_cons] at hx
    have hwv := LtB.le (h1 w (by simp [inorder]))
    rcases hx with hx | rfl | hx
    · exact h4 x hx
    · exact hwv
    · exact LeB.trans hwv (h2 x hx)
  · exact h

/-- C57: `rotate_left` keeps the search order when the root and its right child differ in low bound.
Missing from C57: equal low bounds (`C57_refuted`). -/
theorem C57_rotate_left_partial (v w : I) (m m' : B) (l rl rr : ITree I B)
    (h : SearchOrder (.node v m l (.node w m' rl rr))) (hne : compare (lo v) (lo w) ≠ .eq) :
    SearchOrder (ITree.rotateLeft (.node v m l (.node w m' rl rr))) := by
  obtain ⟨h1, h2, h3, h4, h5, h6, h7⟩ := h
  have hvw : LtB (lo v) (lo w) := by
    have : LeB (lo v) (lo w) := h2 w (by simp [inorder])
    unfold LtB; unfold LeB at this
    cases hc : compare (lo v) (lo w) <;> simp_all
  refine ⟨?_, h5, ⟨h1, fun x hx => h2 x (by simp [inorder, hx]), h3, h6⟩, h7⟩
  intro x hx
  simp only [inorder, List.mem_append, List.mem_cons] at hx
  rcases hx with hx | rfl | hx
  · exact LtB.trans_le (h1 x hx) hvw.le
  · exact hvw
  · exact h4 x hx

/-- C57, exactly when it holds: `rotate_left` keeps the search order unless the root and its right child have the same low
bound. -/
theorem C57_rotate_left_iff_partial (v w : I) (m m' : B) (l rl rr : ITree I B)
    (h : SearchOrder (.node v m l (.node w m' rl rr))) :
    SearchOrder (ITree.rotateLeft (.node v m l (.node w m' rl rr))) ↔ compare (lo v) (lo w) ≠ .eq := by
  refine ⟨fun hr heq => ?_, C57_rotate_left_partial v w m m' l rl rr h⟩
  have := hr.1 v (by simp [inorder])
  rw [heq] at this; cases this

end

/-! Examples for C42 to C47. -/

/-- The "complex tree" of the code's own tests (tree.rs:125-129), and a deletion. -/
def spanTree : ITree Span Nat := insertAll [⟨5, 6⟩, ⟨0, 4⟩, ⟨2, 6⟩, ⟨7, 9⟩]

example : spanTree.intersects ⟨1, 2⟩ = true ∧ spanTree.intersects ⟨10, 12⟩ = false := by decide
example : spanTree.forEach ⟨3, 5⟩ = [⟨5, 6⟩, ⟨2, 6⟩, ⟨0, 4⟩] := by decide
example : (spanTree.delete 0 ⟨2, 6⟩).map (fun t => (t.forEach ⟨3, 5⟩, t.count)) = some ([⟨5, 6⟩, ⟨0, 4⟩], 3) := by decide
example : Built (I := Span) (B := Nat) (([⟨5, 6⟩, ⟨0, 4⟩, ⟨2, 6⟩, ⟨7, 9⟩] : List Span).map IEvent.insert ++ [.delete ⟨2, 6⟩])
    (.node ⟨5, 6⟩ 9 (.node ⟨0, 4⟩ 6 .nil .nil) (.node ⟨7, 9⟩ 9 .nil .nil)) :=
  Built.delete (I := Span) 0 ⟨2, 6⟩ (built_insertAll (I := Span) (B := Nat) [⟨5, 6⟩, ⟨0, 4⟩, ⟨2, 6⟩, ⟨7, 9⟩]) (by decide)
example : (ITree.rotateLeft spanTree).inorder = [⟨0, 4⟩, ⟨2, 6⟩, ⟨5, 6⟩, ⟨7, 9⟩] := by decide
example : (ITree.rotateLeft spanTree).max? = some 9 ∧ ITree.rotateLeft spanTree ≠ spanTree := by decide

end Plotline
