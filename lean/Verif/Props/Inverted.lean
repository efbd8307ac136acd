import Verif.Props.Interval
import Verif.Lemmas.Split

/-! # Property C86: intervals and queries with their bounds the wrong way round

Nothing in the code asks `lo` to be at most `hi` (lib.rs:16-24), so the tree has to do with inverted intervals too. -/

namespace Plotline

open Std Interval ITree

set_option linter.unusedSectionVars false

section
variable {I B : Type} [Ord B] [Interval I B]

/-- Each begins no later than the other ends. -/
def Meets (a b : I) : Prop := (compare (lo a) (hi b)).isLE = true ∧ (compare (lo b) (hi a)).isLE = true

end

section
variable {I B : Type} [Ord B] [TransOrd B] [Interval I B]

theorem Meets.intersects {a b : I} (h : Meets a b) : intersects a b = true := by
  obtain ⟨h1, h2⟩ := h
  unfold Plotline.intersects icontains
  simp only [Bool.or_eq_true, Bool.and_eq_true, leB_iff]
  rcases LeB.total (lo a) (lo b) with h | h
  · exact .inl (.inl (.inl ⟨h, h2⟩))
  · exact .inl (.inr ⟨h.le, h1⟩)

theorem intersects_meets {G P : I → Prop} (t : ITree I B) (q : I) (hI : Inv G P t) (hG : ∀ x, G x → ¬ Meets x q)
    (y : I) (hy : y ∈ t.inorder) (ho : Meets y q) : t.intersects q = true := by
  induction t generalizing P y with
  | nil => cases hy
  | node v m l r ihl ihr =>
    obtain ⟨h1, _, _, h6, h7⟩ := hI
    unfold ITree.intersects
    split
    · rfl
    · rename_i hv
      have hyv : y ≠ v := by
        rintro rfl
        exact hv ho.intersects
      simp only [inorder, List.mem_append, List.mem_cons, hyv, false_or] at hy
      cases l with
      | nil =>
        rcases hy with hy | hy
        · cases hy
        · exact ihr h7 y hy ho
      | node lv lm ll lr =>
        simp only [max?]
        obtain ⟨g1, ⟨x, g2, g3, g4⟩, g5, g6, g7⟩ := h6
        split
        · rename_i hlt
          have hlt := ltB_iff.1 hlt
          rcases hy with hy | hy
          · exact absurd ho.2 ((LeB.trans_lt (g5 y hy) hlt).not_le)
          · exact ihr h7 y hy ho
        · rename_i hlt
          have hlt : LeB (lo q) lm := ltB_false.1 (by simpa using hlt)
          rcases hy with hy | hy
          · exact ihl ⟨g1, ⟨x, g2, g3, g4⟩, g5, g6, g7⟩ y hy ho
          · have hxq : LeB (lo q) (hi x) := hlt.trans (leB_of_eq' g4)
            rcases LeB.total (lo x) (hi q) with hx | hx
            · rcases g2 with g2 | g2
              · exact ihl ⟨g1, ⟨x, .inl g2, g3, g4⟩, g5, g6, g7⟩ x g2 ⟨hx, hxq⟩
              · exact absurd ⟨hx, hxq⟩ (hG x g2)
            · exfalso
              have hyl : LeB (lo v) (lo y) := (h7.mem y hy).2
              have : LtB (lo x) (lo y) := g3.2.trans_le hyl
              exact (hx.trans_le this.le).not_le ho.1

theorem forEach_between (t : ITree I B) (q : I) (hm : MaxBounds t) :
    (t.forEach q).Sublist (t.inorder.reverse.filter fun x => intersects x q) ∧
      (t.inorder.reverse.filter fun x => intersects x q && leB (lo q) (hi x)).Sublist (t.forEach q) := by
  induction t with
  | nil => exact ⟨.refl _, .refl _⟩
  | node v m l r ihl ihr =>
    obtain ⟨_, hl, hr⟩ := hm
    have hleft : (match l.max? with
        | none => []
        | some max => if ltB max (lo q) then [] else forEach q l).Sublist (l.inorder.reverse.filter fun x => intersects x q) ∧
        (l.inorder.reverse.filter fun x => intersects x q && leB (lo q) (hi x)).Sublist (match l.max? with
        | none => []
        | some max => if ltB max (lo q) then [] else forEach q l) := by
      cases l with
      | nil => exact ⟨.refl _, .refl _⟩
      | node lv lm ll lr =>
        simp only [max?]
        split
        · rename_i hlt
          have hlt := ltB_iff.1 hlt
          refine ⟨List.nil_sublist _, ?_⟩
          rw [List.filter_eq_nil_iff.2]
          · exact .refl _
          · intro x hx e
            have hx : x ∈ (ITree.node lv lm ll lr).inorder := by simpa using hx
            exact (LeB.trans_lt (hl.1 x hx) hlt).not_le (leB_iff.1 (Bool.and_eq_true_iff.1 e).2)
        · exact ihl hl
    rw [forEach, inorder]
    simp only [List.reverse_append, List.reverse_cons, List.filter_append]
    refine ⟨((ihr hr).1.append ?_).append hleft.1, ((ihr hr).2.append ?_).append hleft.2⟩
    · by_cases e : Plotline.intersects v q = true <;> simp [e]
    · by_cases e : Plotline.intersects v q = true
      · by_cases e' : leB (lo q) (hi v) = true <;> simp [e, e']
      · simp [e]

theorem sublist_rest {α : Type} {l l' : List α} (h : l.Sublist l') : ∃ w, l'.Perm (l ++ w) := by
  induction h with
  | slnil => exact ⟨[], .refl _⟩
  | @cons l l' a _ ih =>
    obtain ⟨w, hw⟩ := ih
    exact ⟨a :: w, (hw.cons a).trans (List.perm_middle.symm)⟩
  | cons_cons a _ ih =>
    obtain ⟨w, hw⟩ := ih
    exact ⟨w, hw.cons a⟩

variable [BEq I]

/-- C86 is false of the code: the tree misses an inverted interval, and it misses intervals if the query is inverted, although
`intersects` of the two is true. -/
theorem C86_refuted :
    (∃ (is : List Span) (q x : Span), Proper q ∧ x ∈ is ∧ intersects x q = true ∧
      (insertAll is : ITree Span Nat).intersects q = false ∧ (insertAll is : ITree Span Nat).forEach q = []) ∧
    (∃ (is : List Span) (q x : Span), (∀ i ∈ is, Proper i) ∧ x ∈ is ∧ intersects x q = true ∧
      (insertAll is : ITree Span Nat).intersects q = false ∧ (insertAll is : ITree Span Nat).forEach q = []) := by
  refine ⟨⟨[⟨20, 20⟩, ⟨5, 3⟩], ⟨4, 10⟩, ⟨5, 3⟩, by unfold Proper; decide, by decide, by decide, by decide, by decide⟩,
    ⟨[⟨20, 20⟩, ⟨1, 3⟩], ⟨7, 2⟩, ⟨1, 3⟩, ?_, by decide, by decide, by decide, by decide⟩⟩
  intro i hi
  simp at hi
  rcases hi with rfl | rfl <;> (unfold Proper; decide)

/-- C86, no false positives: whatever the intervals, after any insertions and deletions that returned, the tree reports only what
comparing one by one does, no interval more often than it is stored, and answers true only if there is something to report. -/
theorem C86_sound_partial (es : List (IEvent I)) (t : ITree I B) (h : Built es t) : ∃ b gone, Bag es b gone ∧ ∀ q,
    (∃ miss, b.Perm (t.forEach q ++ miss)) ∧ (∀ x ∈ t.forEach q, intersects x q = true) ∧
    (t.intersects q = true → ∃ x ∈ b, intersects x q = true) := by
  obtain ⟨b, gone, hb, hperm, hI⟩ := h.bag
  refine ⟨b, gone, hb, fun q => ?_⟩
  have hs := (forEach_between t q hI.maxBounds).1
  refine ⟨?_, fun x hx => (List.mem_filter.1 (hs.subset hx)).2, fun hq => ?_⟩
  · obtain ⟨miss, hm⟩ := sublist_rest (hs.trans List.filter_sublist)
    exact ⟨miss, hperm.symm.trans ((List.reverse_perm _).symm.trans hm)⟩
  · obtain ⟨x, hx, e⟩ := intersects_sound _ q hq
    exact ⟨x, hperm.mem_iff.1 hx, e⟩

/-- C86, what is not missed: whatever the intervals, after any insertions and deletions that returned, an interval that
intersects the query is reported, as often as it is stored, unless it ends before the query begins. -/
theorem C86_reported_partial (es : List (IEvent I)) (t : ITree I B) (h : Built es t) : ∃ b gone, Bag es b gone ∧ ∀ q,
    ∃ miss, b.Perm (t.forEach q ++ miss) ∧
      ∀ x ∈ miss, intersects x q = true → compare (hi x) (lo q) = .lt := by
  obtain ⟨b, gone, hb, hperm, hI⟩ := h.bag
  refine ⟨b, gone, hb, fun q => ?_⟩
  obtain ⟨hs, hc⟩ := forEach_between t q hI.maxBounds
  obtain ⟨u, hu⟩ := sublist_rest hc
  obtain ⟨w, hw⟩ := sublist_rest (hs.trans List.filter_sublist)
  refine ⟨w, hperm.symm.trans ((List.reverse_perm _).symm.trans hw), fun x hx e => ?_⟩
  have hall := (List.filter_append_perm (fun x => intersects x q && leB (lo q) (hi x)) t.inorder.reverse)
  have h1 := hall.trans (hw.trans (hu.append_right w))
  rw [List.append_assoc] at h1
  have h2 := (List.perm_append_left_iff _).1 h1
  have hx' := h2.mem_iff.2 (List.mem_append_right u hx)
  have hx' := (List.mem_filter.1 hx').2
  simp only [e, Bool.true_and, Bool.not_eq_true'] at hx'
  exact not_leB.1 (fun hh => by rw [leB_iff.2 hh] at hx'; cases hx')

/-- C86, what a query does not overlook: whatever the intervals, after any insertions the answer is true if one of them begins
no later than the query ends and ends no sooner than the query begins. -/
theorem C86_answer_partial (is : List I) (q x : I) (hx : x ∈ is) (hlo : (compare (lo x) (hi q)).isLE = true)
    (hhi : (compare (lo q) (hi x)).isLE = true) : (insertAll is : ITree I B).intersects q = true := by
  obtain ⟨b, gone, hb, hperm, hI⟩ := (built_insertAll (B := B) is).bag
  obtain ⟨rfl, hbi⟩ := hb.insertions is rfl
  exact intersects_meets _ q hI (by simp) x ((hperm.trans hbi).mem_iff.2 hx) ⟨hlo, hhi⟩

/-- C86, exactly: what both queries do after any insertions, whatever the intervals and the query, from nothing but the order of the insertions. -/
theorem C86_exact_partial (is : List I) (q : I) :
    (insertAll is : ITree I B).forEach q = reported q is ∧ (insertAll is : ITree I B).intersects q = foundIn q is :=
  ⟨forEach_insertAll q is.length is (Nat.le_refl _), intersects_insertAll q is.length is (Nat.le_refl _)⟩

/-- An inverted interval is missed if the one inserted first begins after it, and found if it is inserted first. -/
example : reported (⟨4, 10⟩ : Span) [⟨20, 20⟩, ⟨5, 3⟩, ⟨25, 9⟩] = [⟨25, 9⟩] ∧
    reported (⟨4, 10⟩ : Span) [⟨5, 3⟩, ⟨25, 9⟩, ⟨20, 20⟩] = [⟨25, 9⟩, ⟨5, 3⟩] := by
  constructor <;> simp [reported, later, sooner, Plotline.intersects, icontains, ltB, leB, lo, hi, compare, compareOfLessAndEq]

/-- The answer can be false although there is something to report, if that begins after the query ends. -/
example : (insertAll [⟨9, 9⟩, ⟨8, 8⟩, ⟨10, 3⟩] : ITree Span Nat).intersects ⟨1, 5⟩ = false ∧
    (insertAll [⟨9, 9⟩, ⟨8, 8⟩, ⟨10, 3⟩] : ITree Span Nat).forEach ⟨1, 5⟩ = [⟨10, 3⟩] := by decide

/-- Inverted intervals that are found. -/
example : (insertAll [⟨20, 20⟩, ⟨5, 3⟩] : ITree Span Nat).intersects ⟨2, 10⟩ = true ∧
    (insertAll [⟨20, 20⟩, ⟨5, 3⟩] : ITree Span Nat).forEach ⟨2, 10⟩ = [⟨5, 3⟩] := by decide

end

end Plotline
