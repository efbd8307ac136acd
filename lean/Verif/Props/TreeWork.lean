import Verif.Lemmas.TreeWork
import Verif.Props.TreePanics

/-! # Property C92: how much the calls on the interval tree do -/

namespace Plotline

open Std Interval

set_option linter.unusedSectionVars false

section
variable {I B : Type} [Ord B] [Interval I B] [BEq I]

theorem takes_of_steady {t : ITree I B} {c : TreeCall I} {k : Nat}
    (h : (∃ i, c = .insert i ∧ (t.insertR i).Steady k (t.insert i) []) ∨
      (∃ i, c = .delete i ∧ ∀ fuel, (t.deleteR fuel i).Steady k (t.delete fuel i) []) ∨
      (∃ q, c = .intersects q ∧ (t.intersectsR q).Steady k (t.intersects q) []) ∨
      (∃ q, c = .forEach q ∧ (t.forEachR q).Steady k () (t.forEach q))) : Takes t c k := by
  intro fuel crash
  rcases h with ⟨i, rfl, h⟩ | ⟨i, rfl, h⟩ | ⟨i, rfl, h⟩ | ⟨i, rfl, h⟩
  · by_cases hn : k ≤ crash
    · simp only [ITree.act, h.1 crash hn]
      exact ⟨fun ⟨_, _, e⟩ => (by cases e), fun _ => by omega⟩
    · simp only [ITree.act]; rw [panicked (h.2 crash (by omega)).1]
      exact ⟨fun _ => by omega, fun _ => ⟨_, _, rfl⟩⟩
  · by_cases hn : k ≤ crash
    · simp only [ITree.act, (h fuel).1 crash hn]
      refine ⟨fun ⟨_, _, e⟩ => ?_, fun _ => by omega⟩
      cases hd : t.delete fuel i <;> rw [hd] at e <;> cases e
    · simp only [ITree.act]; rw [panicked ((h fuel).2 crash (by omega)).1]
      exact ⟨fun _ => by omega, fun _ => ⟨_, _, rfl⟩⟩
  · by_cases hn : k ≤ crash
    · simp only [ITree.act, h.1 crash hn]
      exact ⟨fun ⟨_, _, e⟩ => (by cases e), fun _ => by omega⟩
    · simp only [ITree.act]; rw [panicked (h.2 crash (by omega)).1]
      exact ⟨fun _ => by omega, fun _ => ⟨_, _, rfl⟩⟩
  · by_cases hn : k ≤ crash
    · simp only [ITree.act, h.1 crash hn]
      exact ⟨fun ⟨_, _, e⟩ => (by cases e), fun _ => by omega⟩
    · simp only [ITree.act]; rw [panicked (h.2 crash (by omega)).1]
      exact ⟨fun _ => by omega, fun _ => ⟨_, _, rfl⟩⟩

theorem delete_takes {t : ITree I B} {i : I} {a b : Nat}
    (h : Costs (t.deleteR 0 i) a b (t.delete 0 i) []) : ∃ k, a ≤ k ∧ k ≤ b ∧ Takes t (.delete i) k := by
  obtain ⟨N, hN⟩ := t.deleteR_steady i
  obtain ⟨M, h1, h2, h3⟩ := h
  have := (hN 0).unique h3
  exact ⟨N, by omega, by omega, takes_of_steady (.inr (.inl ⟨i, rfl, hN⟩))⟩

theorem takes_unique {t : ITree I B} {c : TreeCall I} {k k' : Nat} (h : Takes t c k) (h' : Takes t c k') : k = k' := by
  have h1 := (h 0 k').symm.trans (h' 0 k')
  have h2 := (h 0 k).symm.trans (h' 0 k)
  omega

theorem inorder_count (t : ITree I B) : t.count = t.inorder.length := by
  induction t with
  | nil => rfl
  | node v m l r ihl ihr => simp only [ITree.count, ITree.inorder, ihl, ihr, List.length_append, List.length_cons]; omega

/-- C92, of any tree: an insertion calls user code five or six times for every interval on its way to where the new one belongs, and once
more. -/
theorem C92_insert (t : ITree I B) (i : I) :
    ∃ k, Takes t (.insert i) k ∧ 5 * (t.way i).length + 1 ≤ k ∧ k ≤ 6 * (t.way i).length + 1 := by
  obtain ⟨k, h1, h2, h3⟩ := t.insertR_costs i
  exact ⟨k, takes_of_steady (.inl ⟨i, rfl, h3⟩), h1, h2⟩

/-- C92, of any tree: an insertion, a deletion and the question whether anything intersects call user code a bounded number of times per
level. Calling a closure on what intersects calls user code a bounded number of times per interval stored. -/
theorem C92_levels (t : ITree I B) (i : I) :
    (∃ k, Takes t (.insert i) k ∧ k ≤ 6 * t.levels + 1) ∧ (∃ k, Takes t (.delete i) k ∧ k ≤ 7 * t.levels) ∧
    (∃ k, Takes t (.intersects i) k ∧ k ≤ 22 * t.levels) ∧ ∃ k, Takes t (.forEach i) k ∧ k ≤ 23 * t.inorder.length := by
  refine ⟨?_, ?_, ?_, ?_⟩
  · obtain ⟨k, h1, _, h3⟩ := C92_insert t i
    have := t.way_levels i
    exact ⟨k, h1, by omega⟩
  · obtain ⟨k, _, h2, h3⟩ := delete_takes (t.deleteR_costs 0 i)
    exact ⟨k, h3, h2⟩
  · obtain ⟨k, _, h2, h3⟩ := t.intersectsR_costs i
    exact ⟨k, takes_of_steady (.inr (.inr (.inl ⟨i, rfl, h3⟩))), h2⟩
  · obtain ⟨k, _, h2, h3⟩ := t.forEachR_costs i
    exact ⟨k, takes_of_steady (.inr (.inr (.inr ⟨i, rfl, h3⟩))), by rw [← inorder_count]; exact h2⟩

/-- C92, how many levels there may be: no more than intervals, and so many that they hold the intervals. -/
theorem C92_shape_partial (t : ITree I B) : t.levels ≤ t.inorder.length ∧ t.inorder.length < 2 ^ t.levels := by
  rw [← inorder_count]
  exact t.levels_count

end

section
variable {I B : Type} [Ord B] [TransOrd B] [Interval I B] [BEq I]

theorem leaning_insertAll (is : List I) (h : SortedLo is) :
    (insertAll is : ITree I B).Leaning ∧ (insertAll is : ITree I B).inorder = is := by
  have key : ∀ (is : List I) (t : ITree I B), t.Leaning → SortedLo (t.inorder ++ is) →
      (is.foldl (fun t i => t.insert i) t).Leaning ∧ (is.foldl (fun t i => t.insert i) t).inorder = t.inorder ++ is := by
    intro is
    induction is with
    | nil => intro t h _; exact ⟨h, by simp⟩
    | cons i is ih =>
      intro t h hs
      have h1 := h.insert (i := i) fun x hx => by
        rw [ltB_false]
        exact (List.pairwise_append.1 hs).2.2 x hx i (List.mem_cons_self ..)
      have := ih (t.insert i) h1.1 (by rw [h1.2]; simpa using hs)
      rw [h1.2] at this
      simpa using this
  have := key is .nil trivial (by simpa [ITree.inorder] using h)
  simpa [insertAll, ITree.inorder] using this

/-- C92 fails: inserting in the order of low bounds makes as many levels as there are intervals. Inserting one more that starts no
earlier, deleting one that starts later, and asking for one that intersects nothing go through all of them. -/
theorem C92_sorted (is : List I) (h : SortedLo is) :
    (insertAll is : ITree I B).levels = is.length ∧
    (∀ i, (∀ x ∈ is, (compare (lo x) (lo i)).isLE = true) →
      ∃ k, Takes (insertAll is) (.insert i) k ∧ 5 * is.length + 1 ≤ k) ∧
    (∀ i, (∀ x ∈ is, compare (lo x) (lo i) = .lt ∧ (x == i) = false) →
      Takes (insertAll is) (.delete i) (7 * is.length)) ∧
    ∀ q, Proper q → (∀ x ∈ is, Proper x ∧ ¬ Overlap x q) → ∃ k, Takes (insertAll is) (.intersects q) k ∧ 5 * is.length ≤ k := by
  obtain ⟨hl, hin⟩ := leaning_insertAll (B := B) is h
  have hlev : (insertAll is : ITree I B).levels = is.length := by rw [hl.levels, hin]
  refine ⟨hlev, fun i hi => ?_, fun i hi => ?_, fun q hq hx => ?_⟩
  · obtain ⟨k, h1, h2, _⟩ := C92_insert (insertAll is : ITree I B) i
    rw [hl.way (i := i) (fun x hx => ltB_false.2 (hi x (by rwa [hin] at hx))), hin] at h2
    exact ⟨k, h1, h2⟩
  · have := hl.delete 0 (i := i) fun x hx => by
      rw [hin] at hx
      obtain ⟨h1, h2⟩ := hi x hx
      exact ⟨ltB_iff.2 h1, ltB_false.2 (LtB.le h1), h2⟩
    obtain ⟨k, h1, h2, h3⟩ := delete_takes this
    have e : k = 7 * is.length := by rw [hlev] at h1 h2; omega
    rw [← e]; exact h3
  · obtain ⟨k, h1, _, h3⟩ := hl.intersects (q := q) fun x hx' => by
      rw [hin] at hx'
      obtain ⟨h1, h2⟩ := hx x hx'
      cases e : intersects x q with
      | false => rfl
      | true => exact absurd ((intersects_overlap h1 hq).1 e) h2
    exact ⟨k, takes_of_steady (.inr (.inr (.inl ⟨q, rfl, h3⟩))), by rw [← hlev]; exact h1⟩

/-- C92 fails: a query that starts no later than anything ends has every stored interval examined, although nothing may intersect. -/
theorem C92_enumeration (es : List (IEvent I)) (t : ITree I B) (hb : Built es t) (q : I)
    (hq : ∀ x ∈ t.inorder, (compare (lo q) (hi x)).isLE = true) : ∃ k, Takes t (.forEach q) k ∧ 5 * t.inorder.length ≤ k := by
  obtain ⟨_, _, _, _, hI⟩ := hb.bag
  obtain ⟨k, h1, _, h3⟩ := t.forEachR_all q hI.maxBounds hq
  exact ⟨k, takes_of_steady (.inr (.inr (.inr ⟨q, rfl, h3⟩))), by rw [← inorder_count]; exact h1⟩

end

/-- C92 is false of the pinned code: for every bound there are a tree and an interval for which an insertion, a deletion and a query call
user code more often than that bound times the logarithm of the number of intervals, while nothing is found. -/
theorem C92_refuted (c : Nat) : ∃ (is : List Span) (i : Span) (t : ITree Span Nat), Built (is.map .insert) t ∧
    (∀ x ∈ is, ¬ Overlap x i) ∧
    (∃ k, Takes t (.insert i) k ∧ c * Nat.log2 is.length < k) ∧ (∃ k, Takes t (.delete i) k ∧ c * Nat.log2 is.length < k) ∧
    ∃ k, Takes t (.intersects i) k ∧ c * Nat.log2 is.length < k := by
  have hsq : ∀ c : Nat, c < 2 ^ c ∧ c * c < 5 * 2 ^ c := by
    intro c
    induction c with
    | zero => decide
    | succ c ih =>
      rw [Nat.pow_succ]
      refine ⟨by omega, ?_⟩
      have : (c + 1) * (c + 1) = c * c + 2 * c + 1 := by rw [Nat.add_mul, Nat.mul_add]; omega
      omega
  have hsorted : SortedLo (((List.range (2 ^ c)).map fun k => (⟨k, k⟩ : Span))) := by
    refine List.pairwise_map.2 (List.Pairwise.imp ?_ List.pairwise_lt_range)
    intro a b hab
    show (compare a b).isLE = true
    rw [Nat.isLE_compare]; omega
  obtain ⟨_, h1, h2, h3⟩ := C92_sorted (B := Nat) _ hsorted
  have hmem : ∀ x ∈ ((List.range (2 ^ c)).map fun k => (⟨k, k⟩ : Span)), ∃ k, k < 2 ^ c ∧ x = ⟨k, k⟩ := by
    intro x hx
    obtain ⟨k, hk, rfl⟩ := List.mem_map.1 hx
    exact ⟨k, List.mem_range.1 hk, rfl⟩
  have hno : ∀ x ∈ ((List.range (2 ^ c)).map fun k => (⟨k, k⟩ : Span)), ¬ Overlap x (⟨2 ^ c, 2 ^ c⟩ : Span) := by
    rintro x hx ⟨y, ⟨_, h1⟩, h2, _⟩
    obtain ⟨k, hk, rfl⟩ := hmem x hx
    have h1 : y ≤ k := Nat.isLE_compare.1 h1
    have h2 : 2 ^ c ≤ y := Nat.isLE_compare.1 h2
    omega
  have hlen : ((List.range (2 ^ c)).map fun k => (⟨k, k⟩ : Span)).length = 2 ^ c := by simp
  rw [hlen] at h1 h2 h3
  have hc := hsq c
  refine ⟨(List.range (2 ^ c)).map fun k => ⟨k, k⟩, ⟨2 ^ c, 2 ^ c⟩, insertAll _, built_insertAll _, hno, ?_, ?_, ?_⟩
  · obtain ⟨k, hk, hle⟩ := h1 ⟨2 ^ c, 2 ^ c⟩ fun x hx => by
      obtain ⟨k, hk, rfl⟩ := hmem x hx
      exact Nat.isLE_compare.2 (Nat.le_of_lt hk)
    exact ⟨k, hk, by rw [hlen, Nat.log2_two_pow]; omega⟩
  · refine ⟨_, h2 ⟨2 ^ c, 2 ^ c⟩ fun x hx => ?_, by rw [hlen, Nat.log2_two_pow]; omega⟩
    obtain ⟨k, hk, rfl⟩ := hmem x hx
    refine ⟨Nat.compare_eq_lt.2 hk, ?_⟩
    rw [beq_eq_false_iff_ne]
    intro e
    cases e
    omega
  · obtain ⟨k, hk, hle⟩ := h3 ⟨2 ^ c, 2 ^ c⟩ (by show (compare (2 ^ c) (2 ^ c)).isLE = true; simp) fun x hx => by
      refine ⟨?_, hno x hx⟩
      obtain ⟨k, hk, rfl⟩ := hmem x hx
      show (compare k k).isLE = true
      simp
    exact ⟨k, hk, by rw [hlen, Nat.log2_two_pow]; omega⟩

/-- Four intervals inserted in order, and in an order that keeps the tree low: the calls an insertion makes. -/
example : (insertAll [⟨1, 1⟩, ⟨2, 2⟩, ⟨3, 3⟩, ⟨4, 4⟩] : ITree Span Nat).levels = 4 ∧
    (insertAll [⟨2, 2⟩, ⟨1, 1⟩, ⟨3, 3⟩, ⟨4, 4⟩] : ITree Span Nat).levels = 3 ∧
    ((insertAll [⟨1, 1⟩, ⟨2, 2⟩, ⟨3, 3⟩, ⟨4, 4⟩] : ITree Span Nat).act 0 24 (.insert ⟨5, 5⟩)).map (·.1) = some (.panic []) ∧
    ((insertAll [⟨1, 1⟩, ⟨2, 2⟩, ⟨3, 3⟩, ⟨4, 4⟩] : ITree Span Nat).act 0 25 (.insert ⟨5, 5⟩)).map (·.1) = some .done ∧
    (insertAll [⟨2, 2⟩, ⟨1, 1⟩, ⟨3, 3⟩, ⟨4, 4⟩] : ITree Span Nat).way ⟨0, 9⟩ = [⟨2, 2⟩, ⟨1, 1⟩] := by decide +kernel
/-- A query before everything reports nothing and examines all three. -/
example : (insertAll [⟨2, 3⟩, ⟨5, 7⟩, ⟨3, 6⟩] : ITree Span Nat).forEach ⟨0, 1⟩ = [] ∧
    ((insertAll [⟨2, 3⟩, ⟨5, 7⟩, ⟨3, 6⟩] : ITree Span Nat).act 0 40 (.forEach ⟨0, 1⟩)).map (·.1) = some (.panic []) ∧
    ((insertAll [⟨2, 3⟩, ⟨5, 7⟩, ⟨3, 6⟩] : ITree Span Nat).act 0 60 (.forEach ⟨0, 1⟩)).map (·.1) = some (.called []) := by decide +kernel

end Plotline
