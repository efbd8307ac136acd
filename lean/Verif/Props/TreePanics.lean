import Verif.Lemmas.TreePanics
import Verif.Props.Interval

/-! # Property C91: the interval tree when user code panics -/

namespace Plotline

open Std Interval

set_option linter.unusedSectionVars false

section
variable {I B : Type} [Ord B] [Interval I B] [BEq I]

theorem panicked {α : Type} {x : Risky I α} {n : Nat} (h : (x n).2 = none) : x n = ((x n).1, none) := by rw [← h]

/-- C91: every call calls user code some number of times. If none of these calls panics, it does what it does for user code that does not
panic. Otherwise it panics; an insertion or deletion then leaves the empty tree, and a query the tree as it was. Before, the closure of
`for_each_intersection` was called with some of the intervals it would have been called with, the first ones. -/
theorem C91_panics_partial (c : TreeCall I) (t : ITree I B) :
    ∃ N, (∀ fuel crash, N ≤ crash → t.act fuel crash c = t.calm fuel c) ∧
      ∀ fuel crash, crash < N → ∃ cs, t.act fuel crash c = some (.panic cs, if c.event.isSome then .nil else t) ∧
        cs <+: t.reports c := by
  cases c with
  | insert i =>
    obtain ⟨N, h1, h2⟩ := t.insertR_calm i
    refine ⟨N, fun fuel crash h => ?_, fun fuel crash h => ⟨(t.insertR i crash).1, ?_, (h2 crash h).2⟩⟩
    · simp only [ITree.act, h1 crash h, ITree.calm]
    · simp only [ITree.act]; rw [panicked (h2 crash h).1]; rfl
  | delete i =>
    obtain ⟨N, hN⟩ := t.deleteR_steady i
    refine ⟨N, fun fuel crash h => ?_, fun fuel crash h => ⟨(t.deleteR fuel i crash).1, ?_, ((hN fuel).2 crash h).2⟩⟩
    · simp only [ITree.act, (hN fuel).1 crash h, ITree.calm]
      cases t.delete fuel i <;> rfl
    · simp only [ITree.act]; rw [panicked ((hN fuel).2 crash h).1]; rfl
  | intersects q =>
    obtain ⟨N, h1, h2⟩ := t.intersectsR_calm q
    refine ⟨N, fun fuel crash h => ?_, fun fuel crash h => ⟨(t.intersectsR q crash).1, ?_, (h2 crash h).2⟩⟩
    · simp only [ITree.act, h1 crash h, ITree.calm]
    · simp only [ITree.act]; rw [panicked (h2 crash h).1]; rfl
  | forEach q =>
    obtain ⟨N, h1, h2⟩ := t.forEachR_calm q
    refine ⟨N, fun fuel crash h => ?_, fun fuel crash h => ⟨(t.forEachR q crash).1, ?_, (h2 crash h).2⟩⟩
    · simp only [ITree.act, h1 crash h, ITree.calm]
    · simp only [ITree.act]; rw [panicked (h2 crash h).1]; rfl

theorem calm_not_panic {fuel : Nat} {t t' : ITree I B} {c : TreeCall I} {a : TreeAnswer I} (h : t.calm fuel c = some (a, t')) :
    ∀ cs, a ≠ .panic cs := by
  intro cs e
  cases c with
  | delete i => simp only [ITree.calm, Option.map_eq_some_iff] at h; obtain ⟨_, _, h⟩ := h; cases h; cases e
  | _ => simp only [ITree.calm] at h; cases h; cases e

/-- One call, by whether it panicked. -/
theorem act_cases {fuel crash : Nat} {t t' : ITree I B} {c : TreeCall I} {a : TreeAnswer I} (h : t.act fuel crash c = some (a, t')) :
    (t.calm fuel c = some (a, t') ∧ ∀ cs, a ≠ .panic cs) ∨
    (t' = (if c.event.isSome then .nil else t) ∧ ∃ cs, a = .panic cs ∧ cs <+: t.reports c) := by
  obtain ⟨N, h1, h2⟩ := C91_panics_partial c t
  by_cases hn : N ≤ crash
  · rw [h1 fuel crash hn] at h
    exact .inl ⟨h, calm_not_panic h⟩
  · obtain ⟨cs, k1, k2⟩ := h2 fuel crash (by omega)
    rw [k1] at h; cases h
    exact .inr ⟨rfl, cs, rfl, k2⟩

theorem sinceCrash_snoc (h : List (TreeCall I × TreeAnswer I)) (c : TreeCall I) (a : TreeAnswer I) :
    sinceCrash (h ++ [(c, a)]) = match c.event, a with
      | some _, .panic _ => []
      | some e, _ => sinceCrash h ++ [e]
      | none, _ => sinceCrash h := by
  unfold sinceCrash
  rw [List.foldl_append]; rfl

/-- C91: after any calls, whichever of them panicked, the tree is one that the insertions and deletions since the last one that panicked
build. So C42 to C47, and C86, hold of it with these. -/
theorem C91_history_partial (h : List (TreeCall I × TreeAnswer I)) (t : ITree I B) (hl : Lived h t) : Built (sinceCrash h) t := by
  induction hl with
  | empty => exact .empty
  | @act h t t' fuel crash c a _ hs ih =>
    rw [sinceCrash_snoc]
    rcases act_cases hs with ⟨hc, ha⟩ | ⟨rfl, cs, rfl, _⟩
    · cases c with
      | insert i =>
        simp only [ITree.calm] at hc
        cases hc
        exact .insert i ih
      | delete i =>
        simp only [ITree.calm, Option.map_eq_some_iff] at hc
        obtain ⟨t1, h1, h2⟩ := hc
        cases h2
        exact .delete fuel i ih h1
      | intersects q => simp only [ITree.calm] at hc; cases hc; exact ih
      | forEach q => simp only [ITree.calm] at hc; cases hc; exact ih
    · cases c with
      | insert i => exact .empty
      | delete i => exact .empty
      | intersects q => exact ih
      | forEach q => exact ih

/-- C91: and every tree that can be built can be had although an insertion before panicked. -/
theorem C91_again (es : List (IEvent I)) (t : ITree I B) (hb : Built es t) (i : I) :
    ∃ h, Lived ((.insert i, .panic []) :: h) t ∧ sinceCrash ((.insert i, .panic []) :: h) = es ∧ ∀ x ∈ h, ∀ cs, x.2 ≠ .panic cs := by
  induction hb with
  | empty => exact ⟨[], .act 0 0 _ _ .empty rfl, rfl, fun x hx => by cases hx⟩
  | @insert es t j _ ih =>
    obtain ⟨h, h1, h2, h3⟩ := ih
    obtain ⟨N, hN, _⟩ := C91_panics_partial (.insert j) t
    refine ⟨h ++ [(.insert j, .done)], ?_, ?_, ?_⟩
    · rw [← List.cons_append]; exact .act 0 N _ _ h1 (hN 0 N (Nat.le_refl _))
    · rw [← List.cons_append, sinceCrash_snoc, h2]; rfl
    · intro x hx
      rcases List.mem_append.1 hx with hx | hx
      · exact h3 x hx
      · rw [List.mem_singleton.1 hx]; intro cs e; cases e
  | @delete es t t' fuel j _ hd ih =>
    obtain ⟨h, h1, h2, h3⟩ := ih
    obtain ⟨N, hN, _⟩ := C91_panics_partial (.delete j) t
    refine ⟨h ++ [(.delete j, .done)], ?_, ?_, ?_⟩
    · rw [← List.cons_append]; exact .act fuel N _ _ h1 (by rw [hN fuel N (Nat.le_refl _)]; simp [ITree.calm, hd])
    · rw [← List.cons_append, sinceCrash_snoc, h2]; rfl
    · intro x hx
      rcases List.mem_append.1 hx with hx | hx
      · exact h3 x hx
      · rw [List.mem_singleton.1 hx]; intro cs e; cases e

theorem built_nothing {es : List (IEvent I)} {t : ITree I B} (hb : Built es t) (h : ∀ i, IEvent.insert i ∉ es) : t = .nil := by
  induction hb with
  | empty => rfl
  | insert i _ _ => exact absurd (by simp) (h i)
  | delete fuel i _ hd ih =>
    have := ih fun j hj => h j (by simp [hj])
    subst this
    cases hd; rfl

theorem sinceCrash_mem (h : List (TreeCall I × TreeAnswer I)) (es : List (IEvent I)) (e : IEvent I)
    (he : e ∈ h.foldl (fun es x =>
      match x.1.event, x.2 with
      | some _, .panic _ => []
      | some e, _ => es ++ [e]
      | none, _ => es) es) : e ∈ es ∨ ∃ x ∈ h, x.1.event = some e := by
  induction h generalizing es with
  | nil => exact .inl he
  | cons x h ih =>
    rw [List.foldl_cons] at he
    rcases ih _ he with h1 | ⟨y, hy, h1⟩
    · split at h1
      · cases h1
      · rename_i e' _ hx _
        rcases List.mem_append.1 h1 with h1 | h1
        · exact .inl h1
        · rw [List.mem_singleton.1 h1]; exact .inr ⟨x, List.mem_cons_self, hx⟩
      · exact .inl h1
    · exact .inr ⟨y, List.mem_cons_of_mem _ hy, h1⟩

/-- C91: after an insertion or deletion that panicked nothing is found any more, until something is inserted. -/
theorem C91_lost (h h' : List (TreeCall I × TreeAnswer I)) (t : ITree I B) (c : TreeCall I) (cs : List I)
    (hc : (∃ i, c = .insert i) ∨ ∃ i, c = .delete i) (hh : ∀ x ∈ h', ∀ i, x.1 ≠ .insert i)
    (hl : Lived (h ++ (c, .panic cs) :: h') t) (fuel crash : Nat) (q : I) :
    t.act fuel crash (.intersects q) = some (.bool false, t) ∧ t.act fuel crash (.forEach q) = some (.called [], t) := by
  have := built_nothing (C91_history_partial _ t hl) fun i hi => by
    unfold sinceCrash at hi
    rw [List.foldl_append, List.foldl_cons] at hi
    have e : c.event ≠ none := by rcases hc with ⟨i, rfl⟩ | ⟨i, rfl⟩ <;> simp [TreeCall.event]
    rcases sinceCrash_mem _ _ _ hi with h1 | ⟨x, hx, h1⟩
    · split at h1
      · cases h1
      · rename_i _ _ _ _ h2; exact absurd rfl (h2 cs)
      · rename_i h2; exact e h2
    · obtain ⟨d, a⟩ := x
      cases d with
      | insert j => exact hh _ hx j rfl
      | _ => cases h1
  subst this
  exact ⟨rfl, rfl⟩

end

section
variable {I B : Type} [Ord B] [TransOrd B] [Interval I B] [BEq I]

/-- C91, what a client gets to see: after any calls, whichever of them panicked, there is a bag that the insertions and deletions since the
last one that panicked may leave. A query that returns calls the closure exactly on the overlapping intervals of the bag, each as often
as it is there; one that panics on the first of these; and neither changes what later queries give. -/
theorem C91_queries_partial (h : List (TreeCall I × TreeAnswer I)) (t : ITree I B) (hl : Lived h t) (hes : ProperHistory (sinceCrash h)) :
    ∃ b gone, Bag (sinceCrash h) b gone ∧ ∀ q, Proper q →
      ∃ all miss, b.Perm (all ++ miss) ∧ (∀ x ∈ all, Overlap x q) ∧ (∀ x ∈ miss, ¬ Overlap x q) ∧
        ∀ fuel crash a t', t.act fuel crash (.forEach q) = some (a, t') →
          t' = t ∧ (a = .called all ∨ ∃ cs, a = .panic cs ∧ cs <+: all) := by
  obtain ⟨b, gone, hb, hq⟩ := C43_enumeration _ t (C91_history_partial h t hl) hes
  refine ⟨b, gone, hb, fun q hp => ?_⟩
  obtain ⟨⟨miss, h1, h2, h3⟩, _⟩ := hq q hp
  refine ⟨t.forEach q, miss, h1, h2, h3, fun fuel crash a t' ha => ?_⟩
  rcases act_cases ha with ⟨hc, _⟩ | ⟨rfl, cs, rfl, hcs⟩
  · simp only [ITree.calm] at hc; cases hc
    exact ⟨rfl, .inl rfl⟩
  · exact ⟨rfl, .inr ⟨cs, rfl, hcs⟩⟩

end

/-- Two intervals are stored and found. A third insertion panics in `hi` and is caught, and they are gone. -/
theorem C91_refuted : ∃ (h : List (TreeCall Span × TreeAnswer Span)) (t t' : ITree Span Nat) (i q : Span),
    Lived h t ∧ t.act 0 0 (.insert i) = some (.panic [], t') ∧ t.act 0 100 (.intersects q) = some (.bool true, t) ∧
    t'.act 0 100 (.intersects q) = some (.bool false, t') := by
  refine ⟨[(.insert ⟨1, 3⟩, .done), (.insert ⟨5, 7⟩, .done)], .node ⟨1, 3⟩ 7 .nil (.node ⟨5, 7⟩ 7 .nil .nil), .nil, ⟨9, 9⟩, ⟨6, 6⟩,
    ?_, by decide +kernel, by decide +kernel, by decide +kernel⟩
  have h1 : Lived [(.insert (⟨1, 3⟩ : Span), .done)] (.node ⟨1, 3⟩ 3 .nil .nil : ITree Span Nat) :=
    Lived.act (I := Span) (B := Nat) (h := []) 0 100 (.insert ⟨1, 3⟩) .done .empty (by rfl)
  exact Lived.act (I := Span) (B := Nat) 0 100 (.insert ⟨5, 7⟩) .done h1 (by rfl)

/-- A closure that panics at its second call: it was called with the first two; the tree stays. A deletion that panics on its way
empties the tree although the interval is not in it. -/
example :
    (insertAll [⟨1, 3⟩, ⟨5, 7⟩, ⟨2, 6⟩] : ITree Span Nat).forEach ⟨2, 5⟩ = [⟨5, 7⟩, ⟨2, 6⟩, ⟨1, 3⟩] ∧
    ((insertAll [⟨1, 3⟩, ⟨5, 7⟩, ⟨2, 6⟩] : ITree Span Nat).act 0 16 (.forEach ⟨2, 5⟩)).map (·.1) =
      some (.panic [⟨5, 7⟩, ⟨2, 6⟩]) ∧
    (insertAll [⟨1, 3⟩, ⟨5, 7⟩, ⟨2, 6⟩] : ITree Span Nat).act 0 5 (.delete ⟨4, 4⟩) = some (.panic [], .nil) ∧
    (insertAll [⟨1, 3⟩, ⟨5, 7⟩, ⟨2, 6⟩] : ITree Span Nat).act 0 100 (.delete ⟨4, 4⟩) =
      some (.done, insertAll [⟨1, 3⟩, ⟨5, 7⟩, ⟨2, 6⟩]) := by decide +kernel

end Plotline
