import Verif.Model.Graph

/-! Helper lemmas: the sorted entry list behaves as a map. -/

namespace Plotline.BTreeMap

open Std

set_option linter.unusedSectionVars false

variable {K V : Type} [Ord K] [TransOrd K]

/-- Strictly ascending keys. -/
def Sorted (l : List (K × V)) : Prop := l.Pairwise (fun a b => compare a.1 b.1 = .lt)

theorem lt_ne_eq {a b : K} (h : compare a b = .lt) : compare a b ≠ .eq := by simp [h]

theorem findL_eq_none_of_lt {k : K} {l : List (K × V)} (h : ∀ e ∈ l, compare k e.1 = .lt) :
    findL k l = none := by
  cases l with
  | nil => rfl
  | cons e t => simp [findL, h e (by simp)]

theorem findL_cons_sorted {k k' : K} {v : V} {l : List (K × V)} (hs : Sorted ((k', v) :: l)) :
    findL k ((k', v) :: l) = if compare k k' = .eq then some v else findL k l := by
  simp only [findL]
  split <;> rename_i h
  · rw [if_neg (by simp [h])]
    symm
    apply findL_eq_none_of_lt
    intro e he
    exact TransCmp.lt_trans h ((List.pairwise_cons.1 hs).1 e he)
  · simp [h]
  · simp [h]

theorem mem_insertL {k : K} {v : V} {l : List (K × V)} {e : K × V} (h : e ∈ insertL k v l) :
    (e.2 = v ∧ compare k e.1 = .eq) ∨ e ∈ l := by
  induction l with
  | nil =>
    simp only [insertL, List.mem_singleton] at h
    subst h; exact .inl ⟨rfl, ReflCmp.compare_self⟩
  | cons a t ih =>
    obtain ⟨k', v'⟩ := a
    simp only [insertL] at h
    split at h
    · rcases List.mem_cons.1 h with rfl | h
      · exact .inl ⟨rfl, ReflCmp.compare_self⟩
      · exact .inr h
    · rename_i hc
      rcases List.mem_cons.1 h with rfl | h
      · exact .inl ⟨rfl, hc⟩
      · exact .inr (List.mem_cons_of_mem _ h)
    · rcases List.mem_cons.1 h with rfl | h
      · exact .inr (by simp)
      · rcases ih h with h | h
        · exact .inl h
        · exact .inr (List.mem_cons_of_mem _ h)

theorem mem_removeL {k : K} {l : List (K × V)} {e : K × V} (h : e ∈ removeL k l) : e ∈ l := by
  induction l with
  | nil => simp [removeL] at h
  | cons a t ih =>
    obtain ⟨k', v'⟩ := a
    simp only [removeL] at h
    split at h
    · exact h
    · exact List.mem_cons_of_mem _ h
    · rcases List.mem_cons.1 h with rfl | h
      · simp
      · exact List.mem_cons_of_mem _ (ih h)

theorem sorted_insertL {k : K} {v : V} {l : List (K × V)} (hs : Sorted l) : Sorted (insertL k v l) := by
  induction l with
  | nil => simp [insertL, Sorted]
  | cons a t ih =>
    obtain ⟨k', v'⟩ := a
    have ⟨hh, ht⟩ := List.pairwise_cons.1 hs
    simp only [insertL]
    split
    · rename_i hc
      refine List.pairwise_cons.2 ⟨?_, hs⟩
      intro e he
      rcases List.mem_cons.1 he with rfl | he
      · exact hc
      · exact TransCmp.lt_trans hc (hh e he)
    · exact List.pairwise_cons.2 ⟨hh, ht⟩
    · rename_i hc
      refine List.pairwise_cons.2 ⟨?_, ih ht⟩
      intro e he
      rcases mem_insertL he with ⟨_, h⟩ | h
      · exact TransCmp.lt_of_lt_of_eq (OrientedCmp.lt_of_gt hc) h
      · exact hh e h

theorem sorted_removeL {k : K} {l : List (K × V)} (hs : Sorted l) : Sorted (removeL k l) := by
  induction l with
  | nil => simp [removeL, Sorted]
  | cons a t ih =>
    obtain ⟨k', v'⟩ := a
    have ⟨hh, ht⟩ := List.pairwise_cons.1 hs
    simp only [removeL]
    split
    · exact hs
    · exact ht
    · exact List.pairwise_cons.2 ⟨fun e he => hh e (mem_removeL he), ih ht⟩

theorem findL_insertL {k q : K} {v : V} {l : List (K × V)} (hs : Sorted l) :
    findL q (insertL k v l) = if compare q k = .eq then some v else findL q l := by
  induction l with
  | nil =>
    simp only [insertL, findL]
    split <;> rename_i h <;> simp [h]
  | cons a t ih =>
    obtain ⟨k', v'⟩ := a
    have ⟨hh, ht⟩ := List.pairwise_cons.1 hs
    have hs' := sorted_insertL (k := k) (v := v) hs
    simp only [insertL] at hs' ⊢
    split <;> rename_i hc
    · rw [hc] at hs'
      rw [findL_cons_sorted hs']
    · rw [hc] at hs'
      rw [findL_cons_sorted hs', findL_cons_sorted hs]
      rw [TransCmp.congr_right (cmp := compare) hc]
      split <;> rfl
    · rw [hc] at hs'
      rw [findL_cons_sorted hs', findL_cons_sorted hs, ih ht]
      by_cases h1 : compare q k' = .eq
      · have : compare q k ≠ .eq := by
          intro h2
          have := TransCmp.eq_trans (OrientedCmp.eq_symm h2) h1
          rw [hc] at this; cases this
        simp [h1, this]
      · simp [h1]

theorem findL_removeL {k q : K} {l : List (K × V)} (hs : Sorted l) :
    findL q (removeL k l) = if compare q k = .eq then none else findL q l := by
  induction l with
  | nil => simp [removeL, findL]
  | cons a t ih =>
    obtain ⟨k', v'⟩ := a
    have ⟨hh, ht⟩ := List.pairwise_cons.1 hs
    have hs' := sorted_removeL (k := k) hs
    simp only [removeL] at hs' ⊢
    split <;> rename_i hc
    · split
      · rename_i hq
        simp [findL, TransCmp.lt_of_eq_of_lt hq hc]
      · rfl
    · rw [findL_cons_sorted hs]
      rw [TransCmp.congr_right (cmp := compare) hc]
      split
      · rename_i hq
        exact findL_eq_none_of_lt fun e he => TransCmp.lt_of_eq_of_lt hq (hh e he)
      · rfl
    · rw [hc] at hs'
      rw [findL_cons_sorted hs', findL_cons_sorted hs, ih ht]
      by_cases h1 : compare q k' = .eq
      · have : compare q k ≠ .eq := by
          intro h2
          have := TransCmp.eq_trans (OrientedCmp.eq_symm h2) h1
          rw [hc] at this; cases this
        simp [h1, this]
      · simp [h1]

theorem findL_congr {q q' : K} (h : compare q q' = .eq) (l : List (K × V)) :
    findL q l = findL q' l := by
  induction l with
  | nil => rfl
  | cons a t ih =>
    obtain ⟨k', v'⟩ := a
    simp only [findL]
    rw [TransCmp.congr_left (cmp := compare) h, ih]

theorem mem_of_findL {q : K} {v : V} {l : List (K × V)} (h : findL q l = some v) :
    ∃ k, (k, v) ∈ l ∧ compare q k = .eq := by
  induction l with
  | nil => simp [findL] at h
  | cons a t ih =>
    obtain ⟨k', v'⟩ := a
    simp only [findL] at h
    split at h
    · cases h
    · rename_i hc
      cases h
      exact ⟨k', by simp, hc⟩
    · obtain ⟨k, hm, hc⟩ := ih h
      exact ⟨k, List.mem_cons_of_mem _ hm, hc⟩

theorem findL_of_mem {k : K} {v : V} {l : List (K × V)} (hs : Sorted l) (h : (k, v) ∈ l) :
    findL k l = some v := by
  induction l with
  | nil => cases h
  | cons a t ih =>
    obtain ⟨k', v'⟩ := a
    have ⟨hh, ht⟩ := List.pairwise_cons.1 hs
    rw [findL_cons_sorted hs]
    rcases List.mem_cons.1 h with h | h
    · cases h
      rw [if_pos ReflCmp.compare_self]
    · have := hh _ h
      have hne : compare k k' ≠ .eq := by
        intro he
        have he := OrientedCmp.eq_symm he
        simp only at this
        rw [this] at he; cases he
      rw [if_neg hne, ih ht h]

theorem insertL_of_lt_all {k : K} {v : V} {l : List (K × V)} (h : ∀ e ∈ l, compare k e.1 = .lt) :
    insertL k v l = (k, v) :: l := by
  cases l with
  | nil => rfl
  | cons a t => simp [insertL, h a (by simp)]

end Plotline.BTreeMap
