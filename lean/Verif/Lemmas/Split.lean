import Verif.Spec.Split
import Verif.Lemmas.Interval

/-! # The tree that insertions make, as a function of their list -/

namespace Plotline

open Std Interval ITree

section
variable {I B : Type} [Ord B] [Interval I B]

/-- The maximum a node has after insertions through it. -/
def maxOf (m : B) (is : List I) : B := is.foldl (fun m i => if ltB m (hi i) then hi i else m) m

theorem insert_foldl (v : I) : ∀ (is : List I) (m : B) (l r : ITree I B),
    is.foldl (fun (t : ITree I B) i => t.insert i) (ITree.node v m l r) =
      ITree.node v (maxOf m is) ((sooner v is).foldl (fun (t : ITree I B) i => t.insert i) l)
        ((later v is).foldl (fun (t : ITree I B) i => t.insert i) r) := by
  intro is
  induction is with
  | nil => intros; rfl
  | cons i is ih =>
    intro m l r
    rw [List.foldl_cons, ITree.insert]
    cases h : ltB (lo i) (lo v)
    · have h1 : sooner v (i :: is) = sooner v is := List.filter_cons_of_neg (by simp [h])
      have h2 : later v (i :: is) = i :: later v is := List.filter_cons_of_pos (by simp [h])
      rw [h1, h2]
      simp only [Bool.false_eq_true, if_false]
      rw [ih]
      rfl
    · have h1 : sooner v (i :: is) = i :: sooner v is := List.filter_cons_of_pos (by simp [h])
      have h2 : later v (i :: is) = later v is := List.filter_cons_of_neg (by simp [h])
      rw [h1, h2]
      simp only [if_true]
      rw [ih]
      rfl

theorem insertAll_cons (v : I) (is : List I) :
    (insertAll (v :: is) : ITree I B) = .node v (maxOf (hi v) is) (insertAll (sooner v is)) (insertAll (later v is)) :=
  insert_foldl v is (hi v) .nil .nil

end

section
variable {I B : Type} [Ord B] [TransOrd B] [Interval I B]

theorem maxOf_lt (b : B) : ∀ (is : List I) (m : B), ltB (maxOf m is) b = (ltB m b && is.all fun x => ltB (hi x) b) := by
  intro is
  induction is with
  | nil => intro m; simp [maxOf]
  | cons i is ih =>
    intro m
    have : maxOf m (i :: is) = maxOf (if ltB m (hi i) then hi i else m) is := rfl
    rw [this, ih, List.all_cons, ← Bool.and_assoc]
    congr 1
    cases h : ltB m (hi i)
    · simp only [Bool.false_eq_true, if_false]
      cases hm : ltB m b
      · rfl
      · have : ltB (hi i) b = true := ltB_iff.2 (LeB.trans_lt (ltB_false.1 h) (ltB_iff.1 hm))
        simp [this]
    · simp only [if_true]
      cases hm : ltB (hi i) b
      · simp
      · have : ltB m b = true := ltB_iff.2 ((ltB_iff.1 h).trans_le (ltB_iff.1 hm).le)
        simp [this]

/-- What the query compares with its low bound. -/
theorem max_insertAll (q : I) (is : List I) :
    (match (insertAll is : ITree I B).max? with
      | none => true
      | some m => ltB m (lo q)) = !(is.any fun x => leB (lo q) (hi x)) := by
  cases is with
  | nil => rfl
  | cons v is =>
    rw [insertAll_cons]
    simp only [max?]
    rw [maxOf_lt, List.any_cons, Bool.not_or, List.not_any_eq_all_not]
    have e : ∀ x : I, ltB (hi x) (lo q) = !leB (lo q) (hi x) := fun x => by
      cases h : ltB (hi x) (lo q)
      · rw [leB_iff.2 (ltB_false.1 h)]; rfl
      · cases h' : leB (lo q) (hi x)
        · rfl
        · exact absurd (leB_iff.1 h') (ltB_iff.1 h).not_le
    simp only [e]

theorem forEach_insertAll (q : I) : ∀ (n : Nat) (is : List I), is.length ≤ n → (insertAll is : ITree I B).forEach q = reported q is := by
  intro n
  induction n with
  | zero =>
    intro is h
    cases is with
    | nil => simp [insertAll, forEach, reported]
    | cons => simp at h
  | succ n ih =>
    intro is h
    cases is with
    | nil => simp [insertAll, forEach, reported]
    | cons v is =>
      have h := Nat.le_of_succ_le_succ h
      have hs := ih (sooner v is) (Nat.le_trans (List.length_filter_le _ _) h)
      have hl := ih (later v is) (Nat.le_trans (List.length_filter_le _ _) h)
      rw [insertAll_cons, forEach, reported, hl]
      congr 1
      have hm := max_insertAll q (sooner v is)
      cases hx : (insertAll (sooner v is) : ITree I B).max? with
      | none =>
        rw [hx] at hm
        simp only at hm ⊢
        rw [if_neg (by simpa using hm)]
      | some m =>
        rw [hx] at hm
        simp only at hm ⊢
        rw [hm, hs]
        cases (sooner v is).any fun x => leB (lo q) (hi x) <;> rfl

theorem intersects_insertAll (q : I) : ∀ (n : Nat) (is : List I), is.length ≤ n → (insertAll is : ITree I B).intersects q = foundIn q is := by
  intro n
  induction n with
  | zero =>
    intro is h
    cases is with
    | nil => simp [insertAll, ITree.intersects, foundIn]
    | cons => simp at h
  | succ n ih =>
    intro is h
    cases is with
    | nil => simp [insertAll, ITree.intersects, foundIn]
    | cons v is =>
      have h := Nat.le_of_succ_le_succ h
      have hs := ih (sooner v is) (Nat.le_trans (List.length_filter_le _ _) h)
      have hl := ih (later v is) (Nat.le_trans (List.length_filter_le _ _) h)
      rw [insertAll_cons, ITree.intersects, foundIn]
      cases Plotline.intersects v q
      · simp only [Bool.false_eq_true, if_false, Bool.false_or]
        have hm := max_insertAll q (sooner v is)
        cases hx : (insertAll (sooner v is) : ITree I B).max? with
        | none =>
          rw [hx] at hm
          simp only at hm ⊢
          rw [if_neg (by simpa using hm), hl]
        | some m =>
          rw [hx] at hm
          simp only at hm ⊢
          rw [hm, hs, hl]
          cases (sooner v is).any fun x => leB (lo q) (hi x) <;> rfl
      · simp

end

end Plotline
