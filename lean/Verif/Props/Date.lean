import Verif.Model.Date
import Verif.Lemmas.Interval

/-! # Properties C49, C50 and C58: dates -/

namespace Plotline

open Std

set_option linter.unusedSectionVars false

section
variable {T : Type} [Ord T] [TransOrd T]

/-! ## Lemmas about the loop -/

theorem cmpLoop_cons (p : T × T) (l : List (T × T)) :
    cmpLoop (p :: l) = if compare p.1 p.2 = .eq then cmpLoop l else compare p.1 p.2 := by
  simp only [cmpLoop]
  cases h : compare p.1 p.2 <;> simp

theorem cmpLoop_swap (l : List (T × T)) : cmpLoop (l.map Prod.swap) = (cmpLoop l).swap := by
  induction l with
  | nil => rfl
  | cons p l ih =>
    rw [List.map_cons, cmpLoop_cons, cmpLoop_cons, ih]
    simp only [Prod.fst_swap, Prod.snd_swap]
    rw [OrientedOrd.eq_swap (a := p.2) (b := p.1)]
    cases compare p.1 p.2 <;> simp

/-- The loop finds the first pair whose order is not `Equal`. -/
theorem cmpLoop_spec (l : List (T × T)) (o : Ordering) (ho : o ≠ .eq) :
    cmpLoop l = o ↔ ∃ i : Nat, (∃ p, l[i]? = some p ∧ compare p.1 p.2 = o) ∧
      ∀ j : Nat, j < i → ∀ p, l[j]? = some p → compare p.1 p.2 = .eq := by
  induction l with
  | nil => simp [cmpLoop, ho.symm]
  | cons p l ih =>
    rw [cmpLoop_cons]
    by_cases e : compare p.1 p.2 = .eq
    · rw [if_pos e, ih]
      constructor
      · rintro ⟨i, h1, h2⟩
        refine ⟨i + 1, h1, fun j hj q hq => ?_⟩
        cases j with
        | zero => cases hq; exact e
        | succ j => exact h2 j (by omega) q hq
      · rintro ⟨i, ⟨q, hq, hc⟩, h2⟩
        cases i with
        | zero => cases hq; rw [e] at hc; exact absurd hc.symm ho
        | succ i => exact ⟨i, ⟨q, hq, hc⟩, fun j hj r hr => h2 (j + 1) (by omega) r hr⟩
    · rw [if_neg e]
      constructor
      · intro h
        exact ⟨0, ⟨p, rfl, h⟩, by omega⟩
      · rintro ⟨i, ⟨q, hq, hc⟩, h2⟩
        cases i with
        | zero => cases hq; exact hc
        | succ i => exact absurd (h2 0 (by omega) p rfl) e

theorem cmpLoop_eq (l : List (T × T)) : cmpLoop l = .eq ↔ ∀ p ∈ l, compare p.1 p.2 = .eq := by
  induction l with
  | nil => simp [cmpLoop]
  | cons p l ih =>
    rw [cmpLoop_cons]
    by_cases e : compare p.1 p.2 = .eq
    · simp [e, ih]
    · simp [e]

theorem cmpLoop_trans (a b c : List T) (h1 : a.length = b.length) (h2 : b.length = c.length)
    (hab : (cmpLoop (a.zip b)).isLE = true) (hbc : (cmpLoop (b.zip c)).isLE = true) :
    (cmpLoop (a.zip c)).isLE = true := by
  induction a generalizing b c with
  | nil => rfl
  | cons x a ih =>
    cases b with
    | nil => simp at h1
    | cons y b =>
      cases c with
      | nil => simp at h2
      | cons z c =>
        simp only [List.zip_cons_cons, cmpLoop_cons] at hab hbc ⊢
        have l1 : LeB x y := by
          unfold LeB
          by_cases e : compare x y = .eq
          · rw [e]; rfl
          · rw [if_neg e] at hab; exact hab
        have l2 : LeB y z := by
          unfold LeB
          by_cases e : compare y z = .eq
          · rw [e]; rfl
          · rw [if_neg e] at hbc; exact hbc
        by_cases e : compare x z = .eq
        · rw [if_pos e]
          have exy : compare x y = .eq := by
            cases hc : compare x y with
            | eq => rfl
            | lt => exact absurd (LeB.trans l2 (leB_of_eq' e)) (LtB.not_le hc)
            | gt => unfold LeB at l1; rw [hc] at l1; cases l1
          have eyz : compare y z = .eq := by
            cases hc : compare y z with
            | eq => rfl
            | lt => exact absurd (LeB.trans (leB_of_eq' e) l1) (LtB.not_le hc)
            | gt => unfold LeB at l2; rw [hc] at l2; cases l2
          rw [if_pos exy] at hab
          rw [if_pos eyz] at hbc
          exact ih b c (by simpa using h1) (by simpa using h2) hab hbc
        · rw [if_neg e]
          exact LeB.trans l1 l2

theorem zip_reverse_eq {α β : Type} (a : List α) (b : List β) (h : a.length = b.length) :
    (a.zip b).reverse = a.reverse.zip b.reverse := by
  induction a generalizing b with
  | nil => cases b <;> simp at h ⊢
  | cons x a ih =>
    cases b with
    | nil => simp at h
    | cons y b =>
      have h' : a.length = b.length := by simpa using h
      rw [List.zip_cons_cons, List.reverse_cons, List.reverse_cons, List.reverse_cons, ih b h',
        List.zip_append (by simpa using h')]
      rfl

theorem zip_swap_eq {α : Type} (a b : List α) : (a.zip b).map Prod.swap = b.zip a := by
  induction a generalizing b with
  | nil => cases b <;> rfl
  | cons x a ih =>
    cases b with
    | nil => rfl
    | cons y b => simp [ih b]

end

/-! ## C49 -/

section
variable {n : Nat} {T : Type} [Ord T] [TransOrd T]

theorem le_cmp (a b : LittleEndianDate n T) :
    compare a b = cmpLoop (a.components.toList.reverse.zip b.components.toList.reverse) :=
  congrArg cmpLoop (zip_reverse_eq _ _ (by simp))

theorem be_cmp (a b : BigEndianDate n T) : compare a b = cmpLoop (a.components.toList.zip b.components.toList) := rfl

/-- C49: little-endian dates are totally ordered: comparing the other way round gives the opposite, and `<=` is transitive.
(`TransOrd` includes reflexivity and antisymmetry.) -/
theorem C49_little_endian_total : TransOrd (LittleEndianDate n T) where
  eq_swap {a b} := by
    rw [le_cmp, le_cmp, ← cmpLoop_swap, zip_swap_eq]
  isLE_trans {a b c} h1 h2 := by
    rw [le_cmp] at h1 h2 ⊢
    exact cmpLoop_trans _ _ _ (by simp) (by simp) h1 h2

/-- C49: big-endian dates are totally ordered. -/
theorem C49_big_endian_total : TransOrd (BigEndianDate n T) where
  eq_swap {a b} := by
    rw [be_cmp, be_cmp, ← cmpLoop_swap, zip_swap_eq]
  isLE_trans {a b c} h1 h2 := by
    rw [be_cmp] at h1 h2 ⊢
    exact cmpLoop_trans _ _ _ (by simp) (by simp) h1 h2

theorem all_eq_iff [BEq T] [LawfulBEqOrd T] (a b : List T) (h : a.length = b.length) :
    (∀ p ∈ a.zip b, compare p.1 p.2 = .eq) ↔ (a == b) = true := by
  induction a generalizing b with
  | nil => cases b <;> simp at h ⊢
  | cons x a ih =>
    cases b with
    | nil => simp at h
    | cons y b =>
      simp only [List.zip_cons_cons, List.mem_cons, forall_eq_or_imp, List.cons_beq_cons, Bool.and_eq_true]
      rw [ih b (by simpa using h), LawfulBEqOrd.compare_eq_iff_beq]

/-- C49: `cmp` is `Equal` exactly on dates that are `==`. -/
theorem C49_consistent_with_eq [BEq T] [LawfulBEqOrd T] :
    (∀ a b : LittleEndianDate n T, compare a b = .eq ↔ (a == b) = true) ∧
    (∀ a b : BigEndianDate n T, compare a b = .eq ↔ (a == b) = true) := by
  constructor
  · intro a b
    show cmpLoop (List.zip _ _).reverse = .eq ↔ _
    rw [cmpLoop_eq]
    simp only [List.mem_reverse]
    exact all_eq_iff _ _ (by simp)
  · intro a b
    rw [be_cmp, cmpLoop_eq]
    exact all_eq_iff _ _ (by simp)

/-! ## C50 -/

theorem zip_get (a b : Vector T n) (i : Nat) (p : T × T) :
    (a.toList.zip b.toList)[i]? = some p ↔ ∃ h : i < n, p = (a[i], b[i]) := by
  rw [List.getElem?_eq_some_iff]
  constructor
  · rintro ⟨h, rfl⟩
    refine ⟨by simpa using h, ?_⟩
    simp
  · rintro ⟨h, rfl⟩
    refine ⟨by simpa using h, ?_⟩
    simp

/-- C50: big-endian dates compare by the first differing component. -/
theorem C50_big_endian (a b : BigEndianDate n T) (o : Ordering) (ho : o ≠ .eq) :
    compare a b = o ↔ ∃ (i : Nat) (h : i < n), compare a.components[i] b.components[i] = o ∧
      ∀ (j : Nat) (_ : j < i), compare a.components[j] b.components[j] = .eq := by
  rw [be_cmp, cmpLoop_spec _ _ ho]
  constructor
  · rintro ⟨i, ⟨p, hp, hc⟩, h2⟩
    obtain ⟨h, rfl⟩ := (zip_get _ _ i p).1 hp
    exact ⟨i, h, hc, fun j hj => h2 j hj _ ((zip_get _ _ j _).2 ⟨by omega, rfl⟩)⟩
  · rintro ⟨i, h, hc, h2⟩
    refine ⟨i, ⟨_, (zip_get _ _ i _).2 ⟨h, rfl⟩, hc⟩, fun j hj p hp => ?_⟩
    obtain ⟨_, rfl⟩ := (zip_get _ _ j p).1 hp
    exact h2 j hj

/-- C50: little-endian dates compare by the last differing component. -/
theorem C50_little_endian (a b : LittleEndianDate n T) (o : Ordering) (ho : o ≠ .eq) :
    compare a b = o ↔ ∃ (i : Nat) (h : i < n), compare a.components[i] b.components[i] = o ∧
      ∀ (j : Nat) (_ : i < j) (hn : j < n), compare a.components[j] b.components[j] = .eq := by
  show cmpLoop (List.zip _ _).reverse = o ↔ _
  rw [cmpLoop_spec _ _ ho]
  have hlen : (a.components.toList.zip b.components.toList).length = n := by simp
  constructor
  · rintro ⟨i, ⟨p, hp, hc⟩, h2⟩
    have hi : i < n := by
      have := (List.getElem?_eq_some_iff.1 hp).1
      simpa using this
    rw [List.getElem?_reverse (by omega), hlen] at hp
    obtain ⟨h, rfl⟩ := (zip_get _ _ _ p).1 hp
    refine ⟨n - 1 - i, h, hc, fun j hj hn => ?_⟩
    refine h2 (n - 1 - j) (by omega) (a.components[j], b.components[j]) ?_
    rw [List.getElem?_reverse (by omega), hlen, show n - 1 - (n - 1 - j) = j by omega]
    exact (zip_get _ _ j _).2 ⟨hn, rfl⟩
  · rintro ⟨i, h, hc, h2⟩
    refine ⟨n - 1 - i, ⟨(a.components[i], b.components[i]), ?_, hc⟩, fun j hj p hp => ?_⟩
    · rw [List.getElem?_reverse (by omega), hlen, show n - 1 - (n - 1 - i) = i by omega]
      exact (zip_get _ _ i _).2 ⟨h, rfl⟩
    · rw [List.getElem?_reverse (by omega), hlen] at hp
      obtain ⟨hj', rfl⟩ := (zip_get _ _ _ p).1 hp
      exact h2 (n - 1 - j) (by omega) hj'

/-- C50: reversing the components of one encoding gives the order of the other. -/
theorem C50_reversal (a b : Vector T n) :
    compare (LittleEndianDate.mk a) (LittleEndianDate.mk b) =
      compare (BigEndianDate.mk a.reverse) (BigEndianDate.mk b.reverse) := by
  rw [le_cmp, be_cmp]
  simp

/-! ## C58 -/

/-- C58: as intervals, dates intersect exactly when they are equal. -/
theorem C58_dates_are_points [BEq T] [LawfulBEqOrd T] :
    (∀ a b : LittleEndianDate n T, Proper a ∧ (intersects a b = (a == b))) ∧
    (∀ a b : BigEndianDate n T, Proper a ∧ (intersects a b = (a == b))) := by
  have key : ∀ (D : Type) [Ord D] [TransOrd D] [BEq D] (inst : Interval D D), inst.lo = id → inst.hi = id →
      (∀ a b : D, compare a b = .eq ↔ (a == b) = true) → ∀ a b : D, Proper a ∧ (intersects a b = (a == b)) := by
    intro D _ _ _ inst hlo hhi heq a b
    have hp : ∀ a : D, Proper a := by
      intro a; unfold Proper; rw [hlo, hhi]; exact LeB.refl a
    refine ⟨hp a, ?_⟩
    rw [Bool.eq_iff_iff, intersects_overlap (hp a) (hp b), overlap_iff (hp a) (hp b), ← heq, hlo, hhi]
    constructor
    · rintro ⟨h1, h2⟩
      cases hc : compare a b with
      | eq => rfl
      | lt => exact absurd h2 (LtB.not_le hc)
      | gt =>
        have h1 : LeB a b := h1
        unfold LeB at h1; rw [hc] at h1; cases h1
    · intro h; exact ⟨leB_of_eq h, leB_of_eq' h⟩
  have := C49_little_endian_total (n := n) (T := T)
  have := C49_big_endian_total (n := n) (T := T)
  exact ⟨key _ _ rfl rfl C49_consistent_with_eq.1, key _ _ rfl rfl C49_consistent_with_eq.2⟩

end

/-! Examples: 2024-03-01 and 2024-02-28 in both encodings. -/

example : compare (BigEndianDate.mk #v[2024, 3, 1]) (BigEndianDate.mk #v[2024, 2, 28]) = .gt := by decide
example : compare (LittleEndianDate.mk #v[1, 3, 2024]) (LittleEndianDate.mk #v[28, 2, 2024]) = .gt := by decide
example : compare (LittleEndianDate.mk #v[1, 2, 2024]) (LittleEndianDate.mk #v[28, 2, 2024]) = .lt := by decide

end Plotline
