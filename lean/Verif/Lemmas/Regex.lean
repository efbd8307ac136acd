import Verif.Spec.Regex

/-! # Searching finds exactly what there is to find -/

namespace Plotline

theorem Re.Reads.le {text : List Char} {r : Re} {i j : Nat} (h : r.Reads text i j) : i ≤ j ∧ j ≤ text.length := by
  induction h with
  | empty i h => exact ⟨Nat.le_refl _, h⟩
  | char c i h => have := (List.getElem?_eq_some_iff.1 h).1; omega
  | any c i h => have := (List.getElem?_eq_some_iff.1 h).1; omega
  | inside l c i h => have := (List.getElem?_eq_some_iff.1 h).1; omega
  | outside l c i h => have := (List.getElem?_eq_some_iff.1 h).1; omega
  | start => omega
  | stop => omega
  | seq _ _ h1 h2 => omega
  | left _ _ h => exact h
  | right _ _ h => exact h
  | none a i h => exact ⟨Nat.le_refl _, h⟩
  | more _ _ h1 h2 => omega

theorem rounds_mono {f : List Char → List (List Char)} {n m : Nat} (h : n ≤ m) {s t : List Char} (ht : t ∈ rounds f n s) :
    t ∈ rounds f m s := by
  induction n generalizing m s with
  | zero =>
    simp only [rounds, List.mem_singleton] at ht
    subst ht
    cases m <;> simp [rounds]
  | succ n ih =>
    cases m with
    | zero => omega
    | succ m =>
      simp only [rounds, List.mem_cons, List.mem_flatMap] at ht ⊢
      rcases ht with ht | ⟨u, hu, ht⟩
      · exact .inl ht
      · exact .inr ⟨u, hu, ih (by omega) ht⟩

theorem drop_eq_of_length {s : List Char} {i j : Nat} (hi : i ≤ s.length) (hj : j ≤ s.length) (h : s.drop i = s.drop j) : i = j := by
  have := congrArg List.length h
  simp only [List.length_drop] at this
  omega

theorem mem_leaves (text : List Char) (r : Re) (i : Nat) (hi : i ≤ text.length) (t : List Char) :
    t ∈ r.leaves text.length (text.drop i) ↔ ∃ j, r.Reads text i j ∧ t = text.drop j := by
  induction r generalizing i t with
  | empty =>
    simp only [Re.leaves, List.mem_singleton]
    constructor
    · rintro rfl; exact ⟨i, .empty i hi, rfl⟩
    · rintro ⟨j, h, rfl⟩; cases h; rfl
  | char c =>
    simp only [Re.leaves]
    by_cases h : i < text.length
    · rw [List.drop_eq_getElem_cons h]
      by_cases hc : text[i] = c
      · simp only [hc, if_true, List.mem_singleton]
        constructor
        · rintro rfl; exact ⟨i + 1, .char c i (by rw [List.getElem?_eq_getElem h, hc]), rfl⟩
        · rintro ⟨j, h, rfl⟩; cases h; rfl
      · simp only [hc, if_false, List.not_mem_nil, false_iff]
        rintro ⟨j, hr, rfl⟩
        cases hr with
        | char _ _ h' => rw [List.getElem?_eq_getElem h] at h'; exact hc (Option.some.inj h')
    · rw [List.drop_eq_nil_of_le (by omega)]
      simp only [List.not_mem_nil, false_iff]
      rintro ⟨j, hr, rfl⟩
      cases hr with
      | char _ _ h' => exact h (List.getElem?_eq_some_iff.1 h').1
  | any =>
    simp only [Re.leaves]
    by_cases h : i < text.length
    · rw [List.drop_eq_getElem_cons h]
      by_cases hc : text[i] = '\n'
      · simp only [hc, if_true, List.not_mem_nil, false_iff]
        rintro ⟨j, hr, rfl⟩
        cases hr with
        | any c _ h' hn => rw [List.getElem?_eq_getElem h] at h'; exact hn ((Option.some.inj h').symm.trans hc)
      · simp only [hc, if_false, List.mem_singleton]
        constructor
        · rintro rfl; exact ⟨i + 1, .any _ i (List.getElem?_eq_getElem h) hc, rfl⟩
        · rintro ⟨j, h, rfl⟩; cases h; rfl
    · rw [List.drop_eq_nil_of_le (by omega)]
      simp only [List.not_mem_nil, false_iff]
      rintro ⟨j, hr, rfl⟩
      cases hr with
      | any c _ h' hn => exact h (List.getElem?_eq_some_iff.1 h').1
  | set neg l =>
    have hany : ∀ c, (l.any fun q => q.1 ≤ c && c ≤ q.2) = true ↔ InRanges l c := by
      intro c
      simp only [List.any_eq_true, Bool.and_eq_true, decide_eq_true_eq, InRanges]
      constructor
      · rintro ⟨⟨a, b⟩, h1, h2, h3⟩; exact ⟨a, b, h1, h2, h3⟩
      · rintro ⟨a, b, h1, h2, h3⟩; exact ⟨(a, b), h1, h2, h3⟩
    simp only [Re.leaves]
    by_cases h : i < text.length
    · rw [List.drop_eq_getElem_cons h]
      have key : ∀ j, (Re.set neg l).Reads text i j ↔ j = i + 1 ∧ (l.any fun q => q.1 ≤ text[i] && text[i] ≤ q.2) ≠ neg := by
        intro j
        constructor
        · intro hr
          cases hr with
          | inside _ c _ h' hc =>
            rw [List.getElem?_eq_getElem h] at h'; cases h'
            exact ⟨rfl, by rw [(hany _).2 hc]; simp⟩
          | outside _ c _ h' hc =>
            rw [List.getElem?_eq_getElem h] at h'; cases h'
            exact ⟨rfl, fun e => hc ((hany _).1 e)⟩
        · rintro ⟨rfl, hne⟩
          cases neg with
          | false => exact .inside l _ i (List.getElem?_eq_getElem h) ((hany _).1 (by simpa using hne))
          | true => exact .outside l _ i (List.getElem?_eq_getElem h) (fun hc => hne ((hany _).2 hc))
      simp only [key]
      split
      · rename_i e
        simp [e]
      · rename_i e
        simp only [List.mem_singleton]
        constructor
        · rintro rfl; exact ⟨i + 1, ⟨rfl, e⟩, rfl⟩
        · rintro ⟨j, ⟨rfl, _⟩, rfl⟩; rfl
    · rw [List.drop_eq_nil_of_le (by omega)]
      simp only [List.not_mem_nil, false_iff]
      rintro ⟨j, hr, rfl⟩
      cases hr with
      | inside _ _ _ h' => exact h (List.getElem?_eq_some_iff.1 h').1
      | outside _ _ _ h' => exact h (List.getElem?_eq_some_iff.1 h').1
  | start =>
    simp only [Re.leaves, List.length_drop]
    split
    · simp only [List.mem_singleton]
      constructor
      · rintro rfl
        have : i = 0 ∨ text.length = 0 := by omega
        rcases this with rfl | h
        · exact ⟨0, .start, rfl⟩
        · obtain rfl : i = 0 := by omega
          exact ⟨0, .start, rfl⟩
      · rintro ⟨j, h, rfl⟩; cases h; rfl
    · rename_i hne
      simp only [List.not_mem_nil, false_iff]
      rintro ⟨j, h, rfl⟩
      cases h
      exact hne (by omega)
  | stop =>
    simp only [Re.leaves, List.drop_eq_nil_iff]
    split
    · obtain rfl : i = text.length := by omega
      simp only [List.mem_singleton]
      constructor
      · rintro rfl; exact ⟨_, .stop, rfl⟩
      · rintro ⟨j, h, rfl⟩; cases h; rfl
    · rename_i hne
      simp only [List.not_mem_nil, false_iff]
      rintro ⟨j, h, rfl⟩
      cases h
      exact hne (Nat.le_refl _)
  | seq a b iha ihb =>
    simp only [Re.leaves, List.mem_flatMap]
    constructor
    · rintro ⟨u, hu, ht⟩
      obtain ⟨j, hj, rfl⟩ := (iha i hi u).1 hu
      obtain ⟨k, hk, rfl⟩ := (ihb j hj.le.2 t).1 ht
      exact ⟨k, .seq hj hk, rfl⟩
    · rintro ⟨k, h, rfl⟩
      cases h with
      | seq h1 h2 => exact ⟨_, (iha i hi _).2 ⟨_, h1, rfl⟩, (ihb _ h1.le.2 _).2 ⟨_, h2, rfl⟩⟩
  | alt a b iha ihb =>
    simp only [Re.leaves, List.mem_append]
    constructor
    · rintro (h | h)
      · obtain ⟨j, hj, rfl⟩ := (iha i hi t).1 h; exact ⟨j, .left b hj, rfl⟩
      · obtain ⟨j, hj, rfl⟩ := (ihb i hi t).1 h; exact ⟨j, .right a hj, rfl⟩
    · rintro ⟨j, h, rfl⟩
      cases h with
      | left _ h => exact .inl ((iha i hi _).2 ⟨_, h, rfl⟩)
      | right _ h => exact .inr ((ihb i hi _).2 ⟨_, h, rfl⟩)
  | star a ih =>
    simp only [Re.leaves]
    constructor
    · have : ∀ n i, i ≤ text.length → ∀ t, t ∈ rounds (a.leaves text.length) n (text.drop i) →
          ∃ j, (Re.star a).Reads text i j ∧ t = text.drop j := by
        intro n
        induction n with
        | zero =>
          intro i hi t ht
          simp only [rounds, List.mem_singleton] at ht
          exact ⟨i, .none a i hi, ht⟩
        | succ n ihn =>
          intro i hi t ht
          simp only [rounds, List.mem_cons, List.mem_flatMap, List.mem_filter] at ht
          rcases ht with rfl | ⟨u, ⟨hu, _⟩, ht⟩
          · exact ⟨i, .none a i hi, rfl⟩
          · obtain ⟨j, hj, rfl⟩ := (ih i hi u).1 hu
            obtain ⟨k, hk, rfl⟩ := ihn j hj.le.2 t ht
            exact ⟨k, .more hj hk, rfl⟩
      exact this _ i hi t
    · rintro ⟨j, h, rfl⟩
      have : ∀ r i j, Re.Reads text r i j → r = .star a →
          text.drop j ∈ rounds (a.leaves text.length) (text.drop i).length (text.drop i) := by
        intro r i j h
        induction h with
        | none a i hi =>
          intro _
          cases (text.drop i).length <;> simp [rounds]
        | @more b i j k h1 h2 _ ih2 =>
          intro hr
          cases hr
          have hk := ih2 rfl
          by_cases hij : j = i
          · subst hij; exact hk
          · have hle := h1.le
            have hl : (text.drop i).length = (text.length - i - 1) + 1 := by simp only [List.length_drop]; omega
            rw [hl]
            simp only [rounds, List.mem_cons, List.mem_flatMap, List.mem_filter]
            refine .inr ⟨text.drop j, ⟨(ih i (by omega) _).2 ⟨j, h1, rfl⟩, ?_⟩, ?_⟩
            · simp only [List.length_drop, decide_eq_true_eq]; omega
            · exact rounds_mono (by simp only [List.length_drop]; omega) hk
        | _ => intro hr; cases hr
      exact this _ i j h rfl

theorem mem_tails (s t : List Char) : t ∈ tails s ↔ ∃ i, i ≤ s.length ∧ t = s.drop i := by
  induction s generalizing t with
  | nil =>
    simp only [tails, List.mem_singleton]
    constructor
    · rintro rfl; exact ⟨0, Nat.le_refl _, rfl⟩
    · rintro ⟨i, _, rfl⟩; simp
  | cons c s ih =>
    simp only [tails, List.mem_cons, ih]
    constructor
    · rintro (rfl | ⟨i, h, rfl⟩)
      · exact ⟨0, Nat.zero_le _, rfl⟩
      · exact ⟨i + 1, Nat.succ_le_succ h, rfl⟩
    · rintro ⟨_ | i, h, rfl⟩
      · exact .inl rfl
      · exact .inr ⟨i, Nat.le_of_succ_le_succ h, rfl⟩

/-- The search is right about every expression and text. -/
theorem isMatch_iff (r : Re) (text : List Char) : r.isMatch text = true ↔ r.Finds text := by
  unfold Re.isMatch Re.Finds
  simp only [List.any_eq_true, Bool.not_eq_true', List.isEmpty_eq_false_iff, mem_tails]
  constructor
  · rintro ⟨t, ⟨i, hi, rfl⟩, hne⟩
    obtain ⟨u, hu⟩ := List.exists_mem_of_ne_nil _ hne
    obtain ⟨j, hj, _⟩ := (mem_leaves text r i hi u).1 hu
    exact ⟨i, j, hj⟩
  · rintro ⟨i, j, h⟩
    have hi : i ≤ text.length := Nat.le_trans h.le.1 h.le.2
    exact ⟨_, ⟨i, hi, rfl⟩, List.ne_nil_of_mem ((mem_leaves text r i hi _).2 ⟨j, h, rfl⟩)⟩

end Plotline
