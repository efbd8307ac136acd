import Verif.Spec.OsNames
import Verif.Lemmas.OsNames

/-! # Text put for bytes -/

namespace Plotline

open Std

theorem bytesOf_one (c : Char) : bytesOf [c] = charBytes c := by simp [bytesOf, charBytes]

/-- What of a character is there after its first byte. -/
theorem begins_one {a : Char} (h : 0x80 ≤ a.toNat) : Begins [a] ↔ 0xC2 ≤ a.toNat ∧ a.toNat ≤ 0xF4 := by
  constructor
  · rintro ⟨c, hc⟩
    have hv := char_valid c
    rw [bytesOf_one] at hc
    rcases charBytes_cases c with
      ⟨h1, h2⟩ | ⟨h0, h1, x, y, h2, h3, h4⟩ | ⟨h0, h1, x, y, z, h2, h3, h4, h5⟩ | ⟨h1, x, y, z, w, h2, h3, h4, h5, h6⟩ <;>
      rw [h2] at hc <;> simp only [List.cons_prefix_cons, List.nil_prefix, and_true] at hc <;> subst hc <;> omega
  · intro h
    rcases Nat.lt_or_ge a.toNat 0xE0 with h1 | h1
    · have := charBytes_two (a := a) (within_iff.2 (by omega)) (show follows (Char.ofNat 0x80) = true by decide)
      exact ⟨_, by rw [bytesOf_one, this]; exact ⟨_, rfl⟩⟩
    rcases Nat.lt_or_ge a.toNat 0xF0 with h2 | h2
    · have hb : second a (Char.ofNat (if a.toNat = 0xED then 0x80 else 0xBF)) = true := by
        rw [second_iff]; split <;> rw [toNat_ofNat (by omega)] <;> omega
      have := charBytes_three (within_iff.2 (by omega)) hb (show follows (Char.ofNat 0x80) = true by decide)
      exact ⟨_, by rw [bytesOf_one, this]; exact ⟨_, rfl⟩⟩
    · have hb : second a (Char.ofNat (if a.toNat = 0xF4 then 0x80 else 0xBF)) = true := by
        rw [second_iff]; split <;> rw [toNat_ofNat (by omega)] <;> omega
      have := charBytes_four (within_iff.2 (by omega)) hb (show follows (Char.ofNat 0x80) = true by decide)
        (show follows (Char.ofNat 0x80) = true by decide)
      exact ⟨_, by rw [bytesOf_one, this]; exact ⟨_, rfl⟩⟩

theorem begins_two {a b : Char} : Begins [a, b] ↔
    (within 0xC2 0xDF a = true ∧ follows b = true) ∨ ((within 0xE0 0xEF a = true ∨ within 0xF0 0xF4 a = true) ∧ second a b = true) := by
  constructor
  · rintro ⟨c, hc⟩
    have hv := char_valid c
    rw [bytesOf_one] at hc
    simp only [within_iff, follows_iff, second_iff]
    rcases charBytes_cases c with
      ⟨h1, h2⟩ | ⟨h0, h1, x, y, h2, h3, h4⟩ | ⟨h0, h1, x, y, z, h2, h3, h4, h5⟩ | ⟨h1, x, y, z, w, h2, h3, h4, h5, h6⟩ <;>
      rw [h2] at hc <;> simp only [List.cons_prefix_cons, List.nil_prefix, and_true, List.prefix_nil, reduceCtorEq, and_false] at hc <;>
      obtain ⟨rfl, rfl⟩ := hc <;> omega
  · rintro (⟨ha, hb⟩ | ⟨ha | ha, hb⟩)
    · exact ⟨_, by rw [bytesOf_one, charBytes_two ha hb]; exact List.prefix_rfl⟩
    · exact ⟨_, by rw [bytesOf_one, charBytes_three ha hb (show follows (Char.ofNat 0x80) = true by decide)]; exact ⟨_, rfl⟩⟩
    · exact ⟨_, by rw [bytesOf_one, charBytes_four ha hb (show follows (Char.ofNat 0x80) = true by decide)
        (show follows (Char.ofNat 0x80) = true by decide)]; exact ⟨_, rfl⟩⟩

theorem begins_three {a b c : Char} : Begins [a, b, c] ↔
    (within 0xE0 0xEF a = true ∨ within 0xF0 0xF4 a = true) ∧ second a b = true ∧ follows c = true := by
  constructor
  · rintro ⟨d, hc⟩
    have hv := char_valid d
    rw [bytesOf_one] at hc
    simp only [within_iff, follows_iff, second_iff]
    rcases charBytes_cases d with
      ⟨h1, h2⟩ | ⟨h0, h1, x, y, h2, h3, h4⟩ | ⟨h0, h1, x, y, z, h2, h3, h4, h5⟩ | ⟨h1, x, y, z, w, h2, h3, h4, h5, h6⟩ <;>
      rw [h2] at hc <;> simp only [List.cons_prefix_cons, List.nil_prefix, and_true, List.prefix_nil, reduceCtorEq, and_false] at hc <;>
      obtain ⟨rfl, rfl, rfl⟩ := hc <;> omega
  · rintro ⟨ha | ha, hb, hc⟩
    · exact ⟨_, by rw [bytesOf_one, charBytes_three ha hb hc]; exact List.prefix_rfl⟩
    · exact ⟨_, by rw [bytesOf_one, charBytes_four ha hb hc (show follows (Char.ofNat 0x80) = true by decide)]; exact ⟨_, rfl⟩⟩

theorem begins_four {a b c d : Char} : Begins [a, b, c, d] ↔
    within 0xF0 0xF4 a = true ∧ second a b = true ∧ follows c = true ∧ follows d = true := by
  constructor
  · rintro ⟨e, hc⟩
    have hv := char_valid e
    rw [bytesOf_one] at hc
    simp only [within_iff, follows_iff, second_iff]
    rcases charBytes_cases e with
      ⟨h1, h2⟩ | ⟨h0, h1, x, y, h2, h3, h4⟩ | ⟨h0, h1, x, y, z, h2, h3, h4, h5⟩ | ⟨h1, x, y, z, w, h2, h3, h4, h5, h6⟩ <;>
      rw [h2] at hc <;> simp only [List.cons_prefix_cons, List.nil_prefix, and_true, List.prefix_nil, reduceCtorEq, and_false] at hc <;>
      obtain ⟨rfl, rfl, rfl, rfl⟩ := hc <;> omega
  · rintro ⟨ha, hb, hc, hd⟩
    exact ⟨_, by rw [bytesOf_one, charBytes_four ha hb hc hd]; exact List.prefix_rfl⟩

theorem begins_prefix {x y : Name} (h : Begins (x ++ y)) : Begins x := by
  obtain ⟨c, hc⟩ := h
  exact ⟨c, (List.prefix_append x y).trans hc⟩

theorem head?_some {t : Name} {b : Char} (h : t.head? = some b) : ∃ t', t = b :: t' := by
  cases t with
  | nil => cases h
  | cons c t => cases h; exact ⟨t, rfl⟩

/-- What is given up is what has to be. -/
theorem firstChunk_givenUp {a : Char} {t x : Name} (h : (firstChunk a t).1 = .bad x) : GivenUp x (firstChunk a t).2 := by
  have hall : x ++ (firstChunk a t).2 = a :: t := by
    have := firstChunk_bytes a t
    rwa [h] at this
  have hne : x ≠ [] := by
    have := firstChunk_ne_nil a t
    rwa [h] at this
  refine ⟨fun c hc => ?_, hne, ?_, ?_⟩
  · rw [hall, bytesOf_one] at hc
    obtain ⟨r, hr⟩ := hc
    have := chunks_char c r
    rw [hr, chunks_cons] at this
    simp only [List.cons.injEq] at this
    rw [h] at this
    cases this.1
  all_goals
    clear hall hne
    revert h
    unfold firstChunk
    split
    · intro h; cases h
    rename_i ha0
    split
    · rename_i ha
      cases t with
      | nil => intro h; cases h; simp
      | cons b t =>
        dsimp only
        split
        · intro h; cases h
        · rename_i hb
          intro h; cases h
          first
          | (intro h; simp at h; done)
          | (intro d hd
             simp only [List.head?_cons, Option.some.injEq] at hd
             subst hd
             rw [List.singleton_append, begins_two, within_iff, within_iff, within_iff]
             rw [within_iff] at ha
             rintro (⟨_, h2⟩ | ⟨_, _⟩)
             · exact hb h2
             · omega)
    rename_i ha1
    split
    · rename_i ha
      cases t with
      | nil => intro h; cases h; simp
      | cons b t =>
        dsimp only
        split
        · rename_i hb
          cases t with
          | nil =>
            intro h; cases h
            first
            | exact fun _ => begins_two.2 (.inr ⟨.inl ha, hb⟩)
            | simp
          | cons c t =>
            dsimp only
            split
            · intro h; cases h
            · rename_i hc
              intro h; cases h
              first
              | exact fun _ => begins_two.2 (.inr ⟨.inl ha, hb⟩)
              | (intro d hd
                 simp only [List.head?_cons, Option.some.injEq] at hd
                 subst hd
                 rintro hbe
                 exact hc (begins_three.1 hbe).2.2)
        · rename_i hb
          intro h; cases h
          first
          | (intro h; simp at h; done)
          | (intro d hd
             simp only [List.head?_cons, Option.some.injEq] at hd
             subst hd
             rw [List.singleton_append, begins_two]
             rintro (⟨h1, _⟩ | ⟨_, h2⟩)
             · exact ha1 h1
             · exact hb h2)
    rename_i ha2
    split
    · rename_i ha
      cases t with
      | nil => intro h; cases h; simp
      | cons b t =>
        dsimp only
        split
        · rename_i hb
          cases t with
          | nil =>
            intro h; cases h
            first
            | exact fun _ => begins_two.2 (.inr ⟨.inr ha, hb⟩)
            | simp
          | cons c t =>
            dsimp only
            split
            · rename_i hc
              cases t with
              | nil =>
                intro h; cases h
                first
                | exact fun _ => begins_three.2 ⟨.inr ha, hb, hc⟩
                | simp
              | cons d t =>
                dsimp only
                split
                · intro h; cases h
                · rename_i hd
                  intro h; cases h
                  first
                  | exact fun _ => begins_three.2 ⟨.inr ha, hb, hc⟩
                  | (intro e he
                     simp only [List.head?_cons, Option.some.injEq] at he
                     subst he
                     rintro hbe
                     exact hd (begins_four.1 hbe).2.2.2)
            · rename_i hc
              intro h; cases h
              first
              | exact fun _ => begins_two.2 (.inr ⟨.inr ha, hb⟩)
              | (intro d hd
                 simp only [List.head?_cons, Option.some.injEq] at hd
                 subst hd
                 rintro hbe
                 exact hc (begins_three.1 hbe).2.2)
        · rename_i hb
          intro h; cases h
          first
          | (intro h; simp at h; done)
          | (intro d hd
             simp only [List.head?_cons, Option.some.injEq] at hd
             subst hd
             rw [List.singleton_append, begins_two]
             rintro (⟨h1, _⟩ | ⟨_, h2⟩)
             · exact ha1 h1
             · exact hb h2)
    · rename_i ha3
      intro h; cases h
      first
      | (intro h; simp at h; done)
      | (intro d _ hbe
         have hbe := (begins_one (by omega)).1 (begins_prefix hbe)
         rw [within_iff] at ha1 ha2 ha3
         omega)

theorem lossy_cons (a : Char) (t : Name) : lossy (a :: t) =
    (match (firstChunk a t).1 with | .char c => c | .bad _ => replacement) :: lossy (firstChunk a t).2 := by
  rw [lossy, chunks_cons]; rfl

theorem lossy_spec (b : Name) : Lossy b (lossy b) := by
  induction b using chunks_induct with
  | nil => exact .nil
  | cons a t ih =>
    rw [lossy_cons]
    have h := firstChunk_bytes a t
    cases hx : (firstChunk a t).1 with
    | char c =>
      rw [hx] at h
      have := Lossy.char c ih
      rwa [bytesOf_one, show charBytes c ++ _ = a :: t from h] at this
    | bad x =>
      rw [hx] at h
      have := Lossy.bad (firstChunk_givenUp hx) ih
      rwa [show x ++ _ = a :: t from h] at this

theorem GivenUp.unique {x y b d : Name} (h : GivenUp x b) (h' : GivenUp y d) (he : x ++ b = y ++ d) : x = y ∧ b = d := by
  rcases List.append_eq_append_iff.1 he with ⟨z, h1, h2⟩ | ⟨z, h1, h2⟩
  · cases z with
    | nil => simp at h1 h2; exact ⟨h1.symm, h2⟩
    | cons c z =>
      subst h1 h2
      refine absurd ?_ (h.most c rfl)
      have hl := List.length_pos_iff.2 h.any
      exact begins_prefix (y := z) (by simpa using h'.begins (by simp; omega))
  · cases z with
    | nil => simp at h1 h2; exact ⟨h1, h2.symm⟩
    | cons c z =>
      subst h1 h2
      refine absurd ?_ (h'.most c rfl)
      have hl := List.length_pos_iff.2 h'.any
      exact begins_prefix (y := z) (by simpa using h.begins (by simp; omega))

theorem charBytes_unique {c d : Char} {b b' : Name} (h : charBytes c ++ b = charBytes d ++ b') : c = d ∧ b = b' := by
  have h1 := chunks_char c b
  rw [h, chunks_char] at h1
  simp only [List.cons.injEq, Chunk.char.injEq] at h1
  obtain ⟨rfl, _⟩ := h1
  exact ⟨rfl, List.append_cancel_left h⟩

theorem Lossy.unique {b : Name} {s s' : List Char} (h : Lossy b s) (h' : Lossy b s') : s = s' := by
  induction h generalizing s' with
  | nil =>
    generalize hb : ([] : Name) = b at h'
    cases h' with
    | nil => rfl
    | char c _ => rw [bytesOf_one] at hb; exact absurd (List.append_eq_nil_iff.1 hb.symm).1 (charBytes_ne_nil c)
    | bad hg _ => exact absurd (List.append_eq_nil_iff.1 hb.symm).1 hg.any
  | @char c b s _ ih =>
    generalize hb : bytesOf [c] ++ b = x at h'
    cases h' with
    | nil => rw [bytesOf_one] at hb; exact absurd (List.append_eq_nil_iff.1 hb).1 (charBytes_ne_nil c)
    | char d h' =>
      rw [bytesOf_one, bytesOf_one] at hb
      obtain ⟨rfl, rfl⟩ := charBytes_unique hb
      rw [ih h']
    | bad hg _ => exact absurd ⟨_, hb⟩ (hg.none c)
  | @bad x b s hg _ ih =>
    generalize hb : x ++ b = y at h'
    cases h' with
    | nil => exact absurd (List.append_eq_nil_iff.1 hb).1 hg.any
    | char d h' => exact absurd ⟨_, hb.symm⟩ (hg.none d)
    | bad hg' h' =>
      obtain ⟨rfl, rfl⟩ := hg.unique hg' hb
      rw [ih h']

theorem lossy_iff {b : Name} {s : List Char} : Lossy b s ↔ lossy b = s :=
  ⟨fun h => (lossy_spec b).unique h, fun h => h ▸ lossy_spec b⟩

end Plotline
