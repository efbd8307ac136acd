import Verif.Spec.Listing
import Verif.Props.Ids

/-! # Lemmas about the text of listings -/

namespace Plotline

theorem hexDigit_of : ∀ n, n < 16 → digitOf (hexDigit n) = some n := by decide +kernel

theorem toHex_hex (n : Nat) : Hex (toHex n) n := by
  induction n using Nat.strongRecOn with
  | _ n ih =>
    unfold toHex
    split
    · rename_i h; exact .one (hexDigit_of n h)
    · rename_i h
      have := Hex.more (ih (n / 16) (by omega)) (hexDigit_of (n % 16) (by omega))
      rwa [show 16 * (n / 16) + n % 16 = n by omega] at this

theorem findIdx?_mem {l : List Char} {c : Char} {d : Nat} (h : l.findIdx? (· = c) = some d) : c ∈ l := by
  rw [List.findIdx?_eq_some_iff_getElem] at h
  obtain ⟨hl, hp, _⟩ := h
  have : l[d] = c := by simpa using hp
  rw [← this]; exact List.getElem_mem _

theorem digitOf_mem {c : Char} {d : Nat} (h : digitOf c = some d) : c ∈ "0123456789abcdef".toList := findIdx?_mem h

theorem Hex.digits {s : List Char} {n : Nat} (h : Hex s n) : ∀ c ∈ s, c ∈ "0123456789abcdef".toList := by
  induction h with
  | one h => intro c hc; rw [List.mem_singleton] at hc; subst hc; exact digitOf_mem h
  | more _ h ih =>
    intro c hc
    rcases List.mem_append.1 hc with hc | hc
    · exact ih c hc
    · rw [List.mem_singleton] at hc; subst hc; exact digitOf_mem h

theorem Hex.ne_nil {s : List Char} {n : Nat} (h : Hex s n) : s ≠ [] := by
  cases h <;> simp

theorem Hex.one_value {s : List Char} {n m : Nat} (h : Hex s n) (h' : Hex s m) : n = m := by
  induction h generalizing m with
  | @one c d hd =>
    generalize hs : [c] = s at h'
    cases h' with
    | one hd' => cases hs; rw [hd] at hd'; cases hd'; rfl
    | @more s' n' c' d' hx hd' =>
      have := hx.ne_nil
      cases s' with
      | nil => exact absurd rfl this
      | cons a l => cases l <;> simp at hs
  | @more s n c d hx hd ih =>
    generalize hs : s ++ [c] = s' at h'
    cases h' with
    | one hd' =>
      have := hx.ne_nil
      cases s with
      | nil => exact absurd rfl this
      | cons a l => cases l <;> simp at hs
    | more hx' hd' =>
      obtain ⟨h1, h2⟩ := List.append_inj' hs rfl
      subst h1
      cases h2
      rw [hd] at hd'; cases hd'
      rw [ih hx']

/-- Digits end where they end. -/
theorem hex_split {h h' s s' : List Char} {n n' : Nat} (hx : Hex h n) (hx' : Hex h' n') (he : h ++ '}' :: s = h' ++ '}' :: s') :
    h = h' ∧ s = s' := by
  have d := hx.digits
  have d' := hx'.digits
  clear hx hx'
  induction h generalizing h' with
  | nil =>
    cases h' with
    | nil => simpa using he
    | cons c l =>
      simp only [List.nil_append, List.cons_append, List.cons.injEq] at he
      exact absurd (d' c (by simp)) (by rw [← he.1]; decide)
  | cons c l ih =>
    cases h' with
    | nil =>
      simp only [List.nil_append, List.cons_append, List.cons.injEq] at he
      exact absurd (d c (by simp)) (by rw [he.1]; decide)
    | cons c' l' =>
      simp only [List.cons_append, List.cons.injEq] at he
      obtain ⟨h1, h2⟩ := ih he.2 (fun x hx => d x (by simp [hx])) (fun x hx => d' x (by simp [hx]))
      exact ⟨by rw [he.1, h1], h2⟩

theorem Literal.one_reading {w t t' : List Char} (h : Literal w t) (h' : Literal w t') : t = t' := by
  induction h generalizing t' with
  | nil => cases h'; rfl
  | char h1 h2 h3 _ ih =>
    cases h' with
    | char _ _ _ h' => rw [ih h']
    | _ => exact absurd rfl h2
  | @unicode s t h c hx _ ih =>
    generalize hw : '\\' :: 'u' :: '{' :: h ++ '}' :: s = w at h'
    cases h' with
    | nil => cases hw
    | char _ h2 => simp at hw; exact absurd hw.1.symm h2
    | @unicode s' t' h' c' hx' ht' =>
      simp only [List.cons_append, List.cons.injEq, true_and] at hw
      obtain ⟨h1, h2⟩ := hex_split hx hx' hw
      subst h1 h2
      rw [ih ht', Char.toNat_inj.1 (hx.one_value hx')]
    | _ => simp at hw
  | _ _ ih =>
    generalize hw : '\\' :: _ = w at h'
    cases h' with
    | nil => cases hw
    | char _ h2 => simp at hw; exact absurd hw.1.symm h2
    | unicode => simp at hw
    | _ h' => first | (simp at hw; done) | (simp at hw; subst hw; rw [ih h'])

theorem Literal.append {w t w' t' : List Char} (h : Literal w t) (h' : Literal w' t') : Literal (w ++ w') (t ++ t') := by
  induction h with
  | nil => exact h'
  | char h1 h2 h3 _ ih => exact .char h1 h2 h3 ih
  | nul _ ih => exact .nul ih
  | tab _ ih => exact .tab ih
  | ret _ ih => exact .ret ih
  | line _ ih => exact .line ih
  | quote _ ih => exact .quote ih
  | quotes _ ih => exact .quotes ih
  | backslash _ ih => exact .backslash ih
  | unicode hx _ ih => simpa using Literal.unicode hx ih

theorem escapeChar_literal (plain : Char → Bool) (c : Char) : Literal (escapeChar plain c) [c] := by
  unfold escapeChar
  split
  · rename_i h; subst h; exact .nul .nil
  split
  · rename_i h; subst h; exact .tab .nil
  split
  · rename_i h; subst h; exact .ret .nil
  split
  · rename_i h; subst h; exact .line .nil
  split
  · rename_i h
    rcases h with rfl | rfl
    · exact .quotes .nil
    · exact .backslash .nil
  rename_i h1 h2
  have h2 : c ≠ '"' ∧ c ≠ '\\' := by simpa using h2
  split
  · exact .char h2.1 h2.2 h1 .nil
  split
  · rename_i h; subst h; exact .quote .nil
  · exact .unicode (toHex_hex _) .nil

theorem escape_literal (plain : Char → Bool) (t : List Char) : Literal (t.flatMap (escapeChar plain)) t := by
  induction t with
  | nil => exact .nil
  | cons c t ih => exact (escapeChar_literal plain c).append ih

/-- What an escape is made of. -/
theorem escapeChar_mem (plain : Char → Bool) (c : Char) : ∀ x ∈ escapeChar plain c, x ≠ '\n' ∧ (plain x = true ∨ 32 ≤ x.toNat ∧ x.toNat < 127) := by
  have hex : ∀ x, x ∈ "0123456789abcdef".toList → x ≠ '\n' ∧ 32 ≤ x.toNat ∧ x.toNat < 127 := by decide
  unfold escapeChar
  split
  · intro x hx; simp at hx; rcases hx with rfl | rfl <;> exact ⟨by decide, .inr (by decide)⟩
  split
  · intro x hx; simp at hx; rcases hx with rfl | rfl <;> exact ⟨by decide, .inr (by decide)⟩
  split
  · intro x hx; simp at hx; rcases hx with rfl | rfl <;> exact ⟨by decide, .inr (by decide)⟩
  split
  · intro x hx; simp at hx; rcases hx with rfl | rfl <;> exact ⟨by decide, .inr (by decide)⟩
  rename_i hn
  split
  · rename_i h
    intro x hx
    rcases h with rfl | rfl <;> simp at hx
    · rcases hx with rfl | rfl <;> exact ⟨by decide, .inr (by decide)⟩
    · subst hx; exact ⟨by decide, .inr (by decide)⟩
  split
  · rename_i h; intro x hx; rw [List.mem_singleton] at hx; subst hx; exact ⟨hn, .inl h⟩
  split
  · rename_i h; subst h; intro x hx; simp at hx; rcases hx with rfl | rfl <;> exact ⟨by decide, .inr (by decide)⟩
  · intro x hx
    simp only [List.cons_append, List.mem_cons, List.mem_append, List.not_mem_nil, or_false] at hx
    rcases hx with rfl | rfl | rfl | hx | rfl
    · exact ⟨by decide, .inr (by decide)⟩
    · exact ⟨by decide, .inr (by decide)⟩
    · exact ⟨by decide, .inr (by decide)⟩
    · have := hex x ((toHex_hex _).digits x hx); exact ⟨this.1, .inr this.2⟩
    · exact ⟨by decide, .inr (by decide)⟩

/-- The names of a path after the first. -/
theorem spellsRest_write (p : FilePath) (n : Name) (hn : n ≠ [] ∧ n ≠ dot ∧ '/' ∉ n) (hp : ∀ m ∈ p, m ≠ [] ∧ m ≠ dot ∧ '/' ∉ m) :
    SpellsRest (n ++ p.flatMap fun m => '/' :: m) (n :: p) := by
  induction p generalizing n with
  | nil => simpa using SpellsRest.last hn.1 hn.2.1 hn.2.2
  | cons m p ih =>
    simpa using SpellsRest.name hn.1 hn.2.1 hn.2.2 (ih m (hp m (by simp)) fun x hx => hp x (by simp [hx]))

theorem SpellsRest.names {s : List Char} {p : FilePath} (h : SpellsRest s p) : ∀ m ∈ p, m ≠ [] ∧ m ≠ Plotline.dot ∧ '/' ∉ m := by
  induction h with
  | nil | dot => simp
  | slash _ ih | dotSlash _ ih => exact ih
  | last h1 h2 h3 => intro m hm; rw [List.mem_singleton] at hm; subst hm; exact ⟨h1, h2, h3⟩
  | name h1 h2 h3 _ ih =>
    intro m hm
    rcases List.mem_cons.1 hm with rfl | hm
    · exact ⟨h1, h2, h3⟩
    · exact ih m hm

/-- A path is written like this. -/
theorem spells_write (n : Name) (p : FilePath) (hn : '/' ∉ n) (hp : ∀ m ∈ p, m ≠ [] ∧ m ≠ dot ∧ '/' ∉ m) :
    Spells (writePath (n :: p)) (n :: p) := by
  by_cases h : n = []
  · subst h
    cases p with
    | nil => exact .root .nil
    | cons m p =>
      simpa [writePath] using Spells.root (spellsRest_write p m (hp m (by simp)) fun x hx => hp x (by simp [hx]))
  · cases p with
    | nil => simpa [writePath, h] using Spells.last h hn
    | cons m p =>
      simpa [writePath, h] using Spells.name h hn (spellsRest_write p m (hp m (by simp)) fun x hx => hp x (by simp [hx]))

theorem Spells.write {s : List Char} {p : FilePath} (h : Spells s p) : Spells (writePath p) p := by
  cases h with
  | empty => exact .empty
  | root h => exact spells_write _ _ (by simp) h.names
  | last h1 h2 => exact spells_write _ _ h2 (by simp)
  | name h1 h2 h3 => exact spells_write _ _ h2 h3.names

/-- A line ends where it ends. -/
theorem line_split {w w' s s' : List Char} (h : '\n' ∉ w) (h' : '\n' ∉ w') (he : w ++ '\n' :: s = w' ++ '\n' :: s') : w = w' ∧ s = s' := by
  induction w generalizing w' with
  | nil =>
    cases w' with
    | nil => simpa using he
    | cons c l =>
      simp only [List.nil_append, List.cons_append, List.cons.injEq] at he
      exact absurd (by rw [he.1]; simp) h'
  | cons c l ih =>
    cases w' with
    | nil =>
      simp only [List.nil_append, List.cons_append, List.cons.injEq] at he
      exact absurd (by rw [he.1]; simp) h
    | cons c' l' =>
      simp only [List.cons_append, List.cons.injEq] at he
      obtain ⟨h1, h2⟩ := ih (fun hx => h (by simp [hx])) (fun hx => h' (by simp [hx])) he.2
      exact ⟨by rw [he.1, h1], h2⟩

theorem Lines.one_reading {s : List Char} {ids ids' : List FilePath} (h : Lines s ids) (h' : Lines s ids') : ids = ids' := by
  induction h generalizing ids' with
  | nil => cases h'; rfl
  | @line w t s p ids hw hn hp _ ih =>
    generalize he : '"' :: w ++ '"' :: '\n' :: s = x at h'
    cases h' with
    | nil => cases he
    | @line w' t' s' p' ids' hw' hn' hp' hl' =>
      simp only [List.cons_append, List.cons.injEq, true_and] at he
      have he : (w ++ ['"']) ++ '\n' :: s = (w' ++ ['"']) ++ '\n' :: s' := by simpa using he
      obtain ⟨h1, h2⟩ := line_split (by simp [hn]) (by simp [hn']) he
      have h1 : w = w' := (List.append_inj' h1 rfl).1
      subst h1 h2
      rw [ih hl']
      have := hw.one_reading hw'
      subst this
      rw [← (C75_spelling t p).1 hp, ← (C75_spelling t p').1 hp']

theorem listText_lines (plain : Char → Bool) (ids : List FilePath) (h : ∀ p ∈ ids, ∃ s, Spells s p) : Lines (listText plain ids) ids := by
  induction ids with
  | nil => exact .nil
  | cons p ids ih =>
    obtain ⟨s, hs⟩ := h p (by simp)
    have hn : '\n' ∉ (writePath p).flatMap (escapeChar plain) := by
      intro hm
      obtain ⟨c, _, hc⟩ := List.mem_flatMap.1 hm
      exact (escapeChar_mem plain c _ hc).1 rfl
    have := Lines.line (escape_literal plain (writePath p)) hn hs.write (ih fun q hq => h q (by simp [hq]))
    simpa [listText, debugPath] using this

end Plotline
