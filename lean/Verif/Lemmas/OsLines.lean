import Verif.Lemmas.OsList
import Verif.Lemmas.Listing
import Verif.Props.Listing

/-! # Lines with bytes written by their number -/

namespace Plotline

/-- What follows the backslash of one character. -/
theorem literal_one {e : List Char} {c : Char} (h : Literal ('\\' :: e) [c]) :
    (∃ x, e = [x] ∧ x ∈ ['0', 't', 'r', 'n', '\'', '"', '\\']) ∨ ∃ d, e = 'u' :: '{' :: d ++ ['}'] ∧ Hex d c.toNat := by
  generalize hw : '\\' :: e = w at h
  generalize ht : [c] = t at h
  have hnil : ∀ {w : List Char}, Literal w [] → w = [] := by
    intro w h
    generalize hs : ([] : List Char) = s at h
    cases h <;> first | rfl | cases hs
  cases h with
  | nil => cases ht
  | char _ h2 => simp at hw; exact absurd hw.1.symm h2
  | unicode hx h =>
    simp only [List.cons.injEq] at ht
    obtain ⟨rfl, rfl⟩ := ht
    rw [hnil h] at hw
    exact .inr ⟨_, by simpa using hw, hx⟩
  | _ h =>
    simp only [List.cons.injEq] at ht
    obtain ⟨-, rfl⟩ := ht
    rw [hnil h] at hw
    simp at hw
    exact .inl ⟨_, hw, by decide⟩

/-- An escape ends where it ends. -/
theorem escape_split {e e' w w' : List Char} {c c' : Char} (h : Literal ('\\' :: e) [c]) (h' : Literal ('\\' :: e') [c'])
    (he : e ++ w = e' ++ w') : e = e' ∧ w = w' := by
  have no : ∀ x, x ∈ ['0', 't', 'r', 'n', '\'', '"', '\\'] → x ≠ 'u' := by decide
  rcases literal_one h with ⟨x, rfl, hx⟩ | ⟨d, rfl, hd⟩
  · rcases literal_one h' with ⟨y, rfl, hy⟩ | ⟨d', rfl, hd'⟩
    · simpa using he
    · simp only [List.cons_append, List.nil_append, List.cons.injEq] at he
      exact absurd he.1 (no x hx)
  · rcases literal_one h' with ⟨y, rfl, hy⟩ | ⟨d', rfl, hd'⟩
    · simp only [List.cons_append, List.nil_append, List.cons.injEq] at he
      exact absurd he.1.symm (no y hy)
    · have he : d ++ '}' :: w = d' ++ '}' :: w' := by simpa using he
      obtain ⟨h1, h2⟩ := hex_split hd hd' he
      exact ⟨by rw [h1], h2⟩

theorem escape_ne_byte {e : List Char} {c : Char} (h : Literal ('\\' :: e) [c]) : ∀ {w w'}, e ++ w ≠ 'x' :: w' := by
  have no : ∀ x, x ∈ ['0', 't', 'r', 'n', '\'', '"', '\\'] → x ≠ 'x' := by decide
  intro w w' he
  rcases literal_one h with ⟨x, rfl, hx⟩ | ⟨d, rfl, hd⟩
  · simp only [List.cons_append, List.nil_append, List.cons.injEq] at he
    exact no x hx he.1
  · simp at he

theorem OsLiteral.one_reading {w : List Char} {b b' : Name} (h : OsLiteral w b) (h' : OsLiteral w b') : b = b' := by
  induction h generalizing b' with
  | nil => generalize hw : ([] : List Char) = w at h'; cases h' <;> first | rfl | simp at hw
  | @char c w b h1 h2 h3 _ ih =>
    generalize hw : c :: w = x at h'
    cases h' with
    | nil => cases hw
    | char _ _ _ h' => cases hw; rw [ih h']
    | escape => simp at hw; exact absurd hw.1 h2
    | byte => simp at hw; exact absurd hw.1 h2
  | @escape e w c b h _ ih =>
    generalize hw : '\\' :: e ++ w = x at h'
    cases h' with
    | nil => cases hw
    | char _ h2 => simp at hw; exact absurd hw.1.symm h2
    | @escape e' w' c' b' h' hb =>
      simp only [List.cons_append, List.cons.injEq, true_and] at hw
      obtain ⟨h1, h2⟩ := escape_split h h' hw
      subst h1 h2
      rw [ih hb, h.one_reading h']
    | byte => simp only [List.cons_append, List.cons.injEq, true_and] at hw; exact absurd hw (escape_ne_byte h)
  | @byte x y hi lo w b h1 h2 _ ih =>
    generalize hw : '\\' :: 'x' :: x :: y :: w = v at h'
    cases h' with
    | nil => cases hw
    | char _ h2 => simp at hw; exact absurd hw.1.symm h2
    | escape h' => simp only [List.cons_append, List.cons.injEq, true_and] at hw; exact absurd hw.symm (escape_ne_byte h')
    | byte h1' h2' hb =>
      simp only [List.cons.injEq, true_and] at hw
      obtain ⟨rfl, rfl, rfl⟩ := hw
      rw [h1] at h1'; rw [h2] at h2'
      cases h1'; cases h2'
      rw [ih hb]

theorem OsLines.one_reading {s : List Char} {ids ids' : List FilePath} (h : OsLines s ids) (h' : OsLines s ids') : ids = ids' := by
  induction h generalizing ids' with
  | nil => cases h'; rfl
  | @line w s b p ids hw hn hp _ ih =>
    generalize he : '"' :: w ++ '"' :: '\n' :: s = x at h'
    cases h' with
    | nil => cases he
    | @line w' s' b' p' ids' hw' hn' hp' hl' =>
      simp only [List.cons_append, List.cons.injEq, true_and] at he
      have he : (w ++ ['"']) ++ '\n' :: s = (w' ++ ['"']) ++ '\n' :: s' := by simpa using he
      obtain ⟨h1, h2⟩ := line_split (by simp [hn]) (by simp [hn']) he
      have h1 : w = w' := (List.append_inj' h1 rfl).1
      subst h1 h2
      rw [ih hl']
      have := hw.one_reading hw'
      subst this
      rw [← (C75_spelling b p).1 hp, ← (C75_spelling b p').1 hp']

theorem OsLiteral.append {w w' : List Char} {b b' : Name} (h : OsLiteral w b) (h' : OsLiteral w' b') : OsLiteral (w ++ w') (b ++ b') := by
  induction h with
  | nil => exact h'
  | char h1 h2 h3 _ ih => rw [List.append_assoc]; exact .char h1 h2 h3 ih
  | escape h _ ih => simpa using OsLiteral.escape h ih
  | byte h1 h2 _ ih => exact .byte h1 h2 ih

/-- A literal of one character is the character or an escape. -/
theorem Literal.os {w : List Char} {c : Char} (h : Literal w [c]) : OsLiteral w (bytesOf [c]) := by
  by_cases hb : ∃ e, w = '\\' :: e
  · obtain ⟨e, rfl⟩ := hb
    simpa using OsLiteral.escape h .nil
  · generalize ht : [c] = t at h
    cases h with
    | nil => cases ht
    | @char d s t h1 h2 h3 h =>
      simp only [List.cons.injEq] at ht
      obtain ⟨rfl, rfl⟩ := ht
      generalize hs : ([] : List Char) = s' at h
      cases h with
      | nil => simpa using OsLiteral.char h1 h2 h3 .nil
      | _ => cases hs
    | _ => exact absurd ⟨_, rfl⟩ hb

theorem upperDigit_of : ∀ n, n < 16 → upperOf (upperDigit n) = some n := by decide +kernel

theorem upperDigit_line : ∀ n, n < 16 → upperDigit n ≠ '\n' := by decide +kernel

theorem escapeByte_literal {x : Char} (h : x.toNat < 256) : OsLiteral (escapeByte x) [x] := by
  have := OsLiteral.byte (upperDigit_of (x.toNat / 16) (by omega)) (upperDigit_of (x.toNat % 16) (by omega)) .nil
  rw [show 16 * (x.toNat / 16) + x.toNat % 16 = x.toNat by omega, Char.ofNat_toNat] at this
  exact this

theorem escapeChunk_literal (plain : Char → Bool) (ch : Chunk) (h : AreBytes ch.bytes) : OsLiteral (escapeChunk plain ch) ch.bytes := by
  cases ch with
  | char c =>
    have := (escapeChar_literal plain c).os
    rw [bytesOf_one] at this
    exact this
  | bad b =>
    show OsLiteral (b.flatMap escapeByte) b
    replace h : AreBytes b := h
    induction b with
    | nil => exact .nil
    | cons x b ih => exact (escapeByte_literal (h x (by simp))).append (ih fun y hy => h y (by simp [hy]))

theorem escapeChunk_line (plain : Char → Bool) (ch : Chunk) (h : AreBytes ch.bytes) : '\n' ∉ escapeChunk plain ch := by
  cases ch with
  | char c => exact fun h => (escapeChar_mem plain c _ h).1 rfl
  | bad b =>
    intro hm
    obtain ⟨x, hx, hm⟩ := List.mem_flatMap.1 hm
    have := h x hx
    simp only [escapeByte, List.mem_cons, List.not_mem_nil, or_false] at hm
    rcases hm with hm | hm | hm | hm
    · exact absurd hm (by decide)
    · exact absurd hm (by decide)
    · exact upperDigit_line _ (by omega) hm.symm
    · exact upperDigit_line _ (by omega) hm.symm

theorem escapeChunks_literal (plain : Char → Bool) (l : List Chunk) (h : AreBytes (l.flatMap Chunk.bytes)) :
    OsLiteral (l.flatMap (escapeChunk plain)) (l.flatMap Chunk.bytes) ∧ '\n' ∉ l.flatMap (escapeChunk plain) := by
  induction l with
  | nil => exact ⟨.nil, by simp⟩
  | cons ch l ih =>
    rw [List.flatMap_cons] at h
    have h1 : AreBytes ch.bytes := fun x hx => h x (by simp [hx])
    obtain ⟨h2, h3⟩ := ih fun x hx => h x (List.mem_append.2 (.inr hx))
    simp only [List.flatMap_cons]
    exact ⟨(escapeChunk_literal plain ch h1).append h2, by
      rw [List.mem_append, not_or]; exact ⟨escapeChunk_line plain ch h1, h3⟩⟩

theorem writePath_bytes {p : FilePath} (h : ∀ n ∈ p, AreBytes n) : AreBytes (writePath p) := by
  intro c hc
  cases p with
  | nil => cases hc
  | cons n p =>
    simp only [writePath] at hc
    split at hc
    · rw [List.mem_singleton] at hc; subst hc; decide
    · simp only [List.mem_append, List.mem_flatMap, List.mem_cons] at hc
      rcases hc with hc | ⟨m, hm, rfl | hc⟩
      · exact h n (by simp) c hc
      · decide
      · exact h m (by simp [hm]) c hc

theorem osListText_lines (plain : Char → Bool) (ids : List FilePath) (h : ∀ p ∈ ids, (∃ s, Spells s p) ∧ ∀ n ∈ p, AreBytes n) :
    OsLines (osListText plain ids) ids := by
  induction ids with
  | nil => exact .nil
  | cons p ids ih =>
    obtain ⟨⟨s, hs⟩, hb⟩ := h p (by simp)
    have hb := writePath_bytes hb
    rw [← chunks_bytes (writePath p)] at hb
    obtain ⟨h1, h2⟩ := escapeChunks_literal plain _ hb
    rw [chunks_bytes] at h1
    have := OsLines.line h1 h2 hs.write (ih fun q hq => h q (by simp [hq]))
    simpa [osListText, osDebug] using this

/-- Names of text make the text they make. -/
theorem writePath_text (p : FilePath) : writePath (pathBytes p) = bytesOf (writePath p) := by
  cases p with
  | nil => rfl
  | cons n p =>
    have h : ∀ p : FilePath, (pathBytes p).flatMap (fun m => '/' :: m) = bytesOf (p.flatMap fun m => '/' :: m) := by
      intro p
      induction p with
      | nil => rfl
      | cons m p ih =>
        show ('/' :: bytesOf m) ++ (pathBytes p).flatMap _ = _
        rw [ih, List.flatMap_cons, bytesOf_append, bytesOf_ascii (by decide)]
    show writePath (bytesOf n :: pathBytes p) = _
    have hp : pathBytes p = [] ↔ p = [] := by simp [pathBytes]
    simp only [writePath, bytesOf_eq_nil, hp]
    split
    · rw [bytesOf_ascii (by decide)]; rfl
    · rw [h, bytesOf_append]

theorem osDebug_text (plain : Char → Bool) (p : FilePath) : osDebug plain (pathBytes p) = debugPath plain p := by
  unfold osDebug debugPath
  rw [writePath_text, chunks_bytesOf, List.flatMap_map]
  rfl

end Plotline
