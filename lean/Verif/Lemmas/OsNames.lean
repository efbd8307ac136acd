import Verif.Model.OsNames
import Verif.Lemmas.Listing

/-! # Bytes and characters -/

namespace Plotline

open Std

/-! ## Characters and their bytes -/

theorem char_valid (c : Char) : c.toNat < 0xD800 ∨ 0xDFFF < c.toNat ∧ c.toNat < 0x110000 := c.valid

theorem toNat_ofNat {n : Nat} (h : n < 0xD800 ∨ 0xDFFF < n ∧ n < 0x110000) : (Char.ofNat n).toNat = n := by
  have hv : n.isValidChar := h
  simp [Char.ofNat, hv, Char.ofNatAux, Char.toNat, UInt32.toNat]

theorem char_ext {c d : Char} (h : c.toNat = d.toNat) : c = d := by
  apply Char.ext
  exact UInt32.toNat_inj.1 h

/-- The bytes of a character. -/
def charBytes (c : Char) : Name := (String.utf8EncodeChar c).map byteChar

theorem byteChar_toNat {n : Nat} (h : n < 256) : (byteChar (UInt8.ofNat n)).toNat = n := by
  have h1 : (UInt8.ofNat n).toNat = n := by simp; omega
  rw [byteChar, h1, toNat_ofNat (by omega)]

theorem charBytes_cases (c : Char) :
    (c.toNat < 0x80 ∧ charBytes c = [c]) ∨
    (0x80 ≤ c.toNat ∧ c.toNat < 0x800 ∧ ∃ x y, charBytes c = [x, y] ∧ x.toNat = 0xC0 + c.toNat / 64 ∧ y.toNat = 0x80 + c.toNat % 64) ∨
    (0x800 ≤ c.toNat ∧ c.toNat < 0x10000 ∧ ∃ x y z, charBytes c = [x, y, z] ∧ x.toNat = 0xE0 + c.toNat / 4096 ∧
      y.toNat = 0x80 + c.toNat / 64 % 64 ∧ z.toNat = 0x80 + c.toNat % 64) ∨
    (0x10000 ≤ c.toNat ∧ ∃ x y z w, charBytes c = [x, y, z, w] ∧ x.toNat = 0xF0 + c.toNat / 262144 ∧
      y.toNat = 0x80 + c.toNat / 4096 % 64 ∧ z.toNat = 0x80 + c.toNat / 64 % 64 ∧ w.toNat = 0x80 + c.toNat % 64) := by
  have hv := char_valid c
  unfold charBytes String.utf8EncodeChar
  have hc : c.val.toNat = c.toNat := rfl
  simp only [hc]
  split
  · refine .inl ⟨by omega, ?_⟩
    simp only [List.map_cons, List.map_nil, List.cons.injEq, and_true]
    exact char_ext (byteChar_toNat (by omega))
  split
  · refine .inr (.inl ⟨by omega, by omega, _, _, rfl, ?_, ?_⟩) <;> rw [byteChar_toNat (by omega)] <;> omega
  split
  · refine .inr (.inr (.inl ⟨by omega, by omega, _, _, _, rfl, ?_, ?_, ?_⟩)) <;> rw [byteChar_toNat (by omega)] <;> omega
  · refine .inr (.inr (.inr ⟨by omega, _, _, _, _, rfl, ?_, ?_, ?_, ?_⟩)) <;> rw [byteChar_toNat (by omega)] <;> omega

theorem bytesOf_cons (c : Char) (s : List Char) : bytesOf (c :: s) = charBytes c ++ bytesOf s := rfl

theorem bytesOf_append (s t : List Char) : bytesOf (s ++ t) = bytesOf s ++ bytesOf t := by simp [bytesOf]

theorem charBytes_ascii {c : Char} (h : c.toNat < 0x80) : charBytes c = [c] := by
  rcases charBytes_cases c with h1 | h1 | h1 | h1
  · exact h1.2
  all_goals omega

/-- An ASCII character is in the bytes of no other. -/
theorem mem_charBytes {c d : Char} (hd : d.toNat < 0x80) : d ∈ charBytes c ↔ c = d := by
  rcases charBytes_cases c with ⟨h1, h2⟩ | ⟨_, h1, x, y, h2, h3, h4⟩ | ⟨_, h1, x, y, z, h2, h3, h4, h5⟩ | ⟨h1, x, y, z, w, h2, h3, h4, h5, h6⟩
  · rw [h2, List.mem_singleton]; exact eq_comm
  · rw [h2]
    simp only [List.mem_cons, List.not_mem_nil, or_false]
    exact ⟨fun h => by rcases h with rfl | rfl <;> omega, fun h => by subst h; omega⟩
  · rw [h2]
    simp only [List.mem_cons, List.not_mem_nil, or_false]
    exact ⟨fun h => by rcases h with rfl | rfl | rfl <;> omega, fun h => by subst h; omega⟩
  · rw [h2]
    simp only [List.mem_cons, List.not_mem_nil, or_false]
    exact ⟨fun h => by rcases h with rfl | rfl | rfl | rfl <;> omega, fun h => by subst h; omega⟩

theorem charBytes_ne_nil (c : Char) : charBytes c ≠ [] := by
  rcases charBytes_cases c with ⟨h1, h2⟩ | ⟨_, h1, x, y, h2, h3, h4⟩ | ⟨_, h1, x, y, z, h2, h3, h4, h5⟩ | ⟨h1, x, y, z, w, h2, h3, h4, h5, h6⟩ <;>
    rw [h2] <;> simp

theorem charBytes_byte (c : Char) : ∀ b ∈ charBytes c, b.toNat < 256 := by
  intro b hb
  obtain ⟨u, _, rfl⟩ := List.mem_map.1 hb
  have := u.toNat_lt
  rw [byteChar, toNat_ofNat (by omega)]
  omega

/-! ## Chunks -/

/-- The bytes of a chunk. -/
def Chunk.bytes : Chunk → Name
  | .char c => charBytes c
  | .bad b => b

theorem within_iff {lo hi : Nat} {c : Char} : within lo hi c = true ↔ lo ≤ c.toNat ∧ c.toNat ≤ hi := by simp [within]

theorem follows_iff {c : Char} : follows c = true ↔ 0x80 ≤ c.toNat ∧ c.toNat ≤ 0xBF := within_iff

theorem second_iff {a b : Char} : second a b = true ↔ 0x80 ≤ b.toNat ∧ b.toNat ≤ 0xBF ∧ (a.toNat = 0xE0 → 0xA0 ≤ b.toNat) ∧
    (a.toNat = 0xED → b.toNat ≤ 0x9F) ∧ (a.toNat = 0xF0 → 0x90 ≤ b.toNat) ∧ (a.toNat = 0xF4 → b.toNat ≤ 0x8F) := by
  unfold second
  split
  · rw [within_iff]; omega
  split
  · rw [within_iff]; omega
  split
  · rw [within_iff]; omega
  split
  · rw [within_iff]; omega
  · rw [follows_iff]; omega

theorem charBytes_two {a b : Char} (ha : within 0xC2 0xDF a = true) (hb : follows b = true) :
    charBytes (Char.ofNat ((a.toNat - 0xC0) * 64 + bits b)) = [a, b] := by
  rw [within_iff] at ha
  rw [follows_iff] at hb
  have hn := toNat_ofNat (n := (a.toNat - 0xC0) * 64 + bits b) (by unfold bits; omega)
  rcases charBytes_cases (Char.ofNat ((a.toNat - 0xC0) * 64 + bits b)) with
    ⟨h1, h2⟩ | ⟨h0, h1, x, y, h2, h3, h4⟩ | ⟨h0, h1, x, y, z, h2, h3, h4, h5⟩ | ⟨h1, x, y, z, w, h2, h3, h4, h5, h6⟩ <;>
    rw [hn] at * <;> unfold bits at * <;> try omega
  rw [h2, char_ext (show x.toNat = a.toNat by omega), char_ext (show y.toNat = b.toNat by omega)]

theorem charBytes_three {a b c : Char} (ha : within 0xE0 0xEF a = true) (hb : second a b = true) (hc : follows c = true) :
    charBytes (Char.ofNat ((a.toNat - 0xE0) * 4096 + bits b * 64 + bits c)) = [a, b, c] := by
  rw [within_iff] at ha
  rw [second_iff] at hb
  rw [follows_iff] at hc
  have hn := toNat_ofNat (n := (a.toNat - 0xE0) * 4096 + bits b * 64 + bits c) (by unfold bits; omega)
  rcases charBytes_cases (Char.ofNat ((a.toNat - 0xE0) * 4096 + bits b * 64 + bits c)) with
    ⟨h1, h2⟩ | ⟨h0, h1, x, y, h2, h3, h4⟩ | ⟨h0, h1, x, y, z, h2, h3, h4, h5⟩ | ⟨h1, x, y, z, w, h2, h3, h4, h5, h6⟩ <;>
    rw [hn] at * <;> unfold bits at * <;> try omega
  rw [h2, char_ext (show x.toNat = a.toNat by omega), char_ext (show y.toNat = b.toNat by omega), char_ext (show z.toNat = c.toNat by omega)]

theorem charBytes_four {a b c d : Char} (ha : within 0xF0 0xF4 a = true) (hb : second a b = true) (hc : follows c = true)
    (hd : follows d = true) :
    charBytes (Char.ofNat ((a.toNat - 0xF0) * 262144 + bits b * 4096 + bits c * 64 + bits d)) = [a, b, c, d] := by
  rw [within_iff] at ha
  rw [second_iff] at hb
  rw [follows_iff] at hc hd
  have hn := toNat_ofNat (n := (a.toNat - 0xF0) * 262144 + bits b * 4096 + bits c * 64 + bits d) (by unfold bits; omega)
  rcases charBytes_cases (Char.ofNat ((a.toNat - 0xF0) * 262144 + bits b * 4096 + bits c * 64 + bits d)) with
    ⟨h1, h2⟩ | ⟨h0, h1, x, y, h2, h3, h4⟩ | ⟨h0, h1, x, y, z, h2, h3, h4, h5⟩ | ⟨h1, x, y, z, w, h2, h3, h4, h5, h6⟩ <;>
    rw [hn] at * <;> unfold bits at * <;> try omega
  rw [h2, char_ext (show x.toNat = a.toNat by omega), char_ext (show y.toNat = b.toNat by omega), char_ext (show z.toNat = c.toNat by omega),
    char_ext (show w.toNat = d.toNat by omega)]

/-- What the first chunk has and what is after it are all. -/
theorem firstChunk_bytes (a : Char) (t : Name) : (firstChunk a t).1.bytes ++ (firstChunk a t).2 = a :: t := by
  unfold firstChunk
  split
  · rename_i h; simp [Chunk.bytes, charBytes_ascii h]
  split
  · rename_i ha
    cases t with
    | nil => rfl
    | cons b t =>
      dsimp only
      split
      · rename_i hb; simp [Chunk.bytes, charBytes_two ha hb]
      · rfl
  split
  · rename_i ha
    cases t with
    | nil => rfl
    | cons b t =>
      dsimp only
      split
      · rename_i hb
        cases t with
        | nil => rfl
        | cons c t =>
          dsimp only
          split
          · rename_i hc; simp [Chunk.bytes, charBytes_three ha hb hc]
          · rfl
      · rfl
  split
  · rename_i ha
    cases t with
    | nil => rfl
    | cons b t =>
      dsimp only
      split
      · rename_i hb
        cases t with
        | nil => rfl
        | cons c t =>
          dsimp only
          split
          · rename_i hc
            cases t with
            | nil => rfl
            | cons d t =>
              dsimp only
              split
              · rename_i hd; simp [Chunk.bytes, charBytes_four ha hb hc hd]
              · rfl
          · rfl
      · rfl
  · rfl

theorem firstChunk_ne_nil (a : Char) (t : Name) : (firstChunk a t).1.bytes ≠ [] := by
  unfold firstChunk
  repeat' split
  all_goals first | exact charBytes_ne_nil _ | simp [Chunk.bytes]

theorem firstChunk_shorter (a : Char) (t : Name) : (firstChunk a t).2.length ≤ t.length := by
  have h := congrArg List.length (firstChunk_bytes a t)
  have := List.length_pos_iff.2 (firstChunk_ne_nil a t)
  simp only [List.length_append, List.length_cons] at h
  omega

theorem chunksUpTo_enough : ∀ (k l : Nat) (b : Name), b.length ≤ k → b.length ≤ l → chunksUpTo k b = chunksUpTo l b := by
  intro k
  induction k with
  | zero =>
    intro l b hk _
    have : b = [] := List.length_eq_zero_iff.1 (by omega)
    subst this
    cases l <;> rfl
  | succ k ih =>
    intro l b hk hl
    cases b with
    | nil => cases l <;> rfl
    | cons a t =>
      cases l with
      | zero => simp at hl
      | succ l =>
        have := firstChunk_shorter a t
        simp only [List.length_cons] at hk hl
        simp only [chunksUpTo]
        rw [ih l _ (by omega) (by omega)]

theorem chunks_cons (a : Char) (t : Name) : chunks (a :: t) = (firstChunk a t).1 :: chunks (firstChunk a t).2 := by
  simp only [chunks, List.length_cons, chunksUpTo]
  rw [chunksUpTo_enough _ _ _ (firstChunk_shorter a t) (Nat.le_refl _)]

theorem chunks_nil : chunks [] = [] := rfl

/-- Induction along the chunks. -/
theorem chunks_induct {P : Name → Prop} (nil : P []) (cons : ∀ a t, P (firstChunk a t).2 → P (a :: t)) (b : Name) : P b := by
  have : ∀ k (b : Name), b.length ≤ k → P b := by
    intro k
    induction k with
    | zero => intro b h; rw [List.length_eq_zero_iff.1 (by omega : b.length = 0)]; exact nil
    | succ k ih =>
      intro b h
      cases b with
      | nil => exact nil
      | cons a t =>
        have := firstChunk_shorter a t
        simp only [List.length_cons] at h
        exact cons a t (ih _ (by omega))
  exact this _ b (Nat.le_refl _)

/-- The chunks have all the bytes. -/
theorem chunks_bytes (b : Name) : (chunks b).flatMap Chunk.bytes = b := by
  induction b using chunks_induct with
  | nil => rfl
  | cons a t ih => rw [chunks_cons, List.flatMap_cons, ih, firstChunk_bytes]

/-- The bytes of a character are read as that character. -/
theorem chunks_char (c : Char) (t : Name) : chunks (charBytes c ++ t) = .char c :: chunks t := by
  have hv := char_valid c
  rcases charBytes_cases c with
    ⟨h1, h2⟩ | ⟨h0, h1, x, y, h2, h3, h4⟩ | ⟨h0, h1, x, y, z, h2, h3, h4, h5⟩ | ⟨h1, x, y, z, w, h2, h3, h4, h5, h6⟩ <;> rw [h2]
  · rw [List.singleton_append, chunks_cons]
    simp only [firstChunk, h1, ↓reduceIte]
  · simp only [List.cons_append, List.nil_append]
    have ha : within 0xC2 0xDF x = true := within_iff.2 (by omega)
    have hy : follows y = true := follows_iff.2 (by omega)
    rw [chunks_cons]
    simp only [firstChunk, if_neg (show ¬ x.toNat < 0x80 by omega), ha, hy, ↓reduceIte]
    rw [char_ext (c := Char.ofNat ((x.toNat - 0xC0) * 64 + bits y)) (d := c) (by rw [toNat_ofNat (by unfold bits; omega)]; unfold bits; omega)]
  · simp only [List.cons_append, List.nil_append]
    have ha : within 0xE0 0xEF x = true := within_iff.2 (by omega)
    have hn : ¬ within 0xC2 0xDF x = true := fun h => by rw [within_iff] at h; omega
    have hy : second x y = true := second_iff.2 (by omega)
    have hz : follows z = true := follows_iff.2 (by omega)
    rw [chunks_cons]
    simp only [firstChunk, if_neg (show ¬ x.toNat < 0x80 by omega), if_neg hn, ha, hy, hz, ↓reduceIte]
    rw [char_ext (c := Char.ofNat ((x.toNat - 0xE0) * 4096 + bits y * 64 + bits z)) (d := c) (by rw [toNat_ofNat (by unfold bits; omega)]; unfold bits; omega)]
  · simp only [List.cons_append, List.nil_append]
    have ha : within 0xF0 0xF4 x = true := within_iff.2 (by omega)
    have hn : ¬ within 0xC2 0xDF x = true := fun h => by rw [within_iff] at h; omega
    have hn' : ¬ within 0xE0 0xEF x = true := fun h => by rw [within_iff] at h; omega
    have hy : second x y = true := second_iff.2 (by omega)
    have hz : follows z = true := follows_iff.2 (by omega)
    have hw : follows w = true := follows_iff.2 (by omega)
    rw [chunks_cons]
    simp only [firstChunk, if_neg (show ¬ x.toNat < 0x80 by omega), if_neg hn, if_neg hn', ha, hy, hz, hw, ↓reduceIte]
    rw [char_ext (c := Char.ofNat ((x.toNat - 0xF0) * 262144 + bits y * 4096 + bits z * 64 + bits w)) (d := c) (by rw [toNat_ofNat (by unfold bits; omega)]; unfold bits; omega)]

/-- A text is read as it was written, whatever comes after it. -/
theorem chunks_text (s : List Char) (t : Name) : chunks (bytesOf s ++ t) = s.map .char ++ chunks t := by
  induction s with
  | nil => rfl
  | cons c s ih => rw [bytesOf_cons, List.append_assoc, chunks_char, ih]; rfl

theorem chunks_bytesOf (s : List Char) : chunks (bytesOf s) = s.map .char := by
  have := chunks_text s []
  simpa [chunks_nil] using this

theorem lossy_bytesOf (s : List Char) : lossy (bytesOf s) = s := by
  rw [lossy, chunks_bytesOf, List.map_map]
  exact List.map_id s

theorem asText_bytesOf (s : List Char) : asText (bytesOf s) = some s := by
  simp only [asText, chunks_bytesOf]
  induction s with
  | nil => rfl
  | cons c s ih => simp [List.mapM_cons, ih]

theorem bytesOf_injective {s t : List Char} (h : bytesOf s = bytesOf t) : s = t := by
  rw [← lossy_bytesOf s, h, lossy_bytesOf]

/-- Text is what is the bytes of characters. -/
theorem asText_iff {b : Name} {s : List Char} : asText b = some s ↔ b = bytesOf s := by
  constructor
  · intro h
    have key : ∀ (l : List Chunk) (s : List Char), (l.mapM fun | .char c => some c | .bad _ => none) = some s → l = s.map .char := by
      intro l
      induction l with
      | nil => intro s h; simp at h; subst h; rfl
      | cons x l ih =>
        intro s h
        cases x with
        | bad b => simp [List.mapM_cons] at h
        | char c =>
          simp only [List.mapM_cons, Option.bind_eq_bind, Option.bind_some, Option.bind_eq_some_iff] at h
          obtain ⟨s', h1, h2⟩ := h
          simp at h2
          subst h2
          rw [ih s' h1]; rfl
    rw [← chunks_bytes b, key _ _ h]
    clear h key
    induction s with
    | nil => rfl
    | cons c s ih => rw [List.map_cons, List.flatMap_cons, ih]; rfl
  · rintro rfl; exact asText_bytesOf s

/-- An ASCII character begins a chunk. -/
theorem firstChunk_ascii (a : Char) (t y : Name) (d : Char) (hd : d.toNat < 0x80) :
    firstChunk a (t ++ d :: y) = ((firstChunk a t).1, (firstChunk a t).2 ++ d :: y) := by
  have hf : follows d = false := by rw [Bool.eq_false_iff]; intro h; rw [follows_iff] at h; omega
  have hs : ∀ a, second a d = false := by intro a; rw [Bool.eq_false_iff]; intro h; rw [second_iff] at h; omega
  unfold firstChunk
  rcases t with _ | ⟨b, _ | ⟨c, _ | ⟨e, t⟩⟩⟩ <;> simp only [List.nil_append, List.cons_append, hf, hs, Bool.false_eq_true, if_false] <;>
    (repeat' split) <;> rfl

theorem chunks_ascii (x y : Name) (d : Char) (hd : d.toNat < 0x80) : chunks (x ++ d :: y) = chunks x ++ chunks (d :: y) := by
  induction x using chunks_induct with
  | nil => rfl
  | cons a t ih => rw [List.cons_append, chunks_cons, chunks_cons, firstChunk_ascii a t y d hd, ih]; rfl

end Plotline
