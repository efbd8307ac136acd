import Verif.Lemmas.Listing
import Verif.Props.Extension

/-!
# C84: the text of a listing

`plain` is the table of characters printed as they are; the theorems hold for any.
-/

namespace Plotline

theorem visible_spells {ignored : FilePath → Bool} {ctx : FilePath} {fs : Fs} (hf : fs.Named) {dir : FilePath} {n m : Name}
    (hv : Visible ignored ctx fs (dir ++ [n])) (hs : Stripped n m) : ∃ s, Spells s (dir ++ [m]) := by
  obtain ⟨_, ⟨_, x, _, hx⟩, hn, _⟩ := hv
  have hslash : ∀ k ∈ dir ++ [n], '/' ∉ k := fun k hk => hf _ hx k (List.mem_append.2 (.inr hk))
  have hok : ∀ k ∈ dir ++ [m], k ≠ [] ∧ k ≠ dot ∧ '/' ∉ k := by
    intro k hk
    rcases List.mem_append.1 hk with hk | hk
    · have h1 := hn k (by simp [hk])
      exact ⟨h1.1, head_ne_dot h1.2, hslash k (by simp [hk])⟩
    · rw [List.mem_singleton] at hk
      subst hk
      have h1 := hn n (by simp)
      have h2 := hslash n (by simp)
      rcases hs with ⟨_, rfl⟩ | ⟨e, _, rfl⟩
      · exact ⟨h1.1, head_ne_dot h1.2, h2⟩
      · obtain ⟨h3, h4⟩ := visible_stem h1.2
        exact ⟨h3, head_ne_dot h4, fun h => h2 (by simp [h])⟩
  cases hd : dir ++ [m] with
  | nil => simp at hd
  | cons a l =>
    rw [hd] at hok
    exact ⟨_, spells_write a l (hok a (by simp)).2.2 fun k hk => hok k (by simp [hk])⟩

/-- C84: `plot doc list` writes one line for each id, in order: a string literal, which stands for a way of writing that id. -/
theorem C84_lines (plain : Char → Bool) (fuel : Nat) (r : LocalRepo) (re : Re) (hre : Alts (writtenExt r.extension) re)
    (ignored : FilePath → Bool) (fs : Fs) (hf : fs.Named) (walked : List FilePath) (hw : Walk ignored r.context fs walked)
    (i : Option FilePath) :
    ∃ ran, plot fuel r fs walked i .list = some ran ∧ Lines (ran.text plain) ran.stdout := by
  obtain ⟨ran, h1, _, _, h2⟩ := C72_list fuel r re hre ignored fs walked hw i
  refine ⟨ran, h1, listText_lines plain _ fun p hp => ?_⟩
  rcases (h2 p).1 hp with ⟨dir, n, m, hv, _, hs, rfl⟩ | ⟨rfl, _⟩
  · exact visible_spells hf hv hs
  · exact ⟨[], .empty⟩

/-- C84: a text can be read in one way only, so listings that print the same text list the same ids, whatever directories and
extensions they are of, and whichever characters are printed as they are. -/
theorem C84_one_reading (s : List Char) (ids ids' : List FilePath) (h : Lines s ids) (h' : Lines s ids') : ids = ids' :=
  h.one_reading h'

/-- C84: nothing but the ends of lines, characters that are printed as they are, and printable ones of ASCII is printed. -/
theorem C84_printable (plain : Char → Bool) (ran : Ran) :
    ∀ c ∈ ran.text plain, c = '\n' ∨ plain c = true ∨ 32 ≤ c.toNat ∧ c.toNat < 127 := by
  intro c hc
  simp only [Ran.text, listText, debugPath, List.mem_flatMap, List.mem_append, List.mem_cons, List.not_mem_nil, or_false] at hc
  obtain ⟨p, _, ((rfl | ⟨x, _, hx⟩) | rfl) | rfl⟩ := hc
  · exact .inr (.inr (by decide))
  · exact .inr (escapeChar_mem plain x c hx).2
  · exact .inr (.inr (by decide))
  · exact .inl rfl

/-- C84: if the text between the quotes has no backslash, it stands for itself. -/
theorem C84_verbatim {w t : List Char} (h : Literal w t) (hw : '\\' ∉ w) : t = w := by
  induction h with
  | nil => rfl
  | char _ _ _ _ ih => rw [ih fun h => hw (by simp [h])]
  | _ => exact absurd (by simp) hw

/-- C84: a path of characters that are printed as they are, other than quotes and backslashes, is printed as it is written. -/
theorem C84_plain (plain : Char → Bool) (hc : ∀ c, plain c = true → c ≠ '\x00' ∧ c ≠ '\t' ∧ c ≠ '\r' ∧ c ≠ '\n') (p : FilePath)
    (hp : ∀ n ∈ p, ∀ c ∈ n, plain c = true ∧ c ≠ '"' ∧ c ≠ '\\') (hs : plain '/' = true) :
    debugPath plain p = '"' :: writePath p ++ ['"'] := by
  have one : ∀ c, plain c = true → c ≠ '"' → c ≠ '\\' → escapeChar plain c = [c] := by
    intro c h h1 h2
    obtain ⟨h3, h4, h5, h6⟩ := hc c h
    simp [escapeChar, h, h1, h2, h3, h4, h5, h6]
  have many : ∀ t : List Char, (∀ c ∈ t, plain c = true ∧ c ≠ '"' ∧ c ≠ '\\') → t.flatMap (escapeChar plain) = t := by
    intro t ht
    induction t with
    | nil => rfl
    | cons c t ih =>
      obtain ⟨h1, h2, h3⟩ := ht c (by simp)
      rw [List.flatMap_cons, one c h1 h2 h3, ih fun x hx => ht x (by simp [hx])]; rfl
  have hslash : plain '/' = true ∧ '/' ≠ '"' ∧ '/' ≠ '\\' := ⟨hs, by decide, by decide⟩
  rw [debugPath, many]
  intro c hm
  cases p with
  | nil => cases hm
  | cons n p =>
    simp only [writePath] at hm
    split at hm
    · rw [List.mem_singleton] at hm; subst hm; exact hslash
    · simp only [List.mem_append, List.mem_flatMap, List.mem_cons] at hm
      rcases hm with hm | ⟨m, h, rfl | hm⟩
      · exact hp n (by simp) c hm
      · exact hslash
      · exact hp m (by simp [h]) c hm

/-- C84: what a line stands for, given to `plot doc … delete`, is the id of a document to delete. -/
theorem C84_handle (plain : Char → Bool) (fuel : Nat) (r : LocalRepo) (re : Re) (hre : Alts (writtenExt r.extension) re)
    (ignored : FilePath → Bool) (fs : Fs) (hf : fs.Named) (walked : List FilePath) (hw : Walk ignored r.context fs walked)
    (i : Option FilePath) :
    ∃ ran, plot fuel r fs walked i .list = some ran ∧
      ∀ before w after, ran.text plain = before ++ '"' :: w ++ '"' :: '\n' :: after → '\n' ∉ w → (before = [] ∨ before.getLast? = some '\n') →
        ∃ t, Literal w t ∧ ∃ fuel0 ran', (∀ fuel, fuel0 ≤ fuel → plotDoc fuel r fs walked (some t) .delete = some ran') ∧
          ran'.result = .ret (.ok ()) := by
  obtain ⟨ran, h1, h2⟩ := C84_lines plain fuel r re hre ignored fs hf walked hw i
  have hr := (C72_grammar _ re).2 hre
  have hlist : ran.stdout = (r.schema walked).guard.iter.map fun node => node.id := by
    have := (plot_ok hr fuel fs walked i .list).symm.trans h1
    simp only [execute, Option.some.injEq] at this
    rw [← this]
  refine ⟨ran, h1, fun before w after ht hn hb => ?_⟩
  have key : ∀ {s ids}, Lines s ids → ∀ before, s = before ++ '"' :: w ++ '"' :: '\n' :: after → (before = [] ∨ before.getLast? = some '\n') →
      ∃ t, Literal w t ∧ ∃ p ∈ ids, Spells t p := by
    intro s ids hl
    induction hl with
    | nil => intro before h; simp at h
    | @line w' t s p ids hw' hn' hp hl ih =>
      intro before he hb
      rcases hb with rfl | hb
      · have he : (w' ++ ['"']) ++ '\n' :: s = (w ++ ['"']) ++ '\n' :: after := by simpa using he
        obtain ⟨h3, _⟩ := line_split (by simp [hn']) (by simp [hn]) he
        have h3 : w' = w := (List.append_inj' h3 rfl).1
        subst h3
        exact ⟨t, hw', p, by simp, hp⟩
      · -- the line is a later one
        have hm : '\n' ∈ before := List.mem_of_getLast? hb
        obtain ⟨a, b, hab, ha⟩ : ∃ a b, before = a ++ '\n' :: b ∧ '\n' ∉ a := by
          obtain ⟨a, b, h1, h2⟩ := List.eq_append_cons_of_mem hm
          exact ⟨a, b, h1, h2⟩
        subst hab
        have he : ('"' :: w' ++ ['"']) ++ '\n' :: s = a ++ '\n' :: (b ++ '"' :: w ++ '"' :: '\n' :: after) := by simpa using he
        obtain ⟨_, h4⟩ := line_split (by simp [hn']) ha he
        obtain ⟨t, h5, q, hq, h6⟩ := ih b h4 (by
          cases b with
          | nil => exact .inl rfl
          | cons x b => right; simpa using hb)
        exact ⟨t, h5, q, by simp [hq], h6⟩
  obtain ⟨t, h3, p, hp, h4⟩ := key h2 before ht hb
  obtain ⟨fuel0, ran', h5, h6⟩ := C75_delete fs r ⟨re, hr⟩ walked t p h4
  exact ⟨t, h3, fuel0, ran', h5, h6.2 (by rw [← hlist]; exact hp)⟩

/-- C84: the other commands print nothing. -/
theorem C84_silent (plain : Char → Bool) (fuel : Nat) (r : LocalRepo) (fs : Fs) (walked : List FilePath) (i : Option FilePath)
    (c : Subcommand) (hc : c ≠ .list) (ran : Ran) (h : plot fuel r fs walked i c = some ran) : ran.text plain = [] := by
  have hout : ran.stdout = [] := by
    unfold plot at h
    split at h
    · cases c with
      | list => exact absurd rfl hc
      | delete =>
        cases i with
        | none => simp only [execute, Option.some.injEq] at h; rw [← h]
        | some i =>
          simp only [execute, Option.map_eq_some_iff] at h
          obtain ⟨⟨o, S⟩, _, h⟩ := h
          split at h <;> rw [← h]
      | save content =>
        cases i with
        | none => simp only [execute, Option.some.injEq] at h; rw [← h]
        | some i =>
          simp only [execute] at h
          split at h
          · cases h; rfl
          · simp only [Option.map_eq_some_iff] at h
            obtain ⟨⟨o, S⟩, _, h⟩ := h
            split at h <;> rw [← h]
    · cases h; rfl
    · cases h
  rw [Ran.text, hout]; rfl

/-- The table of the examples: ASCII as it is, nothing else. -/
def asciiPlain (c : Char) : Bool := 32 ≤ c.toNat && c.toNat < 127

example : (plot 20 homeRepo homeFs homeWalk none .list).map (Ran.text asciiPlain) = some "\"b\"\n\"x/a\"\n".toList := by decide +kernel

/-- A name with a quote, an end of line and a letter not in the table. -/
example : listText asciiPlain [["a\"\né".toList, "b".toList]] = "\"a\\\"\\n\\u{e9}/b\"\n".toList := by decide +kernel

/-- The same with the end of the line taken for that of the listing is another text. -/
example : listText asciiPlain [["a".toList], ["b".toList]] ≠ listText asciiPlain [["a\"\n\"b".toList]] := by decide +kernel

example : homeFs.Named := by unfold Fs.Named; decide

end Plotline
