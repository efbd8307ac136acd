import Verif.Lemmas.OsRun

/-!
# C114: names that are not text

Names and words are any bytes; a byte is given as the character of its number. A text is given by its bytes (`bytesOf`).
-/

namespace Plotline

/-! ## Text -/

/-- C114: everything is some text with `�` for what is none, and one only. -/
theorem C114_lossy (b : Name) : ∃ s, Lossy b s ∧ ∀ s', Lossy b s' → s' = s :=
  ⟨lossy b, (lossy_iff ..).2 rfl, fun _ h => ((lossy_iff ..).1 h).symm⟩

/-- C114: a text is itself. -/
theorem C114_lossy_text (s t : List Char) : Lossy (bytesOf s) t ↔ t = s := by
  rw [lossy_iff, lossy_bytesOf]; exact eq_comm

/-! ## Listing -/

/-- C114: for every extension that makes a regular expression, whatever bytes the names are, the listing is in strictly ascending order
(of the bytes) and has exactly: the visible paths whose name, with `�` for what is no text, the expression matches, without their
last extension; and the context itself, as the empty path, in the case of C72. -/
theorem C114_list (fuel : Nat) (context : FilePath) (ext : List Char) (re : Re) (hre : Alts (writtenExt ext) re)
    (ignored : FilePath → Bool) (fs : Fs) (walked : List FilePath) (hw : Walk ignored context fs walked) (i : Option FilePath) :
    ∃ ran, osPlot fuel context ext fs walked i .list = some ran ∧ ran.result = .ret (.ok ()) ∧ Ascending ran.stdout ∧
      ∀ x, x ∈ ran.stdout ↔
        (∃ dir n m text, Visible ignored context fs (dir ++ [n]) ∧ Lossy n text ∧ re.Finds text ∧ Stripped n m ∧ x = dir ++ [m]) ∨
        (x = [] ∧ (∃ text, Lossy (givenName context) text ∧ re.Finds text) ∧
          (context.getLast? = some dotdot ∨ '.' ∉ (context.getLast?.getD []).tail) ∧ ∃ root, fs.Starts context root) := by
  have hr := (C72_grammar _ re).2 hre
  obtain ⟨h1, h2⟩ := osList_stdout context ext walked
  refine ⟨_, osPlot_ok hr .., rfl, h1, fun x => ?_⟩
  refine (h2 x).trans ?_
  have hm : ∀ p, osMatches ext p = true ↔ ∃ text, Lossy (givenName p) text ∧ re.Finds text := by
    intro p
    unfold osMatches
    rw [hr, entryName_given]
    dsimp only
    rw [isMatch_iff]
    constructor
    · intro h; exact ⟨_, (lossy_iff ..).2 rfl, h⟩
    · rintro ⟨t, h3, h4⟩; rwa [(lossy_iff ..).1 h3]
  simp only [hm]
  refine (walked_stripped (fun n => ∃ text, Lossy n text ∧ re.Finds text) ignored context fs walked hw x).trans (or_congr ?_ Iff.rfl)
  constructor
  · rintro ⟨dir, n, m, hv, ⟨t, h3, h4⟩, hs, hx⟩; exact ⟨dir, n, m, t, hv, h3, h4, hs, hx⟩
  · rintro ⟨dir, n, m, t, hv, h3, h4, hs, hx⟩; exact ⟨dir, n, m, hv, ⟨t, h3, h4⟩, hs, hx⟩

/-- C114: with a plain extension that has no `�` in it, the tool does with names of any bytes what it does with names of characters:
all that is said of `plot` for all names, file systems and ids holds. -/
theorem C114_plain (fuel : Nat) (context : FilePath) (ext : List Char) (he : PlainExt ext) (hr : '�' ∉ ext) (fs : Fs)
    (walked : List FilePath) (i : Option FilePath) (c : Subcommand) :
    osPlot fuel context ext fs walked i c = plot fuel ⟨context, bytesOf ext⟩ fs walked i c :=
  osPlot_plain he hr fuel context fs walked i c

/-- C114: in particular, what is listed can be loaded if its name has one dot, whatever else is in it. -/
theorem C114_load (fuel : Nat) (context : FilePath) (ext : List Char) (he : PlainExt ext) (hr : '�' ∉ ext)
    (ignored : FilePath → Bool) (fs : Fs) (walked : List FilePath) (hw : Walk ignored context fs walked) (i : Option FilePath)
    (dir : FilePath) (stem : Name) (hv : Visible ignored context fs (dir ++ [stem ++ '.' :: bytesOf ext])) (hd : '.' ∉ stem) :
    ∃ ran, osPlot fuel context ext fs walked i .list = some ran ∧ dir ++ [stem] ∈ ran.stdout ∧
      (osRepo context ext).findById fs (dir ++ [stem]) =
        (fs.read (context ++ (dir ++ [stem ++ '.' :: bytesOf ext]))).map
          fun bytes => ⟨context ++ (dir ++ [stem ++ '.' :: bytesOf ext]), bytes⟩ := by
  obtain ⟨ran, h1, _, _, h2⟩ := C52_list_exact_partial fuel ⟨context, bytesOf ext⟩ he.inBytes ignored fs walked hw i
  refine ⟨ran, (C114_plain fuel context ext he hr fs walked i .list).trans h1, (h2 _).2 (.inl ⟨_, hv, ?_⟩),
    (C54_iff_partial ⟨context, bytesOf ext⟩ he.inBytes ignored fs dir stem hv).1 hd⟩
  exact ⟨dir, stem, rfl, rfl⟩

/-- The byte of a number, for the examples. -/
def byte (n : Nat) : Char := Char.ofNat n

/-- Names that are no text: `x` and the byte `FF`; one of Latin-1. The last is text: `é` in UTF-8. -/
def rawFs : Fs where
  nodes := [(["home".toList], .dir), (["home".toList, 'x' :: byte 0xFF :: ".md".toList], .file [1]),
    (["home".toList, "x.".toList ++ [byte 0xFF]], .file [2]), (["home".toList, byte 0xE9 :: ".md".toList], .file [3]),
    (["home".toList, byte 0xC3 :: byte 0xA9 :: ".md".toList], .file [4])]
  cwd := []

def rawWalk : List FilePath :=
  [["home".toList], ["home".toList, 'x' :: byte 0xFF :: ".md".toList], ["home".toList, "x.".toList ++ [byte 0xFF]],
    ["home".toList, byte 0xE9 :: ".md".toList], ["home".toList, byte 0xC3 :: byte 0xA9 :: ".md".toList]]

theorem rawWalk_walk : Walk (fun _ => false) ["home".toList] rawFs rawWalk :=
  walk_by ["home".toList] [['x' :: byte 0xFF :: ".md".toList], ["x.".toList ++ [byte 0xFF]], [byte 0xE9 :: ".md".toList],
    [byte 0xC3 :: byte 0xA9 :: ".md".toList]] (by decide) (by decide +kernel) (by decide +kernel) (by decide +kernel) (by decide +kernel)
    (by decide +kernel) (by decide +kernel) (by decide +kernel)

theorem rawFs_unix : rawFs.Unix := by unfold Fs.Unix AreBytes; decide +kernel

example : (osPlot 0 ["home".toList] "md".toList rawFs rawWalk none .list).map Ran.stdout =
    some [[['x', byte 0xFF]], [[byte 0xC3, byte 0xA9]], [[byte 0xE9]]] := by decide +kernel

/-- C114: an extension with `�` in it is another matter. A document is listed that is not there: its name ends with a byte that is no
text, and `�` stands for that when names are matched, but not when files are read. -/
theorem C114_replacement : ∃ ran, osPlot 0 ["home".toList] "�".toList rawFs rawWalk none .list = some ran ∧
    ran.stdout = [["x".toList]] ∧ (∃ b, rawFs.read ["home".toList, "x.".toList ++ [byte 0xFF]] = some b) ∧
    (osRepo ["home".toList] "�".toList).findById rawFs ["x".toList] = none := by
  have h : (osPlot 0 ["home".toList] "�".toList rawFs rawWalk none .list).map Ran.stdout = some [["x".toList]] := by decide +kernel
  obtain ⟨ran, h1, h2⟩ := Option.map_eq_some_iff.1 h
  exact ⟨ran, h1, h2, ⟨[2], by decide +kernel⟩, by decide +kernel⟩

/-! ## The text of a listing -/

/-- C114: what is listed is written one line for each id, in order: a string literal in which bytes that are no text are written by
their number. -/
theorem C114_lines (plain : Char → Bool) (fuel : Nat) (context : FilePath) (ext : List Char) (re : Re) (hre : Alts (writtenExt ext) re)
    (ignored : FilePath → Bool) (fs : Fs) (hf : fs.Unix) (walked : List FilePath) (hw : Walk ignored context fs walked)
    (i : Option FilePath) :
    ∃ ran, osPlot fuel context ext fs walked i .list = some ran ∧ OsLines (osListText plain ran.stdout) ran.stdout := by
  obtain ⟨ran, h1, _, _, h2⟩ := C114_list fuel context ext re hre ignored fs walked hw i
  refine ⟨ran, h1, osListText_lines plain _ fun p hp => ?_⟩
  rcases (h2 p).1 hp with ⟨dir, n, m, _, hv, _, _, hs, rfl⟩ | ⟨rfl, _⟩
  · refine ⟨visible_spells (fun e he n hn => (hf e he n hn).2) hv hs, ?_⟩
    obtain ⟨_, ⟨_, x, _, hx⟩, _, _⟩ := hv
    have hb : ∀ k ∈ dir ++ [n], AreBytes k := fun k hk => (hf _ hx k (List.mem_append.2 (.inr hk))).1
    intro k hk
    rcases List.mem_append.1 hk with hk | hk
    · exact hb k (by simp [hk])
    · rw [List.mem_singleton] at hk
      subst hk
      have := hb n (by simp)
      rcases hs with ⟨_, rfl⟩ | ⟨e, _, rfl⟩
      · exact this
      · exact fun c hc => this c (by simp [hc])
  · exact ⟨⟨[], .empty⟩, fun n hn => by cases hn⟩

/-- C114: and these can be read in one way only, so no two different listings look the same, nor do any two ids in one. -/
theorem C114_one_reading (s : List Char) (ids ids' : List FilePath) (h : OsLines s ids) (h' : OsLines s ids') : ids = ids' :=
  h.one_reading h'

example : (osPlot 0 ["home".toList] "md".toList rawFs rawWalk none .list).map (fun r => osListText asciiPlain r.stdout) =
    some "\"x\\xFF\"\n\"\\u{e9}\"\n\"\\xE9\"\n".toList := by decide +kernel

/-- A name in which that is written is told apart. -/
example : osListText asciiPlain [["\\xFF".toList]] = "\"\\\\xFF\"\n".toList := by decide +kernel

/-! ## Arguments -/

/-- C114: the command lines that run something are those of C87 in which every extension given, the id and the content are text. The
context may be anything. -/
theorem C114_grammar (ws : List Word) (v : Invocation) : osArgs ws = some v ↔ OsLine ws v := osArgs_iff ws v

/-- C114: any other command line is only complained about. -/
theorem C114_usage (fuel : Nat) (here : FilePath) (fs : Fs) (walk : FilePath → List FilePath) (ws : List Word) :
    osPlotline fuel here fs walk ws = some .usage ↔ ∀ v, ¬ OsLine ws v := by
  unfold osPlotline
  constructor
  · intro h v hv
    rw [(C114_grammar ws v).2 hv] at h
    simp only [Option.map_eq_some_iff, reduceCtorEq, and_false, exists_false] at h
  · intro h
    cases hp : osArgs ws with
    | none => rfl
    | some v => exact absurd ((C114_grammar ws v).1 hp) (h v)

/-- C114: which paths can be named: for every action, there is a command line for it whose id stands for the path exactly if the path
does not begin with `-` (C88) and all its names are text. So documents may be listed which cannot be deleted. -/
theorem C114_nameable (a : Action) (p : FilePath) :
    (∃ ws v i, OsLine ws v ∧ v.action = a ∧ v.id = some i ∧ Spells i p) ↔ Nameable p ∧ ∀ n ∈ p, IsText n := by
  constructor
  · rintro ⟨ws, v, i, hl, ha, hi, hs⟩
    have h1 := (osArgs_iff _ _).2 hl
    refine ⟨(C88_nameable_partial a p).1 ⟨ws, v, i, (C87_grammar ..).1 (osWords_words h1), ha, hi, hs⟩, ?_⟩
    have ht : IsText i := by
      cases hl with
      | mk _ _ _ _ _ _ _ _ h _ => exact h i hi
    obtain ⟨s, rfl⟩ := ht
    rw [← (C75_spelling _ _).1 hs, parsePath_text]
    intro n hn
    obtain ⟨m, _, rfl⟩ := List.mem_map.1 hn
    exact ⟨m, rfl⟩
  · rintro ⟨⟨⟨s, hs⟩, hp⟩, ht⟩
    obtain ⟨q, rfl⟩ : ∃ q, p = pathBytes q := by
      clear hs hp
      induction p with
      | nil => exact ⟨[], rfl⟩
      | cons n p ih =>
        obtain ⟨q, rfl⟩ := ih fun m hm => ht m (by simp [hm])
        obtain ⟨m, rfl⟩ := ht n (by simp)
        exact ⟨m :: q, rfl⟩
    obtain ⟨s', hw, hs', hno, hnr⟩ := nameable_word hs.write hp
    have hst : IsText s' := by
      rw [writePath_text] at hw
      rcases hw with rfl | rfl | rfl
      · exact ⟨_, rfl⟩
      · exact ⟨writePath q ++ ['/'], by rw [bytesOf_append]; rfl⟩
      · exact ⟨['-'], rfl⟩
    have hone : ∀ n, Calls a n → ∃ v i, OsLine ["doc".toList, s', n] v ∧ v.action = a ∧ v.id = some i ∧ Spells i (pathBytes q) := by
      intro n hn
      exact ⟨_, s', .mk (o1 := {}) (o2 := {}) (o3 := {}) (w1 := []) (w2 := [s']) (w3 := []) (id := some s') (content := none)
        .nil (.word hno hnr .nil) hn .nil (fun _ => rfl) .none .none .none (fun b hb => by cases hb; exact hst) .none, rfl, rfl, hs'⟩
    cases a with
    | delete => exact ⟨_, hone _ .delete⟩
    | list => exact ⟨_, hone _ .list⟩
    | save => exact ⟨_, hone _ .save⟩

/-- C114: what is saved are the bytes given. -/
theorem C114_content (here : FilePath) (fs : Fs) (walk : FilePath → List FilePath) (ws : List Word) (o : Options) (i b : Word)
    (hl : OsLine ws ⟨o, some i, .save, some b⟩) (hext : ∃ e re, Alts (writtenExt e) re ∧ bytesOf e = o.extension.getD "md".toList)
    (p : FilePath) (hp : Spells i p) :
    ∃ fuel0 ran bytes, (∀ fuel, fuel0 ≤ fuel → osPlotline fuel here fs walk ws = some (.ran ran)) ∧ ran.result = .ret (.ok ()) ∧
      ran.schema.guard.get p = some ⟨p, some ⟨p, bytes⟩⟩ ∧ bytes.map byteChar = b := by
  obtain ⟨e, re, hre, he⟩ := hext
  have hx : (o.extension.bind asText).getD "md".toList = e := by
    cases ho : o.extension with
    | none =>
      rw [ho] at he
      exact (bytesOf_injective (he.trans (show "md".toList = bytesOf "md".toList by decide +kernel))).symm
    | some w =>
      rw [ho] at he
      show (asText w).getD _ = e
      rw [show w = bytesOf e from he.symm, asText_bytesOf]; rfl
  have hbt : IsText b := by
    cases hl with
    | mk _ _ _ _ _ _ _ _ _ h => exact h b rfl
  obtain ⟨s, rfl⟩ := hbt
  obtain ⟨fuel0, ran, h1, h2, _, h3⟩ := execute_save fs
    (osAll ((o.context.map parsePath).getD here) e (walk ((o.context.map parsePath).getD here))) p (some (utf8 s))
  refine ⟨fuel0, ran, utf8 s, fun fuel hf => ?_, h2, ?_, utf8_bytes s⟩
  · unfold osPlotline
    rw [(osArgs_iff _ _).2 hl]
    simp only [hx, Option.map_some, (C75_spelling _ _).1 hp, asText_bytesOf, Option.getD_some]
    rw [osPlot_ok ((C72_grammar _ _).2 hre)]
    exact congrArg (Option.map Process.ran) (h1 fuel hf)
  · rw [h3, if_pos rfl]; rfl

/-- An id that is no text stops the tool, a context does not; nor does content after `--`, if it is text. -/
example : osArgs ["doc".toList, [byte 0xFF], "delete".toList] = none ∧
    osArgs ["-C".toList, [byte 0xFF], "doc".toList, "ls".toList] = some ⟨⟨some [byte 0xFF], none⟩, none, .list, none⟩ ∧
    osArgs ["-e".toList, [byte 0xFF], "doc".toList, "-emd".toList, "ls".toList] = none ∧
    osArgs ["doc".toList, "a".toList, "save".toList, "--".toList, [byte 0xC3]] = none ∧
    osArgs ["doc".toList, "a".toList, "save".toList, "--".toList, [byte 0xC3, byte 0xA9]] =
      some ⟨{}, some "a".toList, .save, some [byte 0xC3, byte 0xA9]⟩ := by decide +kernel

/-- The document `x` with the byte `FF` is listed, and there is no way to delete it. -/
example : [['x', byte 0xFF]] ∈ ((osPlot 0 ["home".toList] "md".toList rawFs rawWalk none .list).map Ran.stdout).getD [] ∧
    ∀ ws v i, OsLine ws v → v.action = .delete → v.id = some i → ¬ Spells i [['x', byte 0xFF]] := by
  refine ⟨by decide +kernel, fun ws v i h1 h2 h3 h4 => ?_⟩
  have := ((C114_nameable .delete _).1 ⟨ws, v, i, h1, h2, h3, h4⟩).2 ['x', byte 0xFF] (by simp)
  exact absurd (isText_iff.2 this) (by decide +kernel)

/-! ## Text again -/

/-- C114: where all names, links and words are text, the tool does what is said of it in `plotline`, in bytes. -/
theorem C114_text (here : FilePath) (fs : Fs) (walk walk' : FilePath → List FilePath)
    (hw : ∀ c, walk' (pathBytes c) = (walk c).map pathBytes) (ws : List Word) :
    ∃ fuel0, ∀ fuel, fuel0 ≤ fuel → SameEnd (plotline fuel here fs walk ws)
      (osPlotline fuel (pathBytes here) fs.inBytes walk' (ws.map bytesOf)) :=
  osPlotline_text here fs walk walk' hw ws

/-- C114: so it is with what is read, -/
theorem C114_text_read (context : FilePath) (ext : List Char) (fs : Fs) (i : FilePath) :
    (osRepo (pathBytes context) ext).findById fs.inBytes (pathBytes i) =
      ((⟨context, ext⟩ : LocalRepo).findById fs i).map fun d => ⟨pathBytes d.path, d.bytes⟩ := findById_text context ext fs i

/-- C114: with what is printed, -/
theorem C114_text_lines (plain : Char → Bool) (ids : List FilePath) : osListText plain (ids.map pathBytes) = listText plain ids := by
  unfold osListText listText
  rw [List.flatMap_map]
  congr 1
  funext p
  rw [osDebug_text]

/-- C114: and with the walks there may be. -/
theorem C114_text_walk (ignored ignored' : FilePath → Bool) (hi : ∀ p, ignored' (pathBytes p) = ignored p) (ctx : FilePath) (fs : Fs)
    (walked : List FilePath) (hw : Walk ignored ctx fs walked) : Walk ignored' (pathBytes ctx) fs.inBytes (walked.map pathBytes) :=
  walk_text ignored ignored' hi ctx fs walked hw

/-- Documents with umlauts. -/
def umlautFs : Fs where
  nodes := [(["home".toList], .dir), (["home".toList, "ä.md".toList], .file [1]), (["home".toList, "z.md".toList], .file [2])]
  cwd := []

example : (osPlotline 20 [bytesOf "home".toList] umlautFs.inBytes
      (fun c => [["home".toList], ["home".toList, "ä.md".toList], ["home".toList, "z.md".toList]].map pathBytes)
      ["doc".toList, "ls".toList]).map (fun | .usage => [] | .ran r => osListText (fun c => asciiPlain c || c = 'ä') r.stdout) =
    some "\"z\"\n\"ä\"\n".toList := by decide +kernel

example : (osRepo ["home".toList] "md".toList).findById umlautFs.inBytes [bytesOf "ä".toList] =
    some ⟨["home".toList, bytesOf "ä.md".toList], [1]⟩ := by decide +kernel

end Plotline
