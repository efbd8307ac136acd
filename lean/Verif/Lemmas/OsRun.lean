import Verif.Lemmas.OsPath

/-! # Command lines that are text, in bytes -/

namespace Plotline

/-- What a word in text looks like, in bytes. -/
def Look.inBytes : Look → Look
  | .option o v => .option o (v.map bytesOf)
  | l => l

theorem splitEq_text (w : Word) : splitEq (bytesOf w) = (bytesOf (splitEq w).1, (splitEq w).2.map bytesOf) := by
  have he : '='.toNat < 0x80 := by decide
  cases h : (splitEq w).2 with
  | none =>
    obtain ⟨h1, h2⟩ := splitEq_none.1 (show splitEq w = ((splitEq w).1, none) by rw [← h])
    rw [h2]
    exact splitEq_none.2 ⟨fun h => h1 ((mem_bytesOf he).1 h), rfl⟩
  | some v =>
    obtain ⟨h1, h2⟩ := splitEq_some.1 (show splitEq w = ((splitEq w).1, some v) by rw [← h])
    exact splitEq_some.2 ⟨fun h => h1 ((mem_bytesOf he).1 h), by
      have := congrArg bytesOf h2
      rwa [bytesOf_append, bytesOf_ascii he] at this⟩

theorem joined_text (w : Word) : joined (bytesOf w) = (joined w).map bytesOf := by
  have he : '='.toNat < 0x80 := by decide
  cases h : joined w with
  | none => rw [joined_none] at h; subst h; rfl
  | some v =>
    refine joined_some.2 ?_
    rcases joined_some.1 h with ⟨h1, h2, rfl⟩ | rfl
    · refine .inl ⟨fun h => h1 (bytesOf_eq_nil.1 h), ?_, rfl⟩
      cases w with
      | nil => exact absurd rfl h1
      | cons c w =>
        intro hh
        refine h2 ?_
        rw [bytesOf_cons] at hh
        cases hc : charBytes c with
        | nil => exact absurd hc (charBytes_ne_nil c)
        | cons x l =>
          rw [hc] at hh
          cases hh
          rw [(mem_charBytes he).1 (show '=' ∈ charBytes c by rw [hc]; simp)]; rfl
    · exact .inr (bytesOf_ascii he _)

theorem charBytes_head {c d : Char} (hd : d.toNat < 0x80) (hc : c ≠ d) : ∃ x l, charBytes c = x :: l ∧ x ≠ d := by
  cases h : charBytes c with
  | nil => exact absurd h (charBytes_ne_nil c)
  | cons x l => exact ⟨x, l, rfl, fun e => hc ((mem_charBytes hd).1 (by rw [h, e]; simp))⟩

theorem look_text (w : Word) : look (bytesOf w) = (look w).inBytes := by
  have hd : '-'.toNat < 0x80 := by decide
  rcases word_cases w with h | rfl | ⟨u, hu, rfl⟩ | ⟨c, u, hc, rfl⟩
  · rw [look_plain_of h]
    refine look_plain_of ?_
    rcases h with rfl | h
    · exact .inl rfl
    · cases w with
      | nil => exact .inr (by simp [bytesOf])
      | cons c w =>
        obtain ⟨x, l, h1, h2⟩ := charBytes_head hd (c := c) (fun e => h (by rw [e]; rfl))
        exact .inr (by rw [bytesOf_cons, h1]; simpa using h2)
  · rfl
  · rw [bytesOf_ascii hd, bytesOf_ascii hd, look_long hu, look_long (fun h => hu (bytesOf_eq_nil.1 h)), splitEq_text]
    have hn : ∀ (o : Opt) (n : Word), bytesOf n = o.name ↔ n = o.name := by
      intro o n
      rw [show o.name = bytesOf o.name by cases o <;> decide +kernel]
      constructor
      · intro h
        rw [← show o.name = bytesOf o.name by cases o <;> decide +kernel]
        exact bytesOf_injective h
      · intro h; rw [h]; cases o <;> decide +kernel
    simp only [hn]
    split
    · rfl
    split <;> rfl
  · obtain ⟨x, l, h1, h2⟩ := charBytes_head hd hc
    rw [bytesOf_ascii hd, bytesOf_cons, h1, List.cons_append, look_short h2, look_short hc]
    have hl : ∀ o : Opt, o.letter.toNat < 0x80 := by intro o; cases o <;> decide
    have he : ∀ o : Opt, x = o.letter ↔ c = o.letter := by
      intro o
      constructor
      · intro e
        exact (mem_charBytes (hl o)).1 (by rw [h1, e]; simp)
      · intro e
        subst e
        rw [charBytes_ascii (hl o)] at h1
        exact (List.cons.inj h1).1.symm
    have hj : ∀ o : Opt, c = o.letter → joined (l ++ bytesOf u) = (joined u).map bytesOf := by
      intro o e
      subst e
      rw [charBytes_ascii (hl o)] at h1
      rw [← (List.cons.inj h1).2]
      exact joined_text u
    simp only [he]
    split
    · rename_i e; rw [hj _ e]; rfl
    split
    · rename_i e; rw [hj _ e]; rfl
    · rfl

theorem named_text (l : Level) (w : Word) : l.named (bytesOf w) = l.named w := by
  have k : ∀ t : List Char, bytesOf t = t → (bytesOf w = t ↔ w = t) := by
    intro t ht
    constructor
    · intro h; exact bytesOf_injective (h.trans ht.symm)
    · rintro rfl; exact ht
  cases l with
  | tool => simp only [Level.named, k "doc".toList (by decide +kernel), k "help".toList (by decide +kernel)]
  | doc =>
    simp only [Level.named, k "delete".toList (by decide +kernel), k "list".toList (by decide +kernel), k "ls".toList (by decide +kernel),
      k "save".toList (by decide +kernel), k "help".toList (by decide +kernel)]
  | action a => rfl

/-- What has been read, in bytes. -/
def Reading.inBytes (r : Reading) : Reading :=
  { r with here := r.here.inBytes, around := r.around.inBytes, id := r.id.map bytesOf, content := r.content.map bytesOf }

theorem map_eq_none {w : Option Word} : w.map bytesOf = none ↔ w = none := Option.map_eq_none_iff

theorem give_text (s : Options) (o : Opt) (v : Word) : s.inBytes.give o (bytesOf v) = (s.give o v).map Options.inBytes := by
  cases o with
  | context =>
    simp only [Options.give, Options.inBytes, map_eq_none, ne_eq, bytesOf_eq_nil]
    split <;> rfl
  | extension =>
    simp only [Options.give, Options.inBytes, map_eq_none]
    split <;> rfl

theorem over_text (s t : Options) : s.inBytes.over t.inBytes = (s.over t).inBytes := by
  simp only [Options.over, Options.inBytes, Options.mk.injEq]
  constructor
  · cases s.context <;> rfl
  · cases s.extension <;> rfl

theorem positional_text (r : Reading) (w : Word) : r.inBytes.positional (bytesOf w) = (r.positional w).map Reading.inBytes := by
  unfold Reading.positional
  simp only [Reading.inBytes, map_eq_none]
  split
  · split <;> rfl
  · split <;> rfl
  · rfl

theorem word_text (r : Reading) (w : Word) : r.inBytes.word (bytesOf w) = (r.word w).map Reading.inBytes := by
  unfold Reading.word
  rw [show r.inBytes.escaped = r.escaped from rfl, show r.inBytes.pending = r.pending from rfl, show r.inBytes.level = r.level from rfl,
    named_text, look_text, positional_text]
  split
  · rfl
  split
  · rfl
  · split
    · simp only [Option.map_some, Reading.inBytes, over_text]
      rfl
    · rfl
  · cases look w with
    | plain =>
      cases r.pending with
      | none => rfl
      | some o =>
        show (r.here.inBytes.give o (bytesOf w)).map _ = _
        rw [give_text, Option.map_map, Option.map_map]
        rfl
    | option o v =>
      cases v with
      | none => cases r.pending <;> rfl
      | some v =>
        cases r.pending with
        | none =>
          show (r.here.inBytes.give o (bytesOf v)).map _ = _
          rw [give_text, Option.map_map, Option.map_map]
          rfl
        | some p => rfl
    | escape => cases r.pending <;> rfl
    | other => rfl

theorem isText_bytesOf (s : List Char) : IsText (bytesOf s) := ⟨s, rfl⟩

theorem textual_inBytes (r : Reading) : r.inBytes.textual = true := by
  have k : ∀ o : Option Word, TextIfAny (o.map bytesOf) := by
    intro o b h
    obtain ⟨s, _, rfl⟩ := Option.map_eq_some_iff.1 h
    exact ⟨s, rfl⟩
  exact (textual_iff _).2 ⟨k _, k _, k _⟩

theorem osWords_text (r : Reading) (ws : List Word) : r.inBytes.osWords (ws.map bytesOf) = (r.words ws).map Invocation.inBytes := by
  induction ws generalizing r with
  | nil =>
    simp only [List.map_nil, Reading.osWords, textual_inBytes, if_true, Reading.words, Reading.done]
    rw [show r.inBytes.level = r.level from rfl, show r.inBytes.pending = r.pending from rfl]
    cases r.level with
    | action a =>
      cases r.pending with
      | none =>
        simp only [Option.map_some, Invocation.inBytes, ← over_text]
        rfl
      | some o => rfl
    | tool => rfl
    | doc => rfl
  | cons w ws ih =>
    simp only [List.map_cons, Reading.osWords, textual_inBytes, if_true, Reading.words, word_text]
    cases r.word w with
    | none => rfl
    | some q => exact ih q

theorem osArgs_text (ws : List Word) : osArgs (ws.map bytesOf) = (parseArgs ws).map Invocation.inBytes := osWords_text {} ws

/-! ## Runs -/

/-- What a graph of documents that are not loaded holds. -/
theorem docs_get (ids : List FilePath) (q : FilePath) :
    (Graph.fromIter (ids.map LazyDocument.build) : Graph FilePath (LazyDocument FilePath Document)).get q =
      if q ∈ ids then some ⟨q, none⟩ else none := by
  have hget : (Graph.fromIter (ids.map LazyDocument.build) : Graph FilePath (LazyDocument FilePath Document)).get q =
      (ids.map LazyDocument.build : List (LazyDocument FilePath Document)).reverse.find? (fun n => q == Plotline.id n) := by
    rw [Graph.fromIter_eq, Graph.get_foldl_insert _ _ Graph.valid_empty]
    show Option.or _ none = _
    rw [Option.or_none]
  rw [hget]
  split
  · rename_i h
    have hs : ((ids.map LazyDocument.build : List (LazyDocument FilePath Document)).reverse.find? (fun n => q == Plotline.id n)).isSome := by
      rw [List.find?_isSome]
      exact ⟨LazyDocument.build q, List.mem_reverse.2 (List.mem_map.2 ⟨q, h, rfl⟩), BEq.rfl⟩
    obtain ⟨m, hm⟩ := Option.isSome_iff_exists.1 hs
    rw [hm]
    obtain ⟨i, _, rfl⟩ := List.mem_map.1 (List.mem_reverse.1 (List.mem_of_find?_eq_some hm))
    have hq := List.find?_some (p := fun n : LazyDocument FilePath Document => q == Plotline.id n) hm
    have : q = i := eq_of_beq hq
    rw [this]; rfl
  · rename_i h
    rw [List.find?_eq_none]
    intro m hm
    obtain ⟨i, hi, rfl⟩ := List.mem_map.1 (List.mem_reverse.1 hm)
    intro e
    have : q = i := eq_of_beq e
    exact h (this ▸ hi)

/-- The ids of the documents in a directory. -/
def LocalRepo.ids (r : LocalRepo) (walked : List FilePath) : List FilePath :=
  (walked.filter (matchesExt r.extension)).filterMap fun p => r.context.isPrefixOf? (withExtension p [])

theorem osAll_text (context : FilePath) (ext : List Char) (walked : List FilePath) :
    osAll (pathBytes context) ext (walked.map pathBytes) = (((⟨context, ext⟩ : LocalRepo).ids walked).map pathBytes).map LazyDocument.build := by
  unfold osAll LocalRepo.ids
  congr 1
  rw [List.filter_map, List.filterMap_map, List.map_filterMap]
  rw [List.filter_congr (p := osMatches ext ∘ pathBytes) (q := matchesExt ext) fun p _ => osMatches_text ext p]
  congr 1
  funext p
  show (pathBytes context).isPrefixOf? (withExtension (pathBytes p) (bytesOf [])) = _
  rw [withExtension_text, isPrefixOf?_text]

theorem start_get (context : FilePath) (ext : List Char) (walked : List FilePath) (q : FilePath) :
    (osSchema (pathBytes context) ext (walked.map pathBytes)).guard.get (pathBytes q) =
      (((⟨context, ext⟩ : LocalRepo).schema walked).guard.get q).map LazyDocument.inBytes := by
  have h1 : (osSchema (pathBytes context) ext (walked.map pathBytes)).guard.get (pathBytes q) =
      if pathBytes q ∈ ((⟨context, ext⟩ : LocalRepo).ids walked).map pathBytes then some ⟨pathBytes q, none⟩ else none := by
    rw [guard_eq, ← docs_get, ← osAll_text]; rfl
  have h2 : ((⟨context, ext⟩ : LocalRepo).schema walked).guard.get q =
      if q ∈ (⟨context, ext⟩ : LocalRepo).ids walked then some ⟨q, none⟩ else none := by
    rw [guard_eq, ← docs_get]; rfl
  have h3 : pathBytes q ∈ ((⟨context, ext⟩ : LocalRepo).ids walked).map pathBytes ↔ q ∈ (⟨context, ext⟩ : LocalRepo).ids walked := by
    rw [List.mem_map]
    constructor
    · rintro ⟨p, hp, e⟩; rwa [← pathBytes_eq.1 e]
    · intro h; exact ⟨q, h, rfl⟩
  rw [h1, h2]
  simp only [h3]
  split <;> rfl

theorem listed_mem (context : FilePath) (ext : List Char) (walked : List FilePath) (q : FilePath) :
    pathBytes q ∈ ((osSchema (pathBytes context) ext (walked.map pathBytes)).guard.iter.map fun node => node.id) ↔
      q ∈ (((⟨context, ext⟩ : LocalRepo).schema walked).guard.iter.map fun node => node.id : List FilePath) := by
  rw [listed_text, List.mem_map]
  constructor
  · rintro ⟨p, hp, e⟩; rwa [← pathBytes_eq.1 e]
  · intro h; exact ⟨q, h, rfl⟩

/-- A run after its arguments are read. -/
theorem osPlot_text (context : FilePath) (ext : List Char) (fs : Fs) (walked : List FilePath) (i : Option FilePath) (c : Subcommand) :
    ∃ fuel0, ∀ fuel, fuel0 ≤ fuel → SameEnd ((plot fuel ⟨context, ext⟩ fs walked i c).map .ran)
      ((osPlot fuel (pathBytes context) ext fs.inBytes (walked.map pathBytes) (i.map pathBytes) c).map .ran) := by
  cases hre : extPattern ext with
  | unmodelled =>
    refine ⟨0, fun fuel _ => ?_⟩
    unfold plot osPlot
    rw [hre]; exact .unknown
  | invalid =>
    refine ⟨0, fun fuel _ => ?_⟩
    unfold plot osPlot
    rw [hre]; exact .ran rfl rfl (fun _ => rfl) rfl
  | ok re =>
    have start := start_get context ext walked
    cases c with
    | list =>
      refine ⟨0, fun fuel _ => ?_⟩
      rw [plot_ok hre, osPlot_ok hre]
      exact .ran rfl (listed_text context ext walked) start rfl
    | delete =>
      cases i with
      | none =>
        refine ⟨0, fun fuel _ => ?_⟩
        rw [plot_ok hre, osPlot_ok hre]
        exact .ran rfl rfl start rfl
      | some i =>
        obtain ⟨f1, a, a1, a2, a3⟩ := execute_delete fs ((⟨context, ext⟩ : LocalRepo).all walked) i
        obtain ⟨f2, b, b1, b2, b3⟩ := execute_delete fs.inBytes (osAll (pathBytes context) ext (walked.map pathBytes)) (pathBytes i)
        refine ⟨max f1 f2, fun fuel hf => ?_⟩
        have ha : execute fuel fs ((⟨context, ext⟩ : LocalRepo).schema walked) (some i) .delete = some a := a1 fuel (by omega)
        have hb : execute fuel fs.inBytes (osSchema (pathBytes context) ext (walked.map pathBytes)) (some (pathBytes i)) .delete = some b :=
          b1 fuel (by omega)
        rw [plot_ok hre, osPlot_ok hre, Option.map_some, ha, hb]
        have hfa := execute_fs ha
        have hfb := execute_fs hb
        have hmem := listed_mem context ext walked i
        rcases a3 with ⟨m1, r1, g1⟩ | ⟨m1, r1, g1⟩
        · rcases b3 with ⟨m2, r2, g2⟩ | ⟨m2, r2, g2⟩
          · refine .ran (r2.trans r1.symm) (by rw [a2, b2]; rfl) (fun q => ?_) (by rw [hfb, hfa])
            rw [g1, g2]
            simp only [pathBytes_eq]
            split
            · rfl
            · exact start q
          · exact absurd (hmem.2 m1) m2
        · rcases b3 with ⟨m2, r2, g2⟩ | ⟨m2, r2, g2⟩
          · exact absurd (hmem.1 m2) m1
          · refine .ran (r2.trans r1.symm) (by rw [a2, b2]; rfl) (fun q => ?_) (by rw [hfb, hfa])
            rw [g1, g2]
            exact start q
    | save content =>
      cases i with
      | none =>
        refine ⟨0, fun fuel _ => ?_⟩
        rw [plot_ok hre, osPlot_ok hre]
        exact .ran rfl rfl start rfl
      | some i =>
        obtain ⟨f1, a, a1, a2, a3, a4⟩ := execute_save fs ((⟨context, ext⟩ : LocalRepo).all walked) i content
        obtain ⟨f2, b, b1, b2, b3, b4⟩ :=
          execute_save fs.inBytes (osAll (pathBytes context) ext (walked.map pathBytes)) (pathBytes i) content
        refine ⟨max f1 f2, fun fuel hf => ?_⟩
        have ha : execute fuel fs ((⟨context, ext⟩ : LocalRepo).schema walked) (some i) (.save content) = some a := a1 fuel (by omega)
        have hb : execute fuel fs.inBytes (osSchema (pathBytes context) ext (walked.map pathBytes)) (some (pathBytes i)) (.save content) = some b :=
          b1 fuel (by omega)
        rw [plot_ok hre, osPlot_ok hre, Option.map_some, ha, hb]
        refine .ran (b2.trans a2.symm) (by rw [a3, b3]; rfl) (fun q => ?_) (by rw [execute_fs ha, execute_fs hb])
        rw [a4, b4]
        simp only [pathBytes_eq]
        split
        · rfl
        · exact start q

theorem osPlotline_text (here : FilePath) (fs : Fs) (walk walk' : FilePath → List FilePath)
    (hw : ∀ c, walk' (pathBytes c) = (walk c).map pathBytes) (ws : List Word) :
    ∃ fuel0, ∀ fuel, fuel0 ≤ fuel → SameEnd (plotline fuel here fs walk ws)
      (osPlotline fuel (pathBytes here) fs.inBytes walk' (ws.map bytesOf)) := by
  unfold plotline osPlotline
  rw [osArgs_text]
  cases hv : parseArgs ws with
  | none => exact ⟨0, fun _ _ => .usage⟩
  | some v =>
    obtain ⟨fuel0, h⟩ := osPlot_text (v.repo here).context (v.repo here).extension fs (walk (v.repo here).context) (v.id.map parsePath) v.command
    refine ⟨fuel0, fun fuel hf => ?_⟩
    have hc : ((v.inBytes.options.context.map parsePath).getD (pathBytes here)) = pathBytes (v.repo here).context := by
      show ((v.options.context.map bytesOf).map parsePath).getD _ = pathBytes ((v.options.context.map parsePath).getD here)
      cases v.options.context with
      | none => rfl
      | some c => exact parsePath_text c
    have he : (v.inBytes.options.extension.bind asText).getD "md".toList = (v.repo here).extension := by
      show ((v.options.extension.map bytesOf).bind asText).getD _ = v.options.extension.getD _
      cases v.options.extension with
      | none => rfl
      | some e => show (asText (bytesOf e)).getD _ = e; rw [asText_bytesOf]; rfl
    have hi : v.inBytes.id.map parsePath = (v.id.map parsePath).map pathBytes := by
      show (v.id.map bytesOf).map parsePath = _
      cases v.id with
      | none => rfl
      | some i => exact congrArg some (parsePath_text i)
    have hm : (match v.inBytes.action with
        | .delete => Subcommand.delete
        | .list => .list
        | .save => .save (v.inBytes.content.map fun b => utf8 ((asText b).getD []))) = v.command := by
      show (match v.action with
        | .delete => Subcommand.delete
        | .list => .list
        | .save => .save ((v.content.map bytesOf).map fun b => utf8 ((asText b).getD []))) = v.command
      unfold Invocation.command
      cases v.action with
      | delete => rfl
      | list => rfl
      | save =>
        cases v.content with
        | none => rfl
        | some c => simp only [Option.map_some, asText_bytesOf]; rfl
    have := h fuel hf
    have e := congrArg (fun c => osPlot fuel ((v.inBytes.options.context.map parsePath).getD (pathBytes here))
      ((v.inBytes.options.extension.bind asText).getD "md".toList) fs.inBytes
      (walk' ((v.inBytes.options.context.map parsePath).getD (pathBytes here))) (v.inBytes.id.map parsePath) c) hm
    rw [show osPlot fuel (pathBytes (v.repo here).context) (v.repo here).extension fs.inBytes ((walk (v.repo here).context).map pathBytes)
      ((v.id.map parsePath).map pathBytes) v.command = _ from ?_] at this
    · simp only [Option.map_some]
      exact this
    · rw [← hw, ← hc, ← hi, ← he]
      exact e.symm

/-! ## Walks -/

theorem finds_text (fs : Fs) (ctx : FilePath) (root' : List Name) :
    fs.inBytes.Finds (pathBytes ctx) root' ↔ ∃ root, root' = pathBytes root ∧ fs.Finds ctx root := by
  unfold Fs.Finds
  rw [ne_eq, pathBytes_nil, ← follow_iff, show fs.inBytes.cwd = pathBytes fs.cwd from rfl, follow_text, Option.map_eq_some_iff]
  constructor
  · rintro ⟨h1, root, h2, rfl⟩; exact ⟨root, rfl, h1, follow_iff.1 h2⟩
  · rintro ⟨root, rfl, h1, h2⟩; exact ⟨h1, root, follow_iff.2 h2, rfl⟩

theorem pathBytes_split {p q : FilePath} {x : FilePath} (h : pathBytes p ++ x = pathBytes q) : ∃ r, x = pathBytes r ∧ q = p ++ r := by
  have h1 := (isPrefixOf?_some _ _ _).2 h.symm
  rw [isPrefixOf?_text] at h1
  obtain ⟨r, h2, rfl⟩ := Option.map_eq_some_iff.1 h1
  exact ⟨r, rfl, (isPrefixOf?_some _ _ _).1 h2⟩

theorem head_dot (n : Name) : (bytesOf n).head? ≠ some '.' ↔ n.head? ≠ some '.' := by
  cases n with
  | nil => exact ⟨fun _ => (by simp), fun _ => (by simp [bytesOf])⟩
  | cons c n =>
    by_cases hc : c = '.'
    · subst hc
      rw [bytesOf_ascii (by decide)]
      exact ⟨fun h => absurd rfl h, fun h => absurd rfl h⟩
    · obtain ⟨x, l, h1, h2⟩ := charBytes_head (d := '.') (by decide) hc
      rw [bytesOf_cons, h1]
      exact ⟨fun _ h => hc (Option.some.inj h), fun _ h => h2 (Option.some.inj h)⟩

theorem visible_text (ignored ignored' : FilePath → Bool) (hi : ∀ p, ignored' (pathBytes p) = ignored p) (ctx : FilePath) (fs : Fs)
    (rel' : FilePath) : Visible ignored' (pathBytes ctx) fs.inBytes rel' ↔ ∃ rel, rel' = pathBytes rel ∧ Visible ignored ctx fs rel := by
  have hstd : pathBytes ctx ≠ stdinPath ↔ ctx ≠ stdinPath :=
    not_congr (show pathBytes ctx = stdinPath ↔ _ from pathBytes_eq (q := stdinPath))
  constructor
  · rintro ⟨h1, ⟨root', n, ⟨h2, h3⟩, h4⟩, h5, h6⟩
    obtain ⟨root, rfl, k3⟩ := (finds_text _ _ _).1 h3
    obtain ⟨e, he, h7⟩ := List.mem_map.1 h4
    obtain ⟨rel, rfl, h8⟩ := pathBytes_split (congrArg Prod.fst h7).symm
    refine ⟨rel, rfl, fun h => h1 (by rw [h]; rfl), ⟨root, e.2, ⟨hstd.1 h2, k3⟩, by rw [← h8]; exact he⟩, fun m hm => ?_, ?_⟩
    · obtain ⟨k1, k2⟩ := h5 (bytesOf m) (List.mem_map.2 ⟨m, hm, rfl⟩)
      exact ⟨fun h => k1 (bytesOf_eq_nil.2 h), (head_dot m).1 k2⟩
    · rw [← hi]; exact h6
  · rintro ⟨rel, rfl, h1, ⟨root, n, ⟨h2, h3⟩, h4⟩, h5, h6⟩
    refine ⟨fun h => h1 (pathBytes_nil.1 h), ⟨pathBytes root, n.inBytes, ⟨hstd.2 h2, (finds_text _ _ _).2 ⟨root, rfl, h3⟩⟩, ?_⟩, ?_, ?_⟩
    · rw [← pathBytes_append]; exact List.mem_map.2 ⟨_, h4, rfl⟩
    · intro m' hm'
      obtain ⟨m, hm, rfl⟩ := List.mem_map.1 hm'
      obtain ⟨k1, k2⟩ := h5 m hm
      exact ⟨fun h => k1 (bytesOf_eq_nil.1 h), (head_dot m).2 k2⟩
    · rw [hi]; exact h6

theorem walk_text (ignored ignored' : FilePath → Bool) (hi : ∀ p, ignored' (pathBytes p) = ignored p) (ctx : FilePath) (fs : Fs)
    (walked : List FilePath) (hw : Walk ignored ctx fs walked) : Walk ignored' (pathBytes ctx) fs.inBytes (walked.map pathBytes) := by
  have hstd : pathBytes ctx = stdinPath ↔ ctx = stdinPath := pathBytes_eq (q := stdinPath)
  have hentry : pathBytes stdinEntry = stdinEntry := by decide +kernel
  refine ⟨List.pairwise_map.2 (hw.nodup.imp fun h e => h (pathBytes_eq.1 e)), fun p' => ?_⟩
  rw [List.mem_map]
  constructor
  · rintro ⟨p, hp, rfl⟩
    rcases (hw.mem p).1 hp with ⟨rfl, root, h1, h2⟩ | ⟨rel, hv, rfl⟩ | ⟨h1, rfl⟩
    · exact .inl ⟨rfl, pathBytes root, fun h => h1 (hstd.1 h), (finds_text _ _ _).2 ⟨root, rfl, h2⟩⟩
    · exact .inr (.inl ⟨pathBytes rel, (visible_text ignored ignored' hi _ _ _).2 ⟨rel, rfl, hv⟩, pathBytes_append _ _⟩)
    · exact .inr (.inr ⟨hstd.2 h1, hentry⟩)
  · rintro (⟨rfl, root', h1, h2⟩ | ⟨rel', hv, rfl⟩ | ⟨h1, rfl⟩)
    · obtain ⟨root, _, h3⟩ := (finds_text _ _ _).1 h2
      exact ⟨ctx, (hw.mem _).2 (.inl ⟨rfl, root, fun h => h1 (hstd.2 h), h3⟩), rfl⟩
    · obtain ⟨rel, rfl, hv'⟩ := (visible_text ignored ignored' hi _ _ _).1 hv
      exact ⟨ctx ++ rel, (hw.mem _).2 (.inr (.inl ⟨rel, hv', rfl⟩)), pathBytes_append _ _⟩
    · exact ⟨stdinEntry, (hw.mem _).2 (.inr (.inr ⟨hstd.1 h1, rfl⟩)), hentry⟩

/-! ## Content -/

theorem toList_loop (bs : ByteArray) (k i : Nat) (hk : bs.size - i = k) (r : List UInt8) :
    ByteArray.toList.loop bs i r = r.reverse ++ bs.data.toList.drop i := by
  induction k generalizing i r with
  | zero =>
    unfold ByteArray.toList.loop
    rw [if_neg (by omega), List.drop_eq_nil_of_le, List.append_nil]
    show bs.data.size ≤ i
    have : bs.data.size = bs.size := rfl
    omega
  | succ k ih =>
    unfold ByteArray.toList.loop
    have hi : i < bs.size := by omega
    rw [if_pos hi, ih (i + 1) (by omega)]
    have hd : i < bs.data.toList.length := hi
    rw [List.drop_eq_getElem_cons hd]
    have : bs.get! i = bs.data.toList[i] := by
      show bs.data[i]! = _
      rw [getElem!_pos bs.data i hi]
      rfl
    simp [this]

theorem utf8_bytes (s : List Char) : (utf8 s).map byteChar = bytesOf s := by
  unfold utf8 bytesOf
  rw [show (String.ofList s).toUTF8 = (s.flatMap String.utf8EncodeChar).toByteArray from String.toByteArray_ofList]
  rw [ByteArray.toList, toList_loop _ _ 0 rfl, List.data_toByteArray]
  simp [List.map_flatMap]
end Plotline
