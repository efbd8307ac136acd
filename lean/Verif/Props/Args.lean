import Verif.Lemmas.Args
import Verif.Props.Listing

/-! # Properties C87 and C88: command lines -/

namespace Plotline

open Std

/-! ## C87 -/

theorem over_over (a b c : Options) : (c.over (b.over a)) =
    ⟨innermost a.context b.context c.context, innermost a.extension b.extension c.extension⟩ := by
  cases a with | mk a1 a2 =>
  cases b with | mk b1 b2 =>
  cases c with | mk c1 c2 =>
  cases a1 <;> cases b1 <;> cases c1 <;> cases a2 <;> cases b2 <;> cases c2 <;> rfl

theorem over_none (s : Options) : s.over {} = s := by
  cases s with | mk a b => cases a <;> cases b <;> rfl

/-- At most one id. -/
theorem takeAll_doc {r : Reading} (hl : r.level = .doc) (hi : r.id = none) {ps : List Word} {r' : Reading} :
    r.takeAll ps = some r' ↔ ∃ id : Option Word, ps = id.toList ∧ r' = { r with id := id } := by
  cases ps with
  | nil =>
    simp only [Reading.takeAll, Option.some.injEq]
    constructor
    · rintro rfl; exact ⟨none, rfl, by rw [← hi]⟩
    · rintro ⟨id, h, rfl⟩
      cases id with
      | none => rw [← hi]
      | some _ => cases h
  | cons p ps =>
    have h1 : r.positional p = some { r with id := some p } := by simp [Reading.positional, hl, hi]
    simp only [Reading.takeAll, h1, Option.bind_some]
    cases ps with
    | nil =>
      simp only [Reading.takeAll, Option.some.injEq]
      constructor
      · rintro rfl; exact ⟨some p, rfl, rfl⟩
      · rintro ⟨id, h, rfl⟩
        cases id with
        | none => cases h
        | some _ => cases h; rfl
    | cons q ps =>
      have h2 : ({ r with id := some p } : Reading).positional q = none := by simp [Reading.positional, hl]
      simp only [Reading.takeAll, h2, Option.bind_none]
      constructor
      · intro h; cases h
      · rintro ⟨id, h, _⟩
        cases id <;> cases h

/-- Content for `save` only, and at most once. -/
theorem takeAll_action {r : Reading} {a : Action} (hl : r.level = .action a) (hi : r.content = none) {ps : List Word} {r' : Reading} :
    r.takeAll ps = some r' ↔
      ∃ content : Option Word, ps = content.toList ∧ (a ≠ .save → content = none) ∧ r' = { r with content := content } := by
  cases ps with
  | nil =>
    simp only [Reading.takeAll, Option.some.injEq]
    constructor
    · rintro rfl; exact ⟨none, rfl, fun _ => rfl, by rw [← hi]⟩
    · rintro ⟨content, h, _, rfl⟩
      cases content with
      | none => rw [← hi]
      | some _ => cases h
  | cons p ps =>
    by_cases ha : a = .save
    · subst ha
      have h1 : r.positional p = some { r with content := some p } := by simp [Reading.positional, hl, hi]
      simp only [Reading.takeAll, h1, Option.bind_some]
      cases ps with
      | nil =>
        simp only [Reading.takeAll, Option.some.injEq]
        constructor
        · rintro rfl; exact ⟨some p, rfl, fun h => absurd rfl h, rfl⟩
        · rintro ⟨content, h, _, rfl⟩
          cases content with
          | none => cases h
          | some _ => cases h; rfl
      | cons q ps =>
        have h2 : ({ r with content := some p } : Reading).positional q = none := by simp [Reading.positional, hl]
        simp only [Reading.takeAll, h2, Option.bind_none]
        constructor
        · intro h; cases h
        · rintro ⟨content, h, _⟩
          cases content <;> cases h
    · have h1 : r.positional p = none := by
        unfold Reading.positional
        rw [hl]
        cases a <;> first | rfl | exact absurd rfl ha
      simp only [Reading.takeAll, h1, Option.bind_none]
      constructor
      · intro h; cases h
      · rintro ⟨content, h, h2, _⟩
        rw [h2 ha] at h
        cases h

/-- C87: the tool runs exactly the command lines of its grammar, and what they say. -/
theorem C87_grammar (ws : List Word) (v : Invocation) : parseArgs ws = some v ↔ Line ws v := by
  constructor
  · intro h
    rcases words_split _ ws (Nat.le_refl _) {} rfl rfl h with ⟨s1, ps1, w1, n1, wr, r1, l1, rfl, h2, _, h4, h5, h6⟩ | ⟨_, _, a, _, _, _, h, _⟩
    · obtain ⟨rfl, rfl⟩ := named_tool.1 h4
      cases ps1 with
      | cons p ps => cases h5
      | nil =>
      cases h5
      rcases words_split _ wr (Nat.le_refl _) _ rfl rfl h6 with ⟨s2, ps2, w2, n2, w3, r2, l2, rfl, k2, _, k4, k5, k6⟩ |
        ⟨_, _, a, _, _, _, h, _⟩
      · obtain ⟨id, rfl, rfl⟩ := (takeAll_doc rfl rfl).1 k5
        obtain ⟨a, hc, rfl⟩ := named_enter.1 k4
        rcases words_split _ w3 (Nat.le_refl _) _ rfl rfl k6 with ⟨_, _, _, n3, _, _, l3, _, _, _, h, _⟩ |
          ⟨s3, ps3, a', r3, j1, _, j3, j4, j5⟩
        · cases h
        · obtain ⟨content, rfl, hs, rfl⟩ := (takeAll_action rfl rfl).1 j4
          cases j3
          subst j5
          simp only [over_none, over_over]
          exact .mk h2 k2 hc j1 hs
      · cases h
    · cases h
  · rintro ⟨h1, h2, hc, h3, hs⟩
    rename_i o1 o2 o3 w1 w2 w3 n a id content
    obtain ⟨e1, he1, g1⟩ := words_items h1 {} rfl rfl (fun h => by cases h) (fun _ _ _ h => by cases h) ⟨.inr rfl, .inr rfl⟩
      ("doc".toList :: (w2 ++ n :: w3)) (fun h => h.elim)
    obtain rfl := he1 (fun h => h)
    rw [parseArgs, g1]
    simp only [Reading.takeAll, Option.bind_some, over_none]
    have hdoc : ∀ r : Reading, r.level = .tool → r.escaped = false → r.pending = none → r.word "doc".toList =
        some { r with level := .doc, here := {}, around := r.here.over r.around } := by
      intro r k1 k2 k3
      simp only [Reading.word, k2, Bool.false_eq_true, if_false, k3, true_or, if_true, k1, named_tool.2 ⟨rfl, rfl⟩]
    rw [Reading.words, hdoc _ rfl rfl rfl, Option.bind_some]
    simp only [over_none]
    obtain ⟨e2, he2, g2⟩ := words_items h2 { level := .doc, around := o1 } rfl rfl (fun _ v => named_no.2)
      (fun _ _ k _ => named_no.2 k) ⟨.inr rfl, .inr rfl⟩ (n :: w3) (fun h => h.elim)
    obtain rfl := he2 (fun h => h)
    rw [g2, (takeAll_doc rfl rfl).2 ⟨id, rfl, rfl⟩, Option.bind_some, over_none]
    have hact : ∀ r : Reading, r.level = .doc → r.escaped = false → r.pending = none → r.word n =
        some { r with level := .action a, here := {}, around := r.here.over r.around } := by
      intro r k1 k2 k3
      simp only [Reading.word, k2, Bool.false_eq_true, if_false, k3, true_or, if_true, k1, named_enter.2 ⟨a, hc, rfl⟩]
    rw [Reading.words, hact _ rfl rfl rfl, Option.bind_some]
    obtain ⟨e3, _, g3⟩ := words_items h3 { level := .action a, around := o2.over o1, id := id } rfl rfl (fun h => by cases h)
      (fun _ _ _ _ => rfl) ⟨.inr rfl, .inr rfl⟩ [] (fun _ => rfl)
    rw [List.append_nil] at g3
    refine g3.trans ?_
    rw [(takeAll_action rfl rfl).2 ⟨content, rfl, hs, rfl⟩, Option.bind_some, over_none]
    simp only [Reading.words, Reading.done, over_over]

/-- C87: no command line says two things. -/
theorem C87_one_reading (ws : List Word) (v v' : Invocation) (h : Line ws v) (h' : Line ws v') : v = v' :=
  Option.some.inj (((C87_grammar ws v).2 h).symm.trans ((C87_grammar ws v').2 h'))

/-- C87: any other command line is only complained about. -/
theorem C87_usage (fuel : Nat) (here : FilePath) (fs : Fs) (walk : FilePath → List FilePath) (ws : List Word) :
    plotline fuel here fs walk ws = some .usage ↔ ∀ v, ¬ Line ws v := by
  unfold plotline
  constructor
  · intro h v hv
    rw [(C87_grammar ws v).2 hv] at h
    simp only [Option.map_eq_some_iff, reduceCtorEq, and_false, exists_false] at h
  · intro h
    cases hp : parseArgs ws with
    | none => rfl
    | some v => exact absurd ((C87_grammar ws v).1 hp) (h v)

/-- C87, from the words to the effect: saving. The options say where, the id is a path, the content is written in UTF-8. -/
theorem C87_save (here : FilePath) (fs : Fs) (walk : FilePath → List FilePath) (ws : List Word) (o : Options) (i : Word)
    (content : Option Word) (hl : Line ws ⟨o, some i, .save, content⟩) (r : LocalRepo)
    (hctx : r.context = match o.context with | some c => parsePath c | none => here)
    (hext : r.extension = match o.extension with | some e => e | none => ['m', 'd'])
    (hr : ∃ re, extPattern r.extension = .ok re) (p : FilePath) (hp : Spells i p) :
    ∃ fuel0 ran, (∀ fuel, fuel0 ≤ fuel → plotline fuel here fs walk ws = some (.ran ran)) ∧ ran.result = .ret (.ok ()) ∧
      ∀ q, ran.schema.guard.get q =
        if q = p then some ⟨p, some ⟨p, match content with | some c => (String.ofList c).toUTF8.toList | none => []⟩⟩
        else (r.schema (walk r.context)).guard.get q := by
  have hrep : (⟨o, some i, .save, content⟩ : Invocation).repo here = r := by
    cases r with | mk c e =>
    simp only at hctx hext
    subst hctx hext
    cases o with | mk oc oe => cases oc <;> cases oe <;> rfl
  obtain ⟨fuel0, ran, h1, h2, h3⟩ := C75_save fs r hr (walk r.context) i p hp (content.map utf8)
  refine ⟨fuel0, ran, fun fuel hf => ?_, h2, fun q => ?_⟩
  · unfold plotline
    rw [(C87_grammar ws _).2 hl]
    simp only [hrep]
    rw [show (⟨o, some i, .save, content⟩ : Invocation).command = .save (content.map utf8) from rfl, h1 fuel hf]
    rfl
  · rw [h3 q]
    cases content <;> rfl

/-- C87, from the words to the effect: deleting. -/
theorem C87_delete (here : FilePath) (fs : Fs) (walk : FilePath → List FilePath) (ws : List Word) (o : Options) (i : Word)
    (hl : Line ws ⟨o, some i, .delete, none⟩) (r : LocalRepo)
    (hctx : r.context = match o.context with | some c => parsePath c | none => here)
    (hext : r.extension = match o.extension with | some e => e | none => ['m', 'd'])
    (hr : ∃ re, extPattern r.extension = .ok re) (p : FilePath) (hp : Spells i p) :
    ∃ fuel0 ran, (∀ fuel, fuel0 ≤ fuel → plotline fuel here fs walk ws = some (.ran ran)) ∧
      (ran.result = .ret (.ok ()) ↔ p ∈ (r.schema (walk r.context)).guard.iter.map fun node => node.id) := by
  have hrep : (⟨o, some i, .delete, none⟩ : Invocation).repo here = r := by
    cases r with | mk c e =>
    simp only at hctx hext
    subst hctx hext
    cases o with | mk oc oe => cases oc <;> cases oe <;> rfl
  obtain ⟨fuel0, ran, h1, h2⟩ := C75_delete fs r hr (walk r.context) i p hp
  refine ⟨fuel0, ran, fun fuel hf => ?_, h2⟩
  unfold plotline
  rw [(C87_grammar ws _).2 hl]
  simp only [hrep]
  rw [show (⟨o, some i, .delete, none⟩ : Invocation).command = .delete from rfl, h1 fuel hf]
  rfl

/-- C87: every content can be given, whatever it looks like. -/
theorem C87_any_content (i c : Word) (hi : NoOption i) (hr : ¬ Reserved i) :
    Line ["doc".toList, i, "save".toList, "--".toList, c] ⟨{}, some i, .save, some c⟩ :=
  .mk (o1 := {}) (o2 := {}) (o3 := {}) (w1 := []) (w2 := [i]) (n := "save".toList) (w3 := ["--".toList, c])
    .nil (.word hi hr .nil) .save (.escape trivial) (fun h => absurd rfl h)

/-- Words of the examples. -/
def wordsOf (l : List String) : List Word := l.map String.toList

example : parseArgs (wordsOf ["-C", "doc", "doc", "-etxt", "a/b", "--context=x", "save", "--", "-C"]) =
    some ⟨⟨some "x".toList, some "txt".toList⟩, some "a/b".toList, .save, some "-C".toList⟩ := by decide +kernel

/-- The options may stand anywhere, an id may be missing. -/
example : parseArgs (wordsOf ["doc", "ls", "-e=md"]) = some ⟨⟨none, some "md".toList⟩, none, .list, none⟩ ∧
    parseArgs (wordsOf ["-e", "md", "doc", "ls"]) = parseArgs (wordsOf ["doc", "ls", "-e=md"]) := by decide +kernel

/-- Some that are complained about: an option twice, without its value, with the name of an action for one, or with an empty path;
two ids; an action for an id; content where there is none; nothing to do. -/
example : parseArgs (wordsOf ["-e", "a", "-e", "b", "doc", "ls"]) = none ∧ parseArgs (wordsOf ["doc", "ls", "-e"]) = none ∧
    parseArgs (wordsOf ["doc", "-e", "list", "ls"]) = none ∧ parseArgs (wordsOf ["-C", "", "doc", "ls"]) = none ∧
    parseArgs (wordsOf ["doc", "a", "b", "delete"]) = none ∧ parseArgs (wordsOf ["doc", "list", "delete"]) = none ∧
    parseArgs (wordsOf ["doc", "a", "delete", "b"]) = none ∧ parseArgs (wordsOf ["doc", "a"]) = none := by decide +kernel

/-- How a process ended, if it got to do something. -/
def Process.result : Process → Option (Out (Except CliError Unit))
  | .usage => none
  | .ran r => some r.result

/-- Whole runs: `b` is deleted, `c` is not there, and an option for an id stops the tool. -/
example : (plotline 20 [[]] homeFs (fun _ => homeWalk) (wordsOf ["-C", "home", "doc", "b", "delete"])).map Process.result =
      some (some (.ret (.ok ()))) ∧
    (plotline 20 ["home".toList] homeFs (fun _ => homeWalk) (wordsOf ["doc", "c", "delete"])).map Process.result =
      some (some (.ret (.error (.schema .noop)))) ∧
    (plotline 20 ["home".toList] homeFs (fun _ => homeWalk) (wordsOf ["doc", "-b", "delete"])).map Process.result =
      some none := by decide +kernel

/-! ## C88 -/

/-- The path can be given as an id: it can be written, and does not begin with `-` unless that is all of it. -/
def Nameable (p : FilePath) : Prop := (∃ s, Spells s p) ∧ (p = [['-']] ∨ ∀ n, p.head? = some n → n.head? ≠ some '-')

/-- A path that does not begin with `-` can be written so that it is not taken for anything else. -/
theorem nameable_word {s : Word} {p : FilePath} (hs : Spells s p) (hp : p = [['-']] ∨ ∀ n, p.head? = some n → n.head? ≠ some '-') :
    ∃ s', (s' = s ∨ s' = s ++ ['/'] ∨ s' = ['-']) ∧ Spells s' p ∧ NoOption s' ∧ ¬ Reserved s' := by
  rcases hp with rfl | hp
  · refine ⟨['-'], .inr (.inr rfl), .last (by simp) (by decide), .inl rfl, ?_⟩
    unfold Reserved; decide
  · have hno : NoOption s := by
      right
      cases hs with
      | empty => simp
      | root h => simp
      | last h1 h2 => exact hp _ rfl
      | @name m s p h1 h2 h3 =>
        have := hp m rfl
        cases m with
        | nil => exact absurd rfl h1
        | cons c m => exact this
    by_cases hr : Reserved s
    · have hslash : '/' ∉ s ∧ s ≠ [] ∧ s.getLast? ≠ some '/' := by
        rcases hr with rfl | rfl | rfl | rfl | rfl <;> decide
      have hp' : p = [s] := by
        rw [← (C75_spelling _ p).1 hs]
        exact (C75_spelling _ _).1 (.last hslash.2.1 hslash.1)
      subst hp'
      refine ⟨s ++ ['/'], .inr (.inl rfl), .name hslash.2.1 hslash.1 .nil, ?_, ?_⟩
      · rcases hno with rfl | hno
        · exact absurd rfl (hp _ rfl)
        · right
          cases s with
          | nil => exact absurd rfl hslash.2.1
          | cons c s => exact hno
      · intro h
        have : ∀ w : Word, '/' ∉ w → s ++ ['/'] ≠ w := fun w h e => h (by rw [← e]; simp)
        rcases h with h | h | h | h | h <;> exact this _ (by decide) h
    · exact ⟨s, .inl rfl, hs, hno, hr⟩

/-- C88, which paths can be named: for every action, there is a command line for it whose id stands for the path exactly if the path
does not begin with `-`. Missing from C88: that all listed ones are such (`C88_refuted`). -/
theorem C88_nameable_partial (a : Action) (p : FilePath) :
    (∃ ws v i, Line ws v ∧ v.action = a ∧ v.id = some i ∧ Spells i p) ↔ Nameable p := by
  constructor
  · rintro ⟨ws, v, i, hl, rfl, hi, hs⟩
    refine ⟨⟨i, hs⟩, ?_⟩
    have hno : NoOption i := by
      cases hl with
      | mk h1 h2 h3 h4 h5 =>
        simp only at hi
        subst hi
        simp only [Option.toList_some] at h2
        have : ∀ {s : Options} {ps w2 : List Word}, Items Reserved False s ps w2 → i ∈ ps → NoOption i := by
          intro s ps w2 h
          induction h with
          | nil => intro h; cases h
          | context _ _ _ _ ih => exact ih
          | extension _ _ _ ih => exact ih
          | word g1 _ _ ih =>
            intro h
            rcases List.mem_cons.1 h with rfl | h
            · exact g1
            · exact ih h
          | escape h => exact h.elim
        exact this h2 (by simp)
    rcases hno with rfl | hno
    · left
      rw [← (C75_spelling _ p).1 hs]
      rfl
    · right
      intro n hn
      cases hs with
      | empty => cases hn
      | root h => cases hn; simp
      | last h1 h2 => cases hn; exact hno
      | @name m s p h1 h2 h3 =>
        cases hn
        cases n with
        | nil => exact absurd rfl h1
        | cons c m => exact hno
  · rintro ⟨⟨s, hs⟩, hp⟩
    obtain ⟨s', _, hs', hno, hnr⟩ := nameable_word hs hp
    have hone : ∀ n, Calls a n → ∃ v i, Line ["doc".toList, s', n] v ∧ v.action = a ∧ v.id = some i ∧ Spells i p := by
      intro n hn
      exact ⟨_, s', .mk (o1 := {}) (o2 := {}) (o3 := {}) (w1 := []) (w2 := [s']) (w3 := []) (id := some s') (content := none)
        .nil (.word hno hnr .nil) hn .nil (fun _ => rfl), rfl, rfl, hs'⟩
    cases a with
    | delete => exact ⟨_, hone _ .delete⟩
    | list => exact ⟨_, hone _ .list⟩
    | save => exact ⟨_, hone _ .save⟩

/-- C88: whatever the tool lists, started in a directory with no options, can be deleted by its id, unless that begins with `-`. -/
theorem C88_listed_partial (here : FilePath) (fs : Fs) (hf : fs.Named) (ignored : FilePath → Bool) (walk : FilePath → List FilePath)
    (hw : Walk ignored here fs (walk here)) (fuel : Nat) :
    ∃ ran, plotline fuel here fs walk (wordsOf ["doc", "list"]) = some (.ran ran) ∧
      ∀ p ∈ ran.stdout, (∀ n, p.head? = some n → n.head? ≠ some '-') →
        ∃ i fuel0 ran', (∀ fuel, fuel0 ≤ fuel → plotline fuel here fs walk ["doc".toList, i, "delete".toList] = some (.ran ran')) ∧
          ran'.result = .ret (.ok ()) := by
  have hplain : PlainExt "md".toList := ⟨by decide, by decide⟩
  have hr : ∃ re, extPattern "md".toList = .ok re := ⟨_, extPattern_dotted hplain.dotted.2⟩
  obtain ⟨ran, h1, h2, h3, h4⟩ := C52_list_exact_partial fuel ⟨here, "md".toList⟩ hplain ignored fs (walk here) hw none
  have hlist : ran.stdout = ((⟨here, "md".toList⟩ : LocalRepo).schema (walk here)).guard.iter.map fun node => node.id := by
    have := (plot_ok hr.choose_spec fuel fs (walk here) none .list).symm.trans h1
    simp only [execute, Option.some.injEq] at this
    rw [← this]
  refine ⟨ran, ?_, fun p hp hn => ?_⟩
  · unfold plotline
    rw [show parseArgs (wordsOf ["doc", "list"]) = some ⟨{}, none, .list, none⟩ by decide +kernel]
    exact congrArg (Option.map Process.ran) h1
  · have hs : ∃ s, Spells s p := by
      rcases (h4 p).1 hp with ⟨rel, hv, dir, stem, rfl, rfl⟩ | ⟨rfl, _⟩
      · exact visible_spells hf hv (.inr ⟨"md".toList, by decide, rfl⟩)
      · exact ⟨[], .empty⟩
    obtain ⟨ws, v, i, hl, ha, hi, hs⟩ := (C88_nameable_partial .delete p).2 ⟨hs, .inr hn⟩
    have hno : NoOption i ∧ ¬ Reserved i := by
      cases hl with
      | mk h1 h2 h3 h4 h5 =>
        simp only at hi
        subst hi
        simp only [Option.toList_some] at h2
        have : ∀ {s : Options} {ps w2 : List Word}, Items Reserved False s ps w2 → i ∈ ps → NoOption i ∧ ¬ Reserved i := by
          intro s ps w2 h
          induction h with
          | nil => intro h; cases h
          | context _ _ _ _ ih => exact ih
          | extension _ _ _ ih => exact ih
          | word g1 g2 _ ih =>
            intro h
            rcases List.mem_cons.1 h with rfl | h
            · exact ⟨g1, g2⟩
            · exact ih h
          | escape h => exact h.elim
        exact this h2 (by simp)
    have hline : Line ["doc".toList, i, "delete".toList] ⟨{}, some i, .delete, none⟩ :=
      .mk (o1 := {}) (o2 := {}) (o3 := {}) (w1 := []) (w2 := [i]) (w3 := []) (id := some i) (content := none)
        .nil (.word hno.1 hno.2 .nil) .delete .nil (fun _ => rfl)
    obtain ⟨fuel0, ran', g1, g2⟩ := C87_delete here fs walk _ _ i hline ⟨here, "md".toList⟩ rfl rfl hr p hs
    exact ⟨i, fuel0, ran', g1, g2.2 (by rw [← hlist]; exact hp)⟩

/-- What a process printed of the listing. -/
def Process.stdout : Process → List FilePath
  | .usage => []
  | .ran r => r.stdout

/-- C88 is false of the tool: the file `-x.md` is listed, and no command line, with whatever options, has its id. -/
theorem C88_refuted : ∃ (here : FilePath) (fs : Fs) (walk : FilePath → List FilePath) (p : FilePath),
    Walk (fun _ => false) here fs (walk here) ∧ (∃ b, fs.read (here ++ ["-x.md".toList]) = some b) ∧
    (plotline 20 here fs walk (wordsOf ["doc", "list"])).map Process.stdout = some [p] ∧
    ∀ ws v i, parseArgs ws = some v → v.id = some i → ¬ Spells i p := by
  refine ⟨["home".toList], ⟨[(["home".toList], .dir), (["home".toList, "-x.md".toList], .file [7])], []⟩,
    fun _ => [["home".toList], ["home".toList, "-x.md".toList]], ["-x".toList], ?_, ⟨[7], by decide⟩, by decide +kernel, ?_⟩
  · exact walk_by ["home".toList] [["-x.md".toList]] (by decide) (by decide) (by decide) (by decide) (by decide) (by decide)
      (by decide) (by decide)
  · intro ws v i h hi hs
    obtain ⟨_, h | h⟩ := (C88_nameable_partial v.action ["-x".toList]).1 ⟨ws, v, i, (C87_grammar ws v).1 h, rfl, hi, hs⟩
    · exact absurd h (by decide)
    · exact h _ rfl (by decide)

/-- C88: a document named like an action needs a trailing separator; its id as it is listed is taken for the action. -/
theorem C88_reserved (w : Word) (hw : Reserved w) :
    (∀ rest v, parseArgs ("doc".toList :: w :: rest) = some v → v.id = none) ∧
    parseArgs ["doc".toList, w ++ ['/'], "delete".toList] = some ⟨{}, some (w ++ ['/']), .delete, none⟩ ∧ parsePath (w ++ ['/']) = [w] := by
  have hact : ∀ (r : Reading) (ws : List Word) (v : Invocation) (a : Action), r.level = .action a → r.words ws = some v → v.id = r.id := by
    intro r ws
    induction ws generalizing r with
    | nil =>
      intro v a h1 h2
      simp only [Reading.words, Reading.done] at h2
      split at h2
      · cases h2; rfl
      · cases h2
    | cons w ws ih =>
      intro v a h1 h2
      simp only [Reading.words] at h2
      cases hw : r.word w with
      | none => rw [hw] at h2; cases h2
      | some q =>
        rw [hw] at h2
        have : q.level = r.level ∧ q.id = r.id := by
          have hpos : ∀ q, r.positional w = some q → q.level = r.level ∧ q.id = r.id := by
            intro q hq
            unfold Reading.positional at hq
            rw [h1] at hq
            split at hq
            · rename_i h; cases h
            · split at hq
              · cases hq; exact ⟨h1.symm, rfl⟩
              · cases hq
            · cases hq
          simp only [Reading.word, h1, Level.named, ite_self] at hw
          split at hw
          · exact hpos q hw
          · split at hw
            · exact hpos q hw
            · obtain ⟨_, _, rfl⟩ := Option.map_eq_some_iff.1 hw; exact ⟨h1.symm, rfl⟩
            · cases hw; exact ⟨h1.symm, rfl⟩
            · obtain ⟨_, _, rfl⟩ := Option.map_eq_some_iff.1 hw; exact ⟨h1.symm, rfl⟩
            · cases hw; exact ⟨h1.symm, rfl⟩
            · cases hw
        rw [← this.2]
        exact ih q v a (this.1.trans h1) h2
  refine ⟨fun rest v h => ?_, ?_, ?_⟩
  · simp only [parseArgs, Reading.words] at h
    rw [show ({} : Reading).word "doc".toList = some { level := .doc } from rfl, Option.bind_some] at h
    have henter : ∀ a, Level.doc.named w = .enter (.action a) → v.id = none := by
      intro a hn
      have : ({ level := .doc } : Reading).word w = some { level := .action a } := by
        simp only [Reading.word, Bool.false_eq_true, if_false, true_or, if_true, hn]; rfl
      rw [this, Option.bind_some] at h
      exact hact _ _ _ a rfl h
    rcases hw with rfl | rfl | rfl | rfl | rfl
    · exact henter .delete rfl
    · exact henter .list rfl
    · exact henter .list rfl
    · exact henter .save rfl
    · cases h
  · rcases hw with rfl | rfl | rfl | rfl | rfl <;> decide +kernel
  · rcases hw with rfl | rfl | rfl | rfl | rfl <;> decide +kernel

end Plotline
