import Verif.Spec.Args

/-! # Lemmas on reading command lines -/

namespace Plotline

/-! ## Words -/

theorem splitEq_none {w n : Word} : splitEq w = (n, none) ↔ '=' ∉ w ∧ n = w := by
  induction w generalizing n with
  | nil => simp [splitEq, eq_comm]
  | cons c w ih =>
    simp only [splitEq]
    split
    · rename_i h; simp [h]
    · rename_i h
      simp only [Prod.mk.injEq, List.mem_cons, not_or]
      constructor
      · rintro ⟨rfl, h2⟩
        have := ih.1 (Prod.ext rfl h2 : splitEq w = ((splitEq w).1, none))
        exact ⟨⟨Ne.symm h, this.1⟩, by rw [this.2]⟩
      · rintro ⟨⟨_, h2⟩, rfl⟩
        have := ih.2 ⟨h2, rfl⟩
        rw [this]
        exact ⟨rfl, rfl⟩

theorem splitEq_some {w n v : Word} : splitEq w = (n, some v) ↔ '=' ∉ n ∧ w = n ++ '=' :: v := by
  induction w generalizing n with
  | nil => simp [splitEq]
  | cons c w ih =>
    simp only [splitEq]
    split
    · rename_i h
      simp only [Prod.mk.injEq, Option.some.injEq]
      constructor
      · rintro ⟨rfl, rfl⟩; simp [h]
      · rintro ⟨h1, h2⟩
        cases n with
        | nil => simp only [List.nil_append, List.cons.injEq] at h2; exact ⟨rfl, h2.2⟩
        | cons d n =>
          simp only [List.cons_append, List.cons.injEq] at h2
          exact absurd (by simp [← h2.1, h]) h1
    · rename_i h
      simp only [Prod.mk.injEq]
      constructor
      · rintro ⟨rfl, h2⟩
        have := ih.1 (Prod.ext rfl h2 : splitEq w = ((splitEq w).1, some v))
        refine ⟨?_, by rw [List.cons_append, ← this.2]⟩
        simp only [List.mem_cons, not_or]
        exact ⟨Ne.symm h, this.1⟩
      · rintro ⟨h1, h2⟩
        cases n with
        | nil => simp only [List.nil_append, List.cons.injEq] at h2; exact absurd h2.1 h
        | cons d n =>
          simp only [List.cons_append, List.cons.injEq] at h2
          simp only [List.mem_cons, not_or] at h1
          have := ih.2 ⟨h1.2, h2.2⟩
          rw [this]
          exact ⟨by rw [h2.1], rfl⟩

/-- What a word that begins with `-` may be. -/
theorem word_cases (w : Word) : NoOption w ∨ w = ['-', '-'] ∨ (∃ u, u ≠ [] ∧ w = '-' :: '-' :: u) ∨
    ∃ c u, c ≠ '-' ∧ w = '-' :: c :: u := by
  match w with
  | [] => exact .inl (.inr (by simp))
  | [c] =>
    by_cases h : c = '-'
    · exact .inl (.inl (by rw [h]))
    · exact .inl (.inr (by simpa using h))
  | c :: d :: u =>
    by_cases h : c = '-'
    · subst h
      by_cases h' : d = '-'
      · subst h'
        cases u with
        | nil => exact .inr (.inl rfl)
        | cons e u => exact .inr (.inr (.inl ⟨e :: u, by simp, rfl⟩))
      · exact .inr (.inr (.inr ⟨d, u, h', rfl⟩))
    · exact .inl (.inr (by simpa using h))

theorem look_plain_of {w : Word} (h : NoOption w) : look w = .plain := by
  rcases h with rfl | h
  · rfl
  · unfold look
    split
    · exact absurd rfl h
    · exact absurd rfl h
    · exact absurd rfl h
    · rfl

theorem look_long {u : Word} (h : u ≠ []) : look ('-' :: '-' :: u) =
    if (splitEq u).1 = Opt.context.name then .option .context (splitEq u).2
    else if (splitEq u).1 = Opt.extension.name then .option .extension (splitEq u).2 else .other := by
  cases u with
  | nil => exact absurd rfl h
  | cons e u => rfl

/-- The value in the same word as a letter. -/
def joined (w : Word) : Option Word :=
  match w with
  | [] => none
  | '=' :: v => some v
  | v => some v

theorem look_short {c : Char} {u : Word} (h : c ≠ '-') : look ('-' :: c :: u) =
    if c = Opt.context.letter then .option .context (joined u)
    else if c = Opt.extension.letter then .option .extension (joined u) else .other := by
  unfold look
  split
  · rename_i e; simp only [List.cons.injEq] at e; exact absurd e.2.1 h
  · rename_i e; simp only [List.cons.injEq] at e; exact absurd e.2.1 h
  · rename_i e; simp only [List.cons.injEq] at e; obtain ⟨_, rfl, rfl⟩ := e; rfl
  · rename_i h1; exact absurd rfl (h1 c u)

theorem joined_none {u : Word} : joined u = none ↔ u = [] := by
  unfold joined
  split <;> simp_all

theorem joined_some {u v : Word} : joined u = some v ↔ (u ≠ [] ∧ u.head? ≠ some '=' ∧ u = v) ∨ u = '=' :: v := by
  unfold joined
  split
  · simp
  · rename_i w; simp
  · rename_i h1 h2
    constructor
    · intro e
      cases e
      refine .inl ⟨h1, ?_, rfl⟩
      intro e
      cases u with
      | nil => cases e
      | cons c u => simp only [List.head?_cons, Option.some.injEq] at e; subst e; exact h2 u rfl
    · rintro (⟨_, _, rfl⟩ | rfl)
      · rfl
      · exact absurd rfl (h2 v)

theorem letter_eq (o : Opt) : o.letter = shortOf o := by cases o <;> rfl

theorem name_eq (o : Opt) : o.name = longOf o := by cases o <;> rfl

theorem name_no_eq (o : Opt) : '=' ∉ longOf o ∧ longOf o ≠ [] := by cases o <;> decide
theorem letter_no_dash (o : Opt) : o.letter ≠ '-' := by cases o <;> decide

theorem look_of_letter (o : Opt) (u : Word) : look ('-' :: shortOf o :: u) = .option o (joined u) := by
  rw [← letter_eq]
  rw [look_short (letter_no_dash o)]
  cases o <;> rfl

theorem look_of_name (o : Opt) (u : Word) (v : Option Word) (h : splitEq u = (longOf o, v)) (hu : u ≠ []) :
    look ('-' :: '-' :: u) = .option o v := by
  rw [← name_eq] at h
  rw [look_long hu, h]
  cases o <;> rfl

theorem look_option {w : Word} {o : Opt} {v : Option Word} (h : look w = .option o v) :
    (∃ u, w = '-' :: shortOf o :: u ∧ joined u = v) ∨ ∃ u, w = '-' :: '-' :: u ∧ splitEq u = (longOf o, v) := by
  rw [← letter_eq, ← name_eq]
  rcases word_cases w with hw | rfl | ⟨u, hu, rfl⟩ | ⟨c, u, hc, rfl⟩
  · rw [look_plain_of hw] at h; cases h
  · cases h
  · rw [look_long hu] at h
    refine .inr ⟨u, rfl, ?_⟩
    split at h
    · rename_i e; cases h; exact Prod.ext e rfl
    · split at h
      · rename_i e; cases h; exact Prod.ext e rfl
      · cases h
  · rw [look_short hc] at h
    refine .inl ⟨u, ?_⟩
    split at h
    · rename_i e; cases h; exact ⟨by rw [e], rfl⟩
    · split at h
      · rename_i e; cases h; exact ⟨by rw [e], rfl⟩
      · cases h

theorem look_escape {w : Word} (h : look w = .escape) : w = ['-', '-'] := by
  rcases word_cases w with hw | rfl | ⟨u, hu, rfl⟩ | ⟨c, u, hc, rfl⟩
  · rw [look_plain_of hw] at h; cases h
  · rfl
  · rw [look_long hu] at h
    split at h
    · cases h
    · split at h <;> cases h
  · rw [look_short hc] at h
    split at h
    · cases h
    · split at h <;> cases h

theorem look_plain {w : Word} (h : look w = .plain) : NoOption w := by
  rcases word_cases w with hw | rfl | ⟨u, hu, rfl⟩ | ⟨c, u, hc, rfl⟩
  · exact hw
  · cases h
  · rw [look_long hu] at h
    split at h
    · cases h
    · split at h <;> cases h
  · rw [look_short hc] at h
    split at h
    · cases h
    · split at h <;> cases h

/-- Options are not names of subcommands. -/
theorem named_dash (l : Level) (w : Word) : l.named ('-' :: w) = .no := by
  have : ∀ v : Word, v.head? ≠ some '-' → ('-' :: w) ≠ v := fun v h e => h (by rw [← e]; rfl)
  cases l with
  | tool =>
    simp only [Level.named]
    rw [if_neg (this _ (by decide)), if_neg (this _ (by decide))]
  | doc =>
    simp only [Level.named]
    rw [if_neg (this _ (by decide)), if_neg (fun e => e.elim (this _ (by decide)) (this _ (by decide))),
      if_neg (this _ (by decide)), if_neg (this _ (by decide))]
  | action a => rfl

/-- The words a command takes for something else than an id, content or value. -/
def Level.taken : Level → Word → Prop
  | .doc, w => Reserved w
  | _, _ => False

theorem named_no {w : Word} : Level.doc.named w = .no ↔ ¬ Reserved w := by
  unfold Reserved
  simp only [Level.named]
  constructor
  · intro h
    split at h
    · cases h
    split at h
    · cases h
    split at h
    · cases h
    split at h
    · cases h
    rename_i h1 h2 h3 h4
    rintro (e | e | e | e | e)
    · exact h1 e
    · exact h2 (.inl e)
    · exact h2 (.inr e)
    · exact h3 e
    · exact h4 e
  · intro h
    rw [if_neg (fun e => h (.inl e)), if_neg (fun e => h (e.elim (fun e => .inr (.inl e)) fun e => .inr (.inr (.inl e)))),
      if_neg (fun e => h (.inr (.inr (.inr (.inl e))))), if_neg (fun e => h (.inr (.inr (.inr (.inr e)))))]

theorem named_enter {w : Word} {l : Level} : Level.doc.named w = .enter l ↔ ∃ a, Calls a w ∧ l = .action a := by
  constructor
  · intro h
    simp only [Level.named] at h
    split at h
    · rename_i e; cases h; subst e; exact ⟨_, .delete, rfl⟩
    split at h
    · rename_i e; cases h
      rcases e with rfl | rfl
      · exact ⟨_, .list, rfl⟩
      · exact ⟨_, .ls, rfl⟩
    split at h
    · rename_i e; cases h; subst e; exact ⟨_, .save, rfl⟩
    split at h <;> cases h
  · rintro ⟨a, h, rfl⟩
    cases h <;> rfl

theorem named_tool {w : Word} {l : Level} : Level.tool.named w = .enter l ↔ w = "doc".toList ∧ l = .doc := by
  simp only [Level.named]
  constructor
  · intro h
    split at h
    · rename_i e; cases h; exact ⟨e, rfl⟩
    split at h <;> cases h
  · rintro ⟨rfl, rfl⟩; rfl

/-! ## Words in sequence -/

/-- A number of positional arguments. -/
def Reading.takeAll (r : Reading) : List Word → Option Reading
  | [] => some r
  | w :: ws => (r.positional w).bind fun r => r.takeAll ws

/-- The value of an option. -/
def Options.get (s : Options) : Opt → Option Word
  | .context => s.context
  | .extension => s.extension

theorem positional_with (r : Reading) (w : Word) (s : Options) (e : Bool) (p : Option Opt) :
    ({ r with here := s, escaped := e, pending := p } : Reading).positional w =
      (r.positional w).map fun r' => { r' with here := s, escaped := e, pending := p } := by
  unfold Reading.positional
  simp only
  split
  · split <;> rfl
  · split <;> rfl
  · rfl

theorem positional_same {r r' : Reading} {w : Word} (h : r.positional w = some r') :
    r'.level = r.level ∧ r'.here = r.here ∧ r'.around = r.around ∧ r'.pending = r.pending ∧ r'.escaped = r.escaped := by
  unfold Reading.positional at h
  split at h
  · split at h
    · cases h; simp
    · cases h
  · split at h
    · cases h; simp
    · cases h
  · cases h

theorem takeAll_with (r : Reading) (ws : List Word) (s : Options) (e : Bool) (p : Option Opt) :
    ({ r with here := s, escaped := e, pending := p } : Reading).takeAll ws =
      (r.takeAll ws).map fun r' => { r' with here := s, escaped := e, pending := p } := by
  induction ws generalizing r with
  | nil => rfl
  | cons w ws ih =>
    simp only [Reading.takeAll, positional_with]
    cases r.positional w with
    | none => rfl
    | some r' => exact ih r'

theorem takeAll_same {r r' : Reading} {ws : List Word} (h : r.takeAll ws = some r') :
    r'.level = r.level ∧ r'.here = r.here ∧ r'.around = r.around ∧ r'.pending = r.pending ∧ r'.escaped = r.escaped := by
  induction ws generalizing r with
  | nil => cases h; simp
  | cons w ws ih =>
    simp only [Reading.takeAll] at h
    cases hp : r.positional w with
    | none => rw [hp] at h; cases h
    | some q =>
      rw [hp] at h
      obtain ⟨a1, a2, a3, a4, a5⟩ := positional_same hp
      obtain ⟨b1, b2, b3, b4, b5⟩ := ih h
      exact ⟨b1.trans a1, b2.trans a2, b3.trans a3, b4.trans a4, b5.trans a5⟩

/-- Options of which none is given twice. -/
def Apart (s t : Options) : Prop := (s.context = none ∨ t.context = none) ∧ (s.extension = none ∨ t.extension = none)

/-- After `--`. -/
theorem words_escaped (r : Reading) (he : r.escaped = true) (ws : List Word) :
    r.words ws = (r.takeAll ws).bind Reading.done := by
  induction ws generalizing r with
  | nil => rfl
  | cons w ws ih =>
    simp only [Reading.words, Reading.takeAll, Reading.word, he, if_true]
    cases hp : r.positional w with
    | none => rfl
    | some q => exact ih q ((positional_same hp).2.2.2.2.trans he)

section
variable {taken : Word → Prop}

/-- The words of an option. -/
theorem words_option (r : Reading) (he : r.escaped = false) (hp : r.pending = none)
    (ht : r.level = .doc → ∀ v, ¬ taken v → Level.doc.named v = .no) {o : Opt} {v : Word} {us : List Word}
    (hw : OptionWords taken o v us) (rest : List Word) :
    r.words (us ++ rest) = (r.here.give o v).bind fun s => ({ r with here := s } : Reading).words rest := by
  have hone : ∀ w : Word, w.head? = some '-' → look w = .option o (some v) →
      r.words ([w] ++ rest) = (r.here.give o v).bind fun s => ({ r with here := s } : Reading).words rest := by
    intro w hd hl
    obtain ⟨u, rfl⟩ : ∃ u, w = '-' :: u := by
      cases w with
      | nil => cases hd
      | cons c u => simp only [List.head?_cons, Option.some.injEq] at hd; exact ⟨u, by rw [hd]⟩
    simp only [List.cons_append, List.nil_append, Reading.words, Reading.word, he, Bool.false_eq_true, if_false, named_dash,
      ite_self, hl, hp]
    cases r.here.give o v <;> rfl
  have htwo : ∀ w : Word, w.head? = some '-' → look w = .option o none → NoOption v → ¬ taken v →
      r.words ([w, v] ++ rest) = (r.here.give o v).bind fun s => ({ r with here := s } : Reading).words rest := by
    intro w hd hl hv hnt
    obtain ⟨u, rfl⟩ : ∃ u, w = '-' :: u := by
      cases w with
      | nil => cases hd
      | cons c u => simp only [List.head?_cons, Option.some.injEq] at hd; exact ⟨u, by rw [hd]⟩
    have hn : (if some o = (none : Option Opt) ∨ r.level = .doc then r.level.named v else .no) = .no := by
      split
      · rename_i h
        rcases h with h | h
        · cases h
        · rw [h]; exact ht h v hnt
      · rfl
    simp only [List.cons_append, List.nil_append, Reading.words, Reading.word, he, Bool.false_eq_true, if_false, named_dash,
      ite_self, hl, hp, Option.bind_some, hn, look_plain_of hv]
    cases r.here.give o v <;> simp [← hp]
  cases hw with
  | short h1 h2 => exact htwo _ rfl (by rw [look_of_letter]; rfl) h1 h2
  | long h1 h2 => exact htwo _ rfl (look_of_name o _ _ (splitEq_none.2 ⟨(name_no_eq o).1, rfl⟩) (name_no_eq o).2) h1 h2
  | shortJoined h1 h2 => exact hone _ rfl (by rw [look_of_letter, joined_some.2 (.inl ⟨h1, h2, rfl⟩)])
  | shortEq => exact hone _ rfl (by rw [look_of_letter, joined_some.2 (.inr rfl)])
  | longEq => exact hone _ rfl (look_of_name o _ _ (splitEq_some.2 ⟨(name_no_eq o).1, rfl⟩) (by simp))

/-- What a command reads. -/
theorem words_items {esc : Prop} {s : Options} {ps ws : List Word} (h : Items taken esc s ps ws) (r : Reading)
    (he : r.escaped = false) (hp : r.pending = none) (ht : r.level = .doc → ∀ v, ¬ taken v → Level.doc.named v = .no)
    (hn : ∀ w, NoOption w → ¬ taken w → w ∈ ps → r.level.named w = .no) (ha : Apart s r.here) (rest : List Word)
    (hr : esc → rest = []) : ∃ e, (¬ esc → e = false) ∧
      r.words (ws ++ rest) =
        (r.takeAll ps).bind fun r' => ({ r' with here := s.over r.here, escaped := e } : Reading).words rest := by
  induction h generalizing r with
  | nil =>
    refine ⟨false, fun _ => rfl, ?_⟩
    cases r
    cases he
    rfl
  | @context s ps ws us v hw hv hs _ ih =>
    have hc : r.here.context = none := by
      rcases ha.1 with h | h
      · cases h
      · exact h
    have hg : r.here.give .context v = some { r.here with context := some v } := by
      simp only [Options.give, hc, hv, ne_eq, not_false_eq_true, and_self, if_true]
    obtain ⟨e, h1, h2⟩ := ih { r with here := { r.here with context := some v } } he hp ht hn ⟨.inl hs, ha.2⟩
    refine ⟨e, h1, ?_⟩
    rw [List.append_assoc, words_option r he hp ht hw, hg, Option.bind_some, h2]
    rw [takeAll_with r ps { r.here with context := some v } r.escaped r.pending, Option.bind_map]
    refine Option.bind_congr fun r' hr' => ?_
    have hov : s.over { r.here with context := some v } = ({ s with context := some v } : Options).over r.here := by
      simp only [Options.over, hs, Option.none_or, Option.some_or]
    simp only [Function.comp, hov, ← (takeAll_same hr').2.2.2.1]
  | @extension s ps ws us v hw hs _ ih =>
    have hc : r.here.extension = none := by
      rcases ha.2 with h | h
      · cases h
      · exact h
    have hg : r.here.give .extension v = some { r.here with extension := some v } := by
      simp only [Options.give, hc, if_true]
    obtain ⟨e, h1, h2⟩ := ih { r with here := { r.here with extension := some v } } he hp ht hn ⟨ha.1, .inl hs⟩
    refine ⟨e, h1, ?_⟩
    rw [List.append_assoc, words_option r he hp ht hw, hg, Option.bind_some, h2]
    rw [takeAll_with r ps { r.here with extension := some v } r.escaped r.pending, Option.bind_map]
    refine Option.bind_congr fun r' hr' => ?_
    have hov : s.over { r.here with extension := some v } = ({ s with extension := some v } : Options).over r.here := by
      simp only [Options.over, hs, Option.none_or, Option.some_or]
    simp only [Function.comp, hov, ← (takeAll_same hr').2.2.2.1]
  | @word s ps ws w h1 h2 _ ih =>
    have hw : r.word w = r.positional w := by
      simp only [Reading.word, he, Bool.false_eq_true, if_false, hp, true_or, if_true, hn w h1 h2 (by simp),
        look_plain_of h1]
    simp only [List.cons_append, Reading.words, hw, Reading.takeAll]
    cases hq : r.positional w with
    | none => exact ⟨false, fun _ => rfl, rfl⟩
    | some q =>
      obtain ⟨a1, a2, a3, a4, a5⟩ := positional_same hq
      obtain ⟨e, g1, g2⟩ := ih q (a5.trans he) (a4.trans hp) (fun h => ht (a1.symm.trans h))
        (fun w k1 k2 k3 => by rw [a1]; exact hn w k1 k2 (List.mem_cons_of_mem _ k3)) (by rw [a2]; exact ha)
      refine ⟨e, g1, ?_⟩
      rw [Option.bind_some, Option.bind_some, g2, a2]
  | @escape ws hesc =>
    refine ⟨true, fun h => absurd hesc h, ?_⟩
    have hw : r.word ['-', '-'] = some { r with escaped := true } := by
      simp only [Reading.word, he, Bool.false_eq_true, if_false, hp, true_or, if_true, named_dash]
      rfl
    rw [hr hesc, List.append_nil, Reading.words, hw, Option.bind_some, words_escaped _ rfl]
    have := takeAll_with r ws r.here true r.pending
    rw [this, Option.bind_map]
    refine Option.bind_congr fun r' hr' => ?_
    obtain ⟨_, a2, _, a4, _⟩ := takeAll_same hr'
    have hov : ({} : Options).over r.here = r'.here := by rw [a2]; rfl
    simp only [Function.comp, Reading.words, hov, ← a4, a2]

end

theorem Items.mono {taken : Word → Prop} {esc esc' : Prop} {s : Options} {ps ws : List Word} (h : Items taken esc s ps ws)
    (hi : esc → esc') : Items taken esc' s ps ws := by
  induction h with
  | nil => exact .nil
  | context h1 h2 h3 _ ih => exact .context h1 h2 h3 ih
  | extension h1 h2 _ ih => exact .extension h1 h2 ih
  | word h1 h2 _ ih => exact .word h1 h2 ih
  | escape h => exact .escape (hi h)

theorem give_some {s t : Options} {o : Opt} {v : Word} (h : s.give o v = some t) :
    (o = .context ∧ s.context = none ∧ v ≠ [] ∧ t = { s with context := some v }) ∨
    (o = .extension ∧ s.extension = none ∧ t = { s with extension := some v }) := by
  cases o with
  | context =>
    simp only [Options.give] at h
    split at h
    · rename_i e; cases h; exact .inl ⟨rfl, e.1, e.2, rfl⟩
    · cases h
  | extension =>
    simp only [Options.give] at h
    split at h
    · rename_i e; cases h; exact .inr ⟨rfl, e, rfl⟩
    · cases h

/-- An option before what a command reads. -/
theorem Items.give {taken : Word → Prop} {esc : Prop} {s t u : Options} {ps ws us : List Word} {o : Opt} {v : Word}
    (hw : OptionWords taken o v us) (hg : t.give o v = some u) (h : Items taken esc s ps ws) (ha : Apart s u) :
    ∃ s', Items taken esc s' ps (us ++ ws) ∧ Apart s' t ∧ s'.over t = s.over u := by
  rcases give_some hg with ⟨rfl, h1, h2, rfl⟩ | ⟨rfl, h1, rfl⟩
  · have hs : s.context = none := ha.1.elim (fun h => h) (fun h => by cases h)
    refine ⟨{ s with context := some v }, .context hw h2 hs h, ⟨.inr h1, ha.2⟩, ?_⟩
    simp only [Options.over, hs, Option.none_or, Option.some_or]
  · have hs : s.extension = none := ha.2.elim (fun h => h) (fun h => by cases h)
    refine ⟨{ s with extension := some v }, .extension hw hs h, ⟨ha.1, .inr h1⟩, ?_⟩
    simp only [Options.over, hs, Option.none_or, Option.some_or]

/-- The words a level takes for names, where it looks for them. -/
theorem taken_doc {r : Reading} {o : Opt} {w : Word}
    (h : (if some o = (none : Option Opt) ∨ r.level = .doc then r.level.named w else .no) = .no) : ¬ r.level.taken w := by
  intro ht
  cases hl : r.level with
  | doc =>
    rw [hl] at h ht
    simp only [or_true, if_true] at h
    exact named_no.1 h ht
  | tool => rw [hl] at ht; exact ht
  | action a => rw [hl] at ht; exact ht

/-- What a command has read when it enters a subcommand or the words end. -/
theorem words_split (n : Nat) (ws : List Word) (hlen : ws.length ≤ n) (r : Reading) (he : r.escaped = false) (hp : r.pending = none)
    {v : Invocation} (h : r.words ws = some v) :
    (∃ s ps w1 w w2 r' l, ws = w1 ++ w :: w2 ∧ Items r.level.taken False s ps w1 ∧ Apart s r.here ∧ r.level.named w = .enter l ∧
      r.takeAll ps = some r' ∧
      ({ r' with level := l, here := {}, around := (s.over r.here).over r.around } : Reading).words w2 = some v) ∨
    (∃ s ps a r', Items r.level.taken True s ps ws ∧ Apart s r.here ∧ r.level = .action a ∧ r.takeAll ps = some r' ∧
      v = ⟨(s.over r.here).over r.around, r'.id, a, r'.content⟩) := by
  induction n generalizing ws r with
  | zero =>
    cases ws with
    | cons w ws => cases hlen
    | nil =>
      simp only [Reading.words, Reading.done, hp] at h
      split at h
      · rename_i a hl _
        cases h
        exact .inr ⟨{}, [], a, r, .nil, ⟨.inl rfl, .inl rfl⟩, hl, rfl, rfl⟩
      · cases h
  | succ n ih =>
    cases ws with
    | nil => exact ih [] (Nat.zero_le _) r he hp h
    | cons w ws =>
      have hlen : ws.length ≤ n := Nat.le_of_succ_le_succ hlen
      simp only [Reading.words] at h
      -- what follows an option
      have opt : ∀ (o : Opt) (x : Word) (us rest : List Word) (u : Options), OptionWords r.level.taken o x us →
          r.here.give o x = some u → rest.length ≤ n → ({ r with here := u } : Reading).words rest = some v → w :: ws = us ++ rest → 
          (∃ s ps w1 w' w2 r' l, w :: ws = w1 ++ w' :: w2 ∧ Items r.level.taken False s ps w1 ∧ Apart s r.here ∧
            r.level.named w' = .enter l ∧ r.takeAll ps = some r' ∧
            ({ r' with level := l, here := {}, around := (s.over r.here).over r.around } : Reading).words w2 = some v) ∨
          (∃ s ps a r', Items r.level.taken True s ps (w :: ws) ∧ Apart s r.here ∧ r.level = .action a ∧ r.takeAll ps = some r' ∧
            v = ⟨(s.over r.here).over r.around, r'.id, a, r'.content⟩) := by
        intro o x us rest u hw hg hl hv heq
        rcases ih rest hl { r with here := u } he hp hv with ⟨s, ps, w1, w', w2, r', l, h1, h2, h3, h4, h5, h6⟩ |
          ⟨s, ps, a, r', h1, h2, h3, h4, h5⟩
        · obtain ⟨s', k1, k2, k3⟩ := Items.give hw hg h2 h3
          have := takeAll_with r ps u r.escaped r.pending
          obtain ⟨r'', h7, rfl⟩ := Option.map_eq_some_iff.1 (this.symm.trans h5)
          obtain ⟨_, _, _, a4, a5⟩ := takeAll_same h7
          refine .inl ⟨s', ps, us ++ w1, w', w2, r'', l, by rw [heq, h1, List.append_assoc], k1, k2, h4, h7, ?_⟩
          rw [k3, ← h6, ← a4, ← a5]
        · obtain ⟨s', k1, k2, k3⟩ := Items.give hw hg h1 h2
          have := takeAll_with r ps u r.escaped r.pending
          obtain ⟨r'', h7, rfl⟩ := Option.map_eq_some_iff.1 (this.symm.trans h4)
          refine .inr ⟨s', ps, a, r'', by rw [heq]; exact k1, k2, h3, h7, ?_⟩
          rw [k3, h5]
      rw [Reading.word, he] at h
      simp only [Bool.false_eq_true, if_false, hp, true_or, if_true] at h
      cases hnm : r.level.named w with
      | help => rw [hnm] at h; cases h
      | enter l =>
        rw [hnm] at h
        simp only [Option.bind_some] at h
        exact .inl ⟨{}, [], [], w, ws, r, l, rfl, .nil, ⟨.inl rfl, .inl rfl⟩, hnm, rfl, by rw [hp, he]; exact h⟩
      | no =>
        rw [hnm] at h
        simp only at h
        cases hlook : look w with
        | other => rw [hlook] at h; cases h
        | plain =>
          rw [hlook] at h
          simp only at h
          have hnt : ¬ r.level.taken w := by
            intro ht
            cases hl : r.level with
            | doc => rw [hl] at hnm ht; exact named_no.1 hnm ht
            | tool => rw [hl] at ht; exact ht
            | action a => rw [hl] at ht; exact ht
          cases hq : r.positional w with
          | none => rw [hq] at h; cases h
          | some q =>
            rw [hq] at h
            obtain ⟨a1, a2, a3, a4, a5⟩ := positional_same hq
            rcases ih ws hlen q (a5.trans he) (a4.trans hp) h with ⟨s, ps, w1, w', w2, r', l, h1, h2, h3, h4, h5, h6⟩ |
              ⟨s, ps, a, r', h1, h2, h3, h4, h5⟩
            · rw [a1] at h2 h4
              rw [a2] at h3 h6
              rw [a3] at h6
              exact .inl ⟨s, w :: ps, w :: w1, w', w2, r', l, by rw [h1]; rfl, .word (look_plain hlook) hnt h2, h3, h4,
                by simp only [Reading.takeAll, hq]; exact h5, h6⟩
            · rw [a1] at h1 h3
              rw [a2] at h2 h5
              rw [a3] at h5
              exact .inr ⟨s, w :: ps, a, r', .word (look_plain hlook) hnt h1, h2, h3,
                by simp only [Reading.takeAll, hq]; exact h4, h5⟩
        | escape =>
          rw [hlook] at h
          simp only [Option.bind_some] at h
          rw [words_escaped _ rfl, takeAll_with r ws r.here true none] at h
          rw [look_escape hlook]
          cases hq : r.takeAll ws with
          | none => rw [hq] at h; cases h
          | some q =>
            rw [hq] at h
            obtain ⟨a1, a2, a3, a4, a5⟩ := takeAll_same hq
            simp only [Option.map_some, Option.bind_some, Reading.done, a1, a3] at h
            split at h
            · rename_i a hl _
              cases h
              exact .inr ⟨{}, ws, a, q, .escape trivial, ⟨.inl rfl, .inl rfl⟩, hl, hq, rfl⟩
            · cases h
        | option o x =>
          rw [hlook] at h
          cases x with
          | some x =>
            simp only at h
            cases hg : r.here.give o x with
            | none => rw [hg] at h; cases h
            | some u =>
              rw [hg] at h
              have hw : OptionWords r.level.taken o x [w] := by
                rcases look_option hlook with ⟨y, rfl, hy⟩ | ⟨y, rfl, hy⟩
                · rcases joined_some.1 hy with ⟨k1, k2, rfl⟩ | rfl
                  · exact .shortJoined k1 k2
                  · exact .shortEq
                · obtain ⟨_, rfl⟩ := splitEq_some.1 hy
                  exact .longEq
              exact opt o x [w] ws u hw hg hlen (by rw [hp, he]; exact h) rfl
          | none =>
            simp only [Option.bind_some] at h
            cases ws with
            | nil => simp only [Reading.words, Reading.done] at h; split at h <;> simp_all
            | cons x ws =>
              simp only [Reading.words, Reading.word, Bool.false_eq_true, if_false] at h
              cases hn2 : (if some o = (none : Option Opt) ∨ r.level = .doc then r.level.named x else .no) with
              | help => rw [hn2] at h; cases h
              | enter l => rw [hn2] at h; simp at h
              | no =>
                rw [hn2] at h
                simp only at h
                cases hlx : look x with
                | plain =>
                  rw [hlx] at h
                  simp only at h
                  cases hg : r.here.give o x with
                  | none => rw [hg] at h; cases h
                  | some u =>
                    rw [hg] at h
                    have hw : OptionWords r.level.taken o x [w, x] := by
                      have k1 := look_plain hlx
                      have k2 := taken_doc hn2
                      rcases look_option hlook with ⟨y, rfl, hy⟩ | ⟨y, rfl, hy⟩
                      · rw [joined_none.1 hy]; exact .short k1 k2
                      · rw [← (splitEq_none.1 hy).2]; exact .long k1 k2
                    refine opt o x [w, x] ws u hw hg (by simp at hlen; omega) ?_ rfl
                    simp only [Option.map_some, Option.bind_some] at h
                    rw [← h, hp, he]
                | escape => rw [hlx] at h; cases h
                | other => rw [hlx] at h; cases h
                | option o' x' => rw [hlx] at h; cases x' <;> cases h

end Plotline
