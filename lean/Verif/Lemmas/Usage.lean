import Verif.Lemmas.Args
import Verif.Spec.Usage

/-! # Command lines that run nothing: lemmas -/

namespace Plotline

theorem settle_some {s s' : Stage} (h : s.settle = some s') : s.read.pending = none ∧ s'.held = none ∧ s'.late = s.late ∧
    s'.settle = some s' ∧ ∃ o, s'.read = { s.read with here := o } ∧
      ∀ b : Bool, ({ s with read := { s.read with escaped := b } } : Stage).settle = some { s' with read := { s'.read with escaped := b } } := by
  unfold Stage.settle at h
  split at h
  · cases h
  · rename_i o v hp hh
    cases hg : s.read.here.give o v with
    | none => rw [hg] at h; cases h
    | some o' =>
      rw [hg] at h; cases h
      refine ⟨hp, rfl, rfl, ?_, o', rfl, fun b => ?_⟩
      · simp only [Stage.settle, hp]
      · simp only [Stage.settle, hp, hh, hg, Option.map_some]
  · rename_i hp hh
    cases h
    refine ⟨hp, hh, rfl, ?_, s.read.here, rfl, fun b => ?_⟩
    · simp only [Stage.settle, hp, hh]
    · simp only [Stage.settle, hp, hh]

theorem settle_clean {s : Stage} (hp : s.read.pending = none) (hh : s.held = none) : s.settle = some s := by
  simp only [Stage.settle, hp, hh]

theorem settle_pending {s : Stage} {o : Opt} (hp : s.read.pending = some o) : s.settle = none := by
  simp only [Stage.settle, hp]

/-- Looking at a value that is in order, or not yet, makes no difference. -/
theorem settle_words {s s' : Stage} (h : s.settle = some s') (ws : List Word) : s.words ws = s'.words ws := by
  induction ws generalizing s s' with
  | nil =>
    obtain ⟨_, _, hl, h', _⟩ := settle_some h
    simp only [Stage.words, Stage.done, h, h', hl]
  | cons w ws ih =>
    obtain ⟨hp, _, hl, h', o, ho, hb⟩ := settle_some h
    have hgo : ∀ f, s.go f = s'.go f := fun f => by simp only [Stage.go, h, h']
    have e1 : s'.read.escaped = s.read.escaped := by rw [ho]
    have e2 : s'.read.level = s.read.level := by rw [ho]
    have e3 : s'.read.pending = s.read.pending := by rw [ho]
    simp only [Stage.words, Stage.word, e1, e2, e3, h, h', hgo]
    cases s.read.escaped with
    | true => rfl
    | false =>
      simp only [hp, true_or, if_true, Bool.false_eq_true, if_false]
      cases s.read.level.named w with
      | help => rfl
      | enter l => rfl
      | no =>
        simp only
        cases s.read.level.asks w with
        | true => rfl
        | false =>
          simp only [Bool.false_eq_true, if_false]
          cases look w with
          | escape => refine ih ?_; have := hb true; simp only [hp, e3.trans hp] at this; simpa only [e1, e2] using this
          | option o v => cases v <;> rfl
          | other => rfl
          | plain => rfl

/-- There will be a complaint, if nothing comes before it. -/
def Stage.Doomed (s : Stage) : Prop := s.late = true ∨ s.settle = none ∧ (s.read.pending = none ∨ s.read.escaped = true)

theorem doomed_words {s : Stage} (h : s.Doomed) (ws : List Word) (v : Invocation) : s.words ws ≠ .runs v := by
  induction ws generalizing s with
  | nil =>
    simp only [Stage.words, Stage.done]
    split
    · rename_i x hx
      rcases h with h | ⟨h, _⟩
      · rw [h]; simp
      · rw [h] at hx; cases hx
    · simp
  | cons w ws ih =>
    have hgo : ∀ f, (match s.go f with | .stop p => p | .go s => s.words ws) ≠ .runs v := by
      intro f
      unfold Stage.go
      cases hs : s.settle with
      | none => simp
      | some s' =>
        simp only
        cases f s'.read with
        | none => simp
        | some r =>
          rcases h with h | ⟨h, _⟩
          · exact ih (.inl ((settle_some hs).2.2.1.trans h))
          · rw [h] at hs; cases hs
    simp only [Stage.words, Stage.word]
    split
    · rename_i p hp
      intro e
      subst e
      split at hp
      · have := hgo (·.positional w); rw [hp] at this; exact this rfl
      split at hp
      · injection hp with hp; split at hp <;> cases hp
      · split at hp <;> cases hp
      · split at hp
        · injection hp with hp; split at hp <;> cases hp
        split at hp
        · cases hp
        · rename_i o x _; have := hgo fun r => (r.here.give o x).map fun h => { r with here := h }; rw [hp] at this; exact this rfl
        · rename_i o _; have := hgo fun r => some { r with pending := some o }; rw [hp] at this; exact this rfl
        · cases hp
        · split at hp
          · cases hp
          · have := hgo (·.positional w); rw [hp] at this; exact this rfl
    · rename_i s' hs'
      split at hs'
      · have := hgo (·.positional w); rw [hs'] at this; exact this
      rename_i he
      split at hs'
      · cases hs'
      · split at hs'
        · rename_i s2 h2
          cases hs'
          rcases h with h | ⟨h, _⟩
          · exact ih (.inl ((settle_some h2).2.2.1.trans h))
          · rw [h] at h2; cases h2
        · cases hs'; exact ih (.inl rfl)
      · split at hs'
        · cases hs'
        split at hs'
        · cases hs'
          refine ih ?_
          rcases h with h | ⟨h, _⟩
          · exact .inl h
          · refine .inr ⟨?_, .inr rfl⟩
            unfold Stage.settle at h ⊢
            split at h
            · rename_i hp; simp only [hp]
            · rename_i hp hh; simp only [hp, hh]; exact Option.map_eq_none_iff.2 (Option.map_eq_none_iff.1 h)
            · cases h
        · rename_i o x _; have := hgo fun r => (r.here.give o x).map fun h => { r with here := h }; rw [hs'] at this; exact this
        · rename_i o _; have := hgo fun r => some { r with pending := some o }; rw [hs'] at this; exact this
        · cases hs'
        · split at hs'
          · rename_i o ho
            cases hs'
            refine ih (.inl ?_)
            rcases h with h | ⟨_, h | h⟩
            · exact h
            · rw [ho] at h; cases h
            · exact absurd h he
          · have := hgo (·.positional w); rw [hs'] at this; exact this

theorem asks_iff {l : Level} {w : Word} : l.asks w = true ↔ AsksWord l w := by
  constructor
  · intro h
    unfold Level.asks at h
    split at h
    · exact .h _
    · simp only [decide_eq_true_eq] at h; subst h; exact .v _
    · simp only [decide_eq_true_eq] at h
      rcases h with rfl | ⟨rfl, rfl⟩
      · exact .help
      · exact .version
  · intro h
    cases h with
    | help => cases l <;> rfl
    | h w => rfl
    | version => rfl
    | v w => rfl

theorem asks_look {l : Level} {w : Word} (h : l.asks w = true) : look w = .other ∧ ∀ l' : Level, l'.named w = .no := by
  cases asks_iff.1 h with
  | help => exact ⟨by with_unfolding_all rfl, fun l => named_dash l _⟩
  | h w => exact ⟨by rw [look_short (by decide)]; rfl, fun l => named_dash l _⟩
  | version => exact ⟨by with_unfolding_all rfl, fun l => named_dash l _⟩
  | v w => exact ⟨by rw [look_short (by decide)]; rfl, fun l => named_dash l _⟩

/-- What runs. -/
theorem clean_runs {s : Stage} (hl : s.late = false) (hh : s.held = none) (he : s.read.escaped = true → s.read.pending = none)
    (ws : List Word) (v : Invocation) : s.words ws = .runs v ↔ s.read.words ws = some v := by
  induction ws generalizing s with
  | nil =>
    simp only [Stage.words, Stage.done, Reading.words]
    cases hp : s.read.pending with
    | none =>
      rw [settle_clean hp hh, Option.bind_some]
      cases s.read.done with
      | none => simp
      | some x => simp [hl]
    | some o =>
      rw [settle_pending hp]
      simp [Reading.done, hp]
  | cons w ws ih =>
    have hgo : ∀ f : Reading → Option Reading, s.read.pending = none →
        (∀ r, f s.read = some r → r.escaped = true → r.pending = none) →
        ((match s.go f with | .stop p => p | .go s => s.words ws) = .runs v ↔ (f s.read).bind (fun r => r.words ws) = some v) := by
      intro f hp hf
      simp only [Stage.go, settle_clean hp hh]
      cases hr : f s.read with
      | none => simp
      | some r => exact ih hl hh (hf r hr)
    have hgo' : ∀ f : Reading → Option Reading, (o : Opt) → s.read.pending = some o →
        (match s.go f with | .stop p => p | .go s => s.words ws) ≠ .runs v := by
      intro f o hp
      simp [Stage.go, settle_pending hp]
    obtain ⟨⟨level, here, around, id, content, pending, escaped⟩, held, late⟩ := s
    cases hl
    cases hh
    simp only [Stage.words, Stage.word, Reading.words, Reading.word]
    cases escaped with
    | true =>
      cases he rfl
      simp only [if_true]
      exact hgo _ rfl fun r hr _ => (positional_same hr).2.2.2.1
    | false =>
      simp only [Bool.false_eq_true, if_false]
      cases hnm : (if pending = none ∨ level = .doc then level.named w else .no) with
      | help => simp only [Option.bind_none, reduceCtorEq, iff_false]; split <;> simp
      | enter l =>
        simp only
        cases pending with
        | none =>
          simp only [Stage.settle, if_true, Option.bind_some]
          exact ih rfl rfl fun h => by simp at h
        | some o =>
          simp only [Stage.settle, reduceCtorEq, if_false, Option.bind_none, iff_false]
          exact doomed_words (.inl rfl) ws v
      | no =>
        simp only
        cases hask : level.asks w with
        | true =>
          simp only [if_true, (asks_look hask).1, Option.bind_none, reduceCtorEq, iff_false]
          split <;> simp
        | false =>
          simp only [Bool.false_eq_true, if_false]
          cases hlook : look w with
          | escape =>
            cases pending with
            | none => simp only [Option.bind_some]; exact ih rfl rfl fun _ => rfl
            | some o =>
              simp only [Option.bind_none, reduceCtorEq, iff_false]
              exact doomed_words (.inr ⟨rfl, .inr rfl⟩) ws v
          | option o x =>
            cases x with
            | some x =>
              cases pending with
              | none =>
                refine hgo (fun r => (r.here.give o x).map fun h => { r with here := h }) rfl fun r hr _ => ?_
                obtain ⟨_, _, rfl⟩ := Option.map_eq_some_iff.1 hr
                rfl
              | some o' => simp only [Option.bind_none, reduceCtorEq, iff_false]; exact hgo' (fun r => (r.here.give o x).map fun h => { r with here := h }) o' rfl
            | none =>
              cases pending with
              | none =>
                refine hgo (fun r => some { r with pending := some o }) rfl fun r hr h => ?_
                cases hr
                simp at h
              | some o' => simp only [Option.bind_none, reduceCtorEq, iff_false]; exact hgo' (fun r => some { r with pending := some o }) o' rfl
          | other => simp
          | plain =>
            cases pending with
            | none => exact hgo _ rfl fun r hr _ => (positional_same hr).2.2.2.1
            | some o =>
              simp only
              cases hg : here.give o w with
              | none =>
                simp only [Option.map_none, Option.bind_none, reduceCtorEq, iff_false]
                refine doomed_words (.inr ⟨?_, .inl rfl⟩) ws v
                simp only [Stage.settle, hg, Option.map_none]
              | some h =>
                simp only [Option.map_some, Option.bind_some]
                rw [settle_words (s' := { read := ⟨level, h, around, id, content, none, false⟩ })
                  (by simp only [Stage.settle, hg, Option.map_some])]
                exact ih rfl rfl fun _ => rfl

/-! ## What is shown -/

theorem reservedAt_iff {l : Level} {w : Word} : ReservedAt l w ↔ l.taken w := by
  cases l <;> simp [ReservedAt, Level.taken]

theorem reservedAt_eq (l : Level) : ReservedAt l = l.taken := funext fun _ => propext reservedAt_iff

/-- At the beginning of an option or argument. -/
def Stage.Clean (s : Stage) : Prop := s.read.pending = none ∧ s.held = none ∧ s.read.escaped = false

/-- At the beginning of a command. -/
structure Stage.Fresh (l : Level) (s : Stage) : Prop where
  level : s.read.level = l
  here : s.read.here = {}
  id : l = .doc → s.read.id = none
  content : s.read.content = none
  clean : s.Clean

theorem takeAll_isSome {r : Reading} (hi : r.level = .doc → r.id = none) (hc : r.content = none) (ps : List Word) :
    (r.takeAll ps).isSome ↔ ps.length ≤ Takings r.level := by
  have two : ∀ (r : Reading) w ws r', r.positional w = some r' → ¬ ((r'.takeAll ws).isSome ∧ ws ≠ []) := by
    rintro r w ws r' h ⟨h1, h2⟩
    cases ws with
    | nil => exact h2 rfl
    | cons x ws =>
      have : r'.positional x = none := by
        unfold Reading.positional at h
        split at h
        · rename_i hl
          split at h
          · cases h; simp [Reading.positional, hl]
          · cases h
        · rename_i hl
          split at h
          · cases h; simp [Reading.positional, hl]
          · cases h
        · cases h
      simp [Reading.takeAll, this] at h1
  cases ps with
  | nil => simp [Reading.takeAll]
  | cons w ws =>
    simp only [Reading.takeAll, List.length_cons]
    cases hp : r.positional w with
    | none =>
      simp only [Option.bind_none, Option.isSome_none, Bool.false_eq_true, false_iff, Nat.not_le]
      unfold Reading.positional at hp
      split at hp
      · rename_i hl; rw [if_pos (hi hl)] at hp; cases hp
      · rw [if_pos hc] at hp; cases hp
      · rename_i h1 h2
        unfold Takings
        split
        · rename_i h; exact absurd h h1
        · rename_i h; exact absurd h h2
        · exact Nat.succ_pos _
    | some r' =>
      have : Takings r.level = 1 := by
        unfold Reading.positional at hp
        unfold Takings
        split at hp
        · rename_i h; rw [h]
        · rename_i h; rw [h]
        · cases hp
      rw [this, Option.bind_some]
      constructor
      · intro h
        cases ws with
        | nil => simp
        | cons x ws => exact (two r w (x :: ws) r' hp ⟨h, by simp⟩).elim
      · intro h
        cases ws with
        | nil => rfl
        | cons x ws => simp at h

theorem asks_noOption {l : Level} {w : Word} (h : NoOption w) : l.asks w = false := by
  cases hb : l.asks w with
  | false => rfl
  | true => have := (asks_look hb).1; rw [look_plain_of h] at this; cases this

theorem asks_option {l : Level} {w : Word} {o : Opt} {v : Option Word} (h : look w = .option o v) : l.asks w = false := by
  cases hb : l.asks w with
  | false => rfl
  | true => have := (asks_look hb).1; rw [h] at this; cases this

theorem look_dash {w : Word} {o : Opt} {v : Option Word} (h : look w = .option o v) : ∃ u, w = '-' :: u := by
  rcases look_option h with ⟨u, rfl, _⟩ | ⟨u, rfl, _⟩ <;> exact ⟨_, rfl⟩

/-- The first word of an option whose value is the second. -/
theorem stage_bare {s : Stage} (hc : s.Clean) {w : Word} {o : Opt} (hl : look w = .option o none) (rest : List Word) :
    s.words (w :: rest) = ({ s with read := { s.read with pending := some o } } : Stage).words rest := by
  obtain ⟨hp, hh, he⟩ := hc
  have ha : s.read.level.asks w = false := asks_option hl
  obtain ⟨u, rfl⟩ := look_dash hl
  simp only [Stage.words, Stage.word, he, Bool.false_eq_true, if_false, named_dash, ite_self, ha, hl, Stage.go,
    settle_clean hp hh]

/-- An option and its value. -/
theorem stage_two {s : Stage} (hc : s.Clean) {w v : Word} {o : Opt} (hl : look w = .option o none) (hv : NoOption v)
    (ht : ¬ s.read.level.taken v) (rest : List Word) :
    s.words (w :: v :: rest) = ({ s with held := some (o, v) } : Stage).words rest := by
  rw [stage_bare hc hl]
  obtain ⟨hp, hh, he⟩ := hc
  obtain ⟨⟨level, here, around, id, content, pending, escaped⟩, held, late⟩ := s
  cases hp
  cases hh
  cases he
  have hn : (if some o = (none : Option Opt) ∨ level = .doc then level.named v else .no) = .no := by
    split
    · rename_i h
      rcases h with h | rfl
      · cases h
      · exact named_no.2 ht
    · rfl
  simp only [Stage.words, Stage.word, Bool.false_eq_true, if_false, hn, asks_noOption hv, look_plain_of hv]

/-- The words of an option. -/
theorem stage_option {s : Stage} (hc : s.Clean) {o : Opt} {v : Word} {us : List Word} {h : Options}
    (hw : OptionWords s.read.level.taken o v us) (hg : s.read.here.give o v = some h) (rest : List Word) :
    s.words (us ++ rest) = ({ s with read := { s.read with here := h } } : Stage).words rest := by
  have hone : ∀ w : Word, look w = .option o (some v) →
      s.words ([w] ++ rest) = ({ s with read := { s.read with here := h } } : Stage).words rest := by
    intro w hl
    obtain ⟨hp, hh, he⟩ := hc
    have ha : s.read.level.asks w = false := asks_option hl
    obtain ⟨u, rfl⟩ := look_dash hl
    simp only [List.cons_append, List.nil_append, Stage.words, Stage.word, he, Bool.false_eq_true, if_false, named_dash, ite_self, ha,
      hl, Stage.go, settle_clean hp hh, hg, Option.map_some]
  have htwo : ∀ w : Word, look w = .option o none → NoOption v → ¬ s.read.level.taken v →
      s.words ([w, v] ++ rest) = ({ s with read := { s.read with here := h } } : Stage).words rest := by
    intro w hl hv ht
    rw [List.cons_append, List.cons_append, List.nil_append, stage_two hc hl hv ht]
    apply settle_words
    obtain ⟨hp, hh, he⟩ := hc
    obtain ⟨⟨level, here, around, id, content, pending, escaped⟩, held, late⟩ := s
    cases hp
    cases hh
    simp only at hg
    simp only [Stage.settle, hg, Option.map_some]
  cases hw with
  | short h1 h2 => exact htwo _ (by rw [look_of_letter]; rfl) h1 h2
  | long h1 h2 => exact htwo _ (look_of_name o _ _ (splitEq_none.2 ⟨(name_no_eq o).1, rfl⟩) (name_no_eq o).2) h1 h2
  | shortJoined h1 h2 => exact hone _ (by rw [look_of_letter, joined_some.2 (.inl ⟨h1, h2, rfl⟩)])
  | shortEq => exact hone _ (by rw [look_of_letter, joined_some.2 (.inr rfl)])
  | longEq => exact hone _ (look_of_name o _ _ (splitEq_some.2 ⟨(name_no_eq o).1, rfl⟩) (by simp))

theorem named_help {l : Level} {w : Word} : l.named w = .help ↔ (l = .tool ∨ l = .doc) ∧ w = "help".toList := by
  cases l with
  | tool =>
    simp only [Level.named, reduceCtorEq, or_false, true_and]
    constructor
    · intro h
      split at h
      · cases h
      · split at h
        · assumption
        · cases h
    · rintro rfl; rfl
  | doc =>
    simp only [Level.named, reduceCtorEq, false_or, true_and]
    constructor
    · intro h
      split at h
      · cases h
      split at h
      · cases h
      split at h
      · cases h
      split at h
      · assumption
      · cases h
    · rintro rfl; rfl
  | action a => simp [Level.named]

theorem named_sub {l l' : Level} {w : Word} : l.named w = .enter l' ↔ SubOf l w l' := by
  constructor
  · intro h
    cases l with
    | tool => obtain ⟨rfl, rfl⟩ := named_tool.1 h; exact .doc
    | doc => obtain ⟨a, ha, rfl⟩ := named_enter.1 h; exact .action ha
    | action a => cases h
  · intro h
    cases h with
    | doc => rfl
    | action h => exact named_enter.2 ⟨_, h, rfl⟩

theorem sub_tool {l l' : Level} {w : Word} (h : SubOf l w l') : l' ≠ .tool := by
  cases h <;> simp

theorem helps_iff {l : Level} {ws : List Word} : l.helps ws = true ↔ Topic l ws := by
  induction ws generalizing l with
  | nil => exact ⟨fun _ => .nil, fun _ => rfl⟩
  | cons w ws ih =>
    simp only [Level.helps]
    constructor
    · intro h
      split at h
      · rename_i l' hn
        cases named_sub.1 hn with
        | doc => exact .doc (ih.1 h)
        | action hc =>
          cases ws with
          | nil => exact .action hc
          | cons x ws => simp [Level.helps, Level.named] at h
      · rename_i hn
        obtain ⟨hl, rfl⟩ := named_help.1 hn
        simp only [decide_eq_true_eq] at h
        subst h
        rcases hl with rfl | rfl
        · exact .tool
        · exact .help
      · cases h
    · intro h
      cases h with
      | tool => rfl
      | help => rfl
      | doc h => exact ih.2 h
      | action h => rw [named_sub.2 (.action h)]; rfl

/-- Arguments and options that are in order. -/
theorem stage_items {o : Options} {ps w1 : List Word} {l : Level} (h : Items l.taken False o ps w1) (s : Stage) (hc : s.Clean)
    (hl : s.read.level = l) (hn : ∀ w, NoOption w → ¬ l.taken w → w ∈ ps → l.named w = .no) (ha : Apart o s.read.here)
    {r' : Reading} (hr : s.read.takeAll ps = some r') (rest : List Word) :
    s.words (w1 ++ rest) = ({ s with read := { r' with here := o.over s.read.here } } : Stage).words rest := by
  subst hl
  generalize htk : s.read.level.taken = taken at h
  induction h generalizing s r' with
  | nil => cases hr; rfl
  | @context o ps ws us v hw hv hs _ ih =>
    subst htk
    have hcx : s.read.here.context = none := by
      rcases ha.1 with h | h
      · cases h
      · exact h
    have hg : s.read.here.give .context v = some { s.read.here with context := some v } := by
      simp only [Options.give, hcx, hv, ne_eq, not_false_eq_true, and_self, if_true]
    rw [List.append_assoc, stage_option hc hw hg]
    have ht := takeAll_with s.read ps { s.read.here with context := some v } s.read.escaped s.read.pending
    rw [hr] at ht
    obtain ⟨_, _, _, a4, a5⟩ := takeAll_same hr
    rw [ih { s with read := { s.read with here := { s.read.here with context := some v } } } hc ⟨.inl hs, ha.2⟩ ht hn rfl]
    have hov : o.over { s.read.here with context := some v } = ({ o with context := some v } : Options).over s.read.here := by
      simp only [Options.over, hs, Option.none_or, Option.some_or]
    simp only [hov, ← a4, ← a5]
  | @extension o ps ws us v hw hs _ ih =>
    subst htk
    have hcx : s.read.here.extension = none := by
      rcases ha.2 with h | h
      · cases h
      · exact h
    have hg : s.read.here.give .extension v = some { s.read.here with extension := some v } := by
      simp only [Options.give, hcx, if_true]
    rw [List.append_assoc, stage_option hc hw hg]
    have ht := takeAll_with s.read ps { s.read.here with extension := some v } s.read.escaped s.read.pending
    rw [hr] at ht
    obtain ⟨_, _, _, a4, a5⟩ := takeAll_same hr
    rw [ih { s with read := { s.read with here := { s.read.here with extension := some v } } } hc ⟨ha.1, .inl hs⟩ ht hn rfl]
    have hov : o.over { s.read.here with extension := some v } = ({ o with extension := some v } : Options).over s.read.here := by
      simp only [Options.over, hs, Option.none_or, Option.some_or]
    simp only [hov, ← a4, ← a5]
  | @word o ps ws w h1 h2 _ ih =>
    subst htk
    obtain ⟨hp, hh, he⟩ := hc
    simp only [Reading.takeAll] at hr
    cases hq : s.read.positional w with
    | none => rw [hq] at hr; cases hr
    | some q =>
      rw [hq, Option.bind_some] at hr
      obtain ⟨a1, a2, a3, a4, a5⟩ := positional_same hq
      have : s.words (w :: (ws ++ rest)) = ({ s with read := q } : Stage).words (ws ++ rest) := by
        simp only [Stage.words, Stage.word, he, Bool.false_eq_true, if_false, hp, true_or, if_true, hn w h1 h2 (by simp),
          asks_noOption h1, look_plain_of h1, Stage.go, settle_clean hp hh, hq]
      rw [List.cons_append, this, ih { s with read := q } ⟨a4.trans hp, hh, a5.trans he⟩
        (by rw [a2]; exact ha) hr
        (fun x k1 k2 k3 => by rw [a1] at k2 ⊢; exact hn x k1 k2 (List.mem_cons_of_mem _ k3)) (by rw [a1])]
      simp only [a2]
  | escape h => exact h.elim

/-- What nobody looks at, before a subcommand. -/
theorem stage_unread {s : Stage} (hc : s.Clean) {us : List Word} (hu : Unread s.read.level us) : ∃ s' : Stage,
    s'.read.level = s.read.level ∧ s'.read.escaped = false ∧ (s'.read.pending = none ∨ s'.read.level = .doc) ∧
    s'.read.content = s.read.content ∧
    (∀ s'', s'.settle = some s'' → s''.held = none ∧ s''.read.pending = none ∧ s''.read.escaped = false ∧
      s''.read.content = s.read.content ∧ s''.read.id = s.read.id) ∧ ∀ rest, s.words (us ++ rest) = s'.words rest := by
  have hs : ∀ s' s'' : Stage, s'.read.escaped = false → s'.read.content = s.read.content → s'.read.id = s.read.id →
      s'.settle = some s'' → s''.held = none ∧ s''.read.pending = none ∧ s''.read.escaped = false ∧
      s''.read.content = s.read.content ∧ s''.read.id = s.read.id := by
    intro s' s'' e1 e2 e3 h
    obtain ⟨h1, h2, _, _, o, h3, _⟩ := settle_some h
    rw [h3]
    exact ⟨h2, h1, e1, e2, e3⟩
  have two : ∀ (w v : Word) (o : Opt), look w = .option o none → NoOption v → ¬ ReservedAt s.read.level v → ∃ s' : Stage,
      s'.read.level = s.read.level ∧ s'.read.escaped = false ∧ (s'.read.pending = none ∨ s'.read.level = .doc) ∧
      s'.read.content = s.read.content ∧
      (∀ s'', s'.settle = some s'' → s''.held = none ∧ s''.read.pending = none ∧ s''.read.escaped = false ∧
        s''.read.content = s.read.content ∧ s''.read.id = s.read.id) ∧ ∀ rest, s.words ([w, v] ++ rest) = s'.words rest :=
    fun w v o hl hv ht => ⟨{ s with held := some (o, v) }, rfl, hc.2.2, .inl hc.1, rfl, fun s'' => hs _ s'' hc.2.2 rfl rfl,
      fun rest => stage_two hc hl hv (fun h => ht (reservedAt_iff.2 h)) rest⟩
  have one : ∀ (w : Word) (o : Opt), look w = .option o none → s.read.level = .doc → ∃ s' : Stage,
      s'.read.level = s.read.level ∧ s'.read.escaped = false ∧ (s'.read.pending = none ∨ s'.read.level = .doc) ∧
      s'.read.content = s.read.content ∧
      (∀ s'', s'.settle = some s'' → s''.held = none ∧ s''.read.pending = none ∧ s''.read.escaped = false ∧
        s''.read.content = s.read.content ∧ s''.read.id = s.read.id) ∧ ∀ rest, s.words ([w] ++ rest) = s'.words rest :=
    fun w o hl hd => ⟨{ s with read := { s.read with pending := some o } }, rfl, hc.2.2, .inr hd, rfl,
      fun s'' => hs _ s'' hc.2.2 rfl rfl, fun rest => stage_bare hc hl rest⟩
  have kshort : ∀ o, look ['-', shortOf o] = .option o none := fun o => by rw [look_of_letter]; rfl
  have klong : ∀ o, look ('-' :: '-' :: longOf o) = .option o none := fun o =>
    look_of_name o _ _ (splitEq_none.2 ⟨(name_no_eq o).1, rfl⟩) (name_no_eq o).2
  generalize hl : s.read.level = l at hu
  cases hu with
  | none => exact ⟨s, hl, hc.2.2, .inl hc.1, rfl, fun s'' => hs s s'' hc.2.2 rfl rfl, fun _ => rfl⟩
  | short o h1 h2 => exact hl ▸ two _ _ o (kshort o) h1 (hl ▸ h2)
  | long o h1 h2 => exact hl ▸ two _ _ o (klong o) h1 (hl ▸ h2)
  | bareShort o => exact hl ▸ one _ o (kshort o) hl
  | bareLong o => exact hl ▸ one _ o (klong o) hl

theorem escaped_shown {s : Stage} (h : s.read.escaped = true) (ws : List Word) : s.words ws ≠ .shown := by
  induction ws generalizing s with
  | nil =>
    simp only [Stage.words, Stage.done]
    split
    · split <;> simp
    · simp
  | cons w ws ih =>
    simp only [Stage.words, Stage.word, h, if_true, Stage.go]
    cases hs : s.settle with
    | none => simp
    | some s' =>
      simp only
      obtain ⟨_, _, _, _, o, ho, _⟩ := settle_some hs
      cases hp : s'.read.positional w with
      | none => simp
      | some r =>
        refine ih ?_
        rw [(positional_same hp).2.2.2.2, ho]
        exact h

/-- At the beginning of an option or argument, having read only what the command takes. -/
structure Stage.Tidy (s : Stage) : Prop where
  clean : s.Clean
  content : (∀ a, s.read.level ≠ .action a) → s.read.content = none
  id : s.read.level = .tool → s.read.id = none

theorem Stage.Fresh.tidy {l : Level} {s : Stage} (h : s.Fresh l) (hi : l = .tool → s.read.id = none) : s.Tidy :=
  ⟨h.clean, fun _ => h.content, fun e => hi (h.level.symm.trans e)⟩

/-- Where a command line asks for help. -/
def Stage.Splits (s : Stage) (ws : List Word) : Prop :=
  ∃ o ps w1, Items s.read.level.taken False o ps w1 ∧ Apart o s.read.here ∧ (s.read.takeAll ps).isSome ∧
    ((∃ f rest, ws = w1 ++ f :: rest ∧ AsksWord s.read.level f) ∨
      ∃ us w rest, ws = w1 ++ (us ++ w :: rest) ∧ Unread s.read.level us ∧
        ((s.read.level.named w = .help ∧ s.read.level.helps rest = true) ∨
          ∃ l' s', s.read.level.named w = .enter l' ∧ Stage.Fresh l' s' ∧ s'.words rest = .shown))

/-- Nothing but options and arguments is read before. -/
theorem Stage.Splits.nil {s : Stage} {ws : List Word}
    (h : (∃ f rest, ws = f :: rest ∧ AsksWord s.read.level f) ∨
      ∃ us w rest, ws = us ++ w :: rest ∧ Unread s.read.level us ∧
        ((s.read.level.named w = .help ∧ s.read.level.helps rest = true) ∨
          ∃ l' s', s.read.level.named w = .enter l' ∧ Stage.Fresh l' s' ∧ s'.words rest = .shown)) : s.Splits ws :=
  ⟨{}, [], [], .nil, ⟨.inl rfl, .inl rfl⟩, rfl, h⟩

theorem named_entered {l l' : Level} {w : Word} (h : l.named w = .enter l') : (∀ a, l ≠ .action a) ∧ (l' = .doc → l = .tool) := by
  cases named_sub.1 h with
  | doc => exact ⟨fun a => by simp, fun _ => rfl⟩
  | action h => exact ⟨fun a => by simp, fun e => by cases e⟩

/-- With something to complain about, only a subcommand helps. -/
theorem sour_shown {s : Stage} (he : s.read.escaped = false) (hp : s.read.pending = none) (hs : s.settle = none) {ws : List Word}
    (h : s.words ws = .shown) : ∃ w rest, ws = w :: rest ∧ ((s.read.level.named w = .help ∧ s.read.level.helps rest = true) ∨
      ∃ l' s', s.read.level.named w = .enter l' ∧ Stage.Fresh l' s' ∧ s'.words rest = .shown) := by
  cases ws with
  | nil => simp only [Stage.words, Stage.done, hs, Option.bind_none, reduceCtorEq] at h
  | cons w ws =>
    refine ⟨w, ws, rfl, ?_⟩
    simp only [Stage.words, Stage.word, he, Bool.false_eq_true, if_false, hp, true_or, if_true, Stage.go, hs, Option.isSome_none] at h
    cases hnm : s.read.level.named w with
    | help =>
      rw [hnm] at h
      simp only at h
      split at h
      · rename_i hb; exact .inl ⟨rfl, hb⟩
      · cases h
    | enter l =>
      rw [hnm] at h
      exact .inr ⟨l, _, rfl, ⟨rfl, rfl, fun _ => rfl, rfl, rfl, rfl, rfl⟩, h⟩
    | no =>
      rw [hnm] at h
      simp only at h
      cases hask : s.read.level.asks w with
      | true => rw [hask] at h; cases h
      | false =>
        rw [hask] at h
        simp only [Bool.false_eq_true, if_false] at h
        cases hlook : look w with
        | escape => rw [hlook] at h; exact absurd h (escaped_shown rfl ws)
        | other => rw [hlook] at h; cases h
        | plain => rw [hlook] at h; cases h
        | option o v => rw [hlook] at h; cases v <;> cases h

theorem shown_split (n : Nat) (ws : List Word) (hlen : ws.length ≤ n) (s : Stage) (ht : s.Tidy) (h : s.words ws = .shown) :
    s.Splits ws := by
  have hnil : ∀ s : Stage, s.words [] ≠ .shown := by
    intro s
    simp only [Stage.words, Stage.done]
    split
    · split <;> simp
    · simp
  induction n generalizing ws s with
  | zero =>
    cases ws with
    | cons w ws => cases hlen
    | nil => exact absurd h (hnil s)
  | succ n ih =>
    cases ws with
    | nil => exact absurd h (hnil s)
    | cons w ws =>
      have hlen : ws.length ≤ n := Nat.le_of_succ_le_succ hlen
      -- what follows an option
      have opt : ∀ (o : Opt) (x : Word) (us rest : List Word) (u : Options), OptionWords s.read.level.taken o x us →
          s.read.here.give o x = some u → rest.length ≤ n →
          ({ s with read := { s.read with here := u } } : Stage).words rest = .shown → w :: ws = us ++ rest → s.Splits (w :: ws) := by
        intro o x us rest u hw hg hl hv heq
        obtain ⟨o', ps, w1, h1, h2, h3, h4⟩ := ih rest hl { s with read := { s.read with here := u } } ⟨ht.clean, ht.content, ht.id⟩ hv
        obtain ⟨o'', k1, k2, _⟩ := Items.give hw hg h1 h2
        refine ⟨o'', ps, us ++ w1, k1, k2, ?_, ?_⟩
        · have := takeAll_with s.read ps u s.read.escaped s.read.pending
          rw [this, Option.isSome_map] at h3
          exact h3
        · rcases h4 with ⟨f, rest', rfl, h6⟩ | ⟨us', w', rest', rfl, h6⟩
          · exact .inl ⟨f, rest', by rw [heq, List.append_assoc], h6⟩
          · exact .inr ⟨us', w', rest', by rw [heq, List.append_assoc], h6⟩
      obtain ⟨hp, hh, he⟩ := ht.clean
      obtain ⟨⟨level, here, around, id, content, pending, escaped⟩, held, late⟩ := s
      cases hp
      cases hh
      cases he
      have hcon : ∀ {x l}, level.named x = .enter l → content = none := fun e => ht.content (named_entered e).1
      have hid : ∀ {x l}, level.named x = .enter l → l = .doc → id = none := fun e e' => ht.id ((named_entered e).2 e')
      simp only [Stage.words, Stage.word, Bool.false_eq_true, if_false, true_or, if_true, Stage.go, Stage.settle] at h
      cases hnm : level.named w with
      | help =>
        rw [hnm] at h
        simp only at h
        split at h
        · rename_i hb; exact .nil (.inr ⟨[], w, ws, rfl, .none, .inl ⟨hnm, hb⟩⟩)
        · cases h
      | enter l =>
        rw [hnm] at h
        simp only at h
        exact .nil (.inr ⟨[], w, ws, rfl, .none, .inr ⟨l, _, hnm, ⟨rfl, rfl, hid hnm, hcon hnm, rfl, rfl, rfl⟩, h⟩⟩)
      | no =>
        rw [hnm] at h
        simp only at h
        cases hask : level.asks w with
        | true => exact .nil (.inl ⟨w, ws, rfl, asks_iff.1 hask⟩)
        | false =>
          rw [hask] at h
          simp only [Bool.false_eq_true, if_false] at h
          cases hlook : look w with
          | escape => rw [hlook] at h; exact absurd h (escaped_shown rfl ws)
          | other => rw [hlook] at h; cases h
          | plain =>
            rw [hlook] at h
            simp only at h
            have hnt : ¬ level.taken w := by
              intro hk
              cases level with
              | doc => exact named_no.1 hnm hk
              | tool => exact hk
              | action a => exact hk
            cases hq : (⟨level, here, around, id, content, none, false⟩ : Reading).positional w with
            | none => rw [hq] at h; cases h
            | some q =>
              rw [hq] at h
              simp only at h
              obtain ⟨a1, a2, a3, a4, a5⟩ := positional_same hq
              simp only at a1 a2 a3 a4 a5
              have hq' : q.level ≠ .tool ∧ ((∀ a, q.level ≠ .action a) → q.content = none) := by
                rw [a1]
                unfold Reading.positional at hq
                simp only at hq
                split at hq
                · split at hq
                  · cases hq; exact ⟨by simp, fun _ => ht.content (by simp)⟩
                  · cases hq
                · exact ⟨by simp, fun e => (e _ rfl).elim⟩
                · cases hq
              obtain ⟨o', ps, w1, h1, h2, h3, h4⟩ := ih ws hlen { read := q, late := late }
                ⟨⟨a4, rfl, a5⟩, hq'.2, fun e => (hq'.1 e).elim⟩ h
              simp only [a1, a2] at h1 h2 h4
              refine ⟨o', w :: ps, w :: w1, .word (look_plain hlook) hnt h1, h2, ?_, ?_⟩
              · simp only [Reading.takeAll, hq]; exact h3
              · rcases h4 with ⟨f, rest', rfl, h6⟩ | ⟨us', w', rest', rfl, h6⟩
                · exact .inl ⟨f, rest', rfl, h6⟩
                · exact .inr ⟨us', w', rest', rfl, h6⟩
          | option o x =>
            rw [hlook] at h
            cases x with
            | some x =>
              simp only at h
              cases hg : here.give o x with
              | none => rw [hg] at h; cases h
              | some u =>
                rw [hg] at h
                have hw : OptionWords level.taken o x [w] := by
                  rcases look_option hlook with ⟨y, rfl, hy⟩ | ⟨y, rfl, hy⟩
                  · rcases joined_some.1 hy with ⟨k1, k2, rfl⟩ | rfl
                    · exact .shortJoined k1 k2
                    · exact .shortEq
                  · obtain ⟨_, rfl⟩ := splitEq_some.1 hy
                    exact .longEq
                exact opt o x [w] ws u hw hg hlen h rfl
            | none =>
              simp only at h
              have hbare : w = ['-', shortOf o] ∨ w = '-' :: '-' :: longOf o := by
                rcases look_option hlook with ⟨y, rfl, hy⟩ | ⟨y, rfl, hy⟩
                · exact .inl (by rw [joined_none.1 hy])
                · exact .inr (by rw [← (splitEq_none.1 hy).2])
              cases ws with
              | nil => exact absurd h (hnil _)
              | cons x ws =>
                have hpend : level = .doc → Unread level [w] := by
                  rintro rfl
                  rcases hbare with rfl | rfl
                  · exact .bareShort o
                  · exact .bareLong o
                simp only [Stage.words, Stage.word, Bool.false_eq_true, if_false, Stage.go, Stage.settle, Option.isSome_none] at h
                cases hn2 : (if some o = (none : Option Opt) ∨ level = .doc then level.named x else .no) with
                | help =>
                  rw [hn2] at h
                  simp only at h
                  split at hn2
                  · rename_i hd
                    have hd : level = .doc := hd.resolve_left (by simp)
                    split at h
                    · rename_i hb; exact .nil (.inr ⟨[w], x, ws, rfl, hpend hd, .inl ⟨hn2, hb⟩⟩)
                    · cases h
                  · cases hn2
                | enter l =>
                  rw [hn2] at h
                  simp only at h
                  split at hn2
                  · rename_i hd
                    have hd : level = .doc := hd.resolve_left (by simp)
                    exact .nil (.inr ⟨[w], x, ws, rfl, hpend hd, .inr ⟨l, _, hn2, ⟨rfl, rfl, fun _ => rfl, rfl, rfl, rfl, rfl⟩, h⟩⟩)
                  · cases hn2
                | no =>
                  rw [hn2] at h
                  simp only at h
                  cases hax : level.asks x with
                  | true => rw [hax] at h; cases h
                  | false =>
                    rw [hax] at h
                    simp only [Bool.false_eq_true, if_false] at h
                    cases hlx : look x with
                    | escape => rw [hlx] at h; exact absurd h (escaped_shown rfl ws)
                    | other => rw [hlx] at h; cases h
                    | option o' v' => rw [hlx] at h; cases v' <;> cases h
                    | plain =>
                      rw [hlx] at h
                      simp only at h
                      have k1 := look_plain hlx
                      have k2 : ¬ level.taken x := taken_doc (r := { level := level }) hn2
                      cases hg : here.give o x with
                      | some u =>
                        rw [settle_words (s' := { read := ⟨level, u, around, id, content, none, false⟩, late := late })
                          (by simp only [Stage.settle, hg, Option.map_some])] at h
                        refine opt o x [w, x] ws u ?_ hg (Nat.le_of_succ_le hlen) h rfl
                        rcases hbare with rfl | rfl
                        · exact .short k1 k2
                        · exact .long k1 k2
                      | none =>
                        obtain ⟨y, rest, rfl, hy⟩ := sour_shown (by rfl) (by rfl)
                          (by simp only [Stage.settle, hg, Option.map_none]) h
                        refine .nil (.inr ⟨[w, x], y, rest, rfl, ?_, hy⟩)
                        have k3 : ¬ ReservedAt level x := fun e => k2 (reservedAt_iff.1 e)
                        rcases hbare with rfl | rfl
                        · exact .short o k1 k3
                        · exact .long o k1 k3

theorem takeAll_keeps {r r' : Reading} {ps : List Word} (h : r.takeAll ps = some r') :
    ((∀ a, r.level ≠ .action a) → r'.content = r.content) ∧ (r.level = .tool → r' = r ∧ ps = []) := by
  induction ps generalizing r with
  | nil => cases h; exact ⟨fun _ => rfl, fun _ => ⟨rfl, rfl⟩⟩
  | cons w ps ih =>
    simp only [Reading.takeAll] at h
    cases hq : r.positional w with
    | none => rw [hq] at h; cases h
    | some q =>
      rw [hq] at h
      have a1 := (positional_same hq).1
      refine ⟨fun ha => ?_, fun e => ?_⟩
      · rw [(ih h).1 (fun a => by rw [a1]; exact ha a)]
        unfold Reading.positional at hq
        split at hq
        · split at hq
          · cases hq; rfl
          · cases hq
        · rename_i e; exact (ha _ e).elim
        · cases hq
      · simp [Reading.positional, e] at hq

/-- The help of a subcommand, and of one of its own. -/
theorem shows_iff {l : Level} {s : Stage} (hf : s.Fresh l) (hi : l = .tool → s.read.id = none) (ws : List Word) :
    s.words ws = .shown ↔ ShowsHelp l ws := by
  constructor
  · intro h
    generalize hn : ws.length = n
    induction n using Nat.strongRecOn generalizing l s ws with
    | ind n ih =>
      obtain ⟨o, ps, w1, h1, h2, h3, h4⟩ := shown_split n ws (Nat.le_of_eq hn) s (hf.tidy hi) h
      have hl := hf.level
      rw [takeAll_isSome (fun e => hf.id (hl.symm.trans e)) hf.content, hl] at h3
      rw [hl, ← reservedAt_eq] at h1
      rw [hl] at h4
      rcases h4 with ⟨f, rest, rfl, hask⟩ | ⟨us, w, rest, rfl, hu, ⟨hw, hr⟩ | ⟨l', s', hw, hf', hr⟩⟩
      · exact .flag h1 h3 hask
      · obtain ⟨hl', rfl⟩ := named_help.1 hw
        exact .help hl' h1 h3 hu (helps_iff.1 hr)
      · refine .sub h1 h3 hu (named_sub.1 hw) (ih rest.length ?_ hf' ?_ rest hr rfl)
        · subst hn; simp; omega
        · rintro rfl; cases named_sub.1 hw
  · intro h
    have ready : ∀ {l : Level} {s : Stage} {o : Options} {ps w1 : List Word}, s.Fresh l → (l = .tool → s.read.id = none) →
        Items (ReservedAt l) False o ps w1 → ps.length ≤ Takings l → ∃ s' : Stage, s'.Clean ∧ s'.read.level = l ∧
          ((∀ a, l ≠ .action a) → s'.read.content = none) ∧ (l = .tool → s'.read.id = none) ∧
          ∀ rest, s.words (w1 ++ rest) = s'.words rest := by
      intro l s o ps w1 hf hi h1 h2
      rw [reservedAt_eq] at h1
      have hl := hf.level
      rw [← hl, ← takeAll_isSome (fun e => hf.id (hl.symm.trans e)) hf.content] at h2
      obtain ⟨r', hr⟩ := Option.isSome_iff_exists.1 h2
      obtain ⟨a1, a2, a3, a4, a5⟩ := takeAll_same hr
      refine ⟨{ s with read := { r' with here := o.over s.read.here } }, ⟨a4.trans hf.clean.1, hf.clean.2.1, a5.trans hf.clean.2.2⟩, a1.trans hl, ?_, ?_,
        fun rest => stage_items h1 s hf.clean hl ?_ (by rw [hf.here]; exact ⟨.inr rfl, .inr rfl⟩) hr rest⟩
      · intro ha
        exact ((takeAll_keeps hr).1 (fun a => by rw [hl]; exact ha a)).trans hf.content
      · intro e
        rw [show r' = s.read from ((takeAll_keeps hr).2 (hl.trans e)).1]
        exact hi e
      · intro w k1 k2 k3
        cases l with
        | doc => exact named_no.2 k2
        | tool => rw [((takeAll_keeps hr).2 hl).2] at k3; cases k3
        | action a => rfl
    induction h generalizing s with
    | flag h1 h2 h3 =>
      obtain ⟨s', k1, k2, _, _, k3⟩ := ready hf hi h1 h2
      subst k2
      rw [k3]
      have ha := asks_iff.2 h3
      simp only [Stage.words, Stage.word, k1.2.2, Bool.false_eq_true, if_false, k1.1, true_or, if_true, (asks_look ha).2, ha,
        settle_clean k1.1 k1.2.1, Option.isSome_some]
    | help hl h1 h2 h3 h4 =>
      obtain ⟨s', k1, k2, _, _, k3⟩ := ready hf hi h1 h2
      subst k2
      obtain ⟨t, t1, t2, t3, _, _, t4⟩ := stage_unread k1 h3
      rw [k3, t4]
      rw [← t1] at hl h4
      simp only [Stage.words, Stage.word, t2, Bool.false_eq_true, if_false, t3, if_true, named_help.2 ⟨hl, rfl⟩, helps_iff.2 h4]
    | sub h1 h2 h3 h4 h5 ih =>
      obtain ⟨s', k1, k2, kc, ki, k3⟩ := ready hf hi h1 h2
      subst k2
      obtain ⟨t, t1, t2, t3, t5, t6, t4⟩ := stage_unread k1 h3
      rw [k3, t4]
      have hn := named_sub.2 h4
      rw [← t1] at hn
      simp only [Stage.words, Stage.word, t2, Bool.false_eq_true, if_false, t3, if_true, hn]
      rw [t1] at hn
      cases hs : t.settle with
      | none => exact ih ⟨rfl, rfl, fun _ => rfl, rfl, rfl, rfl, rfl⟩ (fun _ => rfl)
      | some t' =>
        obtain ⟨x1, x2, x3, x4, x5⟩ := t6 t' hs
        refine ih ⟨rfl, rfl, fun e => ?_, x4.trans (kc (named_entered hn).1), x2, x1, x3⟩ ?_
        · exact x5.trans (ki ((named_entered hn).2 e))
        · intro e; exact (sub_tool h4 e).elim

end Plotline
