import Verif.Lemmas.OsText
import Verif.Props.Args

/-! # Arguments that are not text -/

namespace Plotline

theorem isText_iff {b : Name} : (asText b).isSome = true ↔ IsText b := by
  rw [Option.isSome_iff_exists]
  exact exists_congr fun s => asText_iff

theorem textual_iff (r : Reading) :
    r.textual = true ↔ TextIfAny r.here.extension ∧ TextIfAny r.id ∧ TextIfAny r.content := by
  have key : ∀ o : Option Word, o.all (fun w => (asText w).isSome) = true ↔ TextIfAny o := by
    intro o
    cases o with
    | none => exact ⟨fun _ _ h => (by cases h), fun _ => rfl⟩
    | some w =>
      rw [Option.all_some, isText_iff]
      exact ⟨fun h b hb => (by cases hb; exact h), fun h => h w rfl⟩
  unfold Reading.textual
  rw [Bool.and_eq_true, Bool.and_eq_true, key, key, key, and_assoc]

theorem osWords_bad {r : Reading} (h : ¬ r.textual = true) (ws : List Word) : r.osWords ws = none := by
  cases ws <;> simp [Reading.osWords, h]

theorem TextIfAny.none : TextIfAny none := fun _ h => by cases h

theorem give_textual {r : Reading} {o : Opt} {v : Word} {s : Options} (h : r.here.give o v = some s)
    (ht : ({ r with here := s } : Reading).textual = true) : r.textual = true := by
  rw [textual_iff] at ht ⊢
  rcases give_some h with ⟨_, _, _, rfl⟩ | ⟨_, h2, rfl⟩
  · exact ht
  · exact ⟨h2 ▸ .none, ht.2⟩

theorem positional_textual {r r' : Reading} {w : Word} (h : r.positional w = some r') (ht : r'.textual = true) : r.textual = true := by
  rw [textual_iff] at ht ⊢
  unfold Reading.positional at h
  split at h
  · split at h
    · rename_i h2; cases h; exact ⟨ht.1, h2 ▸ .none, ht.2.2⟩
    · cases h
  · split at h
    · rename_i h2; cases h; exact ⟨ht.1, ht.2.1, h2 ▸ .none⟩
    · cases h
  · cases h

theorem takeAll_textual {r r' : Reading} {ws : List Word} (h : r.takeAll ws = some r') (ht : r'.textual = true) : r.textual = true := by
  induction ws generalizing r with
  | nil => cases h; exact ht
  | cons w ws ih =>
    simp only [Reading.takeAll] at h
    cases hp : r.positional w with
    | none => rw [hp] at h; cases h
    | some q => rw [hp] at h; exact positional_textual hp (ih h)

/-- What values must be does not change what they are. -/
theorem osWords_words {r : Reading} {ws : List Word} {v : Invocation} (h : r.osWords ws = some v) : r.words ws = some v := by
  induction ws generalizing r with
  | nil =>
    simp only [Reading.osWords] at h
    split at h
    · exact h
    · cases h
  | cons w ws ih =>
    simp only [Reading.osWords] at h
    split at h
    · simp only [Reading.words]
      cases hw : r.word w with
      | none => rw [hw] at h; cases h
      | some q => rw [hw] at h; exact ih h
    · cases h

theorem osWords_textual {r : Reading} {ws : List Word} {v : Invocation} (h : r.osWords ws = some v) : r.textual = true := by
  by_cases ht : r.textual = true
  · exact ht
  · rw [osWords_bad ht] at h; cases h

/-- The first word. -/
theorem osWords_cons {r : Reading} {w : Word} {ws : List Word} (h : ∀ r', r.word w = some r' → r'.textual = true → r.textual = true) :
    r.osWords (w :: ws) = (r.word w).bind fun r => r.osWords ws := by
  by_cases ht : r.textual = true
  · simp only [Reading.osWords, ht, if_true]
  · rw [osWords_bad ht]
    cases hw : r.word w with
    | none => rfl
    | some q => exact (osWords_bad (fun hq => ht (h q hw hq)) ws).symm

/-- After `--`. -/
theorem osWords_escaped (r : Reading) (he : r.escaped = true) (ws : List Word) :
    r.osWords ws = (r.takeAll ws).bind fun r => r.osWords [] := by
  induction ws generalizing r with
  | nil => rfl
  | cons w ws ih =>
    have hw : r.word w = r.positional w := by simp only [Reading.word, he, if_true]
    rw [osWords_cons (fun r' h => positional_textual (hw ▸ h)), hw]
    simp only [Reading.takeAll]
    cases hp : r.positional w with
    | none => rfl
    | some q => exact ih q ((positional_same hp).2.2.2.2.trans he)

section
variable {taken : Word → Prop}

/-- The words of an option. -/
theorem osWords_option (r : Reading) (he : r.escaped = false) (hp : r.pending = none)
    (ht : r.level = .doc → ∀ v, ¬ taken v → Level.doc.named v = .no) {o : Opt} {v : Word} {us : List Word}
    (hw : OptionWords taken o v us) (rest : List Word) :
    r.osWords (us ++ rest) = (r.here.give o v).bind fun s => ({ r with here := s } : Reading).osWords rest := by
  have hone : ∀ w : Word, w.head? = some '-' → look w = .option o (some v) →
      r.osWords ([w] ++ rest) = (r.here.give o v).bind fun s => ({ r with here := s } : Reading).osWords rest := by
    intro w hd hl
    obtain ⟨u, rfl⟩ : ∃ u, w = '-' :: u := by
      cases w with
      | nil => cases hd
      | cons c u => simp only [List.head?_cons, Option.some.injEq] at hd; exact ⟨u, by rw [hd]⟩
    have hw : r.word ('-' :: u) = (r.here.give o v).map fun s => { r with here := s } := by
      simp only [Reading.word, he, Bool.false_eq_true, if_false, named_dash, ite_self, hl, hp]
    rw [List.singleton_append, osWords_cons, hw]
    · cases r.here.give o v <;> rfl
    · intro r' h h2
      rw [hw] at h
      obtain ⟨s, h3, rfl⟩ := Option.map_eq_some_iff.1 h
      exact give_textual h3 h2
  have htwo : ∀ w : Word, w.head? = some '-' → look w = .option o none → NoOption v → ¬ taken v →
      r.osWords ([w, v] ++ rest) = (r.here.give o v).bind fun s => ({ r with here := s } : Reading).osWords rest := by
    intro w hd hl hv hnt
    obtain ⟨u, rfl⟩ : ∃ u, w = '-' :: u := by
      cases w with
      | nil => cases hd
      | cons c u => simp only [List.head?_cons, Option.some.injEq] at hd; exact ⟨u, by rw [hd]⟩
    have hn : (if some o = (none : Option Opt) ∨ r.level = .doc then r.level.named v else .no) = .no := by
      split
      · rename_i h
        rcases h with h | h
        · cases h
        · rw [h]; exact ht h v hnt
      · rfl
    have hw1 : r.word ('-' :: u) = some { r with pending := some o } := by
      simp only [Reading.word, he, Bool.false_eq_true, if_false, named_dash, ite_self, hl, hp]
    have hw2 : ({ r with pending := some o } : Reading).word v = (r.here.give o v).map fun s => { r with here := s } := by
      simp only [Reading.word, he, Bool.false_eq_true, if_false, hn, look_plain_of hv]
      cases r.here.give o v <;> simp [← hp]
    rw [List.cons_append, List.singleton_append, osWords_cons, hw1, Option.bind_some, osWords_cons, hw2]
    · cases r.here.give o v <;> rfl
    · intro r' h h2
      rw [hw2] at h
      obtain ⟨s, h3, rfl⟩ := Option.map_eq_some_iff.1 h
      exact give_textual h3 h2
    · intro r' h h2
      rw [hw1] at h
      cases h
      exact h2
  cases hw with
  | short h1 h2 => exact htwo _ rfl (by rw [look_of_letter]; rfl) h1 h2
  | long h1 h2 => exact htwo _ rfl (look_of_name o _ _ (splitEq_none.2 ⟨(name_no_eq o).1, rfl⟩) (name_no_eq o).2) h1 h2
  | shortJoined h1 h2 => exact hone _ rfl (by rw [look_of_letter, joined_some.2 (.inl ⟨h1, h2, rfl⟩)])
  | shortEq => exact hone _ rfl (by rw [look_of_letter, joined_some.2 (.inr rfl)])
  | longEq => exact hone _ rfl (look_of_name o _ _ (splitEq_some.2 ⟨(name_no_eq o).1, rfl⟩) (by simp))

/-- What a command reads. -/
theorem osWords_items {esc : Prop} {s : Options} {ps ws : List Word} (h : Items taken esc s ps ws) (r : Reading)
    (he : r.escaped = false) (hp : r.pending = none) (ht : r.level = .doc → ∀ v, ¬ taken v → Level.doc.named v = .no)
    (hn : ∀ w, NoOption w → ¬ taken w → w ∈ ps → r.level.named w = .no) (ha : Apart s r.here) (rest : List Word)
    (hr : esc → rest = []) : ∃ e, (¬ esc → e = false) ∧
      r.osWords (ws ++ rest) =
        (r.takeAll ps).bind fun r' => ({ r' with here := s.over r.here, escaped := e } : Reading).osWords rest := by
  induction h generalizing r with
  | nil =>
    refine ⟨false, fun _ => rfl, ?_⟩
    cases r
    cases he
    rfl
  | @context s ps ws us v hw hv hs _ ih =>
    have hc : r.here.context = none := by
      rcases ha.1 with h | h
      · cases h
      · exact h
    have hg : r.here.give .context v = some { r.here with context := some v } := by
      simp only [Options.give, hc, hv, ne_eq, not_false_eq_true, and_self, if_true]
    obtain ⟨e, h1, h2⟩ := ih { r with here := { r.here with context := some v } } he hp ht hn ⟨.inl hs, ha.2⟩
    refine ⟨e, h1, ?_⟩
    rw [List.append_assoc, osWords_option r he hp ht hw, hg, Option.bind_some, h2]
    rw [takeAll_with r ps { r.here with context := some v } r.escaped r.pending, Option.bind_map]
    refine Option.bind_congr fun r' hr' => ?_
    have hov : s.over { r.here with context := some v } = ({ s with context := some v } : Options).over r.here := by
      simp only [Options.over, hs, Option.none_or, Option.some_or]
    simp only [Function.comp, hov, ← (takeAll_same hr').2.2.2.1]
  | @extension s ps ws us v hw hs _ ih =>
    have hc : r.here.extension = none := by
      rcases ha.2 with h | h
      · cases h
      · exact h
    have hg : r.here.give .extension v = some { r.here with extension := some v } := by
      simp only [Options.give, hc, if_true]
    obtain ⟨e, h1, h2⟩ := ih { r with here := { r.here with extension := some v } } he hp ht hn ⟨ha.1, .inl hs⟩
    refine ⟨e, h1, ?_⟩
    rw [List.append_assoc, osWords_option r he hp ht hw, hg, Option.bind_some, h2]
    rw [takeAll_with r ps { r.here with extension := some v } r.escaped r.pending, Option.bind_map]
    refine Option.bind_congr fun r' hr' => ?_
    have hov : s.over { r.here with extension := some v } = ({ s with extension := some v } : Options).over r.here := by
      simp only [Options.over, hs, Option.none_or, Option.some_or]
    simp only [Function.comp, hov, ← (takeAll_same hr').2.2.2.1]
  | @word s ps ws w h1 h2 _ ih =>
    have hw : r.word w = r.positional w := by
      simp only [Reading.word, he, Bool.false_eq_true, if_false, hp, true_or, if_true, hn w h1 h2 (by simp),
        look_plain_of h1]
    rw [List.cons_append, osWords_cons (fun r' h => positional_textual (hw ▸ h)), hw]
    simp only [Reading.takeAll]
    cases hq : r.positional w with
    | none => exact ⟨false, fun _ => rfl, rfl⟩
    | some q =>
      obtain ⟨a1, a2, a3, a4, a5⟩ := positional_same hq
      obtain ⟨e, g1, g2⟩ := ih q (a5.trans he) (a4.trans hp) (fun h => ht (a1.symm.trans h))
        (fun w k1 k2 k3 => by rw [a1]; exact hn w k1 k2 (List.mem_cons_of_mem _ k3)) (by rw [a2]; exact ha)
      refine ⟨e, g1, ?_⟩
      rw [Option.bind_some, Option.bind_some, g2, a2]
  | @escape ws hesc =>
    refine ⟨true, fun h => absurd hesc h, ?_⟩
    have hw : r.word ['-', '-'] = some { r with escaped := true } := by
      simp only [Reading.word, he, Bool.false_eq_true, if_false, hp, true_or, if_true, named_dash]
      rfl
    rw [hr hesc, List.append_nil, osWords_cons (fun r' h h2 => by rw [hw] at h; cases h; exact h2), hw, Option.bind_some,
      osWords_escaped _ rfl]
    have := takeAll_with r ws r.here true r.pending
    rw [this, Option.bind_map]
    refine Option.bind_congr fun r' hr' => ?_
    obtain ⟨_, a2, _, a4, _⟩ := takeAll_same hr'
    have hov : ({} : Options).over r.here = r'.here := by rw [a2]; rfl
    simp only [Function.comp, hov, ← a4, a2]

end

/-- The three commands of a line, one after the other. -/
theorem osArgs_line {o1 o2 o3 : Options} {w1 w2 w3 : List Word} {n : Word} {a : Action} {id content : Option Word}
    (h1 : Items (fun _ => False) False o1 [] w1) (h2 : Items Reserved False o2 id.toList w2) (hc : Calls a n)
    (h3 : Items (fun _ => False) True o3 content.toList w3) (hs : a ≠ .save → content = none) :
    (∃ v, osArgs (w1 ++ "doc".toList :: (w2 ++ n :: w3)) = some v) ↔
      TextIfAny o1.extension ∧ TextIfAny o2.extension ∧ TextIfAny o3.extension ∧ TextIfAny id ∧ TextIfAny content := by
  obtain ⟨e1, he1, g1⟩ := osWords_items h1 {} rfl rfl (fun h => by cases h) (fun _ _ _ h => by cases h) ⟨.inr rfl, .inr rfl⟩
    ("doc".toList :: (w2 ++ n :: w3)) (fun h => h.elim)
  obtain rfl := he1 (fun h => h)
  rw [osArgs, g1]
  simp only [Reading.takeAll, Option.bind_some, over_none]
  have hdoc : ∀ r : Reading, r.level = .tool → r.escaped = false → r.pending = none → r.word "doc".toList =
      some { r with level := .doc, here := {}, around := r.here.over r.around } := by
    intro r k1 k2 k3
    simp only [Reading.word, k2, Bool.false_eq_true, if_false, k3, true_or, if_true, k1, named_tool.2 ⟨rfl, rfl⟩]
  have step : ∀ (r r' : Reading) (w : Word) (ws : List Word), r.word w = some r' →
      ((∃ v, r.osWords (w :: ws) = some v) ↔ r.textual = true ∧ ∃ v, r'.osWords ws = some v) := by
    intro r r' w ws h
    by_cases ht : r.textual = true
    · simp [Reading.osWords, ht, h]
    · simp [osWords_bad ht, ht]
  rw [step _ _ _ _ (hdoc _ rfl rfl rfl)]
  simp only [over_none]
  obtain ⟨e2, he2, g2⟩ := osWords_items h2 { level := .doc, around := o1 } rfl rfl (fun _ v => named_no.2)
    (fun _ _ k _ => named_no.2 k) ⟨.inr rfl, .inr rfl⟩ (n :: w3) (fun h => h.elim)
  obtain rfl := he2 (fun h => h)
  rw [g2, (takeAll_doc rfl rfl).2 ⟨id, rfl, rfl⟩, Option.bind_some, over_none]
  have hact : ∀ r : Reading, r.level = .doc → r.escaped = false → r.pending = none → r.word n =
      some { r with level := .action a, here := {}, around := r.here.over r.around } := by
    intro r k1 k2 k3
    simp only [Reading.word, k2, Bool.false_eq_true, if_false, k3, true_or, if_true, k1, named_enter.2 ⟨a, hc, rfl⟩]
  rw [step _ _ _ _ (hact _ rfl rfl rfl)]
  obtain ⟨e3, _, g3⟩ := osWords_items h3 { level := .action a, around := o2.over o1, id := id } rfl rfl (fun h => by cases h)
    (fun _ _ _ _ => rfl) ⟨.inr rfl, .inr rfl⟩ [] (fun _ => rfl)
  rw [List.append_nil] at g3
  rw [show (∃ v, ({ level := .action a, around := o2.over o1, id := id } : Reading).osWords w3 = some v) ↔
      TextIfAny o3.extension ∧ TextIfAny id ∧ TextIfAny content from ?_]
  · simp only [textual_iff]
    constructor
    · rintro ⟨k1, k2, k3⟩; exact ⟨k1.1, k2.1, k3.1, k3.2⟩
    · rintro ⟨k1, k2, k3, k4, k5⟩; exact ⟨⟨k1, .none, .none⟩, ⟨k2, k4, .none⟩, k3, k4, k5⟩
  · rw [g3, (takeAll_action rfl rfl).2 ⟨content, rfl, hs, rfl⟩, Option.bind_some, over_none]
    simp only [Reading.osWords, Reading.done]
    by_cases ht : ({ level := .action a, around := o2.over o1, id := id, content := content, here := o3, escaped := e3 } : Reading).textual = true
    · rw [if_pos ht]; exact ⟨fun _ => (textual_iff _).1 ht, fun _ => ⟨_, rfl⟩⟩
    · rw [if_neg ht]
      exact ⟨fun ⟨_, h⟩ => (by cases h), fun h => absurd ((textual_iff _).2 h) ht⟩

theorem osArgs_iff (ws : List Word) (v : Invocation) : osArgs ws = some v ↔ OsLine ws v := by
  constructor
  · intro h
    cases (C87_grammar ws v).1 (osWords_words h) with
    | mk h1 h2 hc h3 hs =>
      obtain ⟨k1, k2, k3, k4, k5⟩ := (osArgs_line h1 h2 hc h3 hs).1 ⟨_, h⟩
      exact .mk h1 h2 hc h3 hs k1 k2 k3 k4 k5
  · rintro ⟨h1, h2, hc, h3, hs, k1, k2, k3, k4, k5⟩
    obtain ⟨v, hv⟩ := (osArgs_line h1 h2 hc h3 hs).2 ⟨k1, k2, k3, k4, k5⟩
    have := (C87_grammar _ _).2 (.mk h1 h2 hc h3 hs)
    rw [hv]
    exact (osWords_words hv).symm.trans this

end Plotline
