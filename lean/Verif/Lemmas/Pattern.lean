import Verif.Lemmas.Class

/-! The parser of patterns, against their grammar. -/

namespace Plotline

/-! ## What is written is read -/

theorem Atom.head {s : List Char} {r : Re} (h : Atom s r) : ∃ c t, s = c :: t ∧ c ≠ '?' := by
  cases h with
  | literal c hc => exact ⟨c, [], rfl, by rintro rfl; exact hc (by decide)⟩
  | escaped _ => exact ⟨_, _, rfl, by decide⟩
  | startText => exact ⟨_, _, rfl, by decide⟩
  | stopText => exact ⟨_, _, rfl, by decide⟩
  | any => exact ⟨_, _, rfl, by decide⟩
  | start => exact ⟨_, _, rfl, by decide⟩
  | stop => exact ⟨_, _, rfl, by decide⟩
  | set => exact ⟨_, _, rfl, by decide⟩
  | negated => exact ⟨_, _, rfl, by decide⟩
  | group _ => exact ⟨_, _, rfl, by decide⟩
  | plainGroup _ => exact ⟨_, _, rfl, by decide⟩

theorem Piece.head : ∀ {s : List Char} {r : Re} {b : Bool}, Piece s r b → ∃ c t, s = c :: t ∧ c ≠ '?'
  | _, _, _, .atom h => h.head
  | _, _, _, .star h => by obtain ⟨c, t, rfl, hc⟩ := Piece.head h; exact ⟨c, _, rfl, hc⟩
  | _, _, _, .plus h => by obtain ⟨c, t, rfl, hc⟩ := Piece.head h; exact ⟨c, _, rfl, hc⟩
  | _, _, _, .counted h _ => by obtain ⟨c, t, rfl, hc⟩ := Piece.head h; exact ⟨c, _, rfl, hc⟩
  | _, _, _, .optional h => by obtain ⟨c, t, rfl, hc⟩ := Piece.head h; exact ⟨c, _, rfl, hc⟩
  | _, _, _, .lazy h => by obtain ⟨c, t, rfl, hc⟩ := Piece.head h; exact ⟨c, _, rfl, hc⟩

theorem Pieces.head {s : List Char} {r : Re} (h : Pieces s r) (rest : List Char) (hr : rest.head? ≠ some '?') :
    (s ++ rest).head? ≠ some '?' := by
  cases h with
  | none => exact hr
  | last h => obtain ⟨c, t, rfl, hc⟩ := h.head; simpa using hc
  | more h _ _ => obtain ⟨c, t, rfl, hc⟩ := h.head; simpa using hc

theorem Alts.head : ∀ {s : List Char} {r : Re}, Alts s r → ∀ rest : List Char, rest.head? ≠ some '?' → (s ++ rest).head? ≠ some '?'
  | _, _, .one h, rest, hr => h.head rest hr
  | _, _, .or h _, rest, hr => by
    rw [List.append_assoc]
    exact Alts.head h _ (by simp)

theorem parse_group (g : Group) (outer : List Group) (s : List Char) (h : s.head? ≠ some '?') :
    parseFrom g outer ('(' :: s) = parseFrom ⟨none, [], false⟩ (g :: outer) s :=
  parseFrom.eq_7 g outer s (fun t ht => by rw [ht] at h; exact h rfl) (fun t ht => by rw [ht] at h; exact h rfl)

theorem not_special {c : Char} (h1 : c ≠ '\\') (h2 : c ≠ '.') (h3 : c ≠ '+') (h4 : c ≠ '*') (h5 : c ≠ '?') (h6 : c ≠ '(')
    (h7 : c ≠ ')') (h8 : c ≠ '|') (h9 : c ≠ '[') (h10 : c ≠ '{') (h11 : c ≠ '^') (h12 : c ≠ '$') : c ∉ specialChars := by
  simp [specialChars, *]

theorem parse_literal (g : Group) (outer : List Group) (c : Char) (s : List Char) (h : c ∉ specialChars) :
    parseFrom g outer (c :: s) = parseFrom (g.push (.char c)) outer s := by
  have hn : ∀ d ∈ specialChars, c ≠ d := by rintro d hd rfl; exact h hd
  have h1 := hn '\\' (by decide)
  have h2 := hn '.' (by decide)
  have h3 := hn '+' (by decide)
  have h4 := hn '*' (by decide)
  have h5 := hn '?' (by decide)
  have h6 := hn '(' (by decide)
  have h7 := hn ')' (by decide)
  have h8 := hn '|' (by decide)
  have h9 := hn '[' (by decide)
  have h10 := hn '{' (by decide)
  have h11 := hn '^' (by decide)
  have h12 := hn '$' (by decide)
  rw [parseFrom.eq_def]
  split <;> simp_all

mutual

theorem read_atom : ∀ {s : List Char} {r : Re}, Atom s r → ∀ (g : Group) (outer : List Group) (rest : List Char),
    parseFrom g outer (s ++ rest) = parseFrom (g.push r) outer rest
  | _, _, .literal c hc, g, outer, rest => parse_literal g outer c rest hc
  | _, _, @Atom.escaped e c hc, g, outer, rest => by
    show parseFrom g outer ('\\' :: e :: rest) = _
    rw [parseFrom, (escape_char e c).2 hc]
  | _, _, .startText, g, outer, rest => by
    show parseFrom g outer ('\\' :: 'A' :: rest) = _
    rw [parseFrom, show readEscape 'A' = .start from rfl]
  | _, _, .stopText, g, outer, rest => by
    show parseFrom g outer ('\\' :: 'z' :: rest) = _
    rw [parseFrom, show readEscape 'z' = .stop from rfl]
  | _, _, .any, g, outer, rest => by rw [List.singleton_append, parseFrom]
  | _, _, .start, g, outer, rest => by rw [List.singleton_append, parseFrom]
  | _, _, .stop, g, outer, rest => by rw [List.singleton_append, parseFrom]
  | _, _, @Atom.set s l h h', g, outer, rest => by
    rw [List.cons_append, List.cons_append, List.append_assoc, List.singleton_append, parseFrom]
    split
    · rename_i e; rw [read_set h h'] at e; cases e
    · rename_i e; rw [read_set h h'] at e; cases e
    · rename_i e; rw [read_set h h'] at e; cases e; rw [List.reverse_reverse]
  | _, _, @Atom.negated s l h, g, outer, rest => by
    rw [List.cons_append, List.cons_append, List.append_assoc, List.singleton_append, parseFrom]
    split
    · rename_i e; rw [read_negated h] at e; cases e
    · rename_i e; rw [read_negated h] at e; cases e
    · rename_i e; rw [read_negated h] at e; cases e; rw [List.reverse_reverse]
  | _, _, @Atom.group s r h, g, outer, rest => by
    rw [List.cons_append, List.cons_append, List.append_assoc, parse_group _ _ _ (h.head _ (by simp))]
    obtain ⟨g', h1, h2⟩ := read_alts h (g :: outer) (')' :: rest)
    show parseFrom _ _ (s ++ ')' :: rest) = _
    rw [h1, parseFrom, h2]
  | _, _, @Atom.plainGroup s r h, g, outer, rest => by
    obtain ⟨g', h1, h2⟩ := read_alts h (g :: outer) (')' :: rest)
    show parseFrom g outer ('(' :: '?' :: ':' :: (s ++ [')'] ++ rest)) = _
    rw [parseFrom, List.append_assoc]
    show parseFrom _ _ (s ++ ')' :: rest) = _
    rw [h1, parseFrom, h2]

theorem read_piece : ∀ {s : List Char} {r : Re} {b : Bool}, Piece s r b → ∀ (g : Group) (outer : List Group) (rest : List Char),
    parseFrom g outer (s ++ rest) = parseFrom ⟨g.alts, r :: g.parts, b⟩ outer rest
  | _, _, _, .atom h, g, outer, rest => read_atom h g outer rest
  | _, _, _, .star h, g, outer, rest => by rw [List.append_assoc, read_piece h, List.singleton_append, parseFrom]; rfl
  | _, _, _, .plus h, g, outer, rest => by rw [List.append_assoc, read_piece h, List.singleton_append, parseFrom]; rfl
  | _, _, _, .optional h, g, outer, rest => by
    rw [List.append_assoc, read_piece h, List.singleton_append, parseFrom, if_neg (by simp)]; rfl
  | _, _, _, @Piece.counted s t r _ _ _ h hc, g, outer, rest => by
    rw [List.append_assoc, List.append_assoc, read_piece h, List.cons_append, List.singleton_append, parseFrom]
    simp only
    split
    · rename_i e; rw [read_count hc] at e; cases e
    · rename_i e; rw [read_count hc] at e; cases e
    · rename_i e; rw [read_count hc] at e; cases e; rfl
  | _, _, _, .lazy h, g, outer, rest => by
    rw [List.append_assoc, read_piece h, List.singleton_append, parseFrom, if_pos rfl]

theorem read_pieces : ∀ {s : List Char} {r : Re}, Pieces s r → ∀ (g : Group) (outer : List Group) (rest : List Char),
    ∃ ps b, parseFrom g outer (s ++ rest) = parseFrom ⟨g.alts, ps ++ g.parts, b⟩ outer rest ∧ Re.concat ps = r ∧ (s ≠ [] → ps ≠ [])
  | _, _, .none, g, outer, rest => ⟨[], g.repeated, rfl, rfl, fun h => absurd rfl h⟩
  | _, _, @Pieces.last s r b h, g, outer, rest => ⟨[r], b, read_piece h g outer rest, rfl, fun _ => by simp⟩
  | _, _, @Pieces.more s t a r b h h' ht, g, outer, rest => by
    obtain ⟨ps, b', h1, h2, h3⟩ := read_pieces h' ⟨g.alts, a :: g.parts, b⟩ outer rest
    refine ⟨ps ++ [a], b', ?_, ?_, fun _ => by simp⟩
    · rw [List.append_assoc, read_piece h, h1]; simp
    · have hp := h3 ht
      cases ps with
      | nil => exact absurd rfl hp
      | cons p ps => simp only [Re.concat, List.cons_append, List.foldl_append, List.foldl] at h2 ⊢; rw [h2]

theorem read_alts : ∀ {s : List Char} {r : Re}, Alts s r → ∀ (outer : List Group) (rest : List Char),
    ∃ g, parseFrom ⟨none, [], false⟩ outer (s ++ rest) = parseFrom g outer rest ∧ g.close = r
  | _, _, .one h, outer, rest => by
    obtain ⟨ps, b, h1, h2, _⟩ := read_pieces h ⟨none, [], false⟩ outer rest
    exact ⟨_, h1, by simpa [Group.close] using h2⟩
  | _, _, @Alts.or s t a c h h', outer, rest => by
    obtain ⟨g, h1, h2⟩ := read_alts h outer ('|' :: (t ++ rest))
    obtain ⟨ps, b, h3, h4, _⟩ := read_pieces h' ⟨some g.close, [], false⟩ outer rest
    refine ⟨⟨some g.close, ps, b⟩, ?_, ?_⟩
    · rw [List.append_assoc]
      show parseFrom _ _ (s ++ '|' :: (t ++ rest)) = _
      rw [h1, parseFrom, h3]; simp
    · show Re.alt g.close (Re.concat ps) = _
      rw [h2, h4]

end

theorem parse_written {s : List Char} {r : Re} (h : Alts s r) : Regex.parse s = .ok r := by
  obtain ⟨g, h1, h2⟩ := read_alts h [] []
  unfold Regex.parse
  rw [List.append_nil] at h1
  rw [h1, parseFrom, h2]

/-! ## What is read is written -/

/-- The text of these parts, last first. -/
inductive PartsText : List Re → Bool → List Char → Prop
  | nil : PartsText [] false []
  | cons {ps : List Re} {b b' : Bool} {w s : List Char} {r : Re} : PartsText ps b' w → Piece s r b → PartsText (r :: ps) b (w ++ s)

theorem PartsText.fold {ps : List Re} {b : Bool} {w : List Char} (h : PartsText ps b w) {t : List Char} {r : Re} (ht : Pieces t r)
    (hne : t ≠ []) : Pieces (w ++ t) (ps.foldl (fun r a => .seq a r) r) := by
  induction h generalizing t r with
  | nil => exact ht
  | @cons ps b b' w s p _ hp ih =>
    rw [List.append_assoc, List.foldl_cons]
    exact ih (.more hp ht hne) (by simp [hne])

theorem PartsText.concat {ps : List Re} {b : Bool} {w : List Char} (h : PartsText ps b w) : Pieces w (Re.concat ps) := by
  cases h with
  | nil => exact .none
  | cons h hp => exact h.fold (.last hp) (by obtain ⟨c, t, rfl, _⟩ := hp.head; simp)

/-- The text of the group so far. -/
def GroupText (g : Group) (w : List Char) : Prop :=
  (g.alts = none ∧ PartsText g.parts g.repeated w) ∨
    ∃ a u v, g.alts = some a ∧ Alts u a ∧ w = u ++ '|' :: v ∧ PartsText g.parts g.repeated v

theorem GroupText.close {g : Group} {w : List Char} (h : GroupText g w) : Alts w g.close := by
  rcases h with ⟨h1, h2⟩ | ⟨a, u, v, h1, h2, rfl, h3⟩
  · unfold Group.close; rw [h1]; exact .one h2.concat
  · unfold Group.close; rw [h1]; exact .or h2 h3.concat

theorem GroupText.push {g : Group} {w s : List Char} {r : Re} {b : Bool} (h : GroupText g w) (hp : Piece s r b) :
    GroupText ⟨g.alts, r :: g.parts, b⟩ (w ++ s) := by
  rcases h with ⟨h1, h2⟩ | ⟨a, u, v, h1, h2, rfl, h3⟩
  · exact .inl ⟨h1, h2.cons hp⟩
  · exact .inr ⟨a, u, v ++ s, h1, h2, by simp, h3.cons hp⟩

/-- The last part is a piece, which can be exchanged. -/
theorem GroupText.last {g : Group} {w : List Char} {r : Re} {ps : List Re} (h : GroupText g w) (hg : g.parts = r :: ps) :
    ∃ s, Piece s r g.repeated ∧ ∀ s' r' b, Piece (s ++ s') r' b → GroupText ⟨g.alts, r' :: ps, b⟩ (w ++ s') := by
  rcases h with ⟨h1, h2⟩ | ⟨a, u, v, h1, h2, rfl, h3⟩
  · rw [hg] at h2
    cases h2 with
    | cons h hp => exact ⟨_, hp, fun s' r' b h' => .inl ⟨h1, by rw [List.append_assoc]; exact h.cons h'⟩⟩
  · rw [hg] at h3
    cases h3 with
    | @cons _ _ _ w s _ h hp =>
      exact ⟨_, hp, fun s' r' b h' => .inr ⟨a, u, w ++ (s ++ s'), h1, h2, by simp, h.cons h'⟩⟩

/-- The text up to the current group. -/
inductive OuterText : List Group → List Char → Prop
  | nil : OuterText [] []
  | cons {outer : List Group} {u : List Char} {up : Group} {w : List Char} : OuterText outer u → GroupText up w →
      OuterText (up :: outer) (u ++ w ++ ['('])
  | plain {outer : List Group} {u : List Char} {up : Group} {w : List Char} : OuterText outer u → GroupText up w →
      OuterText (up :: outer) (u ++ w ++ ['(', '?', ':'])

theorem fresh_text : GroupText ⟨none, [], false⟩ [] := .inl ⟨rfl, .nil⟩

theorem read_written : ∀ (n : Nat) (s : List Char), s.length = n → ∀ (g : Group) (outer : List Group) (r : Re), parseFrom g outer s = .ok r →
    ∀ {u w : List Char}, OuterText outer u → GroupText g w → Alts (u ++ w ++ s) r := by
  intro n
  induction n using Nat.strongRecOn with
  | _ n ih =>
  intro s hn g outer r h u w ho hg
  have push : ∀ {c : List Char} {t : List Char} {x : Re}, Atom c x → s = c ++ t → parseFrom (g.push x) outer t = .ok r →
      Alts (u ++ w ++ s) r := by
    intro c t x hx hs hp
    obtain ⟨d, c', hd, _⟩ := hx.head
    have := ih t.length (by rw [← hn, hs, hd]; simp; omega) t rfl _ _ _ hp ho (hg.push (.atom hx))
    rw [hs]; simpa using this
  rw [parseFrom.eq_def] at h
  split at h
  · cases h
    cases ho
    simpa using hg.close
  · cases h
  · rename_i c t
    split at h
    · rename_i hc
      exact push (.escaped ((escape_char _ _).1 hc)) rfl h
    · rename_i hc
      obtain rfl := escape_start hc
      exact push .startText rfl h
    · rename_i hc
      obtain rfl := escape_stop hc
      exact push .stopText rfl h
    · cases h
    · cases h
  · cases h
  · rename_i t
    have := ih t.length (by rw [← hn]; simp; omega) t rfl _ _ _ h (.plain ho hg) fresh_text
    simpa using this
  · cases h
  · rename_i t _ _
    have := ih t.length (by rw [← hn]; simp) t rfl _ _ _ h (.cons ho hg) fresh_text
    simpa using this
  · cases h
  · rename_i up outer t
    cases ho with
    | @cons _ u' _ w' ho hup =>
      have := ih t.length (by rw [← hn]; simp) t rfl _ _ _ h ho (hup.push (.atom (.group hg.close)))
      simpa using this
    | @plain _ u' _ w' ho hup =>
      have := ih t.length (by rw [← hn]; simp) t rfl _ _ _ h ho (hup.push (.atom (.plainGroup hg.close)))
      simpa using this
  · rename_i t
    have := ih t.length (by rw [← hn]; simp) t rfl _ _ _ h ho (w := w ++ ['|'])
      (.inr ⟨_, w, [], rfl, hg.close, rfl, .nil⟩)
    simpa using this
  · split at h
    · cases h
    · cases h
    · rename_i e
      obtain ⟨x, hx, ha⟩ := readClass_written e
      exact push ha hx h
  · rename_i t
    cases hp : g.parts with
    | nil => simp only [hp] at h; cases h
    | cons x ps =>
      simp only [hp] at h
      split at h
      · cases h
      · cases h
      · rename_i n m rest e
        obtain ⟨y, rfl, hc⟩ := count_written e
        obtain ⟨s', h1, h2⟩ := hg.last hp
        have := ih rest.length (by rw [← hn]; simp; omega) rest rfl _ _ _ h ho
          (h2 ('{' :: y ++ ['}']) _ _ (by rw [← List.append_assoc]; exact .counted h1 hc))
        simpa using this
  · exact push .any rfl h
  · exact push .start rfl h
  · exact push .stop rfl h
  · rename_i t
    unfold Group.repeat at h
    cases hp : g.parts with
    | nil => rw [hp] at h; cases h
    | cons x ps =>
      rw [hp] at h
      obtain ⟨s', h1, h2⟩ := hg.last hp
      have := ih t.length (by rw [← hn]; simp) t rfl _ _ _ h ho (h2 ['*'] _ _ (.star h1))
      simpa using this
  · rename_i t
    unfold Group.repeat at h
    cases hp : g.parts with
    | nil => rw [hp] at h; cases h
    | cons x ps =>
      rw [hp] at h
      obtain ⟨s', h1, h2⟩ := hg.last hp
      have := ih t.length (by rw [← hn]; simp) t rfl _ _ _ h ho (h2 ['+'] _ _ (.plus h1))
      simpa using this
  · rename_i t
    cases hp : g.parts with
    | nil =>
      have hf : g.repeated = false := by
        rcases hg with ⟨_, h2⟩ | ⟨_, _, _, _, _, _, h2⟩ <;> (rw [hp] at h2; generalize g.repeated = b at h2; cases h2; rfl)
      rw [hf] at h
      simp [Group.repeat, hp] at h
    | cons x ps =>
      obtain ⟨s', h1, h2⟩ := hg.last hp
      split at h
      · rename_i hr
        rw [hr] at h1
        have h3 := h2 ['?'] _ _ (.lazy h1)
        have := ih t.length (by rw [← hn]; simp) t rfl _ _ _ h ho (w := w ++ ['?']) (by rw [hp]; exact h3)
        simpa using this
      · rename_i hr
        have hr' : g.repeated = false := by simpa using hr
        rw [hr'] at h1
        unfold Group.repeat at h
        rw [hp] at h
        have := ih t.length (by rw [← hn]; simp) t rfl _ _ _ h ho (h2 ['?'] _ _ (.optional h1))
        simpa using this
  · rename_i c t h1 h2 _ _ h6 h8 h9 h10 h3 h11 h12 h4 h13 h5 h14 h15
    refine push (.literal c (not_special (fun e => ?_) h3 h13 h4 h5 h6 (fun e => ?_) h8 h9 h10 h11 h12)) rfl h
    · cases t with
      | nil => exact h2 e rfl
      | cons d t => exact h1 d t e rfl
    · cases outer with
      | nil => exact h14 rfl e
      | cons d t => exact h15 d t rfl e

/-- The parser reads the grammar. -/
theorem parse_iff (s : List Char) (r : Re) : Regex.parse s = .ok r ↔ Alts s r := by
  constructor
  · intro h
    simpa using read_written _ s rfl _ _ _ h .nil fresh_text
  · exact parse_written

theorem parse_unmodelled : ∀ (n : Nat) (s : List Char), s.length = n → ∀ (g : Group) (outer : List Group), parseFrom g outer s = .unmodelled →
    BeyondModel s := by
  intro n
  induction n using Nat.strongRecOn with
  | _ n ih =>
  intro s hn g outer h
  have rest : ∀ (c t : List Char), c ≠ [] → s = c ++ t → ∀ (g' : Group) (outer' : List Group), parseFrom g' outer' t = .unmodelled →
      BeyondModel s := by
    intro c t hc hs g' outer' hp
    have : t.length < n := by
      rw [← hn, hs, List.length_append]
      have := List.length_pos_iff.2 hc
      omega
    subst hs
    rcases ih t.length this t rfl g' outer' hp with ⟨a, b, rfl, hb⟩ | ⟨a, b, rfl, hb⟩ | ⟨a, b, rfl, hb⟩ | ⟨a, d, b, rfl, hb⟩
    · exact .inl ⟨c ++ a, b, by simp, hb⟩
    · exact .inr (.inl ⟨c ++ a, b, by simp, hb⟩)
    · exact .inr (.inr (.inl ⟨c ++ a, b, by simp, hb⟩))
    · exact .inr (.inr (.inr ⟨c ++ a, d, b, by simp, hb⟩))
  rw [parseFrom.eq_def] at h
  split at h
  · cases h
  · cases h
  · rename_i c t
    split at h
    · exact rest ['\\', c] t (by simp) rfl _ _ h
    · exact rest ['\\', c] t (by simp) rfl _ _ h
    · exact rest ['\\', c] t (by simp) rfl _ _ h
    · cases h
    · rename_i hc
      exact .inr (.inr (.inr ⟨[], c, t, rfl, escape_unmodelled hc⟩))
  · cases h
  · rename_i t; exact rest ['(', '?', ':'] t (by simp) rfl _ _ h
  · rename_i t ht
    refine .inr (.inr (.inl ⟨[], t, rfl, ?_⟩))
    intro e
    cases t with
    | nil => cases e
    | cons d t => simp at e; subst e; exact ht _ rfl
  · rename_i t _ _; exact rest ['('] t (by simp) rfl _ _ h
  · cases h
  · rename_i up outer t; exact rest [')'] t (by simp) rfl _ _ h
  · rename_i t; exact rest ['|'] t (by simp) rfl _ _ h
  · rename_i t
    split at h
    · cases h
    · rename_i e
      rcases readClass_unmodelled e with hb | ⟨a, c, b, rfl, hb⟩
      · exact .inl ⟨[], t, rfl, hb⟩
      · exact .inr (.inr (.inr ⟨'[' :: a, c, b, rfl, hb⟩))
    · rename_i e
      obtain ⟨x, hx, ha⟩ := readClass_written e
      obtain ⟨d, c', hd, _⟩ := ha.head
      exact rest x _ (by simp [hd]) hx _ _ h
  · rename_i t
    split at h
    · cases h
    · split at h
      · cases h
      · rename_i e
        obtain ⟨c, hc, hb⟩ := count_unmodelled e
        exact .inr (.inl ⟨[], t, rfl, c, hc, hb⟩)
      · rename_i e
        obtain ⟨y, rfl, hc⟩ := count_written e
        exact rest ('{' :: y ++ ['}']) _ (by simp) (by simp) _ _ h
  · rename_i t; exact rest ['.'] t (by simp) rfl _ _ h
  · rename_i t; exact rest ['^'] t (by simp) rfl _ _ h
  · rename_i t; exact rest ['$'] t (by simp) rfl _ _ h
  · rename_i t
    split at h
    · cases h
    · exact rest ['*'] t (by simp) rfl _ _ h
  · rename_i t
    split at h
    · cases h
    · exact rest ['+'] t (by simp) rfl _ _ h
  · rename_i t
    split at h
    · exact rest ['?'] t (by simp) rfl _ _ h
    · split at h
      · cases h
      · exact rest ['?'] t (by simp) rfl _ _ h
  · rename_i c t _ _ _ _ _ _ _ _ _ _ _ _ _ _ _ _
    exact rest [c] t (by simp) rfl _ _ h

end Plotline
