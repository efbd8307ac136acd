import Verif.Spec.Regex

/-! Classes and counted repetitions, against their grammar. -/

namespace Plotline

theorem alphanum_iff (c : Char) : c.isAlphanum = true ↔ LetterOrDigit c := by
  have e : ∀ a b : Char, (a ≤ b) = (a.val ≤ b.val) := fun _ _ => rfl
  simp only [Char.isAlphanum, Char.isAlpha, Char.isUpper, Char.isLower, Char.isDigit, LetterOrDigit, e, Bool.or_eq_true,
    Bool.and_eq_true, decide_eq_true_eq]
  constructor
  · rintro ((h | h) | h)
    · exact .inr (.inl ⟨h.1, h.2⟩)
    · exact .inr (.inr ⟨h.1, h.2⟩)
    · exact .inl ⟨h.1, h.2⟩
  · rintro (h | h | h)
    · exact .inr ⟨h.1, h.2⟩
    · exact .inl (.inl ⟨h.1, h.2⟩)
    · exact .inl (.inr ⟨h.1, h.2⟩)

theorem ascii_iff (c : Char) : '\x80' ≤ c ↔ ¬ c ≤ '\x7f' := by
  have e : ∀ a b : Char, (a ≤ b) = (a.val ≤ b.val) := fun _ _ => rfl
  simp only [e, UInt32.le_iff_toNat_le]
  show 128 ≤ _ ↔ ¬ _ ≤ 127
  omega

/-- What escapes stand for. -/
theorem escape_char (e c : Char) : readEscape e = .char c ↔ Escaped e c := by
  unfold readEscape
  constructor
  · intro h
    split at h
    · cases h
    · rename_i hm
      split at h
      · cases h; exact .bell
      · cases h; exact .formFeed
      · cases h; exact .tab
      · cases h; exact .lineFeed
      · cases h; exact .carriageReturn
      · cases h; exact .verticalTab
      · cases h
      · cases h
      · split at h
        · cases h
        · rename_i hc
          cases h
          rw [alphanum_iff, ascii_iff, not_or] at hc
          exact .itself e (Decidable.not_not.1 hc.2) hc.1 (by rintro rfl; exact hm (by decide)) (by rintro rfl; exact hm (by decide))
  · intro h
    cases h with
    | itself _ h1 h2 h3 h4 =>
      have hn : ∀ d, LetterOrDigit d → e ≠ d := by rintro d hd rfl; exact h2 hd
      have l : ∀ d : Char, d.isAlphanum = true → e ≠ d := fun d hd => hn d ((alphanum_iff d).1 hd)
      rw [if_neg (by
        simp only [List.mem_cons, List.not_mem_nil, or_false, not_or]
        exact ⟨l _ rfl, l _ rfl, l _ rfl, l _ rfl, l _ rfl, l _ rfl, l _ rfl, l _ rfl, l _ rfl, l _ rfl, l _ rfl, l _ rfl, l _ rfl, h3, h4⟩)]
      split
      · exact absurd rfl (l 'a' rfl)
      · exact absurd rfl (l 'f' rfl)
      · exact absurd rfl (l 't' rfl)
      · exact absurd rfl (l 'n' rfl)
      · exact absurd rfl (l 'r' rfl)
      · exact absurd rfl (l 'v' rfl)
      · exact absurd rfl (l 'A' rfl)
      · exact absurd rfl (l 'z' rfl)
      · rw [if_neg (by rw [alphanum_iff, ascii_iff]; exact fun h => h.elim h2 fun h => h h1)]
    | bell => rfl
    | tab => rfl
    | lineFeed => rfl
    | verticalTab => rfl
    | formFeed => rfl
    | carriageReturn => rfl

theorem escape_start {e : Char} (h : readEscape e = .start) : e = 'A' := by
  unfold readEscape at h
  split at h
  · cases h
  · split at h <;> first | rfl | (cases h; done) | (split at h <;> cases h)

theorem escape_stop {e : Char} (h : readEscape e = .stop) : e = 'z' := by
  unfold readEscape at h
  split at h
  · cases h
  · split at h <;> first | rfl | (cases h; done) | (split at h <;> cases h)

theorem escape_unmodelled {e : Char} (h : readEscape e = .unmodelled) :
    e ∈ ['x', 'u', 'U', 'p', 'P', 'd', 'D', 's', 'S', 'w', 'W', 'b', 'B', '<', '>'] := by
  unfold readEscape at h
  split at h
  · assumption
  · split at h <;> first | (cases h; done) | (split at h <;> cases h)

/-! ## Classes: what is written is read -/

/-- A character that starts no range. -/
theorem members_settle (neg : Bool) (l : List (Char × Char)) (c : Char) (s : List Char)
    (h : s.head? ≠ some '-' ∨ ∃ r, s = '-' :: ']' :: r) : classMembers neg l (some c) s = classMembers neg ((c, c) :: l) none s := by
  rcases h with h | ⟨r, rfl⟩
  · cases s with
    | nil => rfl
    | cons d s =>
      have hd : d ≠ '-' := by simpa using h
      rw [classMembers.eq_def, classMembers.eq_def neg (_ :: _) none]
      split <;> simp_all [settle]
  · rw [classMembers, classMembers]; rfl

theorem members_plain (neg : Bool) (l : List (Char × Char)) (c : Char) (s : List Char) (h : c ∉ ['\\', '[', ']', '-'])
    (h' : c = '&' ∨ c = '~' → s.head? ≠ some c) : classMembers neg l none (c :: s) = classMembers neg l (some c) s := by
  simp only [List.mem_cons, List.not_mem_nil, or_false, not_or] at h
  have hn : ¬ ((c = '&' ∨ c = '~') ∧ s.head? = some c) := fun e => h' e.1 e.2
  rw [classMembers.eq_def]
  split <;> simp_all [settle]

theorem members_single (neg : Bool) (l : List (Char × Char)) {p : List Char} {c : Char} {s : List Char} (h : Single p c s) :
    classMembers neg l none (p ++ s) = classMembers neg l (some c) s := by
  cases h with
  | plain _ _ h h' => exact members_plain neg l c s h h'
  | @escaped e _ _ h =>
    show classMembers neg l none ('\\' :: e :: s) = _
    rw [classMembers, (escape_char e c).2 h]; rfl

/-- What follows what follows is not looked at. -/
theorem Single.next {p : List Char} {c : Char} {s t : List Char} (h : Single p c s) (ht : t.head? = s.head?) : Single p c t := by
  cases h with
  | plain _ _ h h' => exact .plain c t h (fun e => by rw [ht]; exact h' e)
  | escaped _ h => exact .escaped t h

theorem Single.stop {p : List Char} {c : Char} {s : List Char} (h : Single p c s) (rest : List Char) :
    Single p c (s ++ ']' :: rest) := by
  cases s with
  | cons d s => exact h.next rfl
  | nil =>
    cases h with
    | plain _ _ h h' => exact .plain c _ h (by rintro (rfl | rfl) <;> simp)
    | escaped _ h => exact .escaped _ h

theorem members_range (neg : Bool) (l : List (Char × Char)) {c d : Char} {q s : List Char} (h : Bound q d) (hcd : c ≤ d) :
    classMembers neg l (some c) ('-' :: q ++ s) = classMembers neg ((c, d) :: l) none s := by
  cases h with
  | plain _ h =>
    simp only [List.mem_cons, List.not_mem_nil, or_false, not_or] at h
    show classMembers neg l (some c) ('-' :: d :: s) = _
    rw [classMembers.eq_9, if_pos hcd] <;> simp_all
  | @escaped e _ h =>
    show classMembers neg l (some c) ('-' :: '\\' :: e :: s) = _
    rw [classMembers, (escape_char e d).2 h]
    exact if_pos hcd

/-- No member starts with a bracket that closes. -/
theorem Members.head {s : List Char} {m : List (Char × Char)} (h : Members s m) : s.head? ≠ some ']' := by
  cases h with
  | none => simp
  | dash => simp
  | one h => cases h with
    | plain _ _ h => simp at h; simp [h]
    | escaped => simp
  | range h => cases h with
    | plain _ _ h => simp at h; simp [h]
    | escaped => simp

theorem Members.nil {m : List (Char × Char)} (h : Members [] m) : m = [] := by
  generalize hs : [] = w at h
  cases h with
  | none => rfl
  | dash => cases hs
  | one h => cases h <;> cases hs
  | range h => cases h <;> cases hs

theorem read_members {s : List Char} {m : List (Char × Char)} (h : Members s m) (neg : Bool) (l : List (Char × Char)) (rest : List Char) :
    classMembers neg l none (s ++ ']' :: rest) = .ok neg (m.reverse ++ l) rest := by
  induction h generalizing l with
  | none => rw [List.nil_append, classMembers]; rfl
  | @dash s m hd hm ih =>
    cases s with
    | nil =>
      rw [hm.nil, List.cons_append, List.nil_append, classMembers]; rfl
    | cons d s =>
      have hd' : d ≠ '-' := by simpa using hd
      have hd2 : d ≠ ']' := by simpa using hm.head
      rw [List.cons_append, List.cons_append, classMembers.eq_6 _ _ _ (by simpa using hd') (by simpa using hd2), ← List.cons_append, ih]
      simp
  | @one p s c m hs hd hm ih =>
    rw [List.append_assoc, members_single neg l (hs.stop rest), members_settle, ih]
    · simp
    · by_cases h : s.head? = some '-'
      · rw [hd h]; exact .inr ⟨_, rfl⟩
      · left
        cases s with
        | nil => simp
        | cons d s => simpa using h
  | @range p q s c d m hs hb hcd hm ih =>
    rw [List.append_assoc, List.append_assoc, members_single neg l (hs.next (by rfl)), ← List.append_assoc, List.append_assoc,
      members_range neg l hb hcd, ih]
    simp

theorem open_dashes (neg : Bool) (n : Nat) (l : List (Char × Char)) (s : List Char) :
    classOpen neg l (List.replicate n '-' ++ s) = classOpen neg (List.replicate n ('-', '-') ++ l) s := by
  induction n generalizing l with
  | zero => rfl
  | succ n ih =>
    rw [List.replicate_succ, List.cons_append, classOpen, ih, List.replicate_succ', List.append_assoc]; rfl

theorem read_class {s : List Char} {m : List (Char × Char)} (h : Class s m) (neg : Bool) (rest : List Char) :
    classOpen neg [] (s ++ ']' :: rest) = .ok neg m.reverse rest := by
  cases h with
  | @dashes s m n hd hm hn =>
    rw [List.append_assoc, open_dashes, List.append_nil]
    have : classOpen neg (List.replicate n ('-', '-')) (s ++ ']' :: rest) =
        classMembers neg (List.replicate n ('-', '-')) none (s ++ ']' :: rest) := by
      have h1 := hm.head
      rw [classOpen.eq_def]
      cases n with
      | zero =>
        cases s with
        | nil => exact absurd rfl (hn rfl)
        | cons d s => simp at hd h1; split <;> simp_all
      | succ n =>
        cases s with
        | nil => rfl
        | cons d s => simp at hd h1; split <;> simp_all
    rw [this, read_members hm]; simp
  | bracket hm =>
    rw [List.cons_append, classOpen, read_members hm]
    simp

/-! ## Classes: what is read is written -/

/-- `x` is how the character that may start a range is written, before `s`. -/
def Begun (p : Option Char) (x s : List Char) : Prop :=
  match p with
  | none => x = []
  | some c => Single x c s

theorem Single.unstop {p : List Char} {c : Char} {s rest : List Char} (h : Single p c (s ++ ']' :: rest)) : Single p c s := by
  cases s with
  | cons d s => exact h.next rfl
  | nil =>
    cases h with
    | plain _ _ h h' => exact .plain c _ h (by simp)
    | escaped _ h => exact .escaped _ h

/-- A character that was read is a member, if no range starts with it. -/
theorem Begun.settle {p : Option Char} {x w rest : List Char} {m : List (Char × Char)} (h : Begun p x (w ++ ']' :: rest))
    (hw : w.head? = some '-' → w = ['-']) (hm : Members w m) (l : List (Char × Char)) :
    ∃ m', Members (x ++ w) m' ∧ m.reverse ++ settle p l = m'.reverse ++ l := by
  cases p with
  | none => cases h; exact ⟨m, hm, rfl⟩
  | some c => exact ⟨_, .one (Single.unstop h) hw hm, by simp [Plotline.settle]⟩

theorem written_members (neg : Bool) (l : List (Char × Char)) (p : Option Char) (s : List Char) {neg' : Bool}
    {l' : List (Char × Char)} {rest : List Char} (h : classMembers neg l p s = .ok neg' l' rest) {x : List Char} (hx : Begun p x s) :
    ∃ w m, s = w ++ ']' :: rest ∧ Members (x ++ w) m ∧ l' = m.reverse ++ l ∧ neg' = neg := by
  -- a member that is read as it stands
  have step : ∀ {l : List (Char × Char)} {p : Option Char} {x y t s : List Char}, Begun p x s → s = y ++ t → y.head? ≠ some '-' →
      (∃ w m, t = w ++ ']' :: rest ∧ Members (y ++ w) m ∧ l' = m.reverse ++ settle p l ∧ neg' = neg) → y ≠ [] →
      ∃ w m, s = w ++ ']' :: rest ∧ Members (x ++ w) m ∧ l' = m.reverse ++ l ∧ neg' = neg := by
    intro l p x y t s hx hs hy ⟨w, m, ht, hm, hl, hn⟩ hne
    subst hs
    have hw : y ++ t = (y ++ w) ++ ']' :: rest := by rw [ht, List.append_assoc]
    obtain ⟨m', h1, h2⟩ := Begun.settle (hw ▸ hx) (by
      cases y with
      | nil => exact absurd rfl hne
      | cons a y => intro e; exact absurd e hy) hm l
    exact ⟨y ++ w, m', hw, h1, by rw [hl, h2], hn⟩
  fun_induction classMembers neg l p s generalizing x with
  | case1 => cases h
  | case2 l p s =>
    cases h
    obtain ⟨m', h1, h2⟩ := Begun.settle (w := []) hx (by simp) .none l
    exact ⟨[], m', rfl, h1, by simpa using h2, rfl⟩
  | case3 => cases h
  | case4 => cases h
  | case5 l p s =>
    cases h
    obtain ⟨m', h1, h2⟩ := Begun.settle (w := ['-']) hx (by simp) (.dash (by simp) .none) l
    exact ⟨['-'], m', rfl, h1, by simpa using h2, rfl⟩
  | case6 l s h1 h2 ih =>
    cases hx
    obtain ⟨w, m, rfl, hm, hl, hn⟩ := ih h (x := []) rfl
    refine ⟨'-' :: w, _, rfl, .dash ?_ hm, by simpa using hl, hn⟩
    cases w with
    | nil => simp
    | cons a w => intro e; simp at e; subst e; exact h1 _ rfl
  | case7 l c e s d hd hcd ih =>
    obtain ⟨w, m, rfl, hm, hl, hn⟩ := ih h (x := []) rfl
    have := Members.range (Single.next hx (t := ['-']) rfl) (.escaped ((escape_char e d).1 hd)) hcd hm
    exact ⟨'-' :: ['\\', e] ++ w, _, rfl, by simpa using this, by simpa using hl, hn⟩
  | case8 => cases h
  | case9 => cases h
  | case10 => cases h
  | case11 => cases h
  | case12 l c d s h1 h2 h3 h4 hcd ih =>
    obtain ⟨w, m, rfl, hm, hl, hn⟩ := ih h (x := []) rfl
    have hd : d ≠ '\\' := by
      rintro rfl
      cases w with
      | nil => exact h3 _ _ rfl rfl
      | cons a w => exact h3 _ _ rfl rfl
    have := Members.range (Single.next hx (t := ['-']) rfl) (.plain d (by simp_all)) hcd hm
    exact ⟨'-' :: [d] ++ w, _, rfl, by simpa using this, by simpa using hl, hn⟩
  | case13 => cases h
  | case14 => cases h
  | case15 l p e s c hc ih =>
    exact step (y := ['\\', e]) hx rfl (by simp) (ih h (.escaped s ((escape_char e c).1 hc))) (by simp)
  | case16 => cases h
  | case17 => cases h
  | case18 => cases h
  | case19 => cases h
  | case20 l p c s h1 h2 _ _ h5 _ _ h8 h9 h10 h11 hc ih =>
    have hd : c ≠ '-' := by
      rintro rfl
      cases p with
      | none => exact h5 rfl rfl
      | some a =>
        cases s with
        | nil => exact h9 a rfl rfl rfl
        | cons b s => exact h8 a b s rfl rfl rfl
    have hb : c ≠ '\\' := by
      rintro rfl
      cases s with
      | nil => exact h11 rfl rfl
      | cons b s => exact h10 b s rfl rfl
    have hx' : Begun (some c) [c] s := .plain c s (by
      simp only [List.mem_cons, List.not_mem_nil, or_false, not_or]
      exact ⟨hb, h2, h1, hd⟩) (fun e e' => hc ⟨e, e'⟩)
    exact step (y := [c]) hx rfl (by simpa using hd) (ih h hx') (by simp)

theorem written_open (neg : Bool) (l : List (Char × Char)) (s : List Char) {neg' : Bool} {l' : List (Char × Char)} {rest : List Char}
    (h : classOpen neg l s = .ok neg' l' rest) {k : Nat} (hl : l = List.replicate k ('-', '-')) :
    ∃ w m, s = w ++ ']' :: rest ∧ Class (List.replicate k '-' ++ w) m ∧ l' = m.reverse ∧ neg' = neg := by
  fun_induction classOpen neg l s generalizing k with
  | case1 l s ih =>
    obtain ⟨w, m, rfl, hm, hl', hn⟩ := ih h (k := k + 1) (by rw [hl, List.replicate_succ])
    refine ⟨'-' :: w, m, rfl, ?_, hl', hn⟩
    rw [List.replicate_succ'] at hm
    simpa using hm
  | case2 s =>
    obtain rfl : k = 0 := by
      cases k with
      | zero => rfl
      | succ k => rw [List.replicate_succ] at hl; cases hl
    obtain ⟨w, m, rfl, hm, hl', hn⟩ := written_members _ _ _ _ h (x := []) rfl
    exact ⟨']' :: w, _, rfl, .bracket hm, by simpa using hl', hn⟩
  | case3 l s h1 h2 =>
    obtain ⟨w, m, rfl, hm, hl', hn⟩ := written_members _ _ _ _ h (x := []) rfl
    subst hl
    refine ⟨w, List.replicate k ('-', '-') ++ m, rfl, .dashes k ?_ hm ?_, by simpa using hl', hn⟩
    · cases w with
      | nil => simp
      | cons a w => intro e; simp at e; subst e; exact h1 _ rfl
    · rintro rfl rfl
      exact h2 rest rfl rfl

theorem readClass_written {s : List Char} {neg : Bool} {l : List (Char × Char)} {rest : List Char} (h : readClass s = .ok neg l rest) :
    ∃ w, '[' :: s = w ++ rest ∧ Atom w (.set neg l.reverse) := by
  unfold readClass at h
  split at h
  · rename_i s
    obtain ⟨w, m, rfl, hm, rfl, rfl⟩ := written_open _ _ _ h (k := 0) rfl
    exact ⟨'[' :: '^' :: w ++ [']'], by simp, by simpa using Atom.negated hm⟩
  · rename_i h1
    obtain ⟨w, m, rfl, hm, rfl, rfl⟩ := written_open _ _ _ h (k := 0) rfl
    refine ⟨'[' :: w ++ [']'], by simp, ?_⟩
    have : w.head? ≠ some '^' := by
      intro e
      cases w with
      | nil => cases e
      | cons a w => simp at e; subst e; exact h1 _ rfl
    simpa using Atom.set hm this

theorem read_set {s : List Char} {l : List (Char × Char)} (h : Class s l) (hs : s.head? ≠ some '^') (rest : List Char) :
    readClass (s ++ ']' :: rest) = .ok false l.reverse rest := by
  rw [← read_class h]
  cases s with
  | nil => rfl
  | cons c s =>
    have : c ≠ '^' := by simpa using hs
    rw [List.cons_append, readClass]
    simpa using this

theorem read_negated {s : List Char} {l : List (Char × Char)} (h : Class s l) (rest : List Char) :
    readClass ('^' :: s ++ ']' :: rest) = .ok true l.reverse rest := by
  rw [← read_class h]; rfl

/-! ## Classes that are not modelled -/

/-- What is not modelled of a class. -/
def ClassBeyond (s : List Char) : Prop :=
  ('[' ∈ s ∨ ∃ c x y, (c = '&' ∨ c = '-' ∨ c = '~') ∧ s = x ++ c :: c :: y) ∨ ∃ a c b, s = a ++ '\\' :: c :: b ∧
    c ∈ ['x', 'u', 'U', 'p', 'P', 'd', 'D', 's', 'S', 'w', 'W', 'b', 'B', '<', '>']

theorem ClassBeyond.append {s : List Char} (h : ClassBeyond s) (t : List Char) : ClassBeyond (t ++ s) := by
  rcases h with (h | ⟨c, x, y, hc, rfl⟩) | ⟨a, c, b, rfl, hc⟩
  · exact .inl (.inl (by simp [h]))
  · exact .inl (.inr ⟨c, t ++ x, y, hc, by simp⟩)
  · exact .inr ⟨t ++ a, c, b, by simp, hc⟩

theorem members_unmodelled (neg : Bool) (l : List (Char × Char)) (p : Option Char) (s : List Char)
    (h : classMembers neg l p s = .unmodelled) : ClassBeyond s := by
  have esc : ∀ a c b, readEscape c = .unmodelled → ClassBeyond (a ++ '\\' :: c :: b) :=
    fun a c b hc => .inr ⟨a, c, b, rfl, escape_unmodelled hc⟩
  fun_induction classMembers neg l p s with
  | case1 => cases h
  | case2 => cases h
  | case3 => exact .inl (.inl (by simp))
  | case4 _ _ y => exact .inl (.inr ⟨'-', [], y, by simp, rfl⟩)
  | case5 => cases h
  | case6 l s _ _ ih => exact (ih h).append ['-']
  | case7 l c d s _ _ _ ih => exact (ih h).append ['-', '\\', d]
  | case8 => cases h
  | case9 l c d s hd => exact esc ['-'] d s hd
  | case10 => cases h
  | case11 => cases h
  | case12 l c d s _ _ _ _ _ ih => exact (ih h).append ['-', d]
  | case13 => cases h
  | case14 => cases h
  | case15 l p c s _ _ ih => exact (ih h).append ['\\', c]
  | case16 l p c s hc => exact esc [] c s hc
  | case17 => cases h
  | case18 => cases h
  | case19 l p c s _ _ _ _ _ _ _ _ _ _ _ hc =>
    cases s with
    | nil => cases hc.2
    | cons d s =>
      obtain ⟨hc, e⟩ := hc
      cases e
      exact .inl (.inr ⟨c, [], s, by rcases hc with rfl | rfl <;> simp, rfl⟩)
  | case20 l p c s _ _ _ _ _ _ _ _ _ _ _ _ ih => exact (ih h).append [c]

theorem open_unmodelled (neg : Bool) (l : List (Char × Char)) (s : List Char) (h : classOpen neg l s = .unmodelled) : ClassBeyond s := by
  fun_induction classOpen neg l s with
  | case1 l s ih => exact (ih h).append ['-']
  | case2 s => exact (members_unmodelled _ _ _ _ h).append [']']
  | case3 => exact members_unmodelled _ _ _ _ h

theorem readClass_unmodelled {s : List Char} (h : readClass s = .unmodelled) : ClassBeyond s := by
  unfold readClass at h
  split at h
  · exact (open_unmodelled _ _ _ h).append ['^']
  · exact open_unmodelled _ _ _ h

/-! ## Counted repetitions -/

theorem isDigit_iff (c : Char) : c.isDigit = true ↔ '0' ≤ c ∧ c ≤ '9' := by
  simp only [Char.isDigit, Bool.and_eq_true, decide_eq_true_eq]
  exact Iff.rfl

theorem numberOf_acc (s : List Char) (n : Nat) :
    s.foldl (fun n d => 10 * n + (d.toNat - '0'.toNat)) n = n * 10 ^ s.length + decimal s := by
  induction s generalizing n with
  | nil => simp [decimal]
  | cons c s ih =>
    rw [List.foldl_cons, ih, decimal, List.length_cons, Nat.pow_succ, Nat.add_mul]
    have : '0'.toNat = 48 := rfl
    rw [this, Nat.mul_comm 10 n, Nat.mul_assoc, Nat.mul_comm 10, Nat.add_assoc]

theorem numberOf_eq (s : List Char) : numberOf s = decimal s := by
  unfold numberOf; rw [numberOf_acc]; simp

theorem takeWhile_decimal {s : List Char} (h : Decimal s) (t : List Char) (ht : ∀ c ∈ t.head?, c.isDigit = false) :
    (s ++ t).takeWhile Char.isDigit = s ∧ (s ++ t).dropWhile Char.isDigit = t := by
  have h2 : ∀ c ∈ s, c.isDigit = true := fun c hc => (isDigit_iff c).2 (h.2 c hc)
  rw [List.takeWhile_append_of_pos h2, List.dropWhile_append_of_pos h2]
  cases t with
  | nil => simp
  | cons c t => have := ht c rfl; simp [this]

theorem read_count {s : List Char} {n : Nat} {m : Option Nat} (h : Count s n m) (rest : List Char) :
    readRepeat (s ++ '}' :: rest) = .ok n m rest := by
  have brace : ∀ c ∈ ('}' :: rest).head?, c.isDigit = false := by simp
  cases h with
  | exactly h hl =>
    obtain ⟨h1, h2⟩ := takeWhile_decimal h ('}' :: rest) brace
    simp only [readRepeat, h1, h2, numberOf_eq]
    rw [if_pos ⟨h.1, hl⟩]
  | @atLeast s h hl =>
    obtain ⟨h1, h2⟩ := takeWhile_decimal h (',' :: '}' :: rest) (by simp)
    rw [List.append_assoc, List.cons_append, List.nil_append]
    simp only [readRepeat, h1, h2, numberOf_eq]
    rw [if_pos ⟨h.1, hl⟩]
  | @between s t h h' hle hl =>
    obtain ⟨h1, h2⟩ := takeWhile_decimal h (',' :: (t ++ '}' :: rest)) (by simp)
    obtain ⟨h3, h4⟩ := takeWhile_decimal h' ('}' :: rest) brace
    rw [List.append_assoc, List.cons_append]
    simp only [readRepeat, h1, h2, numberOf_eq]
    have hne : ∀ r, t ++ '}' :: rest ≠ '}' :: r := by
      intro r e
      cases t with
      | nil => exact h'.1 rfl
      | cons c t =>
        cases e
        exact absurd (h'.2 '}' (by simp)) (by decide)
    split
    · rename_i r e; exact absurd e (hne r)
    · simp only [h3, h4]
      rw [if_pos ⟨h.1, h'.1, hle, hl⟩]

theorem span_decimal (s : List Char) (h : s.takeWhile Char.isDigit ≠ []) : Decimal (s.takeWhile Char.isDigit) :=
  ⟨h, fun c hc => (isDigit_iff c).1 (List.all_eq_true.1 (List.all_takeWhile (p := Char.isDigit)) c hc)⟩

theorem count_written {s : List Char} {n : Nat} {m : Option Nat} {rest : List Char} (h : readRepeat s = .ok n m rest) :
    ∃ w, s = w ++ '}' :: rest ∧ Count w n m := by
  have bad : ∀ t, badCount t ≠ .ok n m rest := by intro t; unfold badCount; split <;> simp
  have hs : s = s.takeWhile Char.isDigit ++ s.dropWhile Char.isDigit := (List.takeWhile_append_dropWhile).symm
  unfold readRepeat at h
  simp only [numberOf_eq] at h
  split at h
  · rename_i _ r h1
    split at h
    · rename_i hc
      cases h
      exact ⟨_, by rw [← h1]; exact hs, .exactly (span_decimal s hc.1) hc.2⟩
    · cases h
  · rename_i _ t h1
    split at h
    · split at h
      · rename_i hc
        cases h
        exact ⟨s.takeWhile Char.isDigit ++ [','], by rw [List.append_assoc]; simpa [h1] using hs, .atLeast (span_decimal s hc.1) hc.2⟩
      · cases h
    · split at h
      · rename_i _ r h2
        split at h
        · rename_i hc
          cases h
          refine ⟨s.takeWhile Char.isDigit ++ ',' :: t.takeWhile Char.isDigit, ?_,
            .between (span_decimal s hc.1) (span_decimal t hc.2.1) hc.2.2.1 hc.2.2.2⟩
          rw [List.append_assoc, List.cons_append, ← h2, List.takeWhile_append_dropWhile, ← h1]
          exact hs
        · cases h
      · exact absurd h (bad _)
  · exact absurd h (bad _)

theorem count_unmodelled {s : List Char} (h : readRepeat s = .unmodelled) : ∃ c ∈ s, c ≤ ' ' ∨ '\x7f' ≤ c := by
  have bad : ∀ t, badCount t = .unmodelled → ∃ c ∈ t, c ≤ ' ' ∨ '\x7f' ≤ c := by
    intro t h
    cases t with
    | nil => simp [badCount, maybeSpace] at h
    | cons c t =>
      refine ⟨c, by simp, ?_⟩
      by_cases hc : c ≤ ' '
      · exact .inl hc
      · simp [badCount, maybeSpace, hc] at h
        exact .inr h
  have drop : ∀ {t u : List Char}, t.dropWhile Char.isDigit = u → ∀ c ∈ u, c ∈ t := by
    rintro t _ rfl c hc; exact (List.dropWhile_sublist _).mem hc
  unfold readRepeat at h
  simp only at h
  split at h
  · split at h <;> cases h
  · rename_i _ t h1
    split at h
    · split at h <;> cases h
    · split at h
      · split at h <;> cases h
      · rename_i u _
        obtain ⟨c, hc, h2⟩ := bad _ h
        exact ⟨c, drop h1 c (List.mem_cons_of_mem _ (drop rfl c hc)), h2⟩
  · obtain ⟨c, hc, h2⟩ := bad _ h
    exact ⟨c, drop rfl c hc, h2⟩

end Plotline
