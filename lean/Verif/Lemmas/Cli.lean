import Verif.Spec.Cli
import Verif.Lemmas.Files
import Verif.Lemmas.Ops
import Verif.Lemmas.Regex

/-! # Paths and listings of the command line tool -/

namespace Plotline

open Std

/-! ## Names -/

theorem rsplitDot_none {n : Name} : rsplitDot n = none ↔ '.' ∉ n := by
  induction n with
  | nil => simp [rsplitDot]
  | cons c t ih =>
    unfold rsplitDot
    cases h : rsplitDot t with
    | some q =>
      have : ¬ '.' ∉ t := fun h' => by rw [ih.2 h'] at h; cases h
      simp only [reduceCtorEq, List.mem_cons, not_or, false_iff, not_and]
      exact fun _ => this
    | none =>
      have := ih.1 h
      by_cases hc : c = '.'
      · simp [hc]
      · simp [hc, this, Ne.symm hc]

theorem rsplitDot_append (s e : Name) (he : '.' ∉ e) : rsplitDot (s ++ '.' :: e) = some (s, e) := by
  induction s with
  | nil => simp [rsplitDot, rsplitDot_none.2 he]
  | cons c t ih => simp [rsplitDot, ih]

theorem rsplitDot_some {n b a : Name} (h : rsplitDot n = some (b, a)) : n = b ++ '.' :: a ∧ '.' ∉ a := by
  induction n generalizing b with
  | nil => simp [rsplitDot] at h
  | cons c t ih =>
    unfold rsplitDot at h
    cases ht : rsplitDot t with
    | some q =>
      obtain ⟨b', a'⟩ := q
      simp only [ht, Option.some.injEq, Prod.mk.injEq] at h
      obtain ⟨rfl, rfl⟩ := h
      obtain ⟨h1, h2⟩ := ih ht
      exact ⟨by rw [h1]; rfl, h2⟩
    | none =>
      simp only [ht] at h
      split at h
      · rename_i hc
        cases h
        exact ⟨by rw [hc]; rfl, rsplitDot_none.1 ht⟩
      · cases h

theorem take_ext (s e : Name) : (s ++ '.' :: e).take ((s ++ '.' :: e).length - e.length) = s ++ ['.'] := by
  have h1 : s ++ '.' :: e = (s ++ ['.']) ++ e := by simp
  have h2 : (s ++ '.' :: e).length - e.length = (s ++ ['.']).length := by simp; omega
  rw [h2, h1, List.take_left]

theorem head_ne_dotdot {n : Name} (h : n.head? ≠ some '.') : n ≠ dotdot := by rintro rfl; exact h rfl

theorem head_ne_dot {n : Name} (h : n.head? ≠ some '.') : n ≠ dot := by rintro rfl; exact h rfl

/-- Taking off a plain extension. -/
theorem withExt_strip {s e : Name} (hs : s ≠ []) (hd : s ≠ ['.']) (he : '.' ∉ e) :
    withExt (s ++ '.' :: e) [] = s := by
  have h1 : s ++ '.' :: e ≠ dotdot := by
    intro h
    have hl := congrArg List.length h
    cases s with
    | nil => exact hs rfl
    | cons c t =>
      cases t with
      | nil => simp [dotdot] at h; exact hd (by rw [h.1])
      | cons => simp [dotdot] at hl
  have h2 : s ++ ['.'] ≠ dotdot := by
    intro h
    cases s with
    | nil => exact hs rfl
    | cons c t =>
      cases t with
      | nil => simp [dotdot] at h; exact hd (by rw [h])
      | cons => have hl := congrArg List.length h; simp [dotdot] at hl
  have hext : extensionOf (s ++ '.' :: e) = some e := by
    simp only [extensionOf, h1, if_false, rsplitDot_append s e he, hs]
  have h3 : ¬ (s ++ '.' :: e = [] ∨ s ++ '.' :: e = dot) := by
    rintro (h | h)
    · simp at h
    · cases s with
      | nil => exact hs rfl
      | cons c t => have hl := congrArg List.length h; simp [dot] at hl
  unfold withExt
  simp only [h1, h3, if_false, hext, take_ext]
  unfold setExt fileStem
  have := rsplitDot_append s [] (by simp)
  simp only [h2, if_false, this, hs, if_true, List.append_nil]

/-- Putting an extension on a name that is not hidden. -/
theorem withExt_add {s e : Name} (hs : s ≠ []) (hd : s.head? ≠ some '.') (he : e ≠ []) :
    withExt s e = fileStem s ++ '.' :: e := by
  have h1 := head_ne_dotdot hd
  unfold withExt
  simp only [h1, hs, head_ne_dot hd, or_self, if_false]
  cases h : rsplitDot s with
  | none => simp [extensionOf, h1, h, setExt, he]
  | some q =>
    obtain ⟨b, a⟩ := q
    obtain ⟨rfl, ha⟩ := rsplitDot_some h
    have hb : b ≠ [] := by rintro rfl; exact hd rfl
    have hbd : (b ++ ['.']).head? ≠ some '.' := by
      cases b with
      | nil => exact absurd rfl hb
      | cons => simpa using hd
    have h2 := head_ne_dotdot hbd
    have hext : extensionOf (b ++ '.' :: a) = some a := by simp [extensionOf, h1, h, hb]
    have := rsplitDot_append b [] (by simp)
    simp only [hext, take_ext, setExt, h2, if_false, he, fileStem, this, hb, h1, h]

theorem fileStem_eq_self {s : Name} (hd : s.head? ≠ some '.') : fileStem s = s ↔ '.' ∉ s := by
  have h1 := head_ne_dotdot hd
  unfold fileStem
  simp only [h1, if_false]
  cases h : rsplitDot s with
  | none => exact ⟨fun _ => rsplitDot_none.1 h, fun _ => rfl⟩
  | some q =>
    obtain ⟨b, a⟩ := q
    obtain ⟨rfl, _⟩ := rsplitDot_some h
    have hb : b ≠ [] := by rintro rfl; exact hd rfl
    simp only [hb, if_false]
    constructor
    · intro h
      have := congrArg List.length h
      simp at this
    · intro h; simp at h

theorem withExtension_snoc (p : FilePath) (n ext : Name) : withExtension (p ++ [n]) ext = p ++ [withExt n ext] := by
  simp [withExtension]

/-- A character of a pattern that is no more than a wildcard. -/
def atom (c : Char) : Re := if c = '.' then .any else .char c

theorem parse_atoms (ext : Name) (he : ∀ c ∈ ext, c = '.' ∨ c ∉ special) (g : Group) :
    parseFrom g [] (ext ++ ['$']) = .ok (Group.close ⟨g.alts, .stop :: ((ext.map atom).reverse ++ g.parts), false⟩) := by
  induction ext generalizing g with
  | nil => rw [List.nil_append, parseFrom, parseFrom]; rfl
  | cons c ext ih =>
    have hc := he c (by simp)
    have ih' := ih (fun d hd => he d (List.mem_cons_of_mem _ hd)) (g.push (atom c))
    rw [show ((c :: ext).map atom).reverse ++ g.parts = (ext.map atom).reverse ++ (g.push (atom c)).parts by simp [Group.push]]
    refine Eq.trans ?_ ih'
    rcases hc with rfl | hc
    · rw [List.cons_append, parseFrom]; rfl
    · simp only [special, List.mem_cons, not_or, List.not_mem_nil] at hc
      have ha : atom c = .char c := by simp [atom, hc]
      rw [List.cons_append, ha, parseFrom.eq_def]
      split <;> simp_all

/-- Reading one expression after the other. -/
def ReadsAll (text : List Char) : List Re → Nat → Nat → Prop
  | [], i, j => i = j
  | a :: l, i, j => ∃ k, a.Reads text i k ∧ ReadsAll text l k j

theorem readsAll_append (text : List Char) (l l' : List Re) (i j : Nat) :
    ReadsAll text (l ++ l') i j ↔ ∃ k, ReadsAll text l i k ∧ ReadsAll text l' k j := by
  induction l generalizing i with
  | nil => simp [ReadsAll]
  | cons a l ih =>
    simp only [List.cons_append, ReadsAll, ih]
    constructor
    · rintro ⟨k, h1, m, h2, h3⟩; exact ⟨m, ⟨k, h1, h2⟩, h3⟩
    · rintro ⟨m, ⟨k, h1, h2⟩, h3⟩; exact ⟨k, h1, m, h2, h3⟩

theorem reads_seq (text : List Char) (a b : Re) (i j : Nat) :
    (Re.seq a b).Reads text i j ↔ ∃ k, a.Reads text i k ∧ b.Reads text k j := by
  constructor
  · intro h; cases h with | seq h1 h2 => exact ⟨_, h1, h2⟩
  · rintro ⟨k, h1, h2⟩; exact .seq h1 h2

theorem reads_concat (text : List Char) (last : Re) (before : List Re) (i j : Nat) :
    (Re.concat (last :: before)).Reads text i j ↔ ReadsAll text (before.reverse ++ [last]) i j := by
  induction before generalizing last with
  | nil => simp [ReadsAll, Re.concat]
  | cons a before ih =>
    rw [show Re.concat (last :: a :: before) = Re.concat (.seq a last :: before) from rfl, ih, List.reverse_cons, List.append_assoc,
      readsAll_append, readsAll_append]
    simp only [ReadsAll, List.singleton_append, reads_seq]
    constructor
    · rintro ⟨k, h1, m, ⟨l, h2, h3⟩, h4⟩; exact ⟨k, h1, l, h2, m, h3, h4⟩
    · rintro ⟨k, h1, l, h2, m, h3, h4⟩; exact ⟨k, h1, m, ⟨l, h2, h3⟩, h4⟩

theorem getElem?_drop_cons {s : List Char} {i : Nat} {c : Char} {t : List Char} (h : s.drop i = c :: t) :
    s[i]? = some c ∧ s.drop (i + 1) = t := by
  have h0 : (s.drop i)[0]? = some c := by rw [h]; rfl
  have h1 : (s.drop i).drop 1 = t := by rw [h]; rfl
  rw [List.getElem?_drop] at h0
  rw [List.drop_drop] at h1
  exact ⟨by simpa using h0, h1⟩

/-- Reading the characters of an extension, dots standing for any, to the end. -/
theorem readsAll_atoms (text : List Char) (ext : Name) (i j : Nat) (hi : i ≤ text.length) :
    ReadsAll text (ext.map atom ++ [.stop]) i j ↔ Looks ext (text.drop i) ∧ j = text.length := by
  induction ext generalizing i with
  | nil =>
    simp only [List.map_nil, List.nil_append, ReadsAll]
    constructor
    · rintro ⟨k, h, rfl⟩
      cases h
      exact ⟨by rw [List.drop_length]; exact .nil, rfl⟩
    · rintro ⟨h, rfl⟩
      have : text.drop i = [] := by cases h' : text.drop i with
        | nil => rfl
        | cons => rw [h'] at h; cases h
      obtain rfl : i = text.length := by have := List.drop_eq_nil_iff.1 this; omega
      exact ⟨_, .stop, rfl⟩
  | cons c ext ih =>
    simp only [List.map_cons, List.cons_append, ReadsAll]
    constructor
    · rintro ⟨k, h1, h2⟩
      have hk := h1.le
      obtain ⟨h3, rfl⟩ := (ih k hk.2).1 h2
      refine ⟨?_, rfl⟩
      unfold atom at h1
      split at h1
      · rename_i hc
        subst hc
        cases h1 with
        | any d _ hd hn =>
          obtain ⟨hl, rfl⟩ := List.getElem?_eq_some_iff.1 hd
          rw [List.drop_eq_getElem_cons hl]
          exact .wild _ hn h3
      · cases h1 with
        | char _ _ hd =>
          obtain ⟨hl, rfl⟩ := List.getElem?_eq_some_iff.1 hd
          rw [List.drop_eq_getElem_cons hl]
          exact .same _ h3
    · rintro ⟨h, rfl⟩
      have step : ∀ d m, text.drop i = d :: m → Looks ext m → ((c = '.' ∧ d ≠ '\n') ∨ (c ≠ '.' ∧ d = c)) →
          ∃ k, (atom c).Reads text i k ∧ ReadsAll text (ext.map atom ++ [.stop]) k text.length := by
        intro d m hd hm hc
        obtain ⟨e1, e2⟩ := getElem?_drop_cons hd
        have hl := (List.getElem?_eq_some_iff.1 e1).1
        refine ⟨i + 1, ?_, (ih (i + 1) hl).2 ⟨e2 ▸ hm, rfl⟩⟩
        rcases hc with ⟨rfl, hn⟩ | ⟨hn, rfl⟩
        · simp only [atom, if_true]; exact .any d i e1 hn
        · simp only [atom, hn, if_false]; exact .char d i e1
      generalize hd : text.drop i = rest at h
      cases h with
      | same _ h =>
        refine step _ _ hd h ?_
        by_cases hc : c = '.'
        · exact .inl ⟨hc, by rw [hc]; decide⟩
        · exact .inr ⟨hc, rfl⟩
      | wild d hn h => exact step _ _ hd h (.inl ⟨rfl, hn⟩)

theorem extPattern_dotted {ext : Name} (he : ∀ c ∈ ext, c = '.' ∨ c ∉ special) :
    extPattern ext = .ok (Re.concat (.stop :: ((ext.map atom).reverse ++ [.char '.']))) := by
  show parseFrom _ [] _ = _
  rw [show ('\\' :: '.' :: ext ++ ['$'] : List Char) = '\\' :: '.' :: (ext ++ ['$']) from rfl, parseFrom.eq_3,
    show readEscape '.' = .char '.' from rfl]
  show parseFrom _ [] (ext ++ ['$']) = _
  rw [parse_atoms ext he]
  rfl

theorem PlainExt.dotted {ext : Name} (h : PlainExt ext) : DottedExt ext := ⟨h.1, fun c hc => .inr (h.2 c hc)⟩

theorem PlainExt.dot {ext : Name} (h : PlainExt ext) : '.' ∉ ext := fun hd => h.2 _ hd (by decide)

theorem looks_refl (ext : Name) : Looks ext ext := by
  induction ext with
  | nil => exact .nil
  | cons c ext ih => exact .same c ih

theorem looks_plain {ext m : Name} (he : '.' ∉ ext) : Looks ext m ↔ m = ext := by
  constructor
  · intro h
    induction h with
    | nil => rfl
    | same c _ ih => rw [ih fun h => he (List.mem_cons_of_mem _ h)]
    | wild => exact absurd (by simp) he
  · rintro rfl; exact looks_refl _

/-- The names that match an extension with dots. -/
theorem isMatch_dotted {ext : Name} (he : DottedExt ext) (n : Name) {re : Re} (hre : extPattern ext = .ok re) :
    re.isMatch n = true ↔ ∃ s m, n = s ++ '.' :: m ∧ Looks ext m := by
  rw [extPattern_dotted he.2] at hre
  cases hre
  simp only [isMatch_iff, Re.Finds, reads_concat]
  simp only [List.reverse_append, List.reverse_reverse, List.reverse_cons, List.reverse_nil, List.nil_append,
    List.cons_append, ReadsAll]
  constructor
  · rintro ⟨i, j, k, h1, h2⟩
    have hk := h1.le
    cases h1 with
    | char _ _ hd =>
      obtain ⟨hl, hd⟩ := List.getElem?_eq_some_iff.1 hd
      refine ⟨n.take i, n.drop (i + 1), ?_, ((readsAll_atoms n ext _ j hk.2).1 h2).1⟩
      have := List.take_append_drop i n
      rw [List.drop_eq_getElem_cons hl, hd] at this
      exact this.symm
  · rintro ⟨s, m, rfl, hm⟩
    refine ⟨s.length, _, s.length + 1, .char _ _ (by simp), (readsAll_atoms _ ext _ _ (by simp)).2 ⟨?_, rfl⟩⟩
    rw [show s ++ '.' :: m = (s ++ ['.']) ++ m by simp, show s.length + 1 = (s ++ ['.']).length by simp, List.drop_left]
    exact hm

/-- A path that ends with `..` is written so that it ends with `..`. -/
theorem writePath_snoc (p : FilePath) (n : Name) (hn : n ≠ []) : ∃ s, writePath (p ++ [n]) = s ++ n := by
  cases p with
  | nil => exact ⟨[], by simp [writePath, hn]⟩
  | cons m p => exact ⟨m ++ (p.flatMap fun m => '/' :: m) ++ ['/'], by simp [writePath]⟩

/-- The name the model matches is the one the walker gives. -/
theorem entryName_given (p : FilePath) : entryName p = givenName p := by
  have hw : ∀ (n : Name) (p : FilePath), n :: p ≠ [[]] → writePath (n :: p) = ['/'].intercalate (n :: p) := by
    intro n p hne
    have h1 : writePath (n :: p) = n ++ p.flatMap fun m => '/' :: m := by
      rw [writePath, if_neg]
      rintro ⟨rfl, rfl⟩; exact hne rfl
    rw [h1]
    clear h1 hne
    induction p generalizing n with
    | nil => simp [List.intercalate]
    | cons m p ih => simp only [List.flatMap_cons, List.intercalate, List.intersperse, List.flatten_cons]; rw [List.cons_append, ih m]; rfl
  unfold entryName givenName
  by_cases h : p = [[]]
  · subst h; rfl
  · cases hl : p.getLast? with
    | none => simp [h, hl]
    | some n =>
      by_cases hn : n = dotdot
      · subst hn
        cases p with
        | nil => cases hl
        | cons m p => simp [h, hw m p h]
      · simp [h, hn]

theorem entryName_snoc (p : FilePath) {n : Name} (h1 : n ≠ []) (h2 : n ≠ dotdot) : entryName (p ++ [n]) = n := by
  have : ¬ (n = dotdot ∨ p ++ [n] = [[]]) := by
    rintro (h | h)
    · exact h2 h
    · cases p with
      | nil => exact h1 (by simpa using h)
      | cons m p => simp at h
  simp [entryName, this]

theorem givenName_visible (p : FilePath) {n : Name} (h : n ≠ [] ∧ n.head? ≠ some '.') : givenName (p ++ [n]) = n := by
  rw [← entryName_given, entryName_snoc p h.1 (by rintro rfl; exact h.2 rfl)]

theorem matchesExt_snoc {ext : Name} (he : PlainExt ext) (p : FilePath) (n : Name) :
    matchesExt ext (p ++ [n]) = true ↔ ∃ s, n = s ++ '.' :: ext := by
  have hp := extPattern_dotted he.dotted.2
  have key : matchesExt ext (p ++ [n]) = true ↔ ∃ s, entryName (p ++ [n]) = s ++ '.' :: ext := by
    unfold matchesExt
    rw [hp]
    simp only
    rw [isMatch_dotted he.dotted _ hp]
    constructor
    · rintro ⟨s, m, h', h⟩; exact ⟨s, by rw [h', (looks_plain he.dot).1 h]⟩
    · rintro ⟨s, h⟩; exact ⟨s, ext, h, looks_refl _⟩
  rw [key]
  by_cases h2 : n = dotdot
  · have e : entryName (p ++ [n]) = writePath (p ++ [n]) := by simp [entryName, h2]
    obtain ⟨t, ht⟩ := writePath_snoc p n (by rw [h2]; decide)
    rw [e, ht, h2]
    have no : ∀ s t : Name, t ++ dotdot ≠ s ++ '.' :: ext := by
      intro s t h
      have hl : (t ++ dotdot).getLast? = (s ++ '.' :: ext).getLast? := by rw [h]
      rw [List.getLast?_append, List.getLast?_append] at hl
      have h3 : ('.' :: ext).getLast? = ext.getLast? := by
        cases hx : ext with
        | nil => exact absurd hx he.1
        | cons c x => simp [List.getLast?_cons_cons]
      rw [h3] at hl
      cases hx : ext.getLast? with
      | none => exact he.1 (List.getLast?_eq_none_iff.1 hx)
      | some c =>
        rw [hx] at hl
        obtain rfl : '.' = c := by simpa [dotdot] using hl
        exact he.dot (List.mem_of_getLast? hx)
    exact ⟨fun ⟨s, h⟩ => absurd h (no s t), fun ⟨s, h⟩ => absurd h (no s [])⟩
  · by_cases h1 : n = []
    · subst h1
      have h4 : ¬ ∃ s, ([] : Name) = s ++ '.' :: ext := by rintro ⟨s, h⟩; exact absurd h.symm (by simp)
      refine ⟨fun ⟨s, h⟩ => ?_, fun h => absurd h h4⟩
      cases p with
      | nil =>
        have h : ['/'] = s ++ '.' :: ext := h
        have : '.' ∈ ['/'] := by rw [h]; simp
        simp at this
      | cons m p =>
        have hl : (m :: p ++ [[]]).getLast? = some ([] : Name) := by rw [List.getLast?_append]; rfl
        have hne : ¬ (([] : Name) = dotdot ∨ m :: p ++ [[]] = [[]]) := by simp [dotdot]
        have he : entryName (m :: p ++ [[]]) = [] := by
          unfold entryName
          rw [hl]
          simp only [if_neg hne]
        exact absurd ⟨s, by rw [← he]; exact h⟩ h4
    · rw [entryName_snoc p h1 h2]

/-- With an extension that makes a regular expression the tool gets to its command. -/
theorem plot_ok {r : LocalRepo} {re : Re} (h : extPattern r.extension = .ok re) (fuel : Nat) (fs : Fs) (walked : List FilePath)
    (i : Option FilePath) (c : Subcommand) : plot fuel r fs walked i c = execute fuel fs (r.schema walked) i c := by
  unfold plot; rw [h]

theorem isPrefixOf?_some (a b t : FilePath) : a.isPrefixOf? b = some t ↔ b = a ++ t := by
  induction a generalizing b with
  | nil =>
    simp only [List.isPrefixOf?, List.nil_append, Option.some.injEq]
  | cons x a ih =>
    cases b with
    | nil => simp [List.isPrefixOf?]
    | cons y b =>
      simp only [List.isPrefixOf?, List.cons_append, List.cons.injEq]
      by_cases h : x = y
      · subst h; simp [ih]
      · simp [h, Ne.symm h]

/-! ## Listings -/

/-- Two ascending lists with the same members are the same list. -/
theorem Ascending.ext {a b : List FilePath} (ha : Ascending a) (hb : Ascending b) (h : ∀ x, x ∈ a ↔ x ∈ b) : a = b := by
  induction a generalizing b with
  | nil =>
    cases b with
    | nil => rfl
    | cons y b => exact absurd ((h y).2 (by simp)) (by simp)
  | cons x a ih =>
    cases b with
    | nil => exact absurd ((h x).1 (by simp)) (by simp)
    | cons y b =>
      obtain ⟨ha1, ha2⟩ := List.pairwise_cons.1 ha
      obtain ⟨hb1, hb2⟩ := List.pairwise_cons.1 hb
      have irr : ∀ z : FilePath, compare z z ≠ .lt := fun z => by rw [ReflOrd.compare_self]; exact fun h => nomatch h
      have hxy : x = y := by
        rcases List.mem_cons.1 ((h x).1 (by simp)) with h1 | h1
        · exact h1
        · rcases List.mem_cons.1 ((h y).2 (by simp)) with h2 | h2
          · exact h2.symm
          · exact absurd (TransCmp.lt_trans (hb1 x h1) (ha1 y h2)) (irr y)
      subst hxy
      congr 1
      refine ih ha2 hb2 fun z => ?_
      constructor
      · intro hz
        rcases List.mem_cons.1 ((h z).1 (List.mem_cons_of_mem _ hz)) with h1 | h1
        · subst h1; exact absurd (ha1 z hz) (irr z)
        · exact h1
      · intro hz
        rcases List.mem_cons.1 ((h z).2 (List.mem_cons_of_mem _ hz)) with h1 | h1
        · subst h1; exact absurd (hb1 z hz) (irr z)
        · exact h1

/-- The ids in a graph built from documents. -/
theorem ids_fromIter (docs : List (LazyDocument FilePath Document)) (i : FilePath) :
    i ∈ (Graph.fromIter docs : Graph FilePath (LazyDocument FilePath Document)).iter.map (fun node => node.id) ↔
      i ∈ docs.map fun node => node.id := by
  have hv : (Graph.fromIter docs : Graph FilePath (LazyDocument FilePath Document)).Valid := Graph.valid_fromIter _
  have hget : ∀ q, (Graph.fromIter docs : Graph FilePath (LazyDocument FilePath Document)).get q =
      docs.reverse.find? (fun n => q == Plotline.id n) := by
    intro q
    rw [Graph.fromIter_eq, Graph.get_foldl_insert _ _ Graph.valid_empty]
    show Option.or _ none = _
    rw [Option.or_none]
  constructor
  · intro h
    obtain ⟨n, hn, rfl⟩ := List.mem_map.1 h
    have := (Graph.mem_iter _ hv n).1 hn
    rw [hget] at this
    exact List.mem_map.2 ⟨n, List.mem_reverse.1 (List.mem_of_find?_eq_some this), rfl⟩
  · intro h
    obtain ⟨n, hn, rfl⟩ := List.mem_map.1 h
    have hs : (docs.reverse.find? (fun m => (Plotline.id n : FilePath) == Plotline.id m)).isSome := by
      rw [List.find?_isSome]
      exact ⟨n, List.mem_reverse.2 hn, by simp⟩
    obtain ⟨m, hm⟩ := Option.isSome_iff_exists.1 hs
    have hid : (Plotline.id n : FilePath) = Plotline.id m := by simpa using List.find?_some hm
    refine List.mem_map.2 ⟨m, (Graph.mem_iter _ hv m).2 ?_, hid.symm⟩
    rw [hget, ← hid]; exact hm

/-- The ids `plot doc list` prints. -/
theorem list_stdout (r : LocalRepo) (walked : List FilePath) :
    Ascending ((r.schema walked).guard.iter.map fun node => node.id) ∧
    ∀ i, i ∈ (r.schema walked).guard.iter.map (fun node => node.id) ↔ i ∈ (r.all walked).map fun node => node.id := by
  have hv : (Graph.fromIter (r.all walked) : Graph FilePath (LazyDocument FilePath Document)).Valid := Graph.valid_fromIter _
  have hg : (r.schema walked).guard = Graph.fromIter (r.all walked) := guard_eq _
  rw [hg]
  exact ⟨List.pairwise_map.2 (Graph.iter_sorted _ hv), ids_fromIter _⟩

theorem mem_all (r : LocalRepo) (walked : List FilePath) (i : FilePath) :
    i ∈ (r.all walked).map (fun node => node.id) ↔
      ∃ p ∈ walked, matchesExt r.extension p = true ∧ withExtension p [] = r.context ++ i := by
  unfold LocalRepo.all
  simp only [List.map_map, List.mem_map, List.mem_filterMap, List.mem_filter]
  constructor
  · rintro ⟨a, ⟨p, ⟨h1, h2⟩, h3⟩, rfl⟩
    exact ⟨p, h1, h2, (isPrefixOf?_some _ _ _).1 h3⟩
  · rintro ⟨p, h1, h2, h3⟩
    exact ⟨i, ⟨p, ⟨h1, h2⟩, (isPrefixOf?_some _ _ _).2 h3⟩, rfl⟩

theorem joinPath_relative {p q : FilePath} (h : Relative q) : joinPath p q = p ++ q := by
  unfold joinPath
  rw [if_neg h.1, if_neg (fun h' => h.2 h'.1)]

theorem joinPath_absolute {p q : FilePath} (h : Absolute q) : joinPath p q = q := if_pos h

theorem Relative.snoc {dir : FilePath} {n : Name} (hd : Relative dir) (hn : n ≠ []) (hn' : n ≠ dot) : Relative (dir ++ [n]) := by
  cases dir with
  | nil => simpa [Relative] using ⟨hn, hn'⟩
  | cons => simpa [Relative] using hd

theorem joinPath_snoc (p dir : FilePath) {n : Name} (hn : n ≠ []) (hn' : n ≠ dot) :
    joinPath p (dir ++ [n]) = joinPath p dir ++ [n] := by
  cases dir with
  | nil => simp [joinPath, hn, hn']
  | cons m dir =>
    unfold joinPath
    by_cases h1 : m = []
    · rw [if_pos (show (m :: dir ++ [n]).head? = some [] by simp [h1]), if_pos (by simp [h1])]
    · rw [if_neg (show ¬ (m :: dir ++ [n]).head? = some [] by simp [h1]), if_neg (show ¬ (m :: dir).head? = some [] by simp [h1])]
      by_cases h2 : m = dot ∧ p ≠ []
      · rw [if_pos (show (m :: dir ++ [n]).head? = some dot ∧ p ≠ [] by simpa using h2), if_pos (by simpa using h2)]; simp
      · rw [if_neg (show ¬ ((m :: dir ++ [n]).head? = some dot ∧ p ≠ []) by simpa using h2), if_neg (by simpa using h2)]; simp

theorem Visible.relative {ignored : FilePath → Bool} {ctx : FilePath} {fs : Fs} {dir : FilePath} {n : Name}
    (h : Visible ignored ctx fs (dir ++ [n])) : Relative dir := by
  cases dir with
  | nil => simp [Relative]
  | cons m dir =>
    have := h.2.2.1 m (by simp)
    simpa [Relative] using ⟨this.1, head_ne_dot this.2⟩

theorem withExtension_length (p : FilePath) (e : Name) : (withExtension p e).length = p.length := by
  rcases List.eq_nil_or_concat p with rfl | ⟨q, n, rfl⟩
  · rfl
  · rw [List.concat_eq_append, withExtension_snoc]; simp

/-- A visible name with the extension. -/
theorem visible_stem {s ext : Name} (h : (s ++ '.' :: ext).head? ≠ some '.') : s ≠ [] ∧ s.head? ≠ some '.' := by
  cases s with
  | nil => exact absurd rfl h
  | cons c t => exact ⟨by simp, by simpa using h⟩

theorem Visible.snoc {ignored : FilePath → Bool} {ctx : FilePath} {fs : Fs} {rel : FilePath} (h : Visible ignored ctx fs rel) :
    ∃ dir n, rel = dir ++ [n] ∧ n.head? ≠ some '.' := by
  obtain ⟨h1, _, h3, _⟩ := h
  refine ⟨rel.dropLast, rel.getLast h1, (List.dropLast_concat_getLast h1).symm, (h3 _ (List.getLast_mem h1)).2⟩

/-- A document below the context is listed under its path without extension. -/
theorem listed_below {ignored : FilePath → Bool} {ctx : FilePath} {fs : Fs} {rel : FilePath} {ext : Name} (he : PlainExt ext)
    (h : Visible ignored ctx fs rel) (i : FilePath) :
    (matchesExt ext (ctx ++ rel) = true ∧ withExtension (ctx ++ rel) [] = ctx ++ i) ↔ DocAt ext rel i := by
  obtain ⟨dir, n, rfl, hn⟩ := h.snoc
  rw [← List.append_assoc, matchesExt_snoc he, withExtension_snoc]
  constructor
  · rintro ⟨⟨s, rfl⟩, h2⟩
    obtain ⟨hs1, hs2⟩ := visible_stem hn
    rw [withExt_strip hs1 (by rintro rfl; exact hs2 rfl) he.dot, List.append_assoc] at h2
    exact ⟨dir, s, rfl, (List.append_cancel_left h2).symm⟩
  · rintro ⟨dir', s, h1, rfl⟩
    obtain ⟨rfl, h2⟩ := List.append_inj' h1 rfl
    cases h2
    obtain ⟨hs1, hs2⟩ := visible_stem hn
    rw [withExt_strip hs1 (by rintro rfl; exact hs2 rfl) he.dot, List.append_assoc]
    exact ⟨⟨s, rfl⟩, rfl⟩

/-- What the walker makes of the standard input is not below the context. -/
theorem stdin_stripped (i : FilePath) : withExtension stdinEntry [] ≠ stdinPath ++ i := by
  intro h
  have : (withExtension stdinEntry []).head? = (stdinPath ++ i).head? := by rw [h]
  exact absurd this (by simp [stdinPath]; decide)

/-- The context itself is listed only if its name is nothing but the extension. -/
theorem context_not_listed {ctx : FilePath} {ext : Name} (he : PlainExt ext) (hctx : ctx.getLast? ≠ some ('.' :: ext)) (i : FilePath) :
    ¬ (matchesExt ext ctx = true ∧ withExtension ctx [] = ctx ++ i) := by
  rintro ⟨h1, h2⟩
  rcases List.eq_nil_or_concat ctx with rfl | ⟨p, n, rfl⟩
  · have hp := extPattern_dotted he.dotted.2
    unfold matchesExt at h1
    rw [hp] at h1
    obtain ⟨s, m, h, _⟩ := (isMatch_dotted he.dotted _ hp).1 h1
    exact absurd h.symm (by simp [entryName])
  · rw [List.concat_eq_append] at *
    obtain ⟨s, rfl⟩ := (matchesExt_snoc he p n).1 h1
    rw [withExtension_snoc, List.append_assoc] at h2
    have h3 := List.append_cancel_left h2
    simp only [List.singleton_append, List.cons.injEq] at h3
    have h4 := h3.1
    have hs : s ≠ [] := by rintro rfl; exact hctx (by simp)
    by_cases hd : s = ['.']
    · subst hd
      have hlen := congrArg List.length h4
      have : withExt (['.'] ++ '.' :: ext) [] = dotdot := by
        have hne : (['.'] ++ '.' :: ext : Name) ≠ dotdot := by
          intro h; simp [dotdot] at h; exact he.1 h
        have hext : extensionOf (['.'] ++ '.' :: ext) = some ext := by
          simp only [extensionOf, hne, if_false, rsplitDot_append ['.'] ext he.dot]; rfl
        have hne' : ¬ ((['.'] ++ '.' :: ext : Name) = [] ∨ (['.'] ++ '.' :: ext : Name) = dot) := by simp [dot]
        unfold withExt
        simp only [hne, hne', if_false, hext, take_ext]
        rfl
      rw [this] at hlen
      have : ext = [] := by simpa [dotdot] using hlen
      exact he.1 this
    · rw [withExt_strip hs hd he.dot] at h4
      have := congrArg List.length h4
      simp at this

/-- If the name of the context is nothing but the extension, the context is listed, as the empty path. -/
theorem context_listed {ctx : FilePath} {ext : Name} (he : PlainExt ext) (hctx : ctx.getLast? = some ('.' :: ext)) (i : FilePath) :
    (matchesExt ext ctx = true ∧ withExtension ctx [] = ctx ++ i) ↔ i = [] := by
  rcases List.eq_nil_or_concat ctx with rfl | ⟨p, n, rfl⟩
  · simp at hctx
  · rw [List.concat_eq_append] at *
    obtain rfl : n = '.' :: ext := by simpa using hctx
    have hne : ('.' :: ext : Name) ≠ dotdot := by
      intro h
      simp only [dotdot, List.cons.injEq, true_and] at h
      exact he.dot (by simp [h])
    have hr : rsplitDot ('.' :: ext) = some ([], ext) := rsplitDot_append [] ext he.dot
    have hw : withExt ('.' :: ext) [] = '.' :: ext := by
      have : ('.' :: ext : Name) ≠ dot := by
        intro h
        simp only [dot, List.cons.injEq, true_and] at h
        exact he.1 h
      simp [withExt, hne, this, extensionOf, hr, setExt, fileStem]
    rw [withExtension_snoc, hw]
    constructor
    · rintro ⟨-, h⟩
      have : (p ++ ['.' :: ext]) ++ [] = (p ++ ['.' :: ext]) ++ i := by simpa using h
      exact (List.append_cancel_left this).symm
    · rintro rfl
      exact ⟨(matchesExt_snoc he p _).2 ⟨[], rfl⟩, by simp⟩

end Plotline
