import Verif.Props.Cli
import Verif.Lemmas.Pattern

/-! # Property C72: the extension is a pattern when listing and literal when loading; C55 for any extension -/

namespace Plotline

open Std

/-! ## Names -/

theorem withExt_visible {n m : Name} (hn : n ≠ []) (hd : n.head? ≠ some '.') : withExt n [] = m ↔ Stripped n m := by
  unfold Stripped
  cases h : rsplitDot n with
  | none =>
    have hdot := rsplitDot_none.1 h
    have hw : withExt n [] = n := by
      have h1 := head_ne_dotdot hd
      simp [withExt, h1, head_ne_dot hd, extensionOf, h, setExt, fileStem]
    rw [hw]
    constructor
    · rintro rfl; exact .inl ⟨hdot, rfl⟩
    · rintro (⟨_, rfl⟩ | ⟨e, _, rfl⟩)
      · rfl
      · exact absurd (by simp) hdot
  | some q =>
    obtain ⟨b, a⟩ := q
    obtain ⟨rfl, ha⟩ := rsplitDot_some h
    have hb : b ≠ [] := by rintro rfl; exact hd rfl
    have hb2 : b ≠ ['.'] := by rintro rfl; exact hd rfl
    rw [withExt_strip hb hb2 ha]
    constructor
    · rintro rfl; exact .inr ⟨a, ha, rfl⟩
    · rintro (⟨hno, _⟩ | ⟨e, he, heq⟩)
      · exact absurd (by simp) hno
      · have h2 := rsplitDot_append m e he
        rw [← heq, h] at h2
        cases h2; rfl

theorem withExt_same (n : Name) : withExt n [] = n ↔ n = dotdot ∨ '.' ∉ n.tail := by
  by_cases hd : n = dotdot
  · simp [withExt, hd]
  · simp only [hd, false_or]
    cases h : rsplitDot n with
    | none =>
      have hdot := rsplitDot_none.1 h
      constructor
      · intro _ h'; exact hdot (List.mem_of_mem_tail h')
      · intro _; simp [withExt, hd, extensionOf, h, setExt, fileStem]
    | some q =>
      obtain ⟨b, a⟩ := q
      obtain ⟨rfl, ha⟩ := rsplitDot_some h
      cases b with
      | nil =>
        rw [List.nil_append] at hd h ⊢
        simp [withExt, hd, extensionOf, h, setExt, fileStem, ha]
      | cons c t =>
        constructor
        · intro hw
          exfalso
          by_cases hc : c :: t = ['.']
          · rw [hc] at hw hd h
            have hext : extensionOf (['.'] ++ '.' :: a) = some a := by simp only [extensionOf, hd, if_false, h]; simp
            unfold withExt at hw
            simp only [hd, if_false, hext, take_ext] at hw
            exact hd hw.symm
          · rw [withExt_strip (by simp) hc ha] at hw
            have := congrArg List.length hw
            simp at this
        · intro h'; exact absurd (by simp) h'

/-! ## Patterns -/

/-- C72: what is taken as a regular expression, and as which, is what the grammar says. -/
theorem C72_grammar (ext : Name) (re : Re) : extPattern ext = .ok re ↔ Alts (writtenExt ext) re := parse_iff _ re

/-- C72: and so is what is not one, as far as the grammar goes. -/
theorem C72_not_written (ext : Name) (hm : ¬ BeyondModel (writtenExt ext)) :
    extPattern ext = .invalid ↔ ¬ ∃ re, Alts (writtenExt ext) re := by
  simp only [← C72_grammar]
  cases h : extPattern ext with
  | ok re => simp
  | invalid => simp
  | unmodelled => exact absurd (parse_unmodelled _ _ rfl _ _ h) hm

/-! ## Listing -/

/-- What is left of the paths walked whose given names are some. -/
theorem walked_stripped (P : Name → Prop) (ignored : FilePath → Bool) (ctx : FilePath) (fs : Fs) (walked : List FilePath)
    (hw : Walk ignored ctx fs walked) (x : FilePath) :
    (∃ p ∈ walked, P (givenName p) ∧ withExtension p [] = ctx ++ x) ↔
      (∃ dir n m, Visible ignored ctx fs (dir ++ [n]) ∧ P n ∧ Stripped n m ∧ x = dir ++ [m]) ∨
      (x = [] ∧ P (givenName ctx) ∧ (ctx.getLast? = some dotdot ∨ '.' ∉ (ctx.getLast?.getD []).tail) ∧
        ∃ root, fs.Starts ctx root) := by
  have below : ∀ dir n, Visible ignored ctx fs (dir ++ [n]) →
      (withExtension (ctx ++ (dir ++ [n])) [] = ctx ++ x ↔ ∃ m, Stripped n m ∧ x = dir ++ [m]) := by
    intro dir n hv
    have hn := hv.2.2.1 n (by simp)
    rw [← List.append_assoc, withExtension_snoc, List.append_assoc, List.append_cancel_left_eq]
    constructor
    · intro h; exact ⟨_, (withExt_visible hn.1 hn.2).1 rfl, h.symm⟩
    · rintro ⟨m, hs, rfl⟩; rw [(withExt_visible hn.1 hn.2).2 hs]
  have here : withExtension ctx [] = ctx ++ x ↔
      x = [] ∧ (ctx.getLast? = some dotdot ∨ '.' ∉ (ctx.getLast?.getD []).tail) := by
    constructor
    · intro h
      have hl := congrArg List.length h
      rw [withExtension_length, List.length_append] at hl
      obtain rfl := List.eq_nil_of_length_eq_zero (l := x) (by omega)
      refine ⟨rfl, ?_⟩
      rcases List.eq_nil_or_concat ctx with hc | ⟨q, n, hc⟩
      · rw [hc]; exact .inr (by simp)
      · rw [List.concat_eq_append] at hc
        rw [hc, withExtension_snoc, List.append_nil, List.append_cancel_left_eq] at h
        simp only [List.cons.injEq, and_true] at h
        rw [hc]
        simpa using (withExt_same n).1 h
    · rintro ⟨rfl, h⟩
      rcases List.eq_nil_or_concat ctx with hc | ⟨q, n, hc⟩
      · rw [hc]; rfl
      · rw [List.concat_eq_append] at hc
        rw [hc] at h
        rw [hc, withExtension_snoc, (withExt_same n).2 (by simpa using h), List.append_nil]
  constructor
  · rintro ⟨p, hp, hf, he⟩
    rcases (hw.mem p).1 hp with ⟨rfl, hroot⟩ | ⟨rel, hv, rfl⟩ | ⟨hc, rfl⟩
    · exact .inr ⟨(here.1 he).1, hf, (here.1 he).2, hroot⟩
    · obtain ⟨dir, n, rfl, _⟩ := hv.snoc
      obtain ⟨m, hs, hx⟩ := (below dir n hv).1 he
      refine .inl ⟨dir, n, m, hv, ?_, hs, hx⟩
      rwa [← List.append_assoc, givenName_visible _ (hv.2.2.1 n (by simp))] at hf
    · exact absurd (hc ▸ he) (stdin_stripped x)
  · rintro (⟨dir, n, m, hv, hf, hs, hx⟩ | ⟨hx, hf, hc, hroot⟩)
    · exact ⟨_, (hw.mem _).2 (.inr (.inl ⟨_, hv, rfl⟩)),
        by rw [← List.append_assoc, givenName_visible _ (hv.2.2.1 n (by simp))]; exact hf, (below dir n hv).2 ⟨m, hs, hx⟩⟩
    · exact ⟨_, (hw.mem _).2 (.inl ⟨rfl, hroot⟩), hf, here.2 ⟨hx, hc⟩⟩

/-- C72: for every extension that makes a regular expression, every file system and every order of the walk, the listing is in
strictly ascending order and has exactly: the visible paths whose name the expression matches, without their last extension;
and the context itself, as the empty path, if it exists, the expression matches the name the walker gives it and its last name has
no extension. -/
theorem C72_list (fuel : Nat) (r : LocalRepo) (re : Re) (hre : Alts (writtenExt r.extension) re) (ignored : FilePath → Bool) (fs : Fs)
    (walked : List FilePath) (hw : Walk ignored r.context fs walked) (i : Option FilePath) :
    ∃ ran, plot fuel r fs walked i .list = some ran ∧ ran.result = .ret (.ok ()) ∧ Ascending ran.stdout ∧
      ∀ x, x ∈ ran.stdout ↔
        (∃ dir n m, Visible ignored r.context fs (dir ++ [n]) ∧ re.Finds n ∧ Stripped n m ∧ x = dir ++ [m]) ∨
        (x = [] ∧ re.Finds (givenName r.context) ∧
          (r.context.getLast? = some dotdot ∨ '.' ∉ (r.context.getLast?.getD []).tail) ∧ ∃ root, fs.Starts r.context root) := by
  have hr := (C72_grammar _ re).2 hre
  obtain ⟨h1, h2⟩ := list_stdout r walked
  refine ⟨_, plot_ok hr .., rfl, h1, fun x => ?_⟩
  refine (h2 x).trans ((mem_all r walked x).trans ?_)
  have hm : ∀ p, matchesExt r.extension p = true ↔ re.Finds (givenName p) := by
    intro p; unfold matchesExt; rw [hr, entryName_given]; exact isMatch_iff _ _
  simp only [hm]
  exact walked_stripped re.Finds ignored r.context fs walked hw x

/-- C72: with the context `-` nothing is listed, whatever there is: the walker takes it for the standard input. -/
theorem C72_stdin (fuel : Nat) (ext : Name) (re : Re) (hre : Alts (writtenExt ext) re) (ignored : FilePath → Bool) (fs : Fs)
    (walked : List FilePath) (hw : Walk ignored stdinPath fs walked) (i : Option FilePath) :
    ∃ ran, plot fuel ⟨stdinPath, ext⟩ fs walked i .list = some ran ∧ ran.result = .ret (.ok ()) ∧ ran.stdout = [] := by
  obtain ⟨ran, h1, h2, _, h3⟩ := C72_list fuel ⟨stdinPath, ext⟩ re hre ignored fs walked hw i
  refine ⟨ran, h1, h2, List.eq_nil_iff_forall_not_mem.2 fun x hx => ?_⟩
  rcases (h3 x).1 hx with ⟨_, _, _, ⟨_, ⟨_, _, hs, _⟩, _⟩, _⟩ | ⟨_, _, _, _, hs⟩
  · exact hs.1 rfl
  · exact hs.1 rfl

-- a context that ends with `..` is matched as it is written: with `md|txt`, the one below is listed, as the empty path
example : givenName ["notes.md".toList, dotdot] = "notes.md/..".toList := by decide
example : givenName [[], "a".toList, dotdot] = "/a/..".toList := by decide
example : (plot 0 ⟨["notes.md".toList, dotdot], "md|txt".toList⟩ ⟨[(["notes.md".toList], .dir)], []⟩
      [["notes.md".toList, dotdot], ["notes.md".toList, dotdot, "notes.md".toList]] none .list).map Ran.stdout =
    some [[], ["notes".toList]] := by decide +kernel

/-- C72: without special characters but dots there is a regular expression, and it matches exactly the names that end with a dot
and something that looks like the extension, any character (but a line feed) standing for each of its dots. -/
theorem C72_dots (ext : Name) (he : DottedExt ext) :
    ∃ re, Alts (writtenExt ext) re ∧ ∀ n, re.Finds n ↔ ∃ s m, n = s ++ '.' :: m ∧ Looks ext m := by
  refine ⟨_, (C72_grammar _ _).1 (extPattern_dotted he.2), fun n => ?_⟩
  rw [← isMatch_iff]
  exact isMatch_dotted he n (extPattern_dotted he.2)

/-- C72: without any special character it matches exactly the names that end with a dot and the extension. -/
theorem C72_plain (ext : Name) (he : PlainExt ext) :
    ∃ re, Alts (writtenExt ext) re ∧ ∀ n, re.Finds n ↔ ∃ s, n = s ++ '.' :: ext := by
  obtain ⟨re, h1, h2⟩ := C72_dots ext he.dotted
  refine ⟨re, h1, fun n => (h2 n).trans ?_⟩
  simp only [looks_plain he.dot]
  constructor
  · rintro ⟨s, m, rfl, rfl⟩; exact ⟨s, rfl⟩
  · rintro ⟨s, rfl⟩; exact ⟨s, _, rfl, rfl⟩

/-- The expression of a part. -/
def ExtPart.re : ExtPart → Re
  | .char c => .char c
  | .oneOf cs => .set false (cs.map fun c => (c, c))

theorem ExtPart.atom {p : ExtPart} (h : p.Simple) : Atom p.text p.re := by
  cases p with
  | char c => exact .literal c h
  | oneOf cs =>
    obtain ⟨hne, hall⟩ := h
    have hm : ∀ cs : List Char, (∀ c ∈ cs, c ∉ ['\\', '[', ']', '-', '^', '&', '~']) → Members cs (cs.map fun c => (c, c)) := by
      intro cs
      induction cs with
      | nil => intro _; exact .none
      | cons c cs ih =>
        intro hall
        have hc := hall c (by simp)
        refine .one (p := [c]) (.plain c cs (by simp_all) (by rintro (rfl | rfl) <;> simp at hc)) ?_ (ih fun d hd => hall d (by simp [hd]))
        intro e
        cases cs with
        | nil => cases e
        | cons d cs => cases e; have := hall '-' (by simp); simp at this
    have hfirst : ∀ x, x ∈ ['-', '^'] → cs.head? ≠ some x := by
      intro x hx e
      cases cs with
      | nil => cases e
      | cons d cs =>
        cases e
        have := hall x (by simp)
        simp only [List.mem_cons, List.not_mem_nil, or_false] at hx
        rcases hx with rfl | rfl <;> simp at this
    exact .set (.dashes 0 (hfirst '-' (by simp)) (hm cs hall) fun _ => hne) (hfirst '^' (by simp))

theorem ExtPart.reads (p : ExtPart) (text : List Char) (i j : Nat) :
    p.re.Reads text i j ↔ j = i + 1 ∧ ∃ c, text[i]? = some c ∧ p.Fits c := by
  cases p with
  | char c =>
    constructor
    · intro h; cases h with | char _ _ h => exact ⟨rfl, c, h, rfl⟩
    · rintro ⟨rfl, _, h, rfl⟩; exact .char _ i h
  | oneOf cs =>
    constructor
    · intro h
      cases h with
      | inside _ c _ h hc =>
        refine ⟨rfl, c, h, ?_⟩
        obtain ⟨a, b, h1, h2, h3⟩ := hc
        obtain ⟨d, hd, e⟩ := List.mem_map.1 h1
        cases e
        exact Char.le_antisymm h2 h3 ▸ hd
    · rintro ⟨rfl, c, h, hc⟩
      exact .inside _ c i h ⟨c, c, List.mem_map.2 ⟨c, hc, rfl⟩, Char.le_refl c, Char.le_refl c⟩

/-- The expressions of parts, to the end of the text. -/
def partsRe : List ExtPart → Re
  | [] => .stop
  | p :: ps => .seq p.re (partsRe ps)

theorem partsRe_pieces : ∀ ps : List ExtPart, (∀ p ∈ ps, p.Simple) → Pieces (ps.flatMap ExtPart.text ++ ['$']) (partsRe ps)
  | [], _ => .last (.atom .stop)
  | p :: ps, h => by
    rw [List.flatMap_cons, List.append_assoc]
    exact .more (.atom (ExtPart.atom (h p (by simp)))) (partsRe_pieces ps fun q hq => h q (by simp [hq])) (by simp)

theorem partsRe_reads (text : List Char) (ps : List ExtPart) (i j : Nat) (hi : i ≤ text.length) :
    (partsRe ps).Reads text i j ↔ FitsAll ps (text.drop i) ∧ j = text.length := by
  induction ps generalizing i with
  | nil =>
    constructor
    · intro h; cases h; exact ⟨by rw [List.drop_length]; exact .nil, rfl⟩
    · rintro ⟨h, rfl⟩
      generalize hd : text.drop i = w at h
      cases h
      obtain rfl : i = text.length := by have := List.drop_eq_nil_iff.1 hd; omega
      exact .stop
  | cons p ps ih =>
    simp only [partsRe, reads_seq, ExtPart.reads]
    constructor
    · rintro ⟨_, ⟨rfl, c, hc, hf⟩, h⟩
      obtain ⟨hl, rfl⟩ := List.getElem?_eq_some_iff.1 hc
      obtain ⟨h, hj⟩ := (ih (i + 1) hl).1 h
      rw [List.drop_eq_getElem_cons hl]
      exact ⟨.cons hf h, hj⟩
    · rintro ⟨h, rfl⟩
      generalize hd : text.drop i = w at h
      cases h with
      | cons hf h =>
        obtain ⟨e1, e2⟩ := getElem?_drop_cons hd
        have hl := (List.getElem?_eq_some_iff.1 e1).1
        exact ⟨i + 1, ⟨rfl, _, e1, hf⟩, (ih (i + 1) hl).2 ⟨e2 ▸ h, rfl⟩⟩

/-- C72: an extension of plain characters and classes that list some, as `m[dD]`, matches exactly the names that end with a dot and
one character for each of its parts: that character, or one of those listed. -/
theorem C72_classes (ps : List ExtPart) (hp : ∀ p ∈ ps, p.Simple) :
    ∃ re, Alts (writtenExt (ps.flatMap ExtPart.text)) re ∧ ∀ n, re.Finds n ↔ ∃ s m, n = s ++ '.' :: m ∧ FitsAll ps m := by
  refine ⟨.seq (.char '.') (partsRe ps), .one (.more (s := ['\\', '.']) (.atom (.escaped ((escape_char _ _).1 rfl))) (partsRe_pieces ps hp) (by simp)),
    fun n => ?_⟩
  unfold Re.Finds
  simp only [reads_seq]
  constructor
  · rintro ⟨i, j, k, h1, h2⟩
    have hk := h1.le
    cases h1 with
    | char _ _ hd =>
      obtain ⟨hl, hd⟩ := List.getElem?_eq_some_iff.1 hd
      refine ⟨n.take i, n.drop (i + 1), ?_, ((partsRe_reads n ps _ j hk.2).1 h2).1⟩
      have := List.take_append_drop i n
      rw [List.drop_eq_getElem_cons hl, hd] at this
      exact this.symm
  · rintro ⟨s, m, rfl, hm⟩
    refine ⟨s.length, _, s.length + 1, .char _ _ (by simp), (partsRe_reads _ ps _ _ (by simp)).2 ⟨?_, rfl⟩⟩
    rw [show s ++ '.' :: m = (s ++ ['.']) ++ m by simp, show s.length + 1 = (s ++ ['.']).length by simp, List.drop_left]
    exact hm

/-- The expression of characters that stand for themselves. -/
def litRe : List Char → Re
  | [] => .empty
  | [c] => .char c
  | c :: s => .seq (.char c) (litRe s)

theorem litRe_pieces (s : List Char) (h : ∀ c ∈ s, c ∉ specialChars) : Pieces s (litRe s) := by
  induction s with
  | nil => exact .none
  | cons c s ih =>
    have hc : Piece [c] (.char c) false := .atom (.literal c (h c (by simp)))
    cases s with
    | nil => exact .last hc
    | cons d s => exact .more hc (ih fun c hc => h c (List.mem_cons_of_mem _ hc)) (by simp)

theorem litRe_reads (text s : List Char) (i j : Nat) (hi : i ≤ text.length) :
    (litRe s).Reads text i j ↔ j = i + s.length ∧ ∃ rest, text.drop i = s ++ rest := by
  have char : ∀ (c : Char) (i j : Nat), (Re.char c).Reads text i j ↔ j = i + 1 ∧ ∃ rest, text.drop i = c :: rest := by
    intro c i j
    constructor
    · intro h
      cases h with
      | char _ _ hd =>
        obtain ⟨hl, hd⟩ := List.getElem?_eq_some_iff.1 hd
        exact ⟨rfl, _, by rw [List.drop_eq_getElem_cons hl, hd]⟩
    · rintro ⟨rfl, rest, h⟩
      exact .char _ _ (getElem?_drop_cons h).1
  induction s generalizing i with
  | nil =>
    constructor
    · intro h; cases h; exact ⟨rfl, _, rfl⟩
    · rintro ⟨rfl, _⟩; exact .empty _ hi
  | cons c s ih =>
    cases s with
    | nil => exact char c i j
    | cons d s =>
      show Re.Reads text (.seq (.char c) (litRe (d :: s))) i j ↔ _
      rw [reads_seq]
      constructor
      · rintro ⟨k, h1, h2⟩
        have hk := h1.le.2
        obtain ⟨rfl, rest, hr⟩ := (char _ _ _).1 h1
        obtain ⟨rfl, rest', hr'⟩ := (ih _ hk).1 h2
        refine ⟨by simp; omega, rest', ?_⟩
        rw [hr, ← (getElem?_drop_cons hr).2, hr']; rfl
      · rintro ⟨rfl, rest, hr⟩
        have h1 := (char c i (i + 1)).2 ⟨rfl, _, hr⟩
        exact ⟨i + 1, h1, (ih _ h1.le.2).2 ⟨by simp; omega, rest, (getElem?_drop_cons hr).2⟩⟩

/-- The expressions one after the other, as alternatives. -/
theorem Alts.more {s t : List Char} {a : Re} (h : Alts s a) : ∀ {b : Re}, Alts t b →
    ∃ r, Alts (s ++ '|' :: t) r ∧ ∀ text i j, r.Reads text i j ↔ a.Reads text i j ∨ b.Reads text i j := by
  intro b hb
  revert hb
  generalize hn : t.length = n
  induction n using Nat.strongRecOn generalizing t b with
  | _ n ih =>
  intro hb
  cases hb with
  | one hp =>
    refine ⟨_, .or h hp, fun text i j => ⟨fun h => ?_, fun h => ?_⟩⟩
    · cases h with
      | left _ h => exact .inl h
      | right _ h => exact .inr h
    · exact h.elim (.left _) (.right _)
  | @or u v a' b' h1 h2 =>
    obtain ⟨r, h3, h4⟩ := ih u.length (by rw [← hn]; simp) rfl h1
    refine ⟨.alt r b', by simpa using Alts.or h3 h2, fun text i j => ⟨fun h => ?_, fun h => ?_⟩⟩
    · cases h with
      | left _ h => exact ((h4 ..).1 h).imp_right (.left _)
      | right _ h => exact .inr (.right _ h)
    · rcases h with h | h
      · exact .left _ ((h4 ..).2 (.inl h))
      · cases h with
        | left _ h => exact .left _ ((h4 ..).2 (.inr h))
        | right _ h => exact .right _ h

theorem bars_alts (es : List Name) (hne : es ≠ []) (he : ∀ e ∈ es, PlainExt e) :
    ∃ r, Alts (withBars es) r ∧ ∀ text i j, r.Reads text i j ↔ ∃ e ∈ es, (litRe e).Reads text i j := by
  have plain : ∀ e ∈ es, Pieces e (litRe e) := fun e h => litRe_pieces e (he e h).2
  induction es with
  | nil => exact absurd rfl hne
  | cons e es ih =>
    cases es with
    | nil => exact ⟨_, .one (plain e (by simp)), by simp⟩
    | cons d es =>
      obtain ⟨r, h1, h2⟩ := ih (by simp) (fun x hx => he x (List.mem_cons_of_mem _ hx)) (fun x hx => plain x (List.mem_cons_of_mem _ hx))
      obtain ⟨r', h3, h4⟩ := (Alts.one (plain e (by simp))).more h1
      refine ⟨r', h3, fun text i j => ?_⟩
      rw [h4, h2]
      simp

/-- C72: several extensions at once, as `(md|txt)` or `(?:md|txt)`, match exactly the names that end with a dot and one of them. -/
theorem C72_alternatives (es : List Name) (hne : es ≠ []) (he : ∀ e ∈ es, PlainExt e) (opening : List Char)
    (ho : opening = "(".toList ∨ opening = "(?:".toList) :
    ∃ re, Alts (writtenExt (opening ++ withBars es ++ [')'])) re ∧ ∀ n, re.Finds n ↔ ∃ s, ∃ e ∈ es, n = s ++ '.' :: e := by
  obtain ⟨r, h1, h2⟩ := bars_alts es hne he
  have hg : Atom (opening ++ withBars es ++ [')']) r := by
    rcases ho with rfl | rfl
    · exact .group h1
    · exact .plainGroup h1
  have hstop : Pieces ['$'] .stop := .last (.atom .stop)
  refine ⟨.seq (.char '.') (.seq r .stop), .one (.more (s := ['\\', '.']) (.atom (.escaped ((escape_char _ _).1 rfl)))
    (.more (.atom hg) hstop (by simp)) (by simp)), fun n => ?_⟩
  unfold Re.Finds
  simp only [reads_seq, h2]
  constructor
  · rintro ⟨i, j, k, hd, l, ⟨e, hm, hl⟩, hs⟩
    have hk := hd.le.2
    obtain ⟨rfl, rest, hr⟩ := (litRe_reads n e k l hk).1 hl
    generalize hx : k + e.length = x at hs
    cases hs
    obtain rfl : rest = [] := by
      have := congrArg List.length hr
      rw [List.length_drop, List.length_append] at this
      exact List.eq_nil_of_length_eq_zero (by omega)
    cases hd with
    | char _ _ hd =>
      obtain ⟨hl, hd⟩ := List.getElem?_eq_some_iff.1 hd
      refine ⟨n.take i, e, hm, ?_⟩
      have := List.take_append_drop i n
      rw [List.drop_eq_getElem_cons hl, hd, hr, List.append_nil] at this
      exact this.symm
  · rintro ⟨s, e, hm, rfl⟩
    refine ⟨s.length, (s ++ '.' :: e).length, s.length + 1, .char _ _ (by simp), _,
      ⟨e, hm, (litRe_reads _ e _ _ (by simp)).2 ⟨rfl, [], by simp⟩⟩, ?_⟩
    rw [show s.length + 1 + e.length = (s ++ '.' :: e).length by simp; omega]
    exact .stop

theorem repeats_append (text : List Char) (r : Re) (a b i k : Nat) :
    r.Repeats text (a + b) i k ↔ ∃ j, r.Repeats text a i j ∧ r.Repeats text b j k := by
  induction a generalizing i with
  | zero =>
    rw [Nat.zero_add]
    constructor
    · intro h
      have hi : i ≤ text.length := by
        cases h with
        | none _ h => exact h
        | more h => have := h.le; omega
      exact ⟨i, .none i hi, h⟩
    · rintro ⟨j, h1, h2⟩; cases h1; exact h2
  | succ a ih =>
    rw [Nat.add_right_comm]
    constructor
    · intro h
      cases h with
      | more h1 h2 => obtain ⟨l, h3, h4⟩ := (ih _).1 h2; exact ⟨l, .more h1 h3, h4⟩
    · rintro ⟨j, h1, h2⟩
      cases h1 with
      | more h1 h3 => exact .more h1 ((ih _).2 ⟨j, h3, h2⟩)

theorem reads_power (text : List Char) (r : Re) (n i j : Nat) : (r.power n).Reads text i j ↔ r.Repeats text n i j := by
  induction n generalizing i with
  | zero =>
    constructor
    · intro h; cases h with | empty _ h => exact .none _ h
    · intro h; cases h with | none _ h => exact .empty _ h
  | succ n ih =>
    simp only [Re.power, reads_seq, ih]
    constructor
    · rintro ⟨k, h1, h2⟩; exact .more h1 h2
    · intro h; cases h with | more h1 h2 => exact ⟨_, h1, h2⟩

theorem reads_upTo (text : List Char) (r : Re) (n i j : Nat) : (r.upTo n).Reads text i j ↔ ∃ k, k ≤ n ∧ r.Repeats text k i j := by
  induction n generalizing i with
  | zero =>
    constructor
    · intro h; cases h with | empty _ h => exact ⟨0, Nat.le_refl _, .none _ h⟩
    · rintro ⟨k, hk, h⟩
      obtain rfl : k = 0 := by omega
      cases h with | none _ h => exact .empty _ h
  | succ n ih =>
    constructor
    · intro h
      cases h with
      | left _ h =>
        obtain ⟨k, h1, h2⟩ := (reads_seq ..).1 h
        obtain ⟨m, hm, h3⟩ := (ih _).1 h2
        exact ⟨m + 1, by omega, .more h1 h3⟩
      | right _ h => cases h with | empty _ h => exact ⟨0, by omega, .none _ h⟩
    · rintro ⟨k, hk, h⟩
      cases h with
      | none _ h => exact .right _ (.empty _ h)
      | more h1 h2 => exact .left _ ((reads_seq ..).2 ⟨_, h1, (ih _).2 ⟨_, by omega, h2⟩⟩)

theorem reads_star (text : List Char) (r : Re) (i j : Nat) : (Re.star r).Reads text i j ↔ ∃ k, r.Repeats text k i j := by
  constructor
  · intro h
    generalize hs : Re.star r = x at h
    induction h with
    | none _ i h => exact ⟨0, .none i h⟩
    | more h1 _ _ ih =>
      cases hs
      obtain ⟨k, hk⟩ := ih rfl
      exact ⟨k + 1, .more h1 hk⟩
    | _ => cases hs
  · rintro ⟨k, h⟩
    induction h with
    | none i h => exact .none r i h
    | more h1 _ ih => exact .more h1 ih

/-- C72: a counted repetition reads as often as it says: `{n}` and `{n,m}` at least `n` and at most `m` times, `{n,}` at least `n`. -/
theorem C72_counted {s t : List Char} {r : Re} {greedy : Bool} {least : Nat} {most : Option Nat} (hs : Piece s r greedy)
    (ht : Count t least most) :
    ∃ re, Piece (s ++ '{' :: t ++ ['}']) re true ∧
      ∀ text i j, re.Reads text i j ↔ ∃ k, least ≤ k ∧ (∀ x ∈ most, k ≤ x) ∧ r.Repeats text k i j := by
  refine ⟨_, .counted hs ht, fun text i j => ?_⟩
  cases most with
  | none =>
    simp only [Re.times, reads_seq, reads_power, reads_star]
    constructor
    · rintro ⟨k, h1, n, h2⟩; exact ⟨least + n, by omega, by simp, (repeats_append ..).2 ⟨k, h1, h2⟩⟩
    · rintro ⟨k, h1, _, h2⟩
      obtain ⟨n, rfl⟩ := Nat.exists_eq_add_of_le h1
      obtain ⟨l, h3, h4⟩ := (repeats_append ..).1 h2
      exact ⟨l, h3, n, h4⟩
  | some most =>
    have hle : least ≤ most := by cases ht with
      | exactly => exact Nat.le_refl _
      | between _ _ h => exact h
    simp only [Re.times, reads_seq, reads_power, reads_upTo]
    constructor
    · rintro ⟨k, h1, n, hn, h2⟩
      exact ⟨least + n, by omega, by simp; omega, (repeats_append ..).2 ⟨k, h1, h2⟩⟩
    · rintro ⟨k, h1, hm, h2⟩
      have hm := hm most rfl
      obtain ⟨n, rfl⟩ := Nat.exists_eq_add_of_le h1
      obtain ⟨l, h3, h4⟩ := (repeats_append ..).1 h2
      exact ⟨l, h3, n, by omega, h4⟩

/-- C72: if the extension makes no valid regular expression, every command panics, printing and changing nothing. -/
theorem C72_invalid (fuel : Nat) (r : LocalRepo) (hm : ¬ BeyondModel (writtenExt r.extension))
    (hre : ¬ ∃ re, Alts (writtenExt r.extension) re) (fs : Fs) (walked : List FilePath)
    (i : Option FilePath) (c : Subcommand) :
    ∃ ran, plot fuel r fs walked i c = some ran ∧ ran.result = .panic ∧ ran.stdout = [] ∧ ran.fs = fs := by
  have hr := (C72_not_written _ hm).2 hre
  exact ⟨_, by unfold plot; rw [hr], rfl, rfl, rfl⟩

theorem parse_skip (a : Name) (ha : ∀ c ∈ a, c = '.' ∨ c ∉ special) (b : List Char) (g : Group) (outer : List Group) :
    ∃ g', parseFrom g outer (a ++ b) = parseFrom g' outer b := by
  induction a generalizing g with
  | nil => exact ⟨g, rfl⟩
  | cons c a ih =>
    obtain ⟨g', h⟩ := ih (fun d hd => ha d (List.mem_cons_of_mem _ hd)) (g.push (atom c))
    refine ⟨g', Eq.trans ?_ h⟩
    rcases ha c (by simp) with rfl | hc
    · rw [List.cons_append, parseFrom]; rfl
    · simp only [special, List.mem_cons, not_or, List.not_mem_nil] at hc
      have ha : atom c = .char c := by simp [atom, hc]
      rw [List.cons_append, ha, parseFrom.eq_def]
      split <;> simp_all

/-- C72: a parenthesis that does not match makes the pattern invalid: one that closes nothing, whatever follows, or one that is
not closed. -/
theorem C72_parentheses (a b : Name) (ha : ∀ c ∈ a, c = '.' ∨ c ∉ special) :
    extPattern (a ++ ')' :: b) = .invalid ∧
    ((∀ c ∈ b, c = '.' ∨ c ∉ special) → extPattern (a ++ '(' :: b) = .invalid) := by
  have hstart : ∀ t : List Char, extPattern t = parseFrom (Group.push ⟨none, [], false⟩ (.char '.')) [] (t ++ ['$']) := by
    intro t
    show parseFrom _ [] ('\\' :: '.' :: (t ++ ['$'])) = _
    rw [parseFrom.eq_3]
    rfl
  constructor
  · rw [hstart, List.append_assoc, List.cons_append]
    obtain ⟨g', h⟩ := parse_skip a ha (')' :: (b ++ ['$'])) (Group.push ⟨none, [], false⟩ (.char '.')) []
    rw [h, parseFrom]
  · intro hb
    rw [hstart, List.append_assoc, List.cons_append]
    obtain ⟨g', h⟩ := parse_skip a ha ('(' :: (b ++ ['$'])) (Group.push ⟨none, [], false⟩ (.char '.')) []
    have hq : ∀ s, b ++ ['$'] ≠ '?' :: s := by
      intro s hs
      cases b with
      | nil => simp at hs
      | cons c b =>
        simp only [List.cons_append, List.cons.injEq] at hs
        rcases hb c (by simp) with hc | hc
        · rw [hs.1] at hc; exact absurd hc (by decide)
        · rw [hs.1] at hc; exact absurd (by decide) hc
    obtain ⟨g'', h''⟩ := parse_skip b hb ['$'] ⟨none, [], false⟩ [g']
    have h3 : parseFrom g' [] ('(' :: (b ++ ['$'])) = parseFrom ⟨none, [], false⟩ [g'] (b ++ ['$']) := by
      rw [parseFrom]
      · exact fun s => hq _
      · exact hq
    rw [h, h3, h'', parseFrom, parseFrom]

/-! ## Loading -/

/-- The path that is read for an id. -/
theorem load_stripped (r : LocalRepo) (he : r.extension ≠ []) (fs : Fs) (dir : FilePath) (n : Name) (hn : n ≠ [])
    (hd : n.head? ≠ some '.') :
    ∃ m, Stripped n m ∧ r.findById fs (dir ++ [n]) =
      (fs.read (joinPath r.context dir ++ [m ++ '.' :: r.extension])).map
        fun bytes => ⟨joinPath r.context dir ++ [m ++ '.' :: r.extension], bytes⟩ := by
  have hp : withExtension (joinPath r.context (dir ++ [n])) r.extension =
      joinPath r.context dir ++ [fileStem n ++ '.' :: r.extension] := by
    rw [joinPath_snoc _ _ hn (head_ne_dot hd), withExtension_snoc, withExt_add hn hd he]
  refine ⟨fileStem n, ?_, by unfold LocalRepo.findById; simp only [hp]⟩
  have h1 := head_ne_dotdot hd
  cases h : rsplitDot n with
  | none => exact .inl ⟨rsplitDot_none.1 h, by simp [fileStem, h1, h]⟩
  | some q =>
    obtain ⟨b, a⟩ := q
    obtain ⟨rfl, ha⟩ := rsplitDot_some h
    have hb : b ≠ [] := by rintro rfl; exact hd rfl
    exact .inr ⟨a, ha, by simp [fileStem, h1, h, hb]⟩

/-- C72: loading an id takes the extension literally: a file is read only if its name ends with a dot and the very extension. -/
theorem C72_load_literal (r : LocalRepo) (he : r.extension ≠ []) (fs : Fs) (dir : FilePath) (hdir : Relative dir) (n : Name)
    (hn : n ≠ []) (hd : n.head? ≠ some '.') :
    ∃ m, Stripped n m ∧ r.findById fs (dir ++ [n]) =
      (fs.read (r.context ++ (dir ++ [m ++ '.' :: r.extension]))).map
        fun bytes => ⟨r.context ++ (dir ++ [m ++ '.' :: r.extension]), bytes⟩ := by
  obtain ⟨m, h1, h2⟩ := load_stripped r he fs dir n hn hd
  exact ⟨m, h1, by rwa [joinPath_relative hdir, List.append_assoc] at h2⟩

/-- C72, an extension `a.b`: every file with that extension is listed under the name less `.b`, and that id leads back to the file
if and only if `a` has no dot. So it always does with one dot in the extension, however many there are before, and never does
with more. -/
theorem C72_dots_lead_back (r : LocalRepo) (a b : Name) (hr : r.extension = a ++ '.' :: b) (hb : '.' ∉ b) (ignored : FilePath → Bool)
    (fs : Fs) (dir : FilePath) (stem : Name) (hv : Visible ignored r.context fs (dir ++ [stem ++ '.' :: r.extension])) :
    (∀ m, Stripped (stem ++ '.' :: r.extension) m ↔ m = stem ++ '.' :: a) ∧
    ('.' ∉ a → r.findById fs (dir ++ [stem ++ '.' :: a]) =
      (fs.read (r.context ++ (dir ++ [stem ++ '.' :: r.extension]))).map
        fun bytes => ⟨r.context ++ (dir ++ [stem ++ '.' :: r.extension]), bytes⟩) ∧
    ('.' ∈ a → ∀ d, r.findById fs (dir ++ [stem ++ '.' :: a]) = some d →
      d.path ≠ r.context ++ (dir ++ [stem ++ '.' :: r.extension])) := by
  have hn := hv.2.2.1 (stem ++ '.' :: r.extension) (by simp)
  obtain ⟨hs1, hs2⟩ := visible_stem hn.2
  have hid : (stem ++ '.' :: a).head? ≠ some '.' := by
    cases stem with
    | nil => exact absurd rfl hs1
    | cons => simpa using hs2
  have huniq : ∀ (n m m' : Name), n ≠ [] → n.head? ≠ some '.' → Stripped n m → Stripped n m' → m = m' := by
    intro n m m' h1 h2 h3 h4
    rw [← (withExt_visible h1 h2).2 h3, ← (withExt_visible h1 h2).2 h4]
  obtain ⟨m, hm, hload⟩ := C72_load_literal r (by rw [hr]; simp) fs dir hv.relative (stem ++ '.' :: a) (by simp) hid
  refine ⟨fun m => ⟨fun h => ?_, ?_⟩, fun ha => ?_, fun ha d hd => ?_⟩
  · exact huniq _ _ _ hn.1 hn.2 h (.inr ⟨b, hb, by rw [hr]; simp⟩)
  · rintro rfl; exact .inr ⟨b, hb, by rw [hr]; simp⟩
  · rw [hload, huniq _ m stem (by simp) hid hm (.inr ⟨a, ha, rfl⟩)]
  · rw [hload] at hd
    obtain ⟨_, _, rfl⟩ := Option.map_eq_some_iff.1 hd
    intro heq
    have h2 := (List.append_inj' (List.append_cancel_left heq) rfl).2
    simp only [List.cons.injEq, and_true] at h2
    obtain rfl : m = stem := List.append_cancel_right h2
    rcases hm with ⟨h3, _⟩ | ⟨e, he, h3⟩
    · exact h3 (by simp)
    · have := List.append_cancel_left h3
      simp only [List.cons.injEq, true_and] at this
      exact he (this ▸ ha)

/-! ## C40 on the repository of the tool -/

/-- C40 on the tool's repository, exactly when it holds: a loaded document has the id asked for if and only if the id is absolute or
the context is the empty path or both start with `.`, which is all of the context, and the id already has the extension, which has no dot.
Missing from C40: all other ids and contexts (`C40_never_faithful`). -/
theorem C40_cli_exact_partial (r : LocalRepo) (he : r.extension ≠ []) (fs : Fs) (dir : FilePath) (n : Name) (hn : n ≠ [])
    (hd : n.head? ≠ some '.') (d : Document) (h : r.findById fs (dir ++ [n]) = some d) :
    d.path = dir ++ [n] ↔ (r.context = [] ∨ Absolute dir ∨ (r.context = [dot] ∧ dir.head? = some dot)) ∧
      '.' ∉ r.extension ∧ ∃ s, n = s ++ '.' :: r.extension := by
  obtain ⟨m, hm, hload⟩ := load_stripped r he fs dir n hn hd
  rw [hload] at h
  obtain ⟨_, _, rfl⟩ := Option.map_eq_some_iff.1 h
  have key : dir ++ [m ++ '.' :: r.extension] = dir ++ [n] ↔ '.' ∉ r.extension ∧ ∃ s, n = s ++ '.' :: r.extension := by
    constructor
    · intro heq
      have h2 := (List.cons.inj (List.append_inj' heq rfl).2).1
      refine ⟨?_, m, h2.symm⟩
      rcases hm with ⟨h3, rfl⟩ | ⟨e, he', rfl⟩
      · exact absurd (by rw [← h2]; simp) h3
      · have := List.append_cancel_left h2
        simp only [List.cons.injEq, true_and] at this
        rw [this]; exact he'
    · rintro ⟨hdot, s, rfl⟩
      have := (withExt_visible hn hd).2 hm
      rw [(withExt_visible hn hd).2 (.inr ⟨_, hdot, rfl⟩)] at this
      subst this
      rfl
  rw [← key]
  have hj : joinPath r.context dir = dir ↔ (r.context = [] ∨ Absolute dir ∨ (r.context = [dot] ∧ dir.head? = some dot)) := by
    unfold joinPath Absolute
    split
    · rename_i h1; simp [h1]
    · rename_i h1
      split
      · rename_i h2
        obtain ⟨d', rfl⟩ : ∃ d', dir = dot :: d' := by
          cases dir with
          | nil => simp at h2
          | cons a d' => exact ⟨d', by simpa using h2.1⟩
        have h3 : r.context ++ d' = dot :: d' ↔ r.context = [dot] := by
          rw [show dot :: d' = [dot] ++ d' from rfl, List.append_cancel_right_eq]
        have h4 : dot ≠ [] := by decide
        simp [h2.2, h3, h4]
      · rename_i h2
        simp only [h1, false_or]
        constructor
        · intro h; exact .inl (by simpa using h)
        · rintro (h | ⟨h3, h4⟩)
          · simp [h]
          · exact absurd ⟨h4, by simp [h3]⟩ h2
  constructor
  · intro heq
    obtain ⟨e1, e2⟩ := List.append_inj' heq rfl
    exact ⟨hj.1 e1, by rw [e2]⟩
  · rintro ⟨h1, h2⟩
    rw [← h2, hj.2 h1]

example : (⟨[], "md".toList⟩ : LocalRepo).findById ⟨[(["a.md".toList], .file [1])], []⟩ ["a.md".toList] = some ⟨["a.md".toList], [1]⟩ := by
  decide +kernel

/-! ## C55 for any extension -/

/-- C55 for every extension, whatever pattern it makes: two visible paths that end with it and that the listing gives the same id
are the same path. -/
theorem C55_any_extension (r : LocalRepo) (ignored : FilePath → Bool) (fs : Fs) (dir dir' : FilePath) (s s' : Name) (i : FilePath)
    (hv : Visible ignored r.context fs (dir ++ [s ++ '.' :: r.extension]))
    (hv' : Visible ignored r.context fs (dir' ++ [s' ++ '.' :: r.extension]))
    (h : i ∈ (r.all [r.context ++ (dir ++ [s ++ '.' :: r.extension])]).map fun node => node.id)
    (h' : i ∈ (r.all [r.context ++ (dir' ++ [s' ++ '.' :: r.extension])]).map fun node => node.id) :
    dir ++ [s ++ '.' :: r.extension] = dir' ++ [s' ++ '.' :: r.extension] := by
  have key : ∀ (dir : FilePath) (s : Name), Visible ignored r.context fs (dir ++ [s ++ '.' :: r.extension]) →
      i ∈ (r.all [r.context ++ (dir ++ [s ++ '.' :: r.extension])]).map (fun node => node.id) →
      ∃ m, Stripped (s ++ '.' :: r.extension) m ∧ i = dir ++ [m] := by
    intro dir s hv h
    obtain ⟨p, hp, _, h⟩ := (mem_all r _ i).1 h
    rw [List.mem_singleton.1 hp, ← List.append_assoc, withExtension_snoc, List.append_assoc, List.append_cancel_left_eq] at h
    have hn := hv.2.2.1 (s ++ '.' :: r.extension) (by simp)
    exact ⟨_, (withExt_visible hn.1 hn.2).1 rfl, h.symm⟩
  obtain ⟨m, hm, rfl⟩ := key dir s hv h
  obtain ⟨m', hm', he⟩ := key dir' s' hv' h'
  obtain ⟨hdir, hmm⟩ := List.append_inj' he rfl
  obtain rfl : m = m' := (List.cons.inj hmm).1
  subst hdir
  congr 2
  rcases hm with ⟨hm, _⟩ | ⟨e, he1, he2⟩
  · exact absurd (by simp) hm
  rcases hm' with ⟨hm, _⟩ | ⟨e', he1', he2'⟩
  · exact absurd (by simp) hm
  -- both end with the same text, so their last dots are at the same place from the end
  have hee : e = e' := by
    have hx : ∀ (s m e : Name), '.' ∉ e → s ++ '.' :: r.extension = m ++ '.' :: e →
        rsplitDot ('.' :: r.extension) = some (('.' :: r.extension).take (('.' :: r.extension).length - (e.length + 1)), e) := by
      intro s m e he h
      have hle : e.length ≤ r.extension.length := by
        rcases Nat.lt_or_ge r.extension.length e.length with hlt | hge
        · exfalso
          have hl := congrArg List.length h
          simp only [List.length_append, List.length_cons] at hl
          have hd : (s ++ '.' :: r.extension).drop (m.length + 1) = e := by
            rw [h, show m ++ '.' :: e = (m ++ ['.']) ++ e by simp, show m.length + 1 = (m ++ ['.']).length by simp, List.drop_left]
          rw [List.drop_append_of_le_length (by omega)] at hd
          exact he (hd ▸ by simp)
        · exact hge
      have hl := congrArg List.length h
      simp only [List.length_append, List.length_cons] at hl
      have hd : '.' :: r.extension = m.drop s.length ++ '.' :: e := by
        have := congrArg (List.drop s.length) h
        rwa [List.drop_left, List.drop_append_of_le_length (by omega)] at this
      rw [hd, rsplitDot_append _ _ he]
      have : (m.drop s.length ++ '.' :: e).length - (e.length + 1) = (m.drop s.length).length := by
        simp only [List.length_append, List.length_cons]; omega
      rw [this, List.take_left]
    have := (hx s m e he1 he2).symm.trans (hx s' m e' he1' he2')
    simp only [Option.some.injEq, Prod.mk.injEq] at this
    exact this.2
  rw [he2, he2', hee]

/-! ## Concrete cases -/

/-- A file system for the examples. -/
def mixedFs : Fs where
  nodes :=
  [(["home".toList], .dir), (["home".toList, "a.md".toList], .file [1]), (["home".toList, "a.txt".toList], .file [2]),
   (["home".toList, "b.md.bak".toList], .file [3]), (["home".toList, "c.tar.gz".toList], .file [4]),
   (["home".toList, "c.tar-gz".toList], .file [5])]

/-- A walk over it. -/
def mixedWalk : List FilePath := mixedFs.nodes.map Prod.fst

theorem mixedWalk_walk : Walk (fun _ => false) ["home".toList] mixedFs mixedWalk :=
  walk_by ["home".toList] [["a.md".toList], ["a.txt".toList], ["b.md.bak".toList], ["c.tar.gz".toList], ["c.tar-gz".toList]]
    (by decide) (by decide) (by decide) (by decide) (by decide) (by decide) (by decide) (by decide)

/-- What the listing of these files is with an extension. -/
def mixedList (ext : String) : Option (List FilePath) :=
  (plot 0 ⟨["home".toList], ext.toList⟩ mixedFs mixedWalk none .list).map Ran.stdout

/-- C72: asking for two extensions at once lists a file of each as one document, which cannot be loaded. -/
theorem C72_two_extensions : mixedList "(md|txt)" = some [["a".toList]] ∧
    (⟨["home".toList], "(md|txt)".toList⟩ : LocalRepo).findById mixedFs ["a".toList] = none := by
  constructor <;> decide +kernel

/-- C72: without the parentheses the first alternative matches anywhere in the name. -/
theorem C72_unanchored : mixedList "md|txt" = some [["a".toList], ["b.md".toList]] := by decide +kernel

/-- C72: the dot of `tar.gz` also matches `-`. -/
theorem C72_wildcard : mixedList "tar.gz" = some [["c".toList], ["c.tar".toList]] := by decide +kernel

/-- `\.m+?d*|t?$`, by the grammar. -/
example : Alts (writtenExt "m+?d*|t?".toList) (.alt (.seq (.char '.') (.seq (.seq (.char 'm') (.star (.char 'm'))) (.star (.char 'd'))))
    (.seq (.alt (.char 't') .empty) .stop)) := (parse_iff _ _).1 (by decide +kernel)
example : Alts (writtenExt "m+?d*|t?".toList) (.alt (.seq (.char '.') (.seq (.seq (.char 'm') (.star (.char 'm'))) (.star (.char 'd'))))
    (.seq (.alt (.char 't') .empty) .stop)) :=
  .or (s := "\\.m+?d*".toList) (t := "t?$".toList)
    (.one (.more (s := "\\.".toList) (.atom (.escaped ((escape_char _ _).1 rfl)))
      (.more (s := "m+?".toList) (t := "d*".toList) (.lazy (s := "m+".toList) (.plus (s := "m".toList) (.atom (.literal 'm' (by decide)))))
        (.last (.star (s := "d".toList) (.atom (.literal 'd' (by decide))))) (by decide)) (by decide)))
    (.more (s := "t?".toList) (t := "$".toList) (.optional (s := "t".toList) (.atom (.literal 't' (by decide)))) (.last (.atom .stop))
      (by decide))
example : ¬ BeyondModel (writtenExt "(md".toList) ∧ ¬ ∃ re, Alts (writtenExt "(md".toList) re := by
  have h : ¬ BeyondModel (writtenExt "(md".toList) := by
    rintro (⟨a, b, h, _⟩ | ⟨a, b, h, _⟩ | ⟨a, b, h, _⟩ | ⟨a, c, b, h, hc⟩)
    · have : '[' ∈ writtenExt "(md".toList := by rw [h]; simp
      exact absurd this (by decide)
    · have : '{' ∈ writtenExt "(md".toList := by rw [h]; simp
      exact absurd this (by decide)
    · have : '?' ∈ writtenExt "(md".toList := by rw [h]; simp
      exact absurd this (by decide)
    · rcases a with _ | ⟨x, _ | ⟨y, a⟩⟩
      · cases h; exact absurd hc (by decide)
      · cases h
      · have : '\\' ∈ ("(md$".toList : List Char) := by
          have h2 : ("(md$".toList : List Char) = a ++ '\\' :: c :: b := by
            have := congrArg (List.drop 2) h
            simpa [writtenExt] using this
          rw [h2]; simp
        exact absurd this (by decide)
  exact ⟨h, (C72_not_written _ h).1 (by decide +kernel)⟩
example : mixedList "md" = some [["a".toList]] := by decide +kernel
example : extPattern "(md".toList = .invalid := by decide +kernel
example : mixedList "[mt][dx]t?" = some [["a".toList]] := by decide +kernel
example : mixedList "[^m]{3}" = some [["a".toList], ["b.md".toList]] := by decide +kernel
example : mixedList ".{4,}" = some [["b.md".toList], ["c".toList], ["c.tar".toList]] := by decide +kernel
example : extPattern "m[d-a]".toList = .invalid ∧ extPattern "m{2,1}".toList = .invalid ∧ extPattern "m[".toList = .invalid := by
  decide +kernel
example : [ExtPart.char 'm', .oneOf ['d', 'D']].flatMap ExtPart.text = "m[dD]".toList ∧
    (∀ p ∈ [ExtPart.char 'm', .oneOf ['d', 'D']], p.Simple) ∧ FitsAll [.char 'm', .oneOf ['d', 'D']] "mD".toList := by
  refine ⟨by decide, ?_, .cons rfl (.cons (.tail _ (.head _)) .nil)⟩
  intro p hp
  simp only [List.mem_cons, List.not_mem_nil, or_false] at hp
  rcases hp with rfl | rfl
  · show 'm' ∉ specialChars; decide
  · exact ⟨by decide, by decide⟩
example : Alts "[^a-z-]{2,10}".toList (Re.times (.set true [('a', 'z'), ('-', '-')]) 2 (some 10)) :=
  .one (.last (.counted (s := "[^a-z-]".toList) (t := "2,10".toList)
    (.atom (.negated (s := "a-z-".toList) (.dashes 0 (by decide)
      (.range (p := ['a']) (q := ['z']) (s := ['-']) (.plain 'a' _ (by decide) (by decide)) (.plain 'z' (by decide)) (by decide)
        (.dash (by decide) .none)) (by decide))))
    (.between (s := ['2']) (t := ['1', '0']) ⟨by decide, by decide⟩ ⟨by decide, by decide⟩ (by decide) (by decide))))
example : withBars ["md".toList, "txt".toList] = "md|txt".toList := by decide
example : mixedList "(?:md|txt)" = some [["a".toList]] := by decide +kernel
example : mixedList "\\Amd" = some [] ∧ mixedList "md\\z" = some [["a".toList]] ∧ mixedList "tar\\-g\\[?z" = some [["c".toList]] := by
  decide +kernel
example : extPattern "m\\d".toList = .unmodelled ∧ extPattern "m\\g".toList = .invalid ∧ extPattern "m\\1".toList = .invalid ∧
    extPattern "m[\\A]".toList = .invalid ∧ extPattern "m\\é".toList = .invalid ∧ extPattern "(?i)md".toList = .unmodelled := by
  decide +kernel
example : Escaped 'n' '\n' ∧ Escaped '/' '/' ∧ ¬ ∃ c, Escaped 'g' c := by
  refine ⟨.lineFeed, (escape_char _ _).1 rfl, ?_⟩
  rintro ⟨c, h⟩
  exact absurd ((escape_char _ _).2 h) (by simp [readEscape])
example : extPattern "m[[d]]".toList = .unmodelled := by decide +kernel
example : Visible (fun _ => false) ["home".toList] mixedFs ([] ++ ["c".toList ++ '.' :: ("tar".toList ++ '.' :: "gz".toList)]) :=
  ⟨by decide, ⟨["home".toList], .file [4], ⟨by decide, finds_of (by decide) (by decide)⟩, by decide⟩, by decide, rfl⟩
example : (⟨["home".toList], "tar.gz".toList⟩ : LocalRepo).findById mixedFs ["c.tar".toList] =
    some ⟨["home".toList, "c.tar.gz".toList], [4]⟩ := by decide +kernel
example : DottedExt "tar.gz".toList := ⟨by decide, by decide⟩
example : Looks "tar.gz".toList "tar-gz".toList :=
  .same 't' (.same 'a' (.same 'r' (.wild '-' (by decide) (.same 'g' (.same 'z' .nil)))))

end Plotline
