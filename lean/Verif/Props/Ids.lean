import Verif.Props.Confine

/-! # Properties C75 and C76: ids given on the command line -/

namespace Plotline

open Std

/-! ## Parsing -/

theorem splitSlash_ne_nil (s : List Char) : splitSlash s ≠ [] := by
  cases s with
  | nil => simp [splitSlash]
  | cons c s =>
    simp only [splitSlash]
    split
    · simp
    · split <;> simp

theorem splitSlash_name {n : Name} (h : '/' ∉ n) : splitSlash n = [n] := by
  induction n with
  | nil => rfl
  | cons c n ih =>
    simp only [List.mem_cons, not_or] at h
    simp only [splitSlash, Ne.symm h.1, if_false, ih h.2]

theorem splitSlash_append {n : Name} (h : '/' ∉ n) (s : List Char) : splitSlash (n ++ '/' :: s) = n :: splitSlash s := by
  induction n with
  | nil => simp [splitSlash]
  | cons c n ih =>
    simp only [List.mem_cons, not_or] at h
    simp only [List.cons_append, splitSlash, Ne.symm h.1, if_false, ih h.2]

/-- Every string is a name, or a name, a separator and more. -/
theorem split_cases (s : List Char) : '/' ∉ s ∨ ∃ n s', '/' ∉ n ∧ s = n ++ '/' :: s' := by
  induction s with
  | nil => exact .inl (by simp)
  | cons c s ih =>
    by_cases hc : c = '/'
    · exact .inr ⟨[], s, by simp, by simp [hc]⟩
    · rcases ih with h | ⟨n, s', h1, h2⟩
      · exact .inl (by simpa using ⟨fun e => hc e.symm, h⟩)
      · exact .inr ⟨c :: n, s', by simpa using ⟨fun e => hc e.symm, h1⟩, by simp [h2]⟩

theorem name_cases (n : Name) : n = [] ∨ n = dot ∨ (n ≠ [] ∧ n ≠ dot) := by
  by_cases h1 : n = []
  · exact .inl h1
  · by_cases h2 : n = dot
    · exact .inr (.inl h2)
    · exact .inr (.inr ⟨h1, h2⟩)

theorem rest_spells (s : List Char) (p : FilePath) :
    SpellsRest s p ↔ ((splitSlash s).filter fun n => n ≠ [] ∧ n ≠ dot) = p := by
  constructor
  · intro h
    induction h with
    | nil => rfl
    | slash _ ih => simpa [splitSlash] using ih
    | dot => rfl
    | @dotSlash s p _ ih =>
      rw [show ('.' :: '/' :: s) = dot ++ '/' :: s from rfl, splitSlash_append (by decide)]
      simpa using ih
    | last h1 h2 h3 => rw [splitSlash_name h3]; simp [h1, h2]
    | name h1 h2 h3 _ ih => rw [splitSlash_append h3]; simpa [h1, h2] using ih
  · rintro rfl
    generalize hl : s.length = l
    induction l using Nat.strongRecOn generalizing s with
    | _ l ih =>
      subst hl
      rcases split_cases s with h | ⟨n, s', h1, rfl⟩
      · rw [splitSlash_name h]
        rcases name_cases s with rfl | rfl | ⟨h1, h2⟩
        · exact .nil
        · exact .dot
        · simpa [h1, h2] using SpellsRest.last h1 h2 h
      · have := ih s'.length (by simp; omega) s' rfl
        rw [splitSlash_append h1]
        rcases name_cases n with rfl | rfl | ⟨h2, h3⟩
        · simpa using this.slash
        · simpa [dot] using this.dotSlash
        · simpa [h2, h3] using SpellsRest.name h2 h3 h1 this

/-- C75: which strings stand for which path. -/
theorem C75_spelling (s : List Char) (p : FilePath) : Spells s p ↔ parsePath s = p := by
  constructor
  · intro h
    cases h with
    | empty => rfl
    | root h => simpa [parsePath, splitSlash] using (rest_spells _ _).1 h
    | last h1 h2 => simp [parsePath, splitSlash_name h2, h1]
    | name h1 h2 h3 => simpa [parsePath, splitSlash_append h2, h1] using (rest_spells _ _).1 h3
  · rintro rfl
    rcases split_cases s with h | ⟨n, s', h1, rfl⟩
    · by_cases hs : s = []
      · subst hs; exact .empty
      · simpa [parsePath, splitSlash_name h, hs] using Spells.last hs h
    · have := (rest_spells s' _).2 rfl
      by_cases hn : n = []
      · subst hn
        simpa [parsePath, splitSlash] using Spells.root this
      · simpa [parsePath, splitSlash_append h1, hn] using Spells.name hn h1 this

/-- C75: every argument stands for exactly one path. -/
theorem C75_one_path (s : List Char) : ∃ p, Spells s p ∧ ∀ q, Spells s q → q = p :=
  ⟨parsePath s, (C75_spelling s _).2 rfl, fun _ h => ((C75_spelling s _).1 h).symm⟩

/-- C75: arguments that stand for the same path do the same. -/
theorem C75_same (fuel : Nat) (r : LocalRepo) (fs : Fs) (walked : List FilePath) (c : Subcommand) (s s' : List Char) (p : FilePath)
    (h : Spells s p) (h' : Spells s' p) : plotDoc fuel r fs walked (some s) c = plotDoc fuel r fs walked (some s') c := by
  unfold plotDoc
  rw [Option.map_some, Option.map_some, (C75_spelling s p).1 h, (C75_spelling s' p).1 h']

/-- C75: `save` with an argument changes the node of its path and no other. -/
theorem C75_save (fs : Fs) (r : LocalRepo) (hr : ∃ re, extPattern r.extension = .ok re) (walked : List FilePath) (s : List Char)
    (p : FilePath) (h : Spells s p) (content : Option Bytes) :
    ∃ fuel0 ran, (∀ fuel, fuel0 ≤ fuel → plotDoc fuel r fs walked (some s) (.save content) = some ran) ∧
      ran.result = .ret (.ok ()) ∧
      ∀ q, ran.schema.guard.get q = if q = p then some ⟨p, some ⟨p, content.getD []⟩⟩ else (r.schema walked).guard.get q := by
  obtain ⟨fuel0, ran, h1, h2, _, h3⟩ := C59_save fs r hr walked p content
  refine ⟨fuel0, ran, fun fuel hf => ?_, h2, h3⟩
  rw [← h1 fuel hf, plotDoc, Option.map_some, (C75_spelling s p).1 h]

/-- C75: `delete` with an argument succeeds exactly if its path is listed. -/
theorem C75_delete (fs : Fs) (r : LocalRepo) (hr : ∃ re, extPattern r.extension = .ok re) (walked : List FilePath) (s : List Char)
    (p : FilePath) (h : Spells s p) :
    ∃ fuel0 ran, (∀ fuel, fuel0 ≤ fuel → plotDoc fuel r fs walked (some s) .delete = some ran) ∧
      (ran.result = .ret (.ok ()) ↔ p ∈ (r.schema walked).guard.iter.map fun node => node.id) := by
  obtain ⟨fuel0, ran, h1, _, h2⟩ := C59_delete fs r hr walked p
  refine ⟨fuel0, ran, fun fuel hf => ?_, ?_⟩
  · rw [← h1 fuel hf, plotDoc, Option.map_some, (C75_spelling s p).1 h]
  · rcases h2 with ⟨h3, h4, _⟩ | ⟨h3, h4, _⟩
    · exact ⟨fun _ => h3, fun _ => h4⟩
    · rw [h4]
      exact ⟨fun h => (by cases h), fun h => absurd h h3⟩

example : Spells "x//./a/".toList ["x".toList, "a".toList] := (C75_spelling _ _).2 (by decide +kernel)
example : (plotDoc 20 homeRepo homeFs homeWalk (some "x//./a/".toList) .delete).map Ran.result = some (.ret (.ok ())) := by
  decide +kernel

/-! ## C76 -/

/-- C76: an id that starts with `./` loads what the rest of it loads. -/
theorem C76_dot (r : LocalRepo) (hc : r.context ≠ []) (fs : Fs) (i : FilePath) (hi : Relative i) :
    r.findById fs (dot :: i) = r.findById fs i := by
  have : joinPath r.context (dot :: i) = joinPath r.context i := by
    rw [joinPath_relative hi, joinPath, if_neg (by simp [dot]), if_pos ⟨rfl, hc⟩]; rfl
  unfold LocalRepo.findById
  simp only [this]

/-- C76, on ids that start and end with the name of something: exactly when two load the same path. They may differ in what
follows the last dot. Missing from C76: that they are the same id (`C76_refuted`); other ids (`C76_all_partial`). -/
theorem C76_iff_partial (r : LocalRepo) (he : r.extension ≠ []) (fs : Fs) (dir dir' : FilePath) (hdir : Relative dir)
    (hdir' : Relative dir') (n n' : Name) (hn : n ≠ []) (hd : n.head? ≠ some '.') (hn' : n' ≠ []) (hd' : n'.head? ≠ some '.')
    (d d' : Document) (h : r.findById fs (dir ++ [n]) = some d) (h' : r.findById fs (dir' ++ [n']) = some d') :
    d.path = d'.path ↔ dir = dir' ∧ ∃ m, Stripped n m ∧ Stripped n' m := by
  obtain ⟨m, hm, h1⟩ := C72_load_literal r he fs dir hdir n hn hd
  obtain ⟨m', hm', h1'⟩ := C72_load_literal r he fs dir' hdir' n' hn' hd'
  rw [h1] at h
  rw [h1'] at h'
  obtain ⟨_, _, rfl⟩ := Option.map_eq_some_iff.1 h
  obtain ⟨_, _, rfl⟩ := Option.map_eq_some_iff.1 h'
  constructor
  · intro heq
    obtain ⟨e1, e2⟩ := List.append_inj' (List.append_cancel_left heq) rfl
    simp only [List.cons.injEq, and_true] at e2
    obtain rfl : m = m' := List.append_cancel_right e2
    exact ⟨e1, m, hm, hm'⟩
  · rintro ⟨rfl, k, hk, hk'⟩
    have e1 : m = k := by rw [← (withExt_visible hn hd).2 hm, ← (withExt_visible hn hd).2 hk]
    have e2 : m' = k := by rw [← (withExt_visible hn' hd').2 hm', ← (withExt_visible hn' hd').2 hk']
    rw [e1, e2]

/-- C76 for ids whose last name has no dot. -/
theorem C76_no_dots_partial (r : LocalRepo) (he : r.extension ≠ []) (fs : Fs) (dir dir' : FilePath) (hdir : Relative dir)
    (hdir' : Relative dir') (n n' : Name) (hn : n ≠ []) (hd : '.' ∉ n) (hn' : n' ≠ []) (hd' : '.' ∉ n')
    (d d' : Document) (h : r.findById fs (dir ++ [n]) = some d) (h' : r.findById fs (dir' ++ [n']) = some d')
    (heq : d.path = d'.path) : dir ++ [n] = dir' ++ [n'] := by
  have hh : ∀ {n : Name}, '.' ∉ n → n.head? ≠ some '.' := by
    intro n h e
    cases n with
    | nil => cases e
    | cons c n => exact h (by simp only [List.head?_cons, Option.some.injEq] at e; simp [e])
  obtain ⟨rfl, m, h1, h2⟩ := (C76_iff_partial r he fs dir dir' hdir hdir' n n' hn (hh hd) hn' (hh hd') d d' h h').1 heq
  have hs : ∀ {n : Name}, '.' ∉ n → Stripped n m → m = n := by
    rintro n h (⟨_, rfl⟩ | ⟨e, _, rfl⟩)
    · rfl
    · exact absurd (by simp) h
  rw [← hs hd h1, ← hs hd' h2]

theorem under_join (ctx i : FilePath) : Under ctx i (joinPath ctx i) := by
  cases i with
  | nil => exact .below ⟨by simp, by simp⟩
  | cons n i =>
    rcases name_cases n with rfl | rfl | ⟨h1, h2⟩
    · exact .absolute i
    · by_cases hc : ctx = []
      · rw [joinPath, if_neg (by simp [dot]), if_neg (by simp [hc]), hc]; exact .bare i rfl
      · rw [joinPath, if_neg (by simp [dot]), if_pos ⟨rfl, hc⟩]; exact .dot i hc
    · have hr : Relative (n :: i) := ⟨by simpa using h1, by simpa using h2⟩
      rw [joinPath_relative hr]
      exact .below hr

theorem Under.join {ctx i p : FilePath} (h : Under ctx i p) : joinPath ctx i = p := by
  cases h with
  | absolute i => rfl
  | below h => exact joinPath_relative h
  | dot i hc => rw [joinPath, if_neg (by simp), if_pos ⟨rfl, hc⟩]; rfl
  | bare i hc => rw [joinPath, if_neg (by simp), if_neg (by simp [hc]), hc]; rfl

theorem fileStem_dotted {m : Name} (h : m ≠ []) (hd : m ≠ dot) : fileStem (m ++ ['.']) = m := by
  have h1 : m ++ ['.'] ≠ dotdot := by
    intro e
    exact hd (List.append_inj' (s₂ := ['.']) (t₁ := ['.']) e rfl).1
  unfold fileStem
  simp [h1, rsplitDot_append m [] (by simp), h]

/-- What becomes of the last name of a path, by its stem. -/
theorem withExt_stem {n m ext : Name} (h : Stem n m) (he : ext ≠ []) :
    withExt n ext = if m = dot then dotdot else m ++ '.' :: ext := by
  obtain ⟨h1, h2, ⟨h3, rfl⟩ | ⟨hm, e, h3, rfl⟩⟩ := h
  · have hnd : m ≠ dotdot := by rintro rfl; exact h3 (by decide)
    have hext : extensionOf m = none ∧ fileStem m = m := by
      cases hs : rsplitDot m with
      | none => simp [extensionOf, fileStem, hs]
      | some ba =>
        obtain ⟨b, a⟩ := ba
        obtain ⟨rfl, _⟩ := rsplitDot_some hs
        cases b with
        | nil =>
          rw [List.nil_append] at hs
          simp [extensionOf, fileStem, hs]
        | cons c b => exact absurd (by simp) h3
    have : ¬ m = dot := h2
    simp [withExt, hnd, h1, this, hext.1, setExt, hext.2, he]
  · by_cases hd : m = dot
    · subst hd
      simp only [if_true]
      by_cases he' : e = []
      · subst he'; rfl
      · have hnd : dot ++ '.' :: e ≠ dotdot := by intro h; exact he' (by simpa [dot, dotdot] using h)
        have hex : extensionOf (dot ++ '.' :: e) = some e := by
          simp [extensionOf, hnd, rsplitDot_append dot e h3]; simp [dot]
        simp only [withExt, hnd, if_false, hex]
        rw [if_neg (by simp [dot])]
        have : (dot ++ '.' :: e).take ((dot ++ '.' :: e).length - e.length) = dotdot := by
          simp only [dot, List.length_append, List.length_cons, List.length_nil]
          rw [show 0 + 1 + (e.length + 1) - e.length = 2 by omega]; rfl
        rw [this]; simp [setExt]
    · have hnd : m ++ '.' :: e ≠ dotdot := by
        intro h
        have hl := congrArg List.length h
        match m, hm with
        | [c], _ =>
          simp only [dotdot, List.cons_append, List.nil_append, List.cons.injEq] at h
          exact hd (by rw [h.1]; rfl)
        | c :: c' :: m, _ => simp [dotdot] at hl
      have hex : extensionOf (m ++ '.' :: e) = some e := by
        simp [extensionOf, hnd, rsplitDot_append m e h3, hm]
      have hnl : ¬ (m ++ '.' :: e = [] ∨ m ++ '.' :: e = dot) := fun h => h.elim h1 h2
      have htake : (m ++ '.' :: e).take ((m ++ '.' :: e).length - e.length) = m ++ ['.'] := by
        rw [show m ++ '.' :: e = (m ++ ['.']) ++ e by simp, List.length_append, Nat.add_sub_cancel, List.take_left]
      have hmd : m ++ ['.'] ≠ dotdot := fun h => hd (List.append_inj' (s₂ := ['.']) (t₁ := ['.']) h rfl).1
      simp only [withExt, hnd, if_false, hnl, hex, htake, setExt, hmd, fileStem_dotted hm hd, he, hd]

theorem stem_exists {n : Name} (h1 : n ≠ []) (h2 : n ≠ dot) : ∃ m, Stem n m := by
  by_cases h : '.' ∈ n.tail
  · cases hs : rsplitDot n with
    | none => exact absurd (List.mem_of_mem_tail h) (rsplitDot_none.1 hs)
    | some ba =>
      obtain ⟨b, a⟩ := ba
      obtain ⟨rfl, ha⟩ := rsplitDot_some hs
      cases b with
      | nil => exact absurd h ha
      | cons c b => exact ⟨c :: b, h1, h2, .inr ⟨by simp, a, ha, rfl⟩⟩
  · exact ⟨n, h1, h2, .inl ⟨h, rfl⟩⟩

theorem stem_length {m ext : Name} (hm : m ≠ []) (he : ext ≠ []) : 3 ≤ (m ++ '.' :: ext).length := by
  cases m with
  | nil => exact absurd rfl hm
  | cons c m => cases ext with
    | nil => exact absurd rfl he
    | cons d ext => simp; omega

theorem Stem.ne_nil {n m : Name} (h : Stem n m) : m ≠ [] := by
  obtain ⟨h1, _, ⟨_, rfl⟩ | ⟨hm, _⟩⟩ := h
  · exact h1
  · exact hm

/-- The last names of two paths, with the extension. -/
theorem withExt_inj {n n' ext : Name} (he : ext ≠ []) :
    withExt n ext = withExt n' ext ↔ n = n' ∨ ∃ m, Stem n m ∧ Stem n' m := by
  constructor
  · intro h
    have special : ∀ {n : Name}, n = [] ∨ n = dot → withExt n ext = n ∧ n.length < 2 := by
      rintro n (rfl | rfl) <;> exact ⟨rfl, by decide⟩
    have long : ∀ {n m : Name}, Stem n m → 2 ≤ (withExt n ext).length := by
      intro n m hs
      rw [withExt_stem hs he]
      split
      · exact Nat.le_refl 2
      · exact Nat.le_of_succ_le (stem_length hs.ne_nil he)
    have split : ∀ n : Name, (n = [] ∨ n = dot) ∨ ∃ m, Stem n m := by
      intro n
      by_cases h : n = [] ∨ n = dot
      · exact .inl h
      · exact .inr (stem_exists (fun e => h (.inl e)) (fun e => h (.inr e)))
    rcases split n with hn | ⟨m, hm⟩ <;> rcases split n' with hn' | ⟨m', hm'⟩
    · rw [(special hn).1, (special hn').1] at h; exact .inl h
    · have := long hm'; rw [← h, (special hn).1] at this; have := (special hn).2; omega
    · have := long hm; rw [h, (special hn').1] at this; have := (special hn').2; omega
    · rw [withExt_stem hm he, withExt_stem hm' he] at h
      have hl := stem_length hm.ne_nil he
      have hl' := stem_length hm'.ne_nil he
      by_cases h1 : m = dot <;> by_cases h2 : m' = dot
      · exact .inr ⟨dot, h1 ▸ hm, h2 ▸ hm'⟩
      · rw [if_pos h1, if_neg h2] at h; rw [← h] at hl'; simp [dotdot] at hl'
      · rw [if_neg h1, if_pos h2] at h; rw [h] at hl; simp [dotdot] at hl
      · rw [if_neg h1, if_neg h2] at h
        obtain rfl := List.append_cancel_right h
        exact .inr ⟨m, hm, hm'⟩
  · rintro (rfl | ⟨m, h, h'⟩)
    · rfl
    · rw [withExt_stem h he, withExt_stem h' he]

/-- C76, for all ids: exactly when two load the same path. They stand for the same path under the context, or for paths whose last
names have the same stem. Missing from C76: that they are the same id (`C76_refuted`). -/
theorem C76_all_partial (r : LocalRepo) (he : r.extension ≠ []) (fs : Fs) (i i' : FilePath) (d d' : Document)
    (h : r.findById fs i = some d) (h' : r.findById fs i' = some d') :
    ∃ p p', (∀ q, Under r.context i q ↔ q = p) ∧ (∀ q, Under r.context i' q ↔ q = p') ∧
      (d.path = d'.path ↔ p = p' ∨ ∃ dir n n' m, p = dir ++ [n] ∧ p' = dir ++ [n'] ∧ Stem n m ∧ Stem n' m) := by
  have unique : ∀ i q, Under r.context i q ↔ q = joinPath r.context i := fun i q =>
    ⟨fun h => h.join.symm, fun h => h ▸ under_join _ _⟩
  refine ⟨_, _, unique i, unique i', ?_⟩
  obtain ⟨_, _, rfl⟩ := Option.map_eq_some_iff.1 h
  obtain ⟨_, _, rfl⟩ := Option.map_eq_some_iff.1 h'
  generalize joinPath r.context i = p
  generalize joinPath r.context i' = p'
  show withExtension p r.extension = withExtension p' r.extension ↔ _
  constructor
  · intro heq
    have hl := congrArg List.length heq
    rw [withExtension_length, withExtension_length] at hl
    rcases List.eq_nil_or_concat p with rfl | ⟨q, n, rfl⟩
    · exact .inl (List.eq_nil_of_length_eq_zero hl.symm).symm
    · rcases List.eq_nil_or_concat p' with rfl | ⟨q', n', rfl⟩
      · simp at hl
      · rw [List.concat_eq_append, List.concat_eq_append] at *
        rw [withExtension_snoc, withExtension_snoc] at heq
        obtain ⟨rfl, e⟩ := List.append_inj' heq rfl
        simp only [List.cons.injEq, and_true] at e
        rcases (withExt_inj he).1 e with rfl | ⟨m, h1, h2⟩
        · exact .inl rfl
        · exact .inr ⟨q, n, n', m, rfl, rfl, h1, h2⟩
  · rintro (rfl | ⟨dir, n, n', m, rfl, rfl, h1, h2⟩)
    · rfl
    · rw [withExtension_snoc, withExtension_snoc, (withExt_inj he).2 (.inr ⟨m, h1, h2⟩)]

/-- The absolute id and the one with `./` and another extension stand for paths with the same stem. -/
example : Under ["home".toList] (parsePath "./b.txt".toList) ["home".toList, "b.txt".toList] ∧ Stem "b.txt".toList "b".toList ∧
    Stem ".b.txt".toList ".b".toList ∧ Stem ".b".toList ".b".toList ∧ ¬ Stem ".b".toList [] := by
  refine ⟨.dot _ (by simp), ⟨by decide, by decide, .inr ⟨by decide, "txt".toList, by decide, rfl⟩⟩,
    ⟨by decide, by decide, .inr ⟨by decide, "txt".toList, by decide, rfl⟩⟩, ⟨by decide, by decide, .inl ⟨by decide, rfl⟩⟩, ?_⟩
  exact fun h => h.ne_nil rfl
example : withExt "..b".toList "md".toList = "..".toList := by decide

/-- C76 is false of the code: `b`, `./b` and `b.txt` load the same file, with `b` listed; `plot doc ./b delete` reports that there is
nothing to do, and after saving `./b` there are two nodes. -/
theorem C76_refuted : homeRepo.findById homeFs ["b".toList] = some ⟨["home".toList, "b.md".toList], [1]⟩ ∧
    homeRepo.findById homeFs (parsePath "./b".toList) = homeRepo.findById homeFs ["b".toList] ∧
    homeRepo.findById homeFs (parsePath "b.txt".toList) = homeRepo.findById homeFs ["b".toList] ∧
    (plotDoc 20 homeRepo homeFs homeWalk none .list).map Ran.stdout = some [["b".toList], ["x".toList, "a".toList]] ∧
    (plotDoc 20 homeRepo homeFs homeWalk (some "./b".toList) .delete).map Ran.result = some (.ret (.error (.schema .noop))) ∧
    (plotDoc 20 homeRepo homeFs homeWalk (some "./b".toList) (.save none)).map
      (fun r => (r.schema.guard.iter.map fun n => n.id : List FilePath)) =
      some [[".".toList, "b".toList], ["b".toList], ["x".toList, "a".toList]] := by
  refine ⟨by decide +kernel, by decide +kernel, by decide +kernel, by decide +kernel, by decide +kernel, by decide +kernel⟩

end Plotline
