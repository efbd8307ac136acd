import Verif.Props.Extension

/-! # Property C73: which files can be read by loading a document -/

namespace Plotline

open Std

/-! ## Where paths lead -/

theorem fileStem_ne_nil {n : Name} (h : n ≠ []) : fileStem n ≠ [] := by
  unfold fileStem
  split
  · exact h
  · split
    · exact h
    · split <;> assumption

theorem setExt_ne_nil {n : Name} (e : Name) (h : n ≠ []) : setExt n e ≠ [] := by
  unfold setExt
  split
  · exact h
  · simp [fileStem_ne_nil h]

theorem withExt_dot {n : Name} (e : Name) (h : n ≠ dot) : withExt n e ≠ dot := by
  unfold withExt
  split
  · exact h
  rename_i hdd
  split
  · exact h
  rename_i hn
  simp only [not_or] at hn
  unfold extensionOf
  have hlast : ∀ (b : Name), b ≠ [] → setExt (b ++ ['.']) e ≠ dot := by
    intro b hb heq
    unfold setExt at heq
    split at heq
    · have := congrArg List.length heq
      cases b with
      | nil => exact hb rfl
      | cons => simp [dot] at this
    · rename_i hne
      rw [fileStem, if_neg hne, rsplitDot_append b [] (by simp)] at heq
      simp only [hb, if_false] at heq
      have hl := congrArg List.length heq
      simp only [List.length_append, dot, List.length_cons, List.length_nil] at hl
      have : b.length ≠ 0 := fun h => hb (List.eq_nil_of_length_eq_zero h)
      have hb1 : b.length = 1 := by omega
      have he : (if e = [] then [] else '.' :: e : Name) = [] := List.eq_nil_of_length_eq_zero (by omega)
      rw [he, List.append_nil] at heq
      exact hne (by rw [heq]; rfl)
  simp only [hdd, if_false]
  cases hr : rsplitDot n with
  | none =>
    dsimp only
    intro heq
    rw [setExt, if_neg hdd, fileStem, if_neg hdd, hr] at heq
    dsimp only at heq
    have hnd := rsplitDot_none.1 hr
    cases n with
    | nil => exact hn.1 rfl
    | cons c t =>
      have : c = '.' := by simpa [dot] using congrArg List.head? heq
      exact hnd (by simp [this])
  | some q =>
    obtain ⟨b, a⟩ := q
    obtain ⟨rfl, ha⟩ := rsplitDot_some hr
    by_cases hb : b = []
    · subst hb
      simp only [if_true]
      intro heq
      rw [setExt, if_neg hdd, fileStem, if_neg hdd, hr] at heq
      simp only [if_true] at heq
      have hl := congrArg List.length heq
      simp only [List.length_append, dot, List.length_cons, List.length_nil] at hl
      have : a = [] := List.eq_nil_of_length_eq_zero (by omega)
      exact h (by rw [this]; rfl)
    · simp only [hb, if_false, take_ext]
      exact hlast b hb

theorem withExt_ne_nil {n : Name} (e : Name) (h : n ≠ []) : withExt n e ≠ [] := by
  unfold withExt
  split
  · exact h
  split
  · exact h
  split
  · exact setExt_ne_nil e h
  · rename_i previous hp
    apply setExt_ne_nil
    unfold extensionOf at hp
    split at hp
    · cases hp
    split at hp
    · cases hp
    rename_i b a hr
    split at hp
    · cases hp
    cases hp
    obtain ⟨rfl, _⟩ := rsplitDot_some hr
    rw [take_ext]; simp

theorem withExtension_cons (n : Name) {p : FilePath} (e : Name) (h : p ≠ []) : withExtension (n :: p) e = n :: withExtension p e := by
  rcases List.eq_nil_or_concat p with rfl | ⟨q, m, rfl⟩
  · exact absurd rfl h
  · rw [List.concat_eq_append, ← List.cons_append, withExtension_snoc, withExtension_snoc, List.cons_append]

theorem withExtension_append (q : FilePath) {p : FilePath} (e : Name) (h : p ≠ []) : withExtension (q ++ p) e = q ++ withExtension p e := by
  induction q with
  | nil => rfl
  | cons n q ih => rw [List.cons_append, withExtension_cons n e (by simp [h]), ih]; rfl

theorem Stays.ne_nil {k : Nat} {p : FilePath} (h : Stays k p) : p ≠ [] := by cases h <;> simp

theorem Stays.relative {p : FilePath} (h : Stays 0 p) : Relative p := by
  cases h with
  | last h => simpa [Relative] using ⟨h.1, h.2.2⟩
  | down h => simpa [Relative] using ⟨h.1, h.2.2⟩

theorem withExtension_ne_nil {p : FilePath} (e : Name) (h : p ≠ []) : withExtension p e ≠ [] := by
  intro h'
  have := congrArg List.length h'
  rw [withExtension_length] at this
  exact h (List.eq_nil_of_length_eq_zero this)

theorem stays_leads {fs : Fs} (hf : fs.Closed) (e : Name) (root : List Name)
    (hl : ∀ rel target, rel ≠ [] → fs.at (root ++ rel) ≠ some (.link target)) {k : Nat} {p : FilePath} (h : Stays k p) :
    ∀ rel : FilePath, rel.length = k → (∀ n ∈ rel, Plain n) → fs.Dir (root ++ rel) → ∀ q bytes j,
      Leads fs (root ++ rel) (withExtension p e) q j → fs.at q = some (.file bytes) →
        ∃ rel', rel' ≠ [] ∧ (∀ n ∈ rel', Plain n) ∧ q = root ++ rel' := by
  induction h with
  | @last k n hn =>
    intro rel hk hr hd q bytes j hq hb
    rw [show ([n] : FilePath) = [] ++ [n] from rfl, withExtension_snoc, List.nil_append] at hq
    have hne := withExt_ne_nil e hn.1
    have hnd := withExt_dot e hn.2.2
    generalize withExt n e = m at hq hne hnd
    have fin : m ≠ dotdot → ∃ rel', rel' ≠ [] ∧ (∀ n ∈ rel', Plain n) ∧ root ++ rel ++ [m] = root ++ rel' := by
      intro hdd
      refine ⟨rel ++ [m], by simp, ?_, by simp⟩
      intro x hx
      rcases List.mem_append.1 hx with hx | hx
      · exact hr x hx
      · rw [List.mem_singleton.1 hx]; exact ⟨hne, hdd, hnd⟩
    cases hq with
    | root => exact absurd rfl hne
    | dot => exact absurd rfl hnd
    | up h =>
      cases h
      rcases hf.up hd with h | h
      · rw [h] at hb
        obtain ⟨_, _, h', _⟩ := hf.2.1 _ (at_mem hb)
        simp at h'
      · rw [h] at hb; cases hb
    | dir _ ha h => cases h; rw [ha] at hb; cases hb
    | link _ ha => rw [List.append_assoc] at ha; exact absurd ha (hl _ _ (by simp))
    | last hp _ _ => exact fin hp.2.1
  | @down k n p hn hp ih =>
    intro rel hk hr hd q bytes j hq hb
    rw [withExtension_cons n e hp.ne_nil] at hq
    have hw := withExtension_ne_nil e hp.ne_nil
    replace ih := fun rel h1 h2 h3 q b j => ih rel h1 h2 h3 q b j
    generalize withExtension p e = w at hq hw ih
    cases hq with
    | root => exact absurd rfl hn.1
    | dot => exact absurd rfl hn.2.2
    | up => exact absurd rfl hn.2.1
    | dir _ ha h =>
      rw [List.append_assoc] at h ha
      refine ih (rel ++ [n]) (by simp [hk]) ?_ (.inr ha) q bytes j h hb
      intro m hm
      rcases List.mem_append.1 hm with hm | hm
      · exact hr m hm
      · rw [List.mem_singleton.1 hm]; exact hn
    | link _ ha => rw [List.append_assoc] at ha; exact absurd ha (hl _ _ (by simp))
    | last => exact absurd rfl hw
  | @up k p hp ih =>
    intro rel hk hr hd q bytes j hq hb
    rw [withExtension_cons dotdot e hp.ne_nil] at hq
    rcases List.eq_nil_or_concat rel with rfl | ⟨rel', n, rfl⟩
    · cases hk
    · rw [List.concat_eq_append] at *
      have hup := hf.up hd
      rw [← List.append_assoc, List.dropLast_concat] at hup
      generalize withExtension p e = w at hq ih
      cases hq with
      | up h =>
        rw [← List.append_assoc, List.dropLast_concat] at h
        exact ih rel' (by simpa using hk) (fun m hm => hr m (by simp [hm])) hup q bytes j h hb
      | dir hn => exact absurd rfl hn.2.1
      | link hn => exact absurd rfl hn.2.1
      | last hn => exact absurd rfl hn.2.1

/-- What is read beyond a directory. -/
theorem read_beyond {fs : Fs} (hf : fs.Closed) {ctx : FilePath} {root : List Name} {k : Nat} (h : Leads fs fs.cwd ctx root k)
    (hd : fs.Dir root) {q : FilePath} (hq : q ≠ []) (b : Bytes) :
    fs.read (ctx ++ q) = some b ↔ ∃ there j, k + j ≤ maxLinks ∧ Leads fs root q there j ∧ fs.at there = some (.file b) := by
  rw [read_iff]
  constructor
  · rintro ⟨there, ⟨n, hn, hl⟩, hb⟩
    obtain ⟨mid, a, c, h1, _, h2, rfl⟩ := hl.split hf _ _ rfl hq hf.cwd
    obtain rfl := h1.unique h
    obtain rfl := h1.same_links h
    exact ⟨there, c, hn, h2, hb⟩
  · rintro ⟨there, j, hj, h2, hb⟩
    exact ⟨there, ⟨_, hj, h.append (hd.elim .inl fun h => .inr (.inl h)) h2⟩, hb⟩

theorem findById_bytes (r : LocalRepo) (fs : Fs) {i : FilePath} (hi : Relative i) (hi' : i ≠ []) :
    (r.findById fs i).map Document.bytes = fs.read (r.context ++ withExtension i r.extension) := by
  unfold LocalRepo.findById
  simp only [joinPath_relative hi, withExtension_append _ _ hi', Option.map_map]
  cases fs.read (r.context ++ withExtension i r.extension) <;> rfl

/-! ## C73 -/

/-- C73 for every id that ends with a name and does not leave the context on its way: what is loaded is a file under the directory
the context leads to, unless there are links under it.
Missing from C73: links (`C73_link`) and other ids (`C73_refuted`), of which `C73_absolute`, `C73_parent` and `C73_empty` say what
they load. -/
theorem C73_confined_partial (r : LocalRepo) (fs : Fs) (hf : fs.Closed) (i : FilePath) (hi : Stays 0 i) (d : Document)
    (h : r.findById fs i = some d) :
    ∃ root k, Leads fs fs.cwd r.context root k ∧ ((∀ rel target, rel ≠ [] → fs.at (root ++ rel) ≠ some (.link target)) →
      ∃ rel, rel ≠ [] ∧ (∀ n ∈ rel, Plain n) ∧ (root ++ rel, .file d.bytes) ∈ fs.nodes) := by
  have h1 := findById_bytes r fs hi.relative hi.ne_nil
  rw [h] at h1
  obtain ⟨q, ⟨n, _, hl⟩, hb⟩ := read_iff.1 h1.symm
  obtain ⟨root, k, j, h2, hd, h3, _⟩ := hl.split hf _ _ rfl (withExtension_ne_nil _ hi.ne_nil) hf.cwd
  refine ⟨root, k, h2, fun hlinks => ?_⟩
  obtain ⟨rel, h4, h5, rfl⟩ := stays_leads hf r.extension root hlinks hi [] rfl (by simp) (by simpa using hd) q _ j
    (by simpa using h3) hb
  exact ⟨rel, h4, h5, at_mem hb⟩

/-- C73: through a link in the context an id loads what its target leads to from there, wherever that is. -/
theorem C73_link (r : LocalRepo) (fs : Fs) (hf : fs.Closed) (root : List Name) (k : Nat) (hr : Leads fs fs.cwd r.context root k)
    (hd : fs.Dir root) (n : Name) (hn : Plain n) (target : FilePath) (ha : fs.at (root ++ [n]) = some (.link target))
    (i : FilePath) (hi : i ≠ []) (bytes : Bytes) :
    (r.findById fs (n :: i)).map Document.bytes = some bytes ↔
      ∃ there j, k + 1 + j ≤ maxLinks ∧ Leads fs root (target ++ withExtension i r.extension) there j ∧
        fs.at there = some (.file bytes) := by
  rw [findById_bytes r fs (by simpa [Relative] using ⟨hn.1, hn.2.2⟩) (by simp), withExtension_cons n _ hi,
    read_beyond hf hr hd (by simp)]
  generalize withExtension i r.extension = w
  constructor
  · rintro ⟨there, j, h1, h2, h3⟩
    cases h2 with
    | root => exact absurd rfl hn.1
    | dot => exact absurd rfl hn.2.2
    | up => exact absurd rfl hn.2.1
    | dir _ ha' => rw [ha] at ha'; cases ha'
    | last _ ha' hx => rw [ha] at ha'; exact absurd (Option.some.inj ha').symm (hx _)
    | @link _ _ _ t _ j _ ha' h =>
      rw [ha] at ha'
      cases ha'
      exact ⟨there, j, by omega, h, h3⟩
  · rintro ⟨there, j, h1, h2, h3⟩
    exact ⟨there, j + 1, by omega, .link hn ha h2, h3⟩

/-- C73 for the ids of listed documents: they do not leave the context. The context itself may be listed, as the empty path. -/
theorem C73_listed_partial (fuel : Nat) (r : LocalRepo) (re : Re) (hr : extPattern r.extension = .ok re) (ignored : FilePath → Bool)
    (fs : Fs) (walked : List FilePath) (hw : Walk ignored r.context fs walked) (i : Option FilePath) (ran : Ran)
    (h : plot fuel r fs walked i .list = some ran) (x : FilePath) (hx : x ∈ ran.stdout) : x = [] ∨ Stays 0 x := by
  obtain ⟨ran', h1, _, _, h2⟩ := C72_list fuel r re ((C72_grammar _ re).1 hr) ignored fs walked hw i
  rw [h] at h1
  cases h1
  rcases (h2 x).1 hx with ⟨dir, n, m, hv, _, hs, rfl⟩ | ⟨rfl, _⟩
  · right
    have hn := hv.2.2.1 n (by simp)
    have hm : Plain m := by
      rcases hs with ⟨_, rfl⟩ | ⟨e, _, rfl⟩
      · exact ⟨hn.1, head_ne_dotdot hn.2, head_ne_dot hn.2⟩
      · obtain ⟨h3, h4⟩ := visible_stem hn.2
        exact ⟨h3, head_ne_dotdot h4, head_ne_dot h4⟩
    have hdir : ∀ n ∈ dir, Plain n := fun n h =>
      ⟨(hv.2.2.1 n (by simp [h])).1, head_ne_dotdot (hv.2.2.1 n (by simp [h])).2, head_ne_dot (hv.2.2.1 n (by simp [h])).2⟩
    clear hv h2 hx h
    suffices ∀ k, Stays k (dir ++ [m]) from this 0
    induction dir with
    | nil => exact fun k => .last hm
    | cons n dir ih => exact fun k => .down (hdir n (by simp)) (ih (fun n h => hdir n (by simp [h])) (k + 1))
  · exact .inl rfl

/-- C73: loading an absolute path does not depend on the context. -/
theorem C73_absolute (r : LocalRepo) (fs : Fs) (i : FilePath) (hi : Absolute i) (ctx : FilePath) :
    r.findById fs i = (⟨ctx, r.extension⟩ : LocalRepo).findById fs i := by
  unfold LocalRepo.findById
  simp only [joinPath_absolute hi]

/-- C73: an id that starts with `..` loads what the rest of it loads with a context that leads to the directory above, if there are
as many links on the way to both. -/
theorem C73_parent (fs : Fs) (hf : fs.Closed) (ctx ctx' : FilePath) (root : List Name) (k : Nat) (h : Leads fs fs.cwd ctx root k)
    (hd : fs.Dir root) (h' : Leads fs fs.cwd ctx' root.dropLast k) (ext : Name) (i : FilePath) (hi : Relative i) (hi' : i ≠ []) :
    ((⟨ctx, ext⟩ : LocalRepo).findById fs (dotdot :: i)).map Document.bytes =
      ((⟨ctx', ext⟩ : LocalRepo).findById fs i).map Document.bytes := by
  rw [findById_bytes _ fs (by simp [Relative, dotdot, dot]) (by simp), findById_bytes _ fs hi hi', withExtension_cons _ _ hi']
  refine Option.ext fun b => ?_
  rw [read_beyond hf h hd (by simp), read_beyond hf h' (hf.up hd) (withExtension_ne_nil _ hi')]
  dsimp only
  generalize withExtension i ext = w
  constructor
  · rintro ⟨there, j, h1, h2, h3⟩
    cases h2 with
    | up h => exact ⟨there, j, h1, h, h3⟩
    | dir hn => exact absurd rfl hn.2.1
    | link hn => exact absurd rfl hn.2.1
    | last hn => exact absurd rfl hn.2.1
  · rintro ⟨there, j, h1, h2, h3⟩
    exact ⟨there, j, h1, .up h2, h3⟩

/-- C73: the empty id loads the file beside the context that has its name and the extension. -/
theorem C73_empty (dir : FilePath) (n : Name) (hn : n ≠ []) (hd : n.head? ≠ some '.') (ext : Name) (he : ext ≠ []) (fs : Fs) :
    ∃ m, Stripped n m ∧ (⟨dir ++ [n], ext⟩ : LocalRepo).findById fs [] =
      (fs.read (dir ++ [m ++ '.' :: ext])).map fun bytes => ⟨dir ++ [m ++ '.' :: ext], bytes⟩ := by
  obtain ⟨m, h1, h2⟩ := load_stripped ⟨[], ext⟩ he fs dir n hn hd
  refine ⟨m, h1, ?_⟩
  have hj : ∀ q : FilePath, joinPath [] q = q := fun q => by unfold joinPath; split <;> simp
  have e1 : (⟨dir ++ [n], ext⟩ : LocalRepo).findById fs [] = (⟨[], ext⟩ : LocalRepo).findById fs (dir ++ [n]) := by
    unfold LocalRepo.findById
    simp only [hj, joinPath_relative (p := dir ++ [n]) (q := []) (by simp [Relative]), List.append_nil]
  rw [e1, h2, hj]

/-- A file system for the examples: `/home/user` with one document and a link, and files outside of it. -/
def rootFs : Fs where
  nodes :=
  [(["home".toList], .dir), (["home".toList, "user".toList], .dir),
   (["home".toList, "user".toList, "a.md".toList], .file [1]), (["home".toList, "user".toList, "x".toList], .link [[], "lib".toList]),
   (["home".toList, "user.md".toList], .file [2]), (["home".toList, "b.md".toList], .file [3]), (["c.md".toList], .file [4]),
   (["lib".toList], .dir), (["lib".toList, "d.md".toList], .file [5])]
  cwd := ["home".toList]

theorem rootFs_closed : rootFs.Closed := by
  refine ⟨by decide, fun e he => ?_, by decide⟩
  have : ∀ e ∈ rootFs.nodes, ∃ n ∈ e.1.getLast?, e.1 = e.1.dropLast ++ [n] ∧ (n ≠ [] ∧ n ≠ dotdot ∧ n ≠ dot) ∧
      (e.1.dropLast ≠ [] → rootFs.at e.1.dropLast = some .dir) := by decide
  obtain ⟨n, _, h1, h2, h3⟩ := this e he
  exact ⟨_, n, h1, h2, h3⟩

/-- A repository for the examples. -/
def userRepo : LocalRepo := ⟨[[], "home".toList, "user".toList], "md".toList⟩

/-- C73 is false of the code: an absolute path, a path with `..`, the empty path and a path through a link load files outside of the
context. -/
theorem C73_refuted : (userRepo.findById rootFs [[], "c".toList]).map Document.bytes = some [4] ∧
    (userRepo.findById rootFs [dotdot, "b".toList]).map Document.bytes = some [3] ∧
    (userRepo.findById rootFs []).map Document.bytes = some [2] ∧
    (userRepo.findById rootFs ["x".toList, "d".toList]).map Document.bytes = some [5] ∧
    rootFs.Finds userRepo.context ["home".toList, "user".toList] ∧
    ∀ rel, ∀ bytes ∈ [[4], [3], [2], [5]], (["home".toList, "user".toList] ++ rel, .file bytes) ∉ rootFs.nodes := by
  refine ⟨by decide +kernel, by decide +kernel, by decide +kernel, by decide +kernel, finds_of (by decide) (by decide), ?_⟩
  intro rel bytes hb h
  simp only [List.mem_cons, List.not_mem_nil, or_false] at hb
  simp only [rootFs, List.mem_cons, List.not_mem_nil, or_false, Prod.mk.injEq, List.cons_append, List.nil_append,
    List.cons.injEq, true_and, reduceCtorEq, false_and, and_false, false_or, FsNode.file.injEq] at h
  rcases hb with rfl | rfl | rfl | rfl <;> simp at h

/-- Going through the link. -/
example : ∃ there j, 0 + 1 + j ≤ maxLinks ∧ Leads rootFs ["home".toList, "user".toList]
    ([[], "lib".toList] ++ withExtension ["d".toList] "md".toList) there j ∧ rootFs.at there = some (.file [5]) :=
  (C73_link userRepo rootFs rootFs_closed ["home".toList, "user".toList] 0
    (.root (.dir ⟨by decide, by decide, by decide⟩ (by decide) (.dir ⟨by decide, by decide, by decide⟩ (by decide) .here)))
    (.inr (by decide)) "x".toList ⟨by decide, by decide, by decide⟩ _ (by decide) ["d".toList] (by decide) [5]).1 (by decide +kernel)

example : Stays 0 ["x".toList, dotdot, "a".toList] :=
  .down ⟨by decide, by decide, by decide⟩ (.up (.last ⟨by decide, by decide, by decide⟩))
example : (userRepo.findById rootFs ["a".toList]).map Document.bytes = some [1] := by decide +kernel
example : ¬ Stays 0 [dotdot, "user".toList, "a".toList] := by
  intro h; cases h with
  | down h => exact h.2.1 rfl

end Plotline
