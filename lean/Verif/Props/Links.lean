import Verif.Props.Confine
import Verif.Spec.Links

/-! # Properties C95 and C96: contexts that lead to the same directory, and what is listed and what can be loaded -/

namespace Plotline

open Std

/-! ## Where paths lead -/

theorem Fs.Closed.prefix {fs : Fs} (hf : fs.Closed) {p : List Name} :
    ∀ (m : Nat) (q : List Name) (x : FsNode), q.length = m → q ≠ [] → fs.at (p ++ q) = some x → fs.Dir p := by
  intro m
  induction m with
  | zero => intro q x hl hq; exact absurd (List.eq_nil_of_length_eq_zero hl) hq
  | succ m ih =>
    intro q x hl hq h
    rcases List.eq_nil_or_concat q with rfl | ⟨q', n, rfl⟩
    · exact absurd rfl hq
    · rw [List.concat_eq_append, ← List.append_assoc] at h
      obtain ⟨dir, n', h1, _, h2⟩ := hf.2.1 _ (at_mem h)
      obtain ⟨rfl, _⟩ := List.append_inj' h1 rfl
      by_cases hq' : q' = []
      · subst hq'
        rw [List.append_nil] at h2
        by_cases hp : p = []
        · exact .inl hp
        · exact .inr (h2 hp)
      · exact ih q' _ (by simpa using hl) hq' (h2 (by simp [hq']))

theorem leads_down {fs : Fs} (hf : fs.Closed) : ∀ (dir : FilePath) (root : List Name), (∀ n ∈ dir, Plain n) →
    (dir = [] ∨ fs.at (root ++ dir) = some .dir) → Leads fs root dir (root ++ dir) 0 := by
  intro dir
  induction dir with
  | nil => intro root _ _; rw [List.append_nil]; exact .here
  | cons n dir ih =>
    intro root hp h
    rcases h with h | h
    · cases h
    · have e : root ++ n :: dir = root ++ [n] ++ dir := by simp
      rw [e] at h ⊢
      have ha : fs.at (root ++ [n]) = some .dir := by
        by_cases hd : dir = []
        · subst hd; simpa using h
        · rcases hf.prefix _ dir _ rfl hd h with h | h
          · simp at h
          · exact h
      exact .dir (hp n (by simp)) ha (ih _ (fun m hm => hp m (by simp [hm])) (.inr h))

/-- Where names lead through directories. -/
theorem leads_entry {fs : Fs} (hf : fs.Closed) {root : List Name} {dir : FilePath} {n : Name} (hp : ∀ m ∈ dir ++ [n], Plain m)
    {x : FsNode} (ha : fs.at (root ++ (dir ++ [n])) = some x) (k : Nat) (b : Bytes) (hk : k ≤ maxLinks) :
    (∃ there j, k + j ≤ maxLinks ∧ Leads fs root (dir ++ [n]) there j ∧ fs.at there = some (.file b)) ↔
      Readable fs k (root ++ dir) x b := by
  have hn : Plain n := hp n (by simp)
  have hdir : dir = [] ∨ fs.at (root ++ dir) = some .dir := by
    by_cases hd : dir = []
    · exact .inl hd
    · rw [← List.append_assoc] at ha
      rcases hf.prefix _ [n] _ rfl (by simp) ha with h | h
      · simp [hd] at h
      · exact .inr h
  have hdown := leads_down hf dir root (fun m hm => hp m (by simp [hm])) hdir
  have hD : fs.Dir root ∨ dir = [] := by
    by_cases hd : dir = []
    · exact .inr hd
    · exact .inl (hf.prefix _ dir _ rfl hd (hdir.resolve_left hd))
  rw [← List.append_assoc] at ha
  have hroot : fs.Dir root := hD.elim (fun h => h) fun hd => by
    subst hd; rw [List.append_nil] at ha; exact hf.prefix _ [n] _ rfl (by simp) ha
  have step : ∀ there j, Leads fs root (dir ++ [n]) there j ↔ Leads fs (root ++ dir) [n] there j := by
    intro there j
    constructor
    · intro h
      obtain ⟨mid, a, c, h1, _, h2, rfl⟩ := h.split hf _ _ rfl (by simp) hroot
      obtain rfl := h1.unique hdown
      obtain rfl := h1.same_links hdown
      simpa using h2
    · intro h
      have := hdown.append (q := [n]) ?_ h
      · simpa using this
      · rcases hdir with rfl | hd
        · rw [List.append_nil]; exact hroot.elim .inl fun h => .inr (.inl h)
        · exact .inr (.inl hd)
  simp only [step]
  cases x with
  | file b' =>
    constructor
    · rintro ⟨there, j, _, h, hb⟩
      cases h with
      | root => exact absurd rfl hn.1
      | dot => exact absurd rfl hn.2.2
      | up => exact absurd rfl hn.2.1
      | dir _ ha' => rw [ha] at ha'; cases ha'
      | link _ ha' => rw [ha] at ha'; cases ha'
      | last => rw [ha] at hb; cases hb; rfl
    · rintro rfl
      exact ⟨_, 0, hk, .last hn ha (by simp), ha⟩
  | dir =>
    refine ⟨?_, False.elim⟩
    rintro ⟨there, j, _, h, hb⟩
    cases h with
    | root => exact absurd rfl hn.1
    | dot => exact absurd rfl hn.2.2
    | up => exact absurd rfl hn.2.1
    | dir _ ha' h => cases h; rw [ha] at hb; cases hb
    | link _ ha' => rw [ha] at ha'; cases ha'
    | last => rw [ha] at hb; cases hb
  | «sealed» =>
    refine ⟨?_, False.elim⟩
    rintro ⟨there, j, _, h, hb⟩
    cases h with
    | root => exact absurd rfl hn.1
    | dot => exact absurd rfl hn.2.2
    | up => exact absurd rfl hn.2.1
    | dir _ ha' h => rw [ha] at ha'; cases ha'
    | link _ ha' => rw [ha] at ha'; cases ha'
    | last => rw [ha] at hb; cases hb
  | link t =>
    constructor
    · rintro ⟨there, j, hj, h, hb⟩
      cases h with
      | root => exact absurd rfl hn.1
      | dot => exact absurd rfl hn.2.2
      | up => exact absurd rfl hn.2.1
      | dir _ ha' h => rw [ha] at ha'; cases ha'
      | last _ ha' hx => rw [ha] at ha'; exact absurd (Option.some.inj ha').symm (hx _)
      | @link _ _ _ _ _ j _ ha' h =>
        rw [ha] at ha'
        cases ha'
        rw [List.append_nil] at h
        exact ⟨there, j, by omega, h, hb⟩
    · rintro ⟨there, j, hj, h, hb⟩
      exact ⟨there, j + 1, by omega, .link hn ha (by rw [List.append_nil]; exact h), hb⟩

theorem leads_plain {fs : Fs} {root : List Name} (hl : fs.NoLinks root) : ∀ (rel done : FilePath) (there : List Name) (j : Nat),
    (∀ n ∈ rel, Plain n) → Leads fs (root ++ done) rel there j → there = root ++ (done ++ rel) := by
  intro rel
  induction rel with
  | nil => intro done there j _ h; cases h; simp
  | cons n rel ih =>
    intro done there j hp h
    have hn := hp n (by simp)
    cases h with
    | root => exact absurd rfl hn.1
    | dot => exact absurd rfl hn.2.2
    | up => exact absurd rfl hn.2.1
    | dir _ ha h =>
      rw [List.append_assoc] at h
      rw [ih (done ++ [n]) there j (fun m hm => hp m (by simp [hm])) h]
      simp
    | link _ ha => rw [List.append_assoc] at ha; exact absurd ha (hl _ _ (by simp))
    | last => simp

/-! ## C95 -/

/-- C95: of two contexts that lead to the same directory the one with no more links on its way loads what the other loads.
Missing from C95: the empty id, and that a context with more links may load less (`C95_refuted`). -/
theorem C95_load_partial (fs : Fs) (hf : fs.Closed) (ctx ctx' : FilePath) (root : List Name) (k k' : Nat)
    (h : Leads fs fs.cwd ctx root k) (h' : Leads fs fs.cwd ctx' root k') (hk : k' ≤ k) (ext : Name) (i : FilePath) (hi : Relative i)
    (hi' : i ≠ []) (d : Document) (hd : (⟨ctx, ext⟩ : LocalRepo).findById fs i = some d) :
    ∃ d', (⟨ctx', ext⟩ : LocalRepo).findById fs i = some d' ∧ d'.bytes = d.bytes := by
  have h1 := findById_bytes ⟨ctx, ext⟩ fs hi hi'
  rw [hd] at h1
  have h2 := findById_bytes ⟨ctx', ext⟩ fs hi hi'
  obtain ⟨q, ⟨n, hn, hl⟩, hb⟩ := read_iff.1 h1.symm
  obtain ⟨mid, a, c, h3, hdir, h4, rfl⟩ := hl.split hf _ _ rfl (withExtension_ne_nil _ hi') hf.cwd
  obtain rfl := h3.unique h
  obtain rfl := h3.same_links h
  have h5 := (read_beyond hf h' hdir (withExtension_ne_nil ext hi') d.bytes).2 ⟨q, c, by omega, h4, hb⟩
  rw [h5] at h2
  obtain ⟨d', h6, h7⟩ := Option.map_eq_some_iff.1 h2
  exact ⟨d', h6, h7⟩

/-- C95: contexts that lead to the same directory never load different contents. -/
theorem C95_agree (fs : Fs) (hf : fs.Closed) (ctx ctx' : FilePath) (root : List Name) (k k' : Nat)
    (h : Leads fs fs.cwd ctx root k) (h' : Leads fs fs.cwd ctx' root k') (ext : Name) (i : FilePath) (hi : Relative i) (hi' : i ≠ [])
    (d d' : Document) (hd : (⟨ctx, ext⟩ : LocalRepo).findById fs i = some d)
    (hd' : (⟨ctx', ext⟩ : LocalRepo).findById fs i = some d') : d'.bytes = d.bytes := by
  rcases Nat.le_total k' k with hk | hk
  · obtain ⟨d'', h1, h2⟩ := C95_load_partial fs hf ctx ctx' root k k' h h' hk ext i hi hi' d hd
    rw [hd'] at h1; cases h1; exact h2
  · obtain ⟨d'', h1, h2⟩ := C95_load_partial fs hf ctx' ctx root k' k h' h hk ext i hi hi' d' hd'
    rw [hd] at h1; cases h1; exact h2.symm

/-- C95: contexts that lead to the same directory list the same ids.
Missing from C95: contexts whose own name the expression matches, and the one the walker takes for the standard input. -/
theorem C95_list_partial (fuel : Nat) (fs : Fs) (ctx ctx' : FilePath) (root : List Name) (h : fs.Finds ctx root)
    (h' : fs.Finds ctx' root) (hs : ctx ≠ stdinPath) (hs' : ctx' ≠ stdinPath) (ext : Name) (re : Re) (hre : Alts (writtenExt ext) re)
    (hctx : ¬ re.Finds (givenName ctx)) (hctx' : ¬ re.Finds (givenName ctx')) (ignored : FilePath → Bool) (walked walked' : List FilePath)
    (hw : Walk ignored ctx fs walked) (hw' : Walk ignored ctx' fs walked') (i : Option FilePath) :
    (plot fuel ⟨ctx, ext⟩ fs walked i .list).map Ran.stdout = (plot fuel ⟨ctx', ext⟩ fs walked' i .list).map Ran.stdout := by
  obtain ⟨ran, h1, _, h2, h3⟩ := C72_list fuel ⟨ctx, ext⟩ re hre ignored fs walked hw i
  obtain ⟨ran', h1', _, h2', h3'⟩ := C72_list fuel ⟨ctx', ext⟩ re hre ignored fs walked' hw' i
  rw [h1, h1']
  have vis : ∀ rel, Visible ignored ctx fs rel ↔ Visible ignored ctx' fs rel := by
    have : ∀ {c c' : FilePath}, fs.Finds c root → fs.Starts c' root → ∀ rel, Visible ignored c fs rel → Visible ignored c' fs rel := by
      rintro c c' hc hc' rel ⟨a, ⟨root', n, hr, hn⟩, b⟩
      obtain rfl := hr.2.unique hc
      exact ⟨a, ⟨root', n, hc', hn⟩, b⟩
    exact fun rel => ⟨this h ⟨hs', h'⟩ rel, this h' ⟨hs, h⟩ rel⟩
  refine congrArg some (h2.ext h2' fun x => ?_)
  rw [h3, h3']
  simp only [vis, hctx, hctx', false_and, and_false]

/-- The directory `d` with a document and a link to one, and forty links, one leading to the other and the first to the directory.
Its name is `l`, the others have one more each. -/
def chainFs : Fs where
  nodes :=
  [(["d".toList], .dir), (["d".toList, "a.md".toList], .file [1]), (["d".toList, "b.md".toList], .link ["a.md".toList]),
   (["d.md".toList], .file [2]), (["l.md".toList], .file [3])] ++
  (List.range 40).map fun k => ([List.replicate (k + 1) 'l'], .link [if k = 0 then "d".toList else List.replicate k 'l'])

theorem chainFs_closed : chainFs.Closed := by
  refine ⟨by decide +kernel, fun e he => ?_, by decide⟩
  have : ∀ e ∈ chainFs.nodes, ∃ n ∈ e.1.getLast?, e.1 = e.1.dropLast ++ [n] ∧ (n ≠ [] ∧ n ≠ dotdot ∧ n ≠ dot) ∧
      (e.1.dropLast ≠ [] → chainFs.at e.1.dropLast = some .dir) := by decide +kernel
  obtain ⟨n, _, h1, h2, h3⟩ := this e he
  exact ⟨_, n, h1, h2, h3⟩

/-- A repository for the examples. -/
def linkedRepo (k : Nat) : LocalRepo := ⟨[if k = 0 then "d".toList else List.replicate k 'l'], "md".toList⟩

/-- C95 is false of the code: these contexts lead to the same directory, and with the empty id they load different files; behind forty
links a document that is a link is not loaded. -/
theorem C95_refuted : (∀ k ∈ [0, 1, 40], chainFs.Finds (linkedRepo k).context ["d".toList]) ∧
    ((linkedRepo 0).findById chainFs []).map Document.bytes = some [2] ∧
    ((linkedRepo 1).findById chainFs []).map Document.bytes = some [3] ∧
    ((linkedRepo 1).findById chainFs ["b".toList]).map Document.bytes = some [1] ∧
    (linkedRepo 40).findById chainFs ["b".toList] = none := by
  refine ⟨fun k hk => finds_of (by simp [linkedRepo]) ?_, by decide +kernel, by decide +kernel, by decide +kernel, by decide +kernel⟩
  have : ∀ k ∈ [0, 1, 40], chainFs.follow maxLinks chainFs.cwd (linkedRepo k).context = some ["d".toList] := by decide +kernel
  exact this k hk

/-- A directory named `-` with a document. -/
def dashFs : Fs := ⟨[(["-".toList], .dir), (["-".toList, "a.md".toList], .file [1])], []⟩

/-- C95 is false of the code: `-` leads to the same directory with and without `.` before it, and loads the same documents, and
without it none is listed. -/
theorem C95_stdin_refuted (ignored : FilePath → Bool) (hi : ∀ p, ignored p = false) :
    let r : LocalRepo := ⟨stdinPath, "md".toList⟩
    let r' : LocalRepo := ⟨dot :: stdinPath, "md".toList⟩
    dashFs.Finds r.context ["-".toList] ∧ dashFs.Finds r'.context ["-".toList] ∧
    (r.findById dashFs ["a".toList]).map Document.bytes = some [1] ∧ (r'.findById dashFs ["a".toList]).map Document.bytes = some [1] ∧
    (∀ walked, Walk ignored r.context dashFs walked → (plot 0 r dashFs walked none .list).map Ran.stdout = some []) ∧
    ∀ walked, Walk ignored r'.context dashFs walked → (plot 0 r' dashFs walked none .list).map Ran.stdout = some [["a".toList]] := by
  obtain ⟨re, hre, hfind⟩ := C72_plain "md".toList ⟨by decide, by decide⟩
  refine ⟨finds_of (by decide) (by decide), finds_of (by decide) (by decide), by decide +kernel, by decide +kernel, fun walked hw => ?_,
    fun walked hw => ?_⟩
  · obtain ⟨ran, h1, _, h2⟩ := C72_stdin 0 _ re hre ignored dashFs walked hw none
    simp only [h1, Option.map_some, h2]
  · obtain ⟨ran, h1, _, h2, h3⟩ := C52_list_partial 0 ⟨dot :: stdinPath, "md".toList⟩ ⟨by decide, by decide⟩ (by decide) ignored dashFs walked
      hw none
    simp only [h1, Option.map_some]
    refine congrArg some (h2.ext (List.pairwise_singleton ..) fun x => ?_)
    rw [h3]
    have hroot : dashFs.Finds (dot :: stdinPath) ["-".toList] := finds_of (by decide) (by decide)
    constructor
    · rintro ⟨rel, ⟨hne, ⟨root, n, ⟨_, hr⟩, hm⟩, _⟩, dir, s, rfl, rfl⟩
      obtain rfl := hr.unique hroot
      have hm : _ ∈ [((["-".toList] : FilePath), FsNode.dir), (["-".toList, "a.md".toList], .file [1])] := hm
      simp only [List.mem_cons, List.not_mem_nil, or_false, Prod.mk.injEq] at hm
      rcases hm with ⟨h, _⟩ | ⟨h, _⟩
      · simp at h
      · have h := List.append_cancel_left (as := ["-".toList]) (cs := ["a.md".toList]) h
        obtain ⟨rfl, h⟩ := List.append_inj' (t₁ := [_]) (s₂ := []) h rfl
        have : s = "a".toList := List.append_cancel_right ((List.cons.inj h).1.trans (show "a.md".toList = "a".toList ++ '.' :: "md".toList by decide))
        simp [this]
    · intro hx
      obtain rfl := List.mem_singleton.1 hx
      exact ⟨["a.md".toList], ⟨by decide, ⟨["-".toList], .file [1], ⟨by decide, hroot⟩, by decide⟩, by decide, hi _⟩, [], "a".toList, by decide,
        rfl⟩

example : Walk (fun _ => false) stdinPath dashFs [stdinEntry] :=
  ⟨by decide, fun p => ⟨fun h => .inr (.inr ⟨rfl, List.mem_singleton.1 h⟩), by
    rintro (⟨_, _, h, _⟩ | ⟨_, ⟨_, ⟨_, _, h, _⟩, _⟩, _⟩ | ⟨_, rfl⟩)
    · exact (h rfl).elim
    · exact (h.1 rfl).elim
    · exact List.mem_singleton.2 rfl⟩⟩

example : ∃ k ≤ maxLinks, Leads chainFs chainFs.cwd (linkedRepo 40).context ["d".toList] k := follow_iff.1 (by decide +kernel)
example : ((linkedRepo 40).findById chainFs ["a".toList]).map Document.bytes = some [1] := by decide +kernel
example : Leads chainFs [] ["l".toList, "b.md".toList] ["d".toList, "a.md".toList] 2 :=
  .link (target := ["d".toList]) ⟨by decide, by decide, by decide⟩ (by decide +kernel)
    (.dir (n := "d".toList) ⟨by decide, by decide, by decide⟩ (by decide +kernel)
    (.link (target := ["a.md".toList]) ⟨by decide, by decide, by decide⟩ (by decide +kernel) (.last (n := "a.md".toList) ⟨by decide, by decide, by decide⟩
      (x := .file [1]) (by decide +kernel) (by simp))))

/-! ## C96 -/

theorem visible_plain {n : Name} (h : n ≠ [] ∧ n.head? ≠ some '.') : Plain n := ⟨h.1, head_ne_dotdot h.2, head_ne_dot h.2⟩

/-- The file that is read for the id of a document. -/
theorem load_doc (r : LocalRepo) (he : r.extension ≠ []) (fs : Fs) {dir : FilePath} {stem : Name}
    (hn : ∀ n ∈ dir ++ [stem], n ≠ [] ∧ n.head? ≠ some '.') (hs : '.' ∉ stem) :
    (r.findById fs (dir ++ [stem])).map Document.bytes = fs.read (r.context ++ (dir ++ [stem ++ '.' :: r.extension])) := by
  have h1 := hn stem (by simp)
  have hrel : Relative (dir ++ [stem]) := by
    cases dir with
    | nil => simpa [Relative] using ⟨h1.1, head_ne_dot h1.2⟩
    | cons m dir => have := hn m (by simp); simpa [Relative] using ⟨this.1, head_ne_dot this.2⟩
  rw [findById_bytes r fs hrel (by simp), withExtension_snoc, withExt_add h1.1 h1.2 he, (fileStem_eq_self h1.2).2 hs]

/-- C96: what is listed under an id without further dots is there, and loading the id gives what can be read of it: the content of a
file, what a link leads to, and nothing otherwise.
Missing from C96: that all of them are files, and names with further dots. -/
theorem C96_listed_partial (fuel : Nat) (r : LocalRepo) (he : PlainExt r.extension)
    (hctx : r.context.getLast? ≠ some ('.' :: r.extension)) (ignored : FilePath → Bool) (fs : Fs) (hf : fs.Closed)
    (walked : List FilePath) (hw : Walk ignored r.context fs walked) (i : Option FilePath) :
    ∃ ran, plot fuel r fs walked i .list = some ran ∧ ∀ dir stem, dir ++ [stem] ∈ ran.stdout → '.' ∉ stem →
      ∃ root k x, k ≤ maxLinks ∧ Leads fs fs.cwd r.context root k ∧ fs.at (root ++ (dir ++ [stem ++ '.' :: r.extension])) = some x ∧
        ∀ b, (r.findById fs (dir ++ [stem])).map Document.bytes = some b ↔ Readable fs k (root ++ dir) x b := by
  obtain ⟨ran, h1, _, _, h2⟩ := C52_list_partial fuel r he hctx ignored fs walked hw i
  refine ⟨ran, h1, fun dir stem hx hs => ?_⟩
  obtain ⟨rel, hv, dir', stem', rfl, hd⟩ := (h2 _).1 hx
  obtain ⟨rfl, hst⟩ := List.append_inj' hd rfl
  obtain rfl := (List.cons.inj hst).1
  clear hst hd
  obtain ⟨_, ⟨root, x, ⟨_, _, k, hk, hl⟩, hm⟩, hn, _⟩ := hv
  have ha := at_of_mem hf.1 hm
  refine ⟨root, k, x, hk, hl, ha, fun b => ?_⟩
  have hn' : ∀ n ∈ dir ++ [stem], n ≠ [] ∧ n.head? ≠ some '.' := by
    intro n hn1
    rcases List.mem_append.1 hn1 with hn1 | hn1
    · exact hn n (by simp [hn1])
    · rw [List.mem_singleton.1 hn1]; exact visible_stem (hn _ (List.mem_append.2 (.inr (List.mem_singleton.2 rfl)))).2
  have hp : ∀ m ∈ dir ++ [stem ++ '.' :: r.extension], Plain m := fun m hm => visible_plain (hn m hm)
  have hD : fs.Dir root := hf.prefix _ _ _ rfl (by simp) ha
  rw [load_doc r he.1 fs hn' hs, read_beyond hf hl hD (by simp), leads_entry hf hp ha k b hk]

/-- C96 where there are no links under the context: the ids without further dots of what is neither hidden nor ignored load a file
exactly if they are listed and there is a file.
Missing from C96: links, hidden and ignored files, and listed ids of what is not a file (`C96_refuted`). -/
theorem C96_iff_partial (fuel : Nat) (r : LocalRepo) (he : PlainExt r.extension)
    (hctx : r.context.getLast? ≠ some ('.' :: r.extension)) (ignored : FilePath → Bool) (fs : Fs) (hf : fs.Closed)
    (walked : List FilePath) (hw : Walk ignored r.context fs walked) (root : List Name) (hr : fs.Starts r.context root)
    (hl : fs.NoLinks root) (dir : FilePath) (stem : Name) (hn : ∀ n ∈ dir ++ [stem], n ≠ [] ∧ n.head? ≠ some '.') (hs : '.' ∉ stem)
    (hi : ignored (dir ++ [stem ++ '.' :: r.extension]) = false) (i : Option FilePath) :
    ∃ ran, plot fuel r fs walked i .list = some ran ∧ ∀ b, (r.findById fs (dir ++ [stem])).map Document.bytes = some b ↔
      dir ++ [stem] ∈ ran.stdout ∧ fs.at (root ++ (dir ++ [stem ++ '.' :: r.extension])) = some (.file b) := by
  obtain ⟨ran, h1, _, _, h2⟩ := C52_list_partial fuel r he hctx ignored fs walked hw i
  refine ⟨ran, h1, fun b => ?_⟩
  have hn' : ∀ n ∈ dir ++ [stem ++ '.' :: r.extension], n ≠ [] ∧ n.head? ≠ some '.' := by
    intro n hn1
    rcases List.mem_append.1 hn1 with hn1 | hn1
    · exact hn n (by simp [hn1])
    · rw [List.mem_singleton.1 hn1]
      have := hn stem (by simp)
      cases hst : stem with
      | nil => exact absurd hst this.1
      | cons c t => rw [hst] at this; exact ⟨by simp, by simpa using this.2⟩
  have hp : ∀ m ∈ dir ++ [stem ++ '.' :: r.extension], Plain m := fun m hm => visible_plain (hn' m hm)
  obtain ⟨hst, hne, k, hk, hlead⟩ := hr
  rw [load_doc r he.1 fs hn hs]
  constructor
  · intro h
    obtain ⟨q, ⟨m, _, hq⟩, hb⟩ := read_iff.1 h
    obtain ⟨mid, a, c, h3, _, h4, _⟩ := hq.split hf _ _ rfl (by simp) hf.cwd
    obtain rfl := h3.unique hlead
    have := leads_plain hl _ [] q c hp (by simpa using h4)
    rw [List.nil_append] at this
    subst this
    refine ⟨(h2 _).2 ⟨_, ⟨by simp, ⟨mid, _, ⟨hst, hne, k, hk, hlead⟩, at_mem hb⟩, hn', hi⟩, dir, stem, rfl, rfl⟩, hb⟩
  · rintro ⟨_, hb⟩
    have hD : fs.Dir root := hf.prefix _ _ _ rfl (by simp) hb
    exact (read_beyond hf hlead hD (by simp) b).2 ((leads_entry hf hp hb k b hk).2 rfl)

/-- Along plain names without a link before the last, everything is where the names say. -/
theorem leads_there {fs : Fs} {m : Name} {q : List Name} (hm : Plain m) : ∀ (dir : FilePath) (root : List Name) (c : Nat),
    (∀ n ∈ dir, Plain n) → (∀ d n rest t, dir = d ++ n :: rest → fs.at (root ++ (d ++ [n])) ≠ some (.link t)) →
    Leads fs root (dir ++ [m]) q c → ∃ x, fs.at (root ++ (dir ++ [m])) = some x := by
  intro dir
  induction dir with
  | nil =>
    intro root c _ _ h
    generalize hp : ([] : FilePath) ++ [m] = p at h
    cases h with
    | here => cases hp
    | root => cases hp; exact absurd rfl hm.1
    | dot => cases hp; exact absurd rfl hm.2.2
    | up => cases hp; exact absurd rfl hm.2.1
    | dir _ h1 _ => cases hp; exact ⟨_, h1⟩
    | link _ h1 _ => cases hp; exact ⟨_, h1⟩
    | last _ h1 _ => cases hp; exact ⟨_, h1⟩
  | cons n dir ih =>
    intro root c hp hl h
    have hn := hp n (by simp)
    generalize he : n :: dir ++ [m] = p at h
    cases h with
    | here => cases he
    | root => cases he; exact absurd rfl hn.1
    | dot => cases he; exact absurd rfl hn.2.2
    | up => cases he; exact absurd rfl hn.2.1
    | dir _ h1 h2 =>
      cases he
      obtain ⟨x, hx⟩ := ih (root ++ [n]) c (fun k hk => hp k (by simp [hk]))
        (fun d k rest t hd => by simpa using hl (n :: d) k rest t (by simp [hd])) h2
      exact ⟨x, by simpa using hx⟩
    | link _ h1 _ => cases he; exact absurd h1 (hl [] n dir _ rfl)
    | last => simp at he

/-- Which paths of what can be loaded are visible. -/
theorem loaded_visible (r : LocalRepo) (he : PlainExt r.extension) (ignored : FilePath → Bool) (fs : Fs) (hf : fs.Closed)
    (root : List Name) (hr : fs.Starts r.context root) (dir : FilePath) (stem : Name) (hn : ∀ n ∈ dir ++ [stem], Plain n) (hs : '.' ∉ stem)
    (doc : Document) (hdoc : r.findById fs (dir ++ [stem]) = some doc) :
    Visible ignored r.context fs (dir ++ [stem ++ '.' :: r.extension]) ↔
      (∀ n ∈ dir, n.head? ≠ some '.') ∧ ignored (dir ++ [stem ++ '.' :: r.extension]) = false ∧
        ∀ d n rest target, dir = d ++ n :: rest → fs.at (root ++ (d ++ [n])) ≠ some (.link target) := by
  obtain ⟨hst, hne, k, hk, hlead⟩ := hr
  have hstem : stem ≠ [] ∧ stem.head? ≠ some '.' := by
    refine ⟨(hn stem (by simp)).1, fun h => hs ?_⟩
    cases stem with
    | nil => cases h
    | cons c t => simp at h; simp [h]
  have hname : stem ++ '.' :: r.extension ≠ [] ∧ (stem ++ '.' :: r.extension).head? ≠ some '.' := by
    cases hc : stem with
    | nil => exact absurd hc hstem.1
    | cons c t => rw [hc] at hstem; exact ⟨by simp, by simpa using hstem.2⟩
  constructor
  · rintro ⟨_, ⟨root', x, ⟨_, _, k', hk', hl'⟩, hmem⟩, hnames, hig⟩
    obtain rfl := hl'.unique hlead
    refine ⟨fun n hd => (hnames n (by simp [hd])).2, hig, ?_⟩
    rintro d n rest target rfl hl
    have ha := at_of_mem hf.1 hmem
    have := hf.prefix (p := root' ++ (d ++ [n])) _ (rest ++ [stem ++ '.' :: r.extension]) _ rfl (by simp) (by simpa using ha)
    rcases this with h | h
    · simp at h
    · rw [hl] at h; cases h
  · rintro ⟨hh, hig, hlinks⟩
    have hrel : Relative (dir ++ [stem]) := by
      cases dir with
      | nil => have := hn stem (by simp); simpa [Relative] using ⟨this.1, this.2.2⟩
      | cons m dir => have := hn m (by simp); simpa [Relative] using ⟨this.1, this.2.2⟩
    have hb : (r.findById fs (dir ++ [stem])).map Document.bytes = some doc.bytes := by rw [hdoc]; rfl
    rw [findById_bytes r fs hrel (by simp), withExtension_snoc, withExt_add hstem.1 hstem.2 he.1, (fileStem_eq_self hstem.2).2 hs] at hb
    obtain ⟨q, ⟨m, _, hq⟩, _⟩ := read_iff.1 hb
    obtain ⟨mid, a, c, h3, _, h4, _⟩ := hq.split hf _ _ rfl (by simp) hf.cwd
    obtain rfl := h3.unique hlead
    obtain ⟨x, hx⟩ := leads_there (visible_plain hname) dir mid c (fun n hd => hn n (by simp [hd])) hlinks h4
    refine ⟨by simp, ⟨mid, x, ⟨hst, hne, k, hk, hlead⟩, at_mem hx⟩, ?_, hig⟩
    intro n hd
    rcases List.mem_append.1 hd with hd | hd
    · exact ⟨(hn n (by simp [hd])).1, hh n hd⟩
    · rw [List.mem_singleton.1 hd]; exact hname

/-- There is one document of an id. -/
theorem docAt_iff {ext : Name} {P : FilePath → Prop} {dir : FilePath} {stem : Name} :
    (∃ rel, P rel ∧ DocAt ext rel (dir ++ [stem])) ↔ P (dir ++ [stem ++ '.' :: ext]) := by
  constructor
  · rintro ⟨rel, hv, dir', stem', rfl, hd⟩
    obtain ⟨rfl, hst'⟩ := List.append_inj' hd rfl
    obtain rfl := (List.cons.inj hst').1
    exact hv
  · exact fun h => ⟨_, h, dir, stem, rfl, rfl⟩

/-- C96: what can be loaded under an id of plain names without further dots is listed exactly if it is not in a hidden directory, not
ignored, and not reached through a link to a directory.
Missing from C96: that it is always listed (`C96_refuted`). -/
theorem C96_loaded_partial (fuel : Nat) (r : LocalRepo) (he : PlainExt r.extension)
    (hctx : r.context.getLast? ≠ some ('.' :: r.extension)) (ignored : FilePath → Bool) (fs : Fs) (hf : fs.Closed)
    (walked : List FilePath) (hw : Walk ignored r.context fs walked) (root : List Name) (hr : fs.Starts r.context root)
    (dir : FilePath) (stem : Name) (hn : ∀ n ∈ dir ++ [stem], Plain n) (hs : '.' ∉ stem) (i : Option FilePath) :
    ∃ ran, plot fuel r fs walked i .list = some ran ∧ ∀ doc, r.findById fs (dir ++ [stem]) = some doc →
      (dir ++ [stem] ∈ ran.stdout ↔ (∀ n ∈ dir, n.head? ≠ some '.') ∧ ignored (dir ++ [stem ++ '.' :: r.extension]) = false ∧
        ∀ d n rest target, dir = d ++ n :: rest → fs.at (root ++ (d ++ [n])) ≠ some (.link target)) := by
  obtain ⟨ran, h1, _, _, h2⟩ := C52_list_partial fuel r he hctx ignored fs walked hw i
  exact ⟨ran, h1, fun doc hdoc => ((h2 _).trans docAt_iff).trans (loaded_visible r he ignored fs hf root hr dir stem hn hs doc hdoc)⟩

/-- C96 is false of the code: a directory, a link that leads nowhere and a file without the permission are listed and cannot be
loaded; a hidden document and one in a directory that a link leads to can be loaded and are not listed. -/
theorem C96_refuted : Walk (fun _ => false) homeRepo.context oddFs oddWalk ∧
    (plot 0 homeRepo oddFs oddWalk none .list).map Ran.stdout = some [["gone".toList], ["locked".toList], ["notes".toList]] ∧
    homeRepo.findById oddFs ["gone".toList] = none ∧ homeRepo.findById oddFs ["locked".toList] = none ∧
    homeRepo.findById oddFs ["notes".toList] = none ∧
    (homeRepo.findById oddFs [".h".toList]).map Document.bytes = some [2] ∧
    (homeRepo.findById oddFs ["lib".toList, "a".toList]).map Document.bytes = some [1] :=
  ⟨oddWalk_walk, by decide +kernel, by decide, by decide, by decide, by decide, by decide⟩

theorem homeFs_closed : homeFs.Closed := by
  refine ⟨by decide, fun e he => ?_, by decide⟩
  have : ∀ e ∈ homeFs.nodes, ∃ n ∈ e.1.getLast?, e.1 = e.1.dropLast ++ [n] ∧ (n ≠ [] ∧ n ≠ dotdot ∧ n ≠ dot) ∧
      (e.1.dropLast ≠ [] → homeFs.at e.1.dropLast = some .dir) := by decide
  obtain ⟨n, _, h1, h2, h3⟩ := this e he
  exact ⟨_, n, h1, h2, h3⟩

theorem homeFs_noLinks (root : List Name) : homeFs.NoLinks root := by
  intro rel target _ h
  have h := at_mem h
  simp [homeFs] at h

example : ∃ ran, plot 0 homeRepo homeFs homeWalk none .list = some ran ∧
    ∀ b, (homeRepo.findById homeFs (["x".toList] ++ ["a".toList])).map Document.bytes = some b ↔
      ["x".toList] ++ ["a".toList] ∈ ran.stdout ∧
        homeFs.at (["home".toList] ++ (["x".toList] ++ ["a".toList ++ '.' :: homeRepo.extension])) = some (.file b) :=
  C96_iff_partial 0 homeRepo ⟨by decide, by decide⟩ (by decide) (fun _ => false) homeFs homeFs_closed homeWalk homeWalk_walk
    ["home".toList] ⟨by decide, finds_of (by decide) (by decide)⟩ (homeFs_noLinks _) ["x".toList] "a".toList (by decide) (by decide) rfl none

theorem oddFs_closed : oddFs.Closed := by
  refine ⟨by decide, fun e he => ?_, by decide⟩
  have : ∀ e ∈ oddFs.nodes, ∃ n ∈ e.1.getLast?, e.1 = e.1.dropLast ++ [n] ∧ (n ≠ [] ∧ n ≠ dotdot ∧ n ≠ dot) ∧
      (e.1.dropLast ≠ [] → oddFs.at e.1.dropLast = some .dir) := by decide
  obtain ⟨n, _, h1, h2, h3⟩ := this e he
  exact ⟨_, n, h1, h2, h3⟩

/-- Links elsewhere do no harm. -/
theorem oddFs_noLinks : oddFs.NoLinks ["lib".toList] := by
  intro rel target hne h
  cases rel with
  | nil => exact hne rfl
  | cons n rest =>
    have h := at_mem h
    simp [oddFs] at h

example : ∃ ran, plot 0 ⟨["lib".toList], "md".toList⟩ oddFs [["lib".toList], ["lib".toList, "a.md".toList]] none .list = some ran ∧
    ∀ b, (LocalRepo.findById ⟨["lib".toList], "md".toList⟩ oddFs ([] ++ ["a".toList])).map Document.bytes = some b ↔
      [] ++ ["a".toList] ∈ ran.stdout ∧ oddFs.at (["lib".toList] ++ ([] ++ ["a".toList ++ '.' :: "md".toList])) = some (.file b) :=
  C96_iff_partial 0 ⟨["lib".toList], "md".toList⟩ ⟨by decide, by decide⟩ (by decide) (fun _ => false) oddFs oddFs_closed _
    (walk_by ["lib".toList] [["a.md".toList]] (by decide) (by decide) (by decide) (by decide) (by decide) (by decide)
      (by decide) (by decide))
    ["lib".toList] ⟨by decide, finds_of (by decide) (by decide)⟩ oddFs_noLinks [] "a".toList (by decide) (by decide) rfl none

/-- What is in a directory that a link leads to can be loaded, and is not listed. -/
example : ∃ ran, plot 0 homeRepo oddFs oddWalk none .list = some ran ∧ ["lib".toList] ++ ["a".toList] ∉ ran.stdout := by
  obtain ⟨ran, h1, h2⟩ := C96_loaded_partial 0 homeRepo ⟨by decide, by decide⟩ (by decide) (fun _ => false) oddFs oddFs_closed oddWalk
    oddWalk_walk ["home".toList] ⟨by decide, finds_of (by decide) (by decide)⟩ ["lib".toList] "a".toList
    (fun n hn => (by simp at hn; rcases hn with rfl | rfl <;> exact ⟨by decide, by decide, by decide⟩)) (by decide) none
  cases hd : homeRepo.findById oddFs (["lib".toList] ++ ["a".toList]) with
  | none => exact absurd hd (by decide)
  | some doc =>
    refine ⟨ran, h1, fun hx => ?_⟩
    obtain ⟨_, _, h3⟩ := (h2 doc hd).1 hx
    exact h3 [] "lib".toList [] ["..".toList, "lib".toList] rfl (by decide)

/-- A document in a directory is listed. -/
example : ∃ ran, plot 0 homeRepo homeFs homeWalk none .list = some ran ∧ ["x".toList] ++ ["a".toList] ∈ ran.stdout := by
  obtain ⟨ran, h1, h2⟩ := C96_loaded_partial 0 homeRepo ⟨by decide, by decide⟩ (by decide) (fun _ => false) homeFs homeFs_closed homeWalk
    homeWalk_walk ["home".toList] ⟨by decide, finds_of (by decide) (by decide)⟩ ["x".toList] "a".toList
    (fun n hn => (by simp at hn; rcases hn with rfl | rfl <;> exact ⟨by decide, by decide, by decide⟩)) (by decide) none
  cases hd : homeRepo.findById homeFs (["x".toList] ++ ["a".toList]) with
  | none => exact absurd hd (by decide)
  | some doc =>
    exact ⟨ran, h1, (h2 doc hd).2 ⟨by decide, rfl, fun d n rest t _ h => (by have := at_mem h; simp [homeFs] at this)⟩⟩

end Plotline
