import Verif.Lemmas.Cli
import Verif.Props.Ops
import Verif.Props.Lazy

/-! # Properties C52 to C56 and C59: the command line tool; C40 on its repository -/

namespace Plotline

open Std

/-- Shorthand for names in the examples. -/
local instance : Coe String Name := ⟨String.toList⟩

/-- The repository of the examples: `md` files under `/home`. -/
def homeRepo : LocalRepo := ⟨["home".toList], "md".toList⟩

theorem homeRepo_plain : PlainExt homeRepo.extension := ⟨by decide, by decide⟩

/-! ## C52 -/

/-- C52: what is listed, for every file system and every order of the walk: ids in strictly ascending order, and exactly the
paths, without the extension, of what is visible under the context with that extension.
Missing from C52: directories count as documents (`C52_refuted`), and so does a context that has nothing but the extension as
its name (`C52_context_itself`), which is excluded here. -/
theorem C52_list_partial (fuel : Nat) (r : LocalRepo) (he : PlainExt r.extension)
    (hctx : r.context.getLast? ≠ some ('.' :: r.extension)) (ignored : FilePath → Bool) (fs : Fs) (walked : List FilePath)
    (hw : Walk ignored r.context fs walked) (i : Option FilePath) :
    ∃ ran, plot fuel r fs walked i .list = some ran ∧ ran.result = .ret (.ok ()) ∧ Ascending ran.stdout ∧
      ∀ x, x ∈ ran.stdout ↔ ∃ rel, Visible ignored r.context fs rel ∧ DocAt r.extension rel x := by
  obtain ⟨h1, h2⟩ := list_stdout r walked
  refine ⟨_, plot_ok (extPattern_dotted he.dotted.2) .., rfl, h1, fun x => ?_⟩
  refine (h2 x).trans ((mem_all r walked x).trans ?_)
  constructor
  · rintro ⟨p, hp, hm⟩
    rcases (hw.mem p).1 hp with ⟨rfl, _⟩ | ⟨rel, hv, rfl⟩ | ⟨hc, rfl⟩
    · exact absurd hm (context_not_listed he hctx x)
    · exact ⟨rel, hv, (listed_below he hv x).1 hm⟩
    · exact absurd (hc ▸ hm.2) (stdin_stripped x)
  · rintro ⟨rel, hv, hd⟩
    exact ⟨_, (hw.mem _).2 (.inr (.inl ⟨rel, hv, rfl⟩)), (listed_below he hv x).2 hd⟩

/-- C52, the listing for any context: as before, and besides it the context itself, as the empty path, exactly if it exists and its
name is nothing but the extension. Missing from C52: that only files are listed, and not the context. -/
theorem C52_list_exact_partial (fuel : Nat) (r : LocalRepo) (he : PlainExt r.extension) (ignored : FilePath → Bool) (fs : Fs)
    (walked : List FilePath) (hw : Walk ignored r.context fs walked) (i : Option FilePath) :
    ∃ ran, plot fuel r fs walked i .list = some ran ∧ ran.result = .ret (.ok ()) ∧ Ascending ran.stdout ∧
      ∀ x, x ∈ ran.stdout ↔ (∃ rel, Visible ignored r.context fs rel ∧ DocAt r.extension rel x) ∨
        (x = [] ∧ r.context.getLast? = some ('.' :: r.extension) ∧ ∃ root, fs.Starts r.context root) := by
  by_cases hctx : r.context.getLast? = some ('.' :: r.extension)
  · obtain ⟨h1, h2⟩ := list_stdout r walked
    refine ⟨_, plot_ok (extPattern_dotted he.dotted.2) .., rfl, h1, fun x => ?_⟩
    refine (h2 x).trans ((mem_all r walked x).trans ?_)
    constructor
    · rintro ⟨p, hp, hm⟩
      rcases (hw.mem p).1 hp with ⟨rfl, hroot⟩ | ⟨rel, hv, rfl⟩ | ⟨hc, rfl⟩
      · exact .inr ⟨(context_listed he hctx x).1 hm, hctx, hroot⟩
      · exact .inl ⟨rel, hv, (listed_below he hv x).1 hm⟩
      · exact absurd (hc ▸ hm.2) (stdin_stripped x)
    · rintro (⟨rel, hv, hd⟩ | ⟨rfl, -, hroot⟩)
      · exact ⟨_, (hw.mem _).2 (.inr (.inl ⟨rel, hv, rfl⟩)), (listed_below he hv x).2 hd⟩
      · exact ⟨_, (hw.mem _).2 (.inl ⟨rfl, hroot⟩), (context_listed he hctx []).2 rfl⟩
  · obtain ⟨ran, h1, h2, h3, h4⟩ := C52_list_partial fuel r he hctx ignored fs walked hw i
    exact ⟨ran, h1, h2, h3, fun x => (h4 x).trans ⟨.inl, fun h => h.elim (fun h => h) fun h => absurd h.2.1 hctx⟩⟩

/-- C52: the output does not depend on the order of the walk, whatever the context and extension. -/
theorem C52_walk_order (fuel : Nat) (r : LocalRepo) (ignored : FilePath → Bool) (fs : Fs) (walked walked' : List FilePath)
    (hw : Walk ignored r.context fs walked) (hw' : Walk ignored r.context fs walked') (i : Option FilePath) :
    (plot fuel r fs walked i .list).map Ran.stdout = (plot fuel r fs walked' i .list).map Ran.stdout := by
  obtain ⟨h1, h2⟩ := list_stdout r walked
  obtain ⟨h1', h2'⟩ := list_stdout r walked'
  unfold plot
  split <;> try rfl
  refine congrArg some (h1.ext h1' fun x => ?_)
  refine (h2 x).trans (.trans ?_ (h2' x).symm)
  refine (mem_all r walked x).trans (.trans ?_ (mem_all r walked' x).symm)
  constructor
  · rintro ⟨p, hp, h⟩; exact ⟨p, (hw'.mem p).2 ((hw.mem p).1 hp), h⟩
  · rintro ⟨p, hp, h⟩; exact ⟨p, (hw.mem p).2 ((hw'.mem p).1 hp), h⟩

/-- The file system of the examples: two documents, one of them in a directory, another file, and a hidden one. -/
def homeFs : Fs where
  nodes :=
  [(["home".toList], .dir), (["home".toList, "b.md".toList], .file [1]), (["home".toList, "x".toList], .dir),
   (["home".toList, "x".toList, "a.md".toList], .file [2]), (["home".toList, "c.txt".toList], .file [3]),
   (["home".toList, ".md".toList], .file [4])]

/-- A walk over it. -/
def homeWalk : List FilePath :=
  [["home".toList], ["home".toList, "x".toList], ["home".toList, "x".toList, "a.md".toList], ["home".toList, "c.txt".toList],
   ["home".toList, "b.md".toList]]

/-- Deciding what a walk yields. -/
theorem walk_of {ctx : FilePath} {fs : Fs} {walked : List FilePath} (root : List Name) (rels : List FilePath) (h0 : ctx ≠ [] ∧ ctx ≠ stdinPath)
    (hr : fs.follow maxLinks fs.cwd ctx = some root) (h1 : walked.Nodup)
    (h2 : ∀ p ∈ walked, p = ctx ∨ ∃ rel ∈ rels, p = ctx ++ rel) (h3 : ctx ∈ walked) (h4 : ∀ rel ∈ rels, ctx ++ rel ∈ walked)
    (h5 : ∀ rel ∈ rels, rel ≠ [] ∧ (root ++ rel) ∈ fs.nodes.map Prod.fst ∧ ∀ n ∈ rel, n ≠ [] ∧ n.head? ≠ some '.')
    (h6 : ∀ e ∈ fs.nodes, ∀ rel, e.1 = root ++ rel → rel = [] ∨ rel ∈ rels ∨ ∃ n ∈ rel, n = [] ∨ n.head? = some '.') :
    Walk (fun _ => false) ctx fs walked := by
  have hroot := finds_of h0.1 hr
  refine ⟨h1, fun p => ⟨fun hp => ?_, ?_⟩⟩
  · rcases h2 p hp with h | ⟨rel, hr, rfl⟩
    · exact .inl ⟨h, root, h0.2, hroot⟩
    · obtain ⟨a, b, c⟩ := h5 rel hr
      obtain ⟨e, he, hee⟩ := List.mem_map.1 b
      exact .inr (.inl ⟨rel, ⟨a, ⟨root, e.2, ⟨h0.2, hroot⟩, by rw [← hee]; exact he⟩, c, rfl⟩, rfl⟩)
  · rintro (⟨rfl, _⟩ | ⟨rel, ⟨ha, ⟨root', n, ⟨_, hroot'⟩, hn⟩, hc, _⟩, rfl⟩ | ⟨h, _⟩)
    rotate_left 2
    · exact absurd h h0.2
    · exact h3
    · obtain rfl := hroot.unique hroot'
      rcases h6 _ hn rel rfl with h | h | ⟨m, hm, h | h⟩
      · exact absurd h ha
      · exact h4 rel h
      · exact absurd h (hc m hm).1
      · exact absurd h (hc m hm).2

/-- The same with everything below the root given, to be decided. -/
theorem walk_by {ctx : FilePath} {fs : Fs} {walked : List FilePath} (root : List Name) (rels : List FilePath) (h0 : ctx ≠ [] ∧ ctx ≠ stdinPath)
    (hr : fs.follow maxLinks fs.cwd ctx = some root) (h1 : walked.Nodup)
    (h2 : ∀ p ∈ walked, p = ctx ∨ ∃ rel ∈ rels, p = ctx ++ rel) (h3 : ctx ∈ walked) (h4 : ∀ rel ∈ rels, ctx ++ rel ∈ walked)
    (h5 : ∀ rel ∈ rels, rel ≠ [] ∧ (root ++ rel) ∈ fs.nodes.map Prod.fst ∧ ∀ n ∈ rel, n ≠ [] ∧ n.head? ≠ some '.')
    (h6 : ∀ e ∈ fs.nodes, ∀ rel ∈ (root.isPrefixOf? e.1).toList, rel = [] ∨ rel ∈ rels ∨ ∃ n ∈ rel, n = [] ∨ n.head? = some '.') :
    Walk (fun _ => false) ctx fs walked :=
  walk_of root rels h0 hr h1 h2 h3 h4 h5 fun e he rel hrel =>
    h6 e he rel (by rw [(isPrefixOf?_some _ _ _).2 hrel]; simp)

theorem homeWalk_walk : Walk (fun _ => false) homeRepo.context homeFs homeWalk :=
  walk_by ["home".toList] [["x".toList], ["x".toList, "a.md".toList], ["c.txt".toList], ["b.md".toList]] (by decide) (by decide)
    (by decide) (by decide) (by decide) (by decide) (by decide) (by decide)

example : (plot 0 homeRepo homeFs homeWalk none .list).map Ran.stdout =
    some [["b".toList], ["x".toList, "a".toList]] := by decide +kernel

/-- A file system for the examples. -/
def oddFs : Fs where
  nodes :=
  [(["home".toList], .dir), (["home".toList, "notes.md".toList], .dir), (["home".toList, "gone.md".toList], .link ["none".toList]),
   (["home".toList, "lib".toList], .link ["..".toList, "lib".toList]), (["home".toList, "locked.md".toList], .sealed),
   (["home".toList, ".h.md".toList], .file [2]), (["lib".toList], .dir), (["lib".toList, "a.md".toList], .file [1])]

/-- A walk over it. -/
def oddWalk : List FilePath :=
  [["home".toList], ["home".toList, "notes.md".toList], ["home".toList, "gone.md".toList], ["home".toList, "lib".toList],
   ["home".toList, "locked.md".toList]]

theorem oddWalk_walk : Walk (fun _ => false) homeRepo.context oddFs oddWalk :=
  walk_by ["home".toList] [["notes.md".toList], ["gone.md".toList], ["lib".toList], ["locked.md".toList]] (by decide) (by decide)
    (by decide) (by decide) (by decide) (by decide) (by decide) (by decide)

/-- C52 is false of the code: a directory whose name has the extension is listed as a document, and so is a link that leads
nowhere. -/
theorem C52_refuted : Walk (fun _ => false) homeRepo.context oddFs oddWalk ∧
    oddFs.at ["home".toList, "notes.md".toList] = some .dir ∧
    oddFs.follow maxLinks oddFs.cwd ["home".toList, "gone.md".toList] = none ∧
    (plot 0 homeRepo oddFs oddWalk none .list).map Ran.stdout = some [["gone".toList], ["locked".toList], ["notes".toList]] :=
  ⟨oddWalk_walk, by decide, by decide, by decide +kernel⟩

/-- C52 is also false for a context named like the extension: the context itself is listed, as the empty path. -/
theorem C52_context_itself : Walk (fun _ => false) [".md".toList] ⟨[([".md".toList], .dir)], []⟩ [[".md".toList]] ∧
    (plot 0 ⟨[".md".toList], "md".toList⟩ ⟨[([".md".toList], .dir)], []⟩ [[".md".toList]] none .list).map Ran.stdout = some [[]] :=
  ⟨walk_by [".md".toList] [] (by decide) (by decide) (by decide) (by decide) (by decide) (by decide) (by decide) (by decide),
    by decide +kernel⟩

/-! ## C56 and C59 -/

/-- C56: without an id `save` and `delete` fail, print nothing and change neither the graph nor the file system. -/
theorem C56_no_id (fuel : Nat) (fs : Fs) (S : Schema CliSig) (c : Subcommand) (hc : c ≠ .list) :
    execute fuel fs S none c = some ⟨.ret (.error .idNotSet), [], S, fs⟩ := by
  cases c with
  | delete => rfl
  | list => exact absurd rfl hc
  | save content => rfl

example : (execute 0 homeFs (homeRepo.schema homeWalk) none .delete).map (fun r => (r.result, r.stdout)) =
    some (.ret (.error .idNotSet), []) := by decide +kernel

theorem schema_quiet (r : LocalRepo) (walked : List FilePath) (s : Sched) : (r.schema walked).env.fire s = [] := by
  cases s <;> rfl

theorem schema_reachable (r : LocalRepo) (walked : List FilePath) : (r.schema walked).graph.Reachable := .fromIter _

/-- The schema of documents that are not loaded. -/
abbrev docsSchema (docs : List (LazyDocument FilePath Document)) : Schema CliSig := Schema.fromGraph (Graph.fromIter docs)

theorem execute_save (fs : Fs) (docs : List (LazyDocument FilePath Document)) (i : FilePath) (content : Option Bytes) :
    ∃ fuel0 ran, (∀ fuel, fuel0 ≤ fuel → execute fuel fs (docsSchema docs) (some i) (.save content) = some ran) ∧
      ran.result = .ret (.ok ()) ∧ ran.stdout = [] ∧
      ∀ q, ran.schema.guard.get q = if q = i then some ⟨i, some ⟨i, content.getD []⟩⟩ else (docsSchema docs).guard.get q := by
  have hq : ∀ s : Sched, (docsSchema docs).env.fire s = [] := fun s => by cases s <;> rfl
  obtain ⟨fuel0, S', h1, h2, _⟩ := C22_save_exact (docsSchema docs) (.fromIter _)
    (⟨i, some ⟨i, content.getD []⟩⟩ : LazyDocument FilePath Document) (hq _) (hq _)
  refine ⟨fuel0, ⟨.ret (.ok ()), [], S', fs⟩, fun fuel hle => ?_, rfl, rfl, fun q => ?_⟩
  · exact congrArg (Option.map _) (h1 fuel hle)
  · rw [h2 q]
    by_cases hq : q = i
    · subst hq; rw [if_pos rfl, if_pos]; exact BEq.rfl
    · rw [if_neg hq, if_neg]
      exact fun h => hq (eq_of_beq h)

theorem execute_delete (fs : Fs) (docs : List (LazyDocument FilePath Document)) (i : FilePath) :
    ∃ fuel0 ran, (∀ fuel, fuel0 ≤ fuel → execute fuel fs (docsSchema docs) (some i) .delete = some ran) ∧ ran.stdout = [] ∧
      ((i ∈ (docsSchema docs).guard.iter.map (fun node => node.id) ∧ ran.result = .ret (.ok ()) ∧
          ∀ q, ran.schema.guard.get q = if q = i then none else (docsSchema docs).guard.get q) ∨
       (i ∉ (docsSchema docs).guard.iter.map (fun node => node.id) ∧ ran.result = .ret (.error (.schema .noop)) ∧
          ran.schema.guard = (docsSchema docs).guard)) := by
  have hquiet : ∀ s : Sched, (docsSchema docs).env.fire s = [] := fun s => by cases s <;> rfl
  have hreach : (docsSchema docs).graph.Reachable := .fromIter _
  have hmem : i ∈ (docsSchema docs).guard.iter.map (fun node => node.id) ↔ ((docsSchema docs).guard.get i).isSome := by
    have hv : (docsSchema docs).guard.Valid := by rw [guard_eq]; exact hreach.valid
    constructor
    · intro h
      obtain ⟨n, hn, rfl⟩ := List.mem_map.1 h
      rw [show (docsSchema docs).guard.get n.id = some n from (Graph.mem_iter _ hv n).1 hn]; rfl
    · intro h
      obtain ⟨n, hn⟩ := Option.isSome_iff_exists.1 h
      have hid : i = Plotline.id n := eq_of_beq (Graph.get_some_id _ hv hn)
      exact List.mem_map.2 ⟨n, (Graph.mem_iter _ hv n).2 (hid ▸ hn), hid.symm⟩
  cases hg : (docsSchema docs).guard.get i with
  | none =>
    obtain ⟨fuel0, h⟩ := C23_delete_absent (docsSchema docs) i hg
    obtain ⟨S', h1, h2, _⟩ := h fuel0 (Nat.le_refl _)
    refine ⟨fuel0, ⟨.ret (.error (.schema .noop)), [], S', fs⟩, fun fuel hle => ?_, rfl, .inr ⟨?_, rfl, h2⟩⟩
    · unfold Schema.delete at h1
      exact congrArg (Option.map _) (transact_mono_le _ hle h1)
    · rw [hmem, hg]; exact fun h => nomatch h
  | some n =>
    obtain ⟨fuel0, S', h1, h2, _⟩ := C23_delete_present (docsSchema docs) hreach i n hg (hquiet _) (hquiet _)
    refine ⟨fuel0, ⟨.ret (.ok ()), [], S', fs⟩, fun fuel hle => ?_, rfl, .inl ⟨?_, rfl, fun q => ?_⟩⟩
    · exact congrArg (Option.map _) (h1 fuel hle)
    · rw [hmem, hg]; rfl
    · rw [h2 q]
      by_cases hq : q = i
      · subst hq; rw [if_pos rfl, if_pos]; exact BEq.rfl
      · rw [if_neg hq, if_neg]
        exact fun h => hq (eq_of_beq h)

/-- C59: `save` with an id succeeds; then the graph holds, under that id, a document with that id and the given content, and is
otherwise unchanged. -/
theorem C59_save (fs : Fs) (r : LocalRepo) (hr : ∃ re, extPattern r.extension = .ok re) (walked : List FilePath) (i : FilePath)
    (content : Option Bytes) :
    ∃ fuel0 ran, (∀ fuel, fuel0 ≤ fuel → plot fuel r fs walked (some i) (.save content) = some ran) ∧
      ran.result = .ret (.ok ()) ∧ ran.stdout = [] ∧
      ∀ q, ran.schema.guard.get q = if q = i then some ⟨i, some ⟨i, content.getD []⟩⟩ else (r.schema walked).guard.get q := by
  obtain ⟨fuel0, ran, h1, h2⟩ := execute_save fs (r.all walked) i content
  exact ⟨fuel0, ran, fun fuel hle => (plot_ok hr.choose_spec ..).trans (h1 fuel hle), h2⟩

/-- C59: `delete` with an id succeeds exactly if the id is listed, and then the graph holds everything else; otherwise it
reports that there is nothing to do. -/
theorem C59_delete (fs : Fs) (r : LocalRepo) (hr : ∃ re, extPattern r.extension = .ok re) (walked : List FilePath) (i : FilePath) :
    ∃ fuel0 ran, (∀ fuel, fuel0 ≤ fuel → plot fuel r fs walked (some i) .delete = some ran) ∧ ran.stdout = [] ∧
      ((i ∈ (r.schema walked).guard.iter.map (fun node => node.id) ∧ ran.result = .ret (.ok ()) ∧
          ∀ q, ran.schema.guard.get q = if q = i then none else (r.schema walked).guard.get q) ∨
       (i ∉ (r.schema walked).guard.iter.map (fun node => node.id) ∧ ran.result = .ret (.error (.schema .noop)) ∧
          ran.schema.guard = (r.schema walked).guard)) := by
  obtain ⟨fuel0, ran, h1, h2⟩ := execute_delete fs (r.all walked) i
  exact ⟨fuel0, ran, fun fuel hle => (plot_ok hr.choose_spec ..).trans (h1 fuel hle), h2⟩

example : (plot 20 homeRepo homeFs homeWalk (some ["b".toList]) .delete).map
    (fun r => (r.result, (r.schema.guard.iter.map fun n => n.id : List FilePath))) =
    some (.ret (.ok ()), [["x".toList, "a".toList]]) := by decide +kernel
example : (plot 20 homeRepo homeFs homeWalk (some ["c".toList]) .delete).map Ran.result =
    some (.ret (.error (.schema .noop))) := by decide +kernel

/-! ## C53 -/

theorem execute_fs {fuel : Nat} {fs : Fs} {S : Schema CliSig} {i : Option FilePath} {c : Subcommand} {ran : Ran}
    (h : execute fuel fs S i c = some ran) : ran.fs = fs := by
  unfold execute at h
  cases c with
  | list => cases h; rfl
  | delete =>
    cases i with
    | none => cases h; rfl
    | some i =>
      obtain ⟨⟨out, S'⟩, _, h2⟩ := Option.map_eq_some_iff.1 h
      subst h2
      rcases out with (e | v) | _ | _ <;> rfl
  | save content =>
    cases i with
    | none => cases h; rfl
    | some i =>
      simp only at h
      split at h
      · cases h; rfl
      · obtain ⟨⟨out, S'⟩, _, h2⟩ := Option.map_eq_some_iff.1 h
        subst h2
        rcases out with (e | v) | _ | _ <;> rfl

/-- No run of the tool changes what is on disk. -/
theorem plot_fs {fuel : Nat} {r : LocalRepo} {fs : Fs} {walked : List FilePath} {i : Option FilePath} {c : Subcommand} {ran : Ran}
    (h : plot fuel r fs walked i c = some ran) : ran.fs = fs := by
  unfold plot at h
  split at h
  · exact execute_fs h
  · cases h; rfl
  · cases h

/-- C53 is false of the code for all file systems, ids and contents: no run of the tool changes what is on disk, so a later
listing prints what one before the command prints. -/
theorem C53_never_durable (fuel fuel' : Nat) (r : LocalRepo) (ignored : FilePath → Bool) (fs : Fs) (walked walked' : List FilePath)
    (hw : Walk ignored r.context fs walked) (i i' : Option FilePath) (c : Subcommand) (ran : Ran)
    (h : plot fuel r fs walked i c = some ran) (hw' : Walk ignored r.context ran.fs walked') :
    ran.fs = fs ∧ (plot fuel' r ran.fs walked' i' .list).map Ran.stdout = (plot fuel' r fs walked i' .list).map Ran.stdout := by
  have hfs := plot_fs h
  refine ⟨hfs, ?_⟩
  rw [hfs] at hw' ⊢
  exact C52_walk_order fuel' r ignored fs walked' walked hw' hw i'

/-- C53 is false of the code: a document is saved, and another deleted, with success; a later listing shows the one deleted, and
not the one saved. -/
theorem C53_refuted : ∃ (saved deleted : Ran), plot 20 homeRepo homeFs homeWalk (some ["new".toList]) (.save none) = some saved ∧
    saved.result = .ret (.ok ()) ∧ plot 20 homeRepo saved.fs homeWalk (some ["b".toList]) .delete = some deleted ∧
    deleted.result = .ret (.ok ()) ∧ Walk (fun _ => false) homeRepo.context deleted.fs homeWalk ∧
    (plot 20 homeRepo deleted.fs homeWalk none .list).map Ran.stdout = some [["b".toList], ["x".toList, "a".toList]] := by
  have hs : ((plot 20 homeRepo homeFs homeWalk (some ["new".toList]) (.save none)).map Ran.result) = some (.ret (.ok ())) := by
    decide +kernel
  have hd : ((plot 20 homeRepo homeFs homeWalk (some ["b".toList]) .delete).map Ran.result) = some (.ret (.ok ())) := by
    decide +kernel
  obtain ⟨saved, h1, h2⟩ := Option.map_eq_some_iff.1 hs
  obtain ⟨deleted, h3, h4⟩ := Option.map_eq_some_iff.1 hd
  have e1 := plot_fs h1
  have e2 := plot_fs h3
  refine ⟨saved, deleted, h1, h2, by rw [e1]; exact h3, h4, by rw [e2]; exact homeWalk_walk, by rw [e2]; decide +kernel⟩

/-! ## C54 -/

/-- C54, exactly when it holds: the id a document is listed under leads back to its file if and only if its name has no dot
apart from the one before the extension.
Missing from C54: names with more dots (`C54_refuted`). -/
theorem C54_iff_partial (r : LocalRepo) (he : PlainExt r.extension) (ignored : FilePath → Bool) (fs : Fs) (dir : FilePath) (stem : Name)
    (hv : Visible ignored r.context fs (dir ++ [stem ++ '.' :: r.extension])) :
    ('.' ∉ stem → r.findById fs (dir ++ [stem]) =
      (fs.read (r.context ++ (dir ++ [stem ++ '.' :: r.extension]))).map
        fun bytes => ⟨r.context ++ (dir ++ [stem ++ '.' :: r.extension]), bytes⟩) ∧
    ('.' ∈ stem → ∀ d, r.findById fs (dir ++ [stem]) = some d →
      d.path ≠ r.context ++ (dir ++ [stem ++ '.' :: r.extension])) := by
  obtain ⟨_, n, hn, hn2⟩ := hv.snoc
  obtain ⟨_, hn3⟩ := List.append_inj' hn rfl
  cases hn3
  obtain ⟨hs1, hs2⟩ := visible_stem hn2
  have hp : withExtension (r.context ++ (dir ++ [stem])) r.extension =
      r.context ++ (dir ++ [fileStem stem ++ '.' :: r.extension]) := by
    rw [← List.append_assoc, withExtension_snoc, withExt_add hs1 hs2 he.1, List.append_assoc]
  unfold LocalRepo.findById
  simp only [joinPath_relative (hv.relative.snoc hs1 (head_ne_dot hs2)), hp]
  constructor
  · intro h
    rw [(fileStem_eq_self hs2).2 h]
  · intro h d hd
    obtain ⟨_, _, rfl⟩ := Option.map_eq_some_iff.1 hd
    intro heq
    have h2 := (List.append_inj' (List.append_cancel_left heq) rfl).2
    simp only [List.cons.injEq, and_true] at h2
    have h3 := List.append_cancel_right h2
    exact (fileStem_eq_self hs2).1 h3 h

example : Visible (fun _ => false) homeRepo.context homeFs (["x".toList] ++ ["a".toList ++ '.' :: homeRepo.extension]) :=
  ⟨by decide, ⟨["home".toList], .file [2], ⟨by decide, finds_of (by decide) (by decide)⟩, by decide⟩, by decide, rfl⟩

/-- C54 is false of the code: `a.b.md` is listed as `a.b`, and loading `a.b` gives the content of `a.md`. -/
theorem C54_refuted : ∃ (fs : Fs) (walked : List FilePath) (d : Document), Walk (fun _ => false) homeRepo.context fs walked ∧
    fs.read (homeRepo.context ++ ["a.b.md".toList]) = some [1] ∧
    (plot 0 homeRepo fs walked none .list).map Ran.stdout = some [["a".toList], ["a.b".toList]] ∧
    homeRepo.findById fs ["a.b".toList] = some d ∧ d.bytes = [2] ∧ d.path = homeRepo.context ++ ["a.md".toList] := by
  refine ⟨⟨[(["home".toList], .dir), (["home".toList, "a.b.md".toList], .file [1]), (["home".toList, "a.md".toList], .file [2])], []⟩,
    [["home".toList], ["home".toList, "a.b.md".toList], ["home".toList, "a.md".toList]], ⟨_, _⟩,
    ?_, by decide, by decide +kernel, rfl, by decide, by decide⟩
  exact walk_by ["home".toList] [["a.b.md".toList], ["a.md".toList]] (by decide) (by decide) (by decide) (by decide) (by decide)
    (by decide) (by decide) (by decide)

/-! ## C55 -/

/-- Different paths with the extension have different ids, and one path has one id. -/
theorem docAt_unique (ext : Name) (rel rel' i i' : FilePath) (h : DocAt ext rel i) (h' : DocAt ext rel' i') : rel = rel' ↔ i = i' := by
  obtain ⟨dir, stem, rfl, rfl⟩ := h
  obtain ⟨dir', stem', rfl, rfl⟩ := h'
  constructor
  · intro h
    obtain ⟨rfl, h2⟩ := List.append_inj' h rfl
    simp only [List.cons.injEq, and_true] at h2
    rw [List.append_cancel_right h2]
  · intro h
    obtain ⟨rfl, h2⟩ := List.append_inj' h rfl
    cases h2; rfl

/-- C55 on the code: two visible paths that the listing gives the same id are the same path. -/
theorem C55_listed (r : LocalRepo) (he : PlainExt r.extension) (ignored : FilePath → Bool) (fs : Fs) (rel rel' i : FilePath)
    (hv : Visible ignored r.context fs rel) (hv' : Visible ignored r.context fs rel')
    (h : i ∈ (r.all [r.context ++ rel]).map fun node => node.id)
    (h' : i ∈ (r.all [r.context ++ rel']).map fun node => node.id) : rel = rel' := by
  obtain ⟨p, hp, h⟩ := (mem_all r _ i).1 h
  obtain ⟨p', hp', h'⟩ := (mem_all r _ i).1 h'
  rw [List.mem_singleton.1 hp] at h
  rw [List.mem_singleton.1 hp'] at h'
  exact (docAt_unique _ _ _ _ _ ((listed_below he hv i).1 h) ((listed_below he hv' i).1 h')).2 rfl

example : ((homeRepo.all [["home".toList, "x".toList, "a.md".toList]]).map fun node => node.id) = [["x".toList, "a".toList]] := by
  decide +kernel

/-! ## C40 -/

/-- C40 fails on the repository of the tool for every context but the empty one: a document it loads never has the id it was
asked for, if that is a relative path. -/
theorem C40_never_faithful (r : LocalRepo) (hctx : r.context ≠ []) (fs : Fs) (i : FilePath) (hi : Relative i) (d : Document)
    (h : r.findById fs i = some d) : d.path ≠ i := by
  obtain ⟨_, _, rfl⟩ := Option.map_eq_some_iff.1 h
  intro h
  have := congrArg List.length h
  simp only [joinPath_relative hi, withExtension_length, List.length_append] at this
  exact hctx (List.eq_nil_of_length_eq_zero (by omega))

/-- C40 is false of the code: a listed document with id `b`, dereferenced, has the id `home/b.md`. -/
theorem C40_refuted : idResult Document.path [.repo (homeRepo.findById homeFs), .build ["b".toList]] 0 = some ["b".toList] ∧
    derefResult Document.path [.repo (homeRepo.findById homeFs), .build ["b".toList]] 0 =
      some (some ⟨["home".toList, "b.md".toList], [1]⟩) := ⟨rfl, by decide⟩

end Plotline
