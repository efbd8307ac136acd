import Verif.Props.Links
import Verif.Props.Shell
import Verif.Spec.Moved

/-! # Property C125: a directory of documents can be somewhere else -/

namespace Plotline

open Std

theorem SameBelow.symm {fs fs' : Fs} {root root' : List Name} (h : SameBelow fs root fs' root') : SameBelow fs' root' fs root :=
  fun rel hr => (h rel hr).symm

theorem SameBelow.names {fs fs' : Fs} {root root' : List Name} (h : SameBelow fs root fs' root') : SameNames fs root fs' root' :=
  fun rel hr => congrArg Option.isSome (h rel hr)

theorem SameNames.symm {fs fs' : Fs} {root root' : List Name} (h : SameNames fs root fs' root') : SameNames fs' root' fs root :=
  fun rel hr => (h rel hr).symm

theorem LeadsWithin.leads {fs : Fs} {root here there : List Name} {p : FilePath} {k : Nat} (h : LeadsWithin fs root here p there k) :
    Leads fs (root ++ here) p (root ++ there) k := by
  induction h with
  | here => exact .here
  | dot _ ih => exact .dot ih
  | up hne _ ih => exact .up (by rwa [List.dropLast_append_of_ne_nil hne])
  | dir hn ha _ ih => rw [← List.append_assoc] at ha ih; exact .dir hn ha ih
  | link hn ha _ ih => rw [← List.append_assoc] at ha; exact .link hn ha ih
  | last hn ha hx => rw [← List.append_assoc] at ha ⊢; exact .last hn ha hx

theorem LeadsWithin.moved {fs fs' : Fs} {root root' : List Name} (hs : SameBelow fs root fs' root') {here there : List Name}
    {p : FilePath} {k : Nat} (h : LeadsWithin fs root here p there k) : LeadsWithin fs' root' here p there k := by
  induction h with
  | here => exact .here
  | dot _ ih => exact .dot ih
  | up hne _ ih => exact .up hne ih
  | dir hn ha _ ih => rw [hs _ (by simp)] at ha; exact .dir hn ha ih
  | link hn ha _ ih => rw [hs _ (by simp)] at ha; exact .link hn ha ih
  | last hn ha hx => rw [hs _ (by simp)] at ha; exact .last hn ha hx

theorem LeadsWithin.noLinks {fs : Fs} {root here there : List Name} {p : FilePath} {k : Nat} (hl : fs.NoLinks root)
    (h : LeadsWithin fs root here p there k) : k = 0 := by
  induction h with
  | here => rfl
  | dot _ ih => exact ih
  | up _ _ ih => exact ih
  | dir _ _ _ ih => exact ih
  | link _ ha => exact absurd ha (hl _ _ (by simp))
  | last => rfl

/-- Without links a path that does not leave the directory leads to files in it. -/
theorem stays_within {fs : Fs} (hf : fs.Closed) (e : Name) (root : List Name) (hl : fs.NoLinks root) {k : Nat} {p : FilePath}
    (h : Stays k p) :
    ∀ rel : FilePath, rel.length = k → fs.Dir (root ++ rel) → ∀ q bytes j,
      Leads fs (root ++ rel) (withExtension p e) q j → fs.at q = some (.file bytes) →
        ∃ rel', q = root ++ rel' ∧ LeadsWithin fs root rel (withExtension p e) rel' j := by
  induction h with
  | @last k n hn =>
    intro rel hk hd q bytes j hq hb
    rw [show ([n] : FilePath) = [] ++ [n] from rfl, withExtension_snoc, List.nil_append] at hq ⊢
    have hne := withExt_ne_nil e hn.1
    have hnd := withExt_dot e hn.2.2
    generalize withExt n e = m at hq hne hnd
    cases hq with
    | root => exact absurd rfl hne
    | dot => exact absurd rfl hnd
    | up h =>
      cases h
      rcases hf.up hd with h | h
      · rw [h] at hb
        obtain ⟨_, _, h', _⟩ := hf.2.1 _ (at_mem hb)
        simp at h'
      · rw [h] at hb; cases hb
    | dir _ ha h => cases h; rw [ha] at hb; cases hb
    | link _ ha => rw [List.append_assoc] at ha; exact absurd ha (hl _ _ (by simp))
    | last hp ha hx =>
      rw [List.append_assoc] at ha
      exact ⟨rel ++ [m], by simp, .last hp ha hx⟩
  | @down k n p hn hp ih =>
    intro rel hk hd q bytes j hq hb
    rw [withExtension_cons n e hp.ne_nil] at hq ⊢
    have hw := withExtension_ne_nil e hp.ne_nil
    generalize withExtension p e = w at hq hw ih
    cases hq with
    | root => exact absurd rfl hn.1
    | dot => exact absurd rfl hn.2.2
    | up => exact absurd rfl hn.2.1
    | dir _ ha h =>
      rw [List.append_assoc] at h ha
      obtain ⟨rel', h1, h2⟩ := ih (rel ++ [n]) (by simp [hk]) (.inr ha) q bytes j h hb
      exact ⟨rel', h1, .dir hn ha h2⟩
    | link _ ha => rw [List.append_assoc] at ha; exact absurd ha (hl _ _ (by simp))
    | last => exact absurd rfl hw
  | @up k p hp ih =>
    intro rel hk hd q bytes j hq hb
    rw [withExtension_cons dotdot e hp.ne_nil] at hq ⊢
    rcases List.eq_nil_or_concat rel with rfl | ⟨rel', n, rfl⟩
    · cases hk
    · rw [List.concat_eq_append] at *
      have hup := hf.up hd
      rw [← List.append_assoc, List.dropLast_concat] at hup
      generalize withExtension p e = w at hq ih
      cases hq with
      | up h =>
        rw [← List.append_assoc, List.dropLast_concat] at h
        obtain ⟨rel'', h1, h2⟩ := ih rel' (by simpa using hk) hup q bytes j h hb
        exact ⟨rel'', h1, .up (by simp) (by rwa [List.dropLast_concat])⟩
      | dir hn => exact absurd rfl hn.2.1
      | link hn => exact absurd rfl hn.2.1
      | last hn => exact absurd rfl hn.2.1

/-- The documents of a repository are known by their ids. -/
theorem schema_entries (r : LocalRepo) (walked : List FilePath) :
    r.schema walked = Schema.fromGraph (σ := CliSig)
      ⟨⟨((r.schema walked).guard.iter.map fun node => node.id).map fun i => (i, LazyDocument.build i)⟩⟩ := by
  have hg : (r.schema walked).guard = Graph.fromIter (r.all walked) := guard_eq _
  rw [hg]
  refine congrArg (Schema.fromGraph (σ := CliSig)) ?_
  have hv : (Graph.fromIter (r.all walked) : Graph FilePath (LazyDocument FilePath Document)).Valid := Graph.valid_fromIter _
  have hb : ∀ n ∈ (Graph.fromIter (r.all walked) : Graph FilePath (LazyDocument FilePath Document)).iter, n = .build n.id := by
    intro n hn
    have h := (Graph.mem_iter _ hv n).1 hn
    rw [Graph.fromIter_eq, Graph.get_foldl_insert _ _ Graph.valid_empty] at h
    have h' : (r.all walked).reverse.find? (fun m => (Plotline.id n : FilePath) == Plotline.id m) = some n := by
      rw [← h]; exact (Option.or_none ..).symm
    have hm := List.mem_reverse.1 (List.mem_of_find?_eq_some h')
    obtain ⟨i, _, rfl⟩ := List.mem_map.1 hm
    rfl
  generalize (Graph.fromIter (r.all walked) : Graph FilePath (LazyDocument FilePath Document)) = g at hv hb
  obtain ⟨⟨es⟩⟩ := g
  congr 2
  have hk := hv.keys
  show es = ((es.map Prod.snd).map fun node => node.id).map _
  rw [List.map_map, List.map_map]
  refine (List.map_id es).symm.trans (List.map_congr_left fun e he => ?_)
  have h1 : e.1 = e.2.id := LawfulEqOrd.eq_of_compare (hk e he)
  have h2 := hb e.2 (List.mem_map.2 ⟨e, he, rfl⟩)
  exact Prod.ext h1 h2

theorem execute_elsewhere (fuel : Nat) (fs fs' : Fs) (S : Schema CliSig) (i : Option FilePath) (c : Subcommand) :
    (execute fuel fs S i c).map (fun ran => (ran.result, ran.stdout, ran.schema)) =
      (execute fuel fs' S i c).map fun ran => (ran.result, ran.stdout, ran.schema) := by
  unfold execute
  cases c with
  | list => rfl
  | delete =>
    cases i with
    | none => rfl
    | some i =>
      simp only [Option.map_map]
      refine congrArg (Option.map · _) (funext fun x => ?_)
      rcases x with ⟨(_ | _) | _ | _, S'⟩ <;> rfl
  | save content =>
    cases i with
    | none => rfl
    | some i =>
      simp only
      split
      · rfl
      · simp only [Option.map_map]
        refine congrArg (Option.map · _) (funext fun x => ?_)
        rcases x with ⟨(_ | _) | _ | _, S'⟩ <;> rfl

/-! ## C125 -/

/-- C125: where there are the same names below the directories the contexts lead to, be it of files, directories or anything else, every
command has the same result, prints the same and leaves the same documents in memory, wherever the directories are and whatever else
there is.
The exceptions are contexts whose own name the expression matches, and the one the walker takes for the standard input. -/
theorem C125_run (fuel : Nat) (fs fs' : Fs) (hf : fs.Closed) (hf' : fs'.Closed) (ctx ctx' : FilePath) (root root' : List Name)
    (h : fs.Finds ctx root) (h' : fs'.Finds ctx' root') (hsame : SameNames fs root fs' root') (hs : ctx ≠ stdinPath)
    (hs' : ctx' ≠ stdinPath) (ext : Name) (re : Re) (hre : Alts (writtenExt ext) re) (hctx : ¬ re.Finds (givenName ctx))
    (hctx' : ¬ re.Finds (givenName ctx')) (ignored : FilePath → Bool) (walked walked' : List FilePath)
    (hw : Walk ignored ctx fs walked) (hw' : Walk ignored ctx' fs' walked') (i : Option FilePath) (c : Subcommand) :
    (plot fuel ⟨ctx, ext⟩ fs walked i c).map (fun ran => (ran.result, ran.stdout, ran.schema)) =
      (plot fuel ⟨ctx', ext⟩ fs' walked' i c).map fun ran => (ran.result, ran.stdout, ran.schema) := by
  have hr := (C72_grammar _ re).2 hre
  obtain ⟨ran, h1, _, h2, h3⟩ := C72_list fuel ⟨ctx, ext⟩ re hre ignored fs walked hw i
  obtain ⟨ran', h1', _, h2', h3'⟩ := C72_list fuel ⟨ctx', ext⟩ re hre ignored fs' walked' hw' i
  have vis : ∀ rel, Visible ignored ctx fs rel ↔ Visible ignored ctx' fs' rel := by
    have : ∀ {f f' : Fs} {c c' : FilePath} {r r' : List Name}, f.Closed → f.Finds c r → f'.Starts c' r' → SameNames f r f' r' → ∀ rel,
        Visible ignored c f rel → Visible ignored c' f' rel := by
      rintro f f' c c' r r' hcl hc hc' hsb rel ⟨a, ⟨root', n, hr, hn⟩, b⟩
      obtain rfl := hr.2.unique hc
      have hat := at_of_mem hcl.1 hn
      have hsome := hsb rel a
      rw [hat] at hsome
      obtain ⟨n', hn'⟩ := Option.isSome_iff_exists.1 hsome.symm
      exact ⟨a, ⟨r', n', hc', at_mem hn'⟩, b⟩
    exact fun rel => ⟨this hf h ⟨hs', h'⟩ hsame rel, this hf' h' ⟨hs, h⟩ hsame.symm rel⟩
  have hout : ran.stdout = ran'.stdout := by
    refine h2.ext h2' fun x => ?_
    rw [h3, h3']
    simp only [vis, hctx, hctx', false_and, and_false]
  rw [plot_ok hr] at h1 h1'
  cases h1
  cases h1'
  rw [plot_ok hr, plot_ok hr, schema_entries ⟨ctx, ext⟩ walked, schema_entries ⟨ctx', ext⟩ walked']
  dsimp only at hout
  rw [hout]
  exact execute_elsewhere ..

/-- C125: so command lines that differ in nothing but the context, run in any directories, end in the same way: with the same status,
output and error. -/
theorem C125_process (fs fs' : Fs) (hf : fs.Closed) (hf' : fs'.Closed) (here here' : FilePath) (o o' : Options) (i : Option Word)
    (a : Action) (content : Option Word) (ws ws' : List Word) (hl : Line ws ⟨o, i, a, content⟩) (hl' : Line ws' ⟨o', i, a, content⟩)
    (ctx ctx' : FilePath) (ext : Name) (hr : Says here o ⟨ctx, ext⟩) (hr' : Says here' o' ⟨ctx', ext⟩) (root root' : List Name)
    (h : fs.Finds ctx root) (h' : fs'.Finds ctx' root') (hsame : SameNames fs root fs' root') (hs : ctx ≠ stdinPath)
    (hs' : ctx' ≠ stdinPath) (re : Re) (hre : Alts (writtenExt ext) re) (hctx : ¬ re.Finds (givenName ctx))
    (hctx' : ¬ re.Finds (givenName ctx')) (ignored : FilePath → Bool) (walk walk' : FilePath → List FilePath)
    (hw : Walk ignored ctx fs (walk ctx)) (hw' : Walk ignored ctx' fs' (walk' ctx')) (plain : Char → Bool) (room : Option Nat)
    (x : Exit) : Exits here fs walk plain room ws x ↔ Exits here' fs' walk' plain room ws' x := by
  have key : ∀ fuel, (plotline fuel here fs walk ws).bind (·.exit plain room) =
      (plotline fuel here' fs' walk' ws').bind (·.exit plain room) := by
    intro fuel
    rw [plotline_line hl hr, plotline_line hl' hr']
    have h1 := C125_run fuel fs fs' hf hf' ctx ctx' root root' h h' hsame hs hs' ext re hre hctx hctx' ignored _ _ hw hw' (i.map parsePath)
      (Invocation.command ⟨o, i, a, content⟩)
    have hc : Invocation.command ⟨o', i, a, content⟩ = Invocation.command ⟨o, i, a, content⟩ := rfl
    rw [hc]
    unfold plotDoc
    revert h1
    dsimp only
    generalize plot fuel ⟨ctx, ext⟩ fs (walk ctx) (i.map parsePath) (Invocation.command ⟨o, i, a, content⟩) = r1
    generalize plot fuel ⟨ctx', ext⟩ fs' (walk' ctx') (i.map parsePath) (Invocation.command ⟨o, i, a, content⟩) = r2
    intro h1
    cases r1 with
    | none => cases r2 with
      | none => rfl
      | some => cases h1
    | some r1 => cases r2 with
      | none => cases h1
      | some r2 =>
        obtain ⟨a1, b1, c1, d1⟩ := r1
        obtain ⟨a2, b2, c2, d2⟩ := r2
        cases h1
        rfl
  unfold Exits
  simp only [← Option.bind_eq_some_iff, key]

/-- C125: what an id loads without leaving the context, links or not, it loads in the other place, unless the way there takes more
links. -/
theorem C125_load (fs fs' : Fs) (hf : fs.Closed) (hf' : fs'.Closed) (ctx ctx' : FilePath) (root root' : List Name) (k k' : Nat)
    (h : Leads fs fs.cwd ctx root k) (h' : Leads fs' fs'.cwd ctx' root' k') (hd : fs.Dir root) (hd' : fs'.Dir root')
    (hsame : SameBelow fs root fs' root') (hk : k' ≤ k) (ext : Name) (i : FilePath) (hi : Relative i) (hne : i ≠ []) (rel : List Name)
    (j : Nat) (hin : LeadsWithin fs root [] (withExtension i ext) rel j) (d : Document)
    (hload : (⟨ctx, ext⟩ : LocalRepo).findById fs i = some d) :
    ∃ d', (⟨ctx', ext⟩ : LocalRepo).findById fs' i = some d' ∧ d'.bytes = d.bytes := by
  have h1 := findById_bytes ⟨ctx, ext⟩ fs hi hne
  rw [hload] at h1
  obtain ⟨there, j', hj, h2, hb⟩ := (read_beyond hf h hd (withExtension_ne_nil ext hne) d.bytes).1 h1.symm
  have h3 := hin.leads
  rw [List.append_nil] at h3
  obtain rfl := h2.unique h3
  obtain rfl := h2.same_links h3
  have hrel : rel ≠ [] := by
    rintro rfl
    rw [List.append_nil] at hb
    rcases hd with rfl | hd
    · obtain ⟨_, _, h', _⟩ := hf.2.1 _ (at_mem hb)
      simp at h'
    · rw [hd] at hb; cases hb
  rw [hsame rel hrel] at hb
  have h4 := (hin.moved hsame).leads
  rw [List.append_nil] at h4
  have h5 := (read_beyond hf' h' hd' (withExtension_ne_nil ext hne) d.bytes).2 ⟨_, _, by omega, h4, hb⟩
  have h6 := findById_bytes ⟨ctx', ext⟩ fs' hi hne
  rw [h5] at h6
  exact Option.map_eq_some_iff.1 h6

/-- C125: without links in the directory every id that ends with a name and does not leave it loads the same in both places. -/
theorem C125_plain (fs fs' : Fs) (hf : fs.Closed) (hf' : fs'.Closed) (ctx ctx' : FilePath) (root root' : List Name)
    (h : fs.Finds ctx root) (h' : fs'.Finds ctx' root') (hd : fs.Dir root) (hd' : fs'.Dir root')
    (hsame : SameBelow fs root fs' root') (hl : fs.NoLinks root) (ext : Name) (i : FilePath) (hi : Stays 0 i) :
    ((⟨ctx, ext⟩ : LocalRepo).findById fs i).map Document.bytes = ((⟨ctx', ext⟩ : LocalRepo).findById fs' i).map Document.bytes := by
  have hl' : fs'.NoLinks root' := fun rel target hr he => hl rel target hr ((hsame rel hr).trans he)
  have half : ∀ {f f' : Fs} {c c' : FilePath} {r r' : List Name}, f.Closed → f'.Closed → f.Finds c r → f'.Finds c' r' → f.Dir r → f'.Dir r' →
      SameBelow f r f' r' → f.NoLinks r → ∀ b, f.read (c ++ withExtension i ext) = some b → f'.read (c' ++ withExtension i ext) = some b := by
    rintro f f' c c' r r' hcl hcl' ⟨_, k, _, hk⟩ ⟨_, k', hmax, hk'⟩ hdir hdir' hsb hnl b hb
    obtain ⟨there, j, _, h2, hb⟩ := (read_beyond hcl hk hdir (withExtension_ne_nil ext hi.ne_nil) b).1 hb
    obtain ⟨rel, rfl, hin⟩ := stays_within hcl ext r hnl hi [] rfl (by simpa using hdir) there b j (by simpa using h2) hb
    obtain rfl := hin.noLinks hnl
    have hrel : rel ≠ [] := by
      rintro rfl
      rw [List.append_nil] at hb
      rcases hdir with rfl | hdir
      · obtain ⟨_, _, h', _⟩ := hcl.2.1 _ (at_mem hb)
        simp at h'
      · rw [hdir] at hb; cases hb
    rw [hsb rel hrel] at hb
    have h4 := (hin.moved hsb).leads
    rw [List.append_nil] at h4
    exact (read_beyond hcl' hk' hdir' (withExtension_ne_nil ext hi.ne_nil) b).2 ⟨_, 0, by omega, h4, hb⟩
  rw [findById_bytes ⟨ctx, ext⟩ fs hi.relative hi.ne_nil, findById_bytes ⟨ctx', ext⟩ fs' hi.relative hi.ne_nil]
  refine Option.ext fun b => ?_
  exact ⟨half hf hf' h h' hd hd' hsame hl b, half hf' hf h' h hd' hd hsame.symm hl' b⟩

/-- Notes at home, and on a disk that is mounted elsewhere. -/
def notesFs : Fs := ⟨[(["home".toList], .dir), (["home".toList, "a.md".toList], .file [1]), (["home".toList, "d".toList], .dir),
  (["home".toList, "d".toList, "b.md".toList], .file [2]), (["x.md".toList], .file [9])], []⟩
def diskNotesFs : Fs := ⟨[(["mnt".toList], .dir), (["mnt".toList, "n".toList], .dir), (["mnt".toList, "n".toList, "d".toList], .dir),
  (["mnt".toList, "n".toList, "d".toList, "b.md".toList], .file [2]), (["mnt".toList, "n".toList, "a.md".toList], .file [1])],
  ["mnt".toList]⟩

theorem home_disk : SameBelow notesFs ["home".toList] diskNotesFs ["mnt".toList, "n".toList] := by
  have key : ∀ (fs : Fs) (root rel : List Name), fs.at (root ++ rel) =
      ((fs.nodes.filterMap fun e => (root.isPrefixOf? e.1).map fun q => (q, e.2)).find? (fun e => e.1 = rel)).map Prod.snd := by
    intro fs root rel
    unfold Fs.at
    induction fs.nodes with
    | nil => rfl
    | cons e es ih =>
      rw [List.find?_cons, List.filterMap_cons]
      cases hp : root.isPrefixOf? e.1 with
      | none =>
        have : e.1 ≠ root ++ rel := fun he => by
          rw [(isPrefixOf?_some root e.1 rel).2 he] at hp; cases hp
        simp only [this, decide_false, Option.map_none]
        exact ih
      | some q =>
        have hq := (isPrefixOf?_some root e.1 q).1 hp
        simp only [Option.map_some, List.find?_cons]
        by_cases hqr : q = rel
        · simp [hq, hqr]
        · simp only [hq, List.append_cancel_left_eq, hqr, decide_false]
          exact ih
  intro rel hr
  rw [key, key]
  have e1 : (notesFs.nodes.filterMap fun e => (["home".toList].isPrefixOf? e.1).map fun q => (q, e.2)) =
      [([], .dir), (["a.md".toList], .file [1]), (["d".toList], .dir), (["d".toList, "b.md".toList], .file [2])] := by decide +kernel
  have e2 : (diskNotesFs.nodes.filterMap fun e => (["mnt".toList, "n".toList].isPrefixOf? e.1).map fun q => (q, e.2)) =
      [([], .dir), (["d".toList], .dir), (["d".toList, "b.md".toList], .file [2]), (["a.md".toList], .file [1])] := by decide +kernel
  rw [e1, e2]
  simp only [List.find?_cons, List.find?_nil]
  by_cases h1 : ["a.md".toList] = rel
  · subst h1; rfl
  by_cases h2 : ["d".toList] = rel
  · subst h2; rfl
  by_cases h3 : ["d".toList, "b.md".toList] = rel
  · subst h3; rfl
  simp only [h1, h2, h3, hr.symm, decide_false]

-- the contexts lead there, in one case from another working directory
example : notesFs.Finds [[], "home".toList] ["home".toList] ∧ diskNotesFs.Finds ["n".toList] ["mnt".toList, "n".toList] :=
  ⟨finds_of (by decide) (by decide +kernel), finds_of (by decide) (by decide +kernel)⟩

-- both list the same and load the same, and an id that leaves the context does not
example : (plot 0 ⟨[[], "home".toList], "md".toList⟩ notesFs
      [[[], "home".toList], [[], "home".toList, "a.md".toList], [[], "home".toList, "d".toList], [[], "home".toList, "d".toList, "b.md".toList]]
      none .list).map Ran.stdout = some [["a".toList], ["d".toList, "b".toList]] ∧
    (plot 0 ⟨["n".toList], "md".toList⟩ diskNotesFs
      [["n".toList], ["n".toList, "d".toList], ["n".toList, "d".toList, "b.md".toList], ["n".toList, "a.md".toList]]
      none .list).map Ran.stdout = some [["a".toList], ["d".toList, "b".toList]] := by decide +kernel
example : let home : LocalRepo := ⟨[[], "home".toList], "md".toList⟩
    let disk : LocalRepo := ⟨["n".toList], "md".toList⟩
    (home.findById notesFs ["d".toList, "b".toList]).map Document.bytes = some [2] ∧
    (disk.findById diskNotesFs ["d".toList, "b".toList]).map Document.bytes = some [2] ∧
    (home.findById notesFs [dotdot, "x".toList]).map Document.bytes = some [9] ∧
    (disk.findById diskNotesFs [dotdot, "x".toList]).map Document.bytes = none := by decide +kernel

theorem notesFs_closed : notesFs.Closed := by
  refine ⟨by decide, fun e he => ?_, by decide⟩
  have : ∀ e ∈ notesFs.nodes, ∃ n ∈ e.1.getLast?, e.1 = e.1.dropLast ++ [n] ∧ (n ≠ [] ∧ n ≠ dotdot ∧ n ≠ dot) ∧
      (e.1.dropLast ≠ [] → notesFs.at e.1.dropLast = some .dir) := by decide +kernel
  obtain ⟨n, _, h1, h2, h3⟩ := this e he
  exact ⟨_, n, h1, h2, h3⟩

theorem diskNotesFs_closed : diskNotesFs.Closed := by
  refine ⟨by decide +kernel, fun e he => ?_, by decide +kernel⟩
  have : ∀ e ∈ diskNotesFs.nodes, ∃ n ∈ e.1.getLast?, e.1 = e.1.dropLast ++ [n] ∧ (n ≠ [] ∧ n ≠ dotdot ∧ n ≠ dot) ∧
      (e.1.dropLast ≠ [] → diskNotesFs.at e.1.dropLast = some .dir) := by decide +kernel
  obtain ⟨n, _, h1, h2, h3⟩ := this e he
  exact ⟨_, n, h1, h2, h3⟩

/-- Orders in which the two may be met. -/
def notesWalk : List FilePath :=
  [[[], "home".toList], [[], "home".toList, "a.md".toList], [[], "home".toList, "d".toList], [[], "home".toList, "d".toList, "b.md".toList]]
def diskNotesWalk : List FilePath :=
  [["n".toList], ["n".toList, "d".toList], ["n".toList, "d".toList, "b.md".toList], ["n".toList, "a.md".toList]]

/-- With both, every command does the same. -/
example (fuel : Nat) (i : Option FilePath) (c : Subcommand) :
    (plot fuel ⟨[[], "home".toList], "md".toList⟩ notesFs notesWalk i c).map (fun ran => (ran.result, ran.stdout, ran.schema)) =
      (plot fuel ⟨["n".toList], "md".toList⟩ diskNotesFs diskNotesWalk i c).map fun ran => (ran.result, ran.stdout, ran.schema) := by
  obtain ⟨re, hre, hfind⟩ := C72_plain "md".toList ⟨by decide, by decide⟩
  refine C125_run fuel notesFs diskNotesFs notesFs_closed diskNotesFs_closed _ _ ["home".toList] ["mnt".toList, "n".toList]
    (finds_of (by decide) (by decide +kernel)) (finds_of (by decide) (by decide +kernel)) home_disk.names (by decide) (by decide) _ re hre
    (fun h => ?_) (fun h => ?_) (fun _ => false) _ _
    (walk_by ["home".toList] [["a.md".toList], ["d".toList], ["d".toList, "b.md".toList]] (by decide) (by decide +kernel) (by decide +kernel)
      (by decide +kernel) (by decide +kernel) (by decide +kernel) (by decide +kernel) (by decide +kernel))
    (walk_by ["mnt".toList, "n".toList] [["a.md".toList], ["d".toList], ["d".toList, "b.md".toList]] (by decide) (by decide +kernel)
      (by decide +kernel) (by decide +kernel) (by decide +kernel) (by decide +kernel) (by decide +kernel) (by decide +kernel)) i c
  · obtain ⟨s, h⟩ := (hfind _).1 h
    have h := congrArg (fun l : Name => '.' ∈ l) h
    simp [givenName, dotdot] at h
  · obtain ⟨s, h⟩ := (hfind _).1 h
    have h := congrArg (fun l : Name => '.' ∈ l) h
    simp [givenName, dotdot] at h

/-- And every id that does not leave the directory loads the same. -/
example (i : FilePath) (hi : Stays 0 i) :
    ((⟨[[], "home".toList], "md".toList⟩ : LocalRepo).findById notesFs i).map Document.bytes =
      ((⟨["n".toList], "md".toList⟩ : LocalRepo).findById diskNotesFs i).map Document.bytes :=
  C125_plain notesFs diskNotesFs notesFs_closed diskNotesFs_closed _ _ ["home".toList] ["mnt".toList, "n".toList]
    (finds_of (by decide) (by decide +kernel)) (finds_of (by decide) (by decide +kernel)) (.inr (by decide +kernel))
    (.inr (by decide +kernel)) home_disk (fun rel target _ h => by have h := at_mem h; simp [notesFs] at h) _ i hi

/-- A directory with a link to a document that is beside it, if `beside` says so. -/
def leaningFs (beside : List (List Name × FsNode)) : Fs :=
  ⟨[(["home".toList], .dir), (["home".toList, "l.md".toList], .link [dotdot, "x.md".toList])] ++ beside, []⟩

/-- C125: the way must not leave the directory. There is the same below, and what the link loads depends on what is beside; what is listed
does not. -/
theorem C125_outside : let r : LocalRepo := ⟨["home".toList], "md".toList⟩
    let fs := leaningFs [(["x.md".toList], .file [9])]
    let fs' := leaningFs []
    SameBelow fs ["home".toList] fs' ["home".toList] ∧ fs.Finds r.context ["home".toList] ∧ fs'.Finds r.context ["home".toList] ∧
    (r.findById fs ["l".toList]).map Document.bytes = some [9] ∧ r.findById fs' ["l".toList] = none ∧
    ¬ ∃ rel k, LeadsWithin fs ["home".toList] [] (withExtension ["l".toList] "md".toList) rel k := by
  refine ⟨fun rel hr => ?_, finds_of (by decide) (by decide +kernel), finds_of (by decide) (by decide +kernel), by decide +kernel,
    by decide +kernel, ?_⟩
  · unfold Fs.at leaningFs
    simp only [List.cons_append, List.nil_append, List.find?_cons, List.find?_nil]
    have hx : decide (["x.md".toList] = "home".toList :: rel) = false := by simp
    simp only [hx]
  · rintro ⟨rel, k, h⟩
    have hw : withExtension ["l".toList] "md".toList = ["l.md".toList] := by decide
    rw [hw] at h
    have ha : (leaningFs [(["x.md".toList], .file [9])]).at (["home".toList] ++ ([] ++ ["l.md".toList])) =
        some (.link [dotdot, "x.md".toList]) := by decide +kernel
    generalize hn : "l.md".toList = n at h ha
    cases h with
    | dot => cases hn
    | up hne => exact hne rfl
    | dir _ ha' => rw [ha] at ha'; cases ha'
    | last _ ha' hx => rw [ha] at ha'; exact hx _ (Option.some.inj ha').symm
    | link _ ha' h =>
      rw [ha] at ha'
      cases ha'
      cases h with
      | up hne => exact hne rfl
      | dir hp => exact hp.2.1 rfl
      | link hp => exact hp.2.1 rfl

end Plotline
