import Verif.Lemmas.Perms
import Verif.Props.Links
import Verif.Props.CliLog

/-!
# C115: directories that may not be listed or searched

The tool is started in a directory it may search, as are those above it.
-/

namespace Plotline

variable {m : Mode} {fs : Fs}

/-- C115: what can be read is the file the path leads to, through directories that may be searched only. -/
theorem C115_read (hc : m.Open fs.cwd) (p : FilePath) (b : Bytes) :
    fs.readBy m p = some b ↔ ∃ there, (∃ k ≤ maxLinks, LeadsBy m fs fs.cwd p there k) ∧ fs.at there = some (.file b) := by
  unfold Fs.readBy
  constructor
  · intro h
    split at h
    · cases h
    · rename_i q hq
      split at h
      · rename_i b' hb; cases h; exact ⟨q, (followBy_iff hc).1 hq, hb⟩
      · cases h
  · rintro ⟨q, hq, hb⟩
    rw [(followBy_iff hc).2 hq]; simp [hb]

/-- C115: permissions only take: what an id loads it would load without them. -/
theorem C115_less (hc : m.Open fs.cwd) (r : LocalRepo) (i : FilePath) (d : Document) (h : r.findByIdBy m fs i = some d) :
    r.findById fs i = some d := by
  obtain ⟨b, h1, rfl⟩ := Option.map_eq_some_iff.1 h
  obtain ⟨there, ⟨k, hk, hl⟩, hb⟩ := (C115_read hc _ _).1 h1
  exact Option.map_eq_some_iff.2 ⟨b, read_iff.2 ⟨there, ⟨k, hk, hl.leads⟩, hb⟩, rfl⟩

/-- C115: where every directory may be searched nothing is taken. -/
theorem C115_open (h : ∀ p, m.searches p = true) (r : LocalRepo) (i : FilePath) : r.findByIdBy m fs i = r.findById fs i := by
  rw [findByIdBy_mask keeps_all (fun q _ => h q)]
  congr 1
  unfold Fs.mask Mode.seen
  simp only [h, reduceCtorEq, and_false, if_false]
  rw [List.filter_eq_self.2 (fun _ _ => rfl)]
  show (⟨fs.nodes.map _root_.id, fs.cwd⟩ : Fs) = fs
  rw [List.map_id]

/-- C115: the listing is in strictly ascending order and has exactly: what the walk gets to see whose name the pattern matches, without
the last extension; and the context itself in the case of C72. Being searched matters only for what is two levels down. -/
theorem C115_list (hc : m.Open fs.cwd) (fuel : Nat) (r : LocalRepo) (re : Re) (hre : Alts (writtenExt r.extension) re)
    (ignored : FilePath → Bool) (walked : List FilePath) (hw : WalkBy ignored m r.context fs walked) (i : Option FilePath) :
    ∃ ran, plot fuel r fs walked i .list = some ran ∧ ran.result = .ret (.ok ()) ∧ Ascending ran.stdout ∧
      ∀ x, x ∈ ran.stdout ↔
        (∃ dir n s, VisibleBy ignored m r.context fs (dir ++ [n]) ∧ re.Finds n ∧ Stripped n s ∧ x = dir ++ [s]) ∨
        (x = [] ∧ re.Finds (givenName r.context) ∧
          (r.context.getLast? = some dotdot ∨ '.' ∉ (r.context.getLast?.getD []).tail) ∧ ∃ root, StartsBy m fs r.context root) := by
  obtain ⟨ig, h1, h2⟩ := walkBy_mask (fs := fs) hc ignored r.context
  have hr := (C72_grammar _ re).2 hre
  obtain ⟨ran, h3, h4, h5, h6⟩ := C72_list fuel r re hre ig _ walked (h2 walked hw) i
  rw [plot_ok hr] at h3
  cases h3
  refine ⟨_, plot_ok hr .., h4, h5, fun x => ?_⟩
  simp only [h1, starts_mask keeps_all hc] at h6
  exact h6 x

/-- What can be reached in the file system cut off. -/
theorem cut_load (hf : fs.Closed) (hc : m.Open fs.cwd) {root : List Name} {k : Nat} (hk : k ≤ maxLinks) {ctx : FilePath}
    (hl : LeadsBy m fs fs.cwd ctx root k) {dir : FilePath} {n : Name} (hp : ∀ a ∈ dir ++ [n], Plain a) {x : FsNode}
    (ha : fs.at (root ++ (dir ++ [n])) = some x) (b : Bytes) :
    fs.readBy m (ctx ++ (dir ++ [n])) = some b ↔
      (∀ d, d <+: dir → m.searches (root ++ d) = true) ∧ ReadableBy m fs k (root ++ dir) x b := by
  have hC := cut_closed hf hc
  have hl' := (leadsBy_iff keeps_reach hc).1 hl
  have hroot := hl'.kept keeps_reach hc
  rw [readBy_mask keeps_reach hc]
  have key : (∀ d, d <+: dir → m.searches (root ++ d) = true) →
      ((fs.mask m m.reach).read (ctx ++ (dir ++ [n])) = some b ↔ ReadableBy m fs k (root ++ dir) x b) := by
    intro hs
    have ho : m.Open (root ++ dir) := by
      intro q hq
      rcases List.prefix_or_prefix_of_prefix hq (List.prefix_append root dir) with h | ⟨d, rfl⟩
      · exact reach_open hroot (by simpa using hs [] List.nil_prefix) q h
      · exact hs d ((List.prefix_append_right_inj root).1 hq)
    have ha' : (fs.mask m m.reach).at (root ++ (dir ++ [n])) = some (m.seen (root ++ (dir ++ [n])) x) := by
      rw [mask_at, if_pos, ha, Option.map_some]
      rw [← List.append_assoc]; exact reach_snoc.2 ho
    rw [read_beyond hC hl' (hC.prefix _ _ _ rfl (by simp) ha') (by simp), leads_entry hC hp ha' k b hk]
    cases x with
    | file b' => rw [show m.seen _ (.file b') = .file b' from seen_file.2 rfl]; rfl
    | dir => cases h : m.searches (root ++ (dir ++ [n])) <;> simp [Mode.seen, h, Readable, ReadableBy]
    | «sealed» => simp [Mode.seen, Readable, ReadableBy]
    | link t =>
      rw [show m.seen _ (.link t) = .link t from seen_link.2 rfl]
      constructor
      · rintro ⟨there, j, h1, h2, h3⟩
        rw [mask_at, if_pos (h2.kept keeps_reach ho)] at h3
        obtain ⟨y, h4, h5⟩ := Option.map_eq_some_iff.1 h3
        obtain rfl := seen_file.1 h5
        exact ⟨there, j, h1, (leadsBy_iff keeps_reach ho).2 h2, h4⟩
      · rintro ⟨there, j, h1, h2, h3⟩
        have h2 := (leadsBy_iff keeps_reach ho).1 h2
        refine ⟨there, j, h1, h2, ?_⟩
        rw [mask_at, if_pos (h2.kept keeps_reach ho), h3]
        exact congrArg some (seen_file.2 rfl)
  refine ⟨fun hb => ?_, fun h => (key h.1).2 h.2⟩
  · have hs : ∀ d, d <+: dir → m.searches (root ++ d) = true := by
      rintro d ⟨rest, rfl⟩
      obtain ⟨there, ⟨j, _, h1⟩, _⟩ := read_iff.1 hb
      obtain ⟨mid1, a, c, h2, h3, h4, _⟩ := h1.split hC ctx _ rfl (by simp) hC.cwd
      obtain rfl := h2.unique hl'
      obtain ⟨mid, a', c', h5, h6, _, _⟩ := h4.split hC d (rest ++ [n]) (by simp) (by simp) h3
      obtain rfl : mid = mid1 ++ d := by
        refine leads_unlinked d _ _ _ (fun a h => hp a (by simp [h])) (fun e he hne t ht => ?_) h5
        obtain ⟨f, rfl⟩ := he
        rw [mask_at] at ht
        split at ht
        · obtain ⟨y, h7, h8⟩ := Option.map_eq_some_iff.1 ht
          obtain rfl := seen_link.1 h8
          have : fs.Dir (mid1 ++ e) := hf.prefix _ (f ++ rest ++ [n]) x rfl (by simp) (by simpa using ha)
          rcases this with h | h
          · exact hne (List.append_eq_nil_iff.1 h).2
          · rw [h7] at h; cases h
        · cases ht
      rcases h6 with h | h
      · rw [h]; exact hc.nil.self
      · rw [mask_at] at h
        split at h
        · obtain ⟨y, _, h8⟩ := Option.map_eq_some_iff.1 h
          exact (seen_dir.1 h8).2
        · cases h
    exact ⟨hs, (key hs).1 hb⟩

/-- C115: what is listed under an id without further dots is there, and loading the id gives what can be read of it provided that all
directories it is in, from the context on, may be searched. -/
theorem C115_loads (hc : m.Open fs.cwd) (hf : fs.Closed) (fuel : Nat) (r : LocalRepo) (he : PlainExt r.extension)
    (hctx : r.context.getLast? ≠ some ('.' :: r.extension)) (ignored : FilePath → Bool) (walked : List FilePath)
    (hw : WalkBy ignored m r.context fs walked) (i : Option FilePath) :
    ∃ ran, plot fuel r fs walked i .list = some ran ∧ ∀ dir stem, dir ++ [stem] ∈ ran.stdout → '.' ∉ stem →
      ∃ root k x, k ≤ maxLinks ∧ LeadsBy m fs fs.cwd r.context root k ∧ fs.at (root ++ (dir ++ [stem ++ '.' :: r.extension])) = some x ∧
        ∀ b, (r.findByIdBy m fs (dir ++ [stem])).map Document.bytes = some b ↔
          (∀ d, d <+: dir → m.searches (root ++ d) = true) ∧ ReadableBy m fs k (root ++ dir) x b := by
  obtain ⟨ig, hv1, hv2⟩ := walkBy_mask (fs := fs) hc ignored r.context
  obtain ⟨ran, h1, _, _, h2⟩ := C52_list_partial fuel r he hctx ig _ walked (hv2 walked hw) i
  rw [plot_ok (extPattern_dotted he.dotted.2)] at h1
  cases h1
  refine ⟨_, plot_ok (extPattern_dotted he.dotted.2) .., fun dir stem hx hs => ?_⟩
  obtain ⟨rel, hv, dir', stem', rfl, hd⟩ := (h2 _).1 hx
  obtain ⟨rfl, hst⟩ := List.append_inj' hd rfl
  obtain rfl := (List.cons.inj hst).1
  clear hst hd
  obtain ⟨_, ⟨root, x, ⟨_, _, k, hk, hl⟩, hm, _⟩, hn, _⟩ := (hv1 _).1 hv
  have ha := at_of_mem hf.1 hm
  refine ⟨root, k, x, hk, hl, ha, fun b => ?_⟩
  have hn' : ∀ n ∈ dir ++ [stem], n ≠ [] ∧ n.head? ≠ some '.' := by
    intro n hn1
    rcases List.mem_append.1 hn1 with hn1 | hn1
    · exact hn n (by simp [hn1])
    · rw [List.mem_singleton.1 hn1]; exact visible_stem (hn _ (List.mem_append.2 (.inr (List.mem_singleton.2 rfl)))).2
  rw [findByIdBy_mask keeps_all hc, load_doc r he.1 _ hn' hs, ← readBy_mask keeps_all hc]
  exact cut_load hf hc hk hl (fun a h => visible_plain (hn a h)) ha b

/-- C115: and what can be loaded under an id of plain names without further dots is listed exactly if it is as C96 has it, and all
directories it is in, from the context on, may be listed. -/
theorem C115_loaded (hc : m.Open fs.cwd) (hf : fs.Closed) (fuel : Nat) (r : LocalRepo) (he : PlainExt r.extension)
    (hctx : r.context.getLast? ≠ some ('.' :: r.extension)) (ignored : FilePath → Bool) (walked : List FilePath)
    (hw : WalkBy ignored m r.context fs walked) (root : List Name) (hr : StartsBy m fs r.context root) (dir : FilePath) (stem : Name)
    (hn : ∀ n ∈ dir ++ [stem], Plain n) (hs : '.' ∉ stem) (i : Option FilePath) :
    ∃ ran, plot fuel r fs walked i .list = some ran ∧ ∀ doc, r.findByIdBy m fs (dir ++ [stem]) = some doc →
      (dir ++ [stem] ∈ ran.stdout ↔ (∀ n ∈ dir, n.head? ≠ some '.') ∧ ignored (dir ++ [stem ++ '.' :: r.extension]) = false ∧
        (∀ d n rest target, dir = d ++ n :: rest → fs.at (root ++ (d ++ [n])) ≠ some (.link target)) ∧
        ∀ d, d <+: dir → m.lists (root ++ d) = true) := by
  obtain ⟨ig, hv1, hv2⟩ := walkBy_mask (fs := fs) hc ignored r.context
  obtain ⟨ran, h1, _, _, h2⟩ := C52_list_partial fuel r he hctx ig _ walked (hv2 walked hw) i
  rw [plot_ok (extPattern_dotted he.dotted.2)] at h1
  cases h1
  refine ⟨_, plot_ok (extPattern_dotted he.dotted.2) .., fun doc hdoc => ?_⟩
  simp only [hv1] at h2
  refine ((h2 _).trans docAt_iff).trans ?_
  obtain ⟨hst, hne, k, hk, hl⟩ := hr
  have hvis := loaded_visible r he ignored fs hf root ⟨hst, hne, k, hk, hl.leads⟩ dir stem hn hs doc (C115_less hc r _ doc hdoc)
  constructor
  · rintro ⟨h3, ⟨root', x, k1, k2, k3⟩, h5, h6⟩
    obtain rfl := k1.unique hc ⟨hst, hne, k, hk, hl⟩
    obtain ⟨j1, j2, j3⟩ := hvis.1 ⟨h3, ⟨root', x, ⟨hst, hne, k, hk, hl.leads⟩, k2⟩, h5, h6⟩
    refine ⟨j1, j2, j3, ?_⟩
    rintro d ⟨rest, rfl⟩
    cases rest with
    | nil => exact (k3 d (stem ++ '.' :: r.extension) [] (by simp)).1
    | cons n rest => exact (k3 d n (rest ++ [stem ++ '.' :: r.extension]) (by simp)).1
  · rintro ⟨j1, j2, j3, j4⟩
    obtain ⟨h3, ⟨root', x, ⟨_, _, k', hk', hl'⟩, hmem⟩, h5, h6⟩ := hvis.2 ⟨j1, j2, j3⟩
    obtain rfl := hl'.unique hl.leads
    refine ⟨h3, ⟨root', x, ⟨hst, hne, k, hk, hl⟩, hmem, ?_⟩, h5, h6⟩
    have hn' : ∀ n ∈ dir ++ [stem], n ≠ [] ∧ n.head? ≠ some '.' := by
      intro n hn1
      rcases List.mem_append.1 hn1 with hn1 | hn1
      · exact h5 n (by simp [hn1])
      · rw [List.mem_singleton.1 hn1]; exact visible_stem (h5 _ (List.mem_append.2 (.inr (List.mem_singleton.2 rfl)))).2
    have hb : fs.readBy m (r.context ++ (dir ++ [stem ++ '.' :: r.extension])) = some doc.bytes := by
      rw [readBy_mask keeps_all hc, ← load_doc r he.1 _ hn' hs, ← findByIdBy_mask keeps_all hc, hdoc]; rfl
    have hse := ((cut_load hf hc hk hl (fun a h => visible_plain (h5 a h)) (at_of_mem hf.1 hmem) _).1 hb).1
    intro d n rest he
    have hd : d <+: dir := by
      rcases List.eq_nil_or_concat rest with rfl | ⟨rest', c, rfl⟩
      · exact ⟨[], by rw [List.append_nil]; exact (List.append_inj' he rfl).1.symm⟩
      · rw [List.concat_eq_append] at he
        have he : dir ++ [stem ++ '.' :: r.extension] = (d ++ n :: rest') ++ [c] := by simpa using he
        exact ⟨n :: rest', (List.append_inj' he rfl).1.symm⟩
    exact ⟨j4 d hd, fun _ => hse d hd⟩

/-! ## The log -/

theorem walking_count (r : LocalRepo) (met : List Entry) :
    ((r.walkLog met).filter CliLine.ofWalk).length =
      (met.filter Entry.failed).length := by
  induction met with
  | nil => rfl
  | cons e met ih =>
    show ((r.entryLog e ++ r.walkLog met).filter _).length = _
    rw [List.filter_append, List.length_append, ih]
    cases e with
    | error e => exact Nat.add_comm 1 _
    | ok p =>
      rw [List.filter_cons_of_neg (by simp [Entry.failed])]
      simp only [LocalRepo.entryLog]
      split
      · split <;> simp [CliLine.ofWalk]
      · simp

/-- C115: of a walk, the log has one line for each place where it failed: the context if that is not found, and each directory it got
to, the context included, that may not be listed or is in one that may not be searched. -/
theorem C115_log (r : LocalRepo) (re : Re) (hre : Alts (writtenExt r.extension) re) (ignored : FilePath → Bool) (met : List Entry)
    (hm : MetBy ignored m r.context fs met) (i : Option FilePath) (c : Subcommand) (ls : List CliLine) (hl : PlotLogs r met i c ls) :
    ∃ shut : List FilePath, shut.Nodup ∧ (∀ rel, rel ∈ shut ↔ Shut ignored m r.context fs rel) ∧
      (ls.filter CliLine.ofWalk).length = shut.length := by
  obtain ⟨shut, h1, h2, h3⟩ := hm.errors
  refine ⟨shut, h1, h2, ?_⟩
  cases hl with
  | ok _ h =>
    rw [List.filter_append, List.length_append, walking_count, h3]
    have : ∀ l : List (LogLine CliSig), (l.map CliLine.schema).filter CliLine.ofWalk = [] := by
      intro l; induction l with
      | nil => rfl
      | cons a l ih => exact ih
    rw [this]; rfl
  | invalid h => rw [(C72_grammar _ re).2 hre] at h; cases h

/-- C115: if the walk fails nowhere it gets to see everything, as if there were no permissions. -/
theorem C115_all_seen (hf : fs.Closed) (ignored : FilePath → Bool) (hig : ∀ a b, ignored a = true → ignored (a ++ b) = true)
    (ctx : FilePath) (hno : ∀ rel, ¬ Shut ignored m ctx fs rel) (rel : FilePath) :
    Visible ignored ctx fs rel ↔ VisibleBy ignored m ctx fs rel := by
  constructor
  · rintro ⟨h1, ⟨root, x, ⟨hst, hne, k, hk, hl⟩, hx⟩, h3, h4⟩
    obtain ⟨root', hr⟩ : ∃ root', StartsBy m fs ctx root' := by
      apply Classical.byContradiction
      intro h
      exact hno [] (.lost hst fun root hr => h ⟨root, hr⟩)
    obtain rfl : root' = root := by
      obtain ⟨_, _, _, _, h⟩ := hr
      exact h.leads.unique hl
    have ha := at_of_mem hf.1 hx
    refine ⟨h1, ⟨root', x, hr, hx, ?_⟩, h3, h4⟩
    have all : ∀ (l : Nat) (pre suf : FilePath), pre.length = l → rel = pre ++ suf → Reached m root' pre := by
      intro l
      induction l with
      | zero =>
        intro pre suf hl _ dir n rest he
        rw [List.eq_nil_of_length_eq_zero hl] at he
        simp at he
      | succ l ih =>
        intro pre suf hl he
        rcases List.eq_nil_or_concat pre with rfl | ⟨q, a, rfl⟩
        · cases hl
        · rw [List.concat_eq_append] at *
          have hq : Reached m root' q := ih q (a :: suf) (by simpa using hl) (by rw [he]; simp)
          have hD : fs.Dir (root' ++ q) := hf.prefix _ (a :: suf) x rfl (by simp) (by rw [he] at ha; simpa using ha)
          have hvis : q ≠ [] → VisibleBy ignored m ctx fs q ∧ fs.at (root' ++ q) = some .dir := by
            intro hne
            have hd : fs.at (root' ++ q) = some .dir := hD.resolve_left fun h => hne (List.append_eq_nil_iff.1 h).2
            refine ⟨⟨hne, ⟨root', .dir, hr, at_mem hd, hq⟩, fun n hn => h3 n (by rw [he]; simp [hn]), ?_⟩, hd⟩
            cases hi : ignored q with
            | false => rfl
            | true => have := hig q (a :: suf) hi; rw [he] at h4; simp [this] at h4
          have hlists : m.lists (root' ++ q) = true := by
            cases hli : m.lists (root' ++ q) with
            | true => rfl
            | false =>
              rcases List.eq_nil_or_concat q with rfl | ⟨d, c, rfl⟩
              · rw [List.append_nil] at hli hD
                exact absurd (.context hr hD hli) (hno [])
              · rw [List.concat_eq_append] at *
                obtain ⟨hv, hd⟩ := hvis (by simp)
                exact absurd (.below hv hr hd (.inl hli)) (hno _)
          intro dir n rest hdn
          rcases List.eq_nil_or_concat rest with rfl | ⟨rest', c, rfl⟩
          · obtain ⟨rfl, _⟩ := List.append_inj' hdn rfl
            exact ⟨hlists, fun h => absurd rfl h⟩
          · rw [List.concat_eq_append] at *
            have hdn : q ++ [a] = (dir ++ n :: rest') ++ [c] := by simpa using hdn
            obtain ⟨rfl, _⟩ := List.append_inj' hdn rfl
            obtain ⟨k1, k2⟩ := hq dir n rest' rfl
            refine ⟨k1, fun _ => ?_⟩
            by_cases hr' : rest' = []
            · subst hr'
              cases hse : m.searches (root' ++ dir) with
              | true => rfl
              | false =>
                obtain ⟨hv, hd⟩ := hvis (by simp)
                exact absurd (.below hv hr hd (.inr hse)) (hno _)
            · exact k2 hr'
    exact all _ rel [] rfl (by simp)
  · rintro ⟨h1, ⟨root, x, ⟨hst, hne, k, hk, hl⟩, hx, _⟩, h3, h4⟩
    exact ⟨h1, ⟨root, x, ⟨hst, hne, k, hk, hl.leads⟩, hx⟩, h3, h4⟩

/-- C115: so if no such line is logged then nothing was left out: a plain extension lists all documents there are, as in C52. -/
theorem C115_silent (hc : m.Open fs.cwd) (hf : fs.Closed) (fuel : Nat) (r : LocalRepo) (he : PlainExt r.extension)
    (ignored : FilePath → Bool) (hig : ∀ a b, ignored a = true → ignored (a ++ b) = true) (met : List Entry)
    (hm : MetBy ignored m r.context fs met) (i : Option FilePath) (ls : List CliLine) (hl : PlotLogs r met i .list ls)
    (hno : ∀ e, .walking e ∉ ls) :
    ∃ ran, plot fuel r fs (walkedOf met) i .list = some ran ∧ ran.result = .ret (.ok ()) ∧ Ascending ran.stdout ∧
      ∀ x, x ∈ ran.stdout ↔ (∃ rel, Visible ignored r.context fs rel ∧ DocAt r.extension rel x) ∨
        (x = [] ∧ r.context.getLast? = some ('.' :: r.extension) ∧ ∃ root, fs.Starts r.context root) := by
  obtain ⟨re, hre, _⟩ := C72_plain r.extension he
  obtain ⟨shut, _, h2, h3⟩ := C115_log r re hre ignored met hm i .list ls hl
  have hns : ∀ rel, ¬ Shut ignored m r.context fs rel := by
    intro rel h
    have h0 : ls.filter CliLine.ofWalk = [] := by
      rw [List.filter_eq_nil_iff]
      intro l hl
      cases l with
      | walking e => exact absurd hl (hno e)
      | stripping => exact fun h => nomatch h
      | schema => exact fun h => nomatch h
    rw [h0] at h3
    have := (h2 rel).2 h
    rw [List.eq_nil_of_length_eq_zero h3.symm] at this
    cases this
  obtain ⟨ig, hv1, hv2⟩ := walkBy_mask (fs := fs) hc ignored r.context
  obtain ⟨ran, h4, h5, h6, h7⟩ := C52_list_exact_partial fuel r he ig _ _ (hv2 _ hm.walk) i
  rw [plot_ok (extPattern_dotted he.dotted.2)] at h4
  cases h4
  refine ⟨_, plot_ok (extPattern_dotted he.dotted.2) .., h5, h6, fun x => ?_⟩
  simp only [hv1, starts_mask keeps_all hc, ← C115_all_seen hf ignored hig _ hns] at h7
  refine (h7 x).trans (or_congr Iff.rfl (and_congr_right fun _ => and_congr_right fun _ => ?_))
  constructor
  · rintro ⟨root, h1, h2, k, hk, h⟩; exact ⟨root, h1, h2, k, hk, h.leads⟩
  · rintro ⟨root, h1, _⟩
    apply Classical.byContradiction
    intro h
    exact hns [] (.lost h1 fun root hr => h ⟨root, hr⟩)

/-! ## An example -/

/-- For the examples: what a walk yields, and where it fails. -/
theorem metBy_by (hc : m.Open fs.cwd) {ctx : FilePath} {met : List Entry} (root : List Name) (rels shut : List FilePath)
    (h0 : ctx ≠ [] ∧ ctx ≠ stdinPath) (hr : fs.followBy m maxLinks fs.cwd ctx = some root)
    (h1 : (walkedOf met).Nodup) (h2 : ∀ p, p ∈ walkedOf met ↔ p ∈ ctx :: rels.map (ctx ++ ·))
    (h5 : ∀ rel ∈ rels, rel ≠ [] ∧ (root ++ rel) ∈ fs.nodes.map Prod.fst ∧ (∀ n ∈ rel, n ≠ [] ∧ n.head? ≠ some '.') ∧
      ∀ k < rel.length, m.lists (root ++ rel.take k) = true ∧ (k + 1 < rel.length → m.searches (root ++ rel.take k) = true))
    (h6 : ∀ e ∈ fs.nodes, ∀ rel ∈ (root.isPrefixOf? e.1).toList, rel = [] ∨ rel ∈ rels ∨ (∃ n ∈ rel, n = [] ∨ n.head? = some '.') ∨
      ∃ k < rel.length, m.lists (root ++ rel.take k) = false ∨ (k + 1 < rel.length ∧ m.searches (root ++ rel.take k) = false))
    (hs1 : shut.Nodup) (hs2 : ∀ rel, rel ∈ shut ↔ (rel ∈ [[]] ∧ (root = [] ∨ fs.at root = some .dir) ∧ m.lists root = false) ∨
      (rel ∈ rels ∧ fs.at (root ++ rel) = some .dir ∧ (m.lists (root ++ rel) = false ∨ m.searches (root ++ rel.dropLast) = false)))
    (hs3 : (met.filter Entry.failed).length = shut.length) : MetBy (fun _ => false) m ctx fs met := by
  have hst : StartsBy m fs ctx root := ⟨h0.2, h0.1, (followBy_iff hc).1 hr⟩
  have hreach : ∀ rel, Reached m root rel ↔
      ∀ k < rel.length, m.lists (root ++ rel.take k) = true ∧ (k + 1 < rel.length → m.searches (root ++ rel.take k) = true) := by
    intro rel
    constructor
    · intro h k hk
      obtain ⟨k1, k2⟩ := h (rel.take k) rel[k] (rel.drop (k + 1)) (by rw [List.getElem_cons_drop, List.take_append_drop])
      exact ⟨k1, fun h => k2 fun e => (by have := congrArg List.length e; simp at this; omega)⟩
    · rintro h dir n rest rfl
      have := h dir.length (by simp)
      rw [List.take_left] at this
      exact ⟨this.1, fun hne => this.2 (by have := List.length_pos_iff.2 hne; simp; omega)⟩
  have hv : ∀ rel, VisibleBy (fun _ => false) m ctx fs rel ↔ rel ∈ rels := by
    intro rel
    constructor
    · rintro ⟨k1, ⟨root', x, k2, k3, k4⟩, k5, _⟩
      obtain rfl := k2.unique hc hst
      rcases h6 _ k3 rel (by rw [(isPrefixOf?_some _ _ _).2 rfl]; simp) with h | h | ⟨n, hn, h⟩ | ⟨k, hk, h⟩
      · exact absurd h k1
      · exact h
      · have := k5 n hn
        exact absurd h (by simp [this.1, this.2])
      · obtain ⟨j1, j2⟩ := (hreach rel).1 k4 k hk
        rcases h with h | ⟨h, h'⟩
        · rw [h] at j1; cases j1
        · rw [h'] at j2; cases j2 h
    · intro h
      obtain ⟨k1, k2, k3, k4⟩ := h5 rel h
      obtain ⟨⟨p, x⟩, k5, k6⟩ := List.mem_map.1 k2
      cases k6
      exact ⟨k1, ⟨root, x, hst, k5, (hreach rel).2 k4⟩, k3, rfl⟩
  refine ⟨⟨h1, fun p => ?_⟩, shut, hs1, fun rel => ?_, hs3⟩
  · rw [h2, List.mem_cons, List.mem_map]
    simp only [hv]
    constructor
    · rintro (rfl | ⟨rel, h, rfl⟩)
      · exact .inl ⟨rfl, root, hst⟩
      · exact .inr (.inl ⟨rel, h, rfl⟩)
    · rintro (⟨rfl, _⟩ | ⟨rel, h, rfl⟩ | ⟨h, _⟩)
      · exact .inl rfl
      · exact .inr ⟨rel, h, rfl⟩
      · exact absurd h h0.2
  · rw [hs2]
    constructor
    · rintro (⟨h, h3, h4⟩ | ⟨h, h3, h4⟩)
      · obtain rfl := List.mem_singleton.1 h
        exact .context hst h3 h4
      · rcases List.eq_nil_or_concat rel with rfl | ⟨dir, n, rfl⟩
        · exact absurd rfl (h5 _ h).1
        · rw [List.concat_eq_append] at *
          rw [List.dropLast_concat] at h4
          exact .below ((hv _).2 h) hst h3 h4
    · intro h
      cases h with
      | lost _ h => exact absurd hst (h root)
      | context k1 k2 k3 =>
        obtain rfl := k1.unique hc hst
        exact .inl ⟨List.mem_singleton.2 rfl, k2, k3⟩
      | below k1 k2 k3 k4 =>
        obtain rfl := k2.unique hc hst
        exact .inr ⟨(hv _).1 k1, k3, by rwa [List.dropLast_concat]⟩

/-- `r` may be listed but not searched, `x` searched but not listed. -/
def modeFs : Fs where
  nodes := [(["home".toList], .dir), (["home".toList, "a.md".toList], .file [1]), (["home".toList, "r".toList], .dir),
    (["home".toList, "r".toList, "b.md".toList], .file [2]), (["home".toList, "r".toList, "s".toList], .dir),
    (["home".toList, "r".toList, "s".toList, "c.md".toList], .file [3]), (["home".toList, "x".toList], .dir),
    (["home".toList, "x".toList, "d.md".toList], .file [4])]
  cwd := []

def someMode : Mode where
  lists p := p ≠ ["home".toList, "x".toList]
  searches p := p ≠ ["home".toList, "r".toList]

def modeMet : List Entry :=
  [.ok ["home".toList], .ok ["home".toList, "r".toList], .ok ["home".toList, "r".toList, "s".toList], .error "Permission denied".toList,
    .ok ["home".toList, "r".toList, "b.md".toList], .ok ["home".toList, "a.md".toList], .ok ["home".toList, "x".toList],
    .error "Permission denied".toList]

theorem someMode_open : someMode.Open modeFs.cwd := by
  intro q hq
  obtain rfl := List.prefix_nil.1 (show q <+: [] from hq)
  decide

theorem modeFs_closed : modeFs.Closed := by
  refine ⟨by decide +kernel, ?_, fun h => absurd rfl h⟩
  have : ∀ e ∈ modeFs.nodes, Plain (e.1.getLast?.getD []) ∧ e.1 ≠ [] ∧ (e.1.dropLast ≠ [] → modeFs.at e.1.dropLast = some .dir) := by
    unfold Plain; decide +kernel
  intro e he
  obtain ⟨h1, h2, h3⟩ := this e he
  rw [List.getLast?_eq_some_getLast h2] at h1
  exact ⟨e.1.dropLast, _, (List.dropLast_concat_getLast h2).symm, h1, h3⟩

theorem modeMet_met : MetBy (fun _ => false) someMode homeRepo.context modeFs modeMet := by
  refine metBy_by someMode_open ["home".toList] [["r".toList], ["r".toList, "s".toList], ["r".toList, "b.md".toList], ["a.md".toList], ["x".toList]]
    [["r".toList, "s".toList], ["x".toList]] (by decide) (by decide +kernel) (by decide +kernel) ?_ (by decide +kernel) (by decide +kernel)
    (by decide +kernel) ?_ (by decide +kernel)
  · intro p
    rw [show walkedOf modeMet = homeRepo.context :: [["r".toList], ["r".toList, "s".toList], ["r".toList, "b.md".toList], ["a.md".toList],
      ["x".toList]].map (homeRepo.context ++ ·) by decide +kernel]
  · intro rel
    constructor
    · intro h
      have : ∀ rel ∈ [["r".toList, "s".toList], ["x".toList]], rel ∈ [["r".toList], ["r".toList, "s".toList], ["r".toList, "b.md".toList], ["a.md".toList], ["x".toList]] ∧
          modeFs.at (["home".toList] ++ rel) = some .dir ∧
            (someMode.lists (["home".toList] ++ rel) = false ∨ someMode.searches (["home".toList] ++ rel.dropLast) = false) := by decide +kernel
      exact .inr (this rel h)
    · rintro (⟨_, _, h⟩ | ⟨h, h1, h2⟩)
      · exact absurd h (by decide +kernel)
      · have : ∀ rel ∈ [["r".toList], ["r".toList, "s".toList], ["r".toList, "b.md".toList], ["a.md".toList], ["x".toList]],
            modeFs.at (["home".toList] ++ rel) = some .dir →
              (someMode.lists (["home".toList] ++ rel) = false ∨ someMode.searches (["home".toList] ++ rel.dropLast) = false) →
              rel ∈ [["r".toList, "s".toList], ["x".toList]] := by decide +kernel
        exact this rel h h1 h2

/-- `r/b` is listed and cannot be loaded; `x/d` can be loaded and is not listed; `r/s/c` is neither. -/
theorem C115_example :
    (plot 0 homeRepo modeFs (walkedOf modeMet) none .list).map Ran.stdout = some [["a".toList], ["r".toList, "b".toList]] ∧
    homeRepo.findByIdBy someMode modeFs ["r".toList, "b".toList] = none ∧
    (homeRepo.findByIdBy someMode modeFs ["a".toList]).map Document.bytes = some [1] ∧
    (homeRepo.findByIdBy someMode modeFs ["x".toList, "d".toList]).map Document.bytes = some [4] ∧
    homeRepo.findByIdBy someMode modeFs ["r".toList, "s".toList, "c".toList] = none ∧
    ∃ shut : List FilePath, (∀ rel, rel ∈ shut ↔ Shut (fun _ => false) someMode homeRepo.context modeFs rel) ∧ shut.length = 2 :=
  ⟨by decide +kernel, by decide +kernel, by decide +kernel, by decide +kernel, by decide +kernel,
    have ⟨shut, _, h1, h2⟩ := modeMet_met.errors
    ⟨shut, h1, h2.symm.trans (by decide +kernel)⟩⟩

/-- Not even a parent directory is found by way of a directory that may not be searched. -/
example : modeFs.readBy someMode ["home".toList, "r".toList, dotdot, "a.md".toList] = none ∧
    modeFs.read ["home".toList, "r".toList, dotdot, "a.md".toList] = some [1] := by decide +kernel

end Plotline
