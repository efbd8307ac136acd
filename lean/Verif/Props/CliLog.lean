import Verif.Spec.CliLog
import Verif.Props.Log
import Verif.Props.Shell

/-! # C100: what the log of the command line tool and of its documents tells -/

namespace Plotline

/-! ## What the commands log -/

/-- Saving logs nothing. -/
theorem save_logs (r : LocalRepo) (walked : List FilePath) (l : LazyDocument FilePath Document) :
    (r.schema walked).Logs [] (saveBody l) [] := by
  refine ⟨[], .ret (.ok ()), _, .quiet rfl ?_ (.quiet rfl ?_ (.quiet rfl ?_ (.quiet rfl ?_ (.quiet rfl ?_ (.quiet rfl ?_ (.refl _)))))),
    by simp, rfl⟩
  all_goals intro l h
  all_goals cases h
  case _ h0 h =>
    obtain ⟨fr, l, h1, h2, h3⟩ := h
    cases h0; cases h1; cases h2; cases h3

theorem listed_get (r : LocalRepo) (walked : List FilePath) (i : FilePath) :
    i ∈ (r.schema walked).guard.iter.map (fun node => node.id) ↔ ((r.schema walked).guard.get i).isSome := by
  have hv : (r.schema walked).guard.Valid := by rw [guard_eq]; exact (schema_reachable r walked).valid
  constructor
  · intro h
    obtain ⟨n, hn, rfl⟩ := List.mem_map.1 h
    rw [show (r.schema walked).guard.get n.id = some n from (Graph.mem_iter _ hv n).1 hn]; rfl
  · intro h
    obtain ⟨n, hn⟩ := Option.isSome_iff_exists.1 h
    have hid : i = Plotline.id n := eq_of_beq (Graph.get_some_id _ hv hn)
    exact List.mem_map.2 ⟨n, (Graph.mem_iter _ hv n).2 (hid ▸ hn), hid.symm⟩

/-- Deleting logs the line about a missing node, exactly if there is none. -/
theorem delete_logs (r : LocalRepo) (walked : List FilePath) (i : FilePath) :
    (i ∈ (r.schema walked).guard.iter.map (fun node => node.id) → (r.schema walked).Logs [] (deleteBody i) []) ∧
    (i ∉ (r.schema walked).guard.iter.map (fun node => node.id) → (r.schema walked).Logs [] (deleteBody i) [.missing i]) := by
  rw [listed_get]
  constructor
  · intro h
    obtain ⟨n, hn⟩ := Option.isSome_iff_exists.1 h
    have hg : ctxGet ((r.schema walked).begin []).graph ((r.schema walked).begin []).frames 0 i = some n := by
      rw [ctxGet]
      exact hn
    refine ⟨[], .ret (.ok ()), _, .quiet (c' := ⟨.run [0] (.withTarget n <|
      .runTriggers 0 .beforeDelete fun
        | .error e => .done (.error e)
        | .ok _ => .delete 0 i deleteAfter), [], (r.schema walked).begin []⟩) ?_ ?_
      (.quiet rfl ?_ (.quiet rfl ?_ (.quiet rfl ?_ (.quiet rfl ?_ (.quiet rfl ?_ (.refl _)))))), by simp, rfl⟩
    · simp only [Conf.step, deleteBody, List.getElem?_cons_zero, hg]
      rfl
    · intro l h
      generalize hc : (⟨.run [0] (deleteBody i), [], (r.schema walked).begin []⟩ : Conf CliSig) = c at h
      cases h with
      | missing h1 h2 =>
        injection hc with hc1 hc2 hc3
        injection hc1 with hc1 hc4
        injection hc4 with _ hc4
        subst hc1 hc3 hc4
        cases h1
        rw [hg] at h2; cases h2
      | inUse => injection hc with hc1; cases hc1
      | _ => injection hc with hc1; injection hc1 with hc1 hc2; cases hc2
    all_goals intro l h; cases h
  · intro h
    have hg : (r.schema walked).graph.get i = none := by
      rw [← guard_eq]
      cases hx : (r.schema walked).guard.get i with
      | none => rfl
      | some n => rw [hx] at h; exact absurd rfl h
    exact (C99_delete (r.schema walked) i hg).1

theorem walkedOf_mem {met : List Entry} {p : FilePath} : p ∈ walkedOf met ↔ .ok p ∈ met := by
  unfold walkedOf
  rw [List.mem_filterMap]
  constructor
  · rintro ⟨x, hx, h⟩
    cases x with
    | error => cases h
    | ok q => cases h; exact hx
  · exact fun h => ⟨_, h, rfl⟩

/-- What a schema of the tool logs is determined. -/
theorem logs_unique {S : Schema CliSig} {body : Prog CliSig} {ls ls' : List (LogLine CliSig)} (h : S.Logs [] body ls)
    (h' : S.Logs [] body ls') : ls' = ls := by
  obtain ⟨inner, out, s, htalk, _, rfl⟩ := h
  obtain ⟨inner', out', s', htalk', _, rfl⟩ := h'
  obtain ⟨h1, h2⟩ := htalk'.unique htalk (step_end _ _ _) (step_end _ _ _)
  cases h2
  rw [h1]

section
variable {here : FilePath} {met : FilePath → List Entry} {ws : List Word} {v : Invocation} {r : LocalRepo}

theorem proc_logs (hl : Line ws v) (hr : Says here v.options r) {ls : List CliLine} :
    ProcLogs here met ws ls ↔ PlotLogs r (met r.context) (v.id.map parsePath) v.command ls := by
  have hp := (C87_grammar ws v).2 hl
  have hrepo := says_repo hr
  subst hrepo
  constructor
  · intro h
    cases h with
    | usage h => rw [hp] at h; cases h
    | ran h1 h2 => rw [hp] at h1; cases h1; exact h2
  · exact .ran hp

theorem plot_logs {met : List Entry} {i : Option FilePath} {c : Subcommand} {re : Re} (hre : extPattern r.extension = .ok re)
    {ls : List CliLine} : PlotLogs r met i c ls ↔ ∃ s, ExecLogs (r.schema (walkedOf met)) i c s ∧ ls = r.walkLog met ++ s.map .schema := by
  constructor
  · intro h
    cases h with
    | ok _ h => exact ⟨_, h, rfl⟩
    | invalid h => rw [hre] at h; cases h
  · rintro ⟨s, h, rfl⟩
    exact .ok hre h

theorem exec_list {S : Schema CliSig} {i : Option FilePath} {s : List (LogLine CliSig)} : ExecLogs S i .list s ↔ s = S.guardLog := by
  constructor
  · intro h
    cases h; rfl
  · rintro rfl
    exact .list i

/-- The lines of the walk account for every entry. -/
theorem walk_told (he : PlainExt r.extension) {ignored : FilePath → Bool} {fs : Fs} {all : List Entry}
    (hw : Walk ignored r.context fs (walkedOf all)) :
    Told r.context r.extension ((r.schema (walkedOf all)).guard.iter.map fun node => node.id) all (r.walkLog all) := by
  have hids := (list_stdout r (walkedOf all)).2
  generalize ((r.schema (walkedOf all)).guard.iter.map fun node => node.id) = ids at hids
  have key : ∀ met : List Entry, (∀ x ∈ met, x ∈ all) → Told r.context r.extension ids met (r.walkLog met) := by
    intro met
    induction met with
    | nil => exact fun _ => .nil
    | cons x met ih =>
      intro hsub
      have ih := ih fun y hy => hsub y (List.mem_cons_of_mem _ hy)
      have hx := hsub x (List.mem_cons_self ..)
      show Told _ _ _ _ (r.entryLog x ++ r.walkLog met)
      cases x with
      | error e => exact .failed ih
      | ok p =>
        have hp := walkedOf_mem.2 hx
        have hlisted : ∀ i, matchesExt r.extension p = true → withExtension p [] = r.context ++ i → i ∈ ids :=
          fun i h1 h2 => (hids i).2 ((mem_all r _ i).2 ⟨p, hp, h1, h2⟩)
        by_cases hm : matchesExt r.extension p = true
        · -- named like a document
          simp only [LocalRepo.entryLog, hm, if_true]
          rcases (hw.mem p).1 hp with ⟨rfl, _⟩ | ⟨rel, hv, rfl⟩ | ⟨_, rfl⟩
          rotate_left 2
          · obtain ⟨s, h⟩ := (matchesExt_snoc he [] _).1 hm
            have : '.' ∈ "<stdin>".toList := h ▸ by simp
            exact absurd this (by decide)
          · by_cases hctx : r.context.getLast? = some ('.' :: r.extension)
            · obtain ⟨_, h2⟩ := (context_listed he hctx []).2 rfl
              rw [(isPrefixOf?_some _ _ _).2 h2]
              exact .root hctx (hlisted [] hm h2) ih
            · have hnone : r.context.isPrefixOf? (withExtension r.context []) = none := by
                cases h : r.context.isPrefixOf? (withExtension r.context []) with
                | none => rfl
                | some i => exact absurd ⟨hm, (isPrefixOf?_some _ _ _).1 h⟩ (context_not_listed he hctx i)
              rw [hnone]
              rcases List.eq_nil_or_concat r.context with hnil | ⟨q, n, hq⟩
              · have hp := extPattern_dotted he.dotted.2
                rw [hnil] at hm
                unfold matchesExt at hm
                rw [hp] at hm
                obtain ⟨s, m, h, _⟩ := (isMatch_dotted he.dotted _ hp).1 hm
                exact absurd h.symm (by simp [entryName])
              · rw [List.concat_eq_append] at hq
                obtain ⟨s, rfl⟩ := (matchesExt_snoc he q n).1 (hq ▸ hm)
                refine .stripped (s := s) (by rw [hq]; simp) ?_ ih
                rintro rfl
                exact hctx (by rw [hq]; simp)
          · obtain ⟨dir, n, rfl, hn⟩ := hv.snoc
            obtain ⟨s, rfl⟩ := (matchesExt_snoc he (r.context ++ dir) n).1 (by rw [List.append_assoc]; exact hm)
            have hd : DocAt r.extension (dir ++ [s ++ '.' :: r.extension]) (dir ++ [s]) := ⟨dir, s, rfl, rfl⟩
            obtain ⟨_, h2⟩ := (listed_below he hv _).2 hd
            rw [(isPrefixOf?_some _ _ _).2 h2]
            exact .listed hd (hlisted _ hm h2) ih
        · simp only [LocalRepo.entryLog, hm]
          refine .other ?_ ih
          rintro ⟨s, h⟩
          rcases List.eq_nil_or_concat p with rfl | ⟨q, n, rfl⟩
          · cases h
          · rw [List.concat_eq_append] at *
            obtain rfl : n = s ++ '.' :: r.extension := by simpa using h
            exact hm ((matchesExt_snoc he q _).2 ⟨s, rfl⟩)
  exact key all fun _ h => h

end

/-! ## C100 -/

section
variable (here : FilePath) (fs : Fs) (met : FilePath → List Entry) (plain : Char → Bool) {ws : List Word}
  {o : Options} {r : LocalRepo} (hr : Says here o r)
include hr

/-- C100, listing: what the process logs is determined. Every entry of the walk is accounted for: it is a failure, of which the log
says so; or not named like a document; or it is listed; or it is the context itself, which is named like a document, and the log
says so. There are no other lines. -/
theorem C100_list {i : Option Word} (hl : Line ws ⟨o, i, .list, none⟩) (he : PlainExt r.extension) {ignored : FilePath → Bool}
    (hf : fs.Named) (hw : Walk ignored r.context fs (walkedOf (met r.context))) :
    ∃ ls ids x, (∀ ls', ProcLogs here met ws ls' ↔ ls' = ls) ∧
      Exits here fs (fun c => walkedOf (met c)) plain none ws x ∧ x.status = 0 ∧ Lines x.stdout ids ∧
      Told r.context r.extension ids (met r.context) ls := by
  have hpat := extPattern_dotted he.dotted.2
  obtain ⟨x, h1, _, h2, h3⟩ := C90_list here fs (fun c => walkedOf (met c)) plain none hr hl ((C72_grammar _ _).1 hpat) hf hw
  refine ⟨_, _, x, fun ls' => ?_, h1, h3, h2, walk_told he hw⟩
  rw [proc_logs hl hr, plot_logs hpat]
  constructor
  · rintro ⟨s, h, rfl⟩
    rw [exec_list.1 h]
    exact List.append_nil _
  · rintro rfl
    exact ⟨_, .list _, (List.append_nil _).symm⟩

/-- C100, deleting: besides the lines of the walk, which are those of a listing, there is one about the node exactly if its path is
not listed. -/
theorem C100_delete {i : Word} (hl : Line ws ⟨o, some i, .delete, none⟩) (he : PlainExt r.extension) {ignored : FilePath → Bool}
    (hw : Walk ignored r.context fs (walkedOf (met r.context))) {p : FilePath} (hp : Spells i p) :
    ∃ ls ids, Told r.context r.extension ids (met r.context) ls ∧
      (p ∈ ids → (∀ ls', ProcLogs here met ws ls' ↔ ls' = ls) ∧
        Exits here fs (fun c => walkedOf (met c)) plain none ws ⟨0, [], none⟩) ∧
      (p ∉ ids → (∀ ls', ProcLogs here met ws ls' ↔ ls' = ls ++ [.schema (.missing p)]) ∧
        Exits here fs (fun c => walkedOf (met c)) plain none ws ⟨1, [], some "Error: nothing to apply\n".toList⟩) := by
  have hpat := extPattern_dotted he.dotted.2
  obtain ⟨h1, h2⟩ := C90_delete here fs (fun c => walkedOf (met c)) plain none hr hl ((C72_grammar _ _).1 hpat) hp
  obtain ⟨h3, h4⟩ := delete_logs r (walkedOf (met r.context)) p
  have key : ∀ s, (r.schema (walkedOf (met r.context))).Logs [] (deleteBody p) s →
      ∀ ls', ProcLogs here met ws ls' ↔ ls' = r.walkLog (met r.context) ++ s.map .schema := by
    intro s hs ls'
    rw [proc_logs hl hr, plot_logs hpat]
    have hp' : (some i).map parsePath = some p := congrArg some ((C75_spelling i p).1 hp)
    show (∃ s, ExecLogs _ ((some i).map parsePath) .delete s ∧ _) ↔ _
    rw [hp']
    constructor
    · rintro ⟨s', h, rfl⟩
      cases h with
      | delete h => rw [logs_unique hs h]
    · rintro rfl
      exact ⟨s, .delete hs, rfl⟩
  refine ⟨_, _, walk_told he hw, fun h => ⟨?_, h1 h⟩, fun h => ⟨?_, h2 h⟩⟩
  · simpa using key _ (h3 h)
  · simpa using key _ (h4 h)

/-- C100, saving, and commands without an id: there are the lines of the walk and no others. -/
theorem C100_others {i : Option Word} {a : Action} {content : Option Word} (hl : Line ws ⟨o, i, a, content⟩)
    (ha : a = .save ∨ (a = .delete ∧ i = none)) (he : PlainExt r.extension) {ignored : FilePath → Bool}
    (hw : Walk ignored r.context fs (walkedOf (met r.context))) :
    ∃ ls ids, Told r.context r.extension ids (met r.context) ls ∧ ∀ ls', ProcLogs here met ws ls' ↔ ls' = ls := by
  have hpat := extPattern_dotted he.dotted.2
  refine ⟨_, _, walk_told he hw, fun ls' => ?_⟩
  rw [proc_logs hl hr, plot_logs hpat]
  rcases ha with rfl | ⟨rfl, rfl⟩
  · cases i with
    | none =>
      constructor
      · rintro ⟨s, h, rfl⟩
        cases h
        exact List.append_nil _
      · rintro rfl
        exact ⟨_, .saveNoId _, (List.append_nil _).symm⟩
    | some i =>
      constructor
      · rintro ⟨s, h, rfl⟩
        cases h with
        | save h1 h2 =>
          rw [logs_unique (save_logs ..) h2]
          exact List.append_nil _
      · rintro rfl
        exact ⟨[], .save rfl (save_logs ..), (List.append_nil _).symm⟩
  · constructor
    · rintro ⟨s, h, rfl⟩
      cases h
      exact List.append_nil _
    · rintro rfl
      exact ⟨_, .deleteNoId, (List.append_nil _).symm⟩

/-- C100: with an extension that makes no pattern nothing is logged, whatever the walk would have met. -/
theorem C100_no_pattern {i : Option Word} {a : Action} {content : Option Word} (hl : Line ws ⟨o, i, a, content⟩)
    (hm : ¬ BeyondModel (writtenExt r.extension)) (hre : ¬ ∃ re, Alts (writtenExt r.extension) re) :
    ∀ ls, ProcLogs here met ws ls ↔ ls = [] := by
  have hpat := (C72_not_written _ hm).2 hre
  intro ls
  rw [proc_logs hl hr]
  constructor
  · intro h
    cases h with
    | ok h => rw [hpat] at h; cases h
    | invalid => rfl
  · rintro rfl
    exact .invalid hpat

/-- C100, a context that does not exist: the walk meets nothing but an error, there is one line in the log, and still the process
ends with status 0 and an empty listing. -/
theorem C100_no_context {i : Option Word} (hl : Line ws ⟨o, i, .list, none⟩) (he : PlainExt r.extension) (e : List Char)
    (hmet : met r.context = [.error e]) :
    (∀ ls, ProcLogs here met ws ls ↔ ls = [.walking e]) ∧
    Exits here fs (fun c => walkedOf (met c)) plain none ws ⟨0, [], none⟩ := by
  have hpat := extPattern_dotted he.dotted.2
  constructor
  · intro ls
    rw [proc_logs hl hr, plot_logs hpat, hmet]
    constructor
    · rintro ⟨s, h, rfl⟩
      rw [exec_list.1 h]
      rfl
    · rintro rfl
      exact ⟨_, .list _, rfl⟩
  · have := list_ends here fs (fun c => walkedOf (met c)) plain none hr hl ((C72_grammar _ _).1 hpat)
    rw [hmet] at this
    exact this

end

/-- C100: a command line that runs nothing logs nothing. -/
theorem C100_usage (here : FilePath) (met : FilePath → List Entry) (ws : List Word) (h : ∀ v, ¬ Line ws v) :
    ∀ ls, ProcLogs here met ws ls ↔ ls = [] := by
  have hn : parseArgs ws = none := by
    cases hp : parseArgs ws with
    | none => rfl
    | some v => exact (h v ((C87_grammar ws v).1 hp)).elim
  intro ls
  constructor
  · intro h
    cases h with
    | usage => rfl
    | ran h => rw [hn] at h; cases h
  · rintro rfl
    exact .usage hn

example (here : FilePath) (met : FilePath → List Entry) (ls : List CliLine) :
    ProcLogs here met (wordsOf ["doc", "ls", "ls"]) ls ↔ ls = [] :=
  C100_usage here met _ (fun v h => by
    have := (C87_grammar _ v).2 h
    rw [show parseArgs (wordsOf ["doc", "ls", "ls"]) = none by decide +kernel] at this
    cases this) ls

/-- C100: what can be read off such a log. The failures are those of the walk, in their order; the only path ever named is the context;
and if there is no line then everything met that is named like a document is listed. -/
theorem C100_silent {ctx : FilePath} {ext : Name} {ids : List FilePath} {met : List Entry} {ls : List CliLine}
    (h : Told ctx ext ids met ls) :
    (met.filterMap fun | .error e => some e | .ok _ => none) = (ls.filterMap fun | .walking e => some e | _ => none) ∧
    (∀ l ∈ ls, (∃ e, l = .walking e) ∨ (l = .stripping ctx ∧ .ok ctx ∈ met)) ∧
    (ls = [] → ∀ x ∈ met, ∃ p, x = .ok p ∧ ∀ s, p.getLast? = some (s ++ '.' :: ext) →
      ∃ rel, ∃ i ∈ ids, p = ctx ++ rel ∧ (DocAt ext rel i ∨ (rel = [] ∧ i = []))) := by
  induction h with
  | nil => exact ⟨rfl, fun _ h => (by cases h), fun _ _ h => (by cases h)⟩
  | failed _ ih =>
    obtain ⟨h1, h2, _⟩ := ih
    refine ⟨congrArg (_ :: ·) h1, fun l hl => ?_, fun h => (by cases h)⟩
    rcases List.mem_cons.1 hl with rfl | hl
    · exact .inl ⟨_, rfl⟩
    · exact (h2 l hl).imp (fun h => h) fun h => ⟨h.1, List.mem_cons_of_mem _ h.2⟩
  | other hn _ ih =>
    obtain ⟨h1, h2, h3⟩ := ih
    refine ⟨h1, fun l hl => (h2 l hl).imp (fun h => h) fun h => ⟨h.1, List.mem_cons_of_mem _ h.2⟩, fun h x hx => ?_⟩
    rcases List.mem_cons.1 hx with rfl | hx
    · exact ⟨_, rfl, fun s h => absurd ⟨s, h⟩ hn⟩
    · exact h3 h x hx
  | listed hd hi _ ih =>
    obtain ⟨h1, h2, h3⟩ := ih
    refine ⟨h1, fun l hl => (h2 l hl).imp (fun h => h) fun h => ⟨h.1, List.mem_cons_of_mem _ h.2⟩, fun h x hx => ?_⟩
    rcases List.mem_cons.1 hx with rfl | hx
    · exact ⟨_, rfl, fun s _ => ⟨_, _, hi, rfl, .inl hd⟩⟩
    · exact h3 h x hx
  | root _ hi _ ih =>
    obtain ⟨h1, h2, h3⟩ := ih
    refine ⟨h1, fun l hl => (h2 l hl).imp (fun h => h) fun h => ⟨h.1, List.mem_cons_of_mem _ h.2⟩, fun h x hx => ?_⟩
    rcases List.mem_cons.1 hx with rfl | hx
    · exact ⟨_, rfl, fun s _ => ⟨[], [], hi, (List.append_nil _).symm, .inr ⟨rfl, rfl⟩⟩⟩
    · exact h3 h x hx
  | stripped _ _ _ ih =>
    obtain ⟨h1, h2, _⟩ := ih
    refine ⟨h1, fun l hl => ?_, fun h => (by cases h)⟩
    rcases List.mem_cons.1 hl with rfl | hl
    · exact .inr ⟨rfl, List.mem_cons_self ..⟩
    · exact (h2 l hl).imp (fun h => h) fun h => ⟨h.1, List.mem_cons_of_mem _ h.2⟩

/-! ## Documents -/

theorem step_told {Doc : Type} {s : DerefState Doc} (hs : DerefInv s) (t : Nat) (a : Option Doc) :
    (s.step t a).calls.filterMap DerefCall.toldBy = s.calls.filterMap DerefCall.toldBy ++ s.says t a := by
  unfold DerefState.step DerefState.says
  cases hpc : s.pcs t with
  | idle => simp [DerefState.pc]
  | get =>
    dsimp only
    cases hc : onceGet s.cache with
    | none => simp [DerefState.pc]
    | some d => simp [DerefState.ret, DerefState.pc, DerefCall.toldBy]
  | find =>
    have hf := hs.unfound t (.inr hpc)
    cases a with
    | none => simp [DerefState.ret, DerefState.pc, DerefCall.toldBy, hf]
    | some d => simp [DerefState.pc]
  | set d =>
    have hf := hs.found t d hpc
    dsimp only
    rcases onceSet s.cache d with ⟨c, _ | _⟩
    · simp [DerefState.ret, DerefState.pc, DerefCall.toldBy, hf]
    · simp [DerefState.pc]
  | get2 =>
    have hc := hs.get2 t hpc
    cases hc' : s.cache with
    | none => exact absurd hc' hc
    | some d => simp [DerefState.ret, DerefState.pc, DerefCall.toldBy, onceGet]

theorem run_told {Doc : Type} (sched : List (Nat × Option Doc)) : ∀ {s : DerefState Doc}, DerefInv s →
    (s.run sched).calls.filterMap DerefCall.toldBy = s.calls.filterMap DerefCall.toldBy ++ s.saysAll sched := by
  induction sched with
  | nil => intro s _; exact (List.append_nil _).symm
  | cons e sched ih =>
    intro s hs
    show ((s.step e.1 e.2).run sched).calls.filterMap _ = _ ++ (s.says e.1 e.2 ++ (s.step e.1 e.2).saysAll sched)
    rw [ih (DerefState.step_inv hs e.1 e.2), step_told hs, List.append_assoc]

/-- C100, documents: of any number of concurrent calls for one document, the log has exactly one line for each that returns
nothing, in the order in which they return: "finding document by id" if the repository found nothing, "document not found" if it
found the document. -/
theorem C100_documents {Doc : Type} (cache : Option Doc) (sched : List (Nat × Option Doc)) :
    (DerefState.start cache).saysAll sched = (derefAfter cache sched).calls.filterMap DerefCall.toldBy := by
  have := run_told sched (DerefState.start_inv cache)
  exact this.symm

/-- C100: so if the log says "document not found", the repository has found the document for that very call, and another thread
stored one meanwhile. -/
theorem C100_not_found {Doc : Type} (cache : Option Doc) (sched : List (Nat × Option Doc)) (t : Nat)
    (h : (t, .notFound) ∈ (DerefState.start cache).saysAll sched) :
    ∃ c ∈ (derefAfter cache sched).calls, c.thread = t ∧ c.result = none ∧ c.found ≠ none ∧ LostRace cache sched c := by
  rw [C100_documents, List.mem_filterMap] at h
  obtain ⟨c, hc, h⟩ := h
  unfold DerefCall.toldBy at h
  split at h
  · cases h
  · cases h
  · rename_i d hr hf
    injection h with h
    injection h with h _
    refine ⟨c, hc, h, hr, by rw [hf]; simp, ?_⟩
    rcases (raceInv cache sched).calls c hc d hf with h | h
    · rw [hr] at h; cases h
    · exact h.2

/-! ## Non-vacuity -/

/-- A walk that fails once, over a context named like a document. -/
def toldFs : Fs := ⟨[(["notes.md".toList], .dir), (["notes.md".toList, "a.md".toList], .file []), (["notes.md".toList, "b".toList], .dir)], []⟩

def toldMet : List Entry :=
  [.ok ["notes.md".toList], .ok ["notes.md".toList, "a.md".toList], .error "denied".toList, .ok ["notes.md".toList, "b".toList]]

theorem told_walk : Walk (fun _ => false) ["notes.md".toList] toldFs (walkedOf toldMet) :=
  walk_by ["notes.md".toList] [["a.md".toList], ["b".toList]] (by decide) (by decide) (by decide) (by decide) (by decide) (by decide)
    (by decide) (by decide)

theorem told_log : (⟨["notes.md".toList], "md".toList⟩ : LocalRepo).walkLog toldMet =
    [.stripping ["notes.md".toList], .walking "denied".toList] := by
  have h1 : matchesExt "md".toList ["notes.md".toList] = true := by decide +kernel
  have h2 : matchesExt "md".toList ["notes.md".toList, "a.md".toList] = true := by decide +kernel
  have h3 : matchesExt "md".toList ["notes.md".toList, "b".toList] = false := by decide +kernel
  have h4 : List.isPrefixOf? ["notes.md".toList] (withExtension ["notes.md".toList] []) = none := by decide
  have h5 : List.isPrefixOf? ["notes.md".toList] (withExtension ["notes.md".toList, "a.md".toList] []) = some ["a".toList] := by decide
  simp only [LocalRepo.walkLog, toldMet, List.flatMap_cons, List.flatMap_nil, LocalRepo.entryLog, h1, h2, h3, h4, h5, if_true]
  rfl

/-- Its listing, and the deletion of a document that is not there. -/
example : ProcLogs ["notes.md".toList] (fun _ => toldMet) (wordsOf ["doc", "ls"])
      [.stripping ["notes.md".toList], .walking "denied".toList] ∧
    ProcLogs ["notes.md".toList] (fun _ => toldMet) (wordsOf ["doc", "c", "delete"])
      [.stripping ["notes.md".toList], .walking "denied".toList, .schema (.missing ["c".toList])] := by
  have hpat : ∃ re, extPattern "md".toList = .ok re := ⟨_, extPattern_dotted (PlainExt.dotted ⟨by decide, by decide⟩).2⟩
  obtain ⟨re, hpat⟩ := hpat
  constructor
  · refine .ran (v := ⟨⟨none, none⟩, none, .list, none⟩) (by decide +kernel) ?_
    refine (plot_logs (r := ⟨["notes.md".toList], "md".toList⟩) hpat).2 ⟨_, .list _, ?_⟩
    rw [told_log]; rfl
  · refine .ran (v := ⟨⟨none, none⟩, some "c".toList, .delete, none⟩) (by decide +kernel) ?_
    refine (plot_logs (r := ⟨["notes.md".toList], "md".toList⟩) hpat).2 ⟨_, .delete ((delete_logs _ _ _).2 ?_), ?_⟩
    · decide +kernel
    · rw [told_log]; rfl

/-- Two threads ask for a document nobody has loaded. Both are given it by the repository, one returns it, and the other one logs that it
was not found. -/
example : (DerefState.start (none : Option Nat)).saysAll
    [(0, none), (1, none), (0, none), (1, none), (0, some 7), (1, some 7), (0, none), (1, none), (0, none)] = [(1, .notFound)] := by
  decide

end Plotline
