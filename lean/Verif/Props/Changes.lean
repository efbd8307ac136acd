import Verif.Lemmas.ChangesEnd
import Verif.Props.Lazy

/-! # Property C119: documents that come and go while the tool runs -/

namespace Plotline

open Std

variable {W : Changing} {ctx : FilePath} {t t' : Nat}

/-- C119: all that a walk has yielded at an instant has been there since it started: the context when it started, and of every other path
each name in the directory at the path before it. -/
theorem C119_glimpsed {st : WalkState} (h : W.Reaches ctx t st) (p : FilePath) (hp : p ∈ st.out) :
    (p = ctx ∧ ∃ root, (W.fs t).Starts ctx root) ∨ (∃ rel, W.Glimpsed ctx t st.now rel ∧ p = ctx ++ rel) ∨
      ctx = stdinPath ∧ p = stdinEntry :=
  (WalkState.sound h).out p hp

/-- C119: what can be seen during all of the walk is yielded, and once, whatever else comes and goes. -/
theorem C119_lasts (hf : ∀ s, t ≤ s → s ≤ t' → (W.fs s).Closed) {walked : List FilePath} (h : W.Walks ctx t t' walked) (rel : FilePath)
    (hl : W.Lasts ctx t t' rel) : walked.count (ctx ++ rel) = 1 := by
  have h1 : ctx ++ rel ∈ walked := by
    rcases WalkState.due hf hl h (Nat.le_refl _) with h | ⟨r, hr, _⟩
    · exact h
    · cases hr
  have ht : t ≤ t' := (WalkState.sound h).now
  have h2 : walked.count (ctx ++ rel) ≤ 1 :=
    (WalkState.once hf hl h (Nat.le_refl _)).once rel (List.prefix_refl _) (hl t (Nat.le_refl _) ht).1.1
  have := List.count_pos_iff.2 h1
  omega

/-- C119: the context is yielded once if it is found at the start, and otherwise not, whatever becomes of it. -/
theorem C119_context (hc : ctx ≠ stdinPath) {st : WalkState} (h : W.Reaches ctx t st) :
    ((∃ root, (W.fs t).Starts ctx root) → st.out.count ctx = 1) ∧ ((∀ root, ¬ (W.fs t).Starts ctx root) → st.out = []) := by
  have hne : ∀ (out : List FilePath) (rel : FilePath) (n : Name), (out ++ [ctx ++ (rel ++ [n])]).count ctx = out.count ctx := by
    intro out rel n
    rw [List.count_append]
    have : List.count ctx [ctx ++ (rel ++ [n])] = 0 := List.count_eq_zero.2 fun h => by
      have := List.mem_singleton.1 h
      simp at this
    rw [this, Nat.add_zero]
  constructor
  · rintro ⟨root, hr⟩
    refine WalkState.run_induction (fun st => st.out.count ctx = 1) ?_ ?_ h
    · rcases WalkState.start_cases (W := W) (ctx := ctx) t with ⟨h, _⟩ | ⟨hno, _, _⟩ | ⟨_, _, h⟩
      · exact absurd h hc
      · exact absurd hr (hno root)
      · rw [h]; simp
    · intro s e s' hs he
      have hg := WalkState.step_goes he
      cases hg with
      | wait => exact hs
      | skip => exact hs
      | enter => dsimp only; rw [hne]; exact hs
      | yield => dsimp only; rw [hne]; exact hs
      | close => exact hs
  · intro hno
    refine (WalkState.run_induction (fun st => st.stack = [] ∧ st.out = []) ?_ ?_ h).2
    · rcases WalkState.start_cases (W := W) (ctx := ctx) t with ⟨h, _⟩ | ⟨_, _, h⟩ | ⟨root, hr, _⟩
      · exact absurd h hc
      · rw [h]; exact ⟨rfl, rfl⟩
      · exact absurd hr (hno root)
    · rintro s e s' ⟨h1, h2⟩ he
      have hg := WalkState.step_goes he
      cases hg with
      | wait => exact ⟨h1, h2⟩
      | skip => cases h1
      | enter => cases h1
      | yield => cases h1
      | close => cases h1

/-- A way to a place that does not change is there. -/
theorem Glimpsed.visible {fs : Fs} (hf : fs.Closed) {ignored : FilePath → Bool} (hst : ctx ≠ stdinPath) {rel : FilePath}
    (h : (Changing.still fs ignored).Glimpsed ctx t t' rel) :
    Visible ignored ctx fs rel ∧ ∀ q, q <+: rel → q ≠ [] → ignored q = false := by
  have hroot : ∀ (d : FilePath) (n : Name) (rest : FilePath), rel = d ++ n :: rest →
      ∃ root x, fs.Finds ctx root ∧ fs.Dir root ∧ fs.Dir (root ++ d) ∧ fs.Finds (ctx ++ d) (root ++ d) ∧
        fs.at (root ++ d ++ [n]) = some x ∧ (rest ≠ [] → x = .dir) := by
    intro d
    suffices ∀ (m : Nat) (d : FilePath) (n : Name) (rest : FilePath), d.length = m → rel = d ++ n :: rest →
        ∃ root x, fs.Finds ctx root ∧ fs.Dir root ∧ fs.Dir (root ++ d) ∧ fs.Finds (ctx ++ d) (root ++ d) ∧
          fs.at (root ++ d ++ [n]) = some x ∧ (rest ≠ [] → x = .dir) from fun n rest => this _ d n rest rfl
    clear d
    intro m
    induction m with
    | zero =>
      intro d n rest hm e
      obtain rfl := List.eq_nil_of_length_eq_zero hm
      obtain ⟨_, ⟨s, x, _, _, ⟨r, h1, h2, h3⟩, h4⟩, _⟩ := h.2 [] n rest e
      rw [List.append_nil] at h1
      change fs.Finds _ _ at h1
      change fs.Dir _ at h2
      change fs.at _ = _ at h3
      exact ⟨r, x, h1, h2, by simpa using h2, by simpa using h1, by simpa using h3, h4⟩
    | succ m ih =>
      intro d n rest hm e
      rcases List.eq_nil_or_concat d with rfl | ⟨d', k, rfl⟩
      · cases hm
      rw [List.concat_eq_append] at e hm ⊢
      obtain ⟨root, y, h1, h2, h3, h4, h5, h6⟩ := ih d' k (n :: rest) (by simpa using hm) (by rw [e]; simp)
      rw [h6 (by simp)] at h5
      have hk : Plain k := by
        obtain ⟨dir, k', e', hk, _⟩ := hf.2.1 _ (at_mem h5)
        obtain ⟨_, e'⟩ := List.append_inj' e' rfl
        simp at e'
        exact e' ▸ hk
      have hF : fs.Finds (ctx ++ (d' ++ [k])) (root ++ (d' ++ [k])) := by
        obtain ⟨hne, j, hj, hl⟩ := h4
        refine ⟨by simp, j + 0, hj, ?_⟩
        rw [← List.append_assoc, ← List.append_assoc]
        refine hl.append ?_ (.dir hk h5 .here)
        rcases h3 with h | h
        · exact .inl h
        · exact .inr (.inl h)
      obtain ⟨_, ⟨s, x, _, _, ⟨r, g1, g2, g3⟩, g4⟩, _⟩ := h.2 (d' ++ [k]) n rest e
      obtain rfl := g1.unique hF
      exact ⟨root, x, h1, h2, .inr (by simpa using h5), hF, g3, g4⟩
  refine ⟨⟨h.1, ?_, fun n hn => ?_, ?_⟩, fun q hq hne => ?_⟩
  · obtain ⟨d, n, e⟩ : ∃ d n, rel = d ++ [n] := ⟨_, _, (List.dropLast_concat_getLast h.1).symm⟩
    obtain ⟨root, x, h1, _, _, _, h5, _⟩ := hroot d n [] e
    exact ⟨root, x, ⟨hst, h1⟩, by rw [e, ← List.append_assoc]; exact at_mem h5⟩
  · obtain ⟨d, rest, e⟩ := List.append_of_mem hn
    obtain ⟨root, x, _, _, _, _, h5, _⟩ := hroot d n rest e
    obtain ⟨dir, k', e', hk, _⟩ := hf.2.1 _ (at_mem h5)
    obtain ⟨_, e'⟩ := List.append_inj' e' rfl
    simp at e'
    exact ⟨(e' ▸ hk).1, (h.2 d n rest e).1⟩
  · obtain ⟨d, n, e⟩ : ∃ d n, rel = d ++ [n] := ⟨_, _, (List.dropLast_concat_getLast h.1).symm⟩
    obtain ⟨_, _, _, _, _, hi⟩ := h.2 d n [] e
    rw [e]; exact hi
  · obtain ⟨d, n, e⟩ : ∃ d n, q = d ++ [n] := ⟨_, _, (List.dropLast_concat_getLast hne).symm⟩
    obtain ⟨rs, hrs⟩ := hq
    obtain ⟨_, _, _, _, _, hi⟩ := h.2 d n rs (by rw [← hrs, e]; simp)
    rw [e]; exact hi

/-- C119: where nothing changes the walk yields what the other properties say it does (`Walk`): all that can be seen, each once. -/
theorem C119_still (fs : Fs) (hf : fs.Closed) (ignored : FilePath → Bool) (hp : Prunes ignored) (walked : List FilePath)
    (h : (Changing.still fs ignored).Walks ctx t t' walked) : Walk ignored ctx fs walked := by
  by_cases hst : ctx = stdinPath
  · have : walked = [stdinEntry] := by
      have key := WalkState.run_induction (fun st => st.stack = [] ∧ st.out = [stdinEntry]) ?_ ?_ h
      · exact key.2
      · rcases WalkState.start_cases (W := Changing.still fs ignored) (ctx := ctx) t with ⟨_, h⟩ | ⟨_, h, _⟩ | ⟨root, hr, _⟩
        · rw [h]; exact ⟨rfl, rfl⟩
        · exact absurd hst h
        · exact absurd hst hr.1
      · rintro s e s' ⟨h1, h2⟩ he
        have hg := WalkState.step_goes he
        cases hg with
        | wait => exact ⟨h1, h2⟩
        | skip => cases h1
        | enter => cases h1
        | yield => cases h1
        | close => cases h1
    subst this
    refine ⟨by simp, fun p => ?_⟩
    rw [List.mem_singleton]
    constructor
    · rintro rfl; exact .inr (.inr ⟨hst, rfl⟩)
    · rintro (⟨_, root, hr⟩ | ⟨rel, ⟨_, ⟨root, _, hr, _⟩, _⟩, _⟩ | ⟨_, h⟩)
      · exact absurd hst hr.1
      · exact absurd hst hr.1
      · exact h
  have hvis : ∀ rel, Visible ignored ctx fs rel → (Changing.still fs ignored).Lasts ctx t t' rel := by
    intro rel hv s _ _
    refine ⟨hv, fun q hq hne => ?_⟩
    cases hi : ignored q with
    | false => exact hi
    | true => have := hp q rel hq hne hi; rw [hv.2.2.2] at this; cases this
  have hmem : ∀ p, p ∈ walked ↔ (p = ctx ∧ ∃ root, fs.Starts ctx root) ∨ (∃ rel, Visible ignored ctx fs rel ∧ p = ctx ++ rel) ∨
      ctx = stdinPath ∧ p = stdinEntry := by
    intro p
    constructor
    · intro hp
      rcases C119_glimpsed h p hp with h | ⟨rel, hg, e⟩ | h
      · exact .inl h
      · exact .inr (.inl ⟨rel, (Glimpsed.visible hf hst hg).1, e⟩)
      · exact .inr (.inr h)
    · rintro (⟨rfl, hr⟩ | ⟨rel, hv, rfl⟩ | ⟨h, _⟩)
      · exact List.count_pos_iff.1 (by rw [(C119_context hst h).1 hr]; exact Nat.one_pos)
      · exact List.count_pos_iff.1 (by rw [C119_lasts (fun _ _ _ => hf) h rel (hvis rel hv)]; exact Nat.one_pos)
      · exact absurd h hst
  refine ⟨List.nodup_iff_count.2 fun p => ?_, hmem⟩
  by_cases hpm : p ∈ walked
  · rcases (hmem p).1 hpm with ⟨rfl, hr⟩ | ⟨rel, hv, rfl⟩ | ⟨h, _⟩
    · exact Nat.le_of_eq ((C119_context hst h).1 hr)
    · exact Nat.le_of_eq (C119_lasts (fun _ _ _ => hf) h rel (hvis rel hv))
    · exact absurd h hst
  · rw [List.count_eq_zero.2 hpm]; exact Nat.zero_le _

/-- C119: as long as it reads a directory the walk can go on: the system can give another name or the end. -/
theorem C119_goes_on (hf : ∀ s, (W.fs s).Closed) {st : WalkState} (h : W.Reaches ctx t st) (hs : st.stack ≠ []) :
    ∃ e st', e ≠ .wait ∧ st.step W ctx e = some st' := by
  obtain ⟨now, stack, out⟩ := st
  cases stack with
  | nil => exact absurd rfl hs
  | cons r rest =>
    have hr := (WalkState.sound h).since r (by simp)
    by_cases hc : ((W.fs now).names (ctx ++ r.rel)).all fun n => decide (n ∈ r.given) || !r.stays W ctx now n
    · exact ⟨.close, _, by simp, by simp only [WalkState.step]; exact if_pos hc⟩
    · obtain ⟨n, hn, hg⟩ : ∃ n ∈ (W.fs now).names (ctx ++ r.rel), ¬ (n ∈ r.given ∨ r.stays W ctx now n = false) := by
        simpa using hc
      rw [not_or] at hg
      obtain ⟨x, hx⟩ := names_mem (hf now) hn
      have hr2 : ¬ (now < r.since ∨ now < now) := by have : r.since ≤ now := hr.2; omega
      cases hstep : WalkState.step W ctx ⟨now, r :: rest, out⟩ (.give n now) with
      | some st' => exact ⟨_, st', by simp, hstep⟩
      | none =>
        simp only [WalkState.step] at hstep
        rw [if_neg hr2, if_neg fun h => hg.1 h.1, fsHas_iff.2 hx] at hstep
        dsimp only at hstep
        split at hstep
        · cases hstep
        · split at hstep <;> cases hstep

/-- C119: where nothing changes the walk ends: it takes at most two steps for each file and directory, and one. -/
theorem C119_ends (fs : Fs) (hf : fs.Closed) (ignored : FilePath → Bool) (es : List WalkEvent) (st : WalkState)
    (h : WalkState.run (Changing.still fs ignored) ctx t es = some st) :
    (es.filter fun e => decide (e ≠ .wait)).length ≤ 2 * fs.nodes.length + 1 := by
  show WalkState.busy es ≤ _
  by_cases hr : ∃ root, fs.Starts ctx root
  · obtain ⟨root, hst, hroot⟩ := hr
    obtain ⟨G, hG, hb⟩ := WalkState.counted hf hroot _ es st rfl h
    have h1 : (G.map (root ++ ·)).Nodup := List.pairwise_map.2 (hG.nodup.imp fun h e => h (List.append_cancel_left e))
    have h2 : (G.map (root ++ ·)).length ≤ (fs.nodes.map Prod.fst).length :=
      h1.length_le_of_subset fun p hp => by
        obtain ⟨q, hq, rfl⟩ := List.mem_map.1 hp
        exact hG.there q hq
    simp only [List.length_map] at h2
    omega
  · have key : ∀ (m : Nat) (es : List WalkEvent) (st : WalkState), es.length = m →
        WalkState.run (Changing.still fs ignored) ctx t es = some st → st.stack = [] ∧ WalkState.busy es = 0 := by
      intro m
      induction m with
      | zero =>
        intro es st hm h
        obtain rfl := List.eq_nil_of_length_eq_zero hm
        cases h
        refine ⟨?_, rfl⟩
        rcases WalkState.start_cases (W := Changing.still fs ignored) (ctx := ctx) t with ⟨_, h⟩ | ⟨_, _, h⟩ | ⟨root, h, _⟩
        · rw [h]
        · rw [h]
        · exact absurd ⟨root, h⟩ hr
      | succ m ih =>
        intro es st hm h
        rcases List.eq_nil_or_concat es with rfl | ⟨es', e, rfl⟩
        · cases hm
        rw [List.concat_eq_append] at h hm ⊢
        rw [WalkState.run_snoc] at h
        obtain ⟨s, h1, h2⟩ := Option.bind_eq_some_iff.1 h
        obtain ⟨h3, h4⟩ := ih es' s (by simpa using hm) h1
        rw [WalkState.busy_snoc, h4]
        cases e with
        | wait => cases h2; exact ⟨h3, rfl⟩
        | give n i => simp [WalkState.step, h3] at h2
        | close => simp [WalkState.step, h3] at h2
    rw [(key _ es st rfl h).2]
    exact Nat.zero_le _

/-- C119: and there is such a walk, without any time going by. -/
theorem C119_finishes (fs : Fs) (hf : fs.Closed) (ignored : FilePath → Bool) :
    ∃ walked, (Changing.still fs ignored).Walks ctx t t walked := by
  have key : ∀ (m : Nat) (es : List WalkEvent) (st : WalkState), (∀ e ∈ es, e ≠ .wait) →
      WalkState.run (Changing.still fs ignored) ctx t es = some st → st.now = t → 2 * fs.nodes.length + 1 - es.length = m →
      ∃ walked, (Changing.still fs ignored).Walks ctx t t walked := by
    intro m
    induction m with
    | zero =>
      intro es st hes h hnow hm
      by_cases hs : st.stack = []
      · obtain ⟨now, stack, out⟩ := st
        cases hs; cases hnow
        exact ⟨out, es, h⟩
      · obtain ⟨e, st', he, hstep⟩ := C119_goes_on (fun _ => hf) ⟨es, h⟩ hs
        have hall : ∀ e' ∈ es ++ [e], e' ≠ .wait := fun e' he' => by
          rcases List.mem_append.1 he' with h | h
          · exact hes e' h
          · rw [List.mem_singleton.1 h]; exact he
        have := C119_ends (ctx := ctx) (t := t) fs hf ignored (es ++ [e]) st' (by rw [WalkState.run_snoc, h]; exact hstep)
        rw [List.filter_eq_self.2 fun e' he' => by simpa using hall e' he'] at this
        simp at this
        omega
    | succ m ih =>
      intro es st hes h hnow hm
      by_cases hs : st.stack = []
      · obtain ⟨now, stack, out⟩ := st
        cases hs; cases hnow
        exact ⟨out, es, h⟩
      · obtain ⟨e, st', he, hstep⟩ := C119_goes_on (fun _ => hf) ⟨es, h⟩ hs
        refine ih (es ++ [e]) st' (fun e' he' => ?_) (by rw [WalkState.run_snoc, h]; exact hstep) ((WalkState.step_now hstep he).trans hnow) ?_
        · rcases List.mem_append.1 he' with h | h
          · exact hes e' h
          · rw [List.mem_singleton.1 h]; exact he
        · simp; omega
  refine key _ [] (WalkState.start (Changing.still fs ignored) ctx t) (fun _ h => (by cases h)) rfl ?_ rfl
  rcases WalkState.start_cases (W := Changing.still fs ignored) (ctx := ctx) t with ⟨_, h⟩ | ⟨_, _, h⟩ | ⟨_, _, h⟩ <;> rw [h]

/-! ## The commands -/

theorem listed_glimpsed {ext : Name} (he : PlainExt ext) {rel : FilePath} (h : W.Glimpsed ctx t t' rel) (i : FilePath) :
    (matchesExt ext (ctx ++ rel) = true ∧ withExtension (ctx ++ rel) [] = ctx ++ i) ↔ DocAt ext rel i := by
  obtain ⟨dir, n, rfl⟩ : ∃ dir n, rel = dir ++ [n] := ⟨_, _, (List.dropLast_concat_getLast h.1).symm⟩
  have hn := (h.2 dir n [] rfl).1
  rw [← List.append_assoc, matchesExt_snoc he, withExtension_snoc]
  constructor
  · rintro ⟨⟨s, rfl⟩, h2⟩
    obtain ⟨hs1, hs2⟩ := visible_stem hn
    rw [withExt_strip hs1 (by rintro rfl; exact hs2 rfl) he.dot, List.append_assoc] at h2
    exact ⟨dir, s, rfl, (List.append_cancel_left h2).symm⟩
  · rintro ⟨dir', s, h1, rfl⟩
    obtain ⟨rfl, h2⟩ := List.append_inj' h1 rfl
    cases h2
    obtain ⟨hs1, hs2⟩ := visible_stem hn
    rw [withExt_strip hs1 (by rintro rfl; exact hs2 rfl) he.dot, List.append_assoc]
    exact ⟨⟨s, rfl⟩, rfl⟩

/-- The ids in the graph the tool makes of a walk. -/
theorem changing_ids (r : LocalRepo) (he : PlainExt r.extension) (hctx : r.context.getLast? ≠ some ('.' :: r.extension))
    (hf : ∀ s, t ≤ s → s ≤ t' → (W.fs s).Closed) {walked : List FilePath} (h : W.Walks r.context t t' walked) (x : FilePath) :
    (∀ rel, W.Lasts r.context t t' rel → DocAt r.extension rel x → x ∈ (r.schema walked).guard.iter.map fun node => node.id) ∧
    (x ∈ (r.schema walked).guard.iter.map (fun node => node.id) → ∃ rel, W.Glimpsed r.context t t' rel ∧ DocAt r.extension rel x) := by
  have h2 := fun x => ((list_stdout r walked).2 x).trans (mem_all r walked x)
  constructor
  · intro rel hl hd
    refine (h2 x).2 ⟨r.context ++ rel, List.count_pos_iff.1 (by rw [C119_lasts hf h rel hl]; exact Nat.one_pos), ?_⟩
    exact (listed_below he (hl t (Nat.le_refl _) (WalkState.sound h).now).1 x).2 hd
  · intro hx
    obtain ⟨p, hp, hm⟩ := (h2 x).1 hx
    rcases C119_glimpsed h p hp with ⟨rfl, _⟩ | ⟨rel, hg, rfl⟩ | ⟨hc, rfl⟩
    · exact absurd hm (context_not_listed he hctx x)
    · exact ⟨rel, hg, (listed_glimpsed he hg x).1 hm⟩
    · exact absurd (hc ▸ hm.2) (stdin_stripped x)

/-- C119: `list` prints ids in strictly ascending order, those of the documents that can be seen during all of the walk among them, and
none of documents that could not be seen at any instant of it. -/
theorem C119_list (fuel : Nat) (r : LocalRepo) (he : PlainExt r.extension) (hctx : r.context.getLast? ≠ some ('.' :: r.extension))
    (hf : ∀ s, t ≤ s → s ≤ t' → (W.fs s).Closed) {walked : List FilePath} (h : W.Walks r.context t t' walked) (fs : Fs)
    (i : Option FilePath) :
    ∃ ran, plot fuel r fs walked i .list = some ran ∧ ran.result = .ret (.ok ()) ∧ Ascending ran.stdout ∧
      (∀ rel x, W.Lasts r.context t t' rel → DocAt r.extension rel x → x ∈ ran.stdout) ∧
      ∀ x ∈ ran.stdout, ∃ rel, W.Glimpsed r.context t t' rel ∧ DocAt r.extension rel x :=
  ⟨_, plot_ok (extPattern_dotted he.dotted.2) .., rfl, (list_stdout r walked).1,
    fun rel x hl hd => (changing_ids r he hctx hf h x).1 rel hl hd, fun x hx => (changing_ids r he hctx hf h x).2 hx⟩

/-- C119: `delete` with the id of a document that can be seen during all of the walk succeeds, with one that could not be seen at any
instant of it fails, and otherwise does one or the other. -/
theorem C119_delete (r : LocalRepo) (he : PlainExt r.extension) (hctx : r.context.getLast? ≠ some ('.' :: r.extension))
    (hf : ∀ s, t ≤ s → s ≤ t' → (W.fs s).Closed) {walked : List FilePath} (h : W.Walks r.context t t' walked) (fs : Fs) (i : FilePath) :
    ∃ fuel0 ran, (∀ fuel, fuel0 ≤ fuel → plot fuel r fs walked (some i) .delete = some ran) ∧ ran.stdout = [] ∧
      (ran.result = .ret (.ok ()) ∨ ran.result = .ret (.error (.schema .noop))) ∧
      ((∃ rel, W.Lasts r.context t t' rel ∧ DocAt r.extension rel i) → ran.result = .ret (.ok ())) ∧
      ((∀ rel, W.Glimpsed r.context t t' rel → ¬ DocAt r.extension rel i) → ran.result = .ret (.error (.schema .noop))) := by
  obtain ⟨fuel0, ran, h1, h2, h3⟩ := C59_delete fs r ⟨_, extPattern_dotted he.dotted.2⟩ walked i
  have hids := changing_ids r he hctx hf h i
  refine ⟨fuel0, ran, h1, h2, ?_, ?_, ?_⟩
  · rcases h3 with h | h
    · exact .inl h.2.1
    · exact .inr h.2.1
  · rintro ⟨rel, hl, hd⟩
    rcases h3 with h | h
    · exact h.2.1
    · exact absurd (hids.1 rel hl hd) h.1
  · intro hno
    rcases h3 with h | h
    · obtain ⟨rel, hg, hd⟩ := hids.2 h.1
      exact absurd hd (hno rel hg)
    · exact h.2.1

/-! ## Documents that are loaded while the file system changes -/

/-- A listed document is dereferenced at these instants, and the file system is that of another then. -/
def loadsAt (r : LocalRepo) (W : Changing) (i : FilePath) (ss : List Nat) (now : Nat) : List (LazyEvent FilePath Document) :=
  .build i :: ss.flatMap (fun s => [.repo (r.findById (W.fs s)), .deref 0]) ++ [.repo (r.findById (W.fs now))]

/-- C119: a document is what the first of the instants at which it was dereferenced and there found, whatever becomes of its file. -/
theorem C119_loads (r : LocalRepo) (i : FilePath) (ss : List Nat) (now : Nat) :
    derefResult Document.path (loadsAt r W i ss now) 0 = some ((ss ++ [now]).findSome? fun s => r.findById (W.fs s) i) := by
  have key : ∀ (ss : List Nat) (st : LazyState FilePath Document), st.docs = [⟨i, none⟩] →
      (((ss.flatMap (fun s => [LazyEvent.repo (r.findById (W.fs s)), .deref 0])).foldl (LazyState.step Document.path) st).docs) =
        [⟨i, ss.findSome? fun s => r.findById (W.fs s) i⟩] := by
    have loaded : ∀ (ss : List Nat) (d : Document) (st : LazyState FilePath Document), st.docs = [⟨i, some d⟩] →
        (((ss.flatMap (fun s => [LazyEvent.repo (r.findById (W.fs s)), .deref 0])).foldl (LazyState.step Document.path) st).docs) =
          [⟨i, some d⟩] := by
      intro ss d
      induction ss with
      | nil => intro st h; exact h
      | cons s ss ih =>
        intro st h
        simp only [List.flatMap_cons, List.foldl_append]
        refine ih _ ?_
        simp [LazyState.step, h, LazyDocument.tryDeref, onceGet]
    intro ss
    induction ss with
    | nil => intro st h; exact h
    | cons s ss ih =>
      intro st h
      simp only [List.flatMap_cons, List.foldl_append, List.findSome?_cons]
      cases hd : r.findById (W.fs s) i with
      | none =>
        refine ih _ ?_
        simp [LazyState.step, h, LazyDocument.tryDeref, onceGet, hd]
      | some d =>
        refine loaded ss d _ ?_
        simp [LazyState.step, h, LazyDocument.tryDeref, onceGet, onceSet, hd]
  have h1 := key ss (LazyState.step Document.path LazyState.init (.build i)) rfl
  unfold derefResult loadsAt LazyState.run
  simp only [List.foldl_cons, List.cons_append, List.foldl_append, List.foldl_nil]
  generalize List.foldl (LazyState.step Document.path) (LazyState.step Document.path LazyState.init (.build i)) _ = st at h1
  simp only [LazyState.step, h1, List.findSome?_append, List.findSome?_cons, List.findSome?_nil]
  cases ss.findSome? fun s => r.findById (W.fs s) i with
  | none =>
    cases hd : r.findById (W.fs now) i <;> simp [LazyDocument.tryDeref, onceGet, onceSet, hd]
  | some d => simp [LazyDocument.tryDeref, onceGet]

/-! ## What is moved, and what is replaced -/

theorem closed_by {fs : Fs} (h1 : (fs.nodes.map Prod.fst).Nodup)
    (h2 : ∀ e ∈ fs.nodes, ∃ n ∈ e.1.getLast?, e.1 = e.1.dropLast ++ [n] ∧ (n ≠ [] ∧ n ≠ dotdot ∧ n ≠ dot) ∧
      (e.1.dropLast ≠ [] → fs.at e.1.dropLast = some .dir)) (h3 : fs.cwd ≠ [] → fs.at fs.cwd = some .dir) : fs.Closed := by
  refine ⟨h1, fun e he => ?_, h3⟩
  obtain ⟨n, _, h1, h2, h3⟩ := h2 e he
  exact ⟨_, n, h1, h2, h3⟩

/-- Two directories, with a document in one of them. -/
def twoDirs (d : String) : Fs where
  nodes := [(["home".toList], .dir), (["home".toList, "a".toList], .dir), (["home".toList, "b".toList], .dir),
    (["home".toList, d.toList, "doc.md".toList], .file [1])]

theorem twoDirs_closed (d : String) (h : d = "a" ∨ d = "b") : (twoDirs d).Closed := by
  rcases h with rfl | rfl <;> exact closed_by (by decide) (by decide) (by decide)

/-- The document is moved from one to the other at instant 1. -/
def moved (d d' : String) : Changing := ⟨fun s => if s < 1 then twoDirs d else twoDirs d', fun _ _ => false⟩

/-- A walk that reads one before the move and the other one after it. -/
def movedWalk : List WalkEvent :=
  [.give "a".toList 0, .close, .wait, .give "b".toList 1, .close, .close]

/-- C119: a document that is moved during the walk may not be listed, although it is in one of the directories at every instant. -/
theorem C119_moved : (moved "b" "a").Walks homeRepo.context 0 1 [["home".toList], ["home".toList, "a".toList], ["home".toList, "b".toList]] ∧
    (∀ s, ((moved "b" "a").fs s).Closed ∧ ∃ d x, (d = "a".toList ∨ d = "b".toList) ∧
      Holds ((moved "b" "a").fs s) (homeRepo.context ++ [d]) "doc.md".toList x) ∧
    (plot 0 homeRepo ((moved "b" "a").fs 1) [["home".toList], ["home".toList, "a".toList], ["home".toList, "b".toList]] none .list).map
      Ran.stdout = some [] := by
  refine ⟨⟨movedWalk, by decide +kernel⟩, fun s => ?_, by decide +kernel⟩
  unfold moved
  dsimp only
  split
  · exact ⟨twoDirs_closed _ (.inr rfl), "b".toList, .file [1], .inr rfl, fsHas_iff.1 (by decide +kernel)⟩
  · exact ⟨twoDirs_closed _ (.inl rfl), "a".toList, .file [1], .inl rfl, fsHas_iff.1 (by decide +kernel)⟩

/-- C119: or it may be listed in both, although it is in one of them only at every instant. -/
theorem C119_twice : ∃ walked, (moved "a" "b").Walks homeRepo.context 0 1 walked ∧
    (∀ s, ((moved "a" "b").fs s).has (homeRepo.context ++ ["a".toList]) "doc.md".toList = none ∨
      ((moved "a" "b").fs s).has (homeRepo.context ++ ["b".toList]) "doc.md".toList = none) ∧
    (plot 0 homeRepo ((moved "a" "b").fs 1) walked none .list).map Ran.stdout =
      some [["a".toList, "doc".toList], ["b".toList, "doc".toList]] := by
  refine ⟨[["home".toList], ["home".toList, "a".toList], ["home".toList, "a".toList, "doc.md".toList], ["home".toList, "b".toList],
      ["home".toList, "b".toList, "doc.md".toList]],
    ⟨[.give "a".toList 0, .give "doc.md".toList 0, .close, .wait, .give "b".toList 1, .give "doc.md".toList 1, .close, .close],
      by decide +kernel⟩, fun s => ?_, by decide +kernel⟩
  unfold moved
  dsimp only
  split
  · exact .inr (by decide +kernel)
  · exact .inl (by decide +kernel)

/-- A directory that becomes a link to one elsewhere at instant 1. -/
def linked : Changing where
  fs s :=
    { nodes := [(["home".toList], .dir), (["home".toList, "x".toList], if s < 1 then .dir else .link [[], "else".toList]),
        (["else".toList], .dir), (["else".toList, "doc.md".toList], .file [1])] }
  ignored _ _ := false

/-- C119: the walk does not follow links, but to one that takes the place of a directory between its name being given and its being
opened; the same tree at rest is listed without. -/
theorem C119_link : ∃ walked, linked.Walks homeRepo.context 0 1 walked ∧
    (plot 0 homeRepo (linked.fs 1) walked none .list).map Ran.stdout = some [["x".toList, "doc".toList]] ∧
    ∀ t' walked', (Changing.still (linked.fs 1) fun _ => false).Walks homeRepo.context 1 t' walked' →
      walked'.Perm [["home".toList], ["home".toList, "x".toList]] ∧ (plot 0 homeRepo (linked.fs 1) walked' none .list).map Ran.stdout = some [] := by
  have hf : (linked.fs 1).Closed := closed_by (by decide) (by decide) (by decide)
  have hw0 : Walk (fun _ => false) homeRepo.context (linked.fs 1) [["home".toList], ["home".toList, "x".toList]] :=
    walk_by ["home".toList] [["x".toList]] (by decide) (by decide) (by decide) (by decide) (by decide) (by decide) (by decide) (by decide)
  refine ⟨[["home".toList], ["home".toList, "x".toList], ["home".toList, "x".toList, "doc.md".toList]],
    ⟨[.wait, .give "x".toList 0, .give "doc.md".toList 1, .close, .close], by decide +kernel⟩, by decide +kernel, fun t' walked' h => ?_⟩
  have hw := C119_still (linked.fs 1) hf (fun _ => false) (fun _ _ _ _ h => h) walked' h
  refine ⟨(List.perm_ext_iff_of_nodup hw.nodup hw0.nodup).2 fun p => (hw.mem p).trans (hw0.mem p).symm, ?_⟩
  rw [C52_walk_order 0 homeRepo _ _ walked' _ hw hw0]
  decide +kernel

/-! Examples: what lasts, a repeated name, and loading what is removed later. -/

/-- A walk over a file system at rest. -/
theorem homeWalks : (Changing.still homeFs fun _ => false).Walks homeRepo.context 0 1 homeWalk :=
  ⟨[.give "x".toList 0, .give "a.md".toList 0, .close, .give "c.txt".toList 0, .wait, .give ".md".toList 0, .give "b.md".toList 1, .close],
    by decide +kernel⟩

example : Walk (fun _ => false) homeRepo.context homeFs homeWalk :=
  C119_still homeFs homeFs_closed (fun _ => false) (fun _ _ _ _ h => h) _ homeWalks

/-- The directory `b` lasts while the document is moved. -/
example : (moved "b" "a").Lasts homeRepo.context 0 1 ["b".toList] := by
  intro s _ _
  unfold moved
  dsimp only
  refine ⟨⟨by decide, ⟨["home".toList], .dir, ?_, ?_⟩, by decide, rfl⟩, fun _ _ _ => rfl⟩ <;> split
  · exact ⟨by decide, finds_of (by decide) (by decide +kernel)⟩
  · exact ⟨by decide, finds_of (by decide) (by decide +kernel)⟩
  · decide
  · decide

/-- A name is not given again, nor is the end before it. -/
example : WalkState.run (Changing.still homeFs fun _ => false) homeRepo.context 0 [.give "b.md".toList 0, .give "b.md".toList 0] = none ∧
    WalkState.run (Changing.still homeFs fun _ => false) homeRepo.context 0 [.give "b.md".toList 0, .close] = none := by decide +kernel

/-- The document is loaded from where it was moved to, and is still there after it is moved back. -/
example : derefResult Document.path (loadsAt homeRepo ⟨fun s => if s = 1 then twoDirs "a" else twoDirs "b", fun _ _ => false⟩
    ["a".toList, "doc".toList] [0, 1] 2) 0 = some (some ⟨["home".toList, "a".toList, "doc.md".toList], [1]⟩) := by
  rw [C119_loads]; decide +kernel

end Plotline
