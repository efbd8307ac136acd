import Verif.Spec.Changes
import Verif.Props.Links

/-! # Lemmas about the walk while the file system changes -/

namespace Plotline

variable {W : Changing} {ctx : FilePath}

theorem fsOpens_iff {fs : Fs} {p : FilePath} {d : List Name} : fs.opens p = some d ↔ fs.Finds p d ∧ fs.Dir d := by
  unfold Fs.opens
  constructor
  · intro h
    split at h
    · cases h
    · rename_i hp
      split at h
      · cases h
      · rename_i d' hd
        split at h
        · rename_i hdir
          cases h
          exact ⟨finds_of hp hd, hdir⟩
        · cases h
  · rintro ⟨⟨hp, hl⟩, hd⟩
    rw [if_neg hp, follow_iff.2 hl]
    exact if_pos hd

theorem fsHas_iff {fs : Fs} {p : FilePath} {n : Name} {x : FsNode} : fs.has p n = some x ↔ Holds fs p n x := by
  unfold Fs.has Holds
  constructor
  · intro h
    split at h
    · cases h
    · rename_i d hd
      exact ⟨d, (fsOpens_iff.1 hd).1, (fsOpens_iff.1 hd).2, h⟩
  · rintro ⟨d, h1, h2, h3⟩
    rw [fsOpens_iff.2 ⟨h1, h2⟩]
    exact h3

theorem Holds.unique {fs : Fs} {p : FilePath} {n : Name} {x y : FsNode} (h : Holds fs p n x) (h' : Holds fs p n y) : x = y :=
  Option.some.inj ((fsHas_iff.2 h).symm.trans (fsHas_iff.2 h'))

theorem mem_names {fs : Fs} {p : FilePath} {n : Name} {x : FsNode} (h : Holds fs p n x) : n ∈ fs.names p := by
  obtain ⟨d, h1, h2, h3⟩ := h
  unfold Fs.names
  rw [fsOpens_iff.2 ⟨h1, h2⟩]
  exact List.mem_filterMap.2 ⟨_, at_mem h3, by simp⟩

theorem names_mem {fs : Fs} (hf : fs.Closed) {p : FilePath} {n : Name} (h : n ∈ fs.names p) : ∃ x, Holds fs p n x := by
  unfold Fs.names at h
  split at h
  · cases h
  · rename_i d hd
    obtain ⟨e, he, h⟩ := List.mem_filterMap.1 h
    split at h
    · rename_i hdl
      obtain ⟨dir, m, h1, _, _⟩ := hf.2.1 e he
      rw [h1] at h hdl
      simp at h hdl
      subst h; subst hdl
      exact ⟨e.2, dir, (fsOpens_iff.1 hd).1, (fsOpens_iff.1 hd).2, at_of_mem hf.1 (h1 ▸ he)⟩
    · cases h

theorem stays_iff {now : Nat} {r : OpenDir} {n : Name} :
    r.stays W ctx now n = true ↔ ∀ s, r.since ≤ s → s ≤ now → ∃ x, Holds (W.fs s) (ctx ++ r.rel) n x := by
  unfold OpenDir.stays
  simp only [List.all_eq_true, List.mem_range'_1, Option.isSome_iff_exists, fsHas_iff]
  constructor
  · intro h s h1 h2; exact h s ⟨h1, by omega⟩
  · intro h s hs; exact h s hs.1 (by omega)

/-- On the way to something visible there are directories. -/
theorem visible_holds {ignored : FilePath → Bool} {fs : Fs} (hf : fs.Closed) {rel : FilePath} (hv : Visible ignored ctx fs rel)
    {dir : FilePath} {n : Name} {rest : FilePath} (e : rel = dir ++ n :: rest) :
    ∃ x, Holds fs (ctx ++ dir) n x ∧ (rest ≠ [] → x = .dir ∧ (fs.opens (ctx ++ (dir ++ [n]))).isSome = true) := by
  subst e
  obtain ⟨_, ⟨root, y, ⟨_, hc, k, hk, hl⟩, hm⟩, hn, _⟩ := hv
  have hp : ∀ m ∈ dir ++ [n], Plain m := by
    intro m hm
    have := hn m (by
      rcases List.mem_append.1 hm with h | h
      · exact List.mem_append_left _ h
      · obtain rfl := List.mem_singleton.1 h
        simp)
    refine ⟨this.1, fun h => this.2 (by rw [h]; rfl), fun h => this.2 (by rw [h]; rfl)⟩
  have hat := at_of_mem hf.1 hm
  have hD : fs.Dir (root ++ dir) := hf.prefix _ (n :: rest) y rfl (by simp) (by simpa using hat)
  have hdd : dir = [] ∨ fs.at (root ++ dir) = some .dir := by
    rcases hD with h | h
    · exact .inl (by simp at h; exact h.2)
    · exact .inr h
  have hroot : root = [] ∨ fs.at root = some .dir ∨ dir = [] := by
    by_cases hd : dir = []
    · exact .inr (.inr hd)
    · rcases hf.prefix _ dir _ rfl hd (hdd.resolve_left hd) with h | h
      · exact .inl h
      · exact .inr (.inl h)
  have hF : fs.Finds (ctx ++ dir) (root ++ dir) :=
    ⟨by simp [hc], k + 0, hk, hl.append hroot (leads_down hf dir root (fun m hm => hp m (by simp [hm])) hdd)⟩
  by_cases hr : rest = []
  · subst hr
    exact ⟨y, ⟨_, hF, hD, by simpa using hat⟩, fun h => absurd rfl h⟩
  · have hx : fs.at (root ++ dir ++ [n]) = some .dir := by
      rcases hf.prefix (p := root ++ dir ++ [n]) _ rest y rfl hr (by simpa using hat) with h | h
      · simp at h
      · exact h
    refine ⟨.dir, ⟨_, hF, hD, hx⟩, fun _ => ⟨rfl, Option.isSome_iff_exists.2 ⟨root ++ (dir ++ [n]), fsOpens_iff.2 ⟨⟨by simp [hc], k + 0, hk, ?_⟩, .inr (by simpa using hx)⟩⟩⟩⟩
    refine hl.append ?_ (leads_down hf (dir ++ [n]) root hp (.inr (by simpa using hx)))
    rcases hf.prefix (p := root) _ (dir ++ [n]) _ rfl (by simp) (by simpa using hx) with h | h
    · exact .inl h
    · exact .inr (.inl h)

namespace WalkState

theorem run_nil {t : Nat} : run W ctx t [] = some (start W ctx t) := rfl

theorem run_snoc {t : Nat} {es : List WalkEvent} {e : WalkEvent} :
    run W ctx t (es ++ [e]) = (run W ctx t es).bind fun s => s.step W ctx e := by
  unfold run
  rw [List.foldlM_append]
  cases List.foldlM (step W ctx) (start W ctx t) es <;> simp [bind]

/-- What holds at the start and after every step holds all along. -/
theorem run_induction {t : Nat} (P : WalkState → Prop) (h0 : P (start W ctx t))
    (hs : ∀ s e s', P s → s.step W ctx e = some s' → P s') {st : WalkState} (h : W.Reaches ctx t st) : P st := by
  obtain ⟨es, h⟩ := h
  unfold run at h
  revert h
  generalize start W ctx t = s0 at h0
  induction es generalizing s0 with
  | nil => intro h; cases h; exact h0
  | cons e es ih =>
    intro h
    rw [List.foldlM_cons] at h
    cases he : step W ctx s0 e with
    | none => rw [he] at h; cases h
    | some s1 => rw [he] at h; exact ih s1 (hs _ _ _ h0 he) h

/-- The ways to go on. -/
inductive Goes (W : Changing) (ctx : FilePath) : WalkState → WalkState → Prop
  | wait {s : WalkState} : Goes W ctx s ⟨s.now + 1, s.stack, s.out⟩
  | skip {now : Nat} {r : OpenDir} {rest : List OpenDir} {out : List FilePath} {n : Name} {i : Nat} {x : FsNode} :
      r.since ≤ i → i ≤ now → ¬ (n ∈ r.given ∧ r.stays W ctx now n = true) → Holds (W.fs i) (ctx ++ r.rel) n x →
      (n.head? = some '.' ∨ W.ignored now (r.rel ++ [n]) = true) →
      Goes W ctx ⟨now, r :: rest, out⟩ ⟨now, ⟨r.rel, r.since, n :: r.given⟩ :: rest, out⟩
  | enter {now : Nat} {r : OpenDir} {rest : List OpenDir} {out : List FilePath} {n : Name} {i : Nat} :
      r.since ≤ i → i ≤ now → ¬ (n ∈ r.given ∧ r.stays W ctx now n = true) → Holds (W.fs i) (ctx ++ r.rel) n .dir →
      n.head? ≠ some '.' → W.ignored now (r.rel ++ [n]) = false → ((W.fs now).opens (ctx ++ (r.rel ++ [n]))).isSome = true →
      Goes W ctx ⟨now, r :: rest, out⟩
        ⟨now, ⟨r.rel ++ [n], now, []⟩ :: ⟨r.rel, r.since, n :: r.given⟩ :: rest, out ++ [ctx ++ (r.rel ++ [n])]⟩
  | yield {now : Nat} {r : OpenDir} {rest : List OpenDir} {out : List FilePath} {n : Name} {i : Nat} {x : FsNode} :
      r.since ≤ i → i ≤ now → ¬ (n ∈ r.given ∧ r.stays W ctx now n = true) → Holds (W.fs i) (ctx ++ r.rel) n x →
      n.head? ≠ some '.' → W.ignored now (r.rel ++ [n]) = false →
      ¬ (x = .dir ∧ ((W.fs now).opens (ctx ++ (r.rel ++ [n]))).isSome = true) →
      Goes W ctx ⟨now, r :: rest, out⟩ ⟨now, ⟨r.rel, r.since, n :: r.given⟩ :: rest, out ++ [ctx ++ (r.rel ++ [n])]⟩
  | close {now : Nat} {r : OpenDir} {rest : List OpenDir} {out : List FilePath} :
      (∀ n x, Holds (W.fs now) (ctx ++ r.rel) n x → n ∈ r.given ∨ r.stays W ctx now n = false) →
      Goes W ctx ⟨now, r :: rest, out⟩ ⟨now, rest, out⟩

theorem step_goes {s s' : WalkState} {e : WalkEvent} (h : s.step W ctx e = some s') : Goes W ctx s s' := by
  obtain ⟨now, stack, out⟩ := s
  cases e with
  | wait => cases h; exact .wait
  | give n i =>
    simp only [step] at h
    split at h
    · cases h
    · rename_i r rest
      split at h
      · cases h
      · rename_i hi
        split at h
        · cases h
        · rename_i hg
          split at h
          · cases h
          · rename_i x hx
            have h1 : r.since ≤ i := by omega
            have h2 : i ≤ now := by omega
            have hx := fsHas_iff.1 hx
            split at h
            · rename_i hs
              cases h; exact .skip h1 h2 hg hx hs
            · rename_i hs
              rw [not_or, Bool.not_eq_true] at hs
              split at h
              · rename_i hd
                cases h
                rw [hd.1] at hx
                exact .enter h1 h2 hg hx hs.1 hs.2 hd.2
              · rename_i hd
                cases h; exact .yield h1 h2 hg hx hs.1 hs.2 hd
  | close =>
    simp only [step] at h
    split at h
    · cases h
    · rename_i r rest
      split at h
      · rename_i hc
        cases h
        refine .close fun n x hx => ?_
        have := List.all_eq_true.1 hc n (mem_names hx)
        simpa using this
      · cases h

theorem start_cases (t : Nat) :
    (ctx = stdinPath ∧ start W ctx t = ⟨t, [], [stdinEntry]⟩) ∨
    ((∀ root, ¬ (W.fs t).Starts ctx root) ∧ ctx ≠ stdinPath ∧ start W ctx t = ⟨t, [], []⟩) ∨
    (∃ root, (W.fs t).Starts ctx root ∧
      start W ctx t = ⟨t, if ((W.fs t).opens ctx).isSome = true then [⟨[], t, []⟩] else [], [ctx]⟩) := by
  unfold start
  split
  · rename_i h; exact .inl ⟨h, rfl⟩
  · rename_i h
    refine .inr ?_
    split
    · rename_i hc
      exact .inl ⟨fun root hr => hr.2.1 hc, h, rfl⟩
    · rename_i hc
      split
      · rename_i hn
        refine .inl ⟨fun root hr => ?_, h, rfl⟩
        obtain ⟨_, _, hl⟩ := hr
        rw [follow_iff.2 hl] at hn
        cases hn
      · rename_i d hd
        exact .inr ⟨d, ⟨h, finds_of hc hd⟩, rfl⟩

/-! ## What is yielded was there -/

theorem Glimpsed.mono {t t1 t2 : Nat} {rel : FilePath} (h : W.Glimpsed ctx t t1 rel) (h2 : t1 ≤ t2) : W.Glimpsed ctx t t2 rel := by
  refine ⟨h.1, fun dir n rest e => ?_⟩
  obtain ⟨h3, ⟨s, x, ha, hb, hc⟩, s', hd, he, hf⟩ := h.2 dir n rest e
  exact ⟨h3, ⟨s, x, ha, by omega, hc⟩, s', hd, by omega, hf⟩

/-- A directory the walk reads was found as one. -/
def Entered (W : Changing) (ctx : FilePath) (t t' : Nat) (rel : FilePath) : Prop :=
  ∀ dir n rest, rel = dir ++ n :: rest → n.head? ≠ some '.' ∧
    (∃ s, t ≤ s ∧ s ≤ t' ∧ Holds (W.fs s) (ctx ++ dir) n .dir) ∧ ∃ s, t ≤ s ∧ s ≤ t' ∧ W.ignored s (dir ++ [n]) = false

theorem Entered.mono {t t1 t2 : Nat} {rel : FilePath} (h : Entered W ctx t t1 rel) (h2 : t1 ≤ t2) : Entered W ctx t t2 rel := by
  intro dir n rest e
  obtain ⟨h3, ⟨s, ha, hb, hc⟩, s', hd, he, hf⟩ := h dir n rest e
  exact ⟨h3, ⟨s, ha, by omega, hc⟩, s', hd, by omega, hf⟩

theorem snoc_split {rel dir : FilePath} {n m : Name} {rest : FilePath} (e : rel ++ [n] = dir ++ m :: rest) :
    (dir = rel ∧ m = n ∧ rest = []) ∨ ∃ rest', rest = rest' ++ [n] ∧ rel = dir ++ m :: rest' := by
  rcases List.eq_nil_or_concat rest with rfl | ⟨rest', k, rfl⟩
  · obtain ⟨h1, h2⟩ := List.append_inj' e rfl
    simp at h2
    exact .inl ⟨h1.symm, h2.symm, rfl⟩
  · rw [List.concat_eq_append] at e ⊢
    have e' : rel ++ [n] = (dir ++ m :: rest') ++ [k] := by simpa using e
    obtain ⟨h1, h2⟩ := List.append_inj' e' rfl
    simp at h2
    exact .inr ⟨rest', by rw [h2], h1⟩

theorem Entered.glimpsed {t now i : Nat} {rel : FilePath} {n : Name} {x : FsNode} (h : Entered W ctx t now rel) (h1 : t ≤ i) (h2 : i ≤ now)
    (hx : Holds (W.fs i) (ctx ++ rel) n x) (hn : n.head? ≠ some '.') (hi : W.ignored now (rel ++ [n]) = false) :
    W.Glimpsed ctx t now (rel ++ [n]) := by
  refine ⟨by simp, fun dir m rest e => ?_⟩
  rcases snoc_split e with ⟨rfl, rfl, rfl⟩ | ⟨rest', rfl, e'⟩
  · exact ⟨hn, ⟨i, x, h1, h2, hx, fun h => absurd rfl h⟩, now, by omega, Nat.le_refl _, hi⟩
  · obtain ⟨h3, ⟨s, ha, hb, hc⟩, h4⟩ := h dir m rest' e'
    exact ⟨h3, ⟨s, _, ha, hb, hc, fun _ => rfl⟩, h4⟩

theorem Entered.snoc {t now i : Nat} {rel : FilePath} {n : Name} (h : Entered W ctx t now rel) (h1 : t ≤ i) (h2 : i ≤ now)
    (hx : Holds (W.fs i) (ctx ++ rel) n .dir) (hn : n.head? ≠ some '.') (hi : W.ignored now (rel ++ [n]) = false) :
    Entered W ctx t now (rel ++ [n]) := by
  intro dir m rest e
  rcases snoc_split e with ⟨rfl, rfl, rfl⟩ | ⟨rest', rfl, e'⟩
  · exact ⟨hn, ⟨i, h1, h2, hx⟩, now, by omega, Nat.le_refl _, hi⟩
  · exact h dir m rest' e'

/-- Times are in order and all that is read or yielded was met. -/
structure Sound (W : Changing) (ctx : FilePath) (t : Nat) (s : WalkState) : Prop where
  now : t ≤ s.now
  since : ∀ r ∈ s.stack, t ≤ r.since ∧ r.since ≤ s.now
  entered : ∀ r ∈ s.stack, Entered W ctx t s.now r.rel
  out : ∀ p ∈ s.out, (p = ctx ∧ ∃ root, (W.fs t).Starts ctx root) ∨ (∃ rel, W.Glimpsed ctx t s.now rel ∧ p = ctx ++ rel) ∨
    ctx = stdinPath ∧ p = stdinEntry

theorem sound {t : Nat} {st : WalkState} (h : W.Reaches ctx t st) : Sound W ctx t st := by
  refine run_induction (Sound W ctx t) ?_ ?_ h
  · rcases start_cases (W := W) (ctx := ctx) t with ⟨hc, h⟩ | ⟨_, _, h⟩ | ⟨root, hr, h⟩
    · rw [h]
      exact ⟨Nat.le_refl _, fun _ hr => (by cases hr), fun _ hr => (by cases hr),
        fun p hp => .inr (.inr ⟨hc, List.mem_singleton.1 hp⟩)⟩
    · rw [h]
      exact ⟨Nat.le_refl _, fun _ hr => (by cases hr), fun _ hr => (by cases hr), fun _ hp => (by cases hp)⟩
    · rw [h]
      have hst : ∀ r ∈ (if ((W.fs t).opens ctx).isSome = true then [(⟨[], t, []⟩ : OpenDir)] else []), r = ⟨[], t, []⟩ := by
        intro r hr
        split at hr
        · simpa using hr
        · cases hr
      refine ⟨Nat.le_refl _, fun r h => ?_, fun r h => ?_, fun p hp => ?_⟩
      · rw [hst r h]; exact ⟨Nat.le_refl _, Nat.le_refl _⟩
      · rw [hst r h]; intro dir n rest e; simp at e
      · simp at hp; exact .inl ⟨hp, root, hr⟩
  · intro s e s' hs he
    have hg := step_goes he
    obtain ⟨h1, h2, h3, h4⟩ := hs
    cases hg with
    | wait =>
      refine ⟨by show t ≤ s.now + 1; omega, fun r hr => ⟨(h2 r hr).1, Nat.le_succ_of_le (h2 r hr).2⟩, fun r hr => (h3 r hr).mono (Nat.le_succ _), fun p hp => ?_⟩
      rcases h4 p hp with h | ⟨rel, hg, h⟩ | h
      · exact .inl h
      · exact .inr (.inl ⟨rel, Glimpsed.mono hg (Nat.le_succ _), h⟩)
      · exact .inr (.inr h)
    | @skip now r rest out n i x hi hn hg hx hs =>
      refine ⟨h1, fun r' hr => ?_, fun r' hr => ?_, h4⟩
      · rcases List.mem_cons.1 hr with rfl | hr
        · exact h2 r (by simp)
        · exact h2 r' (by simp [hr])
      · rcases List.mem_cons.1 hr with rfl | hr
        · exact h3 r (by simp)
        · exact h3 r' (by simp [hr])
    | @enter now r rest out n i hi hn hg hx hd hig ho =>
      have hr0 := h2 r (by simp)
      have he0 := h3 r (by simp)
      refine ⟨h1, fun r' hr => ?_, fun r' hr => ?_, fun p hp => ?_⟩
      · rcases List.mem_cons.1 hr with rfl | hr
        · exact ⟨h1, Nat.le_refl _⟩
        rcases List.mem_cons.1 hr with rfl | hr
        · exact hr0
        · exact h2 r' (by simp [hr])
      · rcases List.mem_cons.1 hr with rfl | hr
        · exact he0.snoc (by omega) hn hx hd hig
        rcases List.mem_cons.1 hr with rfl | hr
        · exact he0
        · exact h3 r' (by simp [hr])
      · rcases List.mem_append.1 hp with hp | hp
        · exact h4 p hp
        · simp at hp
          exact .inr (.inl ⟨r.rel ++ [n], he0.glimpsed (by omega) hn hx hd hig, hp⟩)
    | @yield now r rest out n i x hi hn hg hx hd hig ho =>
      have hr0 := h2 r (by simp)
      have he0 := h3 r (by simp)
      refine ⟨h1, fun r' hr => ?_, fun r' hr => ?_, fun p hp => ?_⟩
      · rcases List.mem_cons.1 hr with rfl | hr
        · exact hr0
        · exact h2 r' (by simp [hr])
      · rcases List.mem_cons.1 hr with rfl | hr
        · exact he0
        · exact h3 r' (by simp [hr])
      · rcases List.mem_append.1 hp with hp | hp
        · exact h4 p hp
        · simp at hp
          exact .inr (.inl ⟨r.rel ++ [n], he0.glimpsed (by omega) hn hx hd hig, hp⟩)
    | @close now r rest out hc =>
      exact ⟨h1, fun r' hr => h2 r' (by simp [hr]), fun r' hr => h3 r' (by simp [hr]), h4⟩

/-! ## What lasts is yielded, once -/

variable {t T : Nat} {rel : FilePath}

theorem lasts_stays (hf : ∀ s, t ≤ s → s ≤ T → (W.fs s).Closed) (hl : W.Lasts ctx t T rel) {r : OpenDir} {now : Nat} (h1 : t ≤ r.since)
    (h2 : now ≤ T) {n : Name} {rest : FilePath} (e : rel = r.rel ++ n :: rest) : r.stays W ctx now n = true := by
  refine stays_iff.2 fun s hs hs' => ?_
  obtain ⟨x, hx, _⟩ := visible_holds (hf s (by omega) (by omega)) (hl s (by omega) (by omega)).1 e
  exact ⟨x, hx⟩

/-- Yielded, or to be given by a directory that is read. -/
def Due (ctx : FilePath) (rel : FilePath) (s : WalkState) : Prop :=
  ctx ++ rel ∈ s.out ∨ ∃ r ∈ s.stack, ∃ n rest, rel = r.rel ++ n :: rest ∧ n ∉ r.given

theorem due (hf : ∀ s, t ≤ s → s ≤ T → (W.fs s).Closed) (hl : W.Lasts ctx t T rel) {st : WalkState} (h : W.Reaches ctx t st)
    (hT : st.now ≤ T) : Due ctx rel st := by
  have key : Sound W ctx t st ∧ (st.now ≤ T → Due ctx rel st) := by
    obtain ⟨es, h⟩ := h
    suffices ∀ (es : List WalkEvent) (st : WalkState), run W ctx t es = some st → Sound W ctx t st ∧ (st.now ≤ T → Due ctx rel st) from
      this es st h
    clear h hT st es
    intro es
    suffices ∀ (m : Nat) (es : List WalkEvent) (st : WalkState), es.length = m → run W ctx t es = some st →
        Sound W ctx t st ∧ (st.now ≤ T → Due ctx rel st) from fun st => this _ es st rfl
    clear es
    intro m
    induction m with
    | zero =>
      intro es st hm h
      obtain rfl := List.eq_nil_of_length_eq_zero hm
      refine ⟨sound ⟨_, h⟩, fun hT => ?_⟩
      cases h
      have ht : t ≤ T := Nat.le_trans (sound (W := W) (ctx := ctx) ⟨[], rfl⟩).now hT
      have hv := (hl t (Nat.le_refl _) ht).1
      obtain ⟨hne, ⟨root, y, hst, hm⟩, _⟩ := hv
      rcases start_cases (W := W) (ctx := ctx) t with ⟨hc, h⟩ | ⟨hno, _, h⟩ | ⟨root', hr, h⟩
      · exact absurd hc hst.1
      · exact absurd hst (hno root)
      · rw [h]
        have ho : ((W.fs t).opens ctx).isSome = true := by
          refine Option.isSome_iff_exists.2 ⟨root, fsOpens_iff.2 ⟨hst.2, ?_⟩⟩
          exact (hf t (Nat.le_refl _) ht).prefix _ rel y rfl hne (at_of_mem (hf t (Nat.le_refl _) ht).1 hm)
        rw [if_pos ho]
        cases rel with
        | nil => exact absurd rfl hne
        | cons n rest => exact .inr ⟨_, List.mem_singleton.2 rfl, n, rest, rfl, by simp⟩
    | succ m ih =>
      intro es st hm h
      refine ⟨sound ⟨_, h⟩, fun hT => ?_⟩
      rcases List.eq_nil_or_concat es with rfl | ⟨es', e, rfl⟩
      · cases hm
      rw [List.concat_eq_append] at h hm
      rw [run_snoc] at h
      obtain ⟨s, h1, h2⟩ := Option.bind_eq_some_iff.1 h
      obtain ⟨hs, hd⟩ := ih es' s (by simpa using hm) h1
      have hg := step_goes h2
      clear ih h h1 h2
      cases hg with
      | wait => exact hd (by show s.now ≤ T; have : s.now + 1 ≤ T := hT; omega)
      | @skip now r rest out n i x hi hn hg hx hs' =>
        rcases hd hT with h | ⟨f, hf', m, rest', e, hm⟩
        · exact .inl h
        · rcases List.mem_cons.1 hf' with rfl | hf'
          · refine .inr ⟨_, List.mem_cons_self .., m, rest', e, fun hmem => ?_⟩
            rcases List.mem_cons.1 hmem with rfl | hmem
            · obtain ⟨hv, hig⟩ := hl now hs.now hT
              rcases hs' with h | h
              · exact (hv.2.2.1 m (by rw [e]; simp)).2 h
              · rw [hig (f.rel ++ [m]) ⟨rest', by rw [e]; simp⟩ (by simp)] at h
                cases h
            · exact hm hmem
          · exact .inr ⟨f, by simp [hf'], m, rest', e, hm⟩
      | @enter now r rest out n i hi hn hg hx hnd hig ho =>
        rcases hd hT with h | ⟨f, hf', m, rest', e, hm⟩
        · exact .inl (List.mem_append_left _ h)
        · rcases List.mem_cons.1 hf' with rfl | hf'
          · by_cases hmn : m = n
            · subst hmn
              cases rest' with
              | nil => exact .inl (by show ctx ++ rel ∈ out ++ [ctx ++ (f.rel ++ [m])]; rw [e]; simp)
              | cons k rest' =>
                exact .inr ⟨_, List.mem_cons_self .., k, rest', by rw [e]; simp, by simp⟩
            · exact .inr ⟨_, List.mem_cons_of_mem _ (List.mem_cons_self ..), m, rest', e, by simp [hmn, hm]⟩
          · exact .inr ⟨f, by simp [hf'], m, rest', e, hm⟩
      | @yield now r rest out n i x hi hn hg hx hnd hig ho =>
        rcases hd hT with h | ⟨f, hf', m, rest', e, hm⟩
        · exact .inl (List.mem_append_left _ h)
        · rcases List.mem_cons.1 hf' with rfl | hf'
          · by_cases hmn : m = n
            · subst hmn
              cases rest' with
              | nil => exact .inl (by show ctx ++ rel ∈ out ++ [ctx ++ (f.rel ++ [m])]; rw [e]; simp)
              | cons k rest' =>
                refine absurd ?_ ho
                have hsince := (hs.since f (by simp)).1
                obtain ⟨y, hy, hy'⟩ := visible_holds (hf i (by omega) (by have : now ≤ T := hT; omega)) (hl i (by omega) (by have : now ≤ T := hT; omega)).1 e
                obtain ⟨z, _, hz'⟩ := visible_holds (hf now hs.now hT) (hl now hs.now hT).1 e
                exact ⟨(hx.unique hy).trans (hy' (by simp)).1, (hz' (by simp)).2⟩
            · exact .inr ⟨_, List.mem_cons_self .., m, rest', e, by simp [hmn, hm]⟩
          · exact .inr ⟨f, by simp [hf'], m, rest', e, hm⟩
      | @close now r rest out hc =>
        rcases hd hT with h | ⟨f, hf', m, rest', e, hm⟩
        · exact .inl h
        · rcases List.mem_cons.1 hf' with rfl | hf'
          · have hsince := (hs.since f (by simp)).1
            have hst := lasts_stays hf hl hsince hT e
            obtain ⟨x, hx, _⟩ := visible_holds (hf now hs.now hT) (hl now hs.now hT).1 e
            rcases hc m x hx with h | h
            · exact absurd h hm
            · rw [hst] at h; cases h
          · exact .inr ⟨f, hf', m, rest', e, hm⟩
  exact key.2 hT

/-- What is to be given by a directory that is read has not been yielded, nor anything below it. -/
structure Once (ctx rel : FilePath) (s : WalkState) : Prop where
  chain : s.stack.Pairwise fun u l => ∃ n rest, u.rel = l.rel ++ n :: rest ∧ n ∈ l.given
  fresh : ∀ r ∈ s.stack, ∀ n rest, n ∉ r.given → r.rel ++ n :: rest <+: rel → ctx ++ (r.rel ++ n :: rest) ∉ s.out
  once : ∀ q, q <+: rel → q ≠ [] → s.out.count (ctx ++ q) ≤ 1

theorem once_given {now : Nat} {r : OpenDir} {rest : List OpenDir} {out : List FilePath} {n : Name}
    (h : Once ctx rel ⟨now, r :: rest, out⟩) : Once ctx rel ⟨now, ⟨r.rel, r.since, n :: r.given⟩ :: rest, out⟩ := by
  obtain ⟨h1, h2, h3⟩ := h
  refine ⟨?_, fun f hf m rs hm hp => ?_, h3⟩
  · rw [List.pairwise_cons] at h1 ⊢
    exact h1
  · rcases List.mem_cons.1 hf with rfl | hf
    · exact h2 r (by simp) m rs (fun h => hm (List.mem_cons_of_mem _ h)) hp
    · exact h2 f (by simp [hf]) m rs hm hp

theorem once_yields {now : Nat} {r : OpenDir} {rest : List OpenDir} {out : List FilePath} {n : Name}
    (h : Once ctx rel ⟨now, r :: rest, out⟩) (hn : r.rel ++ [n] <+: rel → n ∉ r.given) :
    Once ctx rel ⟨now, ⟨r.rel, r.since, n :: r.given⟩ :: rest, out ++ [ctx ++ (r.rel ++ [n])]⟩ := by
  have hfresh := fun hp : r.rel ++ [n] <+: rel => h.fresh r (by simp) n [] (hn hp) hp
  obtain ⟨h1, h2, h3⟩ := once_given (n := n) h
  refine ⟨h1, fun f hf m rs hm hp hmem => ?_, fun q hq hne => ?_⟩
  · rcases List.mem_append.1 hmem with hmem | hmem
    · exact h2 f hf m rs hm hp hmem
    · have e : f.rel ++ m :: rs = r.rel ++ [n] := List.append_cancel_left (List.mem_singleton.1 hmem)
      rcases List.mem_cons.1 hf with rfl | hf
      · have := List.append_cancel_left e
        simp at this
        exact hm (by simp [this.1])
      · obtain ⟨k, rs', e', hk⟩ := (List.pairwise_cons.1 h1).1 f hf
        dsimp only at e'
        rw [e', List.append_assoc] at e
        have := List.append_cancel_left e
        simp at this
        exact hm (this.1 ▸ hk)
  · rw [List.count_append]
    by_cases e : q = r.rel ++ [n]
    · subst e
      have h0 : ctx ++ (r.rel ++ [n]) ∉ out := hfresh hq
      rw [show List.count (ctx ++ (r.rel ++ [n])) out = 0 from List.count_eq_zero.2 h0]
      simp
    · have : List.count (ctx ++ q) [ctx ++ (r.rel ++ [n])] = 0 :=
        List.count_eq_zero.2 fun h => e (List.append_cancel_left (List.mem_singleton.1 h))
      rw [this]
      exact h3 q hq hne

theorem once (hf : ∀ s, t ≤ s → s ≤ T → (W.fs s).Closed) (hl : W.Lasts ctx t T rel) {st : WalkState} (h : W.Reaches ctx t st)
    (hT : st.now ≤ T) : Once ctx rel st := by
  have key : ∀ (m : Nat) (es : List WalkEvent) (st : WalkState), es.length = m → run W ctx t es = some st → st.now ≤ T →
      Once ctx rel st := by
    intro m
    induction m with
    | zero =>
      intro es st hm h hT
      obtain rfl := List.eq_nil_of_length_eq_zero hm
      cases h
      have ht : t ≤ T := Nat.le_trans (sound (W := W) (ctx := ctx) ⟨[], rfl⟩).now hT
      obtain ⟨_, ⟨root, _, hst, _⟩, _⟩ := (hl t (Nat.le_refl _) ht).1
      rcases start_cases (W := W) (ctx := ctx) t with ⟨hc, h⟩ | ⟨hno, _, h⟩ | ⟨root', hr, h⟩
      · exact absurd hc hst.1
      · exact absurd hst (hno root)
      · rw [h]
        refine ⟨?_, fun r hr n rs _ _ hmem => ?_, fun q _ hne => ?_⟩
        · split <;> simp
        · have := List.mem_singleton.1 hmem
          simp at this
        · rw [List.count_eq_zero.2]
          · exact Nat.zero_le _
          · intro hmem
            have := List.mem_singleton.1 hmem
            simp at this
            exact hne this
    | succ m ih =>
      intro es st hm h hT
      rcases List.eq_nil_or_concat es with rfl | ⟨es', e, rfl⟩
      · cases hm
      rw [List.concat_eq_append] at h hm
      rw [run_snoc] at h
      obtain ⟨s, h1, h2⟩ := Option.bind_eq_some_iff.1 h
      have hs := sound ⟨_, h1⟩
      have hd := ih es' s (by simpa using hm) h1
      have hg := step_goes h2
      clear ih h h1 h2
      have hnew : ∀ {now r n}, (r : OpenDir) ∈ s.stack → now = s.now → now ≤ T → ¬ (n ∈ r.given ∧ r.stays W ctx now n = true) →
          r.rel ++ [n] <+: rel → n ∉ r.given := by
        rintro now r n hr rfl hT hgv ⟨rs, hrs⟩ hmem
        exact hgv ⟨hmem, lasts_stays hf hl (hs.since r hr).1 hT (n := n) (rest := rs) (by rw [← hrs]; simp)⟩
      cases hg with
      | wait =>
        obtain ⟨h1, h2, h3⟩ := hd (by show s.now ≤ T; have : s.now + 1 ≤ T := hT; omega)
        exact ⟨h1, h2, h3⟩
      | @skip now r rest out n i x hi hn hg hx hs' => exact once_given (hd hT)
      | @enter now r rest out n i hi hn hg hx hnd hig ho =>
        have hn' := hnew (r := r) (n := n) (by simp) rfl hT hg
        have hd := hd hT
        obtain ⟨h1, h2, h3⟩ := once_yields hd hn'
        refine ⟨List.pairwise_cons.2 ⟨fun l hl' => ?_, h1⟩, fun f hf' m rs hm hp => ?_, h3⟩
        · rcases List.mem_cons.1 hl' with rfl | hl'
          · exact ⟨n, [], rfl, by simp⟩
          · obtain ⟨k, rs', e', hk⟩ := (List.pairwise_cons.1 hd.chain).1 l hl'
            exact ⟨k, rs' ++ [n], by show r.rel ++ [n] = _; rw [e']; simp, hk⟩
        · rcases List.mem_cons.1 hf' with rfl | hf'
          · dsimp only at hp hm ⊢
            have hp' : r.rel ++ [n] <+: rel := List.IsPrefix.trans ⟨_, rfl⟩ hp
            intro hmem
            rcases List.mem_append.1 hmem with hmem | hmem
            · rw [List.append_assoc] at hp hmem
              exact hd.fresh r (by simp) n (m :: rs) (hn' hp') hp hmem
            · have := congrArg List.length (List.mem_singleton.1 hmem)
              simp at this
          · exact h2 f hf' m rs hm hp
      | @yield now r rest out n i x hi hn hg hx hnd hig ho =>
        exact once_yields (hd hT) (hnew (r := r) (n := n) (by simp) rfl hT hg)
      | @close now r rest out hc =>
        obtain ⟨h1, h2, h3⟩ := hd hT
        exact ⟨(List.pairwise_cons.1 h1).2, fun f hf' => h2 f (by simp [hf']), h3⟩
  obtain ⟨es, h⟩ := h
  exact key _ es st rfl h hT

end WalkState

end Plotline
