import Verif.Spec.Within
import Verif.Props.Confine

/-! # C73: which ids load a file under the context -/

namespace Plotline

theorem byNames_append (here : List Name) (p q : FilePath) : byNames here (p ++ q) = byNames (byNames here p) q := by
  induction p generalizing here with
  | nil => rfl
  | cons n p ih =>
    simp only [List.cons_append, byNames]
    split <;> exact ih _

theorem balance_exists (p : FilePath) : ∃ up down, OnBalance p up down := by
  generalize hl : p.length = l
  induction l generalizing p with
  | zero => exact ⟨0, [], by rw [List.eq_nil_of_length_eq_zero hl]; exact .start⟩
  | succ l ih =>
    rcases List.eq_nil_or_concat p with rfl | ⟨q, n, rfl⟩
    · cases hl
    · rw [List.concat_eq_append] at *
      obtain ⟨up, down, h⟩ := ih q (by simpa using hl)
      by_cases hn : n = dotdot
      · subst hn
        rcases List.eq_nil_or_concat down with rfl | ⟨down', m, rfl⟩
        · exact ⟨_, _, .out h⟩
        · rw [List.concat_eq_append] at h; exact ⟨_, _, .back h⟩
      · exact ⟨_, _, .into h hn⟩

theorem byNames_balance {p : FilePath} {up : Nat} {down : List Name} (h : OnBalance p up down) (here : List Name) :
    byNames here p = here.take (here.length - up) ++ down := by
  induction h with
  | start => simp [byNames]
  | into _ hn ih => rw [byNames_append, ih]; simp [byNames, hn]
  | back _ ih =>
    rw [byNames_append, ih]
    simp only [byNames, if_true]
    rw [← List.append_assoc, List.dropLast_concat]
  | out _ ih =>
    rw [byNames_append, ih]
    simp only [byNames, if_true, List.append_nil]
    rw [List.dropLast_eq_take, List.take_take, List.length_take]
    congr 1
    omega

theorem prefix_balance (root : List Name) (up : Nat) (down : List Name) :
    root <+: root.take (root.length - up) ++ down ↔ root.drop (root.length - up) <+: down := by
  conv => lhs; lhs; rw [← List.take_append_drop (root.length - up) root]
  exact List.prefix_append_right_inj _

/-- Without links on the way a path leads where its names say, through directories. -/
theorem leads_names {fs : Fs} (hf : fs.Closed) (w : FilePath) (hw : ∀ n ∈ w, n ≠ [] ∧ n ≠ dot) (here : List Name) (hd : fs.Dir here)
    (hl : ∀ p target, p <+: w → fs.at (byNames here p) ≠ some (.link target)) (b : Bytes) :
    (∃ there j, Leads fs here w there j ∧ fs.at there = some (.file b)) ↔
      (∀ p, p <+: w → p ≠ w → fs.Dir (byNames here p)) ∧ fs.at (byNames here w) = some (.file b) := by
  induction w generalizing here with
  | nil =>
    constructor
    · rintro ⟨there, j, h, hb⟩
      cases h
      exact ⟨fun p h1 h2 => absurd (List.prefix_nil.1 h1) h2, hb⟩
    · rintro ⟨_, hb⟩
      exact ⟨here, 0, .here, hb⟩
  | cons n w ih =>
    have hw' : ∀ n ∈ w, n ≠ [] ∧ n ≠ dot := fun m h => hw m (by simp [h])
    have hn := hw n (by simp)
    have step : ∀ mid : List Name, (∀ p : FilePath, byNames here (n :: p) = byNames mid p) → fs.Dir mid →
        ((∀ p, p <+: n :: w → p ≠ n :: w → fs.Dir (byNames here p)) ∧ fs.at (byNames here (n :: w)) = some (.file b) ↔
          (∃ there j, Leads fs mid w there j ∧ fs.at there = some (.file b))) := by
      intro mid hm hdm
      rw [ih hw' mid hdm (fun p t hp => by rw [← hm]; exact hl _ t ((List.cons_prefix_cons).2 ⟨rfl, hp⟩)), hm]
      refine and_congr_left fun _ => ⟨fun h p h1 h2 => ?_, fun h p h1 h2 => ?_⟩
      · rw [← hm]; exact h _ ((List.cons_prefix_cons).2 ⟨rfl, h1⟩) (by simpa using h2)
      · cases p with
        | nil => exact hd
        | cons m p =>
          obtain ⟨rfl, h3⟩ := (List.cons_prefix_cons).1 h1
          rw [hm]; exact h _ h3 (by simpa using h2)
    by_cases hdd : n = dotdot
    · subst hdd
      rw [step here.dropLast (fun p => by simp [byNames]) (hf.up hd)]
      constructor
      · rintro ⟨there, j, h, hb⟩
        generalize hnn : dotdot = m at h
        cases h with
        | root => exact absurd hnn hn.1
        | dot => exact absurd hnn hn.2
        | up h => exact ⟨there, j, h, hb⟩
        | dir hp => exact absurd hnn.symm hp.2.1
        | link hp => exact absurd hnn.symm hp.2.1
        | last hp => exact absurd hnn.symm hp.2.1
      · rintro ⟨there, j, h, hb⟩
        exact ⟨there, j, .up h, hb⟩
    · have hm : ∀ p : FilePath, byNames here (n :: p) = byNames (here ++ [n]) p := fun p => by simp [byNames, hdd]
      have hp : Plain n := ⟨hn.1, hdd, hn.2⟩
      have hnl : ∀ target, fs.at (here ++ [n]) ≠ some (.link target) := fun t => by
        have := hl [n] t ((List.cons_prefix_cons).2 ⟨rfl, List.nil_prefix⟩)
        rwa [hm] at this
      have one : ∀ there j, Leads fs here (n :: w) there j → fs.at there = some (.file b) →
          (fs.at (here ++ [n]) = some .dir ∧ Leads fs (here ++ [n]) w there j) ∨ (w = [] ∧ there = here ++ [n]) := by
        intro there j h hb
        cases h with
        | root => exact absurd rfl hn.1
        | dot => exact absurd rfl hn.2
        | up => exact absurd rfl hdd
        | dir _ ha h => exact .inl ⟨ha, h⟩
        | link _ ha => exact absurd ha (hnl _)
        | last => exact .inr ⟨rfl, rfl⟩
      by_cases hdir : fs.at (here ++ [n]) = some .dir
      · rw [step (here ++ [n]) hm (.inr hdir)]
        constructor
        · rintro ⟨there, j, h, hb⟩
          rcases one there j h hb with ⟨_, h'⟩ | ⟨rfl, rfl⟩
          · exact ⟨there, j, h', hb⟩
          · rw [hdir] at hb; cases hb
        · rintro ⟨there, j, h, hb⟩
          exact ⟨there, j, .dir hp hdir h, hb⟩
      · constructor
        · rintro ⟨there, j, h, hb⟩
          rcases one there j h hb with ⟨h', _⟩ | ⟨rfl, rfl⟩
          · exact absurd h' hdir
          · refine ⟨fun p h1 h2 => ?_, by rw [hm]; exact hb⟩
            cases p with
            | nil => exact hd
            | cons m p =>
              obtain ⟨rfl, h3⟩ := (List.cons_prefix_cons).1 h1
              rw [List.prefix_nil.1 h3] at h2
              exact absurd rfl h2
        · rintro ⟨h1, hb⟩
          cases w with
          | nil =>
            rw [hm] at hb
            exact ⟨here ++ [n], 0, .last hp hb (fun t => by simp), hb⟩
          | cons m w =>
            have := h1 [n] ((List.cons_prefix_cons).2 ⟨rfl, List.nil_prefix⟩) (by simp)
            rw [hm] at this
            rcases this with h | h
            · exact absurd h (by simp [byNames])
            · exact absurd h hdir

theorem withExtension_names (i : FilePath) (e : Name) (hi : ∀ n ∈ i, n ≠ [] ∧ n ≠ dot) : ∀ n ∈ withExtension i e, n ≠ [] ∧ n ≠ dot := by
  rcases List.eq_nil_or_concat i with rfl | ⟨q, m, rfl⟩
  · simp [withExtension]
  · rw [List.concat_eq_append] at *
    rw [withExtension_snoc]
    intro n hn
    rcases List.mem_append.1 hn with hn | hn
    · exact hi n (by simp [hn])
    · rw [List.mem_singleton.1 hn]
      have := hi m (by simp)
      exact ⟨withExt_ne_nil e this.1, withExt_dot e this.2⟩

/-- C73, where there are no links on the way: what an id loads, if anything, is the file its names lead to from the context, reached
through directories only; and this is under the context exactly if, on balance, the id goes up no further than it comes down again by
the same names.
Missing from C73: that ids do (`C73_refuted`), and links. -/
theorem C73_where_partial (r : LocalRepo) (fs : Fs) (hf : fs.Closed) (root : List Name) (k : Nat)
    (hr : Leads fs fs.cwd r.context root k) (hk : k ≤ maxLinks) (hd : fs.Dir root) (i : FilePath) (hi : i ≠ [])
    (hn : ∀ n ∈ i, n ≠ [] ∧ n ≠ dot)
    (hl : ∀ p target, p <+: withExtension i r.extension → fs.at (byNames root p) ≠ some (.link target)) :
    (∀ bytes, (r.findById fs i).map Document.bytes = some bytes ↔
      (∀ p, p <+: withExtension i r.extension → p ≠ withExtension i r.extension → fs.Dir (byNames root p)) ∧
        fs.at (byNames root (withExtension i r.extension)) = some (.file bytes)) ∧
    (∃ up down, OnBalance (withExtension i r.extension) up down) ∧ ∀ up down, OnBalance (withExtension i r.extension) up down →
      (root <+: byNames root (withExtension i r.extension) ↔ root.drop (root.length - up) <+: down) := by
  refine ⟨fun b => ?_, balance_exists _, fun up down h => by rw [byNames_balance h, prefix_balance]⟩
  · have hrel : Relative i := by
      cases i with
      | nil => exact absurd rfl hi
      | cons n i => simpa [Relative] using hn n (by simp)
    rw [findById_bytes r fs hrel hi, read_beyond hf hr hd (withExtension_ne_nil _ hi),
      ← leads_names hf _ (withExtension_names i r.extension hn) root hd hl]
    have hlink : ∀ w : FilePath, (∀ n ∈ w, n ≠ [] ∧ n ≠ dot) → ∀ here there j, Leads fs here w there j →
        (∀ p target, p <+: w → fs.at (byNames here p) ≠ some (.link target)) → j = 0 := by
      intro w hw here there j h
      induction h with
      | here => exact fun _ => rfl
      | root => exact absurd rfl (hw [] (by simp)).1
      | dot => exact absurd rfl (hw dot (by simp)).2
      | @up here there p k h ih =>
        intro hl
        refine ih (fun n h => hw n (by simp [h])) fun q t hq => ?_
        have := hl (dotdot :: q) t ((List.cons_prefix_cons).2 ⟨rfl, hq⟩)
        simpa [byNames] using this
      | @dir here there n p k hn ha h ih =>
        intro hl
        refine ih (fun n h => hw n (by simp [h])) fun q t hq => ?_
        have := hl (n :: q) t ((List.cons_prefix_cons).2 ⟨rfl, hq⟩)
        simpa [byNames, hn.2.1] using this
      | @link here there n target p k hn ha =>
        intro hl
        have := hl [n] target ((List.cons_prefix_cons).2 ⟨rfl, List.nil_prefix⟩)
        simp [byNames, hn.2.1, ha] at this
      | last => exact fun _ => rfl
    constructor
    · rintro ⟨there, j, _, h, hb⟩; exact ⟨there, j, h, hb⟩
    · rintro ⟨there, j, h, hb⟩
      have := hlink _ (withExtension_names i r.extension hn) _ _ _ h hl
      exact ⟨there, j, by omega, h, hb⟩

/-- C73: a leading `./` makes no difference. -/
theorem C73_dot (r : LocalRepo) (fs : Fs) (i : FilePath) (hi : i ≠ []) (hr : Relative i) :
    (r.findById fs (dot :: i)).map Document.bytes = (r.findById fs i).map Document.bytes := by
  rw [findById_bytes r fs hr hi]
  unfold LocalRepo.findById
  by_cases hc : r.context = []
  · have h1 : joinPath r.context (dot :: i) = dot :: i := by simp [joinPath, hc, dot]
    rw [h1, hc, withExtension_cons _ _ hi, Option.map_map, List.nil_append]
    have : fs.read (dot :: withExtension i r.extension) = fs.read (withExtension i r.extension) := by
      unfold Fs.read maxLinks
      simp only [Fs.follow]
      rw [Fs.pass]
      simp [dot]
    rw [this]
    cases fs.read (withExtension i r.extension) <;> rfl
  · have h1 : joinPath r.context (dot :: i) = r.context ++ i := by simp [joinPath, hc, dot]
    rw [h1, withExtension_append _ _ hi, Option.map_map]
    cases fs.read (r.context ++ withExtension i r.extension) <;> rfl

/-- An id that goes up and comes down again. -/
example : (userRepo.findById rootFs [dotdot, "user".toList, "a".toList]).map Document.bytes = some [1] ∧
    byNames ["home".toList, "user".toList] (withExtension [dotdot, "user".toList, "a".toList] "md".toList) =
      ["home".toList, "user".toList, "a.md".toList] ∧
    OnBalance [dotdot, "user".toList, "a.md".toList] 1 ["user".toList, "a.md".toList] ∧
    (["home".toList, "user".toList].drop 1 <+: ["user".toList, "a.md".toList]) := by
  refine ⟨by decide +kernel, by decide +kernel, ?_, by decide⟩
  exact .into (p := [dotdot, "user".toList]) (.into (p := [dotdot]) (down := []) (.out (p := []) .start) (by decide)) (by decide)

end Plotline
