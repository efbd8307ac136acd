import Verif.Spec.Perms
import Verif.Lemmas.Files

/-! # Lemmas about directories without permissions: the same as file systems in which they are something else -/

namespace Plotline

/-- What a directory that may not be searched is like. -/
def Mode.seen (m : Mode) (p : List Name) (x : FsNode) : FsNode := if x = .dir ∧ m.searches p = false then .sealed else x

/-- The file system with some things left out, and such directories sealed. -/
def Fs.mask (fs : Fs) (m : Mode) (keep : List Name → Bool) : Fs where
  nodes := (fs.nodes.filter fun e => keep e.1).map fun e => (e.1, m.seen e.1 e.2)
  cwd := fs.cwd

theorem mask_at (fs : Fs) (m : Mode) (keep : List Name → Bool) (p : List Name) :
    (fs.mask m keep).at p = if keep p then (fs.at p).map (m.seen p) else none := by
  unfold Fs.at Fs.mask
  generalize fs.nodes = l
  induction l with
  | nil => simp
  | cons e l ih =>
    dsimp only at ih ⊢
    by_cases hp : e.1 = p
    · by_cases hk : keep e.1 = true
      · rw [List.filter_cons_of_pos (by simpa using hk), List.map_cons, List.find?_cons_of_pos (by simpa using hp),
          List.find?_cons_of_pos (by simpa using hp), ← hp, if_pos hk]
        rfl
      · rw [List.filter_cons_of_neg (by simpa using hk), ih, ← hp, if_neg hk, if_neg hk]
    · rw [List.find?_cons_of_neg (l := l) (by simpa using hp)]
      by_cases hk : keep e.1 = true
      · rw [List.filter_cons_of_pos (by simpa using hk), List.map_cons, List.find?_cons_of_neg (by simpa using hp), ih]
      · rw [List.filter_cons_of_neg (by simpa using hk), ih]

theorem seen_dir {m : Mode} {p : List Name} {x : FsNode} : m.seen p x = .dir ↔ x = .dir ∧ m.searches p = true := by
  unfold Mode.seen
  cases x <;> cases h : m.searches p <;> simp

theorem seen_link {m : Mode} {p : List Name} {x : FsNode} {t : FilePath} : m.seen p x = .link t ↔ x = .link t := by
  unfold Mode.seen
  cases x <;> cases h : m.searches p <;> simp

theorem seen_file {m : Mode} {p : List Name} {x : FsNode} {b : Bytes} : m.seen p x = .file b ↔ x = .file b := by
  unfold Mode.seen
  cases x <;> cases h : m.searches p <;> simp

/-- What can be reached is kept. -/
def MaskKeeps (m : Mode) (keep : List Name → Bool) : Prop := keep [] = true ∧ ∀ here n, m.Open here → keep (here ++ [n]) = true

variable {m : Mode} {keep : List Name → Bool} {fs : Fs}

theorem Mode.Open.up {p : List Name} (h : m.Open p) : m.Open p.dropLast := fun q hq => h q (hq.trans (List.dropLast_prefix p))

theorem Mode.Open.nil {p : List Name} (h : m.Open p) : m.Open [] := fun q hq => h q (hq.trans (List.nil_prefix))

theorem Mode.Open.self {p : List Name} (h : m.Open p) : m.searches p = true := h p (List.prefix_rfl)

theorem prefix_snoc {α : Type} {q p : List α} {n : α} (h : q <+: p ++ [n]) : q <+: p ∨ q = p ++ [n] := by
  obtain ⟨t, ht⟩ := h
  rcases List.eq_nil_or_concat t with rfl | ⟨t', x, rfl⟩
  · exact .inr (by simpa using ht)
  · rw [List.concat_eq_append, ← List.append_assoc] at ht
    exact .inl ⟨t', (List.append_inj' ht rfl).1⟩

theorem Mode.Open.snoc {p : List Name} {n : Name} (h : m.Open p) (hn : m.searches (p ++ [n]) = true) : m.Open (p ++ [n]) := by
  intro q hq
  rcases prefix_snoc hq with hq | rfl
  · exact h q hq
  · exact hn

theorem passBy_mask (hk : MaskKeeps m keep) (jump jump' : List Name → FilePath → Option (List Name))
    (hj : ∀ here p, m.Open here → jump here p = jump' here p) (p : FilePath) (here : List Name) (ho : m.Open here) :
    fs.passBy m jump here p = (fs.mask m keep).pass jump' here p := by
  induction p generalizing here with
  | nil => rfl
  | cons n p ih =>
    unfold Fs.passBy Fs.pass
    rw [if_neg (by rw [ho.self]; decide), mask_at, if_pos (hk.2 here n ho), ih [] ho.nil, ih here ho, ih _ ho.up]
    split
    · rfl
    split
    · rfl
    split
    · rfl
    cases ha : fs.at (here ++ [n]) with
    | none => rfl
    | some x =>
      cases x with
      | dir =>
        cases hs : m.searches (here ++ [n]) with
        | true => simp only [Option.map_some, Mode.seen, hs]; exact ih _ (ho.snoc hs)
        | false =>
          simp only [Option.map_some, Mode.seen, hs, and_self, if_true]
          cases p with
          | nil => rfl
          | cons k p => unfold Fs.passBy; rw [if_pos hs]; rfl
      | link t => rw [Option.map_some, show m.seen (here ++ [n]) (.link t) = .link t from seen_link.2 rfl]; exact hj here _ ho
      | file b => rw [Option.map_some, show m.seen (here ++ [n]) (.file b) = .file b from seen_file.2 rfl]
      | «sealed» => rw [Option.map_some, show m.seen (here ++ [n]) .sealed = .sealed by simp [Mode.seen]]

theorem followBy_mask (hk : MaskKeeps m keep) (k : Nat) (p : FilePath) (here : List Name) (ho : m.Open here) :
    fs.followBy m k here p = (fs.mask m keep).follow k here p := by
  induction k generalizing p here with
  | zero => exact passBy_mask hk _ _ (fun _ _ _ => rfl) p here ho
  | succ k ih => exact passBy_mask hk _ _ (fun here p ho => ih p here ho) p here ho

theorem leadsBy_mask (hk : MaskKeeps m keep) {here : List Name} {p : FilePath} {there : List Name} {k : Nat}
    (h : LeadsBy m fs here p there k) (ho : m.Open here) : Leads (fs.mask m keep) here p there k := by
  have hat : ∀ {here n x}, m.Open here → fs.at (here ++ [n]) = some x → (fs.mask m keep).at (here ++ [n]) = some (m.seen (here ++ [n]) x) := by
    intro here n x ho ha; rw [mask_at, if_pos (hk.2 here n ho), ha]; rfl
  induction h with
  | here => exact .here
  | root _ _ ih => exact .root (ih ho.nil)
  | dot _ _ ih => exact .dot (ih ho)
  | up _ _ ih => exact .up (ih ho.up)
  | @dir here there n p k _ hn ha h ih =>
    cases hs : m.searches (here ++ [n]) with
    | true => exact .dir hn ((hat ho ha).trans (congrArg some (seen_dir.2 ⟨rfl, hs⟩))) (ih (ho.snoc hs))
    | false =>
      cases h with
      | here => exact .last hn (hat ho ha) fun t ht => (by cases seen_link.1 ht)
      | root h => rw [hs] at h; cases h
      | dot h => rw [hs] at h; cases h
      | up h => rw [hs] at h; cases h
      | dir h => rw [hs] at h; cases h
      | link h => rw [hs] at h; cases h
      | last h => rw [hs] at h; cases h
  | link _ hn ha _ ih => exact .link hn ((hat ho ha).trans (congrArg some (seen_link.2 rfl))) (ih ho)
  | last _ hn ha hx => exact .last hn (hat ho ha) fun t ht => hx t (seen_link.1 ht)

theorem mask_leadsBy (hk : MaskKeeps m keep) {here : List Name} {p : FilePath} {there : List Name} {k : Nat}
    (h : Leads (fs.mask m keep) here p there k) (ho : m.Open here) : LeadsBy m fs here p there k := by
  have hat : ∀ {here n x}, m.Open here → (fs.mask m keep).at (here ++ [n]) = some x →
      ∃ y, fs.at (here ++ [n]) = some y ∧ m.seen (here ++ [n]) y = x := by
    intro here n x ho ha
    rw [mask_at, if_pos (hk.2 here n ho)] at ha
    exact Option.map_eq_some_iff.1 ha
  induction h with
  | here => exact .here
  | root _ ih => exact .root ho.self (ih ho.nil)
  | dot _ ih => exact .dot ho.self (ih ho)
  | up _ ih => exact .up ho.self (ih ho.up)
  | dir hn ha _ ih =>
    obtain ⟨y, h1, h2⟩ := hat ho ha
    obtain ⟨rfl, hs⟩ := seen_dir.1 h2
    exact .dir ho.self hn h1 (ih (ho.snoc hs))
  | link hn ha _ ih =>
    obtain ⟨y, h1, h2⟩ := hat ho ha
    obtain rfl := seen_link.1 h2
    exact .link ho.self hn h1 (ih ho)
  | last hn ha hx =>
    obtain ⟨y, h1, h2⟩ := hat ho ha
    exact .last ho.self hn h1 fun t ht => hx t (by rw [← h2, ht]; exact seen_link.2 rfl)

theorem leadsBy_iff (hk : MaskKeeps m keep) {here : List Name} (ho : m.Open here) {p : FilePath} {there : List Name} {k : Nat} :
    LeadsBy m fs here p there k ↔ Leads (fs.mask m keep) here p there k :=
  ⟨fun h => leadsBy_mask hk h ho, fun h => mask_leadsBy hk h ho⟩

theorem followBy_iff {here : List Name} (ho : m.Open here) {k : Nat} {p : FilePath} {there : List Name} :
    fs.followBy m k here p = some there ↔ ∃ n ≤ k, LeadsBy m fs here p there n := by
  have hk : MaskKeeps m fun _ => true := ⟨rfl, fun _ _ _ => rfl⟩
  rw [followBy_mask hk k p here ho, follow_iff]
  simp only [leadsBy_iff hk ho]

theorem Leads.kept (hk : MaskKeeps m keep) {here : List Name} {p : FilePath} {there : List Name} {k : Nat}
    (h : Leads (fs.mask m keep) here p there k) (ho : m.Open here) : keep there = true := by
  have hdir : ∀ {here}, m.Open here → keep here = true := by
    intro here ho
    rcases List.eq_nil_or_concat here with rfl | ⟨q, n, rfl⟩
    · exact hk.1
    · rw [List.concat_eq_append] at *
      exact hk.2 q n (by have := ho.up; rwa [List.dropLast_concat] at this)
  induction h with
  | here => exact hdir ho
  | root _ ih => exact ih ho.nil
  | dot _ ih => exact ih ho
  | up _ ih => exact ih ho.up
  | @dir here _ n _ _ _ ha _ ih =>
    rw [mask_at, if_pos (hk.2 here n ho)] at ha
    obtain ⟨y, _, h2⟩ := Option.map_eq_some_iff.1 ha
    exact ih (ho.snoc (seen_dir.1 h2).2)
  | link _ _ _ ih => exact ih ho
  | last => exact hk.2 _ _ ho

theorem readBy_mask (hk : MaskKeeps m keep) (hc : m.Open fs.cwd) (p : FilePath) : fs.readBy m p = (fs.mask m keep).read p := by
  unfold Fs.readBy Fs.read
  rw [followBy_mask hk _ _ _ hc, show (fs.mask m keep).cwd = fs.cwd from rfl]
  cases hq : (fs.mask m keep).follow maxLinks fs.cwd p with
  | none => rfl
  | some q =>
    obtain ⟨n, _, hl⟩ := follow_iff.1 hq
    dsimp only
    rw [mask_at, if_pos (hl.kept hk hc)]
    cases ha : fs.at q with
    | none => rfl
    | some x =>
      rw [Option.map_some]
      cases x with
      | file b => rw [show m.seen q (.file b) = .file b from seen_file.2 rfl]
      | link t => rw [show m.seen q (.link t) = .link t from seen_link.2 rfl]
      | «sealed» => rw [show m.seen q .sealed = .sealed by simp [Mode.seen]]
      | dir => cases hs : m.searches q <;> simp [Mode.seen, hs]

theorem findByIdBy_mask (hk : MaskKeeps m keep) (hc : m.Open fs.cwd) (r : LocalRepo) (i : FilePath) :
    r.findByIdBy m fs i = r.findById (fs.mask m keep) i := by
  unfold LocalRepo.findByIdBy LocalRepo.findById
  simp only [readBy_mask hk hc]

/-! ## Walks -/

theorem keeps_all : MaskKeeps m fun _ => true := ⟨rfl, fun _ _ _ => rfl⟩

theorem starts_mask (hk : MaskKeeps m keep) (hc : m.Open fs.cwd) (ctx : FilePath) (root : List Name) :
    (fs.mask m keep).Starts ctx root ↔ StartsBy m fs ctx root := by
  unfold Fs.Starts Fs.Finds StartsBy
  simp only [leadsBy_iff hk hc]; rfl

theorem StartsBy.unique (hc : m.Open fs.cwd) {ctx : FilePath} {root root' : List Name} (h : StartsBy m fs ctx root)
    (h' : StartsBy m fs ctx root') : root = root' :=
  ((starts_mask keeps_all hc _ _).2 h).2.unique ((starts_mask keeps_all hc _ _).2 h').2

/-- A walk is one of the file system with such directories sealed, where what is not reached is ignored. -/
theorem walkBy_mask (hc : m.Open fs.cwd) (ignored : FilePath → Bool) (ctx : FilePath) :
    ∃ ignored', (∀ rel, Visible ignored' ctx (fs.mask m fun _ => true) rel ↔ VisibleBy ignored m ctx fs rel) ∧
      ∀ walked, WalkBy ignored m ctx fs walked → Walk ignored' ctx (fs.mask m fun _ => true) walked := by
  classical
  have hmem : ∀ p x, (∃ y, (p, y) ∈ fs.nodes ∧ m.seen p y = x) ↔ (p, x) ∈ (fs.mask m fun _ => true).nodes := by
    intro p x
    unfold Fs.mask
    rw [List.mem_map]
    constructor
    · rintro ⟨y, h1, h2⟩; exact ⟨(p, y), List.mem_filter.2 ⟨h1, rfl⟩, by rw [← h2]⟩
    · rintro ⟨⟨q, y⟩, h1, h2⟩
      cases h2
      exact ⟨y, (List.mem_filter.1 h1).1, rfl⟩
  obtain ⟨ig, h⟩ : ∃ ignored', ∀ rel, Visible ignored' ctx (fs.mask m fun _ => true) rel ↔ VisibleBy ignored m ctx fs rel := by
    refine ⟨fun rel => ignored rel || !decide (∀ root, StartsBy m fs ctx root → Reached m root rel), fun rel => ?_⟩
    unfold Visible VisibleBy
    simp only [starts_mask keeps_all hc]
    refine and_congr_right fun _ => ?_
    rw [Bool.or_eq_false_iff, Bool.not_eq_false', decide_eq_true_eq]
    constructor
    · rintro ⟨⟨root, x, h1, h2⟩, h3, h4, h5⟩
      obtain ⟨y, h6, _⟩ := (hmem _ _).2 h2
      exact ⟨⟨root, y, h1, h6, h5 root h1⟩, h3, h4⟩
    · rintro ⟨⟨root, y, h1, h2, h5⟩, h3, h4⟩
      exact ⟨⟨root, _, h1, (hmem _ _).1 ⟨y, h2, rfl⟩⟩, h3, h4, fun root' h => (by rwa [h.unique hc h1])⟩
  refine ⟨ig, h, fun walked hw => ⟨hw.nodup, fun p => ?_⟩⟩
  rw [hw.mem]
  simp only [h, starts_mask keeps_all hc]

/-! ## Cutting off what cannot be reached -/

open Classical in
/-- All directories on the way may be searched. -/
noncomputable def Mode.reach (m : Mode) (p : List Name) : Bool := decide (∀ q, q <+: p → q ≠ p → m.searches q = true)

open Classical in
theorem reach_iff {p : List Name} : m.reach p = true ↔ ∀ q, q <+: p → q ≠ p → m.searches q = true := by
  unfold Mode.reach; exact decide_eq_true_iff

theorem reach_snoc {p : List Name} {n : Name} : m.reach (p ++ [n]) = true ↔ m.Open p := by
  rw [reach_iff]
  constructor
  · intro h q hq
    refine h q (hq.trans (List.prefix_append ..)) fun he => ?_
    have := hq.length_le
    rw [he, List.length_append] at this
    exact absurd this (by simp)
  · intro h q hq hne
    exact (prefix_snoc hq).elim (h q) fun e => absurd e hne

theorem keeps_reach : MaskKeeps m m.reach :=
  ⟨reach_iff.2 fun _ hq hne => absurd (List.prefix_nil.1 hq) hne, fun _ _ h => reach_snoc.2 h⟩

theorem reach_open {p : List Name} (h : m.reach p = true) (hp : m.searches p = true) : m.Open p := by
  intro q hq
  by_cases he : q = p
  · rwa [he]
  · exact reach_iff.1 h q hq he

theorem Mode.Open.reach {p : List Name} (h : m.Open p) : m.reach p = true := reach_iff.2 fun q hq _ => h q hq

theorem cut_closed (hf : fs.Closed) (hc : m.Open fs.cwd) : (fs.mask m m.reach).Closed := by
  have hdir : ∀ {p : List Name}, m.Open p → fs.at p = some .dir → (fs.mask m m.reach).at p = some .dir := by
    intro p ho ha
    rw [mask_at, if_pos ho.reach, ha]
    exact congrArg some (seen_dir.2 ⟨rfl, ho.self⟩)
  refine ⟨?_, fun e he => ?_, fun h => hdir hc (hf.2.2 h)⟩
  · show ((List.map _ _).map _).Nodup
    rw [List.map_map]
    exact hf.1.sublist (List.filter_sublist.map _)
  · obtain ⟨e', h1, rfl⟩ := List.mem_map.1 he
    obtain ⟨h1, h2⟩ := List.mem_filter.1 h1
    obtain ⟨dir, n, h3, h4, h5⟩ := hf.2.1 e' h1
    refine ⟨dir, n, h3, h4, fun hd => hdir ?_ (h5 hd)⟩
    rw [h3] at h2
    exact reach_snoc.1 h2

theorem leads_unlinked : ∀ (d : FilePath) (root mid : List Name) (j : Nat), (∀ n ∈ d, Plain n) →
    (∀ e, e <+: d → e ≠ [] → ∀ t, fs.at (root ++ e) ≠ some (.link t)) → Leads fs root d mid j → mid = root ++ d := by
  intro d
  induction d with
  | nil => intro root mid j _ _ h; cases h; simp
  | cons n d ih =>
    intro root mid j hp hl h
    have hn := hp n (by simp)
    cases h with
    | root => exact absurd rfl hn.1
    | dot => exact absurd rfl hn.2.2
    | up => exact absurd rfl hn.2.1
    | dir _ ha h =>
      rw [ih (root ++ [n]) mid j (fun m hm => hp m (by simp [hm])) (fun e he hne t => ?_) h]
      · simp
      · rw [List.append_assoc]
        exact hl (n :: e) ((List.cons_prefix_cons).2 ⟨rfl, he⟩) (by simp) t
    | link _ ha => exact absurd ha (hl [n] ((List.cons_prefix_cons).2 ⟨rfl, List.nil_prefix⟩) (by simp) _)
    | last => rfl

theorem LeadsBy.leads {here : List Name} {p : FilePath} {there : List Name} {k : Nat} (h : LeadsBy m fs here p there k) :
    Leads fs here p there k := by
  induction h with
  | here => exact .here
  | root _ _ ih => exact .root ih
  | dot _ _ ih => exact .dot ih
  | up _ _ ih => exact .up ih
  | dir _ hn ha _ ih => exact .dir hn ha ih
  | link _ hn ha _ ih => exact .link hn ha ih
  | last _ hn ha hx => exact .last hn ha hx

end Plotline
