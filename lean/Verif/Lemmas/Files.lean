import Verif.Spec.Cli

/-! # Lemmas about where paths lead -/

namespace Plotline

theorem dotdot_ne_dot : dotdot ≠ dot := by decide

theorem at_mem {fs : Fs} {p : List Name} {x : FsNode} (h : fs.at p = some x) : (p, x) ∈ fs.nodes := by
  obtain ⟨⟨q, y⟩, h1, rfl⟩ := Option.map_eq_some_iff.1 h
  have := List.find?_some h1
  obtain rfl : q = p := by simpa using this
  exact List.mem_of_find?_eq_some h1

theorem find_nodup {l : List (List Name × FsNode)} (h : (l.map Prod.fst).Nodup) {e : List Name × FsNode} (he : e ∈ l) :
    l.find? (fun x => x.1 = e.1) = some e := by
  induction l with
  | nil => cases he
  | cons a l ih =>
    simp only [List.map_cons, List.nodup_cons] at h
    rcases List.mem_cons.1 he with rfl | he
    · simp
    · have : a.1 ≠ e.1 := fun h' => h.1 (by rw [h']; exact List.mem_map_of_mem he)
      simp only [List.find?_cons, this, decide_false]
      exact ih h.2 he

/-- Without a path twice there is at a path what is in the file system. -/
theorem at_of_mem {fs : Fs} (h : (fs.nodes.map Prod.fst).Nodup) {p : List Name} {x : FsNode} (hp : (p, x) ∈ fs.nodes) :
    fs.at p = some x := by
  unfold Fs.at
  rw [find_nodup h hp]; rfl

/-- What `follow` does at a link. -/
def Fs.jump (fs : Fs) : Nat → List Name → FilePath → Option (List Name)
  | 0 => fun _ _ => none
  | k + 1 => fs.follow k

theorem follow_eq (fs : Fs) (k : Nat) : fs.follow k = fs.pass (fs.jump k) := by cases k <;> rfl

theorem pass_cons (fs : Fs) (k : Nat) (here : List Name) (n : Name) (p : FilePath) (h : Plain n) :
    fs.follow k here (n :: p) = match fs.at (here ++ [n]) with
      | none => none
      | some .dir => fs.follow k (here ++ [n]) p
      | some (.link target) => fs.jump k here (target ++ p)
      | some _ => if p = [] then some (here ++ [n]) else none := by
  rw [follow_eq]
  simp [Fs.pass, h.1, h.2.1, h.2.2]
  rfl

theorem leads_follow {fs : Fs} {here : List Name} {p : FilePath} {there : List Name} {n : Nat} (h : Leads fs here p there n) :
    ∀ k, n ≤ k → fs.follow k here p = some there := by
  induction h with
  | here => intro k _; rw [follow_eq]; rfl
  | root _ ih => intro k hk; rw [← ih k hk, follow_eq]; simp [Fs.pass]
  | dot _ ih => intro k hk; rw [← ih k hk, follow_eq]; simp [Fs.pass, Plotline.dot]
  | up _ ih => intro k hk; rw [← ih k hk, follow_eq]; simp [Fs.pass, Plotline.dot, dotdot]
  | dir hn ha _ ih => intro k hk; rw [pass_cons _ _ _ _ _ hn, ha]; exact ih k hk
  | link hn ha _ ih =>
    intro k hk
    rw [pass_cons _ _ _ _ _ hn, ha]
    cases k with
    | zero => cases hk
    | succ k => exact ih k (Nat.le_of_succ_le_succ hk)
  | @last here n x hn ha hx =>
    intro k _
    rw [pass_cons _ _ _ _ _ hn, ha]
    cases x with
    | link t => exact absurd rfl (hx t)
    | dir => rw [follow_eq]; rfl
    | file => rfl
    | sealed => rfl

theorem follow_leads {fs : Fs} : ∀ (k : Nat) (p : FilePath) (here there : List Name), fs.follow k here p = some there →
    ∃ n ≤ k, Leads fs here p there n := by
  intro k
  induction k with
  | zero =>
    intro p
    induction p with
    | nil => intro here there h; cases h; exact ⟨0, Nat.le_refl _, .here⟩
    | cons m p ih =>
      intro here there h
      by_cases h1 : m = []
      · subst h1
        obtain ⟨n, h2, h3⟩ := ih [] there (by simpa [follow_eq, Fs.pass] using h)
        exact ⟨n, h2, .root h3⟩
      by_cases h2 : m = dot
      · subst h2
        obtain ⟨n, h2, h3⟩ := ih here there (by simpa [follow_eq, Fs.pass, dot] using h)
        exact ⟨n, h2, .dot h3⟩
      by_cases h3 : m = dotdot
      · subst h3
        obtain ⟨n, h2, h3⟩ := ih here.dropLast there (by simpa [follow_eq, Fs.pass, dot, dotdot] using h)
        exact ⟨n, h2, .up h3⟩
      have hp : Plain m := ⟨h1, h3, h2⟩
      rw [pass_cons _ _ _ _ _ hp] at h
      cases ha : fs.at (here ++ [m]) with
      | none => rw [ha] at h; cases h
      | some x =>
        rw [ha] at h
        cases x with
        | dir =>
          obtain ⟨n, h2, h3⟩ := ih _ there h
          exact ⟨n, h2, .dir hp ha h3⟩
        | link t => cases h
        | file b =>
          dsimp only at h
          split at h
          · rename_i he; subst he; cases h; exact ⟨0, Nat.le_refl _, .last hp ha (by simp)⟩
          · cases h
        | sealed =>
          dsimp only at h
          split at h
          · rename_i he; subst he; cases h; exact ⟨0, Nat.le_refl _, .last hp ha (by simp)⟩
          · cases h
  | succ k ihk =>
    intro p
    induction p with
    | nil => intro here there h; cases h; exact ⟨0, Nat.zero_le _, .here⟩
    | cons m p ih =>
      intro here there h
      by_cases h1 : m = []
      · subst h1
        obtain ⟨n, h2, h3⟩ := ih [] there (by simpa [follow_eq, Fs.pass] using h)
        exact ⟨n, h2, .root h3⟩
      by_cases h2 : m = dot
      · subst h2
        obtain ⟨n, h2, h3⟩ := ih here there (by simpa [follow_eq, Fs.pass, dot] using h)
        exact ⟨n, h2, .dot h3⟩
      by_cases h3 : m = dotdot
      · subst h3
        obtain ⟨n, h2, h3⟩ := ih here.dropLast there (by simpa [follow_eq, Fs.pass, dot, dotdot] using h)
        exact ⟨n, h2, .up h3⟩
      have hp : Plain m := ⟨h1, h3, h2⟩
      rw [pass_cons _ _ _ _ _ hp] at h
      cases ha : fs.at (here ++ [m]) with
      | none => rw [ha] at h; cases h
      | some x =>
        rw [ha] at h
        cases x with
        | dir =>
          obtain ⟨n, h2, h3⟩ := ih _ there h
          exact ⟨n, h2, .dir hp ha h3⟩
        | link t =>
          obtain ⟨n, h2, h3⟩ := ihk _ _ _ h
          exact ⟨n + 1, Nat.succ_le_succ h2, .link hp ha h3⟩
        | file b =>
          dsimp only at h
          split at h
          · rename_i he; subst he; cases h; exact ⟨0, Nat.zero_le _, .last hp ha (by simp)⟩
          · cases h
        | sealed =>
          dsimp only at h
          split at h
          · rename_i he; subst he; cases h; exact ⟨0, Nat.zero_le _, .last hp ha (by simp)⟩
          · cases h

/-- `follow` goes where the path leads, if that takes no more than so many links. -/
theorem follow_iff {fs : Fs} {k : Nat} {p : FilePath} {here there : List Name} :
    fs.follow k here p = some there ↔ ∃ n ≤ k, Leads fs here p there n :=
  ⟨follow_leads k p here there, fun ⟨_, h, hl⟩ => leads_follow hl k h⟩

theorem Leads.unique {fs : Fs} {here : List Name} {p : FilePath} {q q' : List Name} {k k' : Nat} (h : Leads fs here p q k)
    (h' : Leads fs here p q' k') : q = q' := by
  have h1 := leads_follow h (max k k') (Nat.le_max_left ..)
  have h2 := leads_follow h' (max k k') (Nat.le_max_right ..)
  rw [h1] at h2
  exact Option.some.inj h2

theorem finds_of {fs : Fs} {p : FilePath} {there : List Name} (hp : p ≠ []) (h : fs.follow maxLinks fs.cwd p = some there) :
    fs.Finds p there := ⟨hp, follow_iff.1 h⟩

theorem Fs.Finds.unique {fs : Fs} {p : FilePath} {q q' : List Name} (h : fs.Finds p q) (h' : fs.Finds p q') : q = q' := by
  obtain ⟨_, _, _, h⟩ := h
  obtain ⟨_, _, _, h'⟩ := h'
  exact h.unique h'

/-- What is read at the end of a path. -/
theorem read_iff {fs : Fs} {p : FilePath} {bytes : Bytes} :
    fs.read p = some bytes ↔ ∃ q, (∃ k ≤ maxLinks, Leads fs fs.cwd p q k) ∧ fs.at q = some (.file bytes) := by
  unfold Fs.read
  constructor
  · intro h
    split at h
    · cases h
    · rename_i q hq
      split at h
      · rename_i b hb; cases h; exact ⟨q, follow_iff.1 hq, hb⟩
      · cases h
  · rintro ⟨q, hq, hb⟩
    rw [follow_iff.2 hq]; simp [hb]

theorem Leads.append {fs : Fs} {here mid there : List Name} {p q : FilePath} {k k' : Nat} (h : Leads fs here p mid k)
    (hd : mid = [] ∨ fs.at mid = some .dir ∨ q = []) (h' : Leads fs mid q there k') : Leads fs here (p ++ q) there (k + k') := by
  induction h with
  | here => simpa using h'
  | root _ ih => exact .root (ih hd h')
  | dot _ ih => exact .dot (ih hd h')
  | up _ ih => exact .up (ih hd h')
  | dir hn ha _ ih => exact .dir hn ha (ih hd h')
  | @link _ _ _ t p k hn ha _ ih =>
    rw [Nat.add_right_comm]
    refine .link hn ha ?_
    have := ih hd h'
    rwa [List.append_assoc] at this
  | @last here n x hn ha hx =>
    rcases hd with hd | hd | rfl
    · simp at hd
    · rw [Nat.zero_add]; exact .dir hn hd h'
    · rw [List.append_nil]
      cases h'
      exact .last hn ha hx

theorem Fs.Closed.up {fs : Fs} (hf : fs.Closed) {p : List Name} (h : fs.Dir p) : fs.Dir p.dropLast := by
  rcases h with rfl | h
  · exact .inl rfl
  · obtain ⟨dir, n, h1, _, h2⟩ := hf.2.1 _ (at_mem h)
    obtain rfl : p = dir ++ [n] := h1
    rw [List.dropLast_concat]
    by_cases hd : dir = []
    · exact .inl hd
    · exact .inr (h2 hd)

theorem Fs.Closed.cwd {fs : Fs} (hf : fs.Closed) : fs.Dir fs.cwd := by
  by_cases h : fs.cwd = []
  · exact .inl h
  · exact .inr (hf.2.2 h)

theorem Leads.split {fs : Fs} (hf : fs.Closed) {here there : List Name} {r : FilePath} {n : Nat} (h : Leads fs here r there n) :
    ∀ p q : FilePath, r = p ++ q → q ≠ [] → fs.Dir here →
      ∃ mid k k', Leads fs here p mid k ∧ fs.Dir mid ∧ Leads fs mid q there k' ∧ n = k + k' := by
  induction h with
  | here => intro p q h hq _; simp at h; exact absurd h.2 hq
  | @root here there r k h ih =>
    intro p q he hq hd
    cases p with
    | nil => exact ⟨_, 0, k, .here, hd, by rw [List.nil_append] at he; rw [← he]; exact .root h, by simp⟩
    | cons m p =>
      cases he
      obtain ⟨mid, a, b, h1, h2, h3, h4⟩ := ih p q rfl hq (.inl rfl)
      exact ⟨mid, a, b, .root h1, h2, h3, h4⟩
  | @dot here there r k h ih =>
    intro p q he hq hd
    cases p with
    | nil => exact ⟨_, 0, k, .here, hd, by rw [List.nil_append] at he; rw [← he]; exact .dot h, by simp⟩
    | cons m p =>
      cases he
      obtain ⟨mid, a, b, h1, h2, h3, h4⟩ := ih p q rfl hq hd
      exact ⟨mid, a, b, .dot h1, h2, h3, h4⟩
  | @up here there r k h ih =>
    intro p q he hq hd
    cases p with
    | nil => exact ⟨_, 0, k, .here, hd, by rw [List.nil_append] at he; rw [← he]; exact .up h, by simp⟩
    | cons m p =>
      cases he
      obtain ⟨mid, a, b, h1, h2, h3, h4⟩ := ih p q rfl hq (hf.up hd)
      exact ⟨mid, a, b, .up h1, h2, h3, h4⟩
  | @dir here there m r k hn ha h ih =>
    intro p q he hq hd
    cases p with
    | nil => exact ⟨_, 0, k, .here, hd, by rw [List.nil_append] at he; rw [← he]; exact .dir hn ha h, by simp⟩
    | cons m p =>
      cases he
      obtain ⟨mid, a, b, h1, h2, h3, h4⟩ := ih p q rfl hq (.inr ha)
      exact ⟨mid, a, b, .dir hn ha h1, h2, h3, h4⟩
  | @link here there m t r k hn ha h ih =>
    intro p q he hq hd
    cases p with
    | nil => exact ⟨_, 0, k + 1, .here, hd, by rw [List.nil_append] at he; rw [← he]; exact .link hn ha h, by simp⟩
    | cons m p =>
      cases he
      obtain ⟨mid, a, b, h1, h2, h3, h4⟩ := ih (t ++ p) q (by simp) hq hd
      exact ⟨mid, a + 1, b, .link hn ha h1, h2, h3, by omega⟩
  | @last here m x hn ha hx =>
    intro p q he hq hd
    cases p with
    | nil => exact ⟨_, 0, 0, .here, hd, by rw [List.nil_append] at he; rw [← he]; exact .last hn ha hx, by simp⟩
    | cons m p =>
      simp at he
      exact absurd he.2.2 hq

theorem Leads.needs {fs : Fs} {here : List Name} {p : FilePath} {q : List Name} {k : Nat} (h : Leads fs here p q k) :
    ∀ k' < k, fs.follow k' here p = none := by
  induction h with
  | here => intro _ h; cases h
  | root _ ih => intro k' hk; rw [← ih k' hk, follow_eq]; simp [Fs.pass]
  | dot _ ih => intro k' hk; rw [← ih k' hk, follow_eq]; simp [Fs.pass, Plotline.dot]
  | up _ ih => intro k' hk; rw [← ih k' hk, follow_eq]; simp [Fs.pass, Plotline.dot, dotdot]
  | dir hn ha _ ih => intro k' hk; rw [pass_cons _ _ _ _ _ hn, ha]; exact ih k' hk
  | link hn ha _ ih =>
    intro k' hk
    rw [pass_cons _ _ _ _ _ hn, ha]
    cases k' with
    | zero => rfl
    | succ k' => exact ih k' (Nat.lt_of_succ_lt_succ hk)
  | last => intro _ h; cases h

theorem Leads.same_links {fs : Fs} {here : List Name} {p : FilePath} {q q' : List Name} {k k' : Nat} (h : Leads fs here p q k)
    (h' : Leads fs here p q' k') : k = k' := by
  obtain rfl := h.unique h'
  rcases Nat.lt_trichotomy k k' with hlt | rfl | hlt
  · have := leads_follow h k (Nat.le_refl _)
    rw [h'.needs k hlt] at this; cases this
  · rfl
  · have := leads_follow h' k' (Nat.le_refl _)
    rw [h.needs k' hlt] at this; cases this

end Plotline
