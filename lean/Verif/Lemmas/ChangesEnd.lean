import Verif.Lemmas.Changes

/-! # Lemmas for the end of a walk where nothing changes -/

namespace Plotline

namespace WalkState

variable {fs : Fs} {ignored : FilePath → Bool} {ctx : FilePath} {t : Nat}

/-- What was given so far, and from where. -/
structure Counted (fs : Fs) (ctx : FilePath) (root : List Name) (s : WalkState) (given : List FilePath) : Prop where
  found : ∀ r ∈ s.stack, fs.Finds (ctx ++ r.rel) (root ++ r.rel) ∧ fs.Dir (root ++ r.rel)
  chain : s.stack.Pairwise fun u l => ∃ n rest, u.rel = l.rel ++ n :: rest ∧ n ∈ l.given
  fresh : ∀ r ∈ s.stack, ∀ n rest, n ∉ r.given → r.rel ++ n :: rest ∉ given
  nodup : given.Nodup
  there : ∀ p ∈ given, root ++ p ∈ fs.nodes.map Prod.fst

theorem Counted.give {root : List Name} {now : Nat} {r : OpenDir} {rest : List OpenDir} {out out' : List FilePath} {n : Name} {x : FsNode}
    {G : List FilePath} (h : Counted fs ctx root ⟨now, r :: rest, out⟩ G) (hx : Holds fs (ctx ++ r.rel) n x) (hn : n ∉ r.given) :
    Counted fs ctx root ⟨now, ⟨r.rel, r.since, n :: r.given⟩ :: rest, out'⟩ ((r.rel ++ [n]) :: G) := by
  obtain ⟨h1, h2, h3, h4, h5⟩ := h
  refine ⟨fun f hf => ?_, ?_, fun f hf m rs hm hmem => ?_, ?_, fun p hp => ?_⟩
  · rcases List.mem_cons.1 hf with rfl | hf
    · exact h1 r (by simp)
    · exact h1 f (by simp [hf])
  · rw [List.pairwise_cons] at h2 ⊢
    exact h2
  · rcases List.mem_cons.1 hmem with e | hmem
    · rcases List.mem_cons.1 hf with rfl | hf
      · have := List.append_cancel_left e
        simp at this
        exact hm (by simp [this.1])
      · obtain ⟨k, rs', e', hk⟩ := (List.pairwise_cons.1 h2).1 f hf
        rw [e', List.append_assoc] at e
        have := List.append_cancel_left e
        simp at this
        exact hm (this.1 ▸ hk)
    · rcases List.mem_cons.1 hf with rfl | hf
      · exact h3 r (by simp) m rs (fun h => hm (List.mem_cons_of_mem _ h)) hmem
      · exact h3 f (by simp [hf]) m rs hm hmem
  · exact List.nodup_cons.2 ⟨h3 r (by simp) n [] hn, h4⟩
  · rcases List.mem_cons.1 hp with rfl | hp
    · obtain ⟨d, g1, _, g3⟩ := hx
      obtain rfl := g1.unique (h1 r (by simp)).1
      exact List.mem_map.2 ⟨_, at_mem g3, by simp⟩
    · exact h5 p hp

theorem Counted.enter (hf : fs.Closed) {root : List Name} {now : Nat} {r : OpenDir} {rest : List OpenDir} {out out' : List FilePath} {n : Name}
    {G : List FilePath} (h : Counted fs ctx root ⟨now, r :: rest, out⟩ G) (hx : Holds fs (ctx ++ r.rel) n .dir) (hn : n ∉ r.given) :
    Counted fs ctx root ⟨now, ⟨r.rel ++ [n], now, []⟩ :: ⟨r.rel, r.since, n :: r.given⟩ :: rest, out'⟩ ((r.rel ++ [n]) :: G) := by
  obtain ⟨h1, h2, h3, h4, h5⟩ := Counted.give (out' := out') h hx hn
  refine ⟨fun f hf' => ?_, List.pairwise_cons.2 ⟨fun l hl => ?_, h2⟩, fun f hf' m rs hm => ?_, h4, h5⟩
  · rcases List.mem_cons.1 hf' with rfl | hf'
    · obtain ⟨d, g1, g2, g3⟩ := hx
      obtain rfl := g1.unique (h.found r (by simp)).1
      have hk : Plain n := by
        obtain ⟨dir, k', e', hk, _⟩ := hf.2.1 _ (at_mem g3)
        obtain ⟨_, e'⟩ := List.append_inj' e' rfl
        simp at e'
        exact e' ▸ hk
      refine ⟨?_, .inr (by simpa using g3)⟩
      obtain ⟨_, j, hj, hl⟩ := g1
      refine ⟨by simp, j + 0, hj, ?_⟩
      show Leads fs fs.cwd (ctx ++ (r.rel ++ [n])) (root ++ (r.rel ++ [n])) (j + 0)
      rw [← List.append_assoc, ← List.append_assoc]
      refine hl.append ?_ (.dir hk g3 .here)
      rcases g2 with h | h
      · exact .inl h
      · exact .inr (.inl h)
    · exact h1 f hf'
  · rcases List.mem_cons.1 hl with rfl | hl
    · exact ⟨n, [], rfl, by simp⟩
    · obtain ⟨k, rs', e', hk⟩ := (List.pairwise_cons.1 h.chain).1 l hl
      exact ⟨k, rs' ++ [n], by show r.rel ++ [n] = _; rw [e']; simp, hk⟩
  · rcases List.mem_cons.1 hf' with rfl | hf'
    · intro hmem
      dsimp only at hmem
      rcases List.mem_cons.1 hmem with e | hmem
      · have := congrArg List.length e
        simp at this
      · rw [List.append_assoc] at hmem
        exact h.fresh r (by simp) n (m :: rs) hn hmem
    · exact h3 f hf' m rs hm

/-- Steps that are not waiting. -/
def busy (es : List WalkEvent) : Nat := (es.filter fun e => decide (e ≠ .wait)).length

theorem busy_snoc (es : List WalkEvent) (e : WalkEvent) : busy (es ++ [e]) = busy es + if e = .wait then 0 else 1 := by
  unfold busy
  rw [List.filter_append, List.length_append]
  by_cases h : e = .wait
  · simp [h]
  · rw [if_neg h, List.filter_cons_of_pos (by simpa using h)]; rfl

theorem step_now {W : Changing} {s s' : WalkState} {e : WalkEvent} (h : s.step W ctx e = some s') (he : e ≠ .wait) : s'.now = s.now := by
  cases e with
  | wait => exact absurd rfl he
  | give n i =>
    simp only [step] at h
    repeat' split at h
    all_goals first | cases h; rfl | cases h
  | close =>
    simp only [step] at h
    repeat' split at h
    all_goals first | cases h; rfl | cases h

theorem counted (hf : fs.Closed) {root : List Name} (hroot : fs.Finds ctx root) : ∀ (m : Nat) (es : List WalkEvent) (st : WalkState),
    es.length = m → run (Changing.still fs ignored) ctx t es = some st →
    ∃ G, Counted fs ctx root st G ∧ busy es + st.stack.length ≤ 2 * G.length + 1 := by
  intro m
  induction m with
  | zero =>
    intro es st hm h
    obtain rfl := List.eq_nil_of_length_eq_zero hm
    cases h
    refine ⟨[], ?_⟩
    have hst : ∀ r ∈ (start (Changing.still fs ignored) ctx t).stack, r = ⟨[], t, []⟩ ∧ fs.Dir root := by
      intro r hr
      rcases start_cases (W := Changing.still fs ignored) (ctx := ctx) t with ⟨_, h⟩ | ⟨_, _, h⟩ | ⟨_, _, h⟩
      · rw [h] at hr; cases hr
      · rw [h] at hr; cases hr
      · rw [h] at hr
        dsimp only at hr
        split at hr
        · rename_i ho
          obtain ⟨d, hd⟩ := Option.isSome_iff_exists.1 ho
          obtain ⟨h1, h2⟩ := fsOpens_iff.1 hd
          obtain rfl := h1.unique hroot
          exact ⟨by simpa using hr, h2⟩
        · cases hr
    have hlen : (start (Changing.still fs ignored) ctx t).stack.length ≤ 1 := by
      rcases start_cases (W := Changing.still fs ignored) (ctx := ctx) t with ⟨_, h⟩ | ⟨_, _, h⟩ | ⟨_, _, h⟩
      · rw [h]; simp
      · rw [h]; simp
      · rw [h]; dsimp only; split <;> simp
    refine ⟨⟨fun r hr => ?_, ?_, fun _ _ _ _ _ => (by simp), List.nodup_nil, fun _ h => (by cases h)⟩, by simpa [busy] using hlen⟩
    · obtain ⟨rfl, hd⟩ := hst r hr
      exact ⟨by simpa using hroot, by simpa using hd⟩
    · generalize (start (Changing.still fs ignored) ctx t).stack = l at hlen
      match l, hlen with
      | [], _ => exact .nil
      | [_], _ => simp
  | succ m ih =>
    intro es st hm h
    rcases List.eq_nil_or_concat es with rfl | ⟨es', e, rfl⟩
    · cases hm
    rw [List.concat_eq_append] at h hm ⊢
    rw [run_snoc] at h
    obtain ⟨s, h1, h2⟩ := Option.bind_eq_some_iff.1 h
    obtain ⟨G, hG, hb⟩ := ih es' s (by simpa using hm) h1
    have hs := sound ⟨_, h1⟩
    have hg := step_goes h2
    clear ih h h1
    rw [busy_snoc]
    have hnew : ∀ {now : Nat} {r : OpenDir} {n : Name} {x : FsNode}, Holds fs (ctx ++ r.rel) n x →
        ¬ (n ∈ r.given ∧ r.stays (Changing.still fs ignored) ctx now n = true) → n ∉ r.given := by
      intro now r n x hx hgv hmem
      exact hgv ⟨hmem, stays_iff.2 fun _ _ _ => ⟨x, hx⟩⟩
    have hle : (if e = .wait then 0 else 1) ≤ 1 := by split <;> omega
    cases hg with
    | wait =>
      cases e with
      | wait => exact ⟨G, ⟨hG.found, hG.chain, hG.fresh, hG.nodup, hG.there⟩, by simpa using hb⟩
      | give n i => have := step_now h2 (by simp); simp at this
      | close => have := step_now h2 (by simp); simp at this
    | @skip now r rest out n i x hi hn hg hx hs' =>
      exact ⟨_, hG.give hx (hnew hx hg), by simp at hb ⊢; omega⟩
    | @enter now r rest out n i hi hn hg hx hnd hig ho =>
      exact ⟨_, hG.enter hf hx (hnew hx hg), by simp at hb ⊢; omega⟩
    | @yield now r rest out n i x hi hn hg hx hnd hig ho =>
      exact ⟨_, hG.give hx (hnew hx hg), by simp at hb ⊢; omega⟩
    | @close now r rest out hc =>
      refine ⟨G, ⟨fun f hf => hG.found f (by simp [hf]), (List.pairwise_cons.1 hG.chain).2, fun f hf => hG.fresh f (by simp [hf]), hG.nodup, hG.there⟩, ?_⟩
      simp at hb ⊢; omega

end WalkState

end Plotline
