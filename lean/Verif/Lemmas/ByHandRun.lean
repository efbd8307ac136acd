import Verif.Lemmas.ByHandRes

/-!
# Making the calls of a closure by hand: the run of a program
-/

namespace Plotline

open Std

set_option linter.unusedSectionVars false

variable {σ : Sig} [LawfulSig σ]

/-- The state of a run and the kept values are the same. -/
def Mirror (Z : Setting σ) (F : List (Nat × Nat)) (L : List Nat) (s : St σ) (m : Hand σ) : Prop :=
  ∃ w, Side Z L s.graph s.heap s.locks w m ∧ Twins F s.graph s.frames w

/-- The contexts in scope. -/
structure Ctxs (st : List Own) (env : List Nat) (F : List (Nat × Nat)) (cs : List Nat) (frames : List (Frame σ.K σ.T)) : Prop where
  bound : ∀ (c f : Nat), env[c]? = some f → f < frames.length
  cs : cs = env.map fun f => ((F[f]?).map (·.2)).getD 0
  ok : ∀ (c f : Nat) (fr : Frame σ.K σ.T), env[c]? = some f → frames[f]? = some fr → st[c]? ≠ some .gone → fr.leaked = false
  nodup : env.Nodup
  len : env.length = st.length
  last : ∀ (f : Nat), st[0]? = some .owned → env[0]? = some f → f + 1 = frames.length

/-- The write guards in scope. -/
structure Scope (E : Env σ) (gs : List (σ.Ty × Nat)) (ws : List σ.Ty) (L : List Nat) (l : List (ResGuardVal σ.Ty)) : Prop where
  ws : ws = gs.map (·.1)
  gs : ∀ (t : σ.Ty) (n : Nat), (t, n) ∈ gs → n ∈ L ∧ ∃ p, (E.resources.res t).lock = some p ∧ l[n]? = some ⟨t, true, some p, .live⟩

/-- What a run leaves alone; `P` are the frames that may be forgotten. -/
structure After (P : Nat → Prop) (L : List Nat) (s : St σ) (m : Hand σ) (s' : St σ) (m' : Hand σ) : Prop where
  len : s'.frames.length = s.frames.length
  guards : ∀ n ∈ L, m'.app.resGuards[n]? = m.app.resGuards[n]?
  frame : ∀ (f : Nat) (fr fr' : Frame σ.K σ.T), s.frames[f]? = some fr → s'.frames[f]? = some fr' →
    fr'.parent = fr.parent ∧ (P f ∨ fr'.leaked = fr.leaked)

/-- The run and the calls made by hand had the same outcome, and still agree. -/
def Agree {R : Type} (Z : Setting σ) (F : List (Nat × Nat)) (L : List Nat) (P : Nat → Prop) (s : St σ) (m : Hand σ) (r : Option (Out R × St σ))
    (r' : Option (Out R × Hand σ)) : Prop :=
  (r = none ∧ r' = none) ∨ ∃ o s' m', r = some (o, s') ∧ r' = some (o, m') ∧ 
    (o ≠ .stuck → Mirror Z F L s' m' ∧ After P L s m s' m') ∧ (o = .stuck → Hangs Z m')

/-- The frame the program may forget. -/
def Mine (st : List Own) (env : List Nat) (f : Nat) : Prop := st[0]? = some .owned ∧ env[0]? = some f

section
variable {Z : Setting σ} {F : List (Nat × Nat)} {L : List Nat} {P : Nat → Prop} {s s' s'' : St σ} {m m' m'' : Hand σ} {st : List Own}
  {env cs : List Nat} {gs : List (σ.Ty × Nat)} {ws : List σ.Ty}

theorem After.refl : After P L s m s m :=
  ⟨rfl, fun _ _ => rfl, fun f fr fr' h h' => by rw [h] at h'; cases h'; exact ⟨rfl, .inr rfl⟩⟩

theorem After.trans (h1 : After P L s m s' m') (h2 : After P L s' m' s'' m'') : After P L s m s'' m'' := by
  refine ⟨by rw [h2.len, h1.len], fun n hn => by rw [h2.guards n hn, h1.guards n hn], ?_⟩
  intro f fr fr'' hf hf''
  have hlt : f < s'.frames.length := by rw [h1.len]; exact (List.getElem?_eq_some_iff.1 hf).1
  have hf' : s'.frames[f]? = some s'.frames[f] := List.getElem?_eq_getElem hlt
  obtain ⟨a1, a2⟩ := h1.frame f fr _ hf hf'
  obtain ⟨b1, b2⟩ := h2.frame f _ fr'' hf' hf''
  refine ⟨b1.trans a1, ?_⟩
  rcases b2 with h | h
  · exact .inl h
  · rcases a2 with h' | h'
    · exact .inl h'
    · exact .inr (h.trans h')

theorem After.mono {Q : Nat → Prop} (h : After P L s m s' m') (hPQ : ∀ f, P f → Q f) : After Q L s m s' m' :=
  ⟨h.len, h.guards, fun f fr fr' a b => ⟨(h.frame f fr fr' a b).1, (h.frame f fr fr' a b).2.imp (hPQ f) (·)⟩⟩

/-- Frames are only modified. -/
theorem After.modify (hL : ∀ n ∈ L, m'.app.resGuards[n]? = m.app.resGuards[n]?) (f : Nat) (u : Frame σ.K σ.T → Frame σ.K σ.T)
    (hf : s'.frames = s.frames.modify f u) (hp : ∀ fr, (u fr).parent = fr.parent) (hu : ∀ fr, P f ∨ (u fr).leaked = fr.leaked) :
    After P L s m s' m' := by
  refine ⟨by rw [hf]; simp, hL, ?_⟩
  intro f' fr fr' h h'
  rw [hf] at h'
  by_cases he : f = f'
  · subst he
    rw [getElem?_modify_self, h] at h'
    cases h'
    exact ⟨hp fr, hu fr⟩
  · rw [getElem?_modify_ne _ _ he, h] at h'
    cases h'
    exact ⟨rfl, .inr rfl⟩

theorem After.same (hL : ∀ n ∈ L, m'.app.resGuards[n]? = m.app.resGuards[n]?) (hf : s'.frames = s.frames) : After P L s m s' m' := by
  refine ⟨by rw [hf], hL, ?_⟩
  intro f fr fr' h h'
  rw [hf, h] at h'
  cases h'
  exact ⟨rfl, .inr rfl⟩

theorem Agree.none {R : Type} : Agree (R := R) Z F L P s m none none := .inl ⟨rfl, rfl⟩

theorem Agree.stuck {R : Type} (h : Hangs Z m') : Agree (R := R) Z F L P s m (some (.stuck, s')) (some (.stuck, m')) :=
  .inr ⟨_, _, _, rfl, rfl, fun h => absurd rfl h, fun _ => h⟩

theorem Agree.some {R : Type} {o : Out R} (ho : o ≠ .stuck) (hM : Mirror Z F L s' m') (hA : After P L s m s' m') :
    Agree Z F L P s m (some (o, s')) (some (o, m')) := .inr ⟨_, _, _, rfl, rfl, fun _ => ⟨hM, hA⟩, fun h => absurd h ho⟩

theorem Agree.after {R : Type} {r : Option (Out R × St σ)} {r' : Option (Out R × Hand σ)} (hA : After P L s m s' m')
    (h : Agree Z F L P s' m' r r') : Agree Z F L P s m r r' := by
  rcases h with h | ⟨o, s'', m'', h1, h2, h3, h4⟩
  · exact .inl h
  · exact .inr ⟨o, s'', m'', h1, h2, fun ho => ⟨(h3 ho).1, hA.trans (h3 ho).2⟩, h4⟩

theorem Agree.mono {R : Type} {Q : Nat → Prop} {r : Option (Out R × St σ)} {r' : Option (Out R × Hand σ)} (h : Agree Z F L P s m r r')
    (hPQ : ∀ f, P f → Q f) : Agree Z F L Q s m r r' := by
  rcases h with h | ⟨o, s'', m'', h1, h2, h3, h4⟩
  · exact .inl h
  · exact .inr ⟨o, s'', m'', h1, h2, fun ho => ⟨(h3 ho).1, (h3 ho).2.mono hPQ⟩, h4⟩

/-- Contexts in scope are still so. -/
theorem Ctxs.after (hC : Ctxs st env F cs s.frames) (hA : After (fun _ => False) L s m s' m') : Ctxs st env F cs s'.frames where
  bound c f h := by rw [hA.len]; exact hC.bound c f h
  cs := hC.cs
  ok c f fr h hf hs := by
    have hlt := hC.bound c f h
    have h0 : s.frames[f]? = .some s.frames[f] := List.getElem?_eq_getElem hlt
    rcases (hA.frame f _ fr h0 hf).2 with h' | h'
    · exact h'.elim
    · rw [h']; exact hC.ok c f _ h h0 hs
  nodup := hC.nodup
  len := hC.len
  last f h1 h2 := by rw [hA.len]; exact hC.last f h1 h2

theorem lend_gone {st : List Own} {c : Nat} : (st.map Own.lend)[c]? = some .gone ↔ st[c]? = some .gone := by
  rw [List.getElem?_map]
  cases st[c]? with
  | none => simp
  | some o => cases o <;> simp [Own.lend]

theorem lend_owned {st : List Own} {c : Nat} : (st.map Own.lend)[c]? ≠ some .owned := by
  rw [List.getElem?_map]
  cases st[c]? with
  | none => simp
  | some o => cases o <;> simp [Own.lend]

theorem not_mine_lend {f : Nat} : Mine (st.map Own.lend) env f → False := fun h => lend_owned h.1

theorem Ctxs.lend {frames : List (Frame σ.K σ.T)} (hC : Ctxs st env F cs frames) : Ctxs (st.map Own.lend) env F cs frames where
  bound := hC.bound
  cs := hC.cs
  ok c f fr h hf hs := hC.ok c f fr h hf fun e => hs (lend_gone.2 e)
  nodup := hC.nodup
  len := by rw [List.length_map]; exact hC.len
  last _ h := absurd h lend_owned

theorem Scope.after {E : Env σ} {l l' : List (ResGuardVal σ.Ty)} (h : Scope E gs ws L l) (hl : ∀ n ∈ L, l'[n]? = l[n]?) : Scope E gs ws L l' where
  ws := h.ws
  gs t n hn := by
    obtain ⟨h1, p, h2, h3⟩ := h.gs t n hn
    exact ⟨h1, p, h2, by rw [hl n h1]; exact h3⟩

/-- A context in scope, as a frame and by name. -/
theorem Ctxs.find {w : World σ} (hC : Ctxs st env F cs s.frames) (hT : Twins F s.graph s.frames w) {c f : Nat} (h : env[c]? = some f) :
    ∃ t d fr, cs[c]? = some d ∧ F[f]? = some (t, d) ∧ s.frames[f]? = some fr ∧ (st[c]? ≠ some .gone → fr.leaked = false) := by
  obtain ⟨t, d, fr, _, _, h1, h2, _⟩ := hT.name (hC.bound c f h)
  exact ⟨t, d, fr, by rw [hC.cs, List.getElem?_map, h]; simp [h1], h1, h2, hC.ok c f fr h h2⟩

theorem Usable.notGone {c : Nat} (h : Usable st c) : st[c]? ≠ some .gone := by rcases h with h | h <;> rw [h] <;> simp

theorem Ctxs.present {frames : List (Frame σ.K σ.T)} (hC : Ctxs st env F cs frames) {c : Nat} (h : Usable st c) : ∃ f, env[c]? = some f := by
  have : c < st.length := by rcases h with h | h <;> exact (List.getElem?_eq_some_iff.1 h).1
  exact ⟨_, List.getElem?_eq_getElem (by rw [hC.len]; exact this)⟩

/-- A call in the transaction that returns nothing. -/
theorem Mirror.call {R : Type} {w : World σ} {c : Call σ} {r : Answer σ.T} {w' : World σ} (hS : Side Z L s.graph s.heap s.locks w m)
    (hs : w.step c = some (r, w')) (h1 : c ≠ .commit 0) (h2 : c ≠ .abandon 0) (hr : r ≠ .stuck) {frames' : List (Frame σ.K σ.T)}
    (hT : Twins F s.graph frames' w') : ∃ m', (∀ k : AppAnswer σ → Hand σ → Option (Out R × Hand σ), m.call (.inTx Z.x c) k = k r.lift m') ∧
      Mirror Z F L { s with frames := frames' } m' ∧ ∀ n ∈ L, m'.app.resGuards[n]? = m.app.resGuards[n]? := by
  obtain ⟨m', e1, e2, e3⟩ := hS.call (R := R) hs h1 h2 hr
  exact ⟨m', e1, ⟨w', e2, hT⟩, fun n _ => by rw [e3]⟩

theorem withMut_by_peek {t : σ.Ty} {R : Type} (r : Res t) (heap : Heap σ.Val) (f : σ.Val t → σ.Val t × Option R) :
    (r.peek heap = none → r.withMut heap f = (.unavailable, heap)) ∧
    ∀ p v, r.lock = some p → r.peek heap = some v → r.withMut heap f = match f v with
      | (v', some x) => (.ran x, heap.set p ⟨⟨t, v'⟩, false⟩)
      | (v', none) => (.panicked, heap.set p ⟨⟨t, v'⟩, true⟩) := by
  unfold Res.peek Res.withMut
  cases r.lock with
  | none => simp
  | some p =>
    cases hp : heap[p]? with
    | none => simp [hp]
    | some l =>
      by_cases hl : l.poisoned = true
      · simp [hp, hl]
      · simp only [hl, Bool.false_eq_true, if_false, hp]
        cases hd : Dyn.downcast t l.val with
        | none => simp
        | some v =>
          refine ⟨by simp, ?_⟩
          intro p' v' h1 h2
          cases h1; cases h2
          dsimp only
          generalize f v = y
          obtain ⟨v', _ | x⟩ := y <;> rfl

theorem modify_set {α : Type} (l : List α) (p : Nat) (x : α) (u : α → α) : (l.set p x).modify p u = l.set p (u x) := by
  apply List.ext_getElem?
  intro n
  by_cases h : p = n
  · subst h
    rw [getElem?_modify_self]
    simp only [List.getElem?_set]
    split
    · split <;> simp_all
    · simp_all
  · rw [getElem?_modify_ne _ _ h]
    simp only [List.getElem?_set, if_neg h]

/-- `handEach` and `tryForEach`. -/
theorem each_agree {run : Prog σ → St σ → Option (Out (Except Error σ.V) × St σ)} {run' : Prog σ → Hand σ → Option (Out (Except Error σ.V) × Hand σ)}
    {Q : St σ → Prop} (l : List (Prog σ))
    (hQ : ∀ s m s' m', Q s → After (fun _ => False) L s m s' m' → Q s')
    (hrun : ∀ p ∈ l, ∀ s m, Mirror Z F L s m → Q s → Agree Z F L (fun _ => False) s m (run p s) (run' p m)) :
    ∀ s m, Mirror Z F L s m → Q s → Agree Z F L (fun _ => False) s m (tryForEach run l s) (handEach run' l m) := by
  induction l with
  | nil => intro s m hM _; exact .some (by simp) hM .refl
  | cons p l ih =>
    intro s m hM hs
    unfold tryForEach handEach
    rcases hrun p List.mem_cons_self s m hM hs with ⟨h1, h2⟩ | ⟨o, s', m', h1, h2, h3, h4⟩
    · rw [h1, h2]; exact .none
    · rw [h1, h2]
      cases o with
      | stuck => exact .stuck (h4 rfl)
      | panic => obtain ⟨a, b⟩ := h3 (by simp); exact .some (by simp) a b
      | ret r =>
        obtain ⟨a, b⟩ := h3 (by simp)
        cases r with
        | error e => exact .some (by simp) a b
        | ok v => exact .after b (ih (fun q hq => hrun q (List.mem_cons_of_mem _ hq)) s' m' a (hQ s m s' m' hs b))

/-! ## Transactions inside of the transaction -/

/-- The context made for the closure, and those around. -/
theorem Ctxs.inner {w : World σ} (hC : Ctxs st env F cs s.frames) (hT : Twins F s.graph s.frames w) (f t d : Nat) :
    Ctxs (.owned :: st.map Own.lend) (s.frames.length :: env) (F ++ [(t, d)]) (d :: cs) (openChild s f).frames where
  bound c f' h := by
    simp only [openChild, List.length_append, List.length_singleton]
    cases c with
    | zero => cases h; omega
    | succ c => have := hC.bound c f' h; omega
  cs := by
    rw [List.map_cons, ← hT.len]
    simp only [List.getElem?_concat_length, Option.map_some, Option.getD_some, List.cons.injEq, true_and]
    rw [hC.cs]
    refine List.map_congr_left fun f' hf' => ?_
    obtain ⟨c, hc⟩ := List.getElem?_of_mem hf'
    rw [List.getElem?_append_left (by rw [hT.len]; exact hC.bound c f' hc)]
  ok c f' fr h hf hs := by
    cases c with
    | zero =>
      cases h
      simp only [openChild, List.getElem?_concat_length] at hf
      cases hf; rfl
    | succ c =>
      have hlt := hC.bound c f' h
      simp only [openChild, List.getElem?_append_left hlt] at hf
      exact hC.ok c f' fr h hf fun e => hs (lend_gone.2 e)
  nodup := by
    refine List.nodup_cons.2 ⟨fun h => ?_, hC.nodup⟩
    obtain ⟨c, hc⟩ := List.getElem?_of_mem h
    exact absurd (hC.bound c _ hc) (Nat.lt_irrefl _)
  len := by simp [hC.len]
  last f' _ h := by cases h; simp [openChild]

theorem length_snoc {α : Type} {l : List α} {n : Nat} (h : l.length = n + 1) : ∃ x, l[n]? = some x ∧ l = l.take n ++ [x] := by
  have hlt : n < l.length := by omega
  refine ⟨l[n], List.getElem?_eq_getElem hlt, ?_⟩
  have h1 : l.take (n + 1) = l.take n ++ [l[n]] := by rw [List.take_succ_eq_append_getElem hlt]
  rw [← h1, List.take_of_length_le (by omega)]

theorem Mirror.close {R : Type} {t d n f : Nat} (hM : Mirror Z (F ++ [(t, d)]) L s m) (hn : s.frames.length = n + 1)
    (hp : ∀ fr, s.frames[n]? = some fr → fr.parent = some f) :
    (∃ m', (∀ k : AppAnswer σ → Hand σ → Option (Out R × Hand σ), (m.drop Z.x d).call (.inTx Z.x (.abandon t)) k = k .none m') ∧
      Mirror Z F L (closeChild s n) m' ∧ m'.app.resGuards = m.app.resGuards) ∧
    ∃ m', (∀ k : AppAnswer σ → Hand σ → Option (Out R × Hand σ), (m.drop Z.x d).call (.inTx Z.x (.commit t)) k = k .none m') ∧
      Mirror Z F L (commitChild s n) m' ∧ m'.app.resGuards = m.app.resGuards := by
  obtain ⟨w, hS, hT⟩ := hM
  obtain ⟨fr, hfr, hsn⟩ := length_snoc hn
  rw [hsn] at hT
  obtain ⟨w1, a1, a2, a3, ⟨w2, b1, b2⟩, w3, c1, c2⟩ := hT.close (hp fr hfr)
  obtain ⟨hS1, hg1⟩ := hS.drop a1 a2
  constructor
  · obtain ⟨m', e1, e2, e3⟩ := hS1.call (R := R) b1 (by simp) (by simpa using a3) (by simp)
    exact ⟨m', e1, ⟨w2, e2, b2⟩, by rw [e3, hg1]⟩
  · obtain ⟨m', e1, e2, e3⟩ := hS1.call (R := R) c1 (by simpa using a3) (by simp) (by simp)
    refine ⟨m', e1, ⟨w3, ?_, ?_⟩, by rw [e3, hg1]⟩
    · unfold commitChild
      rw [hfr]
      simp only [hp fr hfr]
      split <;> exact e2
    · unfold commitChild
      rw [hfr]
      simp only [hp fr hfr]
      split
      · rename_i h; rw [h] at c2; exact c2
      · rename_i h; rw [if_neg h] at c2; exact c2

theorem After.inner {f n : Nat} (hA : After P L (openChild s f) m s' m') (hn : n = s.frames.length) (hP : ∀ g, P g → g = n)
    (hL : ∀ j ∈ L, m.app.resGuards[j]? = m''.app.resGuards[j]?) {m3 : Hand σ} (hL' : ∀ j ∈ L, m3.app.resGuards[j]? = m'.app.resGuards[j]?)
    {Q : Nat → Prop} : After Q L s m'' (closeChild s' n) m3 ∧ After Q L s m'' (commitChild s' n) m3 := by
  have hlen : s'.frames.length = n + 1 := by rw [hA.len, hn]; simp [openChild]
  have hg : ∀ j ∈ L, m3.app.resGuards[j]? = m''.app.resGuards[j]? := fun j hj => by rw [hL' j hj, hA.guards j hj, hL j hj]
  have h1 : After Q L s m'' (closeChild s' n) m3 := by
    refine ⟨by simp [closeChild, hlen, hn], hg, ?_⟩
    intro g fr fr' h h'
    have hlt := (List.getElem?_eq_some_iff.1 h).1
    simp only [closeChild, List.getElem?_take] at h'
    rw [if_pos (by omega)] at h'
    have h0 : (openChild s f).frames[g]? = some fr := by
      simp only [openChild, List.getElem?_append_left hlt]; exact h
    obtain ⟨a1, a2⟩ := hA.frame g fr fr' h0 h'
    refine ⟨a1, .inr (a2.resolve_left fun hp => ?_)⟩
    have := hP g hp
    omega
  refine ⟨h1, ?_⟩
  unfold commitChild
  split
  · exact h1
  · split
    · exact h1
    · split
      · exact h1
      · rename_i fr _ _ p _
        refine h1.trans (m' := m3) ?_
        exact After.modify (fun _ _ => rfl) p _ rfl (fun _ => rfl) (fun _ => .inr rfl)

end

end Plotline
