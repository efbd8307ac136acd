import Verif.Spec.ByHand
import Verif.Lemmas.AppRes
import Verif.Lemmas.Eval

/-!
# The frames of a running closure and the values made by hand
-/

namespace Plotline

open Std

variable {σ : Sig}

/-- A frame, as the transaction `t` and its context `c`. -/
structure Twin (w : World σ) (F : List (Nat × Nat)) (f t c : Nat) (fr : Frame σ.K σ.T) (tx : TxVal σ.K σ.T) (cx : CtxVal) : Prop where
  atTx : w.txs[t]? = some tx
  atCx : w.ctxs[c]? = some cx
  log : tx.log = fr.ops
  live : tx.live = true
  owners : tx.owners = 2
  status : cx.status = if fr.leaked then .forgotten else .live
  target : fr.target = cx.target.bind fun p => w.cells[p]?
  bound : ∀ p, cx.target = some p → p < w.cells.length
  top : fr.parent = none → tx.context = none ∧ cx.chain = [t]
  up : ∀ p, fr.parent = some p → p < f ∧ ∃ t' c' cx', F[p]? = some (t', c') ∧ w.ctxs[c']? = some cx' ∧ tx.context = some c' ∧
    cx.chain = t :: cx'.chain

/-- The values made by hand are those of the frames, and no others are left. -/
structure Twins (F : List (Nat × Nat)) (g : Graph σ.K σ.T) (frames : List (Frame σ.K σ.T)) (w : World σ) : Prop where
  graph : w.graph = g
  guards : w.guards = []
  len : F.length = frames.length
  root : F[0]? = some (0, 0)
  incr : ∀ (f f' : Nat) (u v : Nat × Nat), F[f]? = some u → F[f']? = some v → f < f' → u.1 < v.1 ∧ u.2 < v.2
  liveT : ∀ (t : Nat) (tx : TxVal σ.K σ.T), w.txs[t]? = some tx → tx.live = true → ∃ (f c : Nat), F[f]? = some (t, c)
  liveC : ∀ (c : Nat) (cx : CtxVal), w.ctxs[c]? = some cx → cx.status = .live → ∃ (f t : Nat), F[f]? = some (t, c)
  cells : ∀ (f f' : Nat) (u v : Nat × Nat) (cx cx' : CtxVal) (p : Nat), F[f]? = some u → F[f']? = some v → w.ctxs[u.2]? = some cx →
    w.ctxs[v.2]? = some cx' → cx.target = some p → cx'.target = some p → f = f'
  frame : ∀ (f t c : Nat) (fr : Frame σ.K σ.T), F[f]? = some (t, c) → frames[f]? = some fr → ∃ tx cx, Twin w F f t c fr tx cx

section
variable {F : List (Nat × Nat)} {g : Graph σ.K σ.T} {frames : List (Frame σ.K σ.T)} {w : World σ}

theorem Twins.inj1 (hW : Twins F g frames w) {f f' t c c' : Nat} (h1 : F[f]? = some (t, c)) (h2 : F[f']? = some (t, c')) : f = f' := by
  rcases Nat.lt_trichotomy f f' with h | h | h
  · exact absurd (hW.incr f f' _ _ h1 h2 h).1 (Nat.lt_irrefl _)
  · exact h
  · exact absurd (hW.incr f' f _ _ h2 h1 h).1 (Nat.lt_irrefl _)

theorem Twins.inj2 (hW : Twins F g frames w) {f f' t t' c : Nat} (h1 : F[f]? = some (t, c)) (h2 : F[f']? = some (t', c)) : f = f' := by
  rcases Nat.lt_trichotomy f f' with h | h | h
  · exact absurd (hW.incr f f' _ _ h1 h2 h).2 (Nat.lt_irrefl _)
  · exact h
  · exact absurd (hW.incr f' f _ _ h2 h1 h).2 (Nat.lt_irrefl _)

theorem Twins.name (hW : Twins F g frames w) {f : Nat} (hf : f < frames.length) : ∃ t c fr tx cx, F[f]? = some (t, c) ∧
    frames[f]? = some fr ∧ Twin w F f t c fr tx cx := by
  have hf' : f < F.length := by rw [hW.len]; exact hf
  have h1 : F[f]? = some F[f] := List.getElem?_eq_getElem hf'
  have h2 : frames[f]? = some frames[f] := List.getElem?_eq_getElem hf
  obtain ⟨tx, cx, h⟩ := hW.frame f F[f].1 F[f].2 frames[f] h1 h2
  exact ⟨_, _, _, tx, cx, h1, h2, h⟩

theorem Twin.usable {f t c : Nat} {fr : Frame σ.K σ.T} {tx : TxVal σ.K σ.T} {cx : CtxVal} (h : Twin w F f t c fr tx cx)
    (hl : fr.leaked = false) : w.ctx c = some cx := by
  simp [World.ctx, h.atCx, h.status, hl]

theorem Twin.unusable {f t c : Nat} {fr : Frame σ.K σ.T} {tx : TxVal σ.K σ.T} {cx : CtxVal} (h : Twin w F f t c fr tx cx)
    (hl : fr.leaked = true) : w.ctx c = none := by
  simp [World.ctx, h.atCx, h.status, hl]

theorem Twin.txLive {f t c : Nat} {fr : Frame σ.K σ.T} {tx : TxVal σ.K σ.T} {cx : CtxVal} (h : Twin w F f t c fr tx cx) :
    w.tx t = some tx := by
  simp [World.tx, h.atTx, h.live]

theorem Twin.head {f t c : Nat} {fr : Frame σ.K σ.T} {tx : TxVal σ.K σ.T} {cx : CtxVal} (h : Twin w F f t c fr tx cx) :
    ∃ rest, cx.chain = t :: rest := by
  cases hp : fr.parent with
  | none => exact ⟨[], (h.top hp).2⟩
  | some p => obtain ⟨_, _, _, cx', _, _, _, h4⟩ := h.up p hp; exact ⟨_, h4⟩

theorem modify_snoc {α : Type} (l : List α) (x : α) (u : α → α) : (l ++ [x]).modify l.length u = l ++ [u x] := by
  apply List.ext_getElem?
  intro m
  by_cases h : l.length = m
  · subst h; rw [getElem?_modify_self]; simp
  · rw [getElem?_modify_ne _ _ h, List.getElem?_append, List.getElem?_append]
    split
    · rfl
    · rw [List.getElem?_eq_none (by simp; omega), List.getElem?_eq_none (by simp; omega)]

/-- Reading through the context is reading through the frame. -/
theorem Twins.get (hW : Twins F g frames w) (i : σ.K) : ∀ (f t c : Nat) (fr : Frame σ.K σ.T) (tx : TxVal σ.K σ.T) (cx : CtxVal),
    F[f]? = some (t, c) → frames[f]? = some fr → Twin w F f t c fr tx cx → w.get cx.chain i = ctxGet g frames f i := by
  intro f
  induction f using Nat.strongRecOn with
  | ind f ih =>
    intro t c fr tx cx hF hf h
    rw [ctxGet_some hf]
    have hlog : w.log t = fr.ops := by simp [World.log, h.atTx, h.log]
    obtain ⟨rest, hr⟩ := h.head
    rw [hr]
    simp only [World.get, hlog]
    cases fr.ops.reverse.find? (fun op => op.id == i) with
    | some op => cases op <;> rfl
    | none =>
      simp only
      cases hp : fr.parent with
      | none =>
        have := (h.top hp).2
        rw [hr] at this
        cases this
        simp only [World.get, hW.graph]
      | some p =>
        obtain ⟨hlt, t', c', cx', h1, h2, _, h4⟩ := h.up p hp
        rw [hr] at h4
        cases h4
        have hpl : p < frames.length := by rw [← hW.len]; exact (List.getElem?_eq_some_iff.1 h1).1
        obtain ⟨_, _, pf, ptx, pcx, e1, e2, e3⟩ := hW.name hpl
        rw [h1] at e1; cases e1
        rw [e3.atCx] at h2; cases h2
        simp only [if_pos hlt]
        exact ih p hlt _ _ _ _ _ h1 e2 e3

/-- One frame changes. -/
theorem Twins.update (hW : Twins F g frames w) {f t c : Nat} {fr : Frame σ.K σ.T} {tx : TxVal σ.K σ.T} {cx : CtxVal}
    (hF : F[f]? = some (t, c)) (hf : frames[f]? = some fr) (h : Twin w F f t c fr tx cx) {w' : World σ} {u : Frame σ.K σ.T → Frame σ.K σ.T}
    {tx' : TxVal σ.K σ.T} {cx' : CtxVal} (e0 : w'.graph = w.graph) (e1 : w'.guards = w.guards)
    (e2 : ∀ t', t' ≠ t → w'.txs[t']? = w.txs[t']?) (e3 : w'.txs[t]? = some tx') (e4 : tx'.log = (u fr).ops) (e5 : tx'.live = true)
    (e6 : tx'.owners = 2) (e7 : tx'.context = tx.context) (e8 : ∀ c', c' ≠ c → w'.ctxs[c']? = w.ctxs[c']?)
    (e9 : w'.ctxs[c]? = some cx') (e10 : cx'.chain = cx.chain) (e11 : cx'.status = if (u fr).leaked then .forgotten else .live)
    (e12 : ∀ p, p < w.cells.length → cx.target ≠ some p → w'.cells[p]? = w.cells[p]?) (e12' : w.cells.length ≤ w'.cells.length)
    (e13 : (u fr).target = cx'.target.bind fun p => w'.cells[p]?)
    (e14 : cx'.target = cx.target ∨ ∃ p, cx'.target = some p ∧ w.cells.length ≤ p ∧ p < w'.cells.length) (e15 : (u fr).parent = fr.parent) :
    Twins F g (frames.modify f u) w' := by
  -- the target of another frame
  have hother : ∀ (f' : Nat) (u' : Nat × Nat) (cx₂ : CtxVal) (p : Nat), f' ≠ f → F[f']? = some u' → w.ctxs[u'.2]? = some cx₂ →
      cx₂.target = some p → p < w.cells.length ∧ cx.target ≠ some p := by
    intro f' u' cx₂ p hne h1 h2 h3
    refine ⟨?_, fun hc => hne (hW.cells f' f u' (t, c) cx₂ cx p h1 hF h2 h.atCx h3 hc)⟩
    obtain ⟨_, _, _, _, _, k1, k2, k3⟩ := hW.name (f := f') (by rw [← hW.len]; exact (List.getElem?_eq_some_iff.1 h1).1)
    rw [h1] at k1; cases k1
    rw [k3.atCx] at h2; cases h2
    exact k3.bound p h3
  have hctx : ∀ (f' : Nat) (u' : Nat × Nat) (cx₂ : CtxVal), F[f']? = some u' → w'.ctxs[u'.2]? = some cx₂ →
      (f' = f ∧ u' = (t, c) ∧ cx₂ = cx') ∨ (f' ≠ f ∧ w.ctxs[u'.2]? = some cx₂) := by
    intro f' u' cx₂ h1 h2
    by_cases hc : u'.2 = c
    · have : f' = f := hW.inj2 (t := u'.1) (c := c) (by rw [h1]; simp [← hc]) hF
      subst this
      rw [hF] at h1; cases h1
      rw [e9] at h2; cases h2
      exact .inl ⟨rfl, rfl, rfl⟩
    · refine .inr ⟨?_, by rw [← e8 _ hc]; exact h2⟩
      rintro rfl
      rw [hF] at h1; cases h1
      exact hc rfl
  refine ⟨e0.trans hW.graph, e1.trans hW.guards, by rw [List.length_modify]; exact hW.len, hW.root, hW.incr, ?_, ?_, ?_, ?_⟩
  · intro t' y hy hl
    by_cases ht : t' = t
    · exact ⟨f, c, by rw [ht]; exact hF⟩
    · exact hW.liveT t' y (by rw [← e2 t' ht]; exact hy) hl
  · intro c' y hy hl
    by_cases hc : c' = c
    · exact ⟨f, t, by rw [hc]; exact hF⟩
    · exact hW.liveC c' y (by rw [← e8 c' hc]; exact hy) hl
  · intro f1 f2 u1 u2 x1 x2 p h1 h2 k1 k2 k3 k4
    rcases hctx f1 u1 x1 h1 k1 with ⟨rfl, rfl, rfl⟩ | ⟨n1, q1⟩
    · rcases hctx f2 u2 x2 h2 k2 with ⟨rfl, _, _⟩ | ⟨n2, q2⟩
      · rfl
      · obtain ⟨r1, r2⟩ := hother f2 u2 x2 p n2 h2 q2 k4
        rcases e14 with e | ⟨p', e, e', _⟩
        · rw [e] at k3; exact absurd k3 r2
        · rw [k3] at e; cases e; omega
    · rcases hctx f2 u2 x2 h2 k2 with ⟨rfl, rfl, rfl⟩ | ⟨n2, q2⟩
      · obtain ⟨r1, r2⟩ := hother f1 u1 x1 p n1 h1 q1 k3
        rcases e14 with e | ⟨p', e, e', _⟩
        · rw [e] at k4; exact absurd k4 r2
        · rw [k4] at e; cases e; omega
      · exact hW.cells f1 f2 u1 u2 x1 x2 p h1 h2 q1 q2 k3 k4
  · intro f' t' c' fr' h1 h2
    -- the context of the parent has the same chain as before
    have hup : ∀ {p t₂ c₂ : Nat} {x₂ : CtxVal}, F[p]? = some (t₂, c₂) → w.ctxs[c₂]? = some x₂ →
        ∃ y, w'.ctxs[c₂]? = some y ∧ y.chain = x₂.chain := by
      intro p t₂ c₂ x₂ k1 k2
      by_cases hc : c₂ = c
      · subst hc
        rw [h.atCx] at k2; cases k2
        exact ⟨cx', e9, e10⟩
      · exact ⟨x₂, by rw [e8 _ hc]; exact k2, rfl⟩
    by_cases hff : f' = f
    · subst hff
      rw [hF] at h1; cases h1
      rw [getElem?_modify_self, hf] at h2; cases h2
      refine ⟨tx', cx', e3, e9, e4, e5, e6, e11, e13, ?_, ?_, ?_⟩
      · intro p hp
        rcases e14 with e | ⟨p', e, _, e''⟩
        · rw [e] at hp; exact Nat.lt_of_lt_of_le (h.bound p hp) e12'
        · rw [hp] at e; cases e; exact e''
      · rw [e15]; intro hp; rw [e7, e10]; exact h.top hp
      · rw [e15]; intro p hp
        obtain ⟨k1, t₂, c₂, x₂, k2, k3, k4, k5⟩ := h.up p hp
        obtain ⟨y, y1, y2⟩ := hup k2 k3
        exact ⟨k1, t₂, c₂, y, k2, y1, by rw [e7]; exact k4, by rw [e10, y2]; exact k5⟩
    · rw [getElem?_modify_ne _ _ (fun e => hff e.symm)] at h2
      obtain ⟨x₁, y₁, hT⟩ := hW.frame f' t' c' fr' h1 h2
      have ht : t' ≠ t := by rintro rfl; exact hff (hW.inj1 h1 hF)
      have hc : c' ≠ c := by rintro rfl; exact hff (hW.inj2 h1 hF)
      refine ⟨x₁, y₁, by rw [e2 _ ht]; exact hT.atTx, by rw [e8 _ hc]; exact hT.atCx, hT.log, hT.live, hT.owners, hT.status, ?_, ?_, hT.top, ?_⟩
      · rw [hT.target]
        cases hp : y₁.target with
        | none => rfl
        | some p =>
          obtain ⟨r1, r2⟩ := hother f' (t', c') y₁ p hff h1 hT.atCx hp
          simp only [Option.bind_some]
          exact (e12 p r1 r2).symm
      · intro p hp; exact Nat.lt_of_lt_of_le (hT.bound p hp) e12'
      · intro p hp
        obtain ⟨k1, t₂, c₂, x₂, k2, k3, k4, k5⟩ := hT.up p hp
        obtain ⟨y, y1, y2⟩ := hup k2 k3
        exact ⟨k1, t₂, c₂, y, k2, y1, k4, by rw [y2]; exact k5⟩

/-- Only handles were made. -/
theorem Twins.handles (hW : Twins F g frames w) (l : List (Option Nat)) : Twins F g frames { w with handles := l } where
  graph := hW.graph
  guards := hW.guards
  len := hW.len
  root := hW.root
  incr := hW.incr
  liveT := hW.liveT
  liveC := hW.liveC
  cells := hW.cells
  frame f t c fr h1 h2 := by
    obtain ⟨tx, cx, h⟩ := hW.frame f t c fr h1 h2
    exact ⟨tx, cx, h.atTx, h.atCx, h.log, h.live, h.owners, h.status, h.target, h.bound, h.top, h.up⟩

/-- Operations are put on the log of a frame. -/
theorem Twins.push (hW : Twins F g frames w) {f t c : Nat} (hF : F[f]? = some (t, c)) (ops : List (Operation σ.K σ.T)) :
    Twins F g (frames.modify f fun fr => { fr with ops := fr.ops ++ ops }) (w.push t ops) := by
  obtain ⟨_, _, fr, tx, cx, k1, k2, h⟩ := hW.name (f := f) (by rw [← hW.len]; exact (List.getElem?_eq_some_iff.1 hF).1)
  rw [hF] at k1; cases k1
  refine hW.update hF k2 h (tx' := { tx with log := tx.log ++ ops }) (cx' := cx) rfl rfl ?_ ?_ ?_ h.live h.owners rfl (fun _ _ => rfl) h.atCx rfl
    h.status (fun _ _ _ => rfl) (Nat.le_refl _) h.target (.inl rfl) rfl
  · intro t' ht; exact getElem?_modify_ne _ _ ht.symm
  · show (w.txs.modify t _)[t]? = _
    rw [getElem?_modify_self, h.atTx]; rfl
  · show tx.log ++ ops = _; rw [h.log]

/-- A subtransaction is begun. -/
theorem Twins.open (hW : Twins F g frames w) {f t c : Nat} {fr : Frame σ.K σ.T} (hF : F[f]? = some (t, c)) (hf : frames[f]? = some fr)
    (hl : fr.leaked = false) : ∃ w1 w2, w.step (.transaction c w.txs.length) = some (.none, w1) ∧
      w1.step (.context w.txs.length w.ctxs.length) = some (.none, w2) ∧
      Twins (F ++ [(w.txs.length, w.ctxs.length)]) g (frames ++ [⟨some f, [], none, false⟩]) w2 := by
  obtain ⟨tx, cx, h⟩ := hW.frame f t c fr hF hf
  refine ⟨{ w with txs := w.txs ++ [⟨some c, [], 1, true⟩] },
    { w with txs := w.txs ++ [⟨some c, [], 2, true⟩], ctxs := w.ctxs ++ [⟨w.txs.length :: cx.chain, none, .live⟩] }, ?_, ?_, ?_⟩
  · simp [World.step, h.usable hl]
  · have e1 : (w.txs ++ [⟨some c, [], 1, true⟩])[w.txs.length]? = some ⟨some c, [], 1, true⟩ := by simp
    simp only [World.step, World.tx, e1, if_true, World.parents, h.atCx]
    rw [modify_snoc]
  · have hlt : ∀ (f' : Nat) (u : Nat × Nat), F[f']? = some u → u.1 < w.txs.length ∧ u.2 < w.ctxs.length := by
      intro f' u hu
      obtain ⟨_, _, _, _, _, k1, k2, k3⟩ := hW.name (f := f') (by rw [← hW.len]; exact (List.getElem?_eq_some_iff.1 hu).1)
      rw [hu] at k1; cases k1
      exact ⟨(List.getElem?_eq_some_iff.1 k3.atTx).1, (List.getElem?_eq_some_iff.1 k3.atCx).1⟩
    refine ⟨hW.graph, hW.guards, by simp [hW.len], ?_, ?_, ?_, ?_, ?_, ?_⟩
    · exact (getElem?_snoc _ _ _ _).2 (.inl hW.root)
    · intro f1 f2 u v h1 h2 hlt'
      rcases (getElem?_snoc _ _ _ _).1 h2 with h2 | ⟨h2, rfl⟩
      · rcases (getElem?_snoc _ _ _ _).1 h1 with h1 | ⟨h1, rfl⟩
        · exact hW.incr f1 f2 u v h1 h2 hlt'
        · have := (List.getElem?_eq_some_iff.1 h2).1; omega
      · rcases (getElem?_snoc _ _ _ _).1 h1 with h1 | ⟨h1, rfl⟩
        · exact hlt f1 u h1
        · omega
    · intro t' y hy hl'
      rcases (getElem?_snoc _ _ _ _).1 hy with hy | ⟨rfl, rfl⟩
      · obtain ⟨f', c', h1⟩ := hW.liveT t' y hy hl'
        exact ⟨f', c', (getElem?_snoc _ _ _ _).2 (.inl h1)⟩
      · exact ⟨F.length, w.ctxs.length, (getElem?_snoc _ _ _ _).2 (.inr ⟨rfl, rfl⟩)⟩
    · intro c' y hy hl'
      rcases (getElem?_snoc _ _ _ _).1 hy with hy | ⟨rfl, rfl⟩
      · obtain ⟨f', t', h1⟩ := hW.liveC c' y hy hl'
        exact ⟨f', t', (getElem?_snoc _ _ _ _).2 (.inl h1)⟩
      · exact ⟨F.length, w.txs.length, (getElem?_snoc _ _ _ _).2 (.inr ⟨rfl, rfl⟩)⟩
    · intro f1 f2 u v x1 x2 p h1 h2 k1 k2 k3 k4
      have hold : ∀ {f' : Nat} {u : Nat × Nat} {y : CtxVal}, (F ++ [(w.txs.length, w.ctxs.length)])[f']? = some u →
          (w.ctxs ++ [⟨w.txs.length :: cx.chain, none, .live⟩])[u.2]? = some y → y.target = some p → F[f']? = some u ∧ w.ctxs[u.2]? = some y := by
        intro f' u y h1 k1 k3
        rcases (getElem?_snoc _ _ _ _).1 k1 with k1 | ⟨_, rfl⟩
        · rcases (getElem?_snoc _ _ _ _).1 h1 with h1 | ⟨rfl, rfl⟩
          · exact ⟨h1, k1⟩
          · exact absurd (List.getElem?_eq_some_iff.1 k1).1 (Nat.lt_irrefl _)
        · cases k3
      obtain ⟨a1, a2⟩ := hold h1 k1 k3
      obtain ⟨b1, b2⟩ := hold h2 k2 k4
      exact hW.cells f1 f2 u v x1 x2 p a1 b1 a2 b2 k3 k4
    · intro f' t' c' fr' h1 h2
      have hup : ∀ {p : Nat} {t₂ c₂ : Nat} {x₂ : CtxVal}, F[p]? = some (t₂, c₂) → w.ctxs[c₂]? = some x₂ →
          (F ++ [(w.txs.length, w.ctxs.length)])[p]? = some (t₂, c₂) ∧
          (w.ctxs ++ [⟨w.txs.length :: cx.chain, none, .live⟩])[c₂]? = some x₂ :=
        fun k1 k2 => ⟨(getElem?_snoc _ _ _ _).2 (.inl k1), (getElem?_snoc _ _ _ _).2 (.inl k2)⟩
      rcases (getElem?_snoc _ _ _ _).1 h1 with h1 | ⟨rfl, hu⟩
      · rcases (getElem?_snoc _ _ _ _).1 h2 with h2 | ⟨rfl, rfl⟩
        · obtain ⟨x, y, hT⟩ := hW.frame f' t' c' fr' h1 h2
          refine ⟨x, y, (getElem?_snoc _ _ _ _).2 (.inl hT.atTx), (getElem?_snoc _ _ _ _).2 (.inl hT.atCx), hT.log, hT.live, hT.owners,
            hT.status, hT.target, hT.bound, hT.top, ?_⟩
          intro p hp
          obtain ⟨k1, t₂, c₂, x₂, k2, k3, k4, k5⟩ := hT.up p hp
          obtain ⟨q1, q2⟩ := hup k2 k3
          exact ⟨k1, t₂, c₂, x₂, q1, q2, k4, k5⟩
        · have := (List.getElem?_eq_some_iff.1 h1).1; rw [hW.len] at this; omega
      · cases hu
        rw [hW.len] at h2
        simp only [List.getElem?_concat_length, Option.some.injEq] at h2
        subst h2
        refine ⟨⟨some c, [], 2, true⟩, ⟨w.txs.length :: cx.chain, none, .live⟩, by simp, by simp, rfl, rfl, rfl, rfl, rfl, by simp, by simp, ?_⟩
        intro p hp
        cases hp
        obtain ⟨q1, q2⟩ := hup hF h.atCx
        exact ⟨by have := (List.getElem?_eq_some_iff.1 hF).1; omega, t, c, cx, q1, q2, rfl, rfl⟩

/-- The values of the last frame come to an end. -/
theorem Twins.shrink {t c : Nat} {fr : Frame σ.K σ.T} {w' : World σ} (hW : Twins (F ++ [(t, c)]) g (frames ++ [fr]) w) (hne : F ≠ [])
    (e0 : w'.graph = w.graph) (e1 : w'.guards = w.guards)
    (e2 : ∀ t', t' ≠ t → w'.txs[t']? = w.txs[t']?) (e3 : ∀ y, w'.txs[t]? = some y → y.live = false)
    (e4 : ∀ c', c' ≠ c → w'.ctxs[c']? = w.ctxs[c']?) (e5 : ∀ y, w'.ctxs[c]? = some y → y.status ≠ .live) (e6 : w'.cells = w.cells) :
    Twins F g frames w' := by
  have hin : ∀ {f : Nat} {u : Nat × Nat}, F[f]? = some u → (F ++ [(t, c)])[f]? = some u := fun h => (getElem?_snoc _ _ _ _).2 (.inl h)
  have hlast : (F ++ [(t, c)])[F.length]? = some (t, c) := by simp
  have hold : ∀ {f : Nat} {u : Nat × Nat}, F[f]? = some u → u.1 ≠ t ∧ u.2 ≠ c := by
    intro f u hu
    have := hW.incr f F.length u (t, c) (hin hu) hlast (List.getElem?_eq_some_iff.1 hu).1
    exact ⟨Nat.ne_of_lt this.1, Nat.ne_of_lt this.2⟩
  have hlen : F.length = frames.length := by have := hW.len; simpa using this
  refine ⟨e0.trans hW.graph, e1.trans hW.guards, hlen, ?_, ?_, ?_, ?_, ?_, ?_⟩
  · have := hW.root
    rcases (getElem?_snoc _ _ _ _).1 this with h | ⟨h, _⟩
    · exact h
    · exact absurd (List.length_eq_zero_iff.1 h.symm) hne
  · intro f f' u v h1 h2; exact hW.incr f f' u v (hin h1) (hin h2)
  · intro t' y hy hl
    have ht : t' ≠ t := by rintro rfl; rw [e3 y hy] at hl; cases hl
    obtain ⟨f, c', h1⟩ := hW.liveT t' y (by rw [← e2 _ ht]; exact hy) hl
    rcases (getElem?_snoc _ _ _ _).1 h1 with h1 | ⟨_, h1⟩
    · exact ⟨f, c', h1⟩
    · cases h1; exact absurd rfl ht
  · intro c' y hy hl
    have hc : c' ≠ c := by rintro rfl; exact e5 y hy hl
    obtain ⟨f, t', h1⟩ := hW.liveC c' y (by rw [← e4 _ hc]; exact hy) hl
    rcases (getElem?_snoc _ _ _ _).1 h1 with h1 | ⟨_, h1⟩
    · exact ⟨f, t', h1⟩
    · cases h1; exact absurd rfl hc
  · intro f1 f2 u v x1 x2 p h1 h2 k1 k2 k3 k4
    rw [e4 _ (hold h1).2] at k1
    rw [e4 _ (hold h2).2] at k2
    exact hW.cells f1 f2 u v x1 x2 p (hin h1) (hin h2) k1 k2 k3 k4
  · intro f t' c' fr' h1 h2
    obtain ⟨x, y, hT⟩ := hW.frame f t' c' fr' (hin h1) ((getElem?_snoc _ _ _ _).2 (.inl h2))
    refine ⟨x, y, by rw [e2 _ (hold h1).1]; exact hT.atTx, by rw [e4 _ (hold h1).2]; exact hT.atCx, hT.log, hT.live, hT.owners, hT.status,
      by rw [e6]; exact hT.target, by rw [e6]; exact hT.bound, hT.top, ?_⟩
    intro p hp
    obtain ⟨k1, t₂, c₂, x₂, k2, k3, k4, k5⟩ := hT.up p hp
    rcases (getElem?_snoc _ _ _ _).1 k2 with k2 | ⟨k2, _⟩
    · exact ⟨k1, t₂, c₂, x₂, k2, by rw [e4 _ (hold k2).2]; exact k3, k4, k5⟩
    · have := (List.getElem?_eq_some_iff.1 h1).1; omega

/-! ## Calls -/

theorem Twins.save (hW : Twins F g frames w) {f t c : Nat} {fr : Frame σ.K σ.T} (hF : F[f]? = some (t, c)) (hf : frames[f]? = some fr)
    (hl : fr.leaked = false) (n : σ.T) :
    ∃ w', w.step (.save c n) = some (.none, w') ∧ Twins F g (frames.modify f fun fr => { fr with ops := fr.ops ++ [.save n] }) w' := by
  obtain ⟨tx, cx, h⟩ := hW.frame f t c fr hF hf
  obtain ⟨rest, hr⟩ := h.head
  exact ⟨_, by simp [World.step, h.usable hl, hr], hW.push hF _⟩

theorem Twins.delete (hW : Twins F g frames w) {f t c : Nat} {fr : Frame σ.K σ.T} (hF : F[f]? = some (t, c)) (hf : frames[f]? = some fr)
    (hl : fr.leaked = false) (i : σ.K) :
    ∃ w', w.step (.delete c i) = some (.none, w') ∧ Twins F g (frames.modify f fun fr => { fr with ops := fr.ops ++ [.delete i] }) w' := by
  obtain ⟨tx, cx, h⟩ := hW.frame f t c fr hF hf
  obtain ⟨rest, hr⟩ := h.head
  exact ⟨_, by simp [World.step, h.usable hl, hr], hW.push hF _⟩

theorem Twins.stepGet (hW : Twins F g frames w) {f t c : Nat} {fr : Frame σ.K σ.T} (hF : F[f]? = some (t, c)) (hf : frames[f]? = some fr)
    (hl : fr.leaked = false) (i : σ.K) : w.step (.get c i) = some (.node (ctxGet g frames f i), w) := by
  obtain ⟨tx, cx, h⟩ := hW.frame f t c fr hF hf
  simp [World.step, h.usable hl, hW.get i f t c fr tx cx hF hf h]

theorem Twins.stepContains (hW : Twins F g frames w) {f t c : Nat} {fr : Frame σ.K σ.T} (hF : F[f]? = some (t, c))
    (hf : frames[f]? = some fr) (hl : fr.leaked = false) (i : σ.K) :
    w.step (.contains c i) = some (.bool (ctxContains g frames f i), w) := by
  obtain ⟨tx, cx, h⟩ := hW.frame f t c fr hF hf
  simp [World.step, h.usable hl, contains_get, ctxContains_eq, hW.get i f t c fr tx cx hF hf h]

theorem Twins.withTarget (hW : Twins F g frames w) {f t c : Nat} {fr : Frame σ.K σ.T} (hF : F[f]? = some (t, c)) (hf : frames[f]? = some fr)
    (hl : fr.leaked = false) (n : σ.T) :
    ∃ w', w.step (.withTarget c n) = some (.none, w') ∧ Twins F g (frames.modify f fun fr => { fr with target := some ⟨n, false⟩ }) w' := by
  obtain ⟨tx, cx, h⟩ := hW.frame f t c fr hF hf
  refine ⟨{ w with cells := w.cells ++ [⟨n, false⟩], ctxs := w.ctxs.modify c fun x => { x with target := some w.cells.length } },
    by simp only [World.step, h.usable hl], ?_⟩
  refine hW.update hF hf h (tx' := tx) (cx' := { cx with target := some w.cells.length }) rfl rfl (fun _ _ => rfl) h.atTx h.log h.live h.owners
    rfl ?_ ?_ rfl h.status ?_ (by simp) (by simp) (.inr ⟨w.cells.length, rfl, Nat.le_refl _, by simp⟩) rfl
  · intro c' hc; exact getElem?_modify_ne _ _ hc.symm
  · show (w.ctxs.modify c _)[c]? = _
    rw [getElem?_modify_self, h.atCx]; rfl
  · intro p hp _
    exact List.getElem?_append_left hp

theorem Twins.handle (hW : Twins F g frames w) {f t c : Nat} {fr : Frame σ.K σ.T} (hF : F[f]? = some (t, c)) (hf : frames[f]? = some fr)
    (hl : fr.leaked = false) : ∃ tgt, w.step (.handle c w.handles.length) = some (.none, { w with handles := w.handles ++ [tgt] }) ∧
      fr.target = tgt.bind (fun p => w.cells[p]?) ∧ (∀ p, tgt = some p → p < w.cells.length) ∧
      ∃ cx, w.ctxs[c]? = some cx ∧ cx.target = tgt := by
  obtain ⟨tx, cx, h⟩ := hW.frame f t c fr hF hf
  exact ⟨cx.target, by simp [World.step, h.usable hl], h.target, h.bound, cx, h.atCx, rfl⟩

/-- What is read from the target of a frame. -/
def Frame.reads (fr : Frame σ.K σ.T) : Option σ.T :=
  match fr.target with
  | none => none
  | some l => if l.poisoned then none else some l.val

theorem Twins.readTarget (hW : Twins F g frames w) {f t c : Nat} {fr : Frame σ.K σ.T} (hF : F[f]? = some (t, c)) (hf : frames[f]? = some fr)
    (hl : fr.leaked = false) : ∃ w', w.step (.handle c w.handles.length) = some (.none, w') ∧
      w'.step (.readTarget w.handles.length) = some (.node fr.reads, w') ∧ Twins F g frames w' := by
  obtain ⟨tgt, h1, h2, h3, _⟩ := hW.handle hF hf hl
  refine ⟨_, h1, ?_, hW.handles _⟩
  cases tgt with
  | none =>
    simp only [Option.bind_none] at h2
    simp [World.step, Frame.reads, h2]
  | some p =>
    have hp := h3 p rfl
    simp only [Option.bind_some] at h2
    rw [List.getElem?_eq_getElem hp] at h2
    simp [World.step, Frame.reads, h2, World.blocked, hW.guards, List.getElem?_eq_getElem hp]

theorem Twins.writeTarget (hW : Twins F g frames w) {f t c : Nat} {fr : Frame σ.K σ.T} (hF : F[f]? = some (t, c)) (hf : frames[f]? = some fr)
    (hl : fr.leaked = false) (u : σ.T → σ.T × Bool) : ∃ w', w.step (.handle c w.handles.length) = some (.none, w') ∧
      ∃ w'', w'.step (.writeTarget w.handles.length u) = some (match fr.reads with
        | none => .bool false
        | some n => if (u n).2 then .panic else .bool true, w'') ∧
      Twins F g (match fr.reads with
        | none => frames
        | some n => frames.modify f fun fr => { fr with target := some ⟨(u n).1, (u n).2⟩ }) w'' := by
  obtain ⟨tgt, h1, h2, h3, cx, hcx, hcxt⟩ := hW.handle hF hf hl
  have hW' := hW.handles (w.handles ++ [tgt])
  refine ⟨_, h1, ?_⟩
  cases tgt with
  | none =>
    simp only [Option.bind_none] at h2
    have hr : fr.reads = none := by simp [Frame.reads, h2]
    refine ⟨_, ?_, by rw [hr]; exact hW'⟩
    simp [World.step, hr]
  | some p =>
    have hp := h3 p rfl
    have hcell : w.cells[p]? = some w.cells[p] := List.getElem?_eq_getElem hp
    simp only [Option.bind_some] at h2
    rw [hcell] at h2
    by_cases hpo : w.cells[p].poisoned = true
    · have hr : fr.reads = none := by simp [Frame.reads, h2, hpo]
      refine ⟨_, ?_, by rw [hr]; exact hW'⟩
      simp [World.step, hr, hcell, World.blocked, hW.guards, hpo]
    · have hr : fr.reads = some w.cells[p].val := by simp [Frame.reads, h2, hpo]
      obtain ⟨tx, cx', h⟩ := hW'.frame f t c fr hF hf
      rw [show ({ w with handles := w.handles ++ [some p] } : World σ).ctxs = w.ctxs from rfl] at *
      have : cx' = cx := by
        have := h.atCx
        change w.ctxs[c]? = _ at this
        rw [hcx] at this; cases this; rfl
      subst this
      refine ⟨{ w with handles := w.handles ++ [some p], cells := w.cells.set p ⟨(u w.cells[p].val).1, (u w.cells[p].val).2⟩ }, ?_, ?_⟩
      · simp only [World.step, List.getElem?_concat_length, hcell, World.blocked, hW.guards, List.any_nil, hpo, hr]
        rcases hu : u w.cells[p].val with ⟨n, b⟩
        cases b <;> simp
      · rw [hr]
        refine hW'.update hF hf h (tx' := tx) (cx' := cx') rfl rfl (fun _ _ => rfl) h.atTx h.log h.live h.owners
          rfl (fun _ _ => rfl) h.atCx rfl h.status ?_ (by simp) ?_ (.inl rfl) rfl
        · intro q _ hq
          have : p ≠ q := by rintro rfl; exact hq hcxt
          exact List.getElem?_set_ne this
        · rw [hcxt]; simp [hp]

/-- No frame is above the last one. -/
theorem Twins.last (hW : Twins F g frames w) {f t c : Nat} (hF : F[f]? = some (t, c)) (hlast : f + 1 = frames.length) :
    w.unborrowed c = true := by
  refine List.all_eq_true.2 fun y hy => ?_
  obtain ⟨t', ht'⟩ := List.getElem?_of_mem hy
  simp only [Bool.not_eq_true', Bool.and_eq_false_iff, beq_eq_false_iff_ne]
  by_cases hl : y.live = true
  · refine .inr fun hc => ?_
    obtain ⟨f', c', h1⟩ := hW.liveT t' y ht' hl
    obtain ⟨_, _, _, _, _, k1, k2, k3⟩ := hW.name (f := f') (by rw [← hW.len]; exact (List.getElem?_eq_some_iff.1 h1).1)
    rw [h1] at k1; cases k1
    rw [k3.atTx] at ht'; cases ht'
    rename_i fr' _
    cases hp : fr'.parent with
    | none => rw [(k3.top hp).1] at hc; cases hc
    | some p =>
      obtain ⟨hlt, _, c₂, _, q1, _, q3, _⟩ := k3.up p hp
      rw [hc] at q3; cases q3
      have := hW.inj2 q1 hF
      have := (List.getElem?_eq_some_iff.1 h1).1
      rw [hW.len] at this
      omega
  · exact .inl (by simpa using hl)

theorem Twins.forget (hW : Twins F g frames w) {f t c : Nat} {fr : Frame σ.K σ.T} (hF : F[f]? = some (t, c)) (hf : frames[f]? = some fr)
    (hl : fr.leaked = false) (hlast : f + 1 = frames.length) :
    ∃ w', w.step (.forgetCtx c) = some (.none, w') ∧ Twins F g (frames.modify f fun fr => { fr with leaked := true }) w' := by
  obtain ⟨tx, cx, h⟩ := hW.frame f t c fr hF hf
  refine ⟨{ w with ctxs := w.ctxs.modify c fun x => { x with status := .forgotten } },
    by simp [World.step, h.usable hl, hW.last hF hlast], ?_⟩
  refine hW.update hF hf h (tx' := tx) (cx' := { cx with status := .forgotten }) rfl rfl (fun _ _ => rfl) h.atTx h.log h.live h.owners
    rfl ?_ ?_ rfl rfl (fun _ _ _ => rfl) (Nat.le_refl _) h.target (.inl rfl) rfl
  · intro c' hc; exact getElem?_modify_ne _ _ hc.symm
  · show (w.ctxs.modify c _)[c]? = _
    rw [getElem?_modify_self, h.atCx]; rfl

/-- The context of the last frame goes out of scope. -/
theorem Twins.ending (hW : Twins F g frames w) {f t c : Nat} {fr : Frame σ.K σ.T} {tx : TxVal σ.K σ.T} {cx : CtxVal} (hF : F[f]? = some (t, c))
    (hf : frames[f]? = some fr) (hlast : f + 1 = frames.length) (h : Twin w F f t c fr tx cx) :
    ∃ w1 tx1, (w.step (.dropCtx c) = if fr.leaked then none else some (.none, w1)) ∧ (fr.leaked = true → w1 = w) ∧ w1.tx t = some tx1 ∧
      tx1.log = fr.ops ∧ tx1.context = tx.context ∧ (tx1.owners = 1 ↔ fr.leaked = false) ∧ w1.unused t = true ∧ w1.graph = w.graph ∧
      w1.guards = w.guards ∧ w1.cells = w.cells ∧ (∀ t', t' ≠ t → w1.txs[t']? = w.txs[t']?) ∧ (∀ c', c' ≠ c → w1.ctxs[c']? = w.ctxs[c']?) ∧
      ∀ y, w1.ctxs[c]? = some y → y.status ≠ .live ∧ y.chain = cx.chain := by
  have hunused : ∀ w1 : World σ, (∀ c', c' ≠ c → w1.ctxs[c']? = w.ctxs[c']?) → (∀ y, w1.ctxs[c]? = some y → y.status ≠ .live ∧ y.chain = cx.chain) →
      w1.unused t = true := by
    intro w1 e1 e2
    refine List.all_eq_true.2 fun y hy => ?_
    obtain ⟨c', hc'⟩ := List.getElem?_of_mem hy
    simp only [Bool.not_eq_true', Bool.and_eq_false_iff, decide_eq_false_iff_not]
    by_cases hs : y.status = .live
    · refine .inr fun hh => ?_
      have hne : c' ≠ c := by rintro rfl; exact (e2 y hc').1 hs
      rw [e1 _ hne] at hc'
      obtain ⟨f', t', h1⟩ := hW.liveC c' y hc' hs
      obtain ⟨_, _, _, _, _, k1, k2, k3⟩ := hW.name (f := f') (by rw [← hW.len]; exact (List.getElem?_eq_some_iff.1 h1).1)
      rw [h1] at k1; cases k1
      rw [k3.atCx] at hc'; cases hc'
      obtain ⟨rest, hr⟩ := k3.head
      rw [hr] at hh
      simp only [List.head?_cons, Option.some.injEq] at hh
      subst hh
      have := hW.inj1 h1 hF
      subst this
      rw [hF] at h1; cases h1
      exact hne rfl
    · exact .inl hs
  by_cases hl : fr.leaked = true
  · have e2 : ∀ y, w.ctxs[c]? = some y → y.status ≠ .live ∧ y.chain = cx.chain := by
      intro y hy
      rw [h.atCx] at hy; cases hy
      rw [h.status, if_pos hl]; exact ⟨by decide, rfl⟩
    refine ⟨w, tx, ?_, fun _ => rfl, h.txLive, h.log, rfl, ?_, hunused w (fun _ _ => rfl) e2, rfl, rfl, rfl, fun _ _ => rfl, fun _ _ => rfl, e2⟩
    · simp [World.step, h.unusable hl, hl]
    · rw [h.owners, hl]; simp
  · have hl' : fr.leaked = false := by simpa using hl
    obtain ⟨rest, hr⟩ := h.head
    have e1 : ∀ c', c' ≠ c → (w.ctxs.modify c fun x => { x with status := .dropped })[c']? = w.ctxs[c']? :=
      fun c' hc => getElem?_modify_ne _ _ hc.symm
    have e2 : ∀ y, (w.ctxs.modify c fun x => { x with status := CtxEnd.dropped })[c]? = some y → y.status ≠ .live ∧ y.chain = cx.chain := by
      intro y hy
      rw [getElem?_modify_self, h.atCx] at hy; cases hy
      exact ⟨by simp, rfl⟩
    refine ⟨{ w with
        txs := w.txs.modify t fun tx => { tx with owners := tx.owners - 1 }
        ctxs := w.ctxs.modify c fun x => { x with status := .dropped } }, { tx with owners := 1 }, ?_, fun e => absurd e hl, ?_, h.log, rfl, ?_,
      hunused _ e1 e2, rfl, rfl, rfl, fun t' ht => getElem?_modify_ne _ _ ht.symm, e1, e2⟩
    · simp [World.step, h.usable hl', hW.last hF hlast, hl', hr]
    · have : (w.txs.modify t fun tx => { tx with owners := tx.owners - 1 })[t]? = some { tx with owners := 1 } := by
        rw [getElem?_modify_self, h.atTx]; simp [h.owners]
      simp [World.tx, this, h.live]
    · simp [hl']

/-- A subtransaction ends: it is dropped, or committed. -/
theorem Twins.close {t c : Nat} {fr : Frame σ.K σ.T} (hW : Twins (F ++ [(t, c)]) g (frames ++ [fr]) w) {p : Nat} (hp : fr.parent = some p) :
    ∃ w1, (w.step (.dropCtx c) = if fr.leaked then none else some (.none, w1)) ∧ (fr.leaked = true → w1 = w) ∧ t ≠ 0 ∧
      (∃ w2, w1.step (.abandon t) = some (.none, w2) ∧ Twins F g frames w2) ∧
      ∃ w3, w1.step (.commit t) = some (.none, w3) ∧
        Twins F g (if fr.leaked then frames else frames.modify p fun pf => { pf with ops := pf.ops ++ fr.ops }) w3 := by
  have hlen : F.length = frames.length := by have := hW.len; simpa using this
  have hF : (F ++ [(t, c)])[F.length]? = some (t, c) := by simp
  have hf : (frames ++ [fr])[F.length]? = some fr := by rw [hlen]; simp
  obtain ⟨tx, cx, h⟩ := hW.frame _ t c fr hF hf
  obtain ⟨w1, tx1, a1, a2, a3, a4, a5, a6, a7, a8, a9, a10, a11, a12, a13⟩ := hW.ending hF hf (by simp [hlen]) h
  obtain ⟨hlt, t', c', cx', b1, b2, b3, b4⟩ := h.up p hp
  have hne : F ≠ [] := by rintro rfl; simp at hlt
  have ht0 : t ≠ 0 := by
    have := hW.incr 0 F.length _ _ hW.root hF (by omega)
    simp only at this
    omega
  have hat := (tx_some a3).1
  have hclose : Twins F g frames { w1 with txs := w1.txs.modify t fun tx => { tx with live := false } } := by
    refine hW.shrink hne a8 a9 ?_ ?_ a12 (fun y hy => (a13 y hy).1) a10
    · intro t₂ ht; rw [← a11 _ ht]; exact getElem?_modify_ne _ _ ht.symm
    · intro y hy
      change (w1.txs.modify t _)[t]? = _ at hy
      rw [getElem?_modify_self, hat] at hy; cases hy; rfl
  have hFp : F[p]? = some (t', c') := by
    rcases (getElem?_snoc _ _ _ _).1 b1 with b1 | ⟨b1, _⟩
    · exact b1
    · omega
  refine ⟨w1, a1, a2, ht0, ⟨_, by simp only [World.step, a3, a7, if_true], hclose⟩, ?_⟩
  have hcx' : w1.ctxs[c']? = some cx' := by
    have : c' ≠ c := by
      rintro rfl
      have := hW.inj2 b1 hF
      omega
    rw [a12 _ this]; exact b2
  have hpar : (w1.parents (some c')).headD 0 = t' := by
    obtain ⟨_, _, _, _, _, k1, k2, k3⟩ := hW.name (f := p) (by rw [← hW.len]; exact (List.getElem?_eq_some_iff.1 b1).1)
    rw [b1] at k1; cases k1
    rw [k3.atCx] at b2; cases b2
    obtain ⟨rest, hr⟩ := k3.head
    simp [World.parents, hcx', hr]
  cases hl : fr.leaked with
  | true =>
    refine ⟨{ w1 with txs := w1.txs.modify t fun tx => { tx with live := false } }, ?_, by simpa using hclose⟩
    simp only [World.step, a3, a7, if_true]
    rw [if_neg (by rw [a6, hl]; simp)]
  | false =>
    refine ⟨_, ?_, by simpa using hclose.push hFp fr.ops⟩
    simp only [World.step, a3, a7, if_true, a6.2 hl, a5, b3, a4]
    rw [hpar]

end

end Plotline
