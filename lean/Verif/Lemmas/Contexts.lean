import Verif.Spec.Contexts
import Verif.Lemmas.Graph

/-! # Lemmas about contexts and subtransactions held side by side -/

namespace Plotline

open Std

set_option linter.unusedSectionVars false

variable {σ : Sig}

/-- What a log says of an id. -/
def says (log : List (Operation σ.K σ.T)) (i : σ.K) : Option (Option σ.T) :=
  match log.reverse.find? (fun op => op.id == i) with
  | some (.save n) => some (some n)
  | some (.delete _) => some none
  | none => none

theorem says_append (a b : List (Operation σ.K σ.T)) (i : σ.K) : says (a ++ b) i = (says b i).or (says a i) := by
  unfold says
  rw [List.reverse_append, List.find?_append]
  cases b.reverse.find? (fun op => op.id == i) with
  | none => simp
  | some op => cases op <;> simp

theorem says_save (n : σ.T) (i : σ.K) : says (σ := σ) [.save n] i = if (Plotline.id n == i) = true then some (some n) else none := by
  unfold says
  have : (Operation.save (K := σ.K) n).id = Plotline.id n := rfl
  by_cases h : (Plotline.id n == i) = true <;> simp [List.find?, this, h]

theorem says_delete (j i : σ.K) : says (σ := σ) [.delete j] i = if (j == i) = true then some none else none := by
  unfold says
  have : (Operation.delete (T := σ.T) j).id = j := rfl
  by_cases h : (j == i) = true <;> simp [List.find?, this, h]

/-- What is fixed about contexts, and what has become of them. -/
abbrev Skel := List (List Nat × CtxEnd)

def World.skel (w : World σ) : Skel := w.ctxs.map fun x => (x.chain, x.status)

def parentsOf (sk : Skel) : Option Nat → List Nat
  | none => []
  | some c =>
    match sk[c]? with
    | some x => x.1
    | none => []

theorem parents_skel (w : World σ) (c : Option Nat) : w.parents c = parentsOf w.skel c := by
  unfold World.parents parentsOf World.skel
  cases c with
  | none => rfl
  | some c => simp only [List.getElem?_map]; cases w.ctxs[c]? <;> rfl

/-- A context of `t` that owns its log. -/
def owns (t : Nat) (x : List Nat × CtxEnd) : Bool := x.1.head? == some t && x.2 != .dropped

structure CtxInv (g : Graph σ.K σ.T) (h : List (Call σ)) (graph : Graph σ.K σ.T) (txs : List (TxVal σ.K σ.T)) (sk : Skel) :
    Prop where
  graph : ∀ tx, txs[0]? = some tx → tx.live = true → graph = g
  root : ∃ tx, txs[0]? = some tx ∧ tx.context = none
  orphan : parentTx h 0 = none
  tx : ∀ t tx, txs[t]? = some tx → t ≠ 0 → ∃ c p chain st, tx.context = some c ∧ sk[c]? = some (p :: chain, st) ∧
    parentTx h t = some p ∧ p < t ∧ (tx.live = true → st = .live)
  ctx : ∀ c chain st, sk[c]? = some (chain, st) → ∃ t tx, txOf h c = some t ∧ txs[t]? = some tx ∧
    chain = t :: parentsOf sk tx.context ∧ (st = .live → tx.live = true)
  ctxName : ∀ c t, txOf h c = some t → c < sk.length
  txName : ∀ t p, parentTx h t = some p → t < txs.length
  log : ∀ t tx, txs[t]? = some tx → ∀ i, says tx.log i = lastWriteOf h t i
  future : ∀ t, txs.length ≤ t → ∀ i, lastWriteOf h t i = none
  owners : ∀ t tx, txs[t]? = some tx → tx.owners = 1 + sk.countP (owns t)
  leaked : ∀ t, Leaked h t ↔ ∃ x ∈ sk, x.1.head? = some t ∧ x.2 = .forgotten

theorem CtxInv.congr {g : Graph σ.K σ.T} {h h' : List (Call σ)} {graph : Graph σ.K σ.T} {txs : List (TxVal σ.K σ.T)} {sk : Skel}
    (hI : CtxInv g h graph txs sk) (h1 : ∀ c, txOf h' c = txOf h c) (h2 : ∀ t, parentTx h' t = parentTx h t)
    (h3 : ∀ t, Leaked h' t ↔ Leaked h t) (h4 : ∀ t i, lastWriteOf h' t i = lastWriteOf h t i) : CtxInv g h' graph txs sk where
  graph := hI.graph
  root := hI.root
  orphan := by rw [h2]; exact hI.orphan
  tx := by simp only [h2]; exact hI.tx
  ctx := by simp only [h1]; exact hI.ctx
  ctxName := by simp only [h1]; exact hI.ctxName
  txName := by simp only [h2]; exact hI.txName
  log := by simp only [h4]; exact hI.log
  future := by simp only [h4]; exact hI.future
  owners := hI.owners
  leaked := by simp only [h3]; exact hI.leaked

theorem ctxInv_start (g : Graph σ.K σ.T) : CtxInv g [] g [⟨none, [], 1, true⟩] [] where
  graph := by simp
  root := ⟨_, rfl, rfl⟩
  orphan := rfl
  tx := by intro t tx h h0; cases t <;> simp_all
  ctx := by simp
  ctxName := by simp [txOf]
  txName := by simp [parentTx]
  log := by intro t tx h i; cases t <;> simp_all [says, lastWriteOf]; subst h; simp [says]
  future := by intros; rfl
  owners := by intro t tx h; cases t <;> simp_all; subst h; rfl
  leaked := by simp [Leaked]

/-! ## Lists -/

theorem getElem?_modify_ne {α : Type} (l : List α) {n m : Nat} (u : α → α) (h : n ≠ m) : (l.modify n u)[m]? = l[m]? := by
  rw [List.getElem?_modify]; simp [h]

theorem getElem?_modify_self {α : Type} (l : List α) (n : Nat) (u : α → α) : (l.modify n u)[n]? = l[n]?.map u := by
  rw [List.getElem?_modify]; cases l[n]? <;> simp

theorem countP_modify {α : Type} (p : α → Bool) (u : α → α) : ∀ (l : List α) (n : Nat) (x : α), l[n]? = some x →
    (l.modify n u).countP p + (if p x then 1 else 0) = l.countP p + (if p (u x) then 1 else 0)
  | [], n, x, h => by simp at h
  | y :: l, 0, x, h => by
    simp at h; subst h
    simp only [List.modify_zero_cons, List.countP_cons]; omega
  | y :: l, n + 1, x, h => by
    have := countP_modify p u l n x (by simpa using h)
    simp only [List.modify_succ_cons, List.countP_cons]; omega

theorem parentsOf_modify (sk : Skel) (n : Nat) (u : List Nat × CtxEnd → List Nat × CtxEnd) (hu : ∀ x, (u x).1 = x.1)
    (c : Option Nat) : parentsOf (sk.modify n u) c = parentsOf sk c := by
  cases c with
  | none => rfl
  | some c =>
    unfold parentsOf
    by_cases hc : n = c
    · subst hc
      simp only [getElem?_modify_self]
      cases sk[n]? with
      | none => rfl
      | some x => exact hu x
    · simp only [getElem?_modify_ne sk u hc]

theorem parentsOf_append (sk : Skel) (x : List Nat × CtxEnd) (c : Nat) (hc : c < sk.length) :
    parentsOf (sk ++ [x]) (some c) = parentsOf sk (some c) := by
  unfold parentsOf; simp only [List.getElem?_append_left hc]

/-! ## Calls -/

variable {g graph : Graph σ.K σ.T} {h : List (Call σ)} {txs : List (TxVal σ.K σ.T)} {sk : Skel}

/-- Changing a transaction in what does not matter to others. -/
theorem inv_context (hI : CtxInv g h graph txs sk) {t : Nat} {tx : TxVal σ.K σ.T} (ht : txs[t]? = some tx) (hl : tx.live = true) :
    CtxInv g (.context t sk.length :: h) graph (txs.modify t fun tx => { tx with owners := tx.owners + 1 })
      (sk ++ [(t :: parentsOf sk tx.context, .live)]) := by
  have hmod : ∀ (s : Nat) (tx' : TxVal σ.K σ.T), (txs.modify t fun tx => { tx with owners := tx.owners + 1 })[s]? = some tx' →
      ∃ tx0, txs[s]? = some tx0 ∧ tx'.context = tx0.context ∧ tx'.log = tx0.log ∧ tx'.live = tx0.live ∧
        tx'.owners = tx0.owners + (if s = t then 1 else 0) := by
    intro s tx' hs
    by_cases hst : t = s
    · subst hst
      rw [getElem?_modify_self, ht] at hs
      simp at hs; subst hs
      exact ⟨tx, ht, rfl, rfl, rfl, by simp⟩
    · rw [getElem?_modify_ne _ _ hst] at hs
      exact ⟨tx', hs, rfl, rfl, rfl, by simp [Ne.symm hst]⟩
  have hmod' : ∀ (s : Nat) (tx0 : TxVal σ.K σ.T), txs[s]? = some tx0 → ∃ tx', (txs.modify t fun tx => { tx with owners := tx.owners + 1 })[s]? = some tx' ∧
      tx'.context = tx0.context ∧ tx'.live = tx0.live := by
    intro s tx0 hs
    by_cases hst : t = s
    · subst hst; rw [getElem?_modify_self, hs]; exact ⟨_, rfl, rfl, rfl⟩
    · rw [getElem?_modify_ne _ _ hst, hs]; exact ⟨_, rfl, rfl, rfl⟩
  have hctxlt : ∀ (s : Nat) (tx0 : TxVal σ.K σ.T) (c : Nat), txs[s]? = some tx0 → tx0.context = some c → c < sk.length := by
    intro s tx0 c hs hc
    by_cases h0 : s = 0
    · subst h0
      obtain ⟨r, hr, hrc⟩ := hI.root
      rw [hr] at hs; cases hs; rw [hrc] at hc; cases hc
    · obtain ⟨c', p, chain, st, h1, h2, _⟩ := hI.tx s tx0 hs h0
      rw [hc] at h1; cases h1
      exact (List.getElem?_eq_some_iff.1 h2).1
  have hpar : ∀ (s : Nat) (tx0 : TxVal σ.K σ.T), txs[s]? = some tx0 → parentsOf (sk ++ [(t :: parentsOf sk tx.context, CtxEnd.live)]) tx0.context =
      parentsOf sk tx0.context := by
    intro s tx0 hs
    cases hc : tx0.context with
    | none => rfl
    | some c => exact parentsOf_append _ _ c (hctxlt s tx0 c hs hc)
  constructor
  · intro tx' h0 hlive
    obtain ⟨tx0, h1, _, _, h2, _⟩ := hmod 0 tx' h0
    exact hI.graph tx0 h1 (h2 ▸ hlive)
  · obtain ⟨r, hr, hrc⟩ := hI.root
    obtain ⟨r', hr', hc, _⟩ := hmod' 0 r hr
    exact ⟨r', hr', hc.trans hrc⟩
  · exact hI.orphan
  · intro s tx' hs h0
    obtain ⟨tx0, h1, hc, _, h2, _⟩ := hmod s tx' hs
    obtain ⟨c, p, chain, st, h3, h4, h5, h6, h7⟩ := hI.tx s tx0 h1 h0
    refine ⟨c, p, chain, st, hc.trans h3, ?_, h5, h6, fun hl => h7 (h2 ▸ hl)⟩
    rw [List.getElem?_append_left (List.getElem?_eq_some_iff.1 h4).1, h4]
  · intro c chain st hc
    by_cases hlt : c < sk.length
    · rw [List.getElem?_append_left hlt] at hc
      obtain ⟨s, tx0, h1, h2, h3, h4⟩ := hI.ctx c chain st hc
      obtain ⟨tx', h5, h6, h7⟩ := hmod' s tx0 h2
      refine ⟨s, tx', ?_, h5, ?_, fun hst => h7.trans (h4 hst)⟩
      · simp only [txOf]; rw [if_neg (by omega)]; exact h1
      · rw [h6, hpar s tx0 h2]; exact h3
    · have hlen : c = sk.length := by
        have := (List.getElem?_eq_some_iff.1 hc).1
        simp at this; omega
      subst hlen
      simp at hc
      obtain ⟨rfl, rfl⟩ := hc
      obtain ⟨tx', h5, h6, h7⟩ := hmod' t tx ht
      refine ⟨t, tx', by simp [txOf], h5, ?_, fun _ => h7.trans hl⟩
      rw [h6, hpar t tx ht]
  · intro c s hc
    simp only [txOf] at hc
    split at hc
    · rename_i he; subst he; simp
    · have := hI.ctxName c s hc; simp; omega
  · intro s p hs
    have := hI.txName s p hs
    simpa using this
  · intro s tx' hs i
    obtain ⟨tx0, h1, _, hlog, _⟩ := hmod s tx' hs
    rw [hlog]; exact hI.log s tx0 h1 i
  · intro s hs i
    exact hI.future s (by simpa using hs) i
  · intro s tx' hs
    obtain ⟨tx0, h1, _, _, _, how⟩ := hmod s tx' hs
    rw [how, hI.owners s tx0 h1, List.countP_append]
    by_cases hst : s = t
    · subst hst; simp [owns]; omega
    · simp [owns, Ne.symm hst, hst]
  · intro s
    refine (hI.leaked s).trans ?_
    constructor
    · rintro ⟨x, hx, h1, h2⟩
      exact ⟨x, List.mem_append_left _ hx, h1, h2⟩
    · rintro ⟨x, hx, h1, h2⟩
      rcases List.mem_append.1 hx with hx | hx
      · exact ⟨x, hx, h1, h2⟩
      · simp at hx; subst hx; cases h2

theorem inv_transaction (hI : CtxInv g h graph txs sk) {c : Nat} {chain : List Nat} (hc : sk[c]? = some (chain, .live)) :
    CtxInv g (.transaction c txs.length :: h) graph (txs ++ [⟨some c, [], 1, true⟩]) sk := by
  have hpos : 0 < txs.length := by
    obtain ⟨r, hr, _⟩ := hI.root
    exact (List.getElem?_eq_some_iff.1 hr).1
  obtain ⟨p, ptx, hp1, hp2, hp3, hp4⟩ := hI.ctx c chain .live hc
  have hplt : p < txs.length := (List.getElem?_eq_some_iff.1 hp2).1
  have hold : ∀ {s : Nat} {tx' : TxVal σ.K σ.T}, (txs ++ [(⟨some c, [], 1, true⟩ : TxVal σ.K σ.T)])[s]? = some tx' →
      txs[s]? = some tx' ∧ s < txs.length ∨ (s = txs.length ∧ tx' = ⟨some c, [], 1, true⟩) := by
    intro s tx' hs
    by_cases hlt : s < txs.length
    · rw [List.getElem?_append_left hlt] at hs; exact .inl ⟨hs, hlt⟩
    · have := (List.getElem?_eq_some_iff.1 hs).1
      simp at this
      have : s = txs.length := by omega
      subst this
      simp at hs
      exact .inr ⟨rfl, hs.symm⟩
  have hnew : ∀ {s : Nat} {tx' : TxVal σ.K σ.T}, txs[s]? = some tx' → (txs ++ [(⟨some c, [], 1, true⟩ : TxVal σ.K σ.T)])[s]? = some tx' := by
    intro s tx' hs
    rw [List.getElem?_append_left (List.getElem?_eq_some_iff.1 hs).1, hs]
  have hpar : ∀ s, parentTx (.transaction c txs.length :: h) s = if txs.length = s then some p else parentTx h s := by
    intro s
    simp only [parentTx, hp1]
  constructor
  · intro tx' h0 hlive
    rcases hold h0 with ⟨h1, _⟩ | ⟨h1, _⟩
    · exact hI.graph tx' h1 hlive
    · omega
  · obtain ⟨r, hr, hrc⟩ := hI.root
    exact ⟨r, hnew hr, hrc⟩
  · rw [hpar, if_neg (by omega)]; exact hI.orphan
  · intro s tx' hs h0
    rcases hold hs with ⟨h1, h2⟩ | ⟨rfl, rfl⟩
    · rw [hpar, if_neg (by omega)]; exact hI.tx s tx' h1 h0
    · refine ⟨c, p, parentsOf sk ptx.context, .live, rfl, by rw [hc, hp3], ?_, hplt, fun _ => rfl⟩
      rw [hpar, if_pos rfl]
  · intro c' chain' st hc'
    obtain ⟨s, tx0, h1, h2, h3, h4⟩ := hI.ctx c' chain' st hc'
    exact ⟨s, tx0, h1, hnew h2, h3, h4⟩
  · exact hI.ctxName
  · intro s q hs
    rw [hpar] at hs
    split at hs
    · rename_i he; subst he; simp
    · have := hI.txName s q hs; simp; omega
  · intro s tx' hs i
    show says tx'.log i = lastWriteOf h s i
    rcases hold hs with ⟨h1, h2⟩ | ⟨rfl, rfl⟩
    · exact hI.log s tx' h1 i
    · rw [hI.future txs.length (Nat.le_refl _) i]; rfl
  · intro s hs i
    exact hI.future s (by simp at hs; omega) i
  · intro s tx' hs
    rcases hold hs with ⟨h1, h2⟩ | ⟨rfl, rfl⟩
    · exact hI.owners s tx' h1
    · have : sk.countP (owns txs.length) = 0 := by
        rw [List.countP_eq_zero]
        intro x hx ho
        obtain ⟨c', hc', he⟩ := List.getElem_of_mem hx
        obtain ⟨s, tx0, h1, h2, h3, h4⟩ := hI.ctx c' x.1 x.2 (by rw [List.getElem?_eq_getElem hc', he])
        simp only [owns, h3, List.head?_cons, Bool.and_eq_true, beq_iff_eq, Option.some.injEq] at ho
        have := (List.getElem?_eq_some_iff.1 h2).1
        omega
      rw [this]
  · exact hI.leaked

theorem inv_push (hI : CtxInv g h graph txs sk) {h' : List (Call σ)} {t : Nat} {ops : List (Operation σ.K σ.T)}
    (ht : t < txs.length)
    (h1 : ∀ c, txOf h' c = txOf h c) (h2 : ∀ t, parentTx h' t = parentTx h t) (h3 : ∀ t, Leaked h' t ↔ Leaked h t)
    (h4 : ∀ s i, lastWriteOf h' s i = if s = t then (says ops i).or (lastWriteOf h t i) else lastWriteOf h s i) :
    CtxInv g h' graph (txs.modify t fun tx => { tx with log := tx.log ++ ops }) sk := by
  have hmod : ∀ (s : Nat) (tx' : TxVal σ.K σ.T), (txs.modify t fun tx => { tx with log := tx.log ++ ops })[s]? = some tx' →
      ∃ tx0, txs[s]? = some tx0 ∧ tx'.context = tx0.context ∧ tx'.owners = tx0.owners ∧ tx'.live = tx0.live ∧
        tx'.log = if s = t then tx0.log ++ ops else tx0.log := by
    intro s tx' hs
    by_cases hst : t = s
    · subst hst
      rw [getElem?_modify_self] at hs
      obtain ⟨tx0, h0, rfl⟩ := Option.map_eq_some_iff.1 hs
      exact ⟨tx0, h0, rfl, rfl, rfl, by simp⟩
    · rw [getElem?_modify_ne _ _ hst] at hs
      exact ⟨tx', hs, rfl, rfl, rfl, by simp [Ne.symm hst]⟩
  have hmod' : ∀ (s : Nat) (tx0 : TxVal σ.K σ.T), txs[s]? = some tx0 → ∃ tx', (txs.modify t fun tx => { tx with log := tx.log ++ ops })[s]? = some tx' ∧
      tx'.context = tx0.context ∧ tx'.live = tx0.live := by
    intro s tx0 hs
    by_cases hst : t = s
    · subst hst; rw [getElem?_modify_self, hs]; exact ⟨_, rfl, rfl, rfl⟩
    · rw [getElem?_modify_ne _ _ hst, hs]; exact ⟨_, rfl, rfl, rfl⟩
  constructor
  · intro tx' h0 hlive
    obtain ⟨tx0, e1, _, _, e2, _⟩ := hmod 0 tx' h0
    exact hI.graph tx0 e1 (e2 ▸ hlive)
  · obtain ⟨r, hr, hrc⟩ := hI.root
    obtain ⟨r', hr', hc, _⟩ := hmod' 0 r hr
    exact ⟨r', hr', hc.trans hrc⟩
  · rw [h2]; exact hI.orphan
  · intro s tx' hs h0
    obtain ⟨tx0, e1, hc, _, e2, _⟩ := hmod s tx' hs
    obtain ⟨c, p, chain, st, e3, e4, e5, e6, e7⟩ := hI.tx s tx0 e1 h0
    exact ⟨c, p, chain, st, hc.trans e3, e4, by rw [h2]; exact e5, e6, fun hl => e7 (e2 ▸ hl)⟩
  · intro c chain st hc
    obtain ⟨s, tx0, e1, e2, e3, e4⟩ := hI.ctx c chain st hc
    obtain ⟨tx', e5, e6, e7⟩ := hmod' s tx0 e2
    exact ⟨s, tx', by rw [h1]; exact e1, e5, by rw [e6]; exact e3, fun hst => e7.trans (e4 hst)⟩
  · intro c s hc; rw [h1] at hc; exact hI.ctxName c s hc
  · intro s p hs; rw [h2] at hs; simpa using hI.txName s p hs
  · intro s tx' hs i
    obtain ⟨tx0, e1, _, _, _, hlog⟩ := hmod s tx' hs
    rw [hlog, h4]
    by_cases hst : s = t
    · subst hst; rw [if_pos rfl, if_pos rfl, says_append, hI.log s tx0 e1 i]
    · rw [if_neg hst, if_neg hst]; exact hI.log s tx0 e1 i
  · intro s hs i
    have hs' : txs.length ≤ s := by simpa using hs
    rw [h4, if_neg (by omega)]
    exact hI.future s hs' i
  · intro s tx' hs
    obtain ⟨tx0, e1, _, how, _⟩ := hmod s tx' hs
    rw [how]; exact hI.owners s tx0 e1
  · intro s; rw [h3]; exact hI.leaked s

/-- A context ends. -/
theorem inv_end (hI : CtxInv g h graph txs sk) {h' : List (Call σ)} {c : Nat} {chain : List Nat} {st : CtxEnd} {t : Nat} {d : Nat}
    (hc : sk[c]? = some (chain, .live)) (ht : chain.head? = some t) (hst : st ≠ .live)
    (hub : ∀ (s : Nat) (tx : TxVal σ.K σ.T), txs[s]? = some tx → tx.live = true → tx.context ≠ some c)
    (hd : d = if st = .dropped then 1 else 0)
    (h1 : ∀ c, txOf h' c = txOf h c) (h2 : ∀ t, parentTx h' t = parentTx h t)
    (h3 : ∀ s, Leaked h' s ↔ (st = .forgotten ∧ s = t) ∨ Leaked h s)
    (h4 : ∀ s i, lastWriteOf h' s i = lastWriteOf h s i) :
    CtxInv g h' graph (txs.modify t fun tx => { tx with owners := tx.owners - d }) (sk.modify c fun x => (x.1, st)) := by
  have hmod : ∀ (s : Nat) (tx' : TxVal σ.K σ.T), (txs.modify t fun tx => { tx with owners := tx.owners - d })[s]? = some tx' →
      ∃ tx0, txs[s]? = some tx0 ∧ tx'.context = tx0.context ∧ tx'.log = tx0.log ∧ tx'.live = tx0.live ∧
        tx'.owners = tx0.owners - (if s = t then d else 0) := by
    intro s tx' hs
    by_cases hst : t = s
    · subst hst
      rw [getElem?_modify_self] at hs
      obtain ⟨tx0, h0, rfl⟩ := Option.map_eq_some_iff.1 hs
      exact ⟨tx0, h0, rfl, rfl, rfl, by simp⟩
    · rw [getElem?_modify_ne _ _ hst] at hs
      exact ⟨tx', hs, rfl, rfl, rfl, by simp [Ne.symm hst]⟩
  have hmod' : ∀ (s : Nat) (tx0 : TxVal σ.K σ.T), txs[s]? = some tx0 → ∃ tx', (txs.modify t fun tx => { tx with owners := tx.owners - d })[s]? = some tx' ∧
      tx'.context = tx0.context ∧ tx'.live = tx0.live := by
    intro s tx0 hs
    by_cases hst : t = s
    · subst hst; rw [getElem?_modify_self, hs]; exact ⟨_, rfl, rfl, rfl⟩
    · rw [getElem?_modify_ne _ _ hst, hs]; exact ⟨_, rfl, rfl, rfl⟩
  have hsk : ∀ (c' : Nat) (ch : List Nat) (st' : CtxEnd), (sk.modify c fun x => (x.1, st))[c']? = some (ch, st') →
      ∃ st0, sk[c']? = some (ch, st0) ∧ (st' = .live → st0 = .live) := by
    intro c' ch st' hc'
    by_cases he : c = c'
    · subst he
      rw [getElem?_modify_self, hc] at hc'
      simp at hc'
      obtain ⟨rfl, rfl⟩ := hc'
      exact ⟨.live, hc, fun _ => rfl⟩
    · rw [getElem?_modify_ne _ _ he] at hc'
      exact ⟨st', hc', fun h => h⟩
  constructor
  · intro tx' h0 hlive
    obtain ⟨tx0, e1, _, _, e2, _⟩ := hmod 0 tx' h0
    exact hI.graph tx0 e1 (e2 ▸ hlive)
  · obtain ⟨r, hr, hrc⟩ := hI.root
    obtain ⟨r', hr', hc, _⟩ := hmod' 0 r hr
    exact ⟨r', hr', hc.trans hrc⟩
  · rw [h2]; exact hI.orphan
  · intro s tx' hs h0
    obtain ⟨tx0, e1, hcx, _, e2, _⟩ := hmod s tx' hs
    obtain ⟨c', p, ch, st', e3, e4, e5, e6, e7⟩ := hI.tx s tx0 e1 h0
    by_cases he : c = c'
    · subst he
      refine ⟨c, p, ch, st, hcx.trans e3, ?_, by rw [h2]; exact e5, e6, fun hl => ?_⟩
      · rw [getElem?_modify_self, e4]; rfl
      · exact absurd e3 (hub s tx0 e1 (e2 ▸ hl))
    · refine ⟨c', p, ch, st', hcx.trans e3, ?_, by rw [h2]; exact e5, e6, fun hl => e7 (e2 ▸ hl)⟩
      rw [getElem?_modify_ne _ _ he]; exact e4
  · intro c' ch st' hc'
    obtain ⟨st0, e0, hl⟩ := hsk c' ch st' hc'
    obtain ⟨s, tx0, e1, e2, e3, e4⟩ := hI.ctx c' ch st0 e0
    obtain ⟨tx', e5, e6, e7⟩ := hmod' s tx0 e2
    refine ⟨s, tx', by rw [h1]; exact e1, e5, ?_, fun h => e7.trans (e4 (hl h))⟩
    rw [e6, parentsOf_modify sk c (fun x => (x.1, st)) fun _ => rfl]; exact e3
  · intro c' s hc'; rw [h1] at hc'; simpa using hI.ctxName c' s hc'
  · intro s p hs; rw [h2] at hs; simpa using hI.txName s p hs
  · intro s tx' hs i
    obtain ⟨tx0, e1, _, hlog, _⟩ := hmod s tx' hs
    rw [hlog, h4]; exact hI.log s tx0 e1 i
  · intro s hs i; rw [h4]; exact hI.future s (by simpa using hs) i
  · intro s tx' hs
    obtain ⟨tx0, e1, _, _, _, how⟩ := hmod s tx' hs
    have := countP_modify (owns s) (fun x => (x.1, st)) sk c _ hc
    rw [how, hI.owners s tx0 e1]
    by_cases hs' : s = t
    · subst hs'
      have o1 : owns s (chain, .live) = true := by simp [owns, ht]
      rw [if_pos o1] at this
      cases st with
      | live => exact absurd rfl hst
      | dropped =>
        have o2 : owns s (chain, .dropped) = false := by simp [owns]
        simp only [o2] at this
        simp at this hd
        subst hd; simp; omega
      | forgotten =>
        have o2 : owns s (chain, .forgotten) = true := by simp [owns, ht]
        simp only [o2] at this
        simp at this hd
        subst hd; simp; omega
    · have o1 : ∀ st, owns s (chain, st) = false := by
        intro st; simp [owns, ht]; intro h; exact absurd h.symm hs'
      simp only [o1] at this
      simp at this
      rw [if_neg hs', this]; rfl
  · intro s
    rw [h3, hI.leaked]
    constructor
    · rintro (⟨rfl, rfl⟩ | ⟨x, hx, e1, e2⟩)
      · refine ⟨(chain, .forgotten), ?_, ht, rfl⟩
        apply List.mem_of_getElem? (i := c)
        rw [getElem?_modify_self, hc]; rfl
      · obtain ⟨c', hc', he⟩ := List.getElem_of_mem hx
        refine ⟨x, ?_, e1, e2⟩
        apply List.mem_of_getElem? (i := c')
        rw [getElem?_modify_ne, List.getElem?_eq_getElem hc', he]
        rintro rfl
        rw [List.getElem?_eq_getElem hc', he] at hc
        cases hc; cases e2
    · rintro ⟨x, hx, e1, e2⟩
      obtain ⟨c', hc', he⟩ := List.getElem_of_mem hx
      have hx' : (sk.modify c fun x => (x.1, st))[c']? = some x := by rw [List.getElem?_eq_getElem hc', he]
      by_cases hcc : c = c'
      · subst hcc
        rw [getElem?_modify_self, hc] at hx'
        simp at hx'; subst hx'
        dsimp only at e1 e2
        rw [ht] at e1; cases e1
        exact .inl ⟨e2, rfl⟩
      · rw [getElem?_modify_ne _ _ hcc] at hx'
        exact .inr ⟨x, List.mem_of_getElem? hx', e1, e2⟩

/-- A transaction ends. -/
theorem inv_close (hI : CtxInv g h graph txs sk) {graph' : Graph σ.K σ.T} {t : Nat} (hg : t ≠ 0 → graph' = graph)
    (hun : ∀ x ∈ sk, x.2 = .live → x.1.head? ≠ some t) :
    CtxInv g h graph' (txs.modify t fun tx => { tx with live := false }) sk := by
  have hmod : ∀ (s : Nat) (tx' : TxVal σ.K σ.T), (txs.modify t fun tx => { tx with live := false })[s]? = some tx' →
      ∃ tx0, txs[s]? = some tx0 ∧ tx'.context = tx0.context ∧ tx'.log = tx0.log ∧ tx'.owners = tx0.owners ∧
        (tx'.live = true → tx0.live = true ∧ s ≠ t) := by
    intro s tx' hs
    by_cases hst : t = s
    · subst hst
      rw [getElem?_modify_self] at hs
      obtain ⟨tx0, h0, rfl⟩ := Option.map_eq_some_iff.1 hs
      exact ⟨tx0, h0, rfl, rfl, rfl, by simp⟩
    · rw [getElem?_modify_ne _ _ hst] at hs
      exact ⟨tx', hs, rfl, rfl, rfl, fun h => ⟨h, Ne.symm hst⟩⟩
  have hmod' : ∀ (s : Nat) (tx0 : TxVal σ.K σ.T), txs[s]? = some tx0 → ∃ tx', (txs.modify t fun tx => { tx with live := false })[s]? = some tx' ∧
      tx'.context = tx0.context ∧ (s ≠ t → tx'.live = tx0.live) := by
    intro s tx0 hs
    by_cases hst : t = s
    · subst hst; rw [getElem?_modify_self, hs]; exact ⟨_, rfl, rfl, fun h => absurd rfl h⟩
    · rw [getElem?_modify_ne _ _ hst, hs]; exact ⟨_, rfl, rfl, fun _ => rfl⟩
  constructor
  · intro tx' h0 hlive
    obtain ⟨tx0, e1, _, _, _, e2⟩ := hmod 0 tx' h0
    obtain ⟨e3, e4⟩ := e2 hlive
    rw [hg (Ne.symm e4)]
    exact hI.graph tx0 e1 e3
  · obtain ⟨r, hr, hrc⟩ := hI.root
    obtain ⟨r', hr', hc, _⟩ := hmod' 0 r hr
    exact ⟨r', hr', hc.trans hrc⟩
  · exact hI.orphan
  · intro s tx' hs h0
    obtain ⟨tx0, e1, hcx, _, _, e2⟩ := hmod s tx' hs
    obtain ⟨c, p, ch, st, e3, e4, e5, e6, e7⟩ := hI.tx s tx0 e1 h0
    exact ⟨c, p, ch, st, hcx.trans e3, e4, e5, e6, fun hl => e7 (e2 hl).1⟩
  · intro c ch st hc
    obtain ⟨s, tx0, e1, e2, e3, e4⟩ := hI.ctx c ch st hc
    obtain ⟨tx', e5, e6, e7⟩ := hmod' s tx0 e2
    refine ⟨s, tx', e1, e5, by rw [e6]; exact e3, fun hst => ?_⟩
    rw [e7 ?_]
    · exact e4 hst
    · rintro rfl
      exact hun _ (List.mem_of_getElem? hc) hst (by rw [e3]; rfl)
  · exact hI.ctxName
  · intro s p hs; simpa using hI.txName s p hs
  · intro s tx' hs i
    obtain ⟨tx0, e1, _, hlog, _⟩ := hmod s tx' hs
    rw [hlog]; exact hI.log s tx0 e1 i
  · intro s hs i; exact hI.future s (by simpa using hs) i
  · intro s tx' hs
    obtain ⟨tx0, e1, _, _, how, _⟩ := hmod s tx' hs
    rw [how]; exact hI.owners s tx0 e1
  · exact hI.leaked

/-! ## All calls -/

theorem map_modify {α β : Type} (f : α → β) (u : α → α) (v : β → β) (huv : ∀ x, f (u x) = v (f x)) (l : List α) (n : Nat) :
    (l.modify n u).map f = (l.map f).modify n v := by
  apply List.ext_getElem?
  intro m
  by_cases h : n = m
  · subst h
    rw [List.getElem?_map, getElem?_modify_self, getElem?_modify_self, List.getElem?_map]
    cases l[n]? <;> simp [huv]
  · rw [List.getElem?_map, getElem?_modify_ne _ _ h, getElem?_modify_ne _ _ h, List.getElem?_map]

theorem modify_same {α : Type} (u : α → α) (hu : ∀ x, u x = x) (l : List α) (n : Nat) : l.modify n u = l := by
  apply List.ext_getElem?
  intro m
  by_cases h : n = m
  · subst h; rw [getElem?_modify_self]; cases l[n]? <;> simp [hu]
  · rw [getElem?_modify_ne _ _ h]

theorem ctx_some {w : World σ} {c : Nat} {x : CtxVal} (h : w.ctx c = some x) :
    w.ctxs[c]? = some x ∧ x.status = .live ∧ w.skel[c]? = some (x.chain, .live) := by
  unfold World.ctx at h
  split at h
  · rename_i y hy
    split at h
    · rename_i hl
      cases h
      refine ⟨hy, hl, ?_⟩
      rw [World.skel, List.getElem?_map, hy]; simp [hl]
    · cases h
  · cases h

theorem tx_some {w : World σ} {t : Nat} {x : TxVal σ.K σ.T} (h : w.tx t = some x) : w.txs[t]? = some x ∧ x.live = true := by
  unfold World.tx at h
  split at h
  · rename_i y hy
    split at h
    · rename_i hl; cases h; exact ⟨hy, hl⟩
    · cases h
  · cases h

theorem unborrowed_iff {w : World σ} {c : Nat} (h : w.unborrowed c = true) :
    ∀ (s : Nat) (tx : TxVal σ.K σ.T), w.txs[s]? = some tx → tx.live = true → tx.context ≠ some c := by
  intro s tx hs hl hc
  have := (List.all_eq_true.1 h) tx (List.mem_of_getElem? hs)
  simp [hl, hc] at this

theorem unused_iff {w : World σ} {t : Nat} (h : w.unused t = true) :
    ∀ x ∈ w.skel, x.2 = .live → x.1.head? ≠ some t := by
  intro x hx hl hc
  obtain ⟨y, hy, rfl⟩ := List.mem_map.1 hx
  have := (List.all_eq_true.1 h) y hy
  dsimp only at hl hc
  simp [hl, hc] at this

theorem owners_leaked (hI : CtxInv g h graph txs sk) {t : Nat} {tx : TxVal σ.K σ.T} (ht : txs[t]? = some tx)
    (hun : ∀ x ∈ sk, x.2 = .live → x.1.head? ≠ some t) : tx.owners = 1 ↔ ¬ Leaked h t := by
  rw [hI.owners t tx ht, hI.leaked]
  constructor
  · rintro h1 ⟨x, hx, h2, h3⟩
    have : 0 < sk.countP (owns t) := List.countP_pos_iff.2 ⟨x, hx, by simp [owns, h2, h3]⟩
    omega
  · intro hn
    have : sk.countP (owns t) = 0 := by
      rw [List.countP_eq_zero]
      intro x hx ho
      simp only [owns, Bool.and_eq_true, beq_iff_eq, bne_iff_ne] at ho
      cases hst : x.2 with
      | live => exact hun x hx hst ho.1
      | dropped => exact ho.2 hst
      | forgotten => exact hn ⟨x, hx, ho.1, hst⟩
    omega

theorem inv_step {w w' : World σ} {x : Call σ} {a : Answer σ.T} (hI : CtxInv g h w.graph w.txs w.skel)
    (hs : w.step x = some (a, w')) : CtxInv g (x :: h) w'.graph w'.txs w'.skel := by
  have hhead : ∀ {c y}, w.ctx c = some y → ∃ t, y.chain.head? = some t ∧ y.chain.headD 0 = t ∧ txOf h c = some t ∧
      t < w.txs.length := by
    intro c y hc
    obtain ⟨t, tx, h1, h2, h3, _⟩ := hI.ctx c _ _ (ctx_some hc).2.2
    exact ⟨t, by rw [h3]; rfl, by rw [h3]; rfl, h1, (List.getElem?_eq_some_iff.1 h2).1⟩
  cases x with
  | context t c =>
    simp only [World.step] at hs
    split at hs
    · rename_i tx ht
      split at hs
      · rename_i hc
        cases hs
        obtain ⟨h1, h2⟩ := tx_some ht
        have := inv_context hI h1 h2
        simp only [World.skel, List.map_append, List.map_cons, List.map_nil, parents_skel] at this ⊢
        rw [List.length_map] at this
        rw [hc]; exact this
      · cases hs
    · cases hs
  | transaction c t =>
    simp only [World.step] at hs
    split at hs
    · rename_i y hy
      split at hs
      · rename_i ht
        cases hs
        rw [ht]
        exact inv_transaction hI (ctx_some hy).2.2
      · cases hs
    · cases hs
  | save c n =>
    simp only [World.step] at hs
    split at hs
    · rename_i y hy
      cases hs
      obtain ⟨t, h1, h2, h3, h4⟩ := hhead hy
      rw [h2]
      refine inv_push hI h4 (fun _ => rfl) (fun _ => rfl) (fun _ => Iff.rfl) fun s i => ?_
      simp only [lastWriteOf, says_save, h3, Option.some.injEq]
      by_cases hst : s = t
      · subst hst
        by_cases hi : (Plotline.id n == i) = true <;> simp [hi]
      · simp [hst, Ne.symm hst]
    · cases hs
  | delete c j =>
    simp only [World.step] at hs
    split at hs
    · rename_i y hy
      cases hs
      obtain ⟨t, h1, h2, h3, h4⟩ := hhead hy
      rw [h2]
      refine inv_push hI h4 (fun _ => rfl) (fun _ => rfl) (fun _ => Iff.rfl) fun s i => ?_
      simp only [lastWriteOf, says_delete, h3, Option.some.injEq]
      by_cases hst : s = t
      · subst hst
        by_cases hi : (j == i) = true <;> simp [hi]
      · simp [hst, Ne.symm hst]
    · cases hs
  | get c i =>
    simp only [World.step] at hs
    obtain ⟨y, hy, he⟩ := Option.map_eq_some_iff.1 hs
    cases he
    exact hI.congr (fun _ => rfl) (fun _ => rfl) (fun _ => Iff.rfl) (fun _ _ => rfl)
  | contains c i =>
    simp only [World.step] at hs
    obtain ⟨y, hy, he⟩ := Option.map_eq_some_iff.1 hs
    cases he
    exact hI.congr (fun _ => rfl) (fun _ => rfl) (fun _ => Iff.rfl) (fun _ _ => rfl)
  | withTarget c n =>
    simp only [World.step] at hs
    split at hs
    · cases hs
      have : World.skel { w with
          cells := w.cells ++ [⟨n, false⟩]
          ctxs := w.ctxs.modify c fun x => { x with target := some w.cells.length } } = w.skel := by
        simp only [World.skel]
        refine (map_modify (fun x : CtxVal => (x.chain, x.status)) (fun x => { x with target := some w.cells.length })
          (fun x => x) (fun _ => rfl) _ _).trans (modify_same (fun x => x) (fun _ => rfl) _ _)
      rw [this]
      exact hI.congr (fun _ => rfl) (fun _ => rfl) (fun _ => Iff.rfl) (fun _ _ => rfl)
    · cases hs
  | handle c k =>
    simp only [World.step] at hs
    split at hs
    · split at hs
      · cases hs; exact hI.congr (fun _ => rfl) (fun _ => rfl) (fun _ => Iff.rfl) (fun _ _ => rfl)
      · cases hs
    · cases hs
  | cloneHandle k k' =>
    simp only [World.step] at hs
    split at hs
    · split at hs
      · cases hs; exact hI.congr (fun _ => rfl) (fun _ => rfl) (fun _ => Iff.rfl) (fun _ _ => rfl)
      · cases hs
    · cases hs
  | readTarget k =>
    simp only [World.step] at hs
    repeat' split at hs
    all_goals first
      | (cases hs; done)
      | (cases hs; exact hI.congr (fun _ => rfl) (fun _ => rfl) (fun _ => Iff.rfl) (fun _ _ => rfl))
  | writeTarget k f =>
    simp only [World.step] at hs
    repeat' split at hs
    all_goals first
      | (cases hs; done)
      | (cases hs; exact hI.congr (fun _ => rfl) (fun _ => rfl) (fun _ => Iff.rfl) (fun _ _ => rfl))
  | enter k excl =>
    simp only [World.step] at hs
    repeat' split at hs
    all_goals first
      | (cases hs; done)
      | (cases hs; exact hI.congr (fun _ => rfl) (fun _ => rfl) (fun _ => Iff.rfl) (fun _ _ => rfl))
  | assign j n =>
    simp only [World.step] at hs
    repeat' split at hs
    all_goals first
      | (cases hs; done)
      | (cases hs; exact hI.congr (fun _ => rfl) (fun _ => rfl) (fun _ => Iff.rfl) (fun _ _ => rfl))
  | touch j f =>
    simp only [World.step] at hs
    repeat' split at hs
    all_goals first
      | (cases hs; done)
      | (cases hs; exact hI.congr (fun _ => rfl) (fun _ => rfl) (fun _ => Iff.rfl) (fun _ _ => rfl))
  | leave j panicked =>
    simp only [World.step] at hs
    repeat' split at hs
    all_goals first
      | (cases hs; done)
      | (cases hs; exact hI.congr (fun _ => rfl) (fun _ => rfl) (fun _ => Iff.rfl) (fun _ _ => rfl))
  | dropCtx c =>
    simp only [World.step] at hs
    split at hs
    · rename_i y hy
      split at hs
      · rename_i hub
        cases hs
        obtain ⟨t, h1, h2, h3, h4⟩ := hhead hy
        have := inv_end (h' := .dropCtx c :: h) hI (st := .dropped) (d := 1) (ctx_some hy).2.2 h1 (by simp) (unborrowed_iff hub)
          (by simp) (fun _ => rfl) (fun _ => rfl) (fun s => ⟨.inr, fun hl => hl.elim (fun hf => by cases hf.1) fun hl => hl⟩)
          (fun _ _ => rfl)
        rw [h2]
        have e : World.skel { w with
            txs := w.txs.modify t fun tx => { tx with owners := tx.owners - 1 }
            ctxs := w.ctxs.modify c fun x => { x with status := .dropped } } =
            w.skel.modify c fun x => (x.1, .dropped) :=
          map_modify (fun x : CtxVal => (x.chain, x.status)) (fun x => { x with status := .dropped }) (fun x => (x.1, .dropped))
            (fun _ => rfl) _ _
        rw [e]; exact this
      · cases hs
    · cases hs
  | forgetCtx c =>
    simp only [World.step] at hs
    split at hs
    · rename_i y hy
      split at hs
      · rename_i hub
        cases hs
        obtain ⟨t, h1, h2, h3, h4⟩ := hhead hy
        have := inv_end (h' := .forgetCtx c :: h) hI (st := .forgotten) (d := 0) (ctx_some hy).2.2 h1 (by simp)
          (unborrowed_iff hub) (by simp) (fun _ => rfl) (fun _ => rfl)
          (fun s => by
            simp only [Leaked, h3, Option.some.injEq, true_and]
            exact ⟨fun hl => hl.imp Eq.symm fun hl => hl, fun hl => hl.imp Eq.symm fun hl => hl⟩)
          (fun _ _ => rfl)
        rw [modify_same (fun tx : TxVal σ.K σ.T => { tx with owners := tx.owners - 0 }) (fun _ => rfl)] at this
        have e : World.skel { w with ctxs := w.ctxs.modify c fun x => { x with status := .forgotten } } =
            w.skel.modify c fun x => (x.1, .forgotten) :=
          map_modify (fun x : CtxVal => (x.chain, x.status)) (fun x => { x with status := .forgotten })
            (fun x => (x.1, .forgotten)) (fun _ => rfl) _ _
        rw [e]; exact this
      · cases hs
    · cases hs
  | commit t =>
    simp only [World.step] at hs
    split at hs
    · rename_i tx ht
      obtain ⟨h1, h2⟩ := tx_some ht
      split at hs
      · rename_i hun
        have hun := unused_iff hun
        have hown := owners_leaked hI h1 hun
        split at hs
        · rename_i ho
          have hl := hown.1 ho
          split at hs
          · rename_i hc
            cases hs
            have ht0 : t = 0 := by
              apply Classical.byContradiction
              intro h0
              obtain ⟨c, p, chain, st, h3, _⟩ := hI.tx t tx h1 h0
              rw [hc] at h3; cases h3
            subst ht0
            refine (inv_close hI (fun h => absurd rfl h) hun).congr (fun _ => rfl) (fun _ => rfl) (fun _ => Iff.rfl) fun s i => ?_
            simp [lastWriteOf, hI.orphan]
          · rename_i c hc
            cases hs
            have ht0 : t ≠ 0 := by
              rintro rfl
              obtain ⟨r, hr, hrc⟩ := hI.root
              rw [h1] at hr; cases hr; rw [hc] at hrc; cases hrc
            obtain ⟨c', p, chain, st, h3, h4, h5, h6, h7⟩ := hI.tx t tx h1 ht0
            rw [hc] at h3; cases h3
            have hp : (w.parents (some c)).headD 0 = p := by
              rw [parents_skel]; simp [parentsOf, h4]
            rw [hp]
            have hplt : p < w.txs.length := by
              have := (List.getElem?_eq_some_iff.1 h1).1
              omega
            refine inv_push (h' := .commit t :: h) (inv_close (graph' := w.graph) hI (fun _ => rfl) hun) (by simpa using hplt) (fun _ => rfl) (fun _ => rfl)
              (fun _ => Iff.rfl) fun s i => ?_
            simp only [lastWriteOf, h5, Option.some.injEq, hl, not_false_eq_true, and_true]
            by_cases hsp : s = p
            · subst hsp; rw [if_pos rfl, if_pos rfl, hI.log t tx h1 i]
            · rw [if_neg (Ne.symm hsp), if_neg hsp]
        · rename_i ho
          cases hs
          have hl : Leaked h t := Classical.byContradiction fun hl => ho (hown.2 hl)
          refine (inv_close (graph' := w.graph) hI (fun _ => rfl) hun).congr (fun _ => rfl) (fun _ => rfl) (fun _ => Iff.rfl) fun s i => ?_
          simp [lastWriteOf, hl]
      · cases hs
    · cases hs
  | abandon t =>
    simp only [World.step] at hs
    split at hs
    · split at hs
      · rename_i hun
        cases hs
        exact (inv_close (graph' := w.graph) hI (fun _ => rfl) (unused_iff hun)).congr (fun _ => rfl) (fun _ => rfl) (fun _ => Iff.rfl) (fun _ _ => rfl)
      · cases hs
    · cases hs

theorem Legal.inv {w : World σ} (hl : Legal g h w) : CtxInv g h w.graph w.txs w.skel := by
  induction hl with
  | start => exact ctxInv_start g
  | call _ hs _ ih => exact inv_step ih hs

/-! ## Reading -/

theorem root_live (hI : CtxInv g h graph txs sk) : ∀ (t : Nat) (tx : TxVal σ.K σ.T), txs[t]? = some tx → tx.live = true →
    graph = g := by
  intro t
  induction t using Nat.strongRecOn with
  | ind t ih =>
    intro tx ht hl
    by_cases h0 : t = 0
    · subst h0; exact hI.graph tx ht hl
    · obtain ⟨c, p, chain, st, h1, h2, h3, h4, h5⟩ := hI.tx t tx ht h0
      obtain ⟨p', ptx, h6, h7, h8, h9⟩ := hI.ctx c _ _ h2
      have : p = p' := by have := congrArg List.head? h8; simpa using this
      subst this
      exact ih p h4 ptx h7 (h9 (h5 hl))

theorem get_reads {w : World σ} (hI : CtxInv g h w.graph w.txs w.skel) (hg : w.graph = g) (i : σ.K) :
    ∀ (t : Nat) (tx : TxVal σ.K σ.T), w.txs[t]? = some tx → Reads g h i t (w.get (t :: parentsOf w.skel tx.context) i) := by
  intro t
  induction t using Nat.strongRecOn with
  | ind t ih =>
    intro tx ht
    have hlog : w.log t = tx.log := by simp [World.log, ht]
    have hsays := hI.log t tx ht i
    have hstep : ∀ r, w.get (t :: r) i = (says tx.log i).getD (w.get r i) := by
      intro r
      simp only [World.get, hlog, says]
      cases tx.log.reverse.find? (fun op => op.id == i) with
      | none => rfl
      | some op => cases op <;> rfl
    rw [hstep, hsays]
    cases hw : lastWriteOf h t i with
    | some r => exact .written hw
    | none =>
      show Reads g h i t (w.get (parentsOf w.skel tx.context) i)
      by_cases h0 : t = 0
      · subst h0
        obtain ⟨r, hr, hrc⟩ := hI.root
        rw [ht] at hr; cases hr
        rw [hrc]
        have : w.get (parentsOf w.skel none) i = g.get i := by rw [← hg]; rfl
        rw [this]
        exact .stored hw
      · obtain ⟨c, p, chain, st, h1, h2, h3, h4, h5⟩ := hI.tx t tx ht h0
        obtain ⟨p', ptx, h6, h7, h8, h9⟩ := hI.ctx c _ _ h2
        have hp : p = p' := by have := congrArg List.head? h8; simpa using this
        subst hp
        refine .inherited hw h3 ?_
        have : parentsOf w.skel tx.context = p :: parentsOf w.skel ptx.context := by
          rw [h1, ← h8]; simp [parentsOf, h2]
        rw [this]
        exact ih p h4 ptx h7

theorem Reads.det {i : σ.K} {t : Nat} {r r' : Option σ.T} (hI : parentTx h 0 = none) (h1 : Reads g h i t r)
    (h2 : Reads g h i t r') : r = r' := by
  induction h1 with
  | written hw =>
    cases h2 with
    | written hw' => rw [hw] at hw'; cases hw'; rfl
    | inherited hw' _ _ => rw [hw] at hw'; cases hw'
    | stored hw' => rw [hw] at hw'; cases hw'
  | inherited hw hp _ ih =>
    cases h2 with
    | written hw' => rw [hw] at hw'; cases hw'
    | inherited _ hp' hr => rw [hp] at hp'; cases hp'; exact ih hr
    | stored _ => rw [hI] at hp; cases hp
  | stored hw =>
    cases h2 with
    | written hw' => rw [hw] at hw'; cases hw'
    | inherited _ hp' _ => rw [hI] at hp'; cases hp'
    | stored _ => rfl

theorem contains_get (w : World σ) (i : σ.K) : ∀ chain, w.contains chain i = (w.get chain i).isSome
  | [] => rfl
  | t :: chain => by
    simp only [World.contains, World.get]
    cases (w.log t).reverse.find? (fun op => op.id == i) with
    | none => exact contains_get w i chain
    | some op => cases op <;> rfl

/-! ## Targets -/

structure TargetInv (h : List (Call σ)) (w : World σ) : Prop where
  count : targetsSet h = w.cells.length
  ctx : ∀ c x, w.ctxs[c]? = some x → x.target = targetOf h c
  noCtx : ∀ c, w.ctxs.length ≤ c → targetOf h c = none
  bound : ∀ c p, targetOf h c = some p → p < w.cells.length
  handle : ∀ k p, w.handles[k]? = some p → p = handleOf h k
  boundHandle : ∀ k p, handleOf h k = some p → p < w.cells.length
  noHandle : ∀ k, w.handles.length ≤ k → handleOf h k = none
  guards : w.guards = targetsInUse h
  cell : ∀ p l, w.cells[p]? = some l → targetVal h p = if l.poisoned then none else some l.val

theorem TargetInv.congr {h' : List (Call σ)} {w w' : World σ} (hI : TargetInv h w) (h0 : targetsInUse h' = targetsInUse h)
    (hg : w'.guards = w.guards) (h1 : targetsSet h' = targetsSet h)
    (h2 : ∀ c, targetOf h' c = targetOf h c) (h3 : ∀ k, handleOf h' k = handleOf h k)
    (h4 : ∀ p, targetVal h' p = targetVal h p) (hc : w'.cells = w.cells) (hh : w'.handles = w.handles)
    (hx : w'.ctxs.map (·.target) = w.ctxs.map (·.target)) : TargetInv h' w' where
  count := by rw [h1, hc]; exact hI.count
  guards := by rw [h0, hg]; exact hI.guards
  ctx := by
    intro c x hcx
    have : (w'.ctxs.map (·.target))[c]? = some x.target := by rw [List.getElem?_map, hcx]; rfl
    rw [hx, List.getElem?_map] at this
    obtain ⟨y, hy, he⟩ := Option.map_eq_some_iff.1 this
    rw [h2, ← he]; exact hI.ctx c y hy
  noCtx := by
    intro c hlen
    have : w'.ctxs.length = w.ctxs.length := by have := congrArg List.length hx; simpa using this
    rw [h2]; exact hI.noCtx c (by omega)
  bound := by intro c p; rw [h2, hc]; exact hI.bound c p
  handle := by intro k p; rw [hh, h3]; exact hI.handle k p
  boundHandle := by intro k p; rw [h3, hc]; exact hI.boundHandle k p
  noHandle := by intro k; rw [hh, h3]; exact hI.noHandle k
  cell := by intro p l; rw [hc, h4]; exact hI.cell p l

theorem targetInv_step {w w' : World σ} {x : Call σ} {a : Answer σ.T} (hI : TargetInv h w) (hs : w.step x = some (a, w'))
    (ha : a ≠ .stuck) : TargetInv (x :: h) w' := by
  cases x with
  | context t c =>
    simp only [World.step] at hs
    split at hs
    · rename_i tx ht
      split at hs
      · rename_i hc
        cases hs
        constructor
        · exact hI.count
        · intro c' x hx
          show x.target = targetOf h c'
          by_cases hlt : c' < w.ctxs.length
          · rw [List.getElem?_append_left hlt] at hx; exact hI.ctx c' x hx
          · have hlen := (List.getElem?_eq_some_iff.1 hx).1
            simp at hlen
            have : c' = w.ctxs.length := by omega
            subst this
            simp at hx; subst hx
            exact (hI.noCtx _ (Nat.le_refl _)).symm
        · intro c' hlen
          simp at hlen
          exact hI.noCtx c' (by omega)
        · exact hI.bound
        · exact hI.handle
        · exact hI.boundHandle
        · exact hI.noHandle
        · exact hI.guards
        · exact hI.cell
      · cases hs
    · cases hs
  | transaction c t =>
    simp only [World.step] at hs
    split at hs
    · split at hs
      · cases hs; exact hI.congr rfl rfl rfl (fun _ => rfl) (fun _ => rfl) (fun _ => rfl) rfl rfl rfl
      · cases hs
    · cases hs
  | save c n =>
    simp only [World.step] at hs
    split at hs
    · cases hs; exact hI.congr rfl rfl rfl (fun _ => rfl) (fun _ => rfl) (fun _ => rfl) rfl rfl rfl
    · cases hs
  | delete c j =>
    simp only [World.step] at hs
    split at hs
    · cases hs; exact hI.congr rfl rfl rfl (fun _ => rfl) (fun _ => rfl) (fun _ => rfl) rfl rfl rfl
    · cases hs
  | get c i =>
    simp only [World.step] at hs
    obtain ⟨y, hy, he⟩ := Option.map_eq_some_iff.1 hs
    cases he
    exact hI.congr rfl rfl rfl (fun _ => rfl) (fun _ => rfl) (fun _ => rfl) rfl rfl rfl
  | contains c i =>
    simp only [World.step] at hs
    obtain ⟨y, hy, he⟩ := Option.map_eq_some_iff.1 hs
    cases he
    exact hI.congr rfl rfl rfl (fun _ => rfl) (fun _ => rfl) (fun _ => rfl) rfl rfl rfl
  | withTarget c n =>
    simp only [World.step] at hs
    split at hs
    · rename_i y hy
      have hlt : c < w.ctxs.length := (List.getElem?_eq_some_iff.1 (ctx_some hy).1).1
      cases hs
      constructor
      · simp [targetsSet, hI.count]
      · intro c' x hx
        simp only [targetOf]
        by_cases hc : c = c'
        · subst hc
          rw [getElem?_modify_self] at hx
          obtain ⟨z, hz, rfl⟩ := Option.map_eq_some_iff.1 hx
          simp [hI.count]
        · rw [getElem?_modify_ne _ _ hc] at hx
          rw [if_neg hc]; exact hI.ctx c' x hx
      · intro c' hlen
        simp at hlen
        simp only [targetOf]
        rw [if_neg (by omega)]; exact hI.noCtx c' hlen
      · intro c' p hp
        simp only [targetOf] at hp
        simp only [List.length_append, List.length_singleton]
        split at hp
        · cases hp; rw [hI.count]; omega
        · have := hI.bound c' p hp; omega
      · exact hI.handle
      · intro k p hp
        have := hI.boundHandle k p hp
        simp only [List.length_append, List.length_singleton]; omega
      · exact hI.noHandle
      · exact hI.guards
      · intro p l hp
        simp only [targetVal]
        by_cases hlt : p < w.cells.length
        · rw [List.getElem?_append_left hlt] at hp
          rw [if_neg (by rw [hI.count]; omega)]; exact hI.cell p l hp
        · have hlen := (List.getElem?_eq_some_iff.1 hp).1
          simp at hlen
          have : p = w.cells.length := by omega
          subst this
          simp at hp; subst hp
          simp [hI.count]
    · cases hs
  | handle c k =>
    simp only [World.step] at hs
    split at hs
    · rename_i y hy
      split at hs
      · rename_i hk
        cases hs
        constructor
        · exact hI.count
        · exact hI.ctx
        · exact hI.noCtx
        · exact hI.bound
        · intro k' p hp
          simp only [handleOf]
          by_cases hlt : k' < w.handles.length
          · rw [List.getElem?_append_left hlt] at hp
            rw [if_neg (by omega)]; exact hI.handle k' p hp
          · have hlen := (List.getElem?_eq_some_iff.1 hp).1
            simp at hlen
            have : k' = w.handles.length := by omega
            subst this
            simp at hp; subst hp
            rw [if_pos hk]
            exact hI.ctx c y (ctx_some hy).1
        · intro k' p hp
          simp only [handleOf] at hp
          split at hp
          · exact hI.bound c p hp
          · exact hI.boundHandle k' p hp
        · intro k' hlen
          simp at hlen
          simp only [handleOf]
          rw [if_neg (by omega)]; exact hI.noHandle k' (by omega)
        · exact hI.guards
        · exact hI.cell
      · cases hs
    · cases hs
  | cloneHandle k0 k =>
    simp only [World.step] at hs
    split at hs
    · rename_i cell hcell
      split at hs
      · rename_i hk
        cases hs
        constructor
        · exact hI.count
        · exact hI.ctx
        · exact hI.noCtx
        · exact hI.bound
        · intro k' p hp
          simp only [handleOf]
          by_cases hlt : k' < w.handles.length
          · rw [List.getElem?_append_left hlt] at hp
            rw [if_neg (by omega)]; exact hI.handle k' p hp
          · have hlen := (List.getElem?_eq_some_iff.1 hp).1
            simp at hlen
            have : k' = w.handles.length := by omega
            subst this
            simp at hp; subst hp
            rw [if_pos hk]
            exact hI.handle k0 cell hcell
        · intro k' p hp
          simp only [handleOf] at hp
          split at hp
          · exact hI.boundHandle k0 p hp
          · exact hI.boundHandle k' p hp
        · intro k' hlen
          simp at hlen
          simp only [handleOf]
          rw [if_neg (by omega)]; exact hI.noHandle k' (by omega)
        · exact hI.guards
        · exact hI.cell
      · cases hs
    · cases hs
  | readTarget k =>
    simp only [World.step] at hs
    split at hs
    · cases hs; exact hI.congr rfl rfl rfl (fun _ => rfl) (fun _ => rfl) (fun _ => rfl) rfl rfl rfl
    · split at hs
      · split at hs
        · cases hs; exact absurd rfl ha
        · cases hs; exact hI.congr rfl rfl rfl (fun _ => rfl) (fun _ => rfl) (fun _ => rfl) rfl rfl rfl
      · cases hs
    · cases hs
  | enter k excl =>
    simp only [World.step] at hs
    split at hs
    · rename_i hk
      cases hs
      refine hI.congr ?_ rfl rfl (fun _ => rfl) (fun _ => rfl) (fun _ => rfl) rfl rfl rfl
      simp [targetsInUse, ← hI.handle k _ hk]
    · rename_i p hk
      have hh := hI.handle k _ hk
      split at hs
      · rename_i l hp
        have hv := hI.cell p l hp
        split at hs
        · cases hs; exact absurd rfl ha
        · split at hs
          · rename_i hpo
            cases hs
            refine hI.congr ?_ rfl rfl (fun _ => rfl) (fun _ => rfl) (fun _ => rfl) rfl rfl rfl
            simp [targetsInUse, ← hh, hv, hpo]
          · rename_i hpo
            cases hs
            constructor
            · exact hI.count
            · exact hI.ctx
            · exact hI.noCtx
            · exact hI.bound
            · exact hI.handle
            · exact hI.boundHandle
            · exact hI.noHandle
            · simp [targetsInUse, ← hh, hv, hpo, hI.guards]
            · exact hI.cell
      · cases hs
    · cases hs
  | assign j n =>
    simp only [World.step] at hs
    split at hs
    · rename_i p hj
      rw [hI.guards] at hj
      cases hs
      constructor
      · simp [targetsSet, hI.count]
      · exact hI.ctx
      · exact hI.noCtx
      · intro c q hq; simpa using hI.bound c q hq
      · exact hI.handle
      · intro k' q hq; simpa using hI.boundHandle k' q hq
      · exact hI.noHandle
      · exact hI.guards
      · intro q l' hq
        simp only [targetVal, hj, Option.some.injEq, Prod.mk.injEq, and_true]
        by_cases he : p = q
        · subst he
          rw [getElem?_modify_self] at hq
          obtain ⟨l, hl, he⟩ := Option.map_eq_some_iff.1 hq
          subst he
          rw [if_pos rfl, hI.cell p l hl]
          by_cases hpo : l.poisoned = true <;> simp [hpo]
        · rw [getElem?_modify_ne _ _ he] at hq
          rw [if_neg he]; exact hI.cell q l' hq
    · cases hs
  | touch j f =>
    simp only [World.step] at hs
    split at hs
    · rename_i p e hj
      rw [hI.guards] at hj
      cases hs
      constructor
      · simp [targetsSet, hI.count]
      · exact hI.ctx
      · exact hI.noCtx
      · intro c q hq; simpa using hI.bound c q hq
      · exact hI.handle
      · intro k' q hq; simpa using hI.boundHandle k' q hq
      · exact hI.noHandle
      · exact hI.guards
      · intro q l' hq
        simp only [targetVal, hj, Option.map_some, Option.some.injEq]
        by_cases he : p = q
        · subst he
          rw [getElem?_modify_self] at hq
          obtain ⟨l, hl, he⟩ := Option.map_eq_some_iff.1 hq
          subst he
          rw [if_pos rfl, hI.cell p l hl]
          by_cases hpo : l.poisoned = true <;> simp [hpo]
        · rw [getElem?_modify_ne _ _ he] at hq
          rw [if_neg he]; exact hI.cell q l' hq
    · cases hs
  | leave j panicked =>
    simp only [World.step] at hs
    split at hs
    · rename_i p excl hgs
      rw [hI.guards] at hgs
      cases hs
      have hlen : (if (panicked && excl) = true then w.cells.modify p fun l => { l with poisoned := true } else w.cells).length =
          w.cells.length := by split <;> simp
      constructor
      · show targetsSet h = _; rw [hlen]; exact hI.count
      · exact hI.ctx
      · exact hI.noCtx
      · intro c q hq; show q < _; rw [hlen]; exact hI.bound c q hq
      · exact hI.handle
      · intro k' q hq; show q < _; rw [hlen]; exact hI.boundHandle k' q hq
      · exact hI.noHandle
      · simp [targetsInUse, hI.guards]
      · intro q l' hq
        dsimp only at hq
        cases panicked with
        | false => exact hI.cell q l' hq
        | true =>
          simp only [targetVal, hgs, Option.some.injEq, Prod.mk.injEq]
          cases excl with
          | false => simpa using hI.cell q l' hq
          | true =>
            simp only [Bool.and_self, if_true] at hq
            by_cases he : p = q
            · subst he
              rw [getElem?_modify_self] at hq
              obtain ⟨l, hl, he⟩ := Option.map_eq_some_iff.1 hq
              subst he
              simp
            · rw [getElem?_modify_ne _ _ he] at hq
              rw [if_neg (by simp [he])]; exact hI.cell q l' hq
    · cases hs
  | writeTarget k f =>
    simp only [World.step] at hs
    split at hs
    · rename_i hk
      cases hs
      refine hI.congr rfl rfl rfl (fun _ => rfl) (fun _ => rfl) (fun p => ?_) rfl rfl rfl
      simp [targetVal, ← hI.handle k _ hk]
    · rename_i p hk
      have hh := hI.handle k _ hk
      split at hs
      · rename_i l hp
        have hv := hI.cell p l hp
        split at hs
        · cases hs; exact absurd rfl ha
        split at hs
        · rename_i hpo
          cases hs
          refine hI.congr rfl rfl rfl (fun _ => rfl) (fun _ => rfl) (fun q => ?_) rfl rfl rfl
          simp only [targetVal, ← hh, Option.some.injEq]
          split
          · rename_i he; subst he
            rw [hv, if_pos hpo]
          · rfl
        · rename_i hpo
          rw [if_neg hpo] at hv
          have key : ∀ (n : σ.T) (b : Bool), f l.val = (n, b) → TargetInv (.writeTarget k f :: h) { w with cells := w.cells.set p ⟨n, b⟩ } := by
            intro n b hf
            constructor
            · simp [targetsSet, hI.count]
            · exact hI.ctx
            · exact hI.noCtx
            · intro c q hq; simpa using hI.bound c q hq
            · exact hI.handle
            · intro k' q hq; simpa using hI.boundHandle k' q hq
            · exact hI.noHandle
            · exact hI.guards
            · intro q l' hq
              simp only [targetVal, ← hh, Option.some.injEq]
              by_cases he : p = q
              · subst he
                rw [if_pos rfl, hv]
                rw [List.getElem?_set_self (List.getElem?_eq_some_iff.1 hp).1] at hq
                cases hq
                simp only [hf]
              · rw [if_neg he]
                rw [List.getElem?_set_ne he] at hq
                exact hI.cell q l' hq
          split at hs
          · rename_i n hf; cases hs; exact key n false hf
          · rename_i n hf; cases hs; exact key n true hf
      · cases hs
    · cases hs
  | dropCtx c =>
    simp only [World.step] at hs
    split at hs
    · split at hs
      · cases hs
        refine hI.congr rfl rfl rfl (fun _ => rfl) (fun _ => rfl) (fun _ => rfl) rfl rfl ?_
        exact (map_modify (fun x : CtxVal => x.target) (fun x => { x with status := .dropped }) (fun x => x) (fun _ => rfl) _ _).trans
          (modify_same (fun x => x) (fun _ => rfl) _ _)
      · cases hs
    · cases hs
  | forgetCtx c =>
    simp only [World.step] at hs
    split at hs
    · split at hs
      · cases hs
        refine hI.congr rfl rfl rfl (fun _ => rfl) (fun _ => rfl) (fun _ => rfl) rfl rfl ?_
        exact (map_modify (fun x : CtxVal => x.target) (fun x => { x with status := .forgotten }) (fun x => x) (fun _ => rfl) _ _).trans
          (modify_same (fun x => x) (fun _ => rfl) _ _)
      · cases hs
    · cases hs
  | commit t =>
    simp only [World.step] at hs
    split at hs
    · split at hs
      · split at hs
        · split at hs <;> cases hs <;> exact hI.congr rfl rfl rfl (fun _ => rfl) (fun _ => rfl) (fun _ => rfl) rfl rfl rfl
        · cases hs; exact hI.congr rfl rfl rfl (fun _ => rfl) (fun _ => rfl) (fun _ => rfl) rfl rfl rfl
      · cases hs
    · cases hs
  | abandon t =>
    simp only [World.step] at hs
    split at hs
    · split at hs
      · cases hs; exact hI.congr rfl rfl rfl (fun _ => rfl) (fun _ => rfl) (fun _ => rfl) rfl rfl rfl
      · cases hs
    · cases hs

theorem Legal.targets {w : World σ} (hl : Legal g h w) : TargetInv h w := by
  induction hl with
  | start => constructor <;> simp [World.start, targetsSet, targetOf, handleOf, targetsInUse]
  | call _ hs ha ih => exact targetInv_step ih hs ha

/-! ## Which calls are possible -/

/-- What decides about it. -/
structure Shape where
  txs : List (Option Nat × Bool)
  ctxs : List CtxEnd
  handles : Nat

def World.shape (w : World σ) : Shape := ⟨w.txs.map fun x => (x.context, x.live), w.ctxs.map (·.status), w.handles.length⟩

def Shape.step (s : Shape) : Call σ → Shape
  | .context _ _ => { s with ctxs := s.ctxs ++ [.live] }
  | .transaction c _ => { s with txs := s.txs ++ [(some c, true)] }
  | .handle _ _ => { s with handles := s.handles + 1 }
  | .cloneHandle _ _ => { s with handles := s.handles + 1 }
  | .dropCtx c => { s with ctxs := s.ctxs.modify c fun _ => .dropped }
  | .forgetCtx c => { s with ctxs := s.ctxs.modify c fun _ => .forgotten }
  | .commit t => { s with txs := s.txs.modify t fun x => (x.1, false) }
  | .abandon t => { s with txs := s.txs.modify t fun x => (x.1, false) }
  | _ => s

theorem shape_log (txs : List (TxVal σ.K σ.T)) (t : Nat) (ops : List (Operation σ.K σ.T)) :
    (txs.modify t fun tx => { tx with log := tx.log ++ ops }).map (fun x : TxVal σ.K σ.T => (x.context, x.live)) =
      txs.map fun x => (x.context, x.live) := by
  rw [map_modify (fun x : TxVal σ.K σ.T => (x.context, x.live)) (fun tx : TxVal σ.K σ.T => { tx with log := tx.log ++ ops }) (fun x => x) (fun _ => rfl),
    modify_same (fun x => x) (fun _ => rfl)]

theorem shape_owners (txs : List (TxVal σ.K σ.T)) (t : Nat) (u : Nat → Nat) :
    (txs.modify t fun tx => { tx with owners := u tx.owners }).map (fun x : TxVal σ.K σ.T => (x.context, x.live)) =
      txs.map fun x => (x.context, x.live) := by
  rw [map_modify (fun x : TxVal σ.K σ.T => (x.context, x.live)) (fun tx : TxVal σ.K σ.T => { tx with owners := u tx.owners }) (fun x => x) (fun _ => rfl),
    modify_same (fun x => x) (fun _ => rfl)]

theorem shape_live (txs : List (TxVal σ.K σ.T)) (t : Nat) :
    (txs.modify t fun tx => { tx with live := false }).map (fun x : TxVal σ.K σ.T => (x.context, x.live)) =
      (txs.map fun x => (x.context, x.live)).modify t fun x => (x.1, false) :=
  map_modify (fun x : TxVal σ.K σ.T => (x.context, x.live)) (fun tx : TxVal σ.K σ.T => { tx with live := false }) (fun x => (x.1, false)) (fun _ => rfl) _ _

theorem shape_status (ctxs : List CtxVal) (c : Nat) (st : CtxEnd) :
    (ctxs.modify c fun x => { x with status := st }).map (·.status) = (ctxs.map (·.status)).modify c fun _ => st :=
  map_modify (fun x : CtxVal => x.status) (fun x : CtxVal => { x with status := st }) (fun _ => st) (fun _ => rfl) _ _

theorem shape_target (ctxs : List CtxVal) (c : Nat) (p : Option Nat) :
    (ctxs.modify c fun x => { x with target := p }).map (·.status) = ctxs.map (·.status) := by
  rw [map_modify (fun x : CtxVal => x.status) (fun x : CtxVal => { x with target := p }) (fun x => x) (fun _ => rfl), modify_same (fun x => x) (fun _ => rfl)]

theorem step_shape {w w' : World σ} {x : Call σ} {a : Answer σ.T} (hs : w.step x = some (a, w')) :
    w'.shape = w.shape.step x := by
  cases x <;> simp only [World.step, Option.map_eq_some_iff] at hs
  all_goals repeat' split at hs
  all_goals first
    | (cases hs; done)
    | (obtain ⟨_, _, he⟩ := hs; cases he; rfl)
    | (cases hs; simp [World.shape, Shape.step, World.push, shape_log, shape_live, shape_status, shape_target,
        shape_owners _ _ (fun n => n + 1), shape_owners _ _ (fun n => n - 1)])

structure ShapeInv (h : List (Call σ)) (s : Shape) : Prop where
  nctx : s.ctxs.length = contextsMade h
  ntx : s.txs.length = transactionsMade h
  nh : s.handles = handlesMade h
  held : ∀ c, Held h c ↔ s.ctxs[c]? = some .live
  opn : ∀ t, Open h t ↔ ∃ c, s.txs[t]? = some (c, true)
  frm : ∀ t c b, s.txs[t]? = some (c, b) → c = madeFrom h t

theorem shapeInv_step {w w' : World σ} {x : Call σ} {a : Answer σ.T} (hI : ShapeInv h w.shape) (hs : w.step x = some (a, w')) :
    ShapeInv (x :: h) w'.shape := by
  rw [step_shape hs]
  have name : ∀ {α : Type} (l : List α) (y z : α) (m : Nat), (l ++ [y])[m]? = some z ↔ (m = l.length ∧ y = z) ∨ l[m]? = some z := by
    intro α l y z m
    rw [List.getElem?_append]
    split
    · rename_i hlt
      constructor
      · exact .inr
      · rintro (⟨rfl, _⟩ | h)
        · omega
        · exact h
    · rename_i hlt
      have : l[m]? = none := List.getElem?_eq_none (by omega)
      rw [this]
      by_cases hm : m = l.length
      · subst hm; simp
      · have : m - l.length ≠ 0 := by omega
        cases hk : m - l.length with
        | zero => exact absurd hk this
        | succ k => simp [hm]
  cases x with
  | context t c =>
    have hc : c = w.shape.ctxs.length := by
      simp only [World.step] at hs
      split at hs
      · split at hs
        · rename_i hc; simpa [World.shape] using hc
        · cases hs
      · cases hs
    exact { nctx := by simp [Shape.step, contextsMade, hI.nctx]
            ntx := hI.ntx
            nh := hI.nh
            held := by
              intro d
              simp only [Held, Shape.step, name, hI.held d, ← hc]
              constructor
              · rintro (rfl | h)
                · exact .inl ⟨rfl, trivial⟩
                · exact .inr h
              · rintro (⟨rfl, _⟩ | h)
                · exact .inl rfl
                · exact .inr h
            opn := hI.opn
            frm := hI.frm }
  | transaction c t =>
    have ht : t = w.shape.txs.length := by
      simp only [World.step] at hs
      split at hs
      · split at hs
        · rename_i hc; simpa [World.shape] using hc
        · cases hs
      · cases hs
    exact { nctx := hI.nctx
            ntx := by simp [Shape.step, transactionsMade, hI.ntx]
            nh := hI.nh
            held := hI.held
            opn := by
              intro s
              simp only [Open, Shape.step, name, hI.opn s, ← ht]
              constructor
              · rintro (rfl | ⟨c', h⟩)
                · exact ⟨_, .inl ⟨rfl, rfl⟩⟩
                · exact ⟨_, .inr h⟩
              · rintro ⟨c', (⟨rfl, _⟩ | h)⟩
                · exact .inl rfl
                · exact .inr ⟨_, h⟩
            frm := by
              intro s c' b hsb
              simp only [Shape.step, name, ← ht] at hsb
              simp only [madeFrom]
              rcases hsb with ⟨rfl, he⟩ | hsb
              · cases he; simp
              · have hlt := (List.getElem?_eq_some_iff.1 hsb).1
                rw [if_neg (by omega)]
                exact hI.frm s c' b hsb }
  | handle c k =>
    exact { nctx := hI.nctx, ntx := hI.ntx, nh := by simp [Shape.step, handlesMade, hI.nh], held := hI.held, opn := hI.opn, frm := hI.frm }
  | cloneHandle k k' =>
    exact { nctx := hI.nctx, ntx := hI.ntx, nh := by simp [Shape.step, handlesMade, hI.nh], held := hI.held, opn := hI.opn, frm := hI.frm }
  | dropCtx c =>
    exact { nctx := by simpa [Shape.step, contextsMade] using hI.nctx
            ntx := hI.ntx, nh := hI.nh, opn := hI.opn, frm := hI.frm
            held := by
              intro d
              simp only [Held, Shape.step, hI.held d]
              by_cases hd : c = d
              · subst hd; rw [getElem?_modify_self]; cases w.shape.ctxs[c]? <;> simp
              · rw [getElem?_modify_ne _ _ hd]; simp [hd] }
  | forgetCtx c =>
    exact { nctx := by simpa [Shape.step, contextsMade] using hI.nctx
            ntx := hI.ntx, nh := hI.nh, opn := hI.opn, frm := hI.frm
            held := by
              intro d
              simp only [Held, Shape.step, hI.held d]
              by_cases hd : c = d
              · subst hd; rw [getElem?_modify_self]; cases w.shape.ctxs[c]? <;> simp
              · rw [getElem?_modify_ne _ _ hd]; simp [hd] }
  | commit t =>
    exact { nctx := hI.nctx, nh := hI.nh, held := hI.held
            ntx := by simpa [Shape.step, transactionsMade] using hI.ntx
            opn := by
              intro s
              simp only [Open, Shape.step, hI.opn s]
              by_cases hd : t = s
              · subst hd; rw [getElem?_modify_self]; cases w.shape.txs[t]? <;> simp
              · rw [getElem?_modify_ne _ _ hd]; simp [hd]
            frm := by
              intro s c b hsb
              simp only [Shape.step] at hsb
              by_cases hd : t = s
              · subst hd
                rw [getElem?_modify_self] at hsb
                obtain ⟨⟨c', b'⟩, hy, he⟩ := Option.map_eq_some_iff.1 hsb
                cases he
                exact hI.frm t _ _ hy
              · rw [getElem?_modify_ne _ _ hd] at hsb; exact hI.frm s _ _ hsb }
  | abandon t =>
    exact { nctx := hI.nctx, nh := hI.nh, held := hI.held
            ntx := by simpa [Shape.step, transactionsMade] using hI.ntx
            opn := by
              intro s
              simp only [Open, Shape.step, hI.opn s]
              by_cases hd : t = s
              · subst hd; rw [getElem?_modify_self]; cases w.shape.txs[t]? <;> simp
              · rw [getElem?_modify_ne _ _ hd]; simp [hd]
            frm := by
              intro s c b hsb
              simp only [Shape.step] at hsb
              by_cases hd : t = s
              · subst hd
                rw [getElem?_modify_self] at hsb
                obtain ⟨⟨c', b'⟩, hy, he⟩ := Option.map_eq_some_iff.1 hsb
                cases he
                exact hI.frm t _ _ hy
              · rw [getElem?_modify_ne _ _ hd] at hsb; exact hI.frm s _ _ hsb }
  | _ => exact ⟨hI.nctx, hI.ntx, hI.nh, hI.held, hI.opn, hI.frm⟩

theorem Legal.shape {w : World σ} (hl : Legal g h w) : ShapeInv h w.shape := by
  induction hl with
  | start =>
    refine ⟨rfl, rfl, rfl, ?_, ?_, ?_⟩
    · intro c; simp [Held, World.shape, World.start]
    · intro t; cases t <;> simp [Open, World.shape, World.start]
    · intro t c b; cases t <;> simp [madeFrom, World.shape, World.start]
      rintro rfl _; rfl
  | call _ hs _ ih => exact shapeInv_step ih hs

theorem ctx_held {w : World σ} (hI : ShapeInv h w.shape) (c : Nat) : Held h c ↔ ∃ x, w.ctx c = some x := by
  rw [hI.held]
  simp only [World.shape, List.getElem?_map, World.ctx]
  cases w.ctxs[c]? with
  | none => simp
  | some x => by_cases hx : x.status = .live <;> simp [hx]

theorem tx_open {w : World σ} (hI : ShapeInv h w.shape) (t : Nat) : Open h t ↔ ∃ x, w.tx t = some x := by
  rw [hI.opn]
  simp only [World.shape, List.getElem?_map, World.tx]
  cases w.txs[t]? with
  | none => simp
  | some x => by_cases hx : x.live = true <;> simp [hx]

theorem unborrowed_open {w : World σ} (hI : ShapeInv h w.shape) (c : Nat) :
    w.unborrowed c = true ↔ ∀ t, Open h t → madeFrom h t ≠ some c := by
  simp only [World.unborrowed, List.all_eq_true]
  constructor
  · intro hall t ho hf
    obtain ⟨c', ht⟩ := (hI.opn t).1 ho
    have hc := hI.frm t c' true ht
    simp only [World.shape, List.getElem?_map] at ht
    obtain ⟨x, hx, he⟩ := Option.map_eq_some_iff.1 ht
    have := hall x (List.mem_of_getElem? hx)
    have e1 : x.context = c' := (Prod.mk.inj he).1
    have e2 : x.live = true := (Prod.mk.inj he).2
    rw [hf] at hc
    rw [hc] at e1
    simp [e1, e2] at this
  · intro hall x hx
    obtain ⟨t, ht⟩ := List.getElem?_of_mem hx
    have hsh : w.shape.txs[t]? = some (x.context, x.live) := by simp [World.shape, ht]
    by_cases hlv : x.live = true
    · rw [hlv] at hsh
      have := hall t ((hI.opn t).2 ⟨_, hsh⟩)
      rw [← hI.frm t _ _ hsh] at this
      simp [this]
    · simp [hlv]

theorem unused_held {w : World σ} (hI : ShapeInv h w.shape) (hC : CtxInv g h w.graph w.txs w.skel) (t : Nat) :
    w.unused t = true ↔ ∀ c, Held h c → txOf h c ≠ some t := by
  constructor
  · intro hu c hc he
    obtain ⟨x, hx⟩ := (ctx_held hI c).1 hc
    obtain ⟨_, _, h3⟩ := ctx_some hx
    obtain ⟨s, tx, h4, _, h6, _⟩ := hC.ctx c _ _ h3
    rw [h4] at he; cases he
    exact unused_iff hu _ (List.mem_of_getElem? h3) rfl (by rw [h6]; rfl)
  · intro hall
    simp only [World.unused, List.all_eq_true]
    intro x hx
    obtain ⟨c, hc⟩ := List.getElem?_of_mem hx
    by_cases hst : x.status = .live
    · have hcx : w.ctx c = some x := by simp [World.ctx, hc, hst]
      obtain ⟨_, _, h3⟩ := ctx_some hcx
      obtain ⟨s, tx, h4, _, h6, _⟩ := hC.ctx c _ _ h3
      have := hall c ((ctx_held hI c).2 ⟨x, hcx⟩)
      rw [h4] at this
      have hne : s ≠ t := fun h => this (by rw [h])
      simp [h6, hne]
    · simp [hst]

/-! ## Independence -/

theorem txOf_without (t : Nat) (h : List (Call σ)) (c : Nat) : txOf (withoutWrites t h) c = txOf h c := by
  induction h with
  | nil => rfl
  | cons x h ih =>
    cases x <;> simp only [withoutWrites, txOf, ih]
    all_goals split <;> simp only [txOf, ih]

theorem parentTx_without (t : Nat) (h : List (Call σ)) (s : Nat) : parentTx (withoutWrites t h) s = parentTx h s := by
  induction h with
  | nil => rfl
  | cons x h ih =>
    cases x <;> simp only [withoutWrites, parentTx, ih, txOf_without]
    all_goals split <;> simp only [parentTx, ih]

theorem Leaked_without (t : Nat) (h : List (Call σ)) (s : Nat) : Leaked (withoutWrites t h) s ↔ Leaked h s := by
  induction h with
  | nil => exact Iff.rfl
  | cons x h ih =>
    cases x <;> simp only [withoutWrites, Leaked, ih, txOf_without]
    all_goals split <;> simp only [Leaked, ih]

theorem Held_without (t : Nat) (h : List (Call σ)) (c : Nat) : Held (withoutWrites t h) c ↔ Held h c := by
  induction h with
  | nil => exact Iff.rfl
  | cons x h ih =>
    cases x <;> simp only [withoutWrites, Held, ih]
    all_goals split <;> simp only [Held, ih]

theorem Open_without (t : Nat) (h : List (Call σ)) (s : Nat) : Open (withoutWrites t h) s ↔ Open h s := by
  induction h with
  | nil => exact Iff.rfl
  | cons x h ih =>
    cases x <;> simp only [withoutWrites, Open, ih]
    all_goals split <;> simp only [Open, ih]

theorem made_without (t : Nat) (h : List (Call σ)) :
    contextsMade (withoutWrites t h) = contextsMade h ∧ transactionsMade (withoutWrites t h) = transactionsMade h ∧
    handlesMade (withoutWrites t h) = handlesMade h ∧ ∀ s, madeFrom (withoutWrites t h) s = madeFrom h s := by
  induction h with
  | nil => exact ⟨rfl, rfl, rfl, fun _ => rfl⟩
  | cons x h ih =>
    obtain ⟨h1, h2, h3, h4⟩ := ih
    cases x <;> simp only [withoutWrites, contextsMade, transactionsMade, handlesMade, madeFrom, h1, h2, h3, h4, and_self,
      implies_true]
    all_goals split <;> simp only [contextsMade, transactionsMade, handlesMade, madeFrom, h1, h2, h3, h4, and_self, implies_true]

theorem targets_without (t : Nat) (h : List (Call σ)) :
    targetsSet (withoutWrites t h) = targetsSet h ∧ (∀ c, targetOf (withoutWrites t h) c = targetOf h c) ∧
    (∀ k, handleOf (withoutWrites t h) k = handleOf h k) ∧ (∀ x, targetVal (withoutWrites t h) x = targetVal h x) ∧
    targetsInUse (withoutWrites t h) = targetsInUse h := by
  induction h with
  | nil => exact ⟨rfl, fun _ => rfl, fun _ => rfl, fun _ => rfl, rfl⟩
  | cons x h ih =>
    obtain ⟨h1, h2, h3, h4, h5⟩ := ih
    cases x with
    | save c n =>
      simp only [withoutWrites]
      split
      · exact ⟨h1, h2, h3, h4, h5⟩
      · exact ⟨h1, h2, h3, h4, h5⟩
    | delete c n =>
      simp only [withoutWrites]
      split
      · exact ⟨h1, h2, h3, h4, h5⟩
      · exact ⟨h1, h2, h3, h4, h5⟩
    | leave j b =>
      cases b <;> simp only [withoutWrites, targetsSet, targetOf, handleOf, targetVal, targetsInUse, h1, h2, h3, h4, h5, and_self,
        implies_true]
    | _ =>
      simp only [withoutWrites, targetsSet, targetOf, handleOf, targetVal, targetsInUse, h1, h2, h3, h4, h5, and_self, implies_true]

theorem Possible_without (t : Nat) (h : List (Call σ)) (x : Call σ) : Possible (withoutWrites t h) x ↔ Possible h x := by
  obtain ⟨h1, h2, h3, h4⟩ := made_without t h
  have h5 := (targets_without t h).2.2.2.2
  cases x <;> simp only [Possible, Held_without, Open_without, txOf_without, h1, h2, h3, h4, h5]

theorem reads_save_independent (c : Nat) (n : σ.T) (t s : Nat) (hc : txOf h c = some t) (hs : ¬ Inside h t s) (i : σ.K)
    (r : Option σ.T) : Reads g (.save c n :: h) i s r ↔ Reads g h i s r := by
  have hw : ∀ s, ¬ Inside h t s → lastWriteOf (.save c n :: h) s i = lastWriteOf h s i := by
    intro s hs
    have : t ≠ s := by rintro rfl; exact hs .self
    simp [lastWriteOf, hc, this]
  constructor
  · intro hr
    induction hr with
    | written h1 => exact .written (by rw [← hw _ hs]; exact h1)
    | inherited h1 h2 _ ih => exact .inherited (by rw [← hw _ hs]; exact h1) h2 (ih fun h => hs (.made h2 h))
    | stored h1 => exact .stored (by rw [← hw _ hs]; exact h1)
  · intro hr
    induction hr with
    | written h1 => exact .written (by rw [hw _ hs]; exact h1)
    | inherited h1 h2 _ ih => exact .inherited (by rw [hw _ hs]; exact h1) h2 (ih fun h => hs (.made h2 h))
    | stored h1 => exact .stored (by rw [hw _ hs]; exact h1)

theorem reads_delete_independent (c : Nat) (j : σ.K) (t s : Nat) (hc : txOf h c = some t) (hs : ¬ Inside h t s) (i : σ.K)
    (r : Option σ.T) : Reads g (.delete c j :: h) i s r ↔ Reads g h i s r := by
  have hw : ∀ s, ¬ Inside h t s → lastWriteOf (.delete c j :: h) s i = lastWriteOf h s i := by
    intro s hs
    have : t ≠ s := by rintro rfl; exact hs .self
    simp [lastWriteOf, hc, this]
  constructor
  · intro hr
    induction hr with
    | written h1 => exact .written (by rw [← hw _ hs]; exact h1)
    | inherited h1 h2 _ ih => exact .inherited (by rw [← hw _ hs]; exact h1) h2 (ih fun h => hs (.made h2 h))
    | stored h1 => exact .stored (by rw [← hw _ hs]; exact h1)
  · intro hr
    induction hr with
    | written h1 => exact .written (by rw [hw _ hs]; exact h1)
    | inherited h1 h2 _ ih => exact .inherited (by rw [hw _ hs]; exact h1) h2 (ih fun h => hs (.made h2 h))
    | stored h1 => exact .stored (by rw [hw _ hs]; exact h1)

theorem reads_no_trace (t : Nat) (ht : ¬ Committed h t) (s : Nat) (hs : ¬ Inside h t s) (i : σ.K) (r : Option σ.T) :
    Reads g h i s r ↔ Reads g (withoutWrites t h) i s r := by
  have hw : ∀ (h : List (Call σ)), ¬ Committed h t → ∀ s, s ≠ t → lastWriteOf (withoutWrites t h) s i = lastWriteOf h s i := by
    intro h
    induction h with
    | nil => intros; rfl
    | cons x h ih =>
      intro hc s hs
      cases x with
      | save c n =>
        simp only [withoutWrites]
        by_cases he : txOf h c = some t
        · rw [if_pos he, ih hc s hs]; simp [lastWriteOf, he, Ne.symm hs]
        · rw [if_neg he]; simp only [lastWriteOf, txOf_without, ih hc s hs]
      | delete c j =>
        simp only [withoutWrites]
        by_cases he : txOf h c = some t
        · rw [if_pos he, ih hc s hs]; simp [lastWriteOf, he, Ne.symm hs]
        · rw [if_neg he]; simp only [lastWriteOf, txOf_without, ih hc s hs]
      | commit u =>
        have hc' : ¬ Committed h t := fun h => hc (.inr h)
        simp only [withoutWrites, lastWriteOf]
        rw [ih hc' s hs]
        have hcond : (parentTx (withoutWrites t h) u = some s ∧ ¬ Leaked (withoutWrites t h) u) ↔
            (parentTx h u = some s ∧ ¬ Leaked h u) := by rw [parentTx_without, Leaked_without]
        by_cases hp : parentTx h u = some s ∧ ¬ Leaked h u
        · rw [if_pos hp, if_pos (hcond.2 hp), ih hc' u (by rintro rfl; exact hc (.inl ⟨rfl, hp.2⟩))]
        · rw [if_neg hp, if_neg (fun h => hp (hcond.1 h))]
      | _ => exact ih hc s hs
  have key : ∀ s, ¬ Inside h t s → lastWriteOf (withoutWrites t h) s i = lastWriteOf h s i :=
    fun s hs => hw h ht s (by rintro rfl; exact hs .self)
  constructor
  · intro hr
    induction hr with
    | written h1 => exact .written (by rw [key _ hs]; exact h1)
    | inherited h1 h2 _ ih => exact .inherited (by rw [key _ hs]; exact h1) (by rw [parentTx_without]; exact h2) (ih fun h => hs (.made h2 h))
    | stored h1 => exact .stored (by rw [key _ hs]; exact h1)
  · intro hr
    induction hr with
    | written h1 => exact .written (by rw [← key _ hs]; exact h1)
    | inherited h1 h2 _ ih =>
      rw [parentTx_without] at h2
      exact .inherited (by rw [← key _ hs]; exact h1) h2 (ih fun h => hs (.made h2 h))
    | stored h1 => exact .stored (by rw [← key _ hs]; exact h1)


/-! ## Waiting -/

theorem blocked_waits {w : World σ} (hI : TargetInv h w) {k p : Nat} (hk : w.handles[k]? = some (some p)) (e : Bool) :
    w.blocked p e = true ↔ Waits h k e := by
  have hh := hI.handle k _ hk
  simp only [World.blocked, List.any_eq_true, Waits, hI.guards, Bool.and_eq_true, Bool.or_eq_true, beq_iff_eq]
  constructor
  · rintro ⟨⟨x, l⟩, hm, rfl, ho⟩
    exact ⟨x, l, hh.symm, hm, ho⟩
  · rintro ⟨x, l, hx, hm, ho⟩
    rw [← hh] at hx; cases hx
    exact ⟨(p, l), hm, rfl, ho⟩

theorem step_stuck {w w' : World σ} {x : Call σ} {a : Answer σ.T} (hI : TargetInv h w) (hs : w.step x = some (a, w')) :
    a = .stuck ↔ ∃ k e, accessOf x = some (k, e) ∧ Waits h k e := by
  have none : ∀ k e, w.handles[k]? = some none → ¬ Waits h k e := by
    rintro k e hk ⟨x, l, hx, _⟩
    rw [← hI.handle k _ hk] at hx; cases hx
  cases x with
  | readTarget k =>
    simp only [accessOf, Option.some.injEq, Prod.mk.injEq, World.step] at hs ⊢
    split at hs
    · rename_i hk; cases hs
      constructor
      · intro h; cases h
      · rintro ⟨k', e, ⟨rfl, rfl⟩, hw⟩; exact absurd hw (none _ _ hk)
    · rename_i p hk
      split at hs
      · split at hs
        · rename_i hb; cases hs
          exact ⟨fun _ => ⟨k, false, ⟨rfl, rfl⟩, (blocked_waits hI hk _).1 hb⟩, fun _ => rfl⟩
        · rename_i hb; cases hs
          constructor
          · intro h; cases h
          · rintro ⟨k', e, ⟨rfl, rfl⟩, hw⟩; exact absurd ((blocked_waits hI hk _).2 hw) hb
      · cases hs
    · cases hs
  | writeTarget k f =>
    simp only [accessOf, Option.some.injEq, Prod.mk.injEq, World.step] at hs ⊢
    split at hs
    · rename_i hk; cases hs
      constructor
      · intro h; cases h
      · rintro ⟨k', e, ⟨rfl, rfl⟩, hw⟩; exact absurd hw (none _ _ hk)
    · rename_i p hk
      split at hs
      · split at hs
        · rename_i hb; cases hs
          exact ⟨fun _ => ⟨k, true, ⟨rfl, rfl⟩, (blocked_waits hI hk _).1 hb⟩, fun _ => rfl⟩
        · rename_i hb
          have hno : ¬ ∃ k' e, (k = k' ∧ true = e) ∧ Waits h k' e := by
            rintro ⟨k', e, ⟨rfl, rfl⟩, hw⟩; exact absurd ((blocked_waits hI hk _).2 hw) hb
          refine ⟨fun h => ?_, fun h => absurd h hno⟩
          subst h
          repeat' split at hs
          all_goals cases hs
      · cases hs
    · cases hs
  | enter k excl =>
    simp only [accessOf, Option.some.injEq, Prod.mk.injEq, World.step] at hs ⊢
    split at hs
    · rename_i hk; cases hs
      constructor
      · intro h; cases h
      · rintro ⟨k', e, ⟨rfl, rfl⟩, hw⟩; exact absurd hw (none _ _ hk)
    · rename_i p hk
      split at hs
      · split at hs
        · rename_i hb; cases hs
          exact ⟨fun _ => ⟨k, excl, ⟨rfl, rfl⟩, (blocked_waits hI hk _).1 hb⟩, fun _ => rfl⟩
        · rename_i hb
          have hno : ¬ ∃ k' e, (k = k' ∧ excl = e) ∧ Waits h k' e := by
            rintro ⟨k', e, ⟨rfl, rfl⟩, hw⟩; exact absurd ((blocked_waits hI hk _).2 hw) hb
          refine ⟨fun h => ?_, fun h => absurd h hno⟩
          subst h
          split at hs <;> cases hs
      · cases hs
    · cases hs
  | _ =>
    refine ⟨fun h => ?_, fun ⟨_, _, h, _⟩ => by cases h⟩
    subst h
    simp only [World.step, Option.map_eq_some_iff] at hs
    repeat' split at hs
    all_goals first
      | (cases hs; done)
      | (obtain ⟨_, _, he⟩ := hs; cases he; done)

theorem Waits_without (t : Nat) (h : List (Call σ)) (k : Nat) (e : Bool) : Waits (withoutWrites t h) k e ↔ Waits h k e := by
  obtain ⟨_, _, h3, _, h5⟩ := targets_without t h
  simp only [Waits, h3, h5]

end Plotline
