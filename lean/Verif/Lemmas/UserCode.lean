import Verif.Spec.UserCode
import Verif.Lemmas.Contexts

/-! # Lemmas about user code in calls of the library -/

namespace Plotline

variable {σ : Sig} {U : UserCode σ} {α β : Type}

/-! ## Calls of user code, one after another -/

theorem UserCode.Runs.nil (U : UserCode σ) (n : Nat) : U.Runs n [] [] false := ⟨rfl, fun j h => absurd h (Nat.not_lt_zero j)⟩

theorem UserCode.Runs.one (U : UserCode σ) (n : Nat) (u : UserCall σ) : U.Runs n [u] [u] (U.panics n) := by
  cases h : U.panics n with
  | false =>
    refine ⟨rfl, fun j hj => ?_⟩
    have : j = 0 := by simpa using hj
    subst this; exact h
  | true => exact ⟨0, by simp, rfl, h, fun j hj => absurd hj (Nat.not_lt_zero j)⟩

theorem UserCode.Runs.stop {n : Nat} {us made : List (UserCall σ)} (h : U.Runs n us made true) (vs : List (UserCall σ)) :
    U.Runs n (us ++ vs) made true := by
  obtain ⟨k, hk, hm, hp, hq⟩ := h
  refine ⟨k, by simp; omega, ?_, hp, hq⟩
  rw [hm, List.take_append_of_le_length (by omega)]

theorem UserCode.Runs.go {n : Nat} {us vs made made' : List (UserCall σ)} {b : Bool} (h : U.Runs n us made false)
    (h' : U.Runs (n + made.length) vs made' b) : U.Runs n (us ++ vs) (made ++ made') b := by
  obtain ⟨rfl, hq⟩ := h
  cases b with
  | false =>
    obtain ⟨rfl, hq'⟩ := h'
    refine ⟨rfl, fun j hj => ?_⟩
    by_cases hlt : j < made.length
    · exact hq j hlt
    · have := hq' (j - made.length) (by simp at hj; omega)
      have he : n + made.length + (j - made.length) = n + j := by omega
      rwa [he] at this
  | true =>
    obtain ⟨k, hk, rfl, hp, hq'⟩ := h'
    refine ⟨made.length + k, by simp; omega, ?_, ?_, fun j hj => ?_⟩
    · rw [show made.length + k + 1 = made.length + (k + 1) by omega, List.take_length_add_append]
    · rwa [← Nat.add_assoc]
    · by_cases hlt : j < made.length
      · exact hq j hlt
      · have := hq' (j - made.length) (by omega)
        have he : n + made.length + (j - made.length) = n + j := by omega
        rwa [he] at this

/-! ## Code that only reads -/

/-- The locks of the logs may be taken for reading. -/
def Free (w : World σ) (locks : List LogLock) : Prop := locks.length = w.txs.length ∧ ∀ l ∈ locks, l.writing = false

/-- On `w` the code returns `v` after the calls `us` of user code, and is cut short by the first that panics. -/
def Act.Yields (U : UserCode σ) (w : World σ) (x : Act σ α) (v : α) (us : List (UserCall σ)) : Prop :=
  ∀ locks calls, Free w locks → ∃ made b, U.Runs calls.length us made b ∧
    x ⟨w, locks, calls⟩ = (if b then .panic else .ret v, ⟨w, locks, calls ++ made⟩)

theorem Act.Yields.pure {w : World σ} (v : α) : (Act.pure v : Act σ α).Yields U w v [] :=
  fun _ calls _ => ⟨[], false, .nil U _, by simp [Act.pure]⟩

theorem Act.Yields.ask {w : World σ} (u : UserCall σ) : (Plotline.ask U u).Yields U w () [u] :=
  fun _ calls _ => ⟨[u], U.panics calls.length, .one U _ u, by simp [Plotline.ask]⟩

theorem Act.Yields.andThen {w : World σ} {x : Act σ α} {f : α → Act σ β} {v : α} {v' : β} {us vs : List (UserCall σ)}
    (hx : x.Yields U w v us) (hf : (f v).Yields U w v' vs) : (x.andThen f).Yields U w v' (us ++ vs) := by
  intro locks calls hfree
  obtain ⟨made, b, hr, he⟩ := hx locks calls hfree
  cases b with
  | true => exact ⟨made, true, hr.stop vs, by simp [Act.andThen, he]⟩
  | false =>
    obtain ⟨made', b', hr', he'⟩ := hf locks (calls ++ made) hfree
    refine ⟨made ++ made', b', hr.go (by simpa using hr'), ?_⟩
    simp [Act.andThen, he, he']

theorem Act.Yields.congr {w : World σ} {x y : Act σ α} {v : α} {us : List (UserCall σ)} (hx : x.Yields U w v us)
    (h : ∀ locks calls, y ⟨w, locks, calls⟩ = x ⟨w, locks, calls⟩) : y.Yields U w v us :=
  fun locks calls hfree => by rw [h]; exact hx locks calls hfree

theorem set_modify_back (locks : List LogLock) (t : Nat) (l : LogLock) (h : locks[t]? = some l) :
    (locks.set t { l with readers := l.readers + 1 }).modify t (fun l => { l with readers := l.readers - 1 }) = locks := by
  apply List.ext_getElem?
  intro j
  rw [List.getElem?_modify, List.getElem?_set]
  by_cases hj : t = j
  · subst hj
    have hlt : t < locks.length := by
      rcases Nat.lt_or_ge t locks.length with h' | h'
      · exact h'
      · rw [List.getElem?_eq_none h'] at h; cases h
    rw [List.getElem?_eq_getElem hlt] at h ⊢
    injection h with h
    simp [h, hlt]
  · simp [hj]

theorem Act.Yields.underRead {w : World σ} {x : Act σ α} {v : α} {us : List (UserCall σ)} {t : Nat} (ht : t < w.txs.length)
    (hx : x.Yields U w v us) : (Plotline.underRead t x).Yields U w v us := by
  intro locks calls hfree
  have hlt : t < locks.length := by rw [hfree.1]; exact ht
  have hl : locks[t]? = some locks[t] := List.getElem?_eq_getElem hlt
  have hw : locks[t].writing = false := hfree.2 _ (List.getElem_mem hlt)
  have hfree' : Free w (locks.set t { locks[t] with readers := locks[t].readers + 1 }) := by
    refine ⟨by simp [hfree.1], fun l hm => ?_⟩
    rcases List.mem_or_eq_of_mem_set hm with h | h
    · exact hfree.2 l h
    · rw [h]; exact hw
  obtain ⟨made, b, hr, he⟩ := hx _ calls hfree'
  refine ⟨made, b, hr, ?_⟩
  have hn : ¬ (locks[t].writing = true) := by rw [hw]; simp
  simp only [Plotline.underRead, hl]
  rw [if_neg hn, he, set_modify_back _ _ _ hl]

theorem Act.Yields.times {w : World σ} (u : UserCall σ) : ∀ n, (askTimes U u n).Yields U w () (List.replicate n u)
  | 0 => .pure ()
  | n + 1 => Act.Yields.andThen (vs := List.replicate n u) (.ask u) (Act.Yields.times u n)

theorem Act.Yields.lookFor {w : World σ} (i : σ.K) :
    (Plotline.lookFor U i).Yields U w () (List.replicate (U.visits w.graph i) (.cmp i)) :=
  (Act.Yields.times (.cmp i) _).congr fun _ _ => rfl

theorem Act.Yields.cloned {w : World σ} (n : σ.T) :
    ((Plotline.ask U (.clone n)).andThen fun _ => .pure (some n)).Yields U w (some n) (clonesOf (some n)) :=
  (Act.Yields.ask _).andThen (vs := []) (.pure _)

theorem Act.Yields.findOp {w : World σ} (i : σ.K) : ∀ ops : List (Operation σ.K σ.T),
    (Plotline.findOp U i ops).Yields U w (ops.find? fun op => op.id == i) ((upToFirst i ops).map fun op => .eq op.id i)
  | [] => .pure none
  | op :: ops => by
    unfold Plotline.findOp upToFirst
    cases h : op.id == i with
    | true => simpa [h] using (Act.Yields.ask (U := U) (w := w) (.eq op.id i)).andThen (vs := []) (.pure (some op))
    | false =>
      simpa [h] using (Act.Yields.ask (U := U) (w := w) (.eq op.id i)).andThen (f := fun _ => Plotline.findOp U i ops) (Act.Yields.findOp i ops)

theorem upToFirst_append (i : σ.K) (a b : List (Operation σ.K σ.T)) :
    upToFirst i (a ++ b) = upToFirst i a ++ if a.any (fun op => op.id == i) then [] else upToFirst i b := by
  induction a with
  | nil => simp [upToFirst]
  | cons op a ih =>
    simp only [List.cons_append, upToFirst, List.any_cons, ih]
    by_cases h : (op.id == i) = true <;> simp [h]

/-- The calls of user code of `get` along the logs `chain`. -/
def readCalls (U : UserCode σ) (w : World σ) (i : σ.K) (chain : List Nat) (clones : List (UserCall σ)) : List (UserCall σ) :=
  (upToFirst i (chain.flatMap fun t => (w.log t).reverse)).map (fun op => .eq op.id i) ++
    (if (chain.flatMap fun t => (w.log t).reverse).any (fun op => op.id == i) then []
      else List.replicate (U.visits w.graph i) (.cmp i)) ++ clones

theorem readCalls_nil (w : World σ) (i : σ.K) (clones : List (UserCall σ)) :
    readCalls U w i [] clones = List.replicate (U.visits w.graph i) (.cmp i) ++ clones := by simp [readCalls, upToFirst]

theorem readCalls_none (w : World σ) (i : σ.K) (t : Nat) (ps : List Nat) (clones : List (UserCall σ))
    (h : (w.log t).reverse.find? (fun op => op.id == i) = none) :
    readCalls U w i (t :: ps) clones =
      (upToFirst i (w.log t).reverse).map (fun op => .eq op.id i) ++ readCalls U w i ps clones := by
  have h' : (w.log t).reverse.any (fun op => op.id == i) = false := by
    rw [List.any_eq_false]
    intro op hop
    simpa using List.find?_eq_none.1 h op hop
  simp only [readCalls, List.flatMap_cons, upToFirst_append, h', List.any_append, List.map_append, List.append_assoc,
    Bool.false_eq_true, ↓reduceIte, Bool.false_or]

theorem readCalls_some (w : World σ) (i : σ.K) (t : Nat) (ps : List Nat) (clones : List (UserCall σ)) (op : Operation σ.K σ.T)
    (h : (w.log t).reverse.find? (fun op => op.id == i) = some op) :
    readCalls U w i (t :: ps) clones = (upToFirst i (w.log t).reverse).map (fun op => .eq op.id i) ++ clones := by
  have h' : (w.log t).reverse.any (fun op => op.id == i) = true := by
    rw [List.any_eq_true]
    exact ⟨op, List.mem_of_find?_eq_some h, by simpa using List.find?_some h⟩
  simp only [readCalls, List.flatMap_cons, upToFirst_append, h', List.any_append, List.append_nil,
    ↓reduceIte, Bool.true_or]

theorem yields_graphGet {w : World σ} (i : σ.K) : (rawGraphGet U i).Yields U w (w.graph.get i)
    (List.replicate (U.visits w.graph i) (.cmp i) ++ clonesOf (w.graph.get i)) := by
  refine (Act.Yields.lookFor i).andThen ?_
  cases h : w.graph.get i with
  | none => exact fun _ calls _ => ⟨[], false, .nil U _, by simp [h]⟩
  | some n => exact (Act.Yields.cloned n).congr fun _ _ => by simp [h]

theorem yields_get {w : World σ} (i : σ.K) : ∀ chain : List Nat, (∀ t ∈ chain, t < w.txs.length) →
    (rawGet U i chain).Yields U w (w.get chain i) (readCalls U w i chain (clonesOf (w.get chain i)))
  | [], _ => by
    rw [readCalls_nil]
    exact yields_graphGet i
  | t :: ps, hc => by
    have ih := yields_get i ps fun s hs => hc s (List.mem_cons_of_mem _ hs)
    unfold rawGet
    refine .underRead (hc t (List.mem_cons_self ..)) ?_
    have hf := Act.Yields.findOp (U := U) (w := w) i (w.log t).reverse
    cases h : (w.log t).reverse.find? (fun op => op.id == i) with
    | none =>
      have hv : w.get (t :: ps) i = w.get ps i := by simp [World.get, h]
      rw [hv, readCalls_none _ _ _ _ _ h]
      rw [h] at hf
      exact (hf.andThen ih).congr fun _ _ => rfl
    | some op =>
      rw [readCalls_some _ _ _ _ _ _ h]
      rw [h] at hf
      cases op with
      | save n =>
        have hv : w.get (t :: ps) i = some n := by simp [World.get, h]
        rw [hv]
        exact (hf.andThen (Act.Yields.cloned n)).congr fun _ _ => rfl
      | delete j =>
        have hv : w.get (t :: ps) i = none := by simp [World.get, h]
        rw [hv]
        exact (hf.andThen (vs := []) (Act.Yields.pure none)).congr fun _ _ => rfl

theorem yields_graphContains {w : World σ} (i : σ.K) : (rawGraphContains U i).Yields U w (w.graph.contains i)
    (List.replicate (U.visits w.graph i) (.cmp i) ++ []) :=
  (Act.Yields.lookFor i).andThen fun _ calls _ => ⟨[], false, .nil U _, by simp⟩

theorem yields_contains {w : World σ} (i : σ.K) : ∀ chain : List Nat, (∀ t ∈ chain, t < w.txs.length) →
    (rawContains U i chain).Yields U w (w.contains chain i) (readCalls U w i chain [])
  | [], _ => by
    rw [readCalls_nil]
    exact yields_graphContains i
  | t :: ps, hc => by
    have ih := yields_contains i ps fun s hs => hc s (List.mem_cons_of_mem _ hs)
    unfold rawContains
    refine .underRead (hc t (List.mem_cons_self ..)) ?_
    have hf := Act.Yields.findOp (U := U) (w := w) i (w.log t).reverse
    cases h : (w.log t).reverse.find? (fun op => op.id == i) with
    | none =>
      have hv : w.contains (t :: ps) i = w.contains ps i := by simp [World.contains, h]
      rw [hv, readCalls_none _ _ _ _ _ h]
      rw [h] at hf
      exact (hf.andThen ih).congr fun _ _ => rfl
    | some op =>
      rw [readCalls_some _ _ _ _ _ _ h]
      rw [h] at hf
      cases op with
      | save n =>
        have hv : w.contains (t :: ps) i = true := by simp [World.contains, h]
        rw [hv]
        exact (hf.andThen (vs := []) (Act.Yields.pure true)).congr fun _ _ => rfl
      | delete j =>
        have hv : w.contains (t :: ps) i = false := by simp [World.contains, h]
        rw [hv]
        exact (hf.andThen (vs := []) (Act.Yields.pure false)).congr fun _ _ => rfl

/-! ## Code that writes -/

theorem underWrite_rest (w w' : World σ) (n t : Nat) (calls : List (UserCall σ)) (body : Bool → Act σ Unit) (ht : t < n)
    (hb : ∀ locks, body false ⟨w, locks, calls⟩ = (.ret (), ⟨w', locks, calls⟩)) :
    underWrite t body ⟨w, List.replicate n .fresh, calls⟩ = (.ret (), ⟨w', List.replicate n .fresh, calls⟩) := by
  have hl : (List.replicate n LogLock.fresh)[t]? = some .fresh := by simp [ht]
  have hf : ¬ ((LogLock.fresh.writing || LogLock.fresh.readers != 0) = true) := by decide
  have hp : LogLock.fresh.poisoned = false := rfl
  unfold underWrite
  simp only [hl]
  rw [if_neg hf, hp, hb]
  simp only
  congr 2
  apply List.ext_getElem?
  intro j
  rw [List.getElem?_modify, List.getElem?_set]
  by_cases hj : t = j
  · subst hj; simp [ht, LogLock.fresh]
  · simp [hj]

/-- What the loop of the commit calls. -/
def applyCalls (U : UserCode σ) : Graph σ.K σ.T → List (Operation σ.K σ.T) → List (UserCall σ)
  | _, [] => []
  | g, op :: ops =>
    (match op with
      | .save n => .cloneId (id n) :: List.replicate (U.visits g (id n)) (.cmp (id n))
      | .delete i => List.replicate (U.visits g i) (.cmp i)) ++ applyCalls U (g.applyOp op) ops

theorem idsCloned_append (a b : List (UserCall σ)) : idsCloned (a ++ b) = idsCloned a ++ idsCloned b := by
  induction a with
  | nil => rfl
  | cons u a ih => cases u <;> simp [idsCloned, ih]

theorem idsCloned_cmp (n : Nat) (i : σ.K) : idsCloned (List.replicate n (.cmp i) : List (UserCall σ)) = [] := by
  induction n with
  | zero => rfl
  | succ n ih => simpa [List.replicate_succ, idsCloned] using ih

theorem applyCalls_ids (U : UserCode σ) : ∀ (ops : List (Operation σ.K σ.T)) (g : Graph σ.K σ.T),
    idsCloned (applyCalls U g ops) = idsSaved ops
  | [], _ => rfl
  | .save n :: ops, g => by
    simp [applyCalls, idsCloned_append, idsCloned, idsCloned_cmp, idsSaved, applyCalls_ids U ops]
  | .delete i :: ops, g => by
    simp [applyCalls, idsCloned_append, idsCloned_cmp, idsSaved, applyCalls_ids U ops]

theorem applyCalls_graph (U : UserCode σ) : ∀ (ops : List (Operation σ.K σ.T)) (g : Graph σ.K σ.T),
    ∀ u ∈ applyCalls U g ops, u.ofGraph
  | [], _, u, h => by cases h
  | .save n :: ops, g, u, h => by
    simp only [applyCalls, List.cons_append, List.mem_cons, List.mem_append] at h
    rcases h with h | h | h
    · subst h; trivial
    · rw [(List.mem_replicate.1 h).2]; trivial
    · exact applyCalls_graph U ops _ u h
  | .delete i :: ops, g, u, h => by
    simp only [applyCalls, List.mem_append] at h
    rcases h with h | h
    · rw [(List.mem_replicate.1 h).2]; trivial
    · exact applyCalls_graph U ops _ u h

theorem rawApply_runs : ∀ (ops : List (Operation σ.K σ.T)) (w : World σ) (locks : List LogLock) (calls : List (UserCall σ)),
    Free w locks → ∃ made b, U.Runs calls.length (applyCalls U w.graph ops) made b ∧
      ((b = false ∧ rawApply U ops ⟨w, locks, calls⟩ = (.ret (), ⟨{ w with graph := w.graph.commit ops }, locks, calls ++ made⟩)) ∨
       (b = true ∧ ∃ k, k < ops.length ∧ rawApply U ops ⟨w, locks, calls⟩ =
          (.panic, ⟨{ w with graph := w.graph.commit (ops.take k) }, locks, calls ++ made⟩)))
  | [], w, locks, calls, _ => ⟨[], false, .nil U _, .inl ⟨rfl, by simp [rawApply, Act.pure, Graph.commit]⟩⟩
  | op :: ops, w, locks, calls, hfree => by
    have hfirst : ∃ x : Act σ Unit, x.Yields U w () (match op with
        | .save n => .cloneId (id n) :: List.replicate (U.visits w.graph (id n)) (.cmp (id n))
        | .delete i => List.replicate (U.visits w.graph i) (.cmp i)) ∧
        ∀ r, rawApply U (op :: ops) r = x.andThen (fun _ r =>
          rawApply U ops { r with world := { r.world with graph := r.world.graph.applyOp op } }) r := by
      cases op with
      | save n => exact ⟨_, (Act.Yields.ask (.cloneId (id n))).andThen (.lookFor (id n)), fun r => rfl⟩
      | delete i => exact ⟨_, .lookFor i, fun r => rfl⟩
    obtain ⟨x, hx, he⟩ := hfirst
    obtain ⟨made, b, hr, hy⟩ := hx locks calls hfree
    cases b with
    | true =>
      refine ⟨made, true, hr.stop _, .inr ⟨rfl, 0, by simp, ?_⟩⟩
      rw [he]
      simp [Act.andThen, hy, Graph.commit]
    | false =>
      obtain ⟨made', b', hr', h'⟩ := rawApply_runs ops { w with graph := w.graph.applyOp op } locks (calls ++ made) hfree
      refine ⟨made ++ made', b', hr.go (by simpa using hr'), ?_⟩
      rcases h' with ⟨rfl, h'⟩ | ⟨rfl, k, hk, h'⟩
      · refine .inl ⟨rfl, ?_⟩
        rw [he]
        simp [Act.andThen, hy, h', Graph.commit]
      · refine .inr ⟨rfl, k + 1, by simpa using hk, ?_⟩
        rw [he]
        simp [Act.andThen, hy, h', Graph.commit]

/-! ## One call -/

/-- There are logs, the locks are at rest, and contexts use logs there are. -/
structure RawInv (r : Raw σ) : Prop where
  some : 0 < r.world.txs.length
  rest : r.AtRest
  chain : ∀ x ∈ r.world.ctxs, ∀ t ∈ x.chain, t < r.world.txs.length

theorem RawInv.free {r : Raw σ} (h : RawInv r) : Free r.world r.locks := by
  rw [h.rest]
  exact ⟨by simp, fun l hl => by rw [(List.mem_replicate.1 hl).2]; rfl⟩

theorem rawInv_start (g : Graph σ.K σ.T) : RawInv (Raw.start g) where
  some := by simp [Raw.start, World.start]
  rest := rfl
  chain := by simp [Raw.start, World.start]

theorem RawInv.same {r r' : Raw σ} (h : RawInv r) (h1 : r'.world.txs.length = r.world.txs.length)
    (h2 : ∀ x ∈ r'.world.ctxs, ∃ y ∈ r.world.ctxs, x.chain = y.chain) (h3 : r'.locks = r.locks) : RawInv r' where
  some := by rw [h1]; exact h.some
  rest := by unfold Raw.AtRest; rw [h1, h3]; exact h.rest
  chain x hx t ht := by
    obtain ⟨y, hy, he⟩ := h2 x hx
    rw [h1]; exact h.chain y hy t (he ▸ ht)

theorem ctx_mem {w : World σ} {c : Nat} {x : CtxVal} (h : w.ctx c = some x) : x ∈ w.ctxs := by
  unfold World.ctx at h
  split at h
  · rename_i y hy
    split at h
    · cases h; exact List.mem_of_getElem? hy
    · cases h
  · cases h

theorem tx_at {w : World σ} {t : Nat} {x : TxVal σ.K σ.T} (h : w.tx t = some x) : w.txs[t]? = some x := by
  unfold World.tx at h
  split at h
  · rename_i y hy
    split at h
    · cases h; exact hy
    · cases h
  · cases h

theorem tx_lt {w : World σ} {t : Nat} {x : TxVal σ.K σ.T} (h : w.tx t = some x) : t < w.txs.length := by
  have := tx_at h
  rcases Nat.lt_or_ge t w.txs.length with h' | h'
  · exact h'
  · rw [List.getElem?_eq_none h'] at this; cases this

theorem RawInv.head {r : Raw σ} (h : RawInv r) {x : CtxVal} (hx : x ∈ r.world.ctxs) : x.chain.headD 0 < r.world.txs.length := by
  cases hc : x.chain with
  | nil => exact h.some
  | cons t ts => exact h.chain x hx t (by rw [hc]; exact List.mem_cons_self ..)

theorem RawInv.parents {r : Raw σ} (h : RawInv r) (c : Option Nat) : ∀ t ∈ r.world.parents c, t < r.world.txs.length := by
  intro t ht
  unfold World.parents at ht
  split at ht
  · cases ht
  · split at ht
    · rename_i x hx; exact h.chain x (List.mem_of_getElem? hx) t ht
    · cases ht

theorem RawInv.parent {r : Raw σ} (h : RawInv r) (c : Option Nat) : (r.world.parents c).headD 0 < r.world.txs.length := by
  cases hc : r.world.parents c with
  | nil => exact h.some
  | cons t ts => exact h.parents c t (by rw [hc]; exact List.mem_cons_self ..)

theorem modify_chain {l : List CtxVal} {c : Nat} {u : CtxVal → CtxVal} (hu : ∀ x, (u x).chain = x.chain) :
    ∀ x ∈ l.modify c u, ∃ y ∈ l, x.chain = y.chain := by
  intro x hx
  obtain ⟨j, hj⟩ := List.getElem?_of_mem hx
  rw [List.getElem?_modify] at hj
  cases hl : l[j]? with
  | none => simp [hl] at hj
  | some y =>
    refine ⟨y, List.mem_of_getElem? hl, ?_⟩
    by_cases hcj : c = j <;> simp [hl, hcj] at hj <;> subst hj <;> simp [hu]

theorem worldStep_kept {w w' : World σ} {x : Call σ} {a : Answer σ.T} (h : w.step x = some (a, w'))
    (hx : ∀ c t, x ≠ .transaction c t) :
    w'.txs.length = w.txs.length ∧
      ∀ y ∈ w'.ctxs, (∃ z ∈ w.ctxs, y.chain = z.chain) ∨
        ∃ t tx, w.tx t = some tx ∧ y.chain = t :: w.parents tx.context := by
  have old : ∀ y ∈ w.ctxs, (∃ z ∈ w.ctxs, y.chain = z.chain) ∨
        ∃ t tx, w.tx t = some tx ∧ y.chain = t :: w.parents tx.context := fun y hy => .inl ⟨y, hy, rfl⟩
  cases x with
  | transaction c t => exact absurd rfl (hx c t)
  | context t c =>
    simp only [World.step] at h
    split at h
    · rename_i tx htx
      split at h
      · cases h
        refine ⟨by simp, fun y hy => ?_⟩
        rcases List.mem_append.1 hy with hy | hy
        · exact .inl ⟨y, hy, rfl⟩
        · rw [List.mem_singleton.1 hy]; exact .inr ⟨t, tx, htx, rfl⟩
      · cases h
    · cases h
  | save c n | delete c n =>
    simp only [World.step] at h
    split at h
    · cases h; exact ⟨by simp [World.push], old⟩
    · cases h
  | get c i | contains c i =>
    simp only [World.step] at h
    cases hc : w.ctx c with
    | none => simp [hc] at h
    | some y => simp [hc] at h; obtain ⟨rfl, rfl⟩ := h; exact ⟨rfl, old⟩
  | withTarget c n =>
    simp only [World.step] at h
    split at h
    · cases h; exact ⟨rfl, fun y hy => .inl (by refine modify_chain ?_ y hy; intro; rfl)⟩
    · cases h
  | handle c k | cloneHandle c k =>
    simp only [World.step] at h
    split at h
    · split at h
      · cases h; exact ⟨rfl, old⟩
      · cases h
    · cases h
  | readTarget k =>
    simp only [World.step] at h
    split at h
    · cases h; exact ⟨rfl, old⟩
    · split at h
      · split at h <;> (cases h; exact ⟨rfl, old⟩)
      · cases h
    · cases h
  | writeTarget k f =>
    simp only [World.step] at h
    split at h
    · cases h; exact ⟨rfl, old⟩
    · split at h
      · split at h
        · cases h; exact ⟨rfl, old⟩
        · split at h
          · cases h; exact ⟨rfl, old⟩
          · split at h <;> (cases h; exact ⟨rfl, old⟩)
      · cases h
    · cases h
  | enter k e =>
    simp only [World.step] at h
    split at h
    · cases h; exact ⟨rfl, old⟩
    · split at h
      · split at h
        · cases h; exact ⟨rfl, old⟩
        · split at h <;> (cases h; exact ⟨rfl, old⟩)
      · cases h
    · cases h
  | assign j n =>
    simp only [World.step] at h
    split at h
    · cases h; exact ⟨rfl, old⟩
    · cases h
  | touch j f | leave j p =>
    simp only [World.step] at h
    split at h
    · cases h; exact ⟨rfl, old⟩
    · cases h
  | dropCtx c | forgetCtx c =>
    simp only [World.step] at h
    split at h
    · split at h
      · cases h; exact ⟨by simp, fun y hy => .inl (by refine modify_chain ?_ y hy; intro; rfl)⟩
      · cases h
    · cases h
  | commit t =>
    simp only [World.step] at h
    split at h
    · split at h
      · split at h
        · split at h <;> (cases h; exact ⟨by simp [World.push], old⟩)
        · cases h; exact ⟨by simp, old⟩
      · cases h
    · cases h
  | abandon t =>
    simp only [World.step] at h
    split at h
    · split at h
      · cases h; exact ⟨by simp, old⟩
      · cases h
    · cases h

theorem worldStep_inv {r : Raw σ} {w' : World σ} {x : Call σ} {a : Answer σ.T} (hI : RawInv r) (h : r.world.step x = some (a, w'))
    (hx : ∀ c t, x ≠ .transaction c t) (calls : List (UserCall σ)) : RawInv ⟨w', r.locks, calls⟩ := by
  obtain ⟨h1, h2⟩ := worldStep_kept h hx
  refine ⟨by simpa [h1] using hI.some, ?_, fun y hy t ht => ?_⟩
  · show r.locks = List.replicate w'.txs.length _
    rw [h1]; exact hI.rest
  · show t < w'.txs.length
    rw [h1]
    rcases h2 y hy with ⟨z, hz, he⟩ | ⟨s, tx, hs, he⟩
    · exact hI.chain z hz t (he ▸ ht)
    · rw [he] at ht
      rcases List.mem_cons.1 ht with rfl | ht
      · exact tx_lt hs
      · exact hI.parents _ t ht

/-- What a call does: it calls user code; if that does not panic, the call does what it should; if it does, the call panics, and
nothing has happened if it only reads, and otherwise it commits the transaction of the schema and has applied some operations. -/
def Outcome (U : UserCode σ) (r : Raw σ) (x : Call σ) (a : Answer σ.T) (r' : Raw σ) : Prop :=
  ∃ us made b, U.Runs r.calls.length us made b ∧ r'.calls = r.calls ++ made ∧
    ((b = false ∧ r.world.step x = some (a, r'.world)) ∨
     (b = true ∧ a = .panic ∧ cutShort (x, a) = true ∧ r'.world = r.world ∧ ∃ a', r.world.step x = some (a', r.world)) ∨
     (b = true ∧ a = .panic ∧ ∃ t tx k, x = .commit t ∧ r.world.tx t = some tx ∧ r.world.unused t = true ∧ tx.owners = 1 ∧
       tx.context = none ∧ k < tx.log.length ∧
       r'.world = { r.world with
         txs := r.world.txs.modify t fun tx => { tx with live := false }
         graph := r.world.graph.commit (tx.log.take k) }))

theorem Outcome.quiet {r r' : Raw σ} {x : Call σ} {a : Answer σ.T} (hc : r'.calls = r.calls)
    (h : r.world.step x = some (a, r'.world)) : Outcome U r x a r' :=
  ⟨[], [], false, .nil U _, by simp [hc], .inl ⟨rfl, h⟩⟩

theorem plainly_outcome {r r' : Raw σ} {x : Call σ} {a : Answer σ.T} (hI : RawInv r) (hx : ∀ c t, x ≠ .transaction c t)
    (h : r.plainly x = some (a, r')) : RawInv r' ∧ Outcome U r x a r' := by
  unfold Raw.plainly at h
  cases hs : r.world.step x with
  | none => simp [hs] at h
  | some y =>
    simp only [hs, Option.map_some, Option.some.injEq, Prod.mk.injEq] at h
    obtain ⟨rfl, rfl⟩ := h
    exact ⟨worldStep_inv hI hs hx _, .quiet rfl hs⟩

theorem step_reads {α : Type} {r r' : Raw σ} {x : Call σ} {a : Answer σ.T} {act : Act σ α} {v : α} {us : List (UserCall σ)}
    (hI : RawInv r) (hy : act.Yields U r.world v us) (f : α → Answer σ.T) (h : answered f (act r) = (a, r'))
    (hs : r.world.step x = some (f v, r.world)) (hc : cutShort (x, .panic) = true) :
    RawInv r' ∧ Outcome U r x a r' ∧ ∃ made b, U.Runs r.calls.length us made b ∧ r'.calls = r.calls ++ made ∧
      a = if b then .panic else f v := by
  obtain ⟨made, b, hr, he⟩ := hy r.locks r.calls hI.free
  have he' : act r = (if b then .panic else .ret v, ⟨r.world, r.locks, r.calls ++ made⟩) := he
  rw [he'] at h
  cases b with
  | true =>
    cases h
    exact ⟨hI.same rfl (fun x hx => ⟨x, hx, rfl⟩) rfl, ⟨us, made, true, hr, rfl, .inr (.inl ⟨rfl, rfl, hc, rfl, _, hs⟩)⟩,
      made, true, hr, rfl, rfl⟩
  | false =>
    cases h
    exact ⟨hI.same rfl (fun x hx => ⟨x, hx, rfl⟩) rfl, ⟨us, made, false, hr, rfl, .inl ⟨rfl, hs⟩⟩, made, false, hr, rfl, rfl⟩

theorem push_outcome {r : Raw σ} (hI : RawInv r) {t : Nat} (ht : t < r.world.txs.length) (op : Operation σ.K σ.T) :
    rawPush t op r = (.ret (), { r with world := r.world.push t [op] }) := by
  obtain ⟨w, locks, calls⟩ := r
  have hr : locks = List.replicate w.txs.length .fresh := hI.rest
  subst hr
  exact underWrite_rest w _ _ t calls _ ht fun _ => rfl

theorem commitChild_rest (w : World σ) (n t p : Nat) (calls : List (UserCall σ)) (log : List (Operation σ.K σ.T)) (ht : t < n)
    (hp : p < n) : rawCommitChild t p log ⟨w, List.replicate n .fresh, calls⟩ =
      (.ret (), ⟨w.push p log, List.replicate n .fresh, calls⟩) := by
  have hsp : (⟨w, List.replicate n .fresh, calls⟩ : Raw σ).spoilt t = false := by simp [Raw.spoilt, ht, LogLock.fresh]
  simp only [rawCommitChild, hsp, Bool.false_eq_true, ↓reduceIte]
  exact underWrite_rest w _ n p calls _ hp fun _ => rfl

theorem raw_step {r r' : Raw σ} {x : Call σ} {a : Answer σ.T} (hI : RawInv r) (h : r.step U x = some (a, r')) :
    RawInv r' ∧ Outcome U r x a r' := by
  cases x with
  | context t c | withTarget c n | handle c k | cloneHandle c k | writeTarget k f | enter k e | assign j n | touch j f
  | leave j p
  | dropCtx c | forgetCtx c | abandon t => exact plainly_outcome hI (by intros; simp) h
  | get c i =>
    simp only [Raw.step] at h
    cases hc : r.world.ctx c with
    | none => simp [hc] at h
    | some y =>
      simp only [hc, Option.map_some, Option.some.injEq] at h
      have := step_reads hI (x := .get c i) (yields_get i y.chain (hI.chain y (ctx_mem hc))) .node h (by simp [World.step, hc]) rfl
      exact ⟨this.1, this.2.1⟩
  | contains c i =>
    simp only [Raw.step] at h
    cases hc : r.world.ctx c with
    | none => simp [hc] at h
    | some y =>
      simp only [hc, Option.map_some, Option.some.injEq] at h
      have := step_reads hI (x := .contains c i) (yields_contains i y.chain (hI.chain y (ctx_mem hc))) .bool h
        (by simp [World.step, hc]) rfl
      exact ⟨this.1, this.2.1⟩
  | save c n | delete c n =>
    simp only [Raw.step] at h
    cases hc : r.world.ctx c with
    | none => simp [hc] at h
    | some y =>
      simp only [hc, Option.map_some, Option.some.injEq, push_outcome hI (hI.head (ctx_mem hc)), answered] at h
      cases h
      refine ⟨hI.same (by simp [World.push]) (fun x hx => ⟨x, hx, rfl⟩) rfl, .quiet rfl ?_⟩
      simp [World.step, hc]
  | transaction c t =>
    simp only [Raw.step, Raw.plainly, World.step] at h
    cases hc : r.world.ctx c with
    | none => simp [hc] at h
    | some y =>
      simp only [hc] at h
      split at h
      · rename_i ht
        simp only [Option.map_some, Option.some.injEq, Prod.mk.injEq] at h
        obtain ⟨rfl, rfl⟩ := h
        refine ⟨⟨by simp, ?_, fun x hx s hs => ?_⟩, .quiet rfl (by simp [World.step, hc, ht])⟩
        · show r.locks ++ [.fresh] = _
          rw [hI.rest]; simp [List.replicate_succ']
        · have := hI.chain x hx s hs
          simp; omega
      · simp at h
  | readTarget k =>
    simp only [Raw.step, Raw.plainly] at h
    cases hs : r.world.step (.readTarget k) with
    | none => simp [hs] at h
    | some y =>
      simp only [hs, Option.map_some, Option.some.injEq] at h
      have hw : y.2 = r.world := by
        simp only [World.step] at hs
        split at hs
        · cases hs; rfl
        · split at hs
          · split at hs <;> (cases hs; rfl)
          · cases hs
        · cases hs
      split at h
      · rename_i n hn
        have hr : ({ r with world := y.2 } : Raw σ) = r := by rw [hw]
        rw [hr] at h
        have := step_reads hI (x := .readTarget k) (Act.Yields.ask (.clone n)) (fun _ => .node (some n)) h
          (by rw [hs, ← hn, ← hw]) rfl
        exact ⟨this.1, this.2.1⟩
      · cases h
        exact ⟨worldStep_inv hI hs (by intros; simp) _, .quiet rfl hs⟩
  | commit t =>
    simp only [Raw.step] at h
    cases ht : r.world.tx t with
    | none => simp [ht] at h
    | some tx =>
      simp only [ht] at h
      split at h
      · rename_i hu
        have hlt := tx_lt ht
        have hsp : r.spoilt t = false := by
          unfold Raw.spoilt; rw [hI.rest]; simp [hlt, LogLock.fresh]
        split at h
        · rename_i ho
          cases hcx : tx.context with
          | none =>
            simp only [hcx, Option.some.injEq] at h
            have hfree : Free ({ r.world with txs := r.world.txs.modify t fun tx => { tx with live := false } } : World σ) r.locks := by
              have := hI.free
              exact ⟨by simpa using this.1, this.2⟩
            obtain ⟨made, b, hr, hb⟩ := rawApply_runs (U := U) tx.log _ r.locks r.calls hfree
            have hsp' : ({ r with world := { r.world with txs := r.world.txs.modify t fun tx => { tx with live := false } } } : Raw σ).spoilt t
              = false := hsp
            simp only [rawCommitRoot, hsp', Bool.false_eq_true, ↓reduceIte] at h
            rcases hb with ⟨rfl, hb⟩ | ⟨rfl, k, hk, hb⟩
            · rw [hb] at h
              cases h
              refine ⟨hI.same (by simp) (fun x hx => ⟨x, hx, rfl⟩) rfl, _, made, false, hr, rfl, .inl ⟨rfl, ?_⟩⟩
              simp [World.step, ht, hu, ho, hcx]
            · rw [hb] at h
              cases h
              exact ⟨hI.same (by simp) (fun x hx => ⟨x, hx, rfl⟩) rfl, _, made, true, hr, rfl,
                .inr (.inr ⟨rfl, rfl, t, tx, k, rfl, ht, hu, ho, hcx, hk, rfl⟩)⟩
          | some c =>
            simp only [hcx, Option.some.injEq] at h
            have hp := hI.parent (some c)
            rw [hI.rest, commitChild_rest _ _ _ _ _ _ hlt hp] at h
            cases h
            refine ⟨⟨by simpa [World.push] using hI.some, by simp [Raw.AtRest, World.push], ?_⟩, .quiet rfl ?_⟩
            · intro x hx s hs
              simpa [World.push] using hI.chain x hx s hs
            · simp [World.step, ht, hu, ho, hcx]
        · rename_i ho
          cases h
          exact ⟨hI.same (by simp) (fun x hx => ⟨x, hx, rfl⟩) rfl, .quiet rfl (by simp [World.step, ht, hu, ho])⟩
      · cases h

theorem lives_inv {g : Graph σ.K σ.T} {h : List (Call σ × Answer σ.T)} {r : Raw σ} (hl : Lives U g h r) : RawInv r := by
  induction hl with
  | start => exact rawInv_start g
  | call _ hs _ ih => exact (raw_step ih hs).1

end Plotline
