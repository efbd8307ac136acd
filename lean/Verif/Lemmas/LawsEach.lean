import Verif.Lemmas.LawsSound
import Verif.Lemmas.ResLocality
import Verif.Lemmas.App

/-! Every one of the laws holds. -/

namespace Plotline

open Std

set_option linter.unusedSectionVars false

variable {σ : Sig}

/-! ## Single steps -/

/-- What saves and deletes on a context leave. -/
def pushAll (s : St σ) (f : Nat) (l : List (Operation σ.K σ.T)) : St σ :=
  { s with frames := s.frames.modify f fun fr => { fr with ops := fr.ops ++ l } }

theorem pushAll_one (s : St σ) (f : Nat) (o : Operation σ.K σ.T) : pushOp s f o = pushAll s f [o] := rfl

theorem length_pushAll (s : St σ) (f : Nat) (l : List (Operation σ.K σ.T)) : (pushAll s f l).frames.length = s.frames.length := by
  simp [pushAll]

/-- Frames are as given, place by place. -/
theorem st_ext {s s' : St σ} (hg : s.graph = s'.graph) (hf : ∀ a : Nat, s.frames[a]? = s'.frames[a]?) (hh : s.heap = s'.heap)
    (hl : s.locks = s'.locks) : s = s' := by
  cases s; cases s'
  simp only at hg hf hh hl
  subst hg hh hl
  rw [List.ext_getElem? hf]

theorem pushAll_nil (s : St σ) (f : Nat) : pushAll s f [] = s := by
  refine st_ext rfl (fun a => ?_) rfl rfl
  simp only [pushAll, List.getElem?_modify, List.append_nil]
  split <;> simp

theorem pushAll_cons (s : St σ) (f : Nat) (o : Operation σ.K σ.T) (l : List (Operation σ.K σ.T)) :
    pushAll (pushOp s f o) f l = pushAll s f (o :: l) := by
  refine st_ext rfl (fun a => ?_) rfl rfl
  simp only [pushAll, pushOp, List.getElem?_modify]
  cases s.frames[a]? with
  | none => rfl
  | some fr =>
    simp only [Option.map_eq_map, Option.map_some]
    split <;> simp

theorem evalBy_op {R : ResourceSet σ.Ty} {fire : Firing σ} (c : Nat) (o : Operation σ.K σ.T) (k : Prog σ) (env : List Nat) (s : St σ) :
    evalBy R fire (.op c o k) env s =
      match env[c]? with | none => some (.stuck, s) | some f => evalBy R fire k env (pushOp s f o) := by
  cases o <;> rfl

theorem evalBy_ops {R : ResourceSet σ.Ty} {fire : Firing σ} {c f : Nat} {env : List Nat} (hc : env[c]? = some f) (k : Prog σ) :
    ∀ (l : List (Operation σ.K σ.T)) (s : St σ), evalBy R fire (.ops c l k) env s = evalBy R fire k env (pushAll s f l)
  | [], s => by rw [pushAll_nil]; rfl
  | o :: l, s => by
    show evalBy R fire (.op c o (.ops c l k)) env s = _
    rw [evalBy_op, hc]
    show evalBy R fire (.ops c l k) env (pushOp s f o) = _
    rw [evalBy_ops hc k l, pushAll_cons]

/-- Writing in a cell. -/
def putRes (R : ResourceSet σ.Ty) (t : σ.Ty) (v : σ.Val t) (b : Bool) (heap : Heap σ.Val) : Heap σ.Val :=
  match (R.res t).lock with
  | none => heap
  | some p => heap.set p ⟨⟨t, v⟩, b⟩

theorem evalBy_resWrite {R : ResourceSet σ.Ty} {fire : Firing σ} (t : σ.Ty) (f : σ.Val t → σ.Val t × Bool) (k : Bool → Prog σ)
    (env : List Nat) (s : St σ) :
    evalBy R fire (.resWrite t f k) env s =
      if s.resBlocks ⟨TriggerSet.empty, R⟩ t true then some (.stuck, s)
      else match (R.res t).peek s.heap with
      | none => evalBy R fire (k false) env s
      | some v =>
        if (f v).2 then some (.panic, { s with heap := putRes R t (f v).1 true s.heap })
        else evalBy R fire (k true) env { s with heap := putRes R t (f v).1 false s.heap } := by
  simp only [evalBy]
  split
  · rfl
  · rw [withMut_peek]
    cases hp : (R.res t).peek s.heap with
    | none => rfl
    | some v =>
      obtain ⟨p, hl⟩ := peek_lock hp
      simp only [hl, putRes]
      cases hb : (f v).2 <;> simp

theorem peek_putRes {R : ResourceSet σ.Ty} {t : σ.Ty} {v : σ.Val t} {heap : Heap σ.Val} (h : (R.res t).peek heap = some v) (v' : σ.Val t) :
    (R.res t).peek (putRes R t v' false heap) = some v' := by
  unfold Res.peek putRes at *
  cases hl : (R.res t).lock with
  | none => rw [hl] at h; cases h
  | some p =>
    rw [hl] at h
    simp only at h ⊢
    cases hh : heap[p]? with
    | none => rw [hh] at h; cases h
    | some c =>
      have := List.getElem?_eq_some_iff.mp hh
      rw [List.getElem?_set_self this.1]
      simp [downcast_self]

theorem putRes_putRes (R : ResourceSet σ.Ty) (t : σ.Ty) (v v' : σ.Val t) (b b' : Bool) (heap : Heap σ.Val) :
    putRes R t v' b' (putRes R t v b heap) = putRes R t v' b' heap := by
  unfold putRes
  cases (R.res t).lock <;> simp

theorem resBlocks_excl {R : ResourceSet σ.Ty} {s : St σ} {t : σ.Ty} (h : s.resBlocks ⟨TriggerSet.empty, R⟩ t false = true) :
    s.resBlocks ⟨TriggerSet.empty, R⟩ t true = true := by
  unfold St.resBlocks at *
  split at h
  · cases h
  · rename_i p hp
    simp only [St.blocks, List.any_eq_true, Bool.and_eq_true, Bool.false_or, Bool.true_or] at *
    obtain ⟨x, hx, h1, _⟩ := h
    exact ⟨x, hx, h1, trivial⟩

theorem resBlocks_locks {R : ResourceSet σ.Ty} {s s' : St σ} (h : s'.locks = s.locks) (t : σ.Ty) (x : Bool) :
    s'.resBlocks ⟨TriggerSet.empty, R⟩ t x = s.resBlocks ⟨TriggerSet.empty, R⟩ t x := by
  unfold St.resBlocks St.blocks
  rw [h]

theorem resBlocks_heap {R : ResourceSet σ.Ty} (s : St σ) (hp : Heap σ.Val) (t : σ.Ty) (x : Bool) :
    St.resBlocks ⟨TriggerSet.empty, R⟩ { s with heap := hp } t x = s.resBlocks ⟨TriggerSet.empty, R⟩ t x := rfl

theorem evalBy_resRead {R : ResourceSet σ.Ty} {fire : Firing σ} (t : σ.Ty) (k : Option (σ.Val t) → Prog σ) (env : List Nat) (s : St σ) :
    evalBy R fire (.resRead t k) env s =
      if s.resBlocks ⟨TriggerSet.empty, R⟩ t false then some (.stuck, s) else evalBy R fire (k ((R.res t).peek s.heap)) env s := by
  rw [evalBy]

theorem evalBy_get {R : ResourceSet σ.Ty} {fire : Firing σ} {c f : Nat} {env : List Nat} (hc : env[c]? = some f) (i : σ.K)
    (k : Option σ.T → Prog σ) (s : St σ) : evalBy R fire (.get c i k) env s = evalBy R fire (k (ctxGet s.graph s.frames f i)) env s := by
  rw [evalBy, hc]

theorem frame_at {fs : List (Frame σ.K σ.T)} {f : Nat} (h : f < fs.length) : ∃ fr, fs[f]? = some fr := ⟨_, List.getElem?_eq_getElem h⟩

/-- Writes on another id, or to a context inside of the one that is looked in, make no difference. -/
theorem ctxGet_pushAll_other {s : St σ} {f f' : Nat} {l : List (Operation σ.K σ.T)} {i : σ.K} (h : lastOp l i = none ∨ f' < f) :
    ctxGet (pushAll s f l).graph (pushAll s f l).frames f' i = ctxGet s.graph s.frames f' i := by
  refine ctxGet_sim_at i rfl f' fun a ha => ?_
  simp only [pushAll, List.getElem?_modify]
  cases s.frames[a]? with
  | none => rfl
  | some fr =>
    simp only [Option.map_eq_map, Option.map_some]
    split
    · rename_i hfa
      rcases h with h | h
      · rw [lastOp_append, h]; rfl
      · omega
    · rfl

theorem ctxGet_pushAll_own {s : St σ} {f : Nat} (hf : f < s.frames.length) {l : List (Operation σ.K σ.T)} {i : σ.K} {x : Option σ.T}
    (h : lastOp l i = some x) : ctxGet (pushAll s f l).graph (pushAll s f l).frames f i = x := by
  obtain ⟨fr, hfr⟩ := frame_at hf
  have : (pushAll s f l).frames[f]? = some { fr with ops := fr.ops ++ l } := by simp [pushAll, hfr]
  rw [ctxGet_says this, lastOp_append, h]
  rfl

theorem ctxGet_opened {s : St σ} {f : Nat} (hf : f < s.frames.length) (i : σ.K) :
    ctxGet (openChild s f).graph (openChild s f).frames s.frames.length i = ctxGet s.graph s.frames f i := by
  have : (openChild s f).frames[s.frames.length]? = some { parent := some f, ops := [], target := none, leaked := false } := by
    simp [openChild]
  rw [ctxGet_says this]
  simp only [lastOp, Option.getD_none, if_pos hf]
  refine ctxGet_sim_at i rfl f fun a ha => ?_
  simp only [openChild]
  rw [List.getElem?_append_left (by omega)]

theorem ctxGet_opened_other {s : St σ} {f f' : Nat} (hf : f' < s.frames.length) (i : σ.K) :
    ctxGet (openChild s f).graph (openChild s f).frames f' i = ctxGet s.graph s.frames f' i := by
  refine ctxGet_sim_at i rfl f' fun a ha => ?_
  simp only [openChild]
  rw [List.getElem?_append_left (by omega)]

theorem close_open (s : St σ) (f : Nat) : closeChild (openChild s f) s.frames.length = s := by
  refine st_ext rfl (fun a => ?_) rfl rfl
  simp [closeChild, openChild]

/-- Changes of the child are gone with it. -/
theorem close_modify (s : St σ) (u : Frame σ.K σ.T → Frame σ.K σ.T) (n : Nat) :
    closeChild { s with frames := s.frames.modify n u } n = closeChild s n := by
  refine st_ext rfl (fun a => ?_) rfl rfl
  simp only [closeChild, List.getElem?_take, List.getElem?_modify]
  split
  · rename_i h
    have : n ≠ a := by omega
    simp [this]
  · rfl

theorem close_pushAll (s : St σ) (n : Nat) (l : List (Operation σ.K σ.T)) : closeChild (pushAll s n l) n = closeChild s n :=
  close_modify s _ n

theorem commit_open {s : St σ} {f : Nat} (l : List (Operation σ.K σ.T)) :
    commitChild (pushAll (openChild s f) s.frames.length l) s.frames.length = pushAll s f l := by
  have : (pushAll (openChild s f) s.frames.length l).frames[s.frames.length]? =
      some { parent := some f, ops := l, target := none, leaked := false } := by
    simp [openChild, pushAll]
  unfold commitChild
  rw [this]
  simp only [Bool.false_eq_true, if_false]
  have hc := close_pushAll (openChild s f) s.frames.length l
  rw [close_open] at hc
  have hfr : (pushAll (openChild s f) s.frames.length l).frames.take s.frames.length = s.frames := congrArg St.frames hc
  rw [hfr]
  rfl

theorem open_modify {s : St σ} {f f' : Nat} (hf : f' < s.frames.length) (u : Frame σ.K σ.T → Frame σ.K σ.T) :
    openChild { s with frames := s.frames.modify f' u } f = { openChild s f with frames := (openChild s f).frames.modify f' u } := by
  refine st_ext rfl (fun a => ?_) rfl rfl
  simp only [openChild, List.getElem?_modify, List.getElem?_append, List.length_modify]
  by_cases h : a < s.frames.length
  · simp [h]
  · have : f' ≠ a := by omega
    simp [h, this]

theorem beq_both [LawfulSig σ] {i j : σ.K} (h : (i == j) = true) (x : σ.K) : (x == i) = (x == j) := by
  rw [beq_comm' x i, beq_comm' x j, Bool.eq_iff_iff]
  simp only [Graph.beq_iff] at h ⊢
  constructor
  · exact fun hx => TransCmp.eq_trans (OrientedCmp.eq_symm h) hx
  · exact fun hx => TransCmp.eq_trans h hx

theorem lastOp_alike [LawfulSig σ] {i j : σ.K} (h : (i == j) = true) (l : List (Operation σ.K σ.T)) : lastOp l i = lastOp l j := by
  induction l with
  | nil => rfl
  | cons o l ih =>
    have : (o.id == i) = (o.id == j) := beq_both h o.id
    rw [lastOp, lastOp, ih, this]

theorem ctxGet_alike [LawfulSig σ] {g : Graph σ.K σ.T} {fs : List (Frame σ.K σ.T)} {i j : σ.K} (h : (i == j) = true) (f : Nat) :
    ctxGet g fs f i = ctxGet g fs f j := by
  induction f using Nat.strongRecOn with
  | _ f ih =>
    cases hf : fs[f]? with
    | none => rw [ctxGet, ctxGet]; simpa [hf] using Graph.get_congr g h
    | some fr =>
      rw [ctxGet_says hf, ctxGet_says hf, lastOp_alike h, Graph.get_congr g h]
      cases fr.parent with
      | none => rfl
      | some p =>
        simp only
        split
        · rename_i hlt; rw [ih p hlt]
        · rfl

theorem lastOp_real {l : List (Operation σ.K σ.T)} {i : σ.K} {n : σ.T} (h : lastOp l i = some (some n)) : (id n == i) = true := by
  induction l with
  | nil => cases h
  | cons o l ih =>
    rw [lastOp] at h
    cases hl : lastOp l i with
    | some x => rw [hl] at h; exact ih (by rw [hl]; exact h)
    | none =>
      rw [hl, Option.none_or] at h
      split at h
      · rename_i ho
        cases o with
        | save m => cases h; exact ho
        | delete j => cases h
      · cases h

/-- A lookup finds a node with the id. -/
theorem ctxGet_real {g : Graph σ.K σ.T} {fs : List (Frame σ.K σ.T)} (hg : ∀ i n, g.get i = some n → (id n == i) = true) {i : σ.K} {n : σ.T}
    (f : Nat) : ctxGet g fs f i = some n → (id n == i) = true := by
  induction f using Nat.strongRecOn with
  | ind f ih =>
    intro h
    cases hf : fs[f]? with
    | none => rw [ctxGet] at h; simp only [hf] at h; exact hg _ _ h
    | some fr =>
      rw [ctxGet_says hf] at h
      cases hx : lastOp fr.ops i with
      | some x =>
        rw [hx] at h
        exact lastOp_real (hx.trans (congrArg some h))
      | none =>
        rw [hx, Option.getD_none] at h
        split at h
        · exact hg _ _ h
        · split at h
          · rename_i hp
            exact ih _ hp h
          · exact hg _ _ h

/-! ## Each of the laws -/

namespace Equiv
variable {quiet : Sched → Prop} {d : Nat}

/-- It is enough to compare what the programs do in the same state. -/
theorem of {p q : Prog σ} (h : ∀ (R : ResourceSet σ.Ty) (fire : Firing σ), FireRel fire fire → Silent quiet fire →
    ∀ (env : List Nat) (s : St σ), ScopedEnv d env s.frames.length → StSim s s →
      Rel s.frames.length (evalBy R fire p env s) (evalBy R fire q env s)) :
    Equiv quiet d p q := fun R fire fire' hf hq hq' env s s' hsc hs =>
  (h R fire hf.left hq env s hsc hs.left).trans (refl q d R fire fire' hf hq hq' env s s' hsc hs)

/-- Going on with the same program in states that cannot be told apart. -/
theorem goOn {R : ResourceSet σ.Ty} {fire : Firing σ} (hf : FireRel fire fire) {env : List Nat} {n : Nat} (hsc : ScopedEnv d env n) {s s' : St σ}
    (hs : StSim s s') (hn : s.frames.length = n) (k : Prog σ) : Rel n (evalBy R fire k env s) (evalBy R fire k env s') := by
  subst hn
  exact refl (quiet := fun _ => False) k d R fire fire hf (fun _ _ _ h => h.elim) (fun _ _ _ h => h.elim) env s s' hsc hs

/-- Going on with the same program in the same state. -/
theorem same {R : ResourceSet σ.Ty} {fire : Firing σ} (hf : FireRel fire fire) {env : List Nat} {n : Nat} (hsc : ScopedEnv d env n) {s : St σ}
    (hs : StSim s s) (hn : s.frames.length = n) (k : Prog σ) : Rel n (evalBy R fire k env s) (evalBy R fire k env s) := goOn hf hsc hs hn k

theorem of_eq {p q : Prog σ} (h : ∀ (R : ResourceSet σ.Ty) (fire : Firing σ), Silent quiet fire →
    ∀ (env : List Nat) (s : St σ), ScopedEnv d env s.frames.length → evalBy R fire p env s = evalBy R fire q env s) :
    Equiv quiet d p q := of fun R fire hf hq env s hsc hs => by
  rw [h R fire hq env s hsc]
  exact same hf hsc hs rfl q

theorem writes {c : Nat} {l l' : List (Operation σ.K σ.T)} (k : Prog σ) (hc : c < d) (hl : ∀ i, lastOp l' i = lastOp l i) :
    Equiv quiet d (.ops c l k) (.ops c l' k) := of fun R fire hf _ env s hsc hs => by
  obtain ⟨f, hcf, _⟩ := hsc.at hc
  rw [evalBy_ops hcf, evalBy_ops hcf]
  exact goOn hf hsc (hs.pushOps f hl) (length_pushAll s f l) k

theorem swap {c c' : Nat} (o o' : Operation σ.K σ.T) (k : Prog σ) (hc : c < d) (hc' : c' < d) (hne : c ≠ c') :
    Equiv quiet d (.op c o (.op c' o' k)) (.op c' o' (.op c o k)) := of_eq fun R fire _ env s hsc => by
  obtain ⟨f, hcf, _⟩ := hsc.at hc
  obtain ⟨f', hcf', _⟩ := hsc.at hc'
  have hff : f ≠ f' := by
    rcases Nat.lt_or_gt_of_ne hne with h | h
    · have := hsc.inner hcf hcf' h; omega
    · have := hsc.inner hcf' hcf h; omega
  simp only [evalBy_op, hcf, hcf']
  congr 1
  refine st_ext rfl (fun a => ?_) rfl rfl
  simp only [pushOp, List.getElem?_modify]
  cases s.frames[a]? with
  | none => rfl
  | some fr =>
    simp only [Option.map_eq_map, Option.map_some]
    by_cases h1 : f = a
    · have h2 : f' ≠ a := by omega
      simp [h1, h2]
    · simp [h1]

theorem containsGet (c : Nat) (i : σ.K) (k : Bool → Prog σ) : Equiv quiet d (.contains c i k) (.get c i fun a => k a.isSome) :=
  of_eq fun R fire _ env s hsc => by
    simp only [evalBy, ctxContains_eq]

theorem lookAgain (c : Nat) (i : σ.K) (k : Option σ.T → Option σ.T → Prog σ) :
    Equiv quiet d (.get c i fun a => .get c i (k a)) (.get c i fun a => k a a) := of_eq fun R fire _ env s hsc => by
  simp only [evalBy]
  cases env[c]? <;> rfl

theorem lookOrder {c c' : Nat} (i j : σ.K) (k : Option σ.T → Option σ.T → Prog σ) (hc : c < d) (hc' : c' < d) :
    Equiv quiet d (.get c i fun a => .get c' j (k a)) (.get c' j fun b => .get c i fun a => k a b) := of_eq fun R fire _ env s hsc => by
  obtain ⟨f, hcf, _⟩ := hsc.at hc
  obtain ⟨f', hcf', _⟩ := hsc.at hc'
  simp only [evalBy, hcf, hcf']

theorem lookUnused {c : Nat} (i : σ.K) (k : Prog σ) (hc : c < d) : Equiv quiet d (.get c i fun _ => k) k := of_eq fun R fire _ env s hsc => by
  obtain ⟨f, hcf, _⟩ := hsc.at hc
  simp only [evalBy, hcf]

theorem lookOwn {c : Nat} (o : Operation σ.K σ.T) {i : σ.K} (k : Option σ.T → Prog σ) (hc : c < d) (hi : (o.id == i) = true) :
    Equiv quiet d (.op c o (.get c i k)) (.op c o (k o.leaves)) := of_eq fun R fire _ env s hsc => by
  obtain ⟨f, hcf, hlt⟩ := hsc.at hc
  have := ctxGet_pushAll_own hlt (l := [o]) (i := i) (x := o.leaves) (by simp [lastOp, hi])
  rw [← pushAll_one] at this
  simp only [evalBy_op, evalBy, hcf, this]

theorem lookOther {c c' : Nat} (o : Operation σ.K σ.T) {i : σ.K} (k : Option σ.T → Prog σ) (hc : c < d) (hc' : c' < d)
    (h : (o.id == i) = false ∨ c < c') : Equiv quiet d (.op c o (.get c' i k)) (.get c' i fun a => .op c o (k a)) :=
  of_eq fun R fire _ env s hsc => by
    obtain ⟨f, hcf, hlt⟩ := hsc.at hc
    obtain ⟨f', hcf', hlt'⟩ := hsc.at hc'
    have := ctxGet_pushAll_other (s := s) (f := f) (f' := f') (l := [o]) (i := i) (h.imp (fun h => by simp [lastOp, h]) (hsc.inner hcf hcf'))
    rw [← pushAll_one] at this
    simp only [evalBy_op, evalBy, hcf, hcf', this]

theorem readAgain (t : σ.Ty) (k : Option (σ.Val t) → Option (σ.Val t) → Prog σ) :
    Equiv quiet d (.resRead t fun a => .resRead t (k a)) (.resRead t fun a => k a a) := of_eq fun R fire _ env s hsc => by
  simp only [evalBy]
  split <;> rfl

theorem readOrder (t u : σ.Ty) (k : Option (σ.Val t) → Option (σ.Val u) → Prog σ) :
    Equiv quiet d (.resRead t fun a => .resRead u (k a)) (.resRead u fun b => .resRead t fun a => k a b) := of_eq fun R fire _ env s hsc => by
  simp only [evalBy]
  split <;> split <;> simp_all

theorem readWrite {c : Nat} (o : Operation σ.K σ.T) (t : σ.Ty) (k : Option (σ.Val t) → Prog σ) (hc : c < d) :
    Equiv quiet d (.op c o (.resRead t k)) (.resRead t fun a => .op c o (k a)) := of fun R fire hf _ env s hsc hs => by
  obtain ⟨f, hcf, hlt⟩ := hsc.at hc
  simp only [evalBy_op, evalBy, hcf]
  rw [resBlocks_locks (s' := pushOp s f o) (s := s) rfl]
  split
  · exact .stuck _ _
  · exact same hf hsc (hs.pushOp f o) (length_pushOp s f o) _

theorem readLook {c : Nat} (i : σ.K) (t : σ.Ty) (k : Option σ.T → Option (σ.Val t) → Prog σ) (hc : c < d) :
    Equiv quiet d (.get c i fun a => .resRead t (k a)) (.resRead t fun v => .get c i fun a => k a v) := of_eq fun R fire _ env s hsc => by
  obtain ⟨f, hcf, hlt⟩ := hsc.at hc
  simp only [evalBy, hcf]

theorem changeTwice (t : σ.Ty) (f g : σ.Val t → σ.Val t × Bool) (k : Bool → Bool → Prog σ) (hf0 : ∀ v, (f v).2 = false) :
    Equiv quiet d (.resWrite t f fun a => .resWrite t g (k a)) (.resWrite t (fun v => g (f v).1) fun a => k a a) :=
  of_eq fun R fire _ env s hsc => by
    simp only [evalBy_resWrite, hf0]
    split
    · rfl
    · rename_i hb
      cases hp : (R.res t).peek s.heap with
      | none => simp
      | some v =>
        simp only [Bool.false_eq_true, if_false, peek_putRes hp, putRes_putRes]
        rw [resBlocks_heap, if_neg hb]

theorem changeRead (t : σ.Ty) (f : σ.Val t → σ.Val t × Bool) (k : Bool → Option (σ.Val t) → Prog σ) (hf0 : ∀ v, (f v).2 = false) :
    Equiv quiet d (.resWrite t f fun b => .resRead t (k b))
      (.resRead t fun a => .resWrite t f fun b => k b (a.map fun v => (f v).1)) := of_eq fun R fire _ env s hsc => by
  simp only [evalBy_resRead, evalBy_resWrite, hf0]
  by_cases hb : s.resBlocks ⟨TriggerSet.empty, R⟩ t true = true
  · simp [hb]
  · have hb' : ¬ s.resBlocks ⟨TriggerSet.empty, R⟩ t false = true := fun h => hb (resBlocks_excl h)
    simp only [if_neg hb, if_neg hb']
    cases hp : (R.res t).peek s.heap with
    | none => rfl
    | some v =>
      simp only [Bool.false_eq_true, if_false, peek_putRes hp, Option.map_some]
      rw [resBlocks_heap, if_neg hb']

theorem changeWrite {c : Nat} (o : Operation σ.K σ.T) (t : σ.Ty) (f : σ.Val t → σ.Val t × Bool) (k : Bool → Prog σ) (hc : c < d)
    (hf0 : ∀ v, (f v).2 = false) : Equiv quiet d (.op c o (.resWrite t f k)) (.resWrite t f fun b => .op c o (k b)) :=
  of fun R fire hf _ env s hsc hs => by
    obtain ⟨x, hcf, hlt⟩ := hsc.at hc
    simp only [evalBy_op, evalBy_resWrite, hcf, hf0]
    rw [resBlocks_locks (s' := pushOp s x o) (s := s) rfl]
    split
    · exact .stuck _ _
    · show Rel _ (match (R.res t).peek s.heap with | none => _ | some v => _) _
      cases (R.res t).peek s.heap with
      | none => exact same hf hsc (hs.pushOp x o) (length_pushOp s x o) _
      | some v =>
        simp only [Bool.false_eq_true, if_false]
        exact same hf hsc (s := pushOp { s with heap := putRes R t (f v).1 false s.heap } x o) ((hs.withHeap _).pushOp x o) (length_pushOp _ x o) _

theorem changeLook {c : Nat} (i : σ.K) (t : σ.Ty) (f : σ.Val t → σ.Val t × Bool) (k : Option σ.T → Bool → Prog σ) (hc : c < d) :
    Equiv quiet d (.get c i fun a => .resWrite t f (k a)) (.resWrite t f fun b => .get c i fun a => k a b) :=
  of_eq fun R fire _ env s hsc => by
    obtain ⟨x, hcf, hlt⟩ := hsc.at hc
    simp only [evalBy_get hcf, evalBy_resWrite]

theorem targetTwice (n m : σ.T) (k : Prog σ) : Equiv quiet d (.withTarget n (.withTarget m k)) (.withTarget m k) :=
  of fun R fire hf _ env s hsc hs => by
    simp only [evalBy]
    cases h0 : env[0]? with
    | none => exact .stuck _ _
    | some f =>
      have : setTarget (setTarget s f n) f m = setTarget s f m := by
        refine st_ext rfl (fun a => ?_) rfl rfl
        simp only [setTarget, List.getElem?_modify]
        cases s.frames[a]? with
        | none => rfl
        | some fr => simp only [Option.map_eq_map, Option.map_some]; split <;> simp
      simp only [this]
      exact same hf hsc (hs.setTarget f m) (length_setTarget _ _ _) _

theorem targetReadSet (n : σ.T) (k : Option σ.T → Prog σ) (h0 : 0 < d) :
    Equiv quiet d (.withTarget n (.targetRead 0 k)) (.withTarget n (k (some n))) := of_eq fun R fire _ env s hsc => by
  obtain ⟨f, hcf, hlt⟩ := hsc.at h0
  obtain ⟨fr, hfr⟩ := frame_at hlt
  have : readTarget (setTarget s f n) f = some n := by simp [readTarget, setTarget, hfr]
  simp only [evalBy, hcf, this]

theorem targetOp {c : Nat} (n : σ.T) (o : Operation σ.K σ.T) (k : Prog σ) (hc : c < d) :
    Equiv quiet d (.withTarget n (.op c o k)) (.op c o (.withTarget n k)) := of_eq fun R fire _ env s hsc => by
  obtain ⟨f, hcf, hlt⟩ := hsc.at hc
  obtain ⟨f0, h0, _⟩ := hsc.at (show 0 < d by omega)
  simp only [evalBy_op, evalBy, hcf, h0]
  congr 1
  refine st_ext rfl (fun a => ?_) rfl rfl
  simp only [pushOp, setTarget, List.getElem?_modify]
  cases s.frames[a]? with
  | none => rfl
  | some fr => simp only [Option.map_eq_map, Option.map_some]; split <;> split <;> simp

theorem targetLook {c : Nat} (n : σ.T) (i : σ.K) (k : Option σ.T → Prog σ) (hc : c < d) :
    Equiv quiet d (.withTarget n (.get c i k)) (.get c i fun a => .withTarget n (k a)) := of_eq fun R fire _ env s hsc => by
  obtain ⟨f, hcf, hlt⟩ := hsc.at hc
  obtain ⟨f0, h0, _⟩ := hsc.at (show 0 < d by omega)
  simp only [evalBy, hcf, h0, ctxGet_setTarget]

theorem noTriggers {c : Nat} {sch : Sched} (k : Except Error Unit → Prog σ) (hc : c < d) (hs : quiet sch) :
    Equiv quiet d (.runTriggers c sch k) (k (.ok ())) := of_eq fun R fire hq env s hsc => by
  obtain ⟨f, hcf, hlt⟩ := hsc.at hc
  simp only [evalBy, hcf, hq f sch s hs]

theorem catchDone (r : Except Error σ.V) (k : Option (Except Error σ.V) → Prog σ) :
    Equiv quiet d (.catchUnwind (.done r) k) (k (some r)) := of_eq fun R fire _ env s hsc => by simp only [evalBy]

theorem catchPanic (k : Option (Except Error σ.V) → Prog σ) : Equiv quiet d (.catchUnwind .panic k) (k none) :=
  of_eq fun R fire _ env s hsc => by simp only [evalBy]

theorem catchWrite (c : Nat) (o : Operation σ.K σ.T) (b : Prog σ) (k : Option (Except Error σ.V) → Prog σ) :
    Equiv quiet d (.catchUnwind (.op c o b) k) (.op c o (.catchUnwind b k)) := of_eq fun R fire _ env s hsc => by
  simp only [evalBy, evalBy_op]
  cases env[c]? <;> rfl

theorem catchLook (c : Nat) (i : σ.K) (b : Option σ.T → Prog σ) (k : Option (Except Error σ.V) → Prog σ) :
    Equiv quiet d (.catchUnwind (.get c i b) k) (.get c i fun a => .catchUnwind (b a) k) := of_eq fun R fire _ env s hsc => by
  simp only [evalBy]
  cases env[c]? <;> rfl

theorem catchRead (t : σ.Ty) (b : Option (σ.Val t) → Prog σ) (k : Option (Except Error σ.V) → Prog σ) :
    Equiv quiet d (.catchUnwind (.resRead t b) k) (.resRead t fun a => .catchUnwind (b a) k) := of_eq fun R fire _ env s hsc => by
  simp only [evalBy]
  by_cases hb : s.resBlocks ⟨TriggerSet.empty, R⟩ t false = true
  · simp only [hb, if_true]
  · simp only [if_neg hb]

theorem catchChange (t : σ.Ty) (f : σ.Val t → σ.Val t × Bool) (b : Bool → Prog σ) (k : Option (Except Error σ.V) → Prog σ)
    (hf0 : ∀ v, (f v).2 = false) : Equiv quiet d (.catchUnwind (.resWrite t f b) k) (.resWrite t f fun a => .catchUnwind (b a) k) :=
  of_eq fun R fire _ env s hsc => by
    rw [evalBy_resWrite, evalBy, evalBy_resWrite]
    simp only [hf0, evalBy]
    by_cases hb : s.resBlocks ⟨TriggerSet.empty, R⟩ t true = true
    · simp only [hb, if_true]
    · simp only [if_neg hb]
      cases (R.res t).peek s.heap <;> simp

theorem catchNever (k : Option (Except Error σ.V) → Prog σ) : Equiv quiet d (.catchUnwind .reenter k) .reenter :=
  of_eq fun R fire _ env s hsc => by simp only [evalBy]

theorem neverWrite {c : Nat} (o : Operation σ.K σ.T) : Equiv quiet d (.op c o (.reenter : Prog σ)) .reenter :=
  of fun R fire hf _ env s hsc hs => by
    rw [evalBy_op]
    cases env[c]? <;> exact .stuck _ _

theorem neverRead (t : σ.Ty) : Equiv quiet d (.resRead t fun _ => .reenter : Prog σ) .reenter := of fun R fire hf _ env s hsc hs => by
  simp only [evalBy]
  split <;> exact .stuck _ _

theorem txOk {c : Nat} (l : List (Operation σ.K σ.T)) (v : σ.V) (k : Except Error σ.V → Prog σ) (hc : c < d) :
    Equiv quiet d (.tx c (.ops 0 l (.done (.ok v))) k) (.ops c l (k (.ok v))) := of_eq fun R fire _ env s hsc => by
  obtain ⟨f, hcf, hlt⟩ := hsc.at hc
  rw [evalBy_ops hcf, evalBy, hcf]
  simp only
  rw [evalBy_ops (c := 0) (f := s.frames.length) rfl]
  simp only [evalBy, commit_open]

theorem txError {c : Nat} (l : List (Operation σ.K σ.T)) (e : Error) (k : Except Error σ.V → Prog σ) (hc : c < d) :
    Equiv quiet d (.tx c (.ops 0 l (.done (.error e))) k) (k (.error e)) := of_eq fun R fire _ env s hsc => by
  obtain ⟨f, hcf, hlt⟩ := hsc.at hc
  rw [evalBy, hcf]
  simp only
  rw [evalBy_ops (c := 0) (f := s.frames.length) rfl]
  simp only [evalBy, close_pushAll, close_open]

theorem txPanic {c : Nat} (l : List (Operation σ.K σ.T)) (k : Except Error σ.V → Prog σ) (hc : c < d) :
    Equiv quiet d (.tx c (.ops 0 l .panic) k) .panic := of_eq fun R fire _ env s hsc => by
  obtain ⟨f, hcf, hlt⟩ := hsc.at hc
  simp only [evalBy, hcf]
  rw [evalBy_ops (c := 0) (f := s.frames.length) rfl]
  simp only [evalBy, close_pushAll, close_open]

theorem txForget {c : Nat} (l : List (Operation σ.K σ.T)) (r : Except Error σ.V) (k : Except Error σ.V → Prog σ) (hc : c < d) :
    Equiv quiet d (.tx c (.forget (.ops 0 l (.done r))) k) (k r) := of_eq fun R fire _ env s hsc => by
  obtain ⟨f, hcf, hlt⟩ := hsc.at hc
  rw [evalBy, hcf]
  simp only [evalBy, List.getElem?_cons_zero]
  rw [evalBy_ops (c := 0) (f := s.frames.length) rfl]
  have hclose : closeChild (pushAll (leakFrame (openChild s f) s.frames.length) s.frames.length l) s.frames.length = s := by
    rw [close_pushAll, leakFrame, close_modify, close_open]
  have hcommit : commitChild (pushAll (leakFrame (openChild s f) s.frames.length) s.frames.length l) s.frames.length = s := by
    have : (pushAll (leakFrame (openChild s f) s.frames.length) s.frames.length l).frames[s.frames.length]? =
        some { parent := some f, ops := l, target := none, leaked := true } := by
      simp [openChild, pushAll, leakFrame]
    unfold commitChild
    rw [this]
    simpa using hclose
  cases r <;> simp only [evalBy, hclose, hcommit]

theorem txNever {c : Nat} (k : Except Error σ.V → Prog σ) (hc : c < d) : Equiv quiet d (.tx c .reenter k) .reenter :=
  of fun R fire hf _ env s hsc hs => by
    obtain ⟨f, hcf, hlt⟩ := hsc.at hc
    simp only [evalBy, hcf]
    exact .stuck _ _

theorem txTarget {c : Nat} (l : List (Operation σ.K σ.T)) (n : σ.T) {b : Prog σ} (k : Except Error σ.V → Prog σ) (hb : Leaf b) :
    Equiv quiet d (.tx c (.ops 0 l (.withTarget n b)) k) (.tx c (.ops 0 l b) k) := of_eq fun R fire _ env s hsc => by
  simp only [evalBy]
  cases env[c]? with
  | none => rfl
  | some f =>
    simp only
    rw [evalBy_ops (c := 0) (f := s.frames.length) rfl, evalBy_ops (c := 0) (f := s.frames.length) rfl]
    simp only [evalBy, List.getElem?_cons_zero]
    have hclose : closeChild (setTarget (pushAll (openChild s f) s.frames.length l) s.frames.length n) s.frames.length =
        closeChild (pushAll (openChild s f) s.frames.length l) s.frames.length := by rw [setTarget, close_modify]
    have hcommit : commitChild (setTarget (pushAll (openChild s f) s.frames.length l) s.frames.length n) s.frames.length =
        commitChild (pushAll (openChild s f) s.frames.length l) s.frames.length := by
      have h1 : (setTarget (pushAll (openChild s f) s.frames.length l) s.frames.length n).frames[s.frames.length]? =
          some { parent := some f, ops := l, target := some ⟨n, false⟩, leaked := false } := by
        simp [openChild, pushAll, setTarget]
      have h2 : (pushAll (openChild s f) s.frames.length l).frames[s.frames.length]? =
          some { parent := some f, ops := l, target := none, leaked := false } := by
        simp [openChild, pushAll]
      have hfr := congrArg St.frames hclose
      simp only [closeChild] at hfr
      unfold commitChild
      rw [h1, h2]
      simp only [Bool.false_eq_true, if_false, hfr]
      rfl
    cases hb with
    | done r => cases r <;> simp only [evalBy, hclose, hcommit]
    | panic => simp only [evalBy, hclose]

theorem txWrite {c c' : Nat} (o : Operation σ.K σ.T) (b : Prog σ) (k : Except Error σ.V → Prog σ) (hc : c < d) (hc' : c' < d) :
    Equiv quiet d (.tx c (.op (c' + 1) o b) k) (.op c' o (.tx c b k)) := of_eq fun R fire _ env s hsc => by
  obtain ⟨f, hcf, hlt⟩ := hsc.at hc
  obtain ⟨f', hcf', hlt'⟩ := hsc.at hc'
  simp only [evalBy_op, evalBy, hcf, hcf', List.getElem?_cons_succ, length_pushOp]
  have : openChild (pushOp s f' o) f = pushOp (openChild s f) f' o := open_modify hlt' _
  rw [this]

theorem txLook {c c' : Nat} (i : σ.K) (b : Option σ.T → Prog σ) (k : Except Error σ.V → Prog σ) (hc : c < d) (hc' : c' < d) :
    Equiv quiet d (.tx c (.get (c' + 1) i b) k) (.get c' i fun a => .tx c (b a) k) := of_eq fun R fire _ env s hsc => by
  obtain ⟨f, hcf, hlt⟩ := hsc.at hc
  obtain ⟨f', hcf', hlt'⟩ := hsc.at hc'
  simp only [evalBy, hcf, hcf', List.getElem?_cons_succ, ctxGet_opened_other hlt']

theorem txLookOwn {c : Nat} (i : σ.K) (b : Option σ.T → Prog σ) (k : Except Error σ.V → Prog σ) (hc : c < d) :
    Equiv quiet d (.tx c (.get 0 i b) k) (.get c i fun a => .tx c (b a) k) := of_eq fun R fire _ env s hsc => by
  obtain ⟨f, hcf, hlt⟩ := hsc.at hc
  simp only [evalBy, hcf, List.getElem?_cons_zero, ctxGet_opened hlt]

theorem txRead {c : Nat} (t : σ.Ty) (b : Option (σ.Val t) → Prog σ) (k : Except Error σ.V → Prog σ) (hc : c < d) :
    Equiv quiet d (.tx c (.resRead t b) k) (.resRead t fun a => .tx c (b a) k) := of fun R fire hf _ env s hsc hs => by
  obtain ⟨f, hcf, hlt⟩ := hsc.at hc
  have he : (openChild s f).resBlocks ⟨TriggerSet.empty, R⟩ t false = s.resBlocks ⟨TriggerSet.empty, R⟩ t false := resBlocks_locks rfl _ _
  simp only [evalBy, hcf, he]
  by_cases hb : s.resBlocks ⟨TriggerSet.empty, R⟩ t false = true
  · simp only [hb, if_true]; exact .stuck _ _
  · simp only [if_neg hb]
    have := same (R := R) hf hsc hs rfl (.tx c (b ((R.res t).peek s.heap)) k)
    simp only [evalBy, hcf] at this
    exact this

theorem txChange {c : Nat} (t : σ.Ty) (fn : σ.Val t → σ.Val t × Bool) (b : Bool → Prog σ) (k : Except Error σ.V → Prog σ) (hc : c < d) :
    Equiv quiet d (.tx c (.resWrite t fn b) k) (.resWrite t fn fun a => .tx c (b a) k) := of fun R fire hf _ env s hsc hs => by
  obtain ⟨f, hcf, hlt⟩ := hsc.at hc
  have he : (openChild s f).resBlocks ⟨TriggerSet.empty, R⟩ t true = s.resBlocks ⟨TriggerSet.empty, R⟩ t true := resBlocks_locks rfl _ _
  rw [evalBy_resWrite, evalBy, hcf]
  simp only
  rw [evalBy_resWrite, he]
  by_cases hb : s.resBlocks ⟨TriggerSet.empty, R⟩ t true = true
  · simp only [hb, if_true]; exact .stuck _ _
  · simp only [if_neg hb, show (openChild s f).heap = s.heap from rfl]
    cases hp : (R.res t).peek s.heap with
    | none =>
      have := same (R := R) hf hsc hs rfl (.tx c (b false) k)
      simpa only [evalBy, hcf] using this
    | some v =>
      simp only
      cases hfv : (fn v).2 with
      | true =>
        simp only [if_true]
        have : closeChild { openChild s f with heap := putRes R t (fn v).1 true s.heap } s.frames.length =
            { s with heap := putRes R t (fn v).1 true s.heap } := by
          have := congrArg St.frames (close_open s f)
          exact st_ext rfl (fun a => by rw [show (closeChild { openChild s f with heap := putRes R t (fn v).1 true s.heap } s.frames.length).frames
            = (closeChild (openChild s f) s.frames.length).frames from rfl, this]) rfl rfl
        rw [this]
        exact .ends _ (hs.withHeap _) rfl
      | false =>
        simp only [Bool.false_eq_true, if_false]
        have := same (R := R) (s := { s with heap := putRes R t (fn v).1 false s.heap }) hf hsc (hs.withHeap _) rfl (.tx c (b true) k)
        simp only [evalBy, hcf] at this ⊢
        exact this

variable [LawfulSig σ]

theorem lookAlike (c : Nat) {i j : σ.K} (k : Option σ.T → Prog σ) (h : (i == j) = true) : Equiv quiet d (.get c i k) (.get c j k) :=
  of_eq fun R fire _ env s hsc => by
    simp only [evalBy]
    cases env[c]? with
    | none => rfl
    | some f => simp only [ctxGet_alike h]

theorem lookReal {c : Nat} (i : σ.K) {k k' : Option σ.T → Prog σ} (h0 : k' none = k none) (h1 : ∀ n : σ.T, (id n == i) = true → k' (some n) = k (some n)) :
    Equiv quiet d (.get c i k) (.get c i k') := of fun R fire hf _ env s hsc hs => by
  simp only [evalBy]
  cases env[c]? with
  | none => exact .stuck _ _
  | some f =>
    have : k' (ctxGet s.graph s.frames f i) = k (ctxGet s.graph s.frames f i) := by
      cases h : ctxGet s.graph s.frames f i with
      | none => exact h0
      | some n => exact h1 n (ctxGet_real hs.own f h)
    simp only [this]
    exact same hf hsc hs rfl _

end Equiv

/-- Each of the laws holds. -/
theorem law_equiv [LawfulSig σ] {quiet : Sched → Prop} {d : Nat} {p q : Prog σ} (h : Law quiet d p q) : Equiv quiet d p q := by
  cases h with
  | writes k h1 h2 => exact .writes k h1 h2
  | swap o o' k h1 h2 h3 => exact .swap o o' k h1 h2 h3
  | contains c i k => exact .containsGet c i k
  | lookAgain c i k => exact .lookAgain c i k
  | lookOrder i j k h1 h2 => exact .lookOrder i j k h1 h2
  | lookUnused i _ h1 => exact .lookUnused i _ h1
  | lookAlike c k h1 => exact .lookAlike c k h1
  | lookReal i h1 h2 => exact .lookReal i h1 h2
  | lookOwn o k h1 h2 => exact .lookOwn o k h1 h2
  | lookOther o k h1 h2 h3 => exact .lookOther o k h1 h2 h3
  | readAgain t k => exact .readAgain t k
  | readOrder t u k => exact .readOrder t u k
  | readWrite o t k h1 => exact .readWrite o t k h1
  | readLook i t k h1 => exact .readLook i t k h1
  | changeTwice t f g k h1 => exact .changeTwice t f g k h1
  | changeRead t f k h1 => exact .changeRead t f k h1
  | changeWrite o t f k h1 h2 => exact .changeWrite o t f k h1 h2
  | changeLook i t f k h1 => exact .changeLook i t f k h1
  | targetTwice n m k => exact .targetTwice n m k
  | targetRead n k h1 => exact .targetReadSet n k h1
  | targetWrite n o k h1 => exact .targetOp n o k h1
  | targetLook n i k h1 => exact .targetLook n i k h1
  | noTriggers k h1 h2 => exact .noTriggers k h1 h2
  | catchDone r k => exact .catchDone r k
  | catchPanic k => exact .catchPanic k
  | catchWrite c o b k => exact .catchWrite c o b k
  | catchLook c i b k => exact .catchLook c i b k
  | catchRead t b k => exact .catchRead t b k
  | catchChange t f b k h1 => exact .catchChange t f b k h1
  | catchNever k => exact .catchNever k
  | neverWrite o h1 => exact .neverWrite o
  | neverRead t => exact .neverRead t
  | txOk l v k h1 => exact .txOk l v k h1
  | txError l e k h1 => exact .txError l e k h1
  | txPanic l k h1 => exact .txPanic l k h1
  | txForget l r k h1 => exact .txForget l r k h1
  | txNever k h1 => exact .txNever k h1
  | txTarget l n k h1 => exact .txTarget l n k h1
  | txWrite o b k h1 h2 => exact .txWrite o b k h1 h2
  | txLook i b k h1 h2 => exact .txLook i b k h1 h2
  | txLookOwn i b k h1 => exact .txLookOwn i b k h1
  | txRead t b k h1 => exact .txRead t b k h1
  | txChange t f b k h1 => exact .txChange t f b k h1

/-- Nothing is noticed of rewriting, anywhere in a program. -/
theorem same_equiv [LawfulSig σ] {quiet : Sched → Prop} {d : Nat} {p q : Prog σ} (h : Same quiet d p q) : Equiv quiet d p q := by
  induction h with
  | law h => exact law_equiv h
  | symm _ ih => exact ih.symm
  | trans _ _ ih ih' => exact ih.trans ih'
  | done _ r => exact .done r
  | panic _ => exact .panic
  | reenter _ => exact .reenter
  | save c n _ ih => exact .op c (.save n) ih
  | delete c i _ ih => exact .op c (.delete i) ih
  | get c i _ ih => exact .get c i ih
  | contains c i _ ih => exact .contains c i ih
  | tx c _ _ ihb ih => exact .tx c ihb ih
  | runTriggers c s _ ih => exact .runTriggers c s ih
  | withTarget n _ ih => exact .withTarget n ih
  | targetRead c _ ih => exact .targetRead c ih
  | targetWrite c f _ ih => exact .targetWrite c f ih
  | resRead t _ ih => exact .resRead t ih
  | resWrite t f _ ih => exact .resWrite t f ih
  | resScope t e _ _ ihb ih => exact .resScope t e ihb ih
  | resAssign t x _ ih => exact .resAssign t x ih
  | catchUnwind _ _ ihb ih => exact .catchUnwind ihb ih
  | forget _ ih => exact .forget ih

end Plotline
