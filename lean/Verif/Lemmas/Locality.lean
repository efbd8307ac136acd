import Verif.Spec.Locality
import Verif.Lemmas.Interleave
import Verif.Lemmas.Context

/-! The machine on another graph, and where operations in logs come from. -/

namespace Plotline

open Std

set_option linter.unusedSectionVars false

variable {σ : Sig}

theorem ctxGet_graph {g g' : Graph σ.K σ.T} (frames : List (Frame σ.K σ.T)) (f : Nat) (i : σ.K) (h : g'.get i = g.get i) :
    ctxGet g' frames f i = ctxGet g frames f i := by
  induction f using Nat.strongRecOn with
  | _ f ih =>
    rw [ctxGet, ctxGet]
    split
    · exact h
    · split
      · rfl
      · rfl
      · split
        · exact h
        · split
          · rename_i hlt; exact ih _ hlt
          · exact h

/-- The state with another graph. -/
def St.on (s : St σ) (g : Graph σ.K σ.T) : St σ := { s with graph := g }

def Conf.on (c : Conf σ) (g : Graph σ.K σ.T) : Conf σ := ⟨c.control, c.stack, c.st.on g⟩

theorem commitChild_on (s : St σ) (g : Graph σ.K σ.T) (n : Nat) : commitChild (s.on g) n = (commitChild s n).on g := by
  unfold commitChild closeChild St.on
  dsimp only
  split
  · rfl
  · split
    · rfl
    · split <;> rfl

/-- The id the next call looks up, if it is a lookup. -/
def Control.lookup : Control σ → Option σ.K
  | .run _ (.get _ i _) => some i
  | .run _ (.contains _ i _) => some i
  | _ => none

theorem step_on (E : Env σ) {c c' : Conf σ} (g : Graph σ.K σ.T) (hg : ∀ i, c.control.lookup = some i → g.get i = c.st.graph.get i)
    (h : c.step E = some c') : (c.on g).step E = some (c'.on g) ∧ c'.st.graph = c.st.graph := by
  obtain ⟨control, K, s⟩ := c
  unfold Conf.on
  cases control with
  | run env p =>
    cases p with
    | done r => cases h; exact ⟨rfl, rfl⟩
    | panic => cases h; exact ⟨rfl, rfl⟩
    | reenter => cases h; exact ⟨rfl, rfl⟩
    | save c n k => simp only [Conf.step] at h ⊢; split at h <;> cases h <;> ((try (rename_i hc; rw [hc])); exact ⟨rfl, rfl⟩)
    | delete c i k => simp only [Conf.step] at h ⊢; split at h <;> cases h <;> ((try (rename_i hc; rw [hc])); exact ⟨rfl, rfl⟩)
    | get c i k =>
      have := hg i rfl
      simp only [Conf.step, St.on, ctxGet_graph _ _ _ this] at h ⊢
      split at h <;> cases h <;> (rename_i hc; exact ⟨rfl, rfl⟩)
    | contains c i k =>
      have := hg i rfl
      simp only [Conf.step, St.on, ctxContains_eq, ctxGet_graph _ _ _ this] at h ⊢
      split at h <;> cases h <;> (rename_i hc; exact ⟨rfl, rfl⟩)
    | tx c body k => simp only [Conf.step] at h ⊢; split at h <;> cases h <;> ((try (rename_i hc; rw [hc])); exact ⟨rfl, rfl⟩)
    | runTriggers c sch k =>
      simp only [Conf.step] at h ⊢
      split at h
      · cases h; (try (rename_i hc; rw [hc])); exact ⟨rfl, rfl⟩
      · split at h <;> cases h <;> ((try (rename_i hs; rw [hs])); exact ⟨rfl, rfl⟩)
    | withTarget n k => simp only [Conf.step] at h ⊢; split at h <;> cases h <;> ((try (rename_i hc; rw [hc])); exact ⟨rfl, rfl⟩)
    | targetRead c k => simp only [Conf.step] at h ⊢; split at h <;> cases h <;> ((try (rename_i hc; rw [hc])); exact ⟨rfl, rfl⟩)
    | targetWrite c fn k =>
      simp only [Conf.step] at h ⊢
      split at h
      · cases h; (try (rename_i hc; rw [hc])); exact ⟨rfl, rfl⟩
      · rename_i f hc
        have hr : readTarget (s.on g) f = readTarget s f := rfl
        rw [hr]
        split at h
        · cases h; (try (rename_i hn; rw [hn])); exact ⟨rfl, rfl⟩
        ·           split at h <;> cases h <;> ((try (rename_i hs; rw [hs])); exact ⟨rfl, rfl⟩)
    | resRead t k =>
      simp only [Conf.step] at h ⊢
      have hb : (s.on g).resBlocks E t false = s.resBlocks E t false := rfl
      rw [hb]
      split at h <;> cases h <;> (rename_i hc; simp [hc, St.on])
    | resWrite t fn k =>
      simp only [Conf.step] at h ⊢
      have hb : (s.on g).resBlocks E t true = s.resBlocks E t true := rfl
      have hh : (s.on g).heap = s.heap := rfl
      rw [hb, hh]
      split at h
      · cases h; rename_i hc; simp [hc, St.on]
      · rename_i hc; simp only [hc, Bool.false_eq_true, if_false]
        split at h <;> cases h <;> ((try (rename_i hs; rw [hs])); exact ⟨rfl, rfl⟩)
    | resScope t excl body k =>
      simp only [Conf.step] at h ⊢
      have hb : ∀ p, (s.on g).blocks p excl = s.blocks p excl := fun _ => rfl
      have hh : (s.on g).heap = s.heap := rfl
      split at h
      · cases h; (try (rename_i hc; rw [hc])); exact ⟨rfl, rfl⟩
      · rename_i p hc; rw [hb, hh]
        split at h
        · cases h; rename_i hc; simp [hc, St.on]
        · rename_i hc; simp only [hc, Bool.false_eq_true, if_false]
          split at h <;> cases h <;> ((try (rename_i hs; rw [hs])); exact ⟨rfl, rfl⟩)
    | resAssign t x k =>
      simp only [Conf.step] at h ⊢
      have hb : (s.on g).locks = s.locks := rfl
      split at h
      · cases h; (try (rename_i hc; rw [hc])); exact ⟨rfl, rfl⟩
      · rename_i p hc; rw [hb]
        split at h
        · cases h; rename_i hc; rw [if_pos hc]; exact ⟨rfl, rfl⟩
        · cases h; rename_i hc; rw [if_neg hc]; exact ⟨rfl, rfl⟩
    | catchUnwind body k => cases h; exact ⟨rfl, rfl⟩
    | forget k => simp only [Conf.step] at h ⊢; split at h <;> cases h <;> ((try (rename_i hc; rw [hc])); exact ⟨rfl, rfl⟩)
  | back out =>
    rcases out with (e | v) | _ | _
    · cases K with
      | nil => simp [Conf.step] at h
      | cons k K => cases k <;> (simp only [Conf.step] at h ⊢; cases h; exact ⟨rfl, rfl⟩)
    · cases K with
      | nil => simp [Conf.step] at h
      | cons k K =>
        cases k with
        | tx n env k =>
          simp only [Conf.step] at h ⊢; cases h
          exact ⟨by rw [commitChild_on], commitChild_graph ..⟩
        | triggers f rest env k =>
          cases rest <;> (simp only [Conf.step] at h; cases h; exact ⟨rfl, rfl⟩)
        | resScope p excl env k => simp only [Conf.step] at h; cases h; exact ⟨rfl, rfl⟩
        | catchUnwind env k => simp only [Conf.step] at h; cases h; exact ⟨rfl, rfl⟩
    · cases K with
      | nil => simp [Conf.step] at h
      | cons k K => cases k <;> (simp only [Conf.step] at h ⊢; cases h; exact ⟨rfl, rfl⟩)
    · simp [Conf.step] at h

theorem steps_on {E : Env σ} {a b : Conf σ} (g : Graph σ.K σ.T) (h : Conf.Steps E a b)
    (hg : ∀ c, Conf.Steps E a c → ∀ i, c.control.lookup = some i → g.get i = a.st.graph.get i) :
    Conf.Steps E (a.on g) (b.on g) ∧ b.st.graph = a.st.graph := by
  induction h with
  | refl c => exact ⟨.refl _, rfl⟩
  | @head c c' c'' h1 _ ih =>
    obtain ⟨h2, h3⟩ := step_on E g (hg c (.refl _)) h1
    obtain ⟨h4, h5⟩ := ih fun d hd i hi => by rw [h3]; exact hg d (.head h1 hd) i hi
    exact ⟨.head h2 h4, h5.trans h3⟩

/-! ## Where operations in logs come from -/

/-- The operation is in some log. -/
def St.Logged (s : St σ) (op : Operation σ.K σ.T) : Prop := ∃ fr ∈ s.frames, op ∈ fr.ops

/-- The operation the next call registers, if it does. -/
def Control.issue : Control σ → Option (Operation σ.K σ.T)
  | .run _ (.save _ n _) => some (.save n)
  | .run _ (.delete _ i _) => some (.delete i)
  | _ => none

theorem mem_modify {α : Type} {l : List α} {n : Nat} {u : α → α} {x : α} (h : x ∈ l.modify n u) :
    x ∈ l ∨ ∃ y ∈ l, x = u y := by
  obtain ⟨i, hi⟩ := List.mem_iff_getElem?.1 h
  rw [List.getElem?_modify] at hi
  cases hy : l[i]? with
  | none => rw [hy] at hi; cases hi
  | some y =>
    rw [hy] at hi
    have hm := List.mem_of_getElem? hy
    simp only [Option.map_eq_map, Option.map_some, Option.some.injEq] at hi
    split at hi
    · exact .inr ⟨y, hm, hi.symm⟩
    · exact .inl (hi ▸ hm)

theorem logged_modify {s : St σ} {f : Nat} {u : Frame σ.K σ.T → Frame σ.K σ.T} {op : Operation σ.K σ.T}
    (hu : ∀ fr, (u fr).ops = fr.ops) (h : St.Logged { s with frames := s.frames.modify f u } op) : s.Logged op := by
  obtain ⟨fr, hm, ho⟩ := h
  rcases mem_modify hm with hm | ⟨y, hy, rfl⟩
  · exact ⟨fr, hm, ho⟩
  · exact ⟨y, hy, by rw [hu] at ho; exact ho⟩

theorem logged_setTarget {s : St σ} {f : Nat} {n : σ.T} {op : Operation σ.K σ.T} (h : (setTarget s f n).Logged op) :
    s.Logged op := by unfold setTarget at h; exact logged_modify (u := fun fr => { fr with target := some ⟨n, false⟩ }) (fun _ => rfl) h

theorem logged_writeTarget {s : St σ} {f : Nat} {n : σ.T} {b : Bool} {op : Operation σ.K σ.T}
    (h : (writeTarget s f n b).Logged op) : s.Logged op := by
  unfold writeTarget at h; exact logged_modify (u := fun fr => { fr with target := some ⟨n, b⟩ }) (fun _ => rfl) h

theorem logged_leak {s : St σ} {f : Nat} {op : Operation σ.K σ.T} (h : (leakFrame s f).Logged op) : s.Logged op := by
  unfold leakFrame at h; exact logged_modify (u := fun fr => { fr with leaked := true }) (fun _ => rfl) h

theorem logged_push {s : St σ} {f : Nat} {o op : Operation σ.K σ.T} (h : (pushOp s f o).Logged op) : s.Logged op ∨ op = o := by
  obtain ⟨fr, hm, ho⟩ := h
  rcases mem_modify hm with hm | ⟨y, hy, rfl⟩
  · exact .inl ⟨fr, hm, ho⟩
  · rcases List.mem_append.1 ho with ho | ho
    · exact .inl ⟨y, hy, ho⟩
    · exact .inr (List.mem_singleton.1 ho)

theorem logged_open {s : St σ} {f : Nat} {op : Operation σ.K σ.T} (h : (openChild s f).Logged op) : s.Logged op := by
  obtain ⟨fr, hm, ho⟩ := h
  rcases List.mem_append.1 hm with hm | hm
  · exact ⟨fr, hm, ho⟩
  · rw [List.mem_singleton.1 hm] at ho; cases ho

theorem logged_close {s : St σ} {n : Nat} {op : Operation σ.K σ.T} (h : (closeChild s n).Logged op) : s.Logged op := by
  obtain ⟨fr, hm, ho⟩ := h
  exact ⟨fr, List.mem_of_mem_take hm, ho⟩

theorem logged_commit {s : St σ} {n : Nat} {op : Operation σ.K σ.T} (h : (commitChild s n).Logged op) : s.Logged op := by
  unfold commitChild at h
  split at h
  · exact logged_close h
  · rename_i fr hfr
    split at h
    · exact logged_close h
    · split at h
      · exact logged_close h
      · obtain ⟨fr', hm, ho⟩ := h
        rcases mem_modify hm with hm | ⟨y, hy, rfl⟩
        · exact ⟨fr', List.mem_of_mem_take hm, ho⟩
        · rcases List.mem_append.1 ho with ho | ho
          · exact ⟨y, List.mem_of_mem_take hy, ho⟩
          · exact ⟨fr, List.mem_of_getElem? hfr, ho⟩

theorem step_logged (E : Env σ) {c c' : Conf σ} (h : c.step E = some c') {op : Operation σ.K σ.T} (ho : c'.st.Logged op) :
    c.st.Logged op ∨ c.control.issue = some op := by
  obtain ⟨control, K, s⟩ := c
  cases control with
  | run env p =>
    cases p with
    | done r => cases h; exact .inl ho
    | panic => cases h; exact .inl ho
    | reenter => cases h; exact .inl ho
    | save c n k =>
      simp only [Conf.step] at h
      split at h <;> cases h
      · exact .inl ho
      · rcases logged_push ho with ho | rfl
        · exact .inl ho
        · exact .inr rfl
    | delete c i k =>
      simp only [Conf.step] at h
      split at h <;> cases h
      · exact .inl ho
      · rcases logged_push ho with ho | rfl
        · exact .inl ho
        · exact .inr rfl
    | get c i k => simp only [Conf.step] at h; split at h <;> cases h <;> exact .inl ho
    | contains c i k => simp only [Conf.step] at h; split at h <;> cases h <;> exact .inl ho
    | tx c body k =>
      simp only [Conf.step] at h; split at h <;> cases h
      · exact .inl ho
      · exact .inl (logged_open ho)
    | runTriggers c sch k =>
      simp only [Conf.step] at h
      split at h
      · cases h; exact .inl ho
      · split at h <;> cases h <;> exact .inl ho
    | withTarget n k =>
      simp only [Conf.step] at h; split at h <;> cases h
      · exact .inl ho
      · exact .inl (logged_setTarget ho)
    | targetRead c k => simp only [Conf.step] at h; split at h <;> cases h <;> exact .inl ho
    | targetWrite c fn k =>
      simp only [Conf.step] at h
      split at h
      · cases h; exact .inl ho
      · split at h
        · cases h; exact .inl ho
        · split at h <;> cases h <;> exact .inl (logged_writeTarget ho)
    | resRead t k => simp only [Conf.step] at h; split at h <;> cases h <;> exact .inl ho
    | resWrite t fn k =>
      simp only [Conf.step] at h
      split at h
      · cases h; exact .inl ho
      · split at h <;> cases h <;> exact .inl ho
    | resScope t excl body k =>
      simp only [Conf.step] at h
      split at h
      · cases h; exact .inl ho
      · split at h
        · cases h; exact .inl ho
        · split at h <;> cases h <;> exact .inl ho
    | resAssign t x k =>
      simp only [Conf.step] at h
      split at h
      · cases h; exact .inl ho
      · split at h <;> cases h <;> exact .inl ho
    | catchUnwind body k => cases h; exact .inl ho
    | forget k =>
      simp only [Conf.step] at h; split at h <;> cases h
      · exact .inl ho
      · exact .inl (logged_leak ho)
  | back out =>
    left
    rcases out with (e | v) | _ | _
    · cases K with
      | nil => simp [Conf.step] at h
      | cons k K =>
        cases k <;> (simp only [Conf.step] at h; cases h)
        · exact logged_close ho
        all_goals exact ho
    · cases K with
      | nil => simp [Conf.step] at h
      | cons k K =>
        cases k with
        | tx n env k => simp only [Conf.step] at h; cases h; exact logged_commit ho
        | triggers f rest env k => cases rest <;> (simp only [Conf.step] at h; cases h; exact ho)
        | resScope p excl env k => simp only [Conf.step] at h; cases h; exact ho
        | catchUnwind env k => simp only [Conf.step] at h; cases h; exact ho
    · cases K with
      | nil => simp [Conf.step] at h
      | cons k K =>
        cases k <;> (simp only [Conf.step] at h; cases h)
        · exact logged_close ho
        all_goals exact ho
    · simp [Conf.step] at h

theorem steps_logged {E : Env σ} {a b : Conf σ} (h : Conf.Steps E a b) {op : Operation σ.K σ.T} (ho : b.st.Logged op) :
    a.st.Logged op ∨ ∃ c, Conf.Steps E a c ∧ c.control.issue = some op := by
  induction h with
  | refl c => exact .inl ho
  | head h1 _ ih =>
    rcases ih ho with h | ⟨c, hc, hi⟩
    · rcases step_logged E h1 h with h | h
      · exact .inl h
      · exact .inr ⟨_, .refl _, h⟩
    · exact .inr ⟨c, .head h1 hc, hi⟩

theorem issue_reaches {S : Schema σ} {pre : List (Operation σ.K σ.T)} {body : Prog σ} {c : Conf σ} {op : Operation σ.K σ.T}
    (h : Conf.Steps S.env ⟨.run [0] body, [], S.begin pre⟩ c) (hi : c.control.issue = some op) : Issues S pre body op := by
  obtain ⟨control, K, s⟩ := c
  unfold Control.issue at hi
  split at hi
  · rename_i hc; cases hi; cases hc; exact ⟨_, _, _, _, _, h⟩
  · rename_i hc; cases hi; cases hc; exact ⟨_, _, _, _, _, h⟩
  · cases hi

theorem lookup_reaches {S : Schema σ} {pre : List (Operation σ.K σ.T)} {body : Prog σ} {c : Conf σ} {i : σ.K}
    (h : Conf.Steps S.env ⟨.run [0] body, [], S.begin pre⟩ c) (hi : c.control.lookup = some i) : LooksUp S pre body i := by
  obtain ⟨control, K, s⟩ := c
  unfold Control.lookup at hi
  split at hi
  · rename_i hc; cases hi; cases hc; exact .inl ⟨_, _, _, _, _, h⟩
  · rename_i hc; cases hi; cases hc; exact .inr ⟨_, _, _, _, _, h⟩
  · cases hi

theorem issues_iff {S : Schema σ} {pre : List (Operation σ.K σ.T)} {body : Prog σ} {op : Operation σ.K σ.T} :
    Issues S pre body op ↔ ∃ c, Conf.Steps S.env ⟨.run [0] body, [], S.begin pre⟩ c ∧ c.control.issue = some op := by
  constructor
  · cases op with
    | save n => rintro ⟨c, k, env, K, s, h⟩; exact ⟨_, h, rfl⟩
    | delete i => rintro ⟨c, k, env, K, s, h⟩; exact ⟨_, h, rfl⟩
  · rintro ⟨c, h, hi⟩; exact issue_reaches h hi

theorem looksUp_iff {S : Schema σ} {pre : List (Operation σ.K σ.T)} {body : Prog σ} {i : σ.K} :
    LooksUp S pre body i ↔ ∃ c, Conf.Steps S.env ⟨.run [0] body, [], S.begin pre⟩ c ∧ c.control.lookup = some i := by
  constructor
  · rintro (⟨c, k, env, K, s, h⟩ | ⟨c, k, env, K, s, h⟩)
    · exact ⟨_, h, rfl⟩
    · exact ⟨_, h, rfl⟩
  · rintro ⟨c, h, hi⟩; exact lookup_reaches h hi

/-- What a finished transaction does, on its schema and on others that agree where it looks. -/
theorem transact_on {S S1 : Schema σ} {fuel : Nat} {pre : List (Operation σ.K σ.T)} {body : Prog σ}
    {out : Out (Except Error σ.V)} (h : S.transact fuel pre body = some (out, S1)) (hne : out ≠ .stuck) :
    ∃ ops : List (Operation σ.K σ.T), (∀ op ∈ ops, op ∈ pre ∨ Issues S pre body op) ∧ S1.graph = S.graph.commit ops ∧
      S1.env = S.env ∧ (S1.poisoned = true ↔ S.poisoned = true ∨ out = .panic) ∧
      ∀ S' : Schema σ, S'.env = S.env → S'.heap = S.heap →
        (∀ i, LooksUp S pre body i → S'.guard.get i = S.guard.get i) →
        ∃ fuel' S1', S'.transact fuel' pre body = some (out, S1') ∧ S1'.graph = S'.graph.commit ops ∧
          S1'.heap = S1.heap ∧ S1'.env = S.env ∧ (S1'.poisoned = true ↔ S'.poisoned = true ∨ out = .panic) := by
  have e : ∀ S : Schema σ, S.guard = S.graph := fun S => by unfold Schema.guard; split <;> rfl
  obtain ⟨s, he, henv, hheap, hok, hfail⟩ := transact_some h
  obtain ⟨hgr, fr, hfr, _, _⟩ := root_after he
  have hst := eval_steps S.env fuel _ _ _ _ _ [] he hne
  have hlog : ∀ op ∈ fr.ops, op ∈ pre ∨ Issues S pre body op := by
    intro op ho
    rcases steps_logged hst (op := op) ⟨fr, by rw [hfr]; simp, ho⟩ with ⟨fr', hm, ho'⟩ | ⟨c, hc, hi⟩
    · left
      simp only [Schema.begin, List.mem_singleton] at hm
      rw [hm] at ho'; exact ho'
    · exact .inr (issue_reaches hc hi)
  -- the same run on another schema
  have hrun : ∀ S' : Schema σ, S'.env = S.env → S'.heap = S.heap →
      (∀ i, LooksUp S pre body i → S'.guard.get i = S.guard.get i) →
      ∃ fuel', eval S'.env fuel' [0] body (S'.begin pre) = some (out, s.on S'.graph) := by
    intro S' hE hH hL
    have hb : S'.begin pre = (S.begin pre).on S'.graph := by
      unfold Schema.begin St.on; rw [hH, e]
    rw [hb, hE]
    refine Conf.Steps.eval (steps_on S'.graph hst ?_).1
    intro c hc i hi
    have := hL i (lookup_reaches hc hi)
    rw [e] at this
    rw [this]; rfl
  have hcommit : ∀ g : Graph σ.K σ.T, commitRoot (s.on g) = g.commit (if fr.leaked then [] else fr.ops) := by
    intro g
    have : (s.on g).frames[0]? = some fr := by show s.frames[0]? = _; rw [hfr]; rfl
    unfold commitRoot
    rw [this]
    show (if fr.leaked = true then g else g.commit fr.ops) = _
    cases hl : fr.leaked <;> simp [Graph.commit]
  have hself : s.on s.graph = s := rfl
  have hp1 : S1.poisoned = true ↔ S.poisoned = true ∨ out = .panic := by
    unfold Schema.transact at h
    rw [he] at h
    rcases out with (x | v) | _ | _ <;> cases h <;> simp
  by_cases hv : ∃ v, out = .ret (.ok v)
  · refine ⟨if fr.leaked then [] else fr.ops, ?_, ?_, henv, hp1, ?_⟩
    · intro op ho
      split at ho
      · cases ho
      · exact hlog op ho
    · rw [hok hv, ← hself, hcommit, hgr]
    · intro S' hE hH hL
      obtain ⟨fuel', hf⟩ := hrun S' hE hH hL
      obtain ⟨v, rfl⟩ := hv
      refine ⟨fuel', { S' with graph := commitRoot (s.on S'.graph), heap := s.heap }, ?_, hcommit _, hheap.symm, hE, ?_⟩
      · unfold Schema.transact; rw [hf]; rfl
      · simp
  · refine ⟨[], (by simp), ?_, henv, hp1, ?_⟩
    · rw [hfail fun v hv' => hv ⟨v, hv'⟩]; rfl
    · intro S' hE hH hL
      obtain ⟨fuel', hf⟩ := hrun S' hE hH hL
      rcases out with (x | v) | _ | _
      · refine ⟨fuel', { S' with graph := S'.graph, heap := s.heap }, ?_, rfl, hheap.symm, hE, by simp⟩
        unfold Schema.transact; rw [hf]; rfl
      · exact (hv ⟨v, rfl⟩).elim
      · refine ⟨fuel', { S' with graph := S'.graph, heap := s.heap, poisoned := true }, ?_, rfl, hheap.symm, hE, by simp⟩
        unfold Schema.transact; rw [hf]; rfl
      · exact (hne rfl).elim

/-! ## Maps and lists -/

theorem applyAll_untouched [LawfulSig σ] (m : FMap σ.K σ.T) (ops : List (Operation σ.K σ.T)) (q : σ.K)
    (h : ∀ op ∈ ops, (op.id == q) = false) : m.applyAll ops q = m q := by
  rw [applyAll_find]
  have : ops.reverse.find? (fun op => op.id == q) = none := by
    rw [List.find?_eq_none]
    intro op ho
    rw [h op (List.mem_reverse.1 ho)]; simp
  rw [this]

theorem applyAll_local [LawfulSig σ] (m m' : FMap σ.K σ.T) (ops : List (Operation σ.K σ.T)) (q : σ.K) (h : m q = m' q) :
    m.applyAll ops q = m'.applyAll ops q := by
  rw [applyAll_find, applyAll_find, h]

theorem sorted_ext {α : Type} {lt : α → α → Prop} (irr : ∀ a, ¬ lt a a) (asymm : ∀ a b, lt a b → ¬ lt b a) :
    ∀ {l l' : List α}, l.Pairwise lt → l'.Pairwise lt → (∀ x, x ∈ l ↔ x ∈ l') → l = l'
  | [], [], _, _, _ => rfl
  | [], b :: _, _, _, h => by have := (h b).2 (by simp); cases this
  | a :: _, [], _, _, h => by have := (h a).1 (by simp); cases this
  | a :: l, b :: l', hl, hl', h => by
    rw [List.pairwise_cons] at hl hl'
    have hab : a = b := by
      rcases List.mem_cons.1 ((h a).1 (by simp)) with h1 | h1
      · exact h1
      · rcases List.mem_cons.1 ((h b).2 (by simp)) with h2 | h2
        · exact h2.symm
        · exact (asymm _ _ (hl'.1 _ h1) (hl.1 _ h2)).elim
    subst hab
    rw [sorted_ext irr asymm hl.2 hl'.2 fun x => ?_]
    constructor
    · intro hx
      rcases List.mem_cons.1 ((h x).1 (by simp [hx])) with rfl | h1
      · exact (irr _ (hl.1 _ hx)).elim
      · exact h1
    · intro hx
      rcases List.mem_cons.1 ((h x).2 (by simp [hx])) with rfl | h1
      · exact (irr _ (hl'.1 _ hx)).elim
      · exact h1

theorem iter_ext {K T : Type} [Ord K] [TransOrd K] [BEq K] [LawfulBEqOrd K] [Identify T K] {g g' : Graph K T}
    (hg : g.Valid) (hg' : g'.Valid) (h : ∀ q, g.get q = g'.get q) : g.iter = g'.iter := by
  refine sorted_ext (lt := fun a b => compare (id a) (id b) = .lt) ?_ ?_ (Graph.iter_sorted g hg) (Graph.iter_sorted g' hg') ?_
  · intro a ha; rw [ReflCmp.compare_self (cmp := compare)] at ha; cases ha
  · intro a b ha hb; rw [OrientedCmp.gt_of_lt (cmp := compare) ha] at hb; cases hb
  · intro n; rw [Graph.mem_iter g hg, Graph.mem_iter g' hg', h]

/-! ## Reading off the calls of a concrete closure -/

/-- The configurations from `c` on, at most `n` steps. -/
def Conf.trace (E : Env σ) : Nat → Conf σ → List (Conf σ)
  | 0, c => [c]
  | n + 1, c => c :: match c.step E with
    | none => []
    | some c' => Conf.trace E n c'

/-- Whether it comes to an end within `n` steps. -/
def Conf.ends (E : Env σ) : Nat → Conf σ → Bool
  | 0, _ => false
  | n + 1, c => match c.step E with
    | none => true
    | some c' => Conf.ends E n c'

theorem mem_trace {E : Env σ} {a c : Conf σ} (h : Conf.Steps E a c) : ∀ {n : Nat}, a.ends E n = true → c ∈ a.trace E n := by
  induction h with
  | refl c =>
    intro n h
    cases n with
    | zero => cases h
    | succ n => simp [Conf.trace]
  | head h1 _ ih =>
    intro n h
    cases n with
    | zero => cases h
    | succ n =>
      simp only [Conf.ends, h1] at h
      simp only [Conf.trace, h1]
      exact List.mem_cons_of_mem _ (ih h)

/-- The ids looked up and the operations registered in at most `n` steps of a transaction. -/
def Schema.calls (S : Schema σ) (pre : List (Operation σ.K σ.T)) (body : Prog σ) (n : Nat) :
    List σ.K × List (Operation σ.K σ.T) :=
  let t := Conf.trace S.env n ⟨.run [0] body, [], S.begin pre⟩
  (t.filterMap fun c => c.control.lookup, pre ++ t.filterMap fun c => c.control.issue)

theorem looksUp_calls {S : Schema σ} {pre : List (Operation σ.K σ.T)} {body : Prog σ} {n : Nat}
    (hn : Conf.ends S.env n ⟨.run [0] body, [], S.begin pre⟩ = true) {i : σ.K} (h : LooksUp S pre body i) :
    i ∈ (S.calls pre body n).1 := by
  obtain ⟨c, hc, hi⟩ := looksUp_iff.1 h
  exact List.mem_filterMap.2 ⟨c, mem_trace hc hn, hi⟩

theorem writes_calls {S : Schema σ} {pre : List (Operation σ.K σ.T)} {body : Prog σ} {n : Nat}
    (hn : Conf.ends S.env n ⟨.run [0] body, [], S.begin pre⟩ = true) {q : σ.K} (h : Writes S pre body q) :
    ∃ op ∈ (S.calls pre body n).2, (op.id == q) = true := by
  obtain ⟨op, ho | ho, hq⟩ := h
  · exact ⟨op, List.mem_append_left _ ho, hq⟩
  · obtain ⟨c, hc, hi⟩ := issues_iff.1 ho
    exact ⟨op, List.mem_append_right _ (List.mem_filterMap.2 ⟨c, mem_trace hc hn, hi⟩), hq⟩

/-! ## Forgotten contexts -/

/-- The transaction's own context is forgotten. -/
def St.rootLeaked (s : St σ) : Bool :=
  match s.frames[0]? with
  | some fr => fr.leaked
  | none => false

def Control.forgets : Control σ → Bool
  | .run (0 :: _) (.forget _) => true
  | _ => false

theorem rootLeaked_modify {s : St σ} {f : Nat} {u : Frame σ.K σ.T → Frame σ.K σ.T} (hu : ∀ fr, (u fr).leaked = fr.leaked) :
    ({ s with frames := s.frames.modify f u } : St σ).rootLeaked = s.rootLeaked := by
  simp only [St.rootLeaked, List.getElem?_modify]
  cases s.frames[0]? with
  | none => rfl
  | some fr =>
    dsimp only [Functor.map, Option.map]
    split
    · exact hu fr
    · rfl

theorem rootLeaked_open {s : St σ} {f : Nat} (h : 0 < s.frames.length) : (openChild s f).rootLeaked = s.rootLeaked := by
  simp only [St.rootLeaked, openChild, List.getElem?_append_left h]

theorem rootLeaked_close {s : St σ} {n : Nat} (h : 0 < n) : (closeChild s n).rootLeaked = s.rootLeaked := by
  simp only [St.rootLeaked, closeChild, List.getElem?_take_of_lt h]

theorem rootLeaked_commit {s : St σ} {n : Nat} (h : 0 < n) : (commitChild s n).rootLeaked = s.rootLeaked := by
  unfold commitChild
  split
  · exact rootLeaked_close h
  · split
    · exact rootLeaked_close h
    · split
      · exact rootLeaked_close h
      · rename_i p _
        refine Eq.trans ?_ (rootLeaked_close (s := s) h)
        exact rootLeaked_modify (s := closeChild s n) (f := p) (fun _ => rfl)

theorem rootLeaked_leak {s : St σ} (h : 0 < s.frames.length) (f : Nat) :
    (leakFrame s f).rootLeaked = (s.rootLeaked || f == 0) := by
  simp only [St.rootLeaked, leakFrame, List.getElem?_modify]
  obtain ⟨fr, hfr⟩ : ∃ fr, s.frames[0]? = some fr := ⟨_, List.getElem?_eq_getElem h⟩
  rw [hfr]
  cases f <;> simp

theorem step_root (E : Env σ) {g : Graph σ.K σ.T} {c c' : Conf σ} (h : c.step E = some c') (hc : c.Ok g)
    (h0 : 0 < c.st.frames.length) :
    0 < c'.st.frames.length ∧ c'.st.rootLeaked = (c.st.rootLeaked || c.control.forgets) := by
  obtain ⟨control, K, s⟩ := c
  obtain ⟨-, hst, -⟩ := hc
  cases control with
  | run env p =>
    have same : (∀ k, p ≠ .forget k) → (Control.run env p).forgets = false := by
      intro hp
      unfold Control.forgets
      split
      · rename_i he; cases he; exact (hp _ rfl).elim
      · rfl
    cases p with
    | done r => cases h; exact ⟨h0, by simp [same]⟩
    | panic => cases h; exact ⟨h0, by simp [same]⟩
    | reenter => cases h; exact ⟨h0, by simp [same]⟩
    | save c n k =>
      rw [same (by simp), Bool.or_false]
      simp only [Conf.step] at h
      split at h <;> cases h
      · exact ⟨h0, rfl⟩
      · exact ⟨by simpa [pushOp] using h0, rootLeaked_modify fun _ => rfl⟩
    | delete c i k =>
      rw [same (by simp), Bool.or_false]
      simp only [Conf.step] at h
      split at h <;> cases h
      · exact ⟨h0, rfl⟩
      · exact ⟨by simpa [pushOp] using h0, rootLeaked_modify fun _ => rfl⟩
    | get c i k =>
      rw [same (by simp), Bool.or_false]
      simp only [Conf.step] at h; split at h <;> cases h <;> exact ⟨h0, rfl⟩
    | contains c i k =>
      rw [same (by simp), Bool.or_false]
      simp only [Conf.step] at h; split at h <;> cases h <;> exact ⟨h0, rfl⟩
    | tx c body k =>
      rw [same (by simp), Bool.or_false]
      simp only [Conf.step] at h; split at h <;> cases h
      · exact ⟨h0, rfl⟩
      · exact ⟨by simp [openChild], rootLeaked_open h0⟩
    | runTriggers c sch k =>
      rw [same (by simp), Bool.or_false]
      simp only [Conf.step] at h
      split at h
      · cases h; exact ⟨h0, rfl⟩
      · split at h <;> cases h <;> exact ⟨h0, rfl⟩
    | withTarget n k =>
      rw [same (by simp), Bool.or_false]
      simp only [Conf.step] at h; split at h <;> cases h
      · exact ⟨h0, rfl⟩
      · exact ⟨by simpa [setTarget] using h0, rootLeaked_modify fun _ => rfl⟩
    | targetRead c k =>
      rw [same (by simp), Bool.or_false]
      simp only [Conf.step] at h; split at h <;> cases h <;> exact ⟨h0, rfl⟩
    | targetWrite c fn k =>
      rw [same (by simp), Bool.or_false]
      simp only [Conf.step] at h
      split at h
      · cases h; exact ⟨h0, rfl⟩
      · split at h
        · cases h; exact ⟨h0, rfl⟩
        · split at h <;> cases h <;> exact ⟨by simpa [writeTarget] using h0, rootLeaked_modify fun _ => rfl⟩
    | resRead t k =>
      rw [same (by simp), Bool.or_false]
      simp only [Conf.step] at h; split at h <;> cases h <;> exact ⟨h0, rfl⟩
    | resWrite t fn k =>
      rw [same (by simp), Bool.or_false]
      simp only [Conf.step] at h
      split at h
      · cases h; exact ⟨h0, rfl⟩
      · split at h <;> cases h <;> exact ⟨h0, rfl⟩
    | resScope t excl body k =>
      rw [same (by simp), Bool.or_false]
      simp only [Conf.step] at h
      split at h
      · cases h; exact ⟨h0, rfl⟩
      · split at h
        · cases h; exact ⟨h0, rfl⟩
        · split at h <;> cases h <;> exact ⟨h0, rfl⟩
    | resAssign t x k =>
      rw [same (by simp), Bool.or_false]
      simp only [Conf.step] at h
      split at h
      · cases h; exact ⟨h0, rfl⟩
      · split at h <;> cases h <;> exact ⟨h0, rfl⟩
    | catchUnwind body k => cases h; exact ⟨h0, by simp [same]⟩
    | forget k =>
      simp only [Conf.step] at h
      cases env with
      | nil => simp at h; cases h; exact ⟨h0, by simp [Control.forgets]⟩
      | cons f env =>
        simp at h; cases h
        refine ⟨by simpa [leakFrame] using h0, ?_⟩
        rw [rootLeaked_leak h0]
        cases f <;> simp [Control.forgets]
  | back out =>
    have hf : (Control.back (σ := σ) out).forgets = false := rfl
    rw [hf, Bool.or_false]
    rcases out with (e | v) | _ | _
    · cases K with
      | nil => simp [Conf.step] at h
      | cons k K =>
        cases k with
        | tx n env k =>
          obtain ⟨hn, hlen, -⟩ := hst
          simp only [Conf.step] at h; cases h
          exact ⟨by dsimp only at hlen; simp [closeChild]; omega, rootLeaked_close hn⟩
        | triggers f rest env k => simp only [Conf.step] at h; cases h; exact ⟨h0, rfl⟩
        | resScope p excl env k => simp only [Conf.step] at h; cases h; exact ⟨h0, rfl⟩
        | catchUnwind env k => simp only [Conf.step] at h; cases h; exact ⟨h0, rfl⟩
    · cases K with
      | nil => simp [Conf.step] at h
      | cons k K =>
        cases k with
        | tx n env k =>
          obtain ⟨hn, hlen, -⟩ := hst
          simp only [Conf.step] at h; cases h
          refine ⟨?_, rootLeaked_commit hn⟩
          dsimp only at hlen ⊢
          rw [commitChild_length s n (by omega)]; exact hn
        | triggers f rest env k => cases rest <;> (simp only [Conf.step] at h; cases h; exact ⟨h0, rfl⟩)
        | resScope p excl env k => simp only [Conf.step] at h; cases h; exact ⟨h0, rfl⟩
        | catchUnwind env k => simp only [Conf.step] at h; cases h; exact ⟨h0, rfl⟩
    · cases K with
      | nil => simp [Conf.step] at h
      | cons k K =>
        cases k with
        | tx n env k =>
          obtain ⟨hn, hlen, -⟩ := hst
          simp only [Conf.step] at h; cases h
          exact ⟨by dsimp only at hlen; simp [closeChild]; omega, rootLeaked_close hn⟩
        | triggers f rest env k => simp only [Conf.step] at h; cases h; exact ⟨h0, rfl⟩
        | resScope p excl env k => simp only [Conf.step] at h; cases h; exact ⟨h0, rfl⟩
        | catchUnwind env k => simp only [Conf.step] at h; cases h; exact ⟨h0, rfl⟩
    · simp [Conf.step] at h

theorem steps_root {E : Env σ} {g : Graph σ.K σ.T} {a b : Conf σ} (h : Conf.Steps E a b) (ha : a.Ok g)
    (h0 : 0 < a.st.frames.length) (hl : b.st.rootLeaked = true) :
    a.st.rootLeaked = true ∨ ∃ c, Conf.Steps E a c ∧ c.control.forgets = true := by
  induction h with
  | refl c => exact .inl hl
  | head h1 _ ih =>
    obtain ⟨h0', hr⟩ := step_root E h1 ha h0
    rcases ih (step_ok E h1 ha) h0' hl with h | ⟨c, hc, hi⟩
    · rw [hr, Bool.or_eq_true] at h
      rcases h with h | h
      · exact .inl h
      · exact .inr ⟨_, .refl _, h⟩
    · exact .inr ⟨c, .head h1 hc, hi⟩

theorem steps_root_mono {E : Env σ} {g : Graph σ.K σ.T} {a b : Conf σ} (h : Conf.Steps E a b) (ha : a.Ok g)
    (h0 : 0 < a.st.frames.length) (hl : a.st.rootLeaked = true) : b.st.rootLeaked = true := by
  induction h with
  | refl c => exact hl
  | head h1 _ ih =>
    obtain ⟨h0', hr⟩ := step_root E h1 ha h0
    exact ih (step_ok E h1 ha) h0' (by rw [hr, hl]; rfl)

/-- The machine is deterministic: of two configurations it passes, the one comes before the other. -/
theorem steps_linear {E : Env σ} {a b c : Conf σ} (h : Conf.Steps E a b) (h' : Conf.Steps E a c) :
    Conf.Steps E b c ∨ Conf.Steps E c b := by
  induction h with
  | refl _ => exact .inl h'
  | head h1 h2 ih =>
    cases h' with
    | refl _ => exact .inr (.head h1 h2)
    | head h3 h4 => rw [h1] at h3; cases h3; exact ih h4

theorem forgets_iff {S : Schema σ} {fuel : Nat} {pre : List (Operation σ.K σ.T)} {body : Prog σ}
    {out : Out (Except Error σ.V)} {s : St σ} (h : eval S.env fuel [0] body (S.begin pre) = some (out, s)) (ho : out ≠ .stuck) :
    s.rootLeaked = true ↔ Forgets S pre body := by
  have hst : Conf.Steps S.env ⟨.run [0] body, [], S.begin pre⟩ ⟨.back out, [], s⟩ := eval_steps S.env fuel _ _ _ _ _ [] h ho
  have h0 : 0 < (S.begin pre).frames.length := by simp [Schema.begin]
  constructor
  · intro hl
    rcases steps_root hst (begin_ok S pre body) h0 hl with hl | ⟨⟨control, K, s'⟩, hc, hi⟩
    · simp [Schema.begin, St.rootLeaked] at hl
    · unfold Control.forgets at hi
      split at hi
      · rename_i he; dsimp only at he; subst he; exact ⟨_, _, _, _, hc⟩
      · cases hi
  · rintro ⟨env, k, K, s', hc⟩
    have hok := steps_ok hc (begin_ok S pre body)
    have h0' : 0 < s'.frames.length := Nat.zero_lt_of_lt (hok.env _ _ rfl 0 (by simp))
    have h1 : Conf.step S.env ⟨.run (0 :: env) (.forget k), K, s'⟩ = some ⟨.run (0 :: env) k, K, leakFrame s' 0⟩ := rfl
    obtain ⟨h0'', hr⟩ := step_root S.env h1 hok h0'
    have hl : (leakFrame s' 0).rootLeaked = true := by rw [hr]; simp [Control.forgets]
    rcases steps_linear hst (hc.tail h1) with hb | hb
    · generalize hx : (⟨.back out, [], s⟩ : Conf σ) = x at hb
      cases hb with
      | refl _ => cases hx
      | head h2 _ =>
        subst hx
        rcases out with (e | v) | _ | _ <;> simp [Conf.step] at h2
    · exact steps_root_mono hb (step_ok S.env h1 hok) h0'' hl

end Plotline
