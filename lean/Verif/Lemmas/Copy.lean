import Verif.Lemmas.Context

/-! Simulation between `eval` and the copy/run/replace interpreter, and evaluation of static scripts. -/

namespace Plotline

open Std

set_option linter.unusedSectionVars false

variable {σ : Sig}

/-- Context `f` of `s` holds exactly the view `v`. -/
structure Sim (s : St σ) (f : Nat) (par : Option Nat) (v : View σ) : Prop where
  wf : FramesWF s.frames
  frame : s.frames[f]? = some ⟨par, v.issued, v.target, false⟩
  map : ctxGet s.graph s.frames f = v.map
  heap : s.heap = v.heap
  locks : s.locks = v.inUse

/-- `s'` differs from `s` only in context `f` and the values of resources. -/
structure Only (f : Nat) (s s' : St σ) : Prop where
  graph : s'.graph = s.graph
  len : s'.frames.length = s.frames.length
  locks : s'.locks = s.locks
  other : ∀ a, a ≠ f → s'.frames[a]? = s.frames[a]?

theorem Only.refl (f : Nat) (s : St σ) : Only f s s := ⟨rfl, rfl, rfl, fun _ _ => rfl⟩

theorem Only.trans {f : Nat} {s s' s'' : St σ} (h : Only f s s') (h' : Only f s' s'') : Only f s s'' :=
  ⟨h'.graph.trans h.graph, h'.len.trans h.len, h'.locks.trans h.locks, fun a ha => (h'.other a ha).trans (h.other a ha)⟩

theorem Only.modify (f : Nat) (s : St σ) (u : Frame σ.K σ.T → Frame σ.K σ.T) :
    Only f s { s with frames := s.frames.modify f u } := by
  refine ⟨rfl, by simp, rfl, ?_⟩
  intro a ha
  have : ¬ f = a := fun e => ha e.symm
  simp [this]

/-- Both runs give out the same result and end in related states. -/
def SimOut {α : Type} (f : Nat) (par : Option Nat) (s : St σ) : Option (Out α × St σ) → Option (Out α × View σ) → Prop
  | none, none => True
  | some (o, s'), some (o', v') => o = o' ∧ Sim s' f par v' ∧ Only f s s'
  | _, _ => False

theorem SimOut.from {α : Type} {f : Nat} {par : Option Nat} {s s1 : St σ} (h : Only f s s1) {r : Option (Out α × St σ)}
    {r' : Option (Out α × View σ)} (hr : SimOut f par s1 r r') : SimOut f par s r r' := by
  match r, r', hr with
  | none, none, _ => trivial
  | some (_, _), some (_, _), ⟨a, b, c⟩ => exact ⟨a, b, h.trans c⟩

section
variable [LawfulSig σ]

theorem ctxGet_modify_same {s : St σ} {f : Nat} {fr : Frame σ.K σ.T} (hf : s.frames[f]? = some fr)
    (u : Frame σ.K σ.T → Frame σ.K σ.T) (hpar : (u fr).parent = fr.parent) (hops : (u fr).ops = fr.ops) :
    ctxGet s.graph (s.frames.modify f u) f = ctxGet s.graph s.frames f := by
  funext i
  apply ctxGet_congr
  intro a _
  rw [List.getElem?_modify]
  cases ha : s.frames[a]? with
  | none => rfl
  | some fa =>
    simp only [Option.map_eq_map, Option.map_some, Option.some.injEq, Prod.mk.injEq]
    split
    · rename_i e; subst e; rw [hf] at ha; cases ha; exact ⟨hpar, hops⟩
    · exact ⟨rfl, rfl⟩

theorem Sim.target {s : St σ} {f : Nat} {par : Option Nat} {v : View σ} (h : Sim s f par v) (t : Option (Lock σ.T)) :
    Sim { s with frames := s.frames.modify f fun fr => { fr with target := t } } f par { v with target := t } := by
  have hf := h.frame
  refine ⟨h.wf.modify _ _ fun _ => rfl, by simp [hf], ?_, h.heap, h.locks⟩
  rw [← h.map]
  exact ctxGet_modify_same hf _ rfl rfl

theorem Sim.push {s : St σ} {f : Nat} {par : Option Nat} {v : View σ} (h : Sim s f par v) (op : Operation σ.K σ.T) :
    Sim (pushOp s f op) f par { v with map := v.map.apply op, issued := v.issued ++ [op] } := by
  have hf := h.frame
  have hf' : (pushOp s f op).frames[f]? = some ⟨par, v.issued ++ [op], v.target, false⟩ := by
    simp [pushOp, hf]
  have hwf' : FramesWF (pushOp s f op).frames := h.wf.modify _ _ fun _ => rfl
  refine ⟨hwf', hf', ?_, h.heap, h.locks⟩
  show _ = FMap.apply v.map op
  rw [← h.map]
  cases par with
  | none =>
    rw [ctxGet_applyAll_root hf' rfl, ctxGet_applyAll_root hf rfl, applyAll_append]; rfl
  | some p =>
    have hlt := h.wf _ _ _ hf rfl
    rw [ctxGet_applyAll_parent hf' rfl hlt, ctxGet_applyAll_parent hf rfl hlt, applyAll_append]
    have : ctxGet (pushOp s f op).graph (pushOp s f op).frames p = ctxGet s.graph s.frames p := by
      funext i
      refine ctxGet_below h.wf hlt (fun a ha => ?_) i
      have : ¬ f = a := by omega
      simp [pushOp, this]
    rw [this]; rfl

theorem Sim.child {s : St σ} {f : Nat} {par : Option Nat} {v : View σ} (h : Sim s f par v) :
    Sim (openChild s f) s.frames.length (some f)
      { map := v.map, issued := [], target := none, heap := v.heap, inUse := v.inUse } := by
  have hf := h.frame
  have hlt : f < s.frames.length := (List.getElem?_eq_some_iff.1 hf).1
  have hn : (openChild s f).frames[s.frames.length]? = some ⟨some f, [], none, false⟩ := by simp [openChild]
  refine ⟨h.wf.push _ (by intro p hp; cases hp; exact hlt), hn, ?_, h.heap, h.locks⟩
  rw [ctxGet_applyAll_parent hn rfl hlt]
  show ctxGet _ _ f = _
  rw [← h.map]
  funext i
  exact ctxGet_below h.wf hlt (fun a ha => by rw [openChild_below s f ha]) i

theorem Sim.close {s s1 : St σ} {f : Nat} {par : Option Nat} {v c : View σ} (h : Sim s f par v)
    (hc : Sim s1 s.frames.length (some f) c)
    (ho : Only s.frames.length (openChild s f) s1) :
    Sim (closeChild s1 s.frames.length) f par { v with heap := c.heap } ∧ Only f s (closeChild s1 s.frames.length) := by
  have hf := h.frame
  have hlt : f < s.frames.length := (List.getElem?_eq_some_iff.1 hf).1
  have hb : ∀ a, a < s.frames.length → (closeChild s1 s.frames.length).frames[a]? = s.frames[a]? := by
    intro a ha; rw [closeChild_below s1 ha, ho.other a (by omega), openChild_below s f ha]
  have hlen : (closeChild s1 s.frames.length).frames.length = s.frames.length := by
    have := ho.len; simp [openChild] at this; simp [closeChild, this]
  have hgr : (closeChild s1 s.frames.length).graph = s.graph := ho.graph
  refine ⟨⟨hc.wf.take _, by rw [hb f hlt]; exact hf, ?_, hc.heap, ho.locks.trans h.locks⟩, hgr, hlen, ho.locks, ?_⟩
  · rw [hgr, ← h.map]; funext i
    exact ctxGet_below h.wf hlt (fun a ha => by rw [hb a (by omega)]) i
  · intro a _
    by_cases ha : a < s.frames.length
    · exact hb a ha
    · rw [List.getElem?_eq_none (by omega), List.getElem?_eq_none (by omega)]

theorem commitChild_heap (s1 : St σ) (n : Nat) : (commitChild s1 n).heap = s1.heap := by
  unfold commitChild closeChild
  split
  · rfl
  · split
    · rfl
    · split <;> rfl

theorem commitChild_locks (s1 : St σ) (n : Nat) : (commitChild s1 n).locks = s1.locks := by
  unfold commitChild closeChild
  split
  · rfl
  · split
    · rfl
    · split <;> rfl

theorem Sim.commit {s s1 : St σ} {f : Nat} {par : Option Nat} {v c : View σ} (h : Sim s f par v)
    (hc : Sim s1 s.frames.length (some f) c)
    (ho : Only s.frames.length (openChild s f) s1) :
    Sim (commitChild s1 s.frames.length) f par
      { v with map := c.map, issued := v.issued ++ c.issued, heap := c.heap } ∧
    Only f s (commitChild s1 s.frames.length) := by
  have hf := h.frame
  obtain ⟨hcs, hco⟩ := h.close hc ho
  have hn := hc.frame
  have hlt : f < s.frames.length := (List.getElem?_eq_some_iff.1 hf).1
  have hlen : s1.frames.length = s.frames.length + 1 := by simpa [openChild] using ho.len
  have hfr := commitChild_eq hn rfl rfl
  have hmod : Only f (closeChild s1 s.frames.length) (commitChild s1 s.frames.length) := by
    refine ⟨commitChild_graph _ _, ?_, commitChild_locks _ _, ?_⟩
    · rw [hfr]; simp [closeChild]
    · intro a ha
      have : ¬ f = a := fun e => ha e.symm
      rw [hfr]; simp [closeChild, this]
  refine ⟨⟨?_, ?_, ?_, ?_, ?_⟩, hco.trans hmod⟩
  · rw [hfr]; exact (hc.wf.take _).modify _ _ fun _ => rfl
  · have h2 : (closeChild s1 s.frames.length).frames[f]? = some ⟨par, v.issued, v.target, false⟩ := by
      rw [closeChild_below s1 hlt, ho.other f (by omega), openChild_below s f hlt]; exact hf
    have h2' : (s1.frames.take s.frames.length)[f]? = some ⟨par, v.issued, v.target, false⟩ := h2
    rw [hfr, List.getElem?_modify, h2']
    simp
  · rw [ctxGet_commit hc.wf hn rfl rfl hlen]; exact hc.map
  · rw [commitChild_heap]; exact hc.heap
  · rw [commitChild_locks]; exact ho.locks.trans h.locks

theorem simEach {f : Nat} {par : Option Nat} {run : Prog σ → St σ → Option (Out (Except Error σ.V) × St σ)}
    {run' : Prog σ → View σ → Option (Out (Except Error σ.V) × View σ)} (ts : List (Prog σ))
    (hrun : ∀ t ∈ ts, ∀ s v, Sim s f par v → SimOut f par s (run t s) (run' t v)) :
    ∀ s v, Sim s f par v → SimOut f par s (tryForEach run ts s) (copyEach run' ts v) := by
  induction ts with
  | nil => intro s v h; exact ⟨rfl, h, .refl _ _⟩
  | cons t ts ih =>
    intro s v h
    have hr := hrun t (List.mem_cons_self ..) s v h
    simp only [tryForEach, copyEach, Option.bind_eq_bind]
    match h1 : run t s, h2 : run' t v with
    | none, none => trivial
    | none, some _ => rw [h1, h2] at hr; exact hr.elim
    | some (_, _), none => rw [h1, h2] at hr; exact hr.elim
    | some (o, s1), some (o', v1) =>
      rw [h1, h2] at hr
      obtain ⟨rfl, hs, ho⟩ := hr
      rcases o with (e | a) | _ | _
      · exact ⟨rfl, hs, ho⟩
      · exact .from ho (ih (fun t ht => hrun t (List.mem_cons_of_mem _ ht)) s1 v1 hs)
      · exact ⟨rfl, hs, ho⟩
      · exact ⟨rfl, hs, ho⟩

theorem Sim.readTarget {s : St σ} {f : Nat} {par : Option Nat} {v : View σ} (h : Sim s f par v) :
    readTarget s f = v.targetVal := by
  unfold Plotline.readTarget View.targetVal
  rw [h.frame]
  rcases v.target with _ | ⟨n, _ | _⟩ <;> rfl

theorem Sim.busy {s : St σ} {f : Nat} {par : Option Nat} {v : View σ} (h : Sim s f par v) (E : Env σ) (t : σ.Ty)
    (excl : Bool) : v.busy E t excl = s.resBlocks E t excl := by
  unfold View.busy St.resBlocks St.blocks
  rw [h.locks]
  rfl

theorem Sim.lock {s : St σ} {f : Nat} {par : Option Nat} {v : View σ} (h : Sim s f par v) (p : Nat) (excl : Bool) :
    Sim (lockRes s p excl) f par { v with inUse := (p, excl) :: v.inUse } :=
  ⟨h.wf, h.frame, h.map, h.heap, by simp [lockRes, h.locks]⟩

/-- The simulation. -/
theorem eval_sim (E : Env σ) (hE : E.Every Prog.Own) (fuel : Nat) : ∀ (env : List Nat) (f : Nat) (par : Option Nat)
    (p : Prog σ) (s : St σ) (v : View σ), p.Every Prog.Own → Sim s f par v →
    SimOut f par s (eval E fuel (f :: env) p s) (copyRun E fuel p v) := by
  induction fuel with
  | zero => intro env f par p s v _ _; rw [eval, copyRun]; trivial
  | succ fuel ih =>
    intro env f par p s v hp h
    have keep : ∀ (s1 : St σ) (v1 : View σ), Only f s s1 → Sim s1 f par v1 → ∀ q : Prog σ, q.Every Prog.Own →
        SimOut f par s (eval E fuel (f :: env) q s1) (copyRun E fuel q v1) :=
      fun s1 v1 ho hs q hq => .from ho (ih env f par q s1 v1 hq hs)
    have here := Only.refl f s
    cases p with
    | done r => rw [eval, copyRun]; exact ⟨rfl, h, here⟩
    | panic => rw [eval, copyRun]; exact ⟨rfl, h, here⟩
    | reenter => rw [eval, copyRun]; exact ⟨rfl, h, here⟩
    | save c n k =>
      obtain ⟨rfl, hk⟩ := hp
      rw [eval, copyRun]
      exact keep _ _ (Only.modify f s _) (h.push (.save n)) k hk
    | delete c i k =>
      obtain ⟨rfl, hk⟩ := hp
      rw [eval, copyRun]
      exact keep _ _ (Only.modify f s _) (h.push (.delete i)) k hk
    | get c i k =>
      obtain ⟨rfl, hk⟩ := hp
      rw [eval, copyRun, ← h.map]
      exact keep _ _ here h _ (hk _)
    | contains c i k =>
      obtain ⟨rfl, hk⟩ := hp
      rw [eval, copyRun, ← h.map]
      simp only [List.getElem?_cons_zero, ctxContains_eq]
      exact keep _ _ here h _ (hk _)
    | tx c body k =>
      obtain ⟨rfl, hb, hk⟩ := hp
      rw [eval, copyRun]
      simp only [List.getElem?_cons_zero, Option.bind_eq_bind]
      have hr := ih (f :: env) s.frames.length (some f) body (openChild s f) _ hb h.child
      match h1 : eval E fuel (s.frames.length :: f :: env) body (openChild s f),
          h2 : copyRun E fuel body { map := v.map, issued := [], target := none, heap := v.heap, inUse := v.inUse } with
      | none, none => trivial
      | none, some _ => rw [h1, h2] at hr; exact hr.elim
      | some (_, _), none => rw [h1, h2] at hr; exact hr.elim
      | some (o, s1), some (o', c) =>
        rw [h1, h2] at hr
        obtain ⟨rfl, hs, ho⟩ := hr
        obtain ⟨hcl, hclo⟩ := h.close hs ho
        obtain ⟨hco, hcoo⟩ := h.commit hs ho
        rcases o with (e | a) | _ | _
        · exact keep _ _ hclo hcl _ (hk _)
        · exact keep _ _ hcoo hco _ (hk _)
        · exact ⟨rfl, hcl, hclo⟩
        · exact ⟨rfl, hcl, hclo⟩
    | runTriggers c sch k =>
      obtain ⟨rfl, hk⟩ := hp
      rw [eval, copyRun]
      simp only [List.getElem?_cons_zero, Option.bind_eq_bind]
      cases hts : E.triggers.select sch with
      | none => exact keep _ _ here h _ (hk _)
      | some ts =>
        have hr := simEach (run := eval E fuel [f]) (run' := copyRun E fuel) ts
          (fun t ht s v hs => ih [] f par t s v (hE _ _ hts t ht) hs) s v h
        simp only [Option.getD_some]
        match h1 : tryForEach (eval E fuel [f]) ts s, h2 : copyEach (copyRun E fuel) ts v with
        | none, none => trivial
        | none, some _ => rw [h1, h2] at hr; exact hr.elim
        | some (_, _), none => rw [h1, h2] at hr; exact hr.elim
        | some (o, s1), some (o', v1) =>
          rw [h1, h2] at hr
          obtain ⟨rfl, hs, ho⟩ := hr
          rcases o with r | _ | _
          · exact keep _ _ ho hs _ (hk _)
          · exact ⟨rfl, hs, ho⟩
          · exact ⟨rfl, hs, ho⟩
    | withTarget n k =>
      obtain ⟨_, hk⟩ := hp
      rw [eval, copyRun]
      exact keep _ _ (Only.modify f s _) (h.target _) k hk
    | targetRead c k =>
      obtain ⟨rfl, hk⟩ := hp
      rw [eval, copyRun, ← h.readTarget]
      exact keep _ _ here h _ (hk _)
    | targetWrite c fn k =>
      obtain ⟨rfl, hk⟩ := hp
      rw [eval, copyRun, ← h.readTarget]
      simp only [List.getElem?_cons_zero]
      cases hrt : Plotline.readTarget s f with
      | none => exact keep _ _ here h _ (hk _)
      | some n =>
        simp only
        rcases hn : fn n with ⟨n', _ | _⟩
        · exact keep _ _ (Only.modify f s _) (h.target _) _ (hk _)
        · exact ⟨rfl, h.target _, Only.modify f s _⟩
    | resRead t k =>
      obtain ⟨_, hk⟩ := hp
      rw [eval, copyRun, ← h.heap, h.busy]
      split
      · exact ⟨rfl, h, here⟩
      · exact keep _ _ here h _ (hk _)
    | resScope t excl body k =>
      obtain ⟨_, hb, hk⟩ := hp
      rw [eval, copyRun, h.busy, St.resBlocks, h.heap]
      cases hq : (E.resources.res t).lock with
      | none => simp only [Bool.false_eq_true, if_false]; exact keep _ _ here h _ (hk _)
      | some q =>
        simp only
        split
        · exact ⟨rfl, h, here⟩
        · cases hv : (E.resources.res t).peek v.heap with
          | none => exact keep _ _ here h _ (hk _)
          | some x =>
            simp only [Option.bind_eq_bind]
            have hr := ih env f par (body x) (lockRes s q excl) _ (hb x) (h.lock q excl)
            match h1 : eval E fuel (f :: env) (body x) (lockRes s q excl),
                h2 : copyRun E fuel (body x) { v with inUse := (q, excl) :: v.inUse } with
            | none, none => trivial
            | none, some _ => rw [h1, h2] at hr; exact hr.elim
            | some (_, _), none => rw [h1, h2] at hr; exact hr.elim
            | some (o, s1), some (o', v1) =>
              rw [h1, h2] at hr
              obtain ⟨rfl, hs, ho⟩ := hr
              have hl : s1.locks.tail = s.locks := by rw [ho.locks]; rfl
              have hou : Only f s (unlockRes s1) := ⟨ho.graph, ho.len, hl, ho.other⟩
              have hsu : Sim (unlockRes s1) f par { v1 with inUse := v.inUse } :=
                ⟨hs.wf, hs.frame, hs.map, hs.heap, hl.trans h.locks⟩
              rcases o with r | _ | _
              · exact keep _ _ hou hsu _ (hk _)
              · refine ⟨rfl, ⟨hs.wf, hs.frame, hs.map, ?_, hl.trans h.locks⟩, ho.graph, ho.len, hl, ho.other⟩
                simp [unwindRes, hs.heap]
              · exact ⟨rfl, hsu, hou⟩
    | resAssign t x k =>
      obtain ⟨_, hk⟩ := hp
      rw [eval, copyRun, h.locks]
      cases hq : (E.resources.res t).lock with
      | none => exact ⟨rfl, h, here⟩
      | some q =>
        simp only
        split
        · exact keep (assignRes s q t x) { v with heap := v.heap.set q ⟨⟨t, x⟩, false⟩ } ⟨rfl, rfl, rfl, fun _ _ => rfl⟩
            ⟨h.wf, h.frame, h.map, by simp [assignRes, h.heap], h.locks⟩ _ hk
        · exact ⟨rfl, h, here⟩
    | resWrite t fn k =>
      obtain ⟨_, hk⟩ := hp
      rw [eval, copyRun, ← h.heap, h.busy]
      split
      · exact ⟨rfl, h, here⟩
      rcases hw : (E.resources.res t).withMut s.heap (fun v => ((fn v).1, if (fn v).2 then none else some ()))
        with ⟨a, hp⟩
      have hh : Sim { s with heap := hp } f par { v with heap := hp } := ⟨h.wf, h.frame, h.map, rfl, h.locks⟩
      cases a with
      | unavailable => exact keep _ _ here h _ (hk _)
      | ran x => exact keep { s with heap := hp } _ ⟨rfl, rfl, rfl, fun _ _ => rfl⟩ hh _ (hk _)
      | panicked => exact ⟨rfl, hh, ⟨rfl, rfl, rfl, fun _ _ => rfl⟩⟩
    | catchUnwind body k =>
      obtain ⟨_, hb, hk⟩ := hp
      rw [eval, copyRun]
      simp only [Option.bind_eq_bind]
      have hr := ih env f par body s v hb h
      match h1 : eval E fuel (f :: env) body s, h2 : copyRun E fuel body v with
      | none, none => trivial
      | none, some _ => rw [h1, h2] at hr; exact hr.elim
      | some (_, _), none => rw [h1, h2] at hr; exact hr.elim
      | some (o, s1), some (o', v1) =>
        rw [h1, h2] at hr
        obtain ⟨rfl, hs, ho⟩ := hr
        rcases o with r | _ | _
        · exact keep _ _ ho hs _ (hk _)
        · exact keep _ _ ho hs _ (hk _)
        · exact ⟨rfl, hs, ho⟩
    | forget k => exact absurd hp.1 (by simp [Prog.Own])

theorem begin_sim (S : Schema σ) (pre : List (Operation σ.K σ.T)) :
    Sim (S.begin pre) 0 none { map := FMap.applyAll S.graph.get pre, issued := pre, target := none, heap := S.heap, inUse := [] } := by
  have e : S.guard = S.graph := by unfold Schema.guard; split <;> rfl
  refine ⟨(begin_reachable S pre).wf, rfl, ?_, rfl, rfl⟩
  rw [ctxGet_applyAll_root (fr := ⟨none, pre, none, false⟩) rfl rfl]
  show FMap.applyAll S.guard.get pre = _
  rw [e]

end

/-! ## Scripts -/

/-- Running a script's closure in the youngest context of a state. -/
theorem eval_script (E : Env σ) (sc : Script σ.K σ.T) : ∀ (r : Except Error σ.V) (fuel : Nat) (env : List Nat) (s : St σ)
    (f : Nat), f < s.frames.length → sc.cost ≤ fuel →
    eval E fuel (f :: env) (sc.closure r) s =
      some (.ret r, { s with frames := s.frames.modify f fun fr => { fr with ops := fr.ops ++ sc.flatten } }) := by
  induction sc with
  | nil =>
    intro r fuel env s f hf hc
    cases fuel with
    | zero => simp [Script.cost] at hc
    | succ fuel =>
      simp only [Script.closure, eval, Script.flatten, List.append_nil]
      congr 2
      have : s.frames.modify f (fun fr => fr) = s.frames := by
        apply List.ext_getElem?; intro i; rw [List.getElem?_modify]; simp
      rw [this]
  | save n rest ih =>
    intro r fuel env s f hf hc
    cases fuel with
    | zero => simp [Script.cost] at hc
    | succ fuel =>
      simp only [Script.cost] at hc
      simp only [Script.closure, eval, List.getElem?_cons_zero, Script.flatten]
      rw [ih r fuel env _ f (by simpa [pushOp] using hf) (by omega)]
      congr 3
      simp only [pushOp]
      apply List.ext_getElem?; intro i
      simp only [List.getElem?_modify]
      cases s.frames[i]? with
      | none => rfl
      | some fr => simp only [Option.map_eq_map, Option.map_some]; split <;> simp
  | delete n rest ih =>
    intro r fuel env s f hf hc
    cases fuel with
    | zero => simp [Script.cost] at hc
    | succ fuel =>
      simp only [Script.cost] at hc
      simp only [Script.closure, eval, List.getElem?_cons_zero, Script.flatten]
      rw [ih r fuel env _ f (by simpa [pushOp] using hf) (by omega)]
      congr 3
      simp only [pushOp]
      apply List.ext_getElem?; intro i
      simp only [List.getElem?_modify]
      cases s.frames[i]? with
      | none => rfl
      | some fr => simp only [Option.map_eq_map, Option.map_some]; split <;> simp
  | sub inner ok rest ihi ihr =>
    intro r fuel env s f hf hc
    cases fuel with
    | zero => simp [Script.cost] at hc
    | succ fuel =>
      simp only [Script.cost] at hc
      simp only [Script.closure, eval, List.getElem?_cons_zero, Script.flatten]
      have hn : s.frames.length < (openChild s f).frames.length := by simp [openChild]
      rw [ihi _ fuel (f :: env) (openChild s f) s.frames.length hn (by omega)]
      have hfr : ((openChild s f).frames.modify s.frames.length fun fr => { fr with ops := fr.ops ++ inner.flatten })
          = s.frames ++ [⟨some f, inner.flatten, none, false⟩] := by
        apply List.ext_getElem?; intro i
        rw [List.getElem?_modify]
        simp only [openChild]
        rcases Nat.lt_trichotomy i s.frames.length with h | h | h
        · rw [List.getElem?_append_left h, List.getElem?_append_left h]
          have : ¬ s.frames.length = i := by omega
          simp [this]
        · subst h; simp
        · rw [List.getElem?_eq_none (by simp; omega), List.getElem?_eq_none (by simp; omega)]; rfl
      rw [hfr]
      cases ok with
      | false =>
        have hcl : closeChild ⟨(openChild s f).graph, s.frames ++ [⟨some f, inner.flatten, none, false⟩],
            (openChild s f).heap, (openChild s f).locks⟩ s.frames.length = s := by
          simp [closeChild, openChild]
        simp only [Bool.false_eq_true, if_false, hcl, List.nil_append]
        exact ihr r fuel env s f hf (by omega)
      | true =>
        have hcm : commitChild ⟨(openChild s f).graph, s.frames ++ [⟨some f, inner.flatten, none, false⟩],
            (openChild s f).heap, (openChild s f).locks⟩ s.frames.length =
            { s with frames := s.frames.modify f fun fr => { fr with ops := fr.ops ++ inner.flatten } } := by
          simp [commitChild, openChild]
        simp only [if_true, hcm]
        rw [ihr r fuel env _ f (by simpa using hf) (by omega)]
        congr 3
        apply List.ext_getElem?; intro i
        simp only [List.getElem?_modify]
        cases s.frames[i]? with
        | none => rfl
        | some fr => simp only [Option.map_eq_map, Option.map_some]; split <;> simp

end Plotline
