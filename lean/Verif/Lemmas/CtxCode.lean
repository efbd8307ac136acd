import Verif.Lemmas.Params

/-! # Code that has a `Ctx`, run on a context and on a schema -/

namespace Plotline

open Std

variable {σ : Sig}

/-- What is kept between the context and the schema. -/
structure Fits (E : Env σ) (g : Graph σ.K σ.T) (s : St σ) (f : Nat) (S : Schema σ) (t : Option (Lock σ.T)) : Prop where
  reach : Reachable g s
  there : f < s.frames.length
  valid : S.graph.Valid
  shows : Shows s f S
  env : S.env = E
  target : targetIn s f = t

theorem readTarget_seenIn (s : St σ) (f : Nat) : readTarget s f = seenIn (targetIn s f) := by
  unfold readTarget targetIn
  cases s.frames[f]? with
  | none => rfl
  | some fr => simp only [Option.bind_some]; cases fr.target <;> rfl

theorem ctxGet_writeTarget (s : St σ) (f h : Nat) (n : σ.T) (b : Bool) (i : σ.K) :
    ctxGet (writeTarget s f n b).graph (writeTarget s f n b).frames h i = ctxGet s.graph s.frames h i := by
  apply ctxGet_congr
  intro a _
  simp only [writeTarget, List.getElem?_modify]
  cases s.frames[a]? with
  | none => rfl
  | some fr => simp only [Option.map_some]; split <;> rfl

theorem Fits.written {E : Env σ} {g : Graph σ.K σ.T} {s : St σ} {f : Nat} {S : Schema σ} {t : Option (Lock σ.T)} (h : Fits E g s f S t)
    (n : σ.T) (b : Bool) : Fits E g (writeTarget s f n b) f S (some ⟨n, b⟩) := by
  refine ⟨.writeTarget f n b h.reach, by simp [writeTarget, h.there], h.valid, ⟨?_, h.shows.heap, h.shows.free⟩, h.env, ?_⟩
  · rw [h.shows.nodes]; funext i; exact (ctxGet_writeTarget s f f n b i).symm
  · have := List.getElem?_eq_getElem h.there
    simp [targetIn, writeTarget, this]

theorem Fits.heap {E : Env σ} {g : Graph σ.K σ.T} {s : St σ} {f : Nat} {S : Schema σ} {t : Option (Lock σ.T)} (h : Fits E g s f S t)
    (hp : Heap σ.Val) : Fits E g { s with heap := hp } f { S with heap := hp } t :=
  ⟨.heap hp h.reach, h.there, h.valid, ⟨h.shows.nodes, rfl, h.shows.free⟩, h.env, h.target⟩

theorem Fits.resBlocks {E : Env σ} {g : Graph σ.K σ.T} {s : St σ} {f : Nat} {S : Schema σ} {t : Option (Lock σ.T)} (h : Fits E g s f S t)
    (u : σ.Ty) (b : Bool) : s.resBlocks E u b = false := by
  unfold St.resBlocks St.blocks
  rw [h.shows.free]
  cases (E.resources.res u).lock <;> rfl

theorem Fits.tx [LawfulSig σ] {E : Env σ} {g : Graph σ.K σ.T} {s : St σ} {f : Nat} {S : Schema σ} {t : Option (Lock σ.T)} (h : Fits E g s f S t)
    {p : Prog σ} (hp : p.Alone) (k : Except Error σ.V → Prog σ) (fuel : Nat) :
    (S.transact fuel [] p = none ∧ eval E (fuel + 1) [f] (.tx 0 p k) s = none) ∨
    ∃ out S1 s1, S.transact fuel [] p = some (out, S1) ∧ Fits E g s1 f S1 t ∧
      ∀ more, eval E (fuel + more + 1) [f] (.tx 0 p k) s =
        match out with
        | .ret r => eval E (fuel + more) [f] (k r) s1
        | .panic => some (.panic, s1)
        | .stuck => some (.stuck, s1) := by
  have hE := h.env
  subst hE
  have henv : ∀ e ∈ [f], e < s.frames.length := by simp [h.there]
  rcases sub_as_tx h.reach henv (c := 0) (f := f) rfl h.valid h.shows hp k fuel with hn | ⟨out, S1, s1, ops, ht, hfr, hg, hre, hsh, hev⟩
  · exact .inl hn
  · have hlen : f < s1.frames.length := by rw [hfr]; simpa using h.there
    have htg : targetIn s1 f = t := by
      have := h.target
      unfold targetIn at this ⊢
      rw [hfr, List.getElem?_modify]
      cases hx : s.frames[f]? with
      | none => rw [hx] at this; simpa using this
      | some fr => rw [hx] at this; simpa using this
    have hE' : S1.env = S.env := by obtain ⟨_, _, h2, _⟩ := transact_some ht; exact h2
    exact .inr ⟨out, S1, s1, ht, ⟨hre, hlen, transact_valid h.valid ht, hsh, hE', htg⟩, hev⟩

theorem runs_of_eval {E : Env σ} {env : List Nat} {p : Prog σ} {s s' : St σ} {out : Out (Except Error σ.V)} {fuel : Nat}
    (h : eval E fuel env p s = some (out, s')) : Runs E env p s out s' := ⟨fuel, h⟩

/-- Whatever the code does to the schema it does to the context. -/
theorem acts_runs [LawfulSig σ] {E : Env σ} {g : Graph σ.K σ.T} {f : Nat} {c : CtxCode σ} {S S' : Schema σ} {t t' : Option (Lock σ.T)}
    {o : Out (Except Error σ.V)} (h : ActsOn c S t o S' t') :
    ∀ s, c.Apart → Fits E g s f S t → ∃ s', Runs E [f] c.asTrigger s o s' ∧ Fits E g s' f S' t' := by
  induction h with
  | done r S t => exact fun s _ hs => ⟨s, ⟨1, rfl⟩, hs⟩
  | panic S t => exact fun s _ hs => ⟨s, ⟨1, rfl⟩, hs⟩
  | @tx body k S S1 S2 t t' r o fuel ht _ ih =>
    intro s hc hs
    rcases hs.tx hc.1 (fun r => (k r).asTrigger) fuel with ⟨hn, _⟩ | ⟨out, S1', s1, ht', hs1, hev⟩
    · rw [ht] at hn; cases hn
    · rw [ht] at ht'; cases ht'
      obtain ⟨s', ⟨b, hb⟩, hs'⟩ := ih s1 (hc.2 r) hs1
      refine ⟨s', ⟨fuel + b + 1, ?_⟩, hs'⟩
      exact (hev b).trans (eval_mono_le E (Nat.le_add_left b fuel) hb)
  | @txEnds body k S S1 t o fuel ht ho =>
    intro s hc hs
    rcases hs.tx hc.1 (fun r => (k r).asTrigger) fuel with ⟨hn, _⟩ | ⟨out, S1', s1, ht', hs1, hev⟩
    · rw [ht] at hn; cases hn
    · rw [ht] at ht'; cases ht'
      refine ⟨s1, ⟨fuel + 0 + 1, ?_⟩, hs1⟩
      rcases ho with rfl | rfl <;> exact hev 0
  | targetRead _ ih =>
    intro s hc hs
    rw [← hs.target, ← readTarget_seenIn] at ih
    obtain ⟨s', h1, h2⟩ := ih s (hc _) (hs.target ▸ hs)
    exact ⟨s', (runs_step fun _ => rfl).2 h1, h2⟩
  | targetMiss fn hn _ ih =>
    intro s hc hs
    obtain ⟨s', h1, h2⟩ := ih s (hc _) hs
    rw [← hs.target, ← readTarget_seenIn] at hn
    exact ⟨s', (runs_step fun _ => by simp only [CtxCode.asTrigger, eval, List.getElem?_cons_zero, hn]).2 h1, h2⟩
  | @targetWrite fn k S S' t t' n o hn hf _ ih =>
    intro s hc hs
    obtain ⟨s', h1, h2⟩ := ih _ (hc _) (hs.written (fn n).1 false)
    rw [← hs.target, ← readTarget_seenIn] at hn
    have hf : fn n = ((fn n).1, false) := by rw [← hf]
    refine ⟨s', (runs_step fun _ => ?_).2 h1, h2⟩
    simp only [CtxCode.asTrigger, eval, List.getElem?_cons_zero, hn]
    rw [hf]
  | @targetPanic fn k S t n hn hf =>
    intro s hc hs
    have h2 := hs.written (fn n).1 true
    rw [← hs.target, ← readTarget_seenIn] at hn
    have hf : fn n = ((fn n).1, true) := by rw [← hf]
    refine ⟨_, ⟨1, ?_⟩, h2⟩
    simp only [CtxCode.asTrigger, eval, List.getElem?_cons_zero, hn]
    rw [hf]
  | @resRead u k S S' t t' o _ ih =>
    intro s hc hs
    obtain ⟨s', h1, h2⟩ := ih s (hc _) hs
    rw [hs.env, hs.shows.heap] at h1
    exact ⟨s', (runs_step fun _ => by simp only [CtxCode.asTrigger, eval, hs.resBlocks, Bool.false_eq_true, if_false]).2 h1, h2⟩
  | @resWrite u fn k S S' t t' b heap o hw _ ih =>
    intro s hc hs
    obtain ⟨s', h1, h2⟩ := ih _ (hc _) (hs.heap heap)
    rw [hs.env, hs.shows.heap] at hw
    cases b with
    | true => exact ⟨s', (runs_step fun _ => by simp only [CtxCode.asTrigger, eval, hs.resBlocks, Bool.false_eq_true, if_false, hw, if_true]).2 h1, h2⟩
    | false =>
      have hh : heap = s.heap := by
        have := congrArg Prod.snd hw
        unfold Res.withMut at hw
        revert hw
        cases (E.resources.res u).lock with
        | none => intro hw; cases hw; rfl
        | some p =>
          dsimp only
          cases s.heap[p]? with
          | none => intro hw; cases hw; rfl
          | some cell =>
            dsimp only
            by_cases hp : cell.poisoned = true
            · rw [if_pos hp]; intro hw; cases hw; rfl
            · rw [if_neg hp]
              cases cell.val.downcast u with
              | none => intro hw; cases hw; rfl
              | some v => dsimp only; cases (fn v).2 <;> (intro hw; cases hw)
      subst hh
      exact ⟨s', (runs_step fun _ => by
        simp only [CtxCode.asTrigger, eval, hs.resBlocks, Bool.false_eq_true, if_false, hw]).2 h1, h2⟩
  | @resPanic u fn k S t heap hw =>
    intro s hc hs
    rw [hs.env, hs.shows.heap] at hw
    exact ⟨_, ⟨1, by simp only [CtxCode.asTrigger, eval, hs.resBlocks, Bool.false_eq_true, if_false, hw]⟩, hs.heap heap⟩
  | @caught body k S S1 S2 t t1 t2 r o _ _ ih1 ih2 =>
    intro s hc hs
    obtain ⟨s1, h1, hs1⟩ := ih1 s hc.1 hs
    obtain ⟨s2, h2, hs2⟩ := ih2 s1 (hc.2 r) hs1
    refine ⟨s2, ?_, hs2⟩
    simp only [CtxCode.asTrigger]
    rw [runs_catchUnwind]
    cases r with
    | some r => exact ⟨_, s1, h1, h2⟩
    | none => exact ⟨_, s1, h1, h2⟩
  | @catchStuck body k S S1 t t1 _ ih =>
    intro s hc hs
    obtain ⟨s1, h1, hs1⟩ := ih s hc.1 hs
    refine ⟨s1, ?_, hs1⟩
    simp only [CtxCode.asTrigger]
    rw [runs_catchUnwind]
    exact ⟨_, s1, h1, rfl, rfl⟩

/-- If it ends on the context, it ends on the schema. -/
theorem runs_acts [LawfulSig σ] {E : Env σ} {g : Graph σ.K σ.T} {f : Nat} (c : CtxCode σ) : ∀ (s : St σ) (S : Schema σ) (t : Option (Lock σ.T)),
    c.Apart → Fits E g s f S t → ∀ o s', Runs E [f] c.asTrigger s o s' → ∃ S' t', ActsOn c S t o S' t' := by
  induction c with
  | done r =>
    rintro s S t _ _ o s' h
    obtain ⟨rfl, _⟩ := (runs_done E [f] r s s' o).1 h
    exact ⟨S, t, .done r S t⟩
  | panic =>
    rintro s S t _ _ o s' h
    obtain ⟨rfl, _⟩ := (runs_now (E := E) (p := .panic) fun _ => rfl).1 h
    exact ⟨S, t, .panic S t⟩
  | tx body k ih =>
    rintro s S t hc hs o s' ⟨fuel, h⟩
    cases fuel with
    | zero => simp [eval] at h
    | succ fuel =>
      rcases hs.tx hc.1 (fun r => (k r).asTrigger) fuel with ⟨_, hn⟩ | ⟨out, S1, s1, ht, hs1, hev⟩
      · rw [CtxCode.asTrigger, hn] at h; cases h
      · have h := (hev 0).symm.trans h
        rcases out with r | _ | _
        · obtain ⟨S', t', h'⟩ := ih r s1 S1 t (hc.2 r) hs1 o s' ⟨_, h⟩
          exact ⟨S', t', .tx fuel ht h'⟩
        · cases h; exact ⟨S1, t, .txEnds k t fuel ht (.inl rfl)⟩
        · cases h; exact ⟨S1, t, .txEnds k t fuel ht (.inr rfl)⟩
  | targetRead k ih =>
    intro s S t hc hs o s' h
    have h := (runs_step (s1 := s) (q := (k (readTarget s f)).asTrigger) fun _ => rfl).1 h
    rw [readTarget_seenIn, hs.target] at h
    obtain ⟨S', t', h'⟩ := ih _ s S t (hc _) hs o s' h
    exact ⟨S', t', .targetRead h'⟩
  | targetWrite fn k ih =>
    intro s S t hc hs o s' h
    cases hn : seenIn t with
    | none =>
      have hr : readTarget s f = none := by rw [readTarget_seenIn, hs.target, hn]
      have h := (runs_step (s1 := s) (q := (k false).asTrigger) (env' := [f]) fun _ => by
        simp only [CtxCode.asTrigger, eval, List.getElem?_cons_zero, hr]).1 h
      obtain ⟨S', t', h'⟩ := ih _ s S t (hc _) hs o s' h
      exact ⟨S', t', .targetMiss fn hn h'⟩
    | some n =>
      have hr : readTarget s f = some n := by rw [readTarget_seenIn, hs.target, hn]
      cases hp : (fn n).2 with
      | false =>
        have hf : fn n = ((fn n).1, false) := by rw [← hp]
        have h := (runs_step (s1 := writeTarget s f (fn n).1 false) (q := (k true).asTrigger) (env' := [f]) fun _ => by
          simp only [CtxCode.asTrigger, eval, List.getElem?_cons_zero, hr]
          rw [hf]).1 h
        obtain ⟨S', t', h'⟩ := ih _ _ S _ (hc _) (hs.written (fn n).1 false) o s' h
        exact ⟨S', t', .targetWrite hn hp h'⟩
      | true =>
        have hf : fn n = ((fn n).1, true) := by rw [← hp]
        obtain ⟨rfl, _⟩ := (runs_now (o := .panic) (s1 := writeTarget s f (fn n).1 true) fun _ => by
          simp only [CtxCode.asTrigger, eval, List.getElem?_cons_zero, hr]
          rw [hf]).1 h
        exact ⟨_, _, .targetPanic k S hn hp⟩
  | resRead u k ih =>
    intro s S t hc hs o s' h
    have h := (runs_step (s1 := s) (q := (k ((E.resources.res u).peek s.heap)).asTrigger) (env' := [f]) fun _ => by
      simp only [CtxCode.asTrigger, eval, hs.resBlocks, Bool.false_eq_true, if_false]).1 h
    rw [← hs.shows.heap] at h
    obtain ⟨S', t', h'⟩ := ih _ s S t (hc _) hs o s' h
    exact ⟨S', t', .resRead (by rw [hs.env]; exact h')⟩
  | resWrite u fn k ih =>
    intro s S t hc hs o s' h
    cases hw : (E.resources.res u).withMut s.heap (fun v => ((fn v).1, if (fn v).2 then none else some ())) with
    | mk a heap =>
      have hw' := hw
      rw [← hs.env, ← hs.shows.heap] at hw'
      cases a with
      | unavailable =>
        have hh : heap = s.heap := by
          unfold Res.withMut at hw
          revert hw
          cases (E.resources.res u).lock with
          | none => intro hw; cases hw; rfl
          | some p =>
            dsimp only
            cases s.heap[p]? with
            | none => intro hw; cases hw; rfl
            | some cell =>
              dsimp only
              by_cases hp : cell.poisoned = true
              · rw [if_pos hp]; intro hw; cases hw; rfl
              · rw [if_neg hp]
                cases cell.val.downcast u with
                | none => intro hw; cases hw; rfl
                | some v => dsimp only; cases (fn v).2 <;> (intro hw; cases hw)
        subst hh
        have h := (runs_step (s1 := s) (q := (k false).asTrigger) (env' := [f]) fun _ => by
          simp only [CtxCode.asTrigger, eval, hs.resBlocks, Bool.false_eq_true, if_false, hw]).1 h
        obtain ⟨S', t', h'⟩ := ih _ _ _ t (hc _) (hs.heap s.heap) o s' h
        exact ⟨S', t', .resWrite (b := false) hw' h'⟩
      | ran x =>
        have h := (runs_step (s1 := { s with heap := heap }) (q := (k true).asTrigger) (env' := [f]) fun _ => by
          simp only [CtxCode.asTrigger, eval, hs.resBlocks, Bool.false_eq_true, if_false, hw]).1 h
        obtain ⟨S', t', h'⟩ := ih _ _ _ t (hc _) (hs.heap heap) o s' h
        exact ⟨S', t', .resWrite (b := true) hw' h'⟩
      | panicked =>
        obtain ⟨rfl, _⟩ := (runs_now (o := .panic) (s1 := { s with heap := heap }) fun _ => by
          simp only [CtxCode.asTrigger, eval, hs.resBlocks, Bool.false_eq_true, if_false, hw]).1 h
        exact ⟨_, _, .resPanic k t hw'⟩
  | catchUnwind body k ih1 ih2 =>
    intro s S t hc hs o s' h
    simp only [CtxCode.asTrigger] at h
    rw [runs_catchUnwind] at h
    obtain ⟨o1, s1, h1, h2⟩ := h
    obtain ⟨S1, t1, ha⟩ := ih1 s S t hc.1 hs o1 s1 h1
    obtain ⟨s1', h1', hs1⟩ := acts_runs ha s hc.1 hs
    obtain ⟨_, rfl⟩ := h1.det h1'
    rcases o1 with r | _ | _
    · obtain ⟨S', t', h'⟩ := ih2 _ s1 S1 t1 (hc.2 _) hs1 o s' h2
      exact ⟨S', t', .caught (r := some r) ha h'⟩
    · obtain ⟨S', t', h'⟩ := ih2 _ s1 S1 t1 (hc.2 _) hs1 o s' h2
      exact ⟨S', t', .caught (r := none) ha h'⟩
    · obtain ⟨rfl, _⟩ := h2
      exact ⟨S1, t1, .catchStuck k ha⟩

end Plotline
