import Verif.Lemmas.ByHandRun

/-!
# Making the calls of a closure by hand: the same outcome
-/

namespace Plotline

open Std

set_option linter.unusedSectionVars false

variable {σ : Sig} [LawfulSig σ]

/-- Runs with this fuel agree with the calls made by hand. -/
def AgreeAt (Z : Setting σ) (fuel : Nat) : Prop :=
  ∀ (st : List Own) (ws : List σ.Ty) (env cs : List Nat) (gs : List (σ.Ty × Nat)) (F : List (Nat × Nat)) (L : List Nat) (p : Prog σ) (s : St σ)
    (m : Hand σ), p.Compiles st ws → Mirror Z F L s m → Ctxs st env F cs s.frames → Scope Z.E gs ws L m.app.resGuards →
    Agree Z F L (Mine st env) s m (eval Z.E fuel env p s) (byHand Z.E.triggers Z.x fuel cs gs p m)

section
variable {Z : Setting σ} {F : List (Nat × Nat)} {L : List Nat} {P : Nat → Prop} {s s' s'' : St σ} {m m' m'' : Hand σ} {st : List Own}
  {env cs : List Nat} {gs : List (σ.Ty × Nat)} {ws : List σ.Ty} {fuel : Nat} {p : Prog σ}

theorem AgreeAt.go (ih : AgreeAt Z fuel) (hA : After (fun _ => False) L s m s' m') (hM : Mirror Z F L s' m') (hC : Ctxs st env F cs s.frames)
    (hG : Scope Z.E gs ws L m.app.resGuards) (hp : p.Compiles st ws) :
    Agree Z F L (Mine st env) s m (eval Z.E fuel env p s') (byHand Z.E.triggers Z.x fuel cs gs p m') :=
  .after (hA.mono fun _ h => h.elim) (ih st ws env cs gs F L p s' m' hp hM (hC.after hA) (hG.after hA.guards))

theorem agree_tx (ih : AgreeAt Z fuel) {c : Nat} {body : Prog σ} {k : Except Error σ.V → Prog σ} (hp : (Prog.tx c body k).Compiles st ws)
    (hM : Mirror Z F L s m) (hC : Ctxs st env F cs s.frames) (hG : Scope Z.E gs ws L m.app.resGuards) :
    Agree Z F L (Mine st env) s m (eval Z.E (fuel + 1) env (.tx c body k) s) (byHand Z.E.triggers Z.x (fuel + 1) cs gs (.tx c body k) m) := by
  obtain ⟨w, hS, hT⟩ := hM
  obtain ⟨hc, hb, hk⟩ := hp
  unfold eval byHand
  cases he : env[c]? with
  | none => obtain ⟨_, hf⟩ := hC.present hc; rw [he] at hf; cases hf
  | some f =>
    obtain ⟨t, d, fr, h1, h2, h3, h4⟩ := hC.find hT he
    rw [h1, hS.world]
    try dsimp only
    obtain ⟨w1, w2, e1, e2, e3⟩ := hT.open h2 h3 (h4 hc.notGone)
    obtain ⟨m1, f1, hS1, g1⟩ := hS.call (R := Except Error σ.V) e1 (by simp) (by simp) (by simp)
    obtain ⟨m2, f2, hS2, g2⟩ := hS1.call (R := Except Error σ.V) e2 (by simp) (by simp) (by simp)
    rw [f1]
    try dsimp only
    rw [f2]
    try dsimp only
    have hg : m2.app.resGuards = m.app.resGuards := by rw [g2, g1]
    have hM2 : Mirror Z (F ++ [(w.txs.length, w.ctxs.length)]) L (openChild s f) m2 := ⟨w2, hS2, e3⟩
    have hin := ih _ ws _ _ gs _ L body (openChild s f) m2 hb hM2 (hC.inner hT f _ _) (hG.after fun n _ => by rw [hg])
    rcases hin with ⟨r1, r2⟩ | ⟨o, s3, m3, r1, r2, r3, r4⟩
    · rw [r1, r2]; exact .none
    · rw [r1, r2]
      by_cases ho : o = .stuck
      · subst ho; exact .stuck (r4 rfl)
      · obtain ⟨hM3, hA3⟩ := r3 ho
        have hlen : s3.frames.length = s.frames.length + 1 := by rw [hA3.len]; simp [openChild]
        have hpar : ∀ fr', s3.frames[s.frames.length]? = some fr' → fr'.parent = some f := by
          intro fr' h
          have h0 : (openChild s f).frames[s.frames.length]? = some ⟨some f, [], none, false⟩ := by simp [openChild]
          exact (hA3.frame _ _ _ h0 h).1
        have hmine : ∀ g, Mine (.owned :: st.map Own.lend) (s.frames.length :: env) g → g = s.frames.length := by
          intro g h
          have := h.2
          simp only [List.getElem?_cons_zero, Option.some.injEq] at this
          exact this.symm
        obtain ⟨⟨m4, a1, a2, a3⟩, m5, b1, b2, b3⟩ := hM3.close (R := Except Error σ.V) hlen hpar
        have hA4 := (hA3.inner (Q := fun _ => False) rfl hmine (m'' := m) (fun j _ => by rw [hg]) (m3 := m4) (fun j _ => by rw [a3])).1
        have hA5 := (hA3.inner (Q := fun _ => False) rfl hmine (m'' := m) (fun j _ => by rw [hg]) (m3 := m5) (fun j _ => by rw [b3])).2
        cases o with
        | stuck => exact absurd rfl ho
        | panic => dsimp only; rw [a1]; exact .some (by simp) a2 (hA4.mono fun _ h => h.elim)
        | ret r =>
          cases r with
          | ok v => dsimp only; rw [b1]; exact ih.go hA5 b2 hC hG (hk _)
          | error e => dsimp only; rw [a1]; exact ih.go hA4 a2 hC hG (hk _)

theorem agree_triggers (ih : AgreeAt Z fuel) (hts : Z.E.triggers.Compiles) {c : Nat} {sch : Sched} {k : Except Error Unit → Prog σ}
    (hp : (Prog.runTriggers c sch k).Compiles st ws)
    (hM : Mirror Z F L s m) (hC : Ctxs st env F cs s.frames) (hG : Scope Z.E gs ws L m.app.resGuards) :
    Agree Z F L (Mine st env) s m (eval Z.E (fuel + 1) env (.runTriggers c sch k) s)
      (byHand Z.E.triggers Z.x (fuel + 1) cs gs (.runTriggers c sch k) m) := by
  obtain ⟨hc, hk⟩ := hp
  unfold eval byHand
  cases he : env[c]? with
  | none => obtain ⟨_, hf⟩ := hC.present hc; rw [he] at hf; cases hf
  | some f =>
    have ⟨w, hS, hT⟩ := hM
    obtain ⟨t, d, fr, h1, h2, h3, h4⟩ := hC.find hT he
    rw [h1]
    try dsimp only
    cases hl : Z.E.triggers.select sch with
    | none => exact ih.go .refl hM hC hG (hk _)
    | some l =>
      try dsimp only
      have hC1 : Ctxs [.lent] [f] F [d] s.frames := by
        refine ⟨?_, by simp [h2], ?_, by simp, rfl, ?_⟩
        · intro c' f' h
          cases c' with
          | zero => cases h; exact (List.getElem?_eq_some_iff.1 h3).1
          | succ c' => simp at h
        · intro c' f' fr' h hf' _
          cases c' with
          | zero => cases h; rw [h3] at hf'; cases hf'; exact h4 hc.notGone
          | succ c' => simp at h
        · intro f' h; simp at h
      have hG1 : ∀ l : List (ResGuardVal σ.Ty), Scope Z.E [] [] L l := fun l => ⟨rfl, fun t n h => by simp at h⟩
      have heach := each_agree (Z := Z) (F := F) (L := L) (run := eval Z.E fuel [f]) (run' := byHand Z.E.triggers Z.x fuel [d] [])
        (Q := fun s => Ctxs [.lent] [f] F [d] s.frames) l (fun s m s' m' h hA => h.after hA)
        (fun q hq s m hM hQ => Agree.mono (ih [.lent] [] [f] [d] [] F L q s m (hts sch l hl q hq) hM hQ (hG1 _)) (by
          intro g h; exact absurd h.1 (by simp)))
        s m hM hC1
      rcases heach with ⟨r1, r2⟩ | ⟨o, s3, m3, r1, r2, r3, r4⟩
      · rw [r1, r2]; exact .none
      · rw [r1, r2]
        cases o with
        | stuck => exact .stuck (r4 rfl)
        | panic => obtain ⟨a, b⟩ := r3 (by simp); exact .some (by simp) a (b.mono fun _ h => h.elim)
        | ret r => obtain ⟨a, b⟩ := r3 (by simp); exact ih.go b a hC hG (hk _)

theorem agree_resRead (ih : AgreeAt Z fuel) {t : σ.Ty} {k : Option (σ.Val t) → Prog σ} (hp : (Prog.resRead t k).Compiles st ws)
    (hM : Mirror Z F L s m) (hC : Ctxs st env F cs s.frames) (hG : Scope Z.E gs ws L m.app.resGuards) :
    Agree Z F L (Mine st env) s m (eval Z.E (fuel + 1) env (.resRead t k) s)
      (byHand Z.E.triggers Z.x (fuel + 1) cs gs (.resRead t k) m) := by
  have ⟨w, hS, hT⟩ := hM
  unfold eval byHand
  try dsimp only
  rcases hS.acquire (R := Except Error σ.V) t false with ⟨q, h1, h2, m1, hw, h3⟩ | ⟨h1, m1, h2, h3, h4, h5⟩
  · rw [h3, if_pos (by simp only [St.resBlocks, h1]; exact h2)]
    exact .stuck hw
  · rw [h2, if_neg (by
      unfold St.resBlocks
      split
      · simp
      · rename_i q hq; have := h1 q hq; unfold St.blocks; rw [this]; simp)]
    simp only [valueOf_value]
    by_cases hpk : (Z.E.resources.res t).peek s.heap = none
    · obtain ⟨m2, a1, a2, a3⟩ := h4 hpk
      rw [a1]
      exact ih.go (.same a3 rfl) ⟨w, a2, hT⟩ hC hG (hp _)
    · obtain ⟨q, a1, a2, a3⟩ := h5 hpk
      obtain ⟨m2, b1, b2, b3⟩ := a2.release (R := Except Error σ.V) false
      rw [b1]
      exact ih.go (.same (fun n hn => by rw [b3 n hn, h3 n hn]) rfl) ⟨w, b2, hT⟩ hC hG (hp _)

theorem agree_resWrite (ih : AgreeAt Z fuel) {t : σ.Ty} {u : σ.Val t → σ.Val t × Bool} {k : Bool → Prog σ}
    (hp : (Prog.resWrite t u k).Compiles st ws)
    (hM : Mirror Z F L s m) (hC : Ctxs st env F cs s.frames) (hG : Scope Z.E gs ws L m.app.resGuards) :
    Agree Z F L (Mine st env) s m (eval Z.E (fuel + 1) env (.resWrite t u k) s)
      (byHand Z.E.triggers Z.x (fuel + 1) cs gs (.resWrite t u k) m) := by
  have ⟨w, hS, hT⟩ := hM
  unfold eval byHand
  try dsimp only
  rcases hS.acquire (R := Except Error σ.V) t true with ⟨q, h1, h2, m1, hw, h3⟩ | ⟨h1, m1, h2, h3, h4, h5⟩
  · rw [h3, if_pos (by simp only [St.resBlocks, h1]; exact h2)]
    exact .stuck hw
  · rw [h2, if_neg (by
      unfold St.resBlocks
      split
      · simp
      · rename_i q hq; have := h1 q hq; unfold St.blocks; rw [this]; simp)]
    simp only [valueOf_value]
    cases hpk : (Z.E.resources.res t).peek s.heap with
    | none =>
      rw [(withMut_by_peek _ _ _).1 hpk]
      obtain ⟨m2, a1, a2, a3⟩ := h4 hpk
      try dsimp only
      rw [a1]
      exact ih.go (.same a3 rfl) ⟨w, a2, hT⟩ hC hG (hp _)
    | some v =>
      obtain ⟨q, a1, a2, a3⟩ := h5 (by simp [hpk])
      rw [(withMut_by_peek _ _ _).2 q v a1 hpk]
      obtain ⟨m2, b1, b2, b3⟩ := a2.assign (R := Except Error σ.V) a3 (u v).1
      obtain ⟨m3, c1, c2, c3⟩ := b2.release (R := Except Error σ.V) (u v).2
      try dsimp only
      rw [b1]
      try dsimp only
      rw [c1]
      try dsimp only
      have hA : After (fun _ => False) L s m { s with heap := s.heap.set q ⟨⟨t, (u v).1⟩, (u v).2⟩ } m3 :=
        .same (fun n hn => by rw [c3 n hn, b3, h3 n hn]) rfl
      have hM3 : Mirror Z F L { s with heap := s.heap.set q ⟨⟨t, (u v).1⟩, (u v).2⟩ } m3 := by
        refine ⟨w, ?_, hT⟩
        cases hu : (u v).2 with
        | true => rw [hu] at c2; simpa [modify_set] using c2
        | false => rw [hu] at c2; exact c2
      cases hu : (u v).2 with
      | true => rw [hu] at hA hM3; simp only [if_true]; exact .some (by simp) hM3 (hA.mono fun _ h => h.elim)
      | false => rw [hu] at hA hM3; simp only [Bool.false_eq_true, if_false]; exact ih.go hA hM3 hC hG (hp _)

theorem agree_resScope (ih : AgreeAt Z fuel) {t : σ.Ty} {excl : Bool} {body : σ.Val t → Prog σ} {k : Option (Except Error σ.V) → Prog σ}
    (hp : (Prog.resScope t excl body k).Compiles st ws)
    (hM : Mirror Z F L s m) (hC : Ctxs st env F cs s.frames) (hG : Scope Z.E gs ws L m.app.resGuards) :
    Agree Z F L (Mine st env) s m (eval Z.E (fuel + 1) env (.resScope t excl body k) s)
      (byHand Z.E.triggers Z.x (fuel + 1) cs gs (.resScope t excl body k) m) := by
  have ⟨w, hS, hT⟩ := hM
  obtain ⟨hb, hk⟩ := hp
  unfold eval byHand
  try dsimp only
  rcases hS.acquire (R := Except Error σ.V) t excl with ⟨q, h1, h2, m1, hw, h3⟩ | ⟨h1, m1, h2, h3, h4, h5⟩
  · rw [h3, h1]
    try dsimp only
    rw [if_pos (by exact h2)]
    exact .stuck hw
  · rw [h2]
    simp only [valueOf_value]
    cases hpk : (Z.E.resources.res t).peek s.heap with
    | none =>
      obtain ⟨m2, a1, a2, a3⟩ := h4 hpk
      try dsimp only
      rw [a1]
      have hgo := ih.go (.same a3 rfl) ⟨w, a2, hT⟩ hC hG (hk none)
      cases hl : (Z.E.resources.res t).lock with
      | none => exact hgo
      | some q => dsimp only; rw [if_neg (by unfold St.blocks; rw [h1 q hl]; simp)]; exact hgo
    | some v =>
      obtain ⟨q, a1, a2, a3⟩ := h5 (by simp [hpk])
      rw [a1]
      try dsimp only
      rw [if_neg (by unfold St.blocks; rw [h1 q a1]; simp)]
      have hG1 : Scope Z.E (if excl then (t, m.app.resGuards.length) :: gs else gs) (if excl then t :: ws else ws)
          (m.app.resGuards.length :: L) m1.app.resGuards := by
        have hold : ∀ t' n, (t', n) ∈ gs → n ∈ m.app.resGuards.length :: L ∧
            ∃ p, (Z.E.resources.res t').lock = some p ∧ m1.app.resGuards[n]? = some ⟨t', true, some p, .live⟩ := by
          intro t' n h
          obtain ⟨b1, p', b2, b3⟩ := hG.gs t' n h
          exact ⟨List.mem_cons_of_mem _ b1, p', b2, by rw [h3 n b1]; exact b3⟩
        cases excl with
        | false => exact ⟨hG.ws, hold⟩
        | true =>
          refine ⟨by simp [hG.ws], fun t' n h => ?_⟩
          rcases List.mem_cons.1 h with h | h
          · cases h; exact ⟨List.mem_cons_self, q, a1, a3⟩
          · exact hold t' n h
      have hin := ih _ _ env cs _ F _ (body v) (lockRes s q excl) m1 (hb v) ⟨w, a2, hT⟩ (Ctxs.lend hC) hG1
      rcases hin with ⟨r1, r2⟩ | ⟨o, s3, m3, r1, r2, r3, r4⟩
      · rw [r1, r2]; exact .none
      · rw [r1, r2]
        by_cases ho : o = .stuck
        · subst ho; exact .stuck (r4 rfl)
        · obtain ⟨⟨w3, hS3, hT3⟩, hA3⟩ := r3 ho
          obtain ⟨l3, hl3⟩ : ∃ l3, s3.locks = (q, excl) :: l3 := by
            have h := hS3.locks
            rw [List.map_cons, hA3.guards _ List.mem_cons_self, a3] at h
            cases hloc : s3.locks with
            | nil => rw [hloc] at h; simp at h
            | cons x l =>
              rw [hloc, List.map_cons, List.cons.injEq] at h
              simp only [Option.map_some, Option.some.injEq, Prod.mk.injEq] at h
              obtain ⟨⟨e1, e2, _⟩, _⟩ := h
              exact ⟨l, by rw [e1, e2]⟩
          rw [hl3] at hS3
          have hrel : ∀ b, ∃ m4, (∀ k : AppAnswer σ → Hand σ → Option (Out (Except Error σ.V) × Hand σ),
              m3.call (.dropRes m.app.resGuards.length b) k = k .none m4) ∧
              Mirror Z F L { s3 with locks := s3.locks.tail, heap := if b && excl then s3.heap.modify q fun l => { l with poisoned := true } else s3.heap } m4 ∧
              After (fun _ => False) L s m { s3 with locks := s3.locks.tail, heap := if b && excl then s3.heap.modify q fun l => { l with poisoned := true } else s3.heap } m4 := by
            intro b
            obtain ⟨m4, b1, b2, b3⟩ := hS3.release (R := Except Error σ.V) b
            refine ⟨m4, b1, ⟨w3, by rw [hl3]; exact b2, hT3⟩, hA3.len, ?_, ?_⟩
            · intro n hn
              rw [b3 n hn, hA3.guards n (List.mem_cons_of_mem _ hn), h3 n hn]
            · intro f fr fr' e1 e2
              obtain ⟨c1, c2⟩ := hA3.frame f fr fr' e1 e2
              exact ⟨c1, c2.imp (fun h => not_mine_lend h) (·)⟩
          cases o with
          | stuck => exact absurd rfl ho
          | panic =>
            obtain ⟨m4, b1, b2, b3⟩ := hrel true
            try dsimp only
            rw [b1]
            simp only [Bool.true_and] at b2 b3
            exact .some (by simp) b2 (b3.mono fun _ h => h.elim)
          | ret r =>
            obtain ⟨m4, b1, b2, b3⟩ := hrel false
            try dsimp only
            rw [b1]
            simp only [Bool.false_and] at b2 b3
            exact ih.go b3 b2 hC hG (hk _)

theorem agree_resAssign (ih : AgreeAt Z fuel) {t : σ.Ty} {v : σ.Val t} {k : Prog σ} (hp : (Prog.resAssign t v k).Compiles st ws)
    (hM : Mirror Z F L s m) (hC : Ctxs st env F cs s.frames) (hG : Scope Z.E gs ws L m.app.resGuards) :
    Agree Z F L (Mine st env) s m (eval Z.E (fuel + 1) env (.resAssign t v k) s)
      (byHand Z.E.triggers Z.x (fuel + 1) cs gs (.resAssign t v k) m) := by
  have ⟨w, hS, hT⟩ := hM
  obtain ⟨ht, hk⟩ := hp
  unfold eval byHand
  have hin : ∃ n, gs.find? (fun g => g.1 = t) = some (t, n) := by
    rw [hG.ws] at ht
    obtain ⟨⟨t', n'⟩, h1, rfl⟩ := List.mem_map.1 ht
    cases hf : gs.find? (fun g => decide (g.1 = t')) with
    | none => exact absurd (List.find?_eq_none.1 hf _ h1) (by simp)
    | some x =>
      have := List.find?_some hf
      simp only [decide_eq_true_eq] at this
      exact ⟨x.2, by rw [← this]⟩
  obtain ⟨n, hn⟩ := hin
  obtain ⟨a1, q, a2, a3⟩ := hG.gs t n (List.mem_of_find?_eq_some hn)
  rw [a2, hn]
  try dsimp only
  obtain ⟨m1, b1, b2, b3⟩ := hS.assign (R := Except Error σ.V) a3 v
  obtain ⟨y, q', c1, c2, c3, c4⟩ := hS.lock_at a1
  rw [a3] at c1
  cases c1
  cases c2
  rw [b1, if_pos (by simpa using c4)]
  exact ih.go (.same (fun n _ => by rw [b3]) rfl) ⟨w, b2, hT⟩ hC hG hk

theorem agree_catch (ih : AgreeAt Z fuel) {body : Prog σ} {k : Option (Except Error σ.V) → Prog σ} (hp : (Prog.catchUnwind body k).Compiles st ws)
    (hM : Mirror Z F L s m) (hC : Ctxs st env F cs s.frames) (hG : Scope Z.E gs ws L m.app.resGuards) :
    Agree Z F L (Mine st env) s m (eval Z.E (fuel + 1) env (.catchUnwind body k) s)
      (byHand Z.E.triggers Z.x (fuel + 1) cs gs (.catchUnwind body k) m) := by
  obtain ⟨hb, hk⟩ := hp
  unfold eval byHand
  have hin := ih _ ws env cs gs F L body s m hb hM (Ctxs.lend hC) hG
  rcases hin with ⟨r1, r2⟩ | ⟨o, s3, m3, r1, r2, r3, r4⟩
  · rw [r1, r2]; exact .none
  · rw [r1, r2]
    cases o with
    | stuck => exact .stuck (r4 rfl)
    | panic => obtain ⟨a, b⟩ := r3 (by simp); exact ih.go (b.mono fun _ h => not_mine_lend h) a hC hG (hk _)
    | ret r => obtain ⟨a, b⟩ := r3 (by simp); exact ih.go (b.mono fun _ h => not_mine_lend h) a hC hG (hk _)

theorem agree_forget (ih : AgreeAt Z fuel) {k : Prog σ} (hp : (Prog.forget k).Compiles st ws)
    (hM : Mirror Z F L s m) (hC : Ctxs st env F cs s.frames) (hG : Scope Z.E gs ws L m.app.resGuards) :
    Agree Z F L (Mine st env) s m (eval Z.E (fuel + 1) env (.forget k) s) (byHand Z.E.triggers Z.x (fuel + 1) cs gs (.forget k) m) := by
  have ⟨w, hS, hT⟩ := hM
  obtain ⟨ho, hk⟩ := hp
  unfold eval byHand
  cases he : env[0]? with
  | none => obtain ⟨_, hf⟩ := hC.present (.inl ho); rw [he] at hf; cases hf
  | some f =>
    obtain ⟨t, d, fr, h1, h2, h3, h4⟩ := hC.find hT he
    rw [h1]
    try dsimp only
    obtain ⟨w1, e1, e2⟩ := hT.forget h2 h3 (h4 (by rw [ho]; simp)) (hC.last f ho he)
    obtain ⟨m1, f1, f2, f3⟩ := Mirror.call (R := Except Error σ.V) hS e1 (by simp) (by simp) (by simp) e2
    rw [f1]
    have hA : After (Mine st env) L s m (leakFrame s f) m1 := .modify f3 f _ rfl (fun _ => rfl) (fun _ => .inl ⟨ho, he⟩)
    have hlen : env.length = (Own.gone :: st.tail).length := by
      have := hC.len
      cases st with
      | nil => simp at ho
      | cons o st => exact this
    have hC1 : Ctxs (.gone :: st.tail) env F cs (leakFrame s f).frames := by
      refine ⟨fun c f' h => by simpa [leakFrame] using hC.bound c f' h, hC.cs, ?_, hC.nodup, hlen, fun f' h => by simp at h⟩
      intro c f' fr' h hf' hs
      cases c with
      | zero => exact absurd rfl hs
      | succ c =>
        have hne : f ≠ f' := by
          rintro rfl
          have hnd := hC.nodup
          cases env with
          | nil => simp at he
          | cons a l =>
            cases he
            exact (List.nodup_cons.1 hnd).1 (List.mem_of_getElem? h)
        have h' : s.frames[f']? = some fr' := by
          have : (s.frames.modify f fun fr => { fr with leaked := true })[f']? = some fr' := hf'
          rw [getElem?_modify_ne _ _ hne] at this
          exact this
        refine hC.ok (c + 1) f' fr' h h' ?_
        rw [List.getElem?_cons_succ, List.getElem?_tail] at hs
        exact hs
    refine .after hA (Agree.mono (ih _ ws env cs gs F L k (leakFrame s f) m1 hk f2 hC1 (hG.after f3)) ?_)
    intro g h
    exact absurd h.1 (by simp)

theorem agree_targetRead (ih : AgreeAt Z fuel) {c : Nat} {k : Option σ.T → Prog σ} (hp : (Prog.targetRead c k).Compiles st ws)
    (hM : Mirror Z F L s m) (hC : Ctxs st env F cs s.frames) (hG : Scope Z.E gs ws L m.app.resGuards) :
    Agree Z F L (Mine st env) s m (eval Z.E (fuel + 1) env (.targetRead c k) s)
      (byHand Z.E.triggers Z.x (fuel + 1) cs gs (.targetRead c k) m) := by
  have ⟨w, hS, hT⟩ := hM
  obtain ⟨hc, hk⟩ := hp
  unfold eval byHand
  cases he : env[c]? with
  | none => obtain ⟨_, hf⟩ := hC.present hc; rw [he] at hf; cases hf
  | some f =>
    obtain ⟨t, d, fr, h1, h2, h3, h4⟩ := hC.find hT he
    rw [h1, hS.world]
    try dsimp only
    obtain ⟨w1, e1, e2, e3⟩ := hT.readTarget h2 h3 (h4 hc.notGone)
    obtain ⟨m1, f1, hS1, g1⟩ := hS.call (R := Except Error σ.V) e1 (by simp) (by simp) (by simp)
    obtain ⟨m2, f2, f3, f4⟩ := Mirror.call (R := Except Error σ.V) hS1 e2 (by simp) (by simp) (by simp) e3
    rw [f1]
    try dsimp only
    rw [f2]
    have hr : readTarget s f = fr.reads := by
      unfold readTarget Frame.reads
      rw [h3]
      dsimp only
      cases fr.target <;> rfl
    rw [hr]
    exact ih.go (.same (fun n hn => by rw [f4 n hn, g1]) rfl) f3 hC hG (hk _)

theorem agree_targetWrite (ih : AgreeAt Z fuel) {c : Nat} {u : σ.T → σ.T × Bool} {k : Bool → Prog σ} (hp : (Prog.targetWrite c u k).Compiles st ws)
    (hM : Mirror Z F L s m) (hC : Ctxs st env F cs s.frames) (hG : Scope Z.E gs ws L m.app.resGuards) :
    Agree Z F L (Mine st env) s m (eval Z.E (fuel + 1) env (.targetWrite c u k) s)
      (byHand Z.E.triggers Z.x (fuel + 1) cs gs (.targetWrite c u k) m) := by
  have ⟨w, hS, hT⟩ := hM
  obtain ⟨hc, hk⟩ := hp
  unfold eval byHand
  cases he : env[c]? with
  | none => obtain ⟨_, hf⟩ := hC.present hc; rw [he] at hf; cases hf
  | some f =>
    obtain ⟨t, d, fr, h1, h2, h3, h4⟩ := hC.find hT he
    rw [h1, hS.world]
    try dsimp only
    obtain ⟨w1, e1, w2, e2, e3⟩ := hT.writeTarget h2 h3 (h4 hc.notGone) u
    obtain ⟨m1, f1, hS1, g1⟩ := hS.call (R := Except Error σ.V) e1 (by simp) (by simp) (by simp)
    rw [f1]
    try dsimp only
    have hr : readTarget s f = fr.reads := by
      unfold readTarget Frame.reads
      rw [h3]
      dsimp only
      cases fr.target <;> rfl
    rw [hr]
    cases hrd : fr.reads with
    | none =>
      rw [hrd] at e2 e3
      dsimp only at e2 e3
      obtain ⟨m2, f2, f3, f4⟩ := Mirror.call (R := Except Error σ.V) hS1 e2 (by simp) (by simp) (by simp) e3
      rw [f2]
      exact ih.go (.same (fun n hn => by rw [f4 n hn, g1]) rfl) f3 hC hG (hk _)
    | some x =>
      rw [hrd] at e2 e3
      dsimp only at e2 e3
      cases hu : u x with
      | mk x' b =>
        rw [hu] at e2 e3
        cases b with
        | true =>
          simp only [if_true] at e2
          obtain ⟨m2, f2, f3, f4⟩ := Mirror.call (R := Except Error σ.V) hS1 e2 (by simp) (by simp) (by simp) e3
          rw [f2]
          try dsimp only
          rw [hu]
          exact .some (by simp) f3 (.modify (fun n hn => by rw [f4 n hn, g1]) f _ rfl (fun _ => rfl) (fun _ => .inr rfl))
        | false =>
          simp only [Bool.false_eq_true, if_false] at e2
          obtain ⟨m2, f2, f3, f4⟩ := Mirror.call (R := Except Error σ.V) hS1 e2 (by simp) (by simp) (by simp) e3
          rw [f2]
          try dsimp only
          rw [hu]
          exact ih.go (.modify (fun n hn => by rw [f4 n hn, g1]) f _ rfl (fun _ => rfl) (fun _ => .inr rfl)) f3 hC hG (hk _)

/-- A run and the calls made by hand agree. -/
theorem agree (hts : Z.E.triggers.Compiles) : ∀ fuel, AgreeAt Z fuel := by
  intro fuel
  induction fuel with
  | zero => intro st ws env cs gs F L p s m _ _ _ _; unfold eval byHand; exact .none
  | succ fuel ih =>
    intro st ws env cs gs F L p s m hp hM hC hG
    cases p with
    | tx c body k => exact agree_tx ih hp hM hC hG
    | runTriggers c sch k => exact agree_triggers ih hts hp hM hC hG
    | resRead t k => exact agree_resRead ih hp hM hC hG
    | resWrite t u k => exact agree_resWrite ih hp hM hC hG
    | resScope t excl body k => exact agree_resScope ih hp hM hC hG
    | resAssign t v k => exact agree_resAssign ih hp hM hC hG
    | catchUnwind body k => exact agree_catch ih hp hM hC hG
    | forget k => exact agree_forget ih hp hM hC hG
    | targetRead c k => exact agree_targetRead ih hp hM hC hG
    | targetWrite c u k => exact agree_targetWrite ih hp hM hC hG
    | done r => unfold eval byHand; exact .some (by simp) hM .refl
    | panic => unfold eval byHand; exact .some (by simp) hM .refl
    | reenter =>
      unfold eval byHand
      obtain ⟨w, hS, hT⟩ := hM
      have hx : m.app.exclusive = true := by
        unfold App.exclusive
        rw [Bool.or_eq_true]
        right
        refine any_iff.2 ⟨Z.x, _, hS.tx, ?_⟩
        simp [TxOwner.holds]
      have hst : m.app.step (.read m.app.guards.length) = some (.stuck, m.app) := by simp [App.step, hx]
      rw [call_stuck hst]
      exact .stuck ⟨_, m.calls, m.app, rfl, hS.ran, hst⟩
    | save c n k =>
      obtain ⟨w, hS, hT⟩ := hM
      obtain ⟨hc, hk⟩ := hp
      unfold eval byHand
      cases he : env[c]? with
      | none => obtain ⟨_, hf⟩ := hC.present hc; rw [he] at hf; cases hf
      | some f =>
        obtain ⟨t, d, fr, h1, h2, h3, h4⟩ := hC.find hT he
        rw [h1]
        try dsimp only
        obtain ⟨w1, e1, e2⟩ := hT.save h2 h3 (h4 hc.notGone) n
        obtain ⟨m1, f1, f2, f3⟩ := Mirror.call (R := Except Error σ.V) hS e1 (by simp) (by simp) (by simp) e2
        rw [f1]
        exact ih.go (.modify f3 f _ rfl (fun _ => rfl) (fun _ => .inr rfl)) f2 hC hG hk
    | delete c i k =>
      obtain ⟨w, hS, hT⟩ := hM
      obtain ⟨hc, hk⟩ := hp
      unfold eval byHand
      cases he : env[c]? with
      | none => obtain ⟨_, hf⟩ := hC.present hc; rw [he] at hf; cases hf
      | some f =>
        obtain ⟨t, d, fr, h1, h2, h3, h4⟩ := hC.find hT he
        rw [h1]
        try dsimp only
        obtain ⟨w1, e1, e2⟩ := hT.delete h2 h3 (h4 hc.notGone) i
        obtain ⟨m1, f1, f2, f3⟩ := Mirror.call (R := Except Error σ.V) hS e1 (by simp) (by simp) (by simp) e2
        rw [f1]
        exact ih.go (.modify f3 f _ rfl (fun _ => rfl) (fun _ => .inr rfl)) f2 hC hG hk
    | withTarget n k =>
      obtain ⟨w, hS, hT⟩ := hM
      obtain ⟨hc, hk⟩ := hp
      unfold eval byHand
      cases he : env[0]? with
      | none => obtain ⟨_, hf⟩ := hC.present hc; rw [he] at hf; cases hf
      | some f =>
        obtain ⟨t, d, fr, h1, h2, h3, h4⟩ := hC.find hT he
        rw [h1]
        try dsimp only
        obtain ⟨w1, e1, e2⟩ := hT.withTarget h2 h3 (h4 hc.notGone) n
        obtain ⟨m1, f1, f2, f3⟩ := Mirror.call (R := Except Error σ.V) hS e1 (by simp) (by simp) (by simp) e2
        rw [f1]
        exact ih.go (.modify f3 f _ rfl (fun _ => rfl) (fun _ => .inr rfl)) f2 hC hG hk
    | get c i k =>
      obtain ⟨w, hS, hT⟩ := hM
      obtain ⟨hc, hk⟩ := hp
      unfold eval byHand
      cases he : env[c]? with
      | none => obtain ⟨_, hf⟩ := hC.present hc; rw [he] at hf; cases hf
      | some f =>
        obtain ⟨t, d, fr, h1, h2, h3, h4⟩ := hC.find hT he
        rw [h1]
        try dsimp only
        obtain ⟨m1, f1, f2, f3⟩ := Mirror.call (R := Except Error σ.V) hS (hT.stepGet h2 h3 (h4 hc.notGone) i) (by simp) (by simp) (by simp) hT
        rw [f1]
        exact ih.go (.same f3 rfl) f2 hC hG (hk _)
    | contains c i k =>
      obtain ⟨w, hS, hT⟩ := hM
      obtain ⟨hc, hk⟩ := hp
      unfold eval byHand
      cases he : env[c]? with
      | none => obtain ⟨_, hf⟩ := hC.present hc; rw [he] at hf; cases hf
      | some f =>
        obtain ⟨t, d, fr, h1, h2, h3, h4⟩ := hC.find hT he
        rw [h1]
        try dsimp only
        obtain ⟨m1, f1, f2, f3⟩ := Mirror.call (R := Except Error σ.V) hS (hT.stepContains h2 h3 (h4 hc.notGone) i) (by simp) (by simp) (by simp) hT
        rw [f1]
        exact ih.go (.same f3 rfl) f2 hC hG (hk _)

end

end Plotline
