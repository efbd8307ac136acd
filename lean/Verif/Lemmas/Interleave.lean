import Verif.Spec.Interleave
import Verif.Lemmas.Context

/-! Lemmas about the abstract machine and about interleavings. -/

namespace Plotline

set_option linter.unusedSectionVars false

variable {σ : Sig}

/-! ## The machine runs programs as `eval` does -/

theorem Conf.Steps.trans {E : Env σ} {a b c : Conf σ} (h : Conf.Steps E a b) (h' : Conf.Steps E b c) : Conf.Steps E a c := by
  induction h with
  | refl => exact h'
  | head h1 _ ih => exact .head h1 (ih h')

theorem Conf.Steps.tail {E : Env σ} {a b c : Conf σ} (h : Conf.Steps E a b) (h' : b.step E = some c) : Conf.Steps E a c :=
  h.trans (.head h' (.refl _))

/-- What `eval` makes of the rest of the work. -/
def resume (E : Env σ) (fuel : Nat) : List (Kont σ) → Out (Except Error σ.V) × St σ → Option (Out (Except Error σ.V) × St σ)
  | [], r => some r
  | .tx n env k :: K, (.ret (.ok v), s) => (eval E fuel env (k (.ok v)) (commitChild s n)).bind (resume E fuel K)
  | .tx n env k :: K, (.ret (.error e), s) => (eval E fuel env (k (.error e)) (closeChild s n)).bind (resume E fuel K)
  | .tx n _ _ :: K, (.panic, s) => resume E fuel K (.panic, closeChild s n)
  | .tx n _ _ :: K, (.stuck, s) => resume E fuel K (.stuck, closeChild s n)
  | .triggers f rest env k :: K, (.ret (.ok _), s) =>
    (tryForEach (eval E fuel [f]) rest s).bind fun
      | (.ret r, s') => (eval E fuel env (k r) s').bind (resume E fuel K)
      | (.panic, s') => resume E fuel K (.panic, s')
      | (.stuck, s') => resume E fuel K (.stuck, s')
  | .triggers _ _ env k :: K, (.ret (.error e), s) => (eval E fuel env (k (.error e)) s).bind (resume E fuel K)
  | .triggers _ _ _ _ :: K, (.panic, s) => resume E fuel K (.panic, s)
  | .triggers _ _ _ _ :: K, (.stuck, s) => resume E fuel K (.stuck, s)
  | .resScope _ _ env k :: K, (.ret r, s) => (eval E fuel env (k (some r)) (unlockRes s)).bind (resume E fuel K)
  | .resScope p excl _ _ :: K, (.panic, s) => resume E fuel K (.panic, unwindRes s p excl)
  | .resScope _ _ _ _ :: K, (.stuck, s) => resume E fuel K (.stuck, unlockRes s)
  | .catchUnwind env k :: K, (.ret r, s) => (eval E fuel env (k (some r)) s).bind (resume E fuel K)
  | .catchUnwind env k :: K, (.panic, s) => (eval E fuel env (k none) s).bind (resume E fuel K)
  | .catchUnwind _ _ :: K, (.stuck, s) => resume E fuel K (.stuck, s)

/-- What `eval` makes of a configuration. -/
def Conf.result (E : Env σ) (fuel : Nat) : Conf σ → Option (Out (Except Error σ.V) × St σ)
  | ⟨.run env p, K, s⟩ => (eval E fuel env p s).bind (resume E fuel K)
  | ⟨.back out, K, s⟩ => resume E fuel K (out, s)

theorem bind_mono {α β : Type} {x x' : Option α} {f f' : α → Option β} {r : β} (hx : ∀ a, x = some a → x' = some a)
    (hf : ∀ a b, f a = some b → f' a = some b) (h : x.bind f = some r) : x'.bind f' = some r := by
  obtain ⟨a, h1, h2⟩ := Option.bind_eq_some_iff.1 h
  exact Option.bind_eq_some_iff.2 ⟨a, hx a h1, hf a r h2⟩

theorem resume_mono (E : Env σ) {fuel fuel' : Nat} (hle : fuel ≤ fuel') (K : List (Kont σ)) :
    ∀ x r, resume E fuel K x = some r → resume E fuel' K x = some r := by
  have he : ∀ env p s a, eval E fuel env p s = some a → eval E fuel' env p s = some a :=
    fun env p s a h => eval_mono_le E hle h
  have ht : ∀ f ts s a, tryForEach (eval E fuel [f]) ts s = some a → tryForEach (eval E fuel' [f]) ts s = some a :=
    fun f ts s a h => tryForEach_mono (fun t s r h => he [f] t s r h) ts s a h
  induction K with
  | nil => exact fun _ _ h => h
  | cons κ K ih =>
    rintro ⟨out, s⟩ r h
    cases κ with
    | tx n env k =>
      rcases out with (e | v) | _ | _
      · exact bind_mono (he _ _ _) ih h
      · exact bind_mono (he _ _ _) ih h
      · exact ih _ _ h
      · exact ih _ _ h
    | triggers f rest env k =>
      rcases out with (e | v) | _ | _
      · exact bind_mono (he _ _ _) ih h
      · refine bind_mono (ht _ _ _) ?_ h
        rintro ⟨out, s⟩ b hb
        rcases out with r | _ | _
        · exact bind_mono (he _ _ _) ih hb
        · exact ih _ _ hb
        · exact ih _ _ hb
      · exact ih _ _ h
      · exact ih _ _ h
    | resScope p excl env k =>
      rcases out with r | _ | _
      · exact bind_mono (he _ _ _) ih h
      · exact ih _ _ h
      · exact ih _ _ h
    | catchUnwind env k =>
      rcases out with r | _ | _
      · exact bind_mono (he _ _ _) ih h
      · exact bind_mono (he _ _ _) ih h
      · exact ih _ _ h

/-- A step leaves the result as it is. -/
theorem step_result (E : Env σ) {c c' : Conf σ} (h : c.step E = some c') {fuel : Nat} {r : Out (Except Error σ.V) × St σ}
    (hr : c'.result E fuel = some r) : c.result E (fuel + 1) = some r := by
  have hm := resume_mono E (Nat.le_succ fuel)
  have he : ∀ env p s a, eval E fuel env p s = some a → eval E (fuel + 1) env p s = some a := fun env p s a h => eval_mono E h
  have ht : ∀ f ts s a, tryForEach (eval E fuel [f]) ts s = some a → tryForEach (eval E (fuel + 1) [f]) ts s = some a :=
    fun f ts s a h => tryForEach_mono (fun t s r h => he [f] t s r h) ts s a h
  have hb : ∀ {x : Option (Out (Except Error σ.V) × St σ)} {K : List (Kont σ)}, x.bind (resume E fuel K) = some r →
      x.bind (resume E (fuel + 1) K) = some r := fun h => bind_mono (fun _ h => h) (hm _) h
  obtain ⟨control, K, s⟩ := c
  cases control with
  | run env p =>
    cases p with
    | done r => cases h; exact hm _ _ _ hr
    | panic => cases h; exact hm _ _ _ hr
    | reenter => cases h; exact hm _ _ _ hr
    | save c n k =>
      simp only [Conf.step] at h
      simp only [Conf.result, eval]
      cases hc : env[c]? with
      | none => rw [hc] at h; cases h; exact hm _ _ _ hr
      | some f => rw [hc] at h; cases h; exact hb hr
    | delete c i k =>
      simp only [Conf.step] at h
      simp only [Conf.result, eval]
      cases hc : env[c]? with
      | none => rw [hc] at h; cases h; exact hm _ _ _ hr
      | some f => rw [hc] at h; cases h; exact hb hr
    | get c i k =>
      simp only [Conf.step] at h
      simp only [Conf.result, eval]
      cases hc : env[c]? with
      | none => rw [hc] at h; cases h; exact hm _ _ _ hr
      | some f => rw [hc] at h; cases h; exact hb hr
    | contains c i k =>
      simp only [Conf.step] at h
      simp only [Conf.result, eval]
      cases hc : env[c]? with
      | none => rw [hc] at h; cases h; exact hm _ _ _ hr
      | some f => rw [hc] at h; cases h; exact hb hr
    | tx c body k =>
      simp only [Conf.step] at h
      simp only [Conf.result, eval]
      cases hc : env[c]? with
      | none => rw [hc] at h; cases h; exact hm _ _ _ hr
      | some f =>
        rw [hc] at h; cases h
        obtain ⟨⟨out, s1⟩, h1, h2⟩ := Option.bind_eq_some_iff.1 hr
        simp only [h1]
        rcases out with (e | v) | _ | _
        · exact hb h2
        · exact hb h2
        · exact hm _ _ _ h2
        · exact hm _ _ _ h2
    | runTriggers c sch k =>
      simp only [Conf.step] at h
      simp only [Conf.result, eval]
      cases hc : env[c]? with
      | none => rw [hc] at h; cases h; exact hm _ _ _ hr
      | some f =>
        simp only [hc] at h
        cases hs : E.triggers.select sch with
        | none => rw [hs] at h; cases h; exact hb hr
        | some ts =>
          rw [hs] at h
          cases ts with
          | nil => cases h; simp only [tryForEach]; exact hb hr
          | cons t ts =>
            cases h
            obtain ⟨⟨out, s1⟩, h1, h2⟩ := Option.bind_eq_some_iff.1 hr
            simp only [tryForEach, h1]
            rcases out with (e | v) | _ | _
            · exact hb h2
            · obtain ⟨⟨out, s2⟩, h3, h4⟩ := Option.bind_eq_some_iff.1 h2
              simp only [h3]
              rcases out with r | _ | _
              · exact hb h4
              · exact hm _ _ _ h4
              · exact hm _ _ _ h4
            · exact hm _ _ _ h2
            · exact hm _ _ _ h2
    | withTarget n k =>
      simp only [Conf.step] at h
      simp only [Conf.result, eval]
      cases hc : env[0]? with
      | none => rw [hc] at h; cases h; exact hm _ _ _ hr
      | some f => rw [hc] at h; cases h; exact hb hr
    | targetRead c k =>
      simp only [Conf.step] at h
      simp only [Conf.result, eval]
      cases hc : env[c]? with
      | none => rw [hc] at h; cases h; exact hm _ _ _ hr
      | some f => rw [hc] at h; cases h; exact hb hr
    | targetWrite c fn k =>
      simp only [Conf.step] at h
      simp only [Conf.result, eval]
      cases hc : env[c]? with
      | none => rw [hc] at h; cases h; exact hm _ _ _ hr
      | some f =>
        simp only [hc] at h
        cases ht : readTarget s f with
        | none => rw [ht] at h; cases h; simp only [ht]; exact hb hr
        | some n =>
          simp only [ht] at h
          simp only [ht]
          rcases hfn : fn n with ⟨n', _ | _⟩
          · rw [hfn] at h; cases h; exact hb hr
          · rw [hfn] at h; cases h; exact hm _ _ _ hr
    | resRead t k =>
      simp only [Conf.step] at h
      simp only [Conf.result, eval]
      cases hbl : s.resBlocks E t false with
      | true => rw [hbl] at h; cases h; exact hm _ _ _ hr
      | false => rw [hbl] at h; cases h; exact hb hr
    | resScope t excl body k =>
      simp only [Conf.step] at h
      simp only [Conf.result, eval]
      cases hq : (E.resources.res t).lock with
      | none => rw [hq] at h; cases h; exact hb hr
      | some q =>
        simp only [hq] at h
        cases hbl : s.blocks q excl with
        | true => rw [hbl] at h; cases h; simp only [hbl]; exact hm _ _ _ hr
        | false =>
          simp only [hbl, Bool.false_eq_true, if_false] at h
          simp only [hbl, Bool.false_eq_true, if_false]
          cases hv : (E.resources.res t).peek s.heap with
          | none => rw [hv] at h; cases h; exact hb hr
          | some v =>
            rw [hv] at h; cases h
            obtain ⟨⟨out, s1⟩, h1, h2⟩ := Option.bind_eq_some_iff.1 hr
            simp only [h1]
            rcases out with r | _ | _
            · exact hb h2
            · exact hm _ _ _ h2
            · exact hm _ _ _ h2
    | resAssign t x k =>
      simp only [Conf.step] at h
      simp only [Conf.result, eval]
      cases hq : (E.resources.res t).lock with
      | none => rw [hq] at h; cases h; exact hm _ _ _ hr
      | some q =>
        simp only [hq] at h
        cases hbl : s.locks.contains (q, true) with
        | true => rw [hbl] at h; cases h; simp only [hbl]; exact hb hr
        | false => rw [hbl] at h; cases h; simp only [hbl]; exact hm _ _ _ hr
    | resWrite t fn k =>
      simp only [Conf.step] at h
      simp only [Conf.result, eval]
      cases hbl : s.resBlocks E t true with
      | true => rw [hbl] at h; cases h; exact hm _ _ _ hr
      | false =>
      simp only [hbl, Bool.false_eq_true, if_false] at h
      simp only [Bool.false_eq_true, if_false]
      generalize (E.resources.res t).withMut s.heap (fun v => ((fn v).1, if (fn v).2 then none else some ())) = w at h
      obtain ⟨w, hp⟩ := w
      cases w with
      | unavailable => cases h; exact hb hr
      | ran _ => cases h; exact hb hr
      | panicked => cases h; exact hm _ _ _ hr
    | catchUnwind body k =>
      cases h
      simp only [Conf.result, eval]
      obtain ⟨⟨out, s1⟩, h1, h2⟩ := Option.bind_eq_some_iff.1 hr
      simp only [h1]
      rcases out with r | _ | _
      · exact hb h2
      · exact hb h2
      · exact hm _ _ _ h2
    | forget k =>
      simp only [Conf.step] at h
      simp only [Conf.result, eval]
      cases hc : env[0]? with
      | none => rw [hc] at h; cases h; exact hm _ _ _ hr
      | some f => rw [hc] at h; cases h; exact hb hr
  | back out =>
    cases K with
    | nil => rcases out with (e | v) | _ | _ <;> cases h
    | cons κ K =>
      cases κ with
      | tx n env k =>
        rcases out with (e | v) | _ | _
        · cases h; exact bind_mono (he _ _ _) (hm _) hr
        · cases h; exact bind_mono (he _ _ _) (hm _) hr
        · cases h; exact hm _ _ _ hr
        · cases h
      | triggers f rest env k =>
        rcases out with (e | v) | _ | _
        · cases rest <;> cases h <;> exact bind_mono (he _ _ _) (hm _) hr
        · cases rest with
          | nil => cases h; exact bind_mono (he _ _ _) (hm _) hr
          | cons t ts =>
            cases h
            obtain ⟨⟨out, s1⟩, h1, h2⟩ := Option.bind_eq_some_iff.1 hr
            simp only [Conf.result, resume, tryForEach, he _ _ _ _ h1]
            rcases out with (e | v) | _ | _
            · have := bind_mono (he _ _ _) (hm _) h2
              exact this
            · obtain ⟨⟨out, s2⟩, h3, h4⟩ := Option.bind_eq_some_iff.1 h2
              simp only [ht _ _ _ _ h3]
              rcases out with r | _ | _
              · have := bind_mono (he _ _ _) (hm _) h4
                exact this
              · exact hm _ _ _ h4
              · exact hm _ _ _ h4
            · exact hm _ _ _ h2
            · exact hm _ _ _ h2
        · cases rest <;> cases h <;> exact hm _ _ _ hr
        · cases rest <;> cases h
      | resScope p excl env k =>
        rcases out with r | _ | _
        · cases h; exact bind_mono (he _ _ _) (hm _) hr
        · cases h; exact hm _ _ _ hr
        · cases h
      | catchUnwind env k =>
        rcases out with r | _ | _
        · cases h; exact bind_mono (he _ _ _) (hm _) hr
        · cases h; exact bind_mono (he _ _ _) (hm _) hr
        · cases h

/-- What the machine arrives at is what `eval` gives. -/
theorem Conf.Steps.eval {E : Env σ} {env : List Nat} {p : Prog σ} {s s' : St σ} {out : Out (Except Error σ.V)}
    (h : Conf.Steps E ⟨.run env p, [], s⟩ ⟨.back out, [], s'⟩) : ∃ fuel, eval E fuel env p s = some (out, s') := by
  have : ∀ {a b : Conf σ}, Conf.Steps E a b → b = ⟨.back out, [], s'⟩ → ∃ fuel, a.result E fuel = some (out, s') := by
    intro a b h
    induction h with
    | refl c => rintro rfl; exact ⟨0, rfl⟩
    | head h1 _ ih =>
      intro hb
      obtain ⟨fuel, hf⟩ := ih hb
      exact ⟨fuel + 1, step_result E h1 hf⟩
  obtain ⟨fuel, hf⟩ := this h rfl
  refine ⟨fuel, ?_⟩
  simp only [Conf.result] at hf
  obtain ⟨x, h1, h2⟩ := Option.bind_eq_some_iff.1 hf
  cases h2
  exact h1

/-- What `eval` gives, unless it blocks, the machine arrives at. -/
theorem eval_steps (E : Env σ) (fuel : Nat) : ∀ (env : List Nat) (p : Prog σ) (s s' : St σ) (out : Out (Except Error σ.V))
    (K : List (Kont σ)), eval E fuel env p s = some (out, s') → out ≠ .stuck →
      Conf.Steps E ⟨.run env p, K, s⟩ ⟨.back out, K, s'⟩ := by
  induction fuel with
  | zero => intro env p s s' out K h; simp [eval] at h
  | succ fuel ih =>
    have hts : ∀ (f : Nat) (env : List Nat) (k : Except Error Unit → Prog σ) (ts : List (Prog σ)) (s s1 : St σ)
        (o : Out (Except Error Unit)) (K : List (Kont σ)) (v : σ.V),
        tryForEach (eval E fuel [f]) ts s = some (o, s1) →
        (∀ r, o = .ret r → Conf.Steps E ⟨.back (.ret (.ok v)), .triggers f ts env k :: K, s⟩ ⟨.run env (k r), K, s1⟩) ∧
        (o = .panic → Conf.Steps E ⟨.back (.ret (.ok v)), .triggers f ts env k :: K, s⟩ ⟨.back .panic, K, s1⟩) := by
      intro f env k ts
      induction ts with
      | nil =>
        intro s s1 o K v h
        cases h
        exact ⟨fun r hr => (by cases hr; exact .head rfl (.refl _)), fun h => by cases h⟩
      | cons t ts iht =>
        intro s s1 o K v h
        simp only [tryForEach] at h
        cases hr : eval E fuel [f] t s with
        | none => simp [hr] at h
        | some q =>
          obtain ⟨o1, s2⟩ := q
          rw [hr] at h
          rcases o1 with (e | w) | _ | _
          · cases h
            refine ⟨fun r hr' => ?_, fun h => by cases h⟩
            cases hr'
            exact .head rfl ((ih _ _ _ _ _ _ hr (fun h => by cases h)).tail (by cases ts <;> rfl))
          · have := ih _ _ _ _ _ (.triggers f ts env k :: K) hr (fun h => by cases h)
            obtain ⟨h1, h2⟩ := iht s2 s1 o K w h
            exact ⟨fun r hr' => .head rfl (this.trans (h1 r hr')), fun h => .head rfl (this.trans (h2 h))⟩
          · cases h
            refine ⟨fun r hr' => (by cases hr'), fun _ => ?_⟩
            exact .head rfl ((ih _ _ _ _ _ _ hr (fun h => by cases h)).tail (by cases ts <;> rfl))
          · cases h
            exact ⟨fun r hr' => (by cases hr'), fun h => by cases h⟩
    intro env p s s' out K h hout
    cases p with
    | done r => cases h; exact .head rfl (.refl _)
    | panic => cases h; exact .head rfl (.refl _)
    | reenter => cases h; exact absurd rfl hout
    | save c n k =>
      simp only [eval] at h
      cases hc : env[c]? with
      | none => rw [hc] at h; cases h; exact absurd rfl hout
      | some f => rw [hc] at h; exact .head (by simp only [Conf.step, hc]) (ih _ _ _ _ _ _ h hout)
    | delete c i k =>
      simp only [eval] at h
      cases hc : env[c]? with
      | none => rw [hc] at h; cases h; exact absurd rfl hout
      | some f => rw [hc] at h; exact .head (by simp only [Conf.step, hc]) (ih _ _ _ _ _ _ h hout)
    | get c i k =>
      simp only [eval] at h
      cases hc : env[c]? with
      | none => rw [hc] at h; cases h; exact absurd rfl hout
      | some f => rw [hc] at h; exact .head (by simp only [Conf.step, hc]) (ih _ _ _ _ _ _ h hout)
    | contains c i k =>
      simp only [eval] at h
      cases hc : env[c]? with
      | none => rw [hc] at h; cases h; exact absurd rfl hout
      | some f => rw [hc] at h; exact .head (by simp only [Conf.step, hc]) (ih _ _ _ _ _ _ h hout)
    | tx c body k =>
      simp only [eval] at h
      cases hc : env[c]? with
      | none => rw [hc] at h; cases h; exact absurd rfl hout
      | some f =>
        simp only [hc] at h
        refine .head (c' := ⟨.run (s.frames.length :: env) body, .tx s.frames.length env k :: K, openChild s f⟩)
          (by simp only [Conf.step, hc]) ?_
        cases hr : eval E fuel (s.frames.length :: env) body (openChild s f) with
        | none => simp [hr] at h
        | some q =>
          obtain ⟨o1, s1⟩ := q
          rw [hr] at h
          rcases o1 with (e | v) | _ | _
          · exact (ih _ _ _ _ _ _ hr (fun h => by cases h)).trans (.head rfl (ih _ _ _ _ _ _ h hout))
          · exact (ih _ _ _ _ _ _ hr (fun h => by cases h)).trans (.head rfl (ih _ _ _ _ _ _ h hout))
          · cases h; exact (ih _ _ _ _ _ _ hr (fun h => by cases h)).tail rfl
          · cases h; exact absurd rfl hout
    | runTriggers c sch k =>
      simp only [eval] at h
      cases hc : env[c]? with
      | none => rw [hc] at h; cases h; exact absurd rfl hout
      | some f =>
        simp only [hc] at h
        cases hs : E.triggers.select sch with
        | none =>
          rw [hs] at h
          exact .head (by simp only [Conf.step, hc, hs]) (ih _ _ _ _ _ _ h hout)
        | some ts =>
          simp only [hs] at h
          cases hr : tryForEach (eval E fuel [f]) ts s with
          | none => simp [hr] at h
          | some q =>
            obtain ⟨o1, s1⟩ := q
            rw [hr] at h
            -- the loop starts as after a first trigger that does nothing
            have key : ∀ c', Conf.Steps E ⟨.back (.ret (.ok σ.unit)), .triggers f ts env k :: K, s⟩ c' →
                c'.control ≠ .back (.ret (.ok σ.unit)) ∨ c'.stack = K →
                Conf.Steps E ⟨.run env (.runTriggers c sch k), K, s⟩ c' := by
              intro c' hst hne
              cases hst with
              | refl => rcases hne with h | h
                        · exact absurd rfl h
                        · exact absurd (congrArg List.length h) (by simp)
              | head h1 h2 =>
                cases ts with
                | nil => cases h1; exact .head (by simp only [Conf.step, hc, hs]) h2
                | cons t ts => cases h1; exact .head (by simp only [Conf.step, hc, hs]) h2
            obtain ⟨h1, h2⟩ := hts f env k ts s s1 o1 K σ.unit hr
            rcases o1 with r | _ | _
            · exact (key _ (h1 r rfl) (.inr rfl)).trans (ih _ _ _ _ _ _ h hout)
            · cases h; exact key _ (h2 rfl) (.inr rfl)
            · cases h; exact absurd rfl hout
    | withTarget n k =>
      simp only [eval] at h
      cases hc : env[0]? with
      | none => rw [hc] at h; cases h; exact absurd rfl hout
      | some f => rw [hc] at h; exact .head (by simp only [Conf.step, hc]) (ih _ _ _ _ _ _ h hout)
    | targetRead c k =>
      simp only [eval] at h
      cases hc : env[c]? with
      | none => rw [hc] at h; cases h; exact absurd rfl hout
      | some f => rw [hc] at h; exact .head (by simp only [Conf.step, hc]) (ih _ _ _ _ _ _ h hout)
    | targetWrite c fn k =>
      simp only [eval] at h
      cases hc : env[c]? with
      | none => rw [hc] at h; cases h; exact absurd rfl hout
      | some f =>
        simp only [hc] at h
        cases ht : readTarget s f with
        | none =>
          rw [ht] at h
          exact .head (by simp only [Conf.step, hc, ht]) (ih _ _ _ _ _ _ h hout)
        | some n =>
          simp only [ht] at h
          rcases hfn : fn n with ⟨n', _ | _⟩
          · rw [hfn] at h
            exact .head (by simp only [Conf.step, hc, ht, hfn]) (ih _ _ _ _ _ _ h hout)
          · rw [hfn] at h
            cases h
            exact .head (by simp only [Conf.step, hc, ht, hfn]) (.refl _)
    | resRead t k =>
      simp only [eval] at h
      cases hbl : s.resBlocks E t false with
      | true => rw [hbl] at h; cases h; exact absurd rfl hout
      | false =>
        rw [hbl] at h
        exact .head (by simp only [Conf.step, hbl]; rfl) (ih _ _ _ _ _ _ h hout)
    | resScope t excl body k =>
      simp only [eval] at h
      cases hq : (E.resources.res t).lock with
      | none => rw [hq] at h; exact .head (by simp only [Conf.step, hq]) (ih _ _ _ _ _ _ h hout)
      | some q =>
        simp only [hq] at h
        cases hbl : s.blocks q excl with
        | true => rw [hbl] at h; cases h; exact absurd rfl hout
        | false =>
          simp only [hbl, Bool.false_eq_true, if_false] at h
          cases hv : (E.resources.res t).peek s.heap with
          | none =>
            rw [hv] at h
            exact .head (by simp only [Conf.step, hq, hbl, hv]; rfl) (ih _ _ _ _ _ _ h hout)
          | some v =>
            simp only [hv] at h
            refine .head (c' := ⟨.run env (body v), .resScope q excl env k :: K, lockRes s q excl⟩)
              (by simp only [Conf.step, hq, hbl, hv]; rfl) ?_
            cases hr : eval E fuel env (body v) (lockRes s q excl) with
            | none => simp [hr] at h
            | some r =>
              obtain ⟨o1, s1⟩ := r
              rw [hr] at h
              rcases o1 with r | _ | _
              · exact (ih _ _ _ _ _ _ hr (fun h => by cases h)).trans (.head rfl (ih _ _ _ _ _ _ h hout))
              · cases h; exact (ih _ _ _ _ _ _ hr (fun h => by cases h)).tail rfl
              · cases h; exact absurd rfl hout
    | resAssign t x k =>
      simp only [eval] at h
      cases hq : (E.resources.res t).lock with
      | none => rw [hq] at h; cases h; exact absurd rfl hout
      | some q =>
        simp only [hq] at h
        cases hbl : s.locks.contains (q, true) with
        | true =>
          simp only [hbl, if_true] at h
          exact .head (by simp only [Conf.step, hq, hbl, if_true]) (ih _ _ _ _ _ _ h hout)
        | false =>
          simp only [hbl, Bool.false_eq_true, if_false] at h
          cases h; exact absurd rfl hout
    | resWrite t fn k =>
      simp only [eval] at h
      cases hbl : s.resBlocks E t true with
      | true => rw [hbl] at h; cases h; exact absurd rfl hout
      | false =>
      simp only [hbl, Bool.false_eq_true, if_false] at h
      cases hw : (E.resources.res t).withMut s.heap (fun v => ((fn v).1, if (fn v).2 then none else some ())) with
      | mk w hp =>
        rw [hw] at h
        cases w with
        | unavailable => exact .head (by simp only [Conf.step, hbl, Bool.false_eq_true, if_false, hw]) (ih _ _ _ _ _ _ h hout)
        | ran _ => exact .head (by simp only [Conf.step, hbl, Bool.false_eq_true, if_false, hw]) (ih _ _ _ _ _ _ h hout)
        | panicked => cases h; exact .head (by simp only [Conf.step, hbl, Bool.false_eq_true, if_false, hw]) (.refl _)
    | catchUnwind body k =>
      simp only [eval] at h
      refine .head rfl ?_
      cases hr : eval E fuel env body s with
      | none => simp [hr] at h
      | some q =>
        obtain ⟨o1, s1⟩ := q
        rw [hr] at h
        rcases o1 with r | _ | _
        · exact (ih _ _ _ _ _ _ hr (fun h => by cases h)).trans (.head rfl (ih _ _ _ _ _ _ h hout))
        · exact (ih _ _ _ _ _ _ hr (fun h => by cases h)).trans (.head rfl (ih _ _ _ _ _ _ h hout))
        · cases h; exact absurd rfl hout
    | forget k =>
      simp only [eval] at h
      cases hc : env[0]? with
      | none => rw [hc] at h; cases h; exact absurd rfl hout
      | some f => rw [hc] at h; exact .head (by simp only [Conf.step, hc]) (ih _ _ _ _ _ _ h hout)

/-! ## The states the machine goes through -/

/-- The stack fits `len` open contexts. -/
def StackOk : List (Kont σ) → Nat → Prop
  | [], _ => True
  | .tx n env _ :: K, len => 0 < n ∧ n + 1 = len ∧ (∀ e ∈ env, e < n) ∧ StackOk K n
  | .triggers f _ env _ :: K, len => f < len ∧ (∀ e ∈ env, e < len) ∧ StackOk K len
  | .resScope _ _ env _ :: K, len => (∀ e ∈ env, e < len) ∧ StackOk K len
  | .catchUnwind env _ :: K, len => (∀ e ∈ env, e < len) ∧ StackOk K len

/-- The configuration is one the API can get into, on the graph `g`. -/
structure Conf.Ok (g : Graph σ.K σ.T) (c : Conf σ) : Prop where
  reach : Reachable g c.st
  stack : StackOk c.stack c.st.frames.length
  env : ∀ env p, c.control = .run env p → ∀ e ∈ env, e < c.st.frames.length

theorem unwind_reachable {g : Graph σ.K σ.T} {s : St σ} {p : Nat} {excl : Bool} (hr : Reachable g s) :
    Reachable g (unwindRes s p excl) := .heap _ (.locks s.locks.tail hr)

theorem commitChild_length (s : St σ) (n : Nat) (h : n ≤ s.frames.length) : (commitChild s n).frames.length = n := by
  unfold commitChild closeChild
  split
  · simp; omega
  · split
    · simp; omega
    · split <;> simp <;> omega

theorem step_ok (E : Env σ) {g : Graph σ.K σ.T} {c c' : Conf σ} (h : c.step E = some c') (hc : c.Ok g) : c'.Ok g := by
  obtain ⟨control, K, s⟩ := c
  obtain ⟨hr, hK, henv⟩ := hc
  have back : ∀ out, Conf.Ok g (⟨.back out, K, s⟩ : Conf σ) := fun out => ⟨hr, hK, fun _ _ h => by cases h⟩
  cases control with
  | run env p =>
    replace henv := henv env p rfl
    have run : ∀ p s', Reachable g s' → s'.frames.length = s.frames.length → Conf.Ok g (⟨.run env p, K, s'⟩ : Conf σ) :=
      fun p s' h1 h2 => ⟨h1, by rw [h2]; exact hK, fun _ _ h => by cases h; rw [h2]; exact henv⟩
    cases p with
    | done r => cases h; exact back _
    | panic => cases h; exact back _
    | reenter => cases h; exact back _
    | save c n k =>
      simp only [Conf.step] at h
      cases hc : env[c]? with
      | none => rw [hc] at h; cases h; exact back _
      | some f => rw [hc] at h; cases h; exact run _ _ (.push _ _ hr) (by simp [pushOp])
    | delete c n k =>
      simp only [Conf.step] at h
      cases hc : env[c]? with
      | none => rw [hc] at h; cases h; exact back _
      | some f => rw [hc] at h; cases h; exact run _ _ (.push _ _ hr) (by simp [pushOp])
    | get c i k =>
      simp only [Conf.step] at h
      cases hc : env[c]? with
      | none => rw [hc] at h; cases h; exact back _
      | some f => rw [hc] at h; cases h; exact run _ _ hr rfl
    | contains c i k =>
      simp only [Conf.step] at h
      cases hc : env[c]? with
      | none => rw [hc] at h; cases h; exact back _
      | some f => rw [hc] at h; cases h; exact run _ _ hr rfl
    | tx c body k =>
      simp only [Conf.step] at h
      cases hc : env[c]? with
      | none => rw [hc] at h; cases h; exact back _
      | some f =>
        rw [hc] at h; cases h
        have hf := henv f (List.mem_of_getElem? hc)
        refine ⟨.openChild f hf hr, ⟨Nat.lt_of_le_of_lt (Nat.zero_le _) hf, by simp [openChild], henv, hK⟩, fun _ _ h => ?_⟩
        cases h; exact openChild_env henv
    | runTriggers c sch k =>
      simp only [Conf.step] at h
      cases hc : env[c]? with
      | none => rw [hc] at h; cases h; exact back _
      | some f =>
        simp only [hc] at h
        cases hs : E.triggers.select sch with
        | none => rw [hs] at h; cases h; exact run _ _ hr rfl
        | some ts =>
          rw [hs] at h
          cases ts with
          | nil => cases h; exact run _ _ hr rfl
          | cons t ts =>
            cases h
            have hf := henv f (List.mem_of_getElem? hc)
            refine ⟨hr, ⟨hf, henv, hK⟩, fun _ _ h => ?_⟩
            cases h; intro e he; rw [List.mem_singleton.1 he]; exact hf
    | withTarget n k =>
      simp only [Conf.step] at h
      cases hc : env[0]? with
      | none => rw [hc] at h; cases h; exact back _
      | some f => rw [hc] at h; cases h; exact run _ _ (.setTarget _ _ hr) (by simp [setTarget])
    | targetRead c k =>
      simp only [Conf.step] at h
      cases hc : env[c]? with
      | none => rw [hc] at h; cases h; exact back _
      | some f => rw [hc] at h; cases h; exact run _ _ hr rfl
    | targetWrite c fn k =>
      simp only [Conf.step] at h
      cases hc : env[c]? with
      | none => rw [hc] at h; cases h; exact back _
      | some f =>
        simp only [hc] at h
        cases ht : readTarget s f with
        | none => rw [ht] at h; cases h; exact run _ _ hr rfl
        | some n =>
          simp only [ht] at h
          rcases hfn : fn n with ⟨n', _ | _⟩
          · rw [hfn] at h; cases h; exact run _ _ (.writeTarget _ _ _ hr) (by simp [writeTarget])
          · rw [hfn] at h; cases h
            exact ⟨.writeTarget _ _ _ hr, by simpa [writeTarget] using hK, fun _ _ h => by cases h⟩
    | resRead t k =>
      simp only [Conf.step] at h
      split at h
      · cases h; exact back _
      · cases h; exact run _ _ hr rfl
    | resScope t excl body k =>
      simp only [Conf.step] at h
      split at h
      · cases h; exact run _ _ hr rfl
      · split at h
        · cases h; exact back _
        · split at h
          · cases h; exact run _ _ hr rfl
          · cases h; exact ⟨.locks _ hr, ⟨henv, hK⟩, fun _ _ h => by cases h; exact henv⟩
    | resAssign t x k =>
      simp only [Conf.step] at h
      split at h
      · cases h; exact back _
      · split at h
        · cases h; exact run _ _ (.heap _ hr) rfl
        · cases h; exact back _
    | resWrite t fn k =>
      simp only [Conf.step] at h
      split at h
      · cases h; exact back _
      generalize (E.resources.res t).withMut s.heap (fun v => ((fn v).1, if (fn v).2 then none else some ())) = w at h
      obtain ⟨w, hp⟩ := w
      cases w with
      | unavailable => cases h; exact run _ _ hr rfl
      | ran _ => cases h; exact run _ _ (.heap _ hr) rfl
      | panicked => cases h; exact ⟨.heap _ hr, hK, fun _ _ h => by cases h⟩
    | catchUnwind body k => cases h; exact ⟨hr, ⟨henv, hK⟩, fun _ _ h => by cases h; exact henv⟩
    | forget k =>
      simp only [Conf.step] at h
      cases hc : env[0]? with
      | none => rw [hc] at h; cases h; exact back _
      | some f => rw [hc] at h; cases h; exact run _ _ (.leak _ hr) (by simp [leakFrame])
  | back out =>
    cases K with
    | nil => rcases out with (e | v) | _ | _ <;> cases h
    | cons κ K =>
      cases κ with
      | tx n env k =>
        obtain ⟨hn, hl, he, hK⟩ := hK
        replace hl : n + 1 = s.frames.length := hl
        have hcl : (closeChild s n).frames.length = n := by simp [closeChild]; omega
        have hcm := commitChild_length s n (by omega)
        rcases out with (e | v) | _ | _
        · cases h
          exact ⟨.close n hn hl hr, by rw [hcl]; exact hK, fun _ _ h => by cases h; rw [hcl]; exact he⟩
        · cases h
          exact ⟨.commit n hn hl hr, by rw [hcm]; exact hK, fun _ _ h => by cases h; rw [hcm]; exact he⟩
        · cases h
          exact ⟨.close n hn hl hr, by rw [hcl]; exact hK, fun _ _ h => by cases h⟩
        · cases h
      | triggers f rest env k =>
        obtain ⟨hf, he, hK⟩ := hK
        rcases out with (e | v) | _ | _
        · cases rest <;> cases h <;> exact ⟨hr, hK, fun _ _ h => by cases h; exact he⟩
        · cases rest with
          | nil => cases h; exact ⟨hr, hK, fun _ _ h => by cases h; exact he⟩
          | cons t ts =>
            cases h
            refine ⟨hr, ⟨hf, he, hK⟩, fun _ _ h => ?_⟩
            cases h; intro e he; rw [List.mem_singleton.1 he]; exact hf
        · cases rest <;> cases h <;> exact ⟨hr, hK, fun _ _ h => by cases h⟩
        · cases rest <;> cases h
      | resScope p excl env k =>
        obtain ⟨he, hK⟩ := hK
        rcases out with r | _ | _
        · cases h; exact ⟨.locks _ hr, hK, fun _ _ h => by cases h; exact he⟩
        · cases h; exact ⟨unwind_reachable hr, hK, fun _ _ h => by cases h⟩
        · cases h
      | catchUnwind env k =>
        obtain ⟨he, hK⟩ := hK
        rcases out with r | _ | _
        · cases h; exact ⟨hr, hK, fun _ _ h => by cases h; exact he⟩
        · cases h; exact ⟨hr, hK, fun _ _ h => by cases h; exact he⟩
        · cases h

theorem steps_ok {E : Env σ} {g : Graph σ.K σ.T} {c c' : Conf σ} (h : Conf.Steps E c c') (hc : c.Ok g) : c'.Ok g := by
  induction h with
  | refl => exact hc
  | head h1 _ ih => exact ih (step_ok E h1 hc)

theorem begin_ok (S : Schema σ) (pre : List (Operation σ.K σ.T)) (body : Prog σ) :
    Conf.Ok S.graph (⟨.run [0] body, [], S.begin pre⟩ : Conf σ) :=
  ⟨begin_reachable S pre, trivial, fun _ _ h => by cases h; exact begin_env S pre⟩

/-! ## Interleavings -/

theorem guard_graph (S : Schema σ) : S.guard = S.graph := by unfold Schema.guard; split <;> rfl

theorem begin_congr {S S' : Schema σ} (hg : S'.graph = S.graph) (hh : S'.heap = S.heap) (pre : List (Operation σ.K σ.T)) :
    S'.begin pre = S.begin pre := by unfold Schema.begin; rw [guard_graph, guard_graph, hg, hh]

/-- How the schema looks compared with `S`, the schema served one by one, while a client has the exclusive lock. -/
def Client.Holding (S now : Schema σ) : Client σ → Prop
  | .idle => now = S
  | .reading => now = S
  | .writing ops => now = { S with graph := S.graph.commit ops }
  | .opened _ => now = S
  | .running pre body control stack frames locks => now = { S with heap := now.heap } ∧
      Conf.Steps S.env ⟨.run [0] body, [], S.begin pre⟩ ⟨control, stack, ⟨S.graph, frames, now.heap, locks⟩⟩
  | .committing pre body v n rest => ∃ fuel frames locks root done, root.leaked = false ∧ frames[0]? = some root ∧
      root.ops = done ++ rest ∧ done.length = n ∧
      eval S.env fuel [0] body (S.begin pre) = some (.ret (.ok v), ⟨S.graph, frames, now.heap, locks⟩) ∧
      now = { S with graph := S.graph.commit done, heap := now.heap }

/-- The invariant of interleavings. -/
structure Served (S : Schema σ) (s : Sys σ) : Prop where
  /-- Whoever has the exclusive lock is alone. -/
  alone : ∀ c d, (s.clients c).exclusive = true → (s.clients d).locks = true → c = d
  /-- If nobody has it, the schema is as if served one by one. -/
  quiet : (∀ c, (s.clients c).exclusive = false) → s.schema = S
  /-- Whoever has it is doing its own transaction or changes, from there. -/
  busy : ∀ c, (s.clients c).exclusive = true → (s.clients c).Holding S s.schema

theorem Client.locks_of_exclusive {x : Client σ} (h : x.exclusive = true) : x.locks = true := by
  cases x <;> first | rfl | cases h

@[simp] theorem set_self (s : Sys σ) (c : Nat) (x : Client σ) : (s.set c x).clients c = x := by simp [Sys.set]
theorem set_other (s : Sys σ) {c d : Nat} (x : Client σ) (h : d ≠ c) : (s.set c x).clients d = s.clients d := by
  simp [Sys.set, h]
@[simp] theorem set_schema (s : Sys σ) (c : Nat) (x : Client σ) : (s.set c x).schema = s.schema := rfl

/-- The client with the exclusive lock goes on with it. -/
theorem Served.keep {S : Schema σ} {s s' : Sys σ} {c : Nat} {x : Client σ} (h : Served S s)
    (hc : (s.clients c).exclusive = true) (hx : x.exclusive = true) (hs : s'.clients = (s.set c x).clients)
    (hold : x.Holding S s'.schema) : Served S s' := by
  have other : ∀ d, d ≠ c → (s'.clients d).locks = false := by
    intro d hd
    rw [hs, set_other s x hd]
    cases hl : (s.clients d).locks with
    | false => rfl
    | true => exact absurd (h.alone c d hc hl).symm hd
  have excl : ∀ d, (s'.clients d).exclusive = true → d = c := by
    intro d hd
    by_cases e : d = c
    · exact e
    · have := other d e; rw [Client.locks_of_exclusive hd] at this; cases this
  refine ⟨fun a b ha hb => ?_, fun hq => ?_, fun a ha => ?_⟩
  · rw [excl a ha]
    by_cases e : b = c
    · exact e.symm
    · rw [other b e] at hb; cases hb
  · have := hq c; rw [hs, set_self, hx] at this; cases this
  · rw [excl a ha, hs, set_self]; exact hold

/-- The client with the exclusive lock releases it. -/
theorem Served.release {S S' : Schema σ} {s s' : Sys σ} {c : Nat} (h : Served S s)
    (hc : (s.clients c).exclusive = true) (hs : s'.clients = (s.set c .idle).clients) (hS : s'.schema = S') : Served S' s' := by
  have other : ∀ d, (s'.clients d).locks = false := by
    intro d
    rw [hs]
    by_cases hd : d = c
    · rw [hd, set_self]; rfl
    · rw [set_other s _ hd]
      cases hl : (s.clients d).locks with
      | false => rfl
      | true => exact absurd (h.alone c d hc hl).symm hd
  have excl : ∀ d, (s'.clients d).exclusive = true → False := by
    intro d hd
    have := other d; rw [Client.locks_of_exclusive hd] at this; cases this
  exact ⟨fun a _ ha _ => (excl a ha).elim, fun _ => hS, fun a ha => (excl a ha).elim⟩

/-- A client takes the exclusive lock. -/
theorem Served.take {S : Schema σ} {s : Sys σ} {c : Nat} {x : Client σ} (h : Served S s)
    (hc : ∀ d, (s.clients d).locks = false) (hx : x.exclusive = true) (hold : s.schema = S → x.Holding S s.schema) :
    Served S (s.set c x) := by
  have hq : s.schema = S := h.quiet fun d => by
    cases hd : (s.clients d).exclusive with
    | false => rfl
    | true => have := hc d; rw [Client.locks_of_exclusive hd] at this; cases this
  have other : ∀ d, d ≠ c → ((s.set c x).clients d).locks = false := fun d hd => by rw [set_other s x hd]; exact hc d
  have excl : ∀ d, ((s.set c x).clients d).exclusive = true → d = c := by
    intro d hd
    by_cases e : d = c
    · exact e
    · have := other d e; rw [Client.locks_of_exclusive hd] at this; cases this
  refine ⟨fun a b ha hb => ?_, fun hq => ?_, fun a ha => ?_⟩
  · rw [excl a ha]
    by_cases e : b = c
    · exact e.symm
    · rw [other b e] at hb; cases hb
  · have := hq c; rw [set_self, hx] at this; cases this
  · rw [excl a ha, set_self]; exact hold hq

/-- A client takes or releases a shared lock. -/
theorem Served.share {S : Schema σ} {s : Sys σ} {c : Nat} {x : Client σ} (h : Served S s)
    (hc : ∀ d, (s.clients d).exclusive = false) (hx : x.exclusive = false) : Served S (s.set c x) := by
  have excl : ∀ d, ((s.set c x).clients d).exclusive = false := by
    intro d
    by_cases e : d = c
    · rw [e, set_self]; exact hx
    · rw [set_other s x e]; exact hc d
  exact ⟨fun a _ ha _ => (by rw [excl a] at ha; cases ha), fun _ => h.quiet hc, fun a ha => by rw [excl a] at ha; cases ha⟩

/-- Nobody has the exclusive lock while someone reads. -/
theorem Served.reading {S : Schema σ} {s : Sys σ} {c : Nat} (h : Served S s) (hc : s.clients c = .reading) :
    ∀ d, (s.clients d).exclusive = false := by
  intro d
  cases hd : (s.clients d).exclusive with
  | false => rfl
  | true =>
    have := h.alone d c hd (by rw [hc]; rfl)
    rw [this, hc] at hd; cases hd

theorem commit_snoc (g : Graph σ.K σ.T) (ops : List (Operation σ.K σ.T)) (op : Operation σ.K σ.T) :
    g.commit (ops ++ [op]) = (g.commit ops).applyOp op := by simp [Graph.commit]

theorem commitCrash_append (done : List (Operation σ.K σ.T)) : ∀ (g : Graph σ.K σ.T) (op : Operation σ.K σ.T)
    (rest : List (Operation σ.K σ.T)), g.commitCrash (done ++ op :: rest) done.length = g.commit done := by
  induction done with
  | nil => intro g op rest; rfl
  | cons a t ih => intro g op rest; exact ih (g.applyOp a) op rest

/-- One step of the clients is one thing happening, or nothing, to the schema served one by one. -/
theorem Served.step {S : Schema σ} {s s' : Sys σ} {e : SysEvent σ} (h : Served S s) (hs : Sys.Step s e s') :
    ∃ S', Alone S e S' ∧ Served S' s' := by
  cases hs with
  | read c hc hq => exact ⟨S, .read S c, h.share hq rfl⟩
  | observe c i hc =>
    have := h.quiet (h.reading hc)
    exact ⟨S, by rw [this]; exact .observe S c i, h⟩
  | readDone c hc => exact ⟨S, .readDone S c, h.share (h.reading hc) rfl⟩
  | write c hq => exact ⟨S, .write S c, h.take hq rfl fun e => e⟩
  | update c ops op hc =>
    have hx : (s.clients c).exclusive = true := by rw [hc]; rfl
    have hb := h.busy c hx
    rw [hc] at hb
    refine ⟨S, .update S c op, h.keep hx (x := .writing (ops ++ [op])) rfl rfl ?_⟩
    show { s.schema with graph := s.schema.graph.applyOp op } = { S with graph := S.graph.commit (ops ++ [op]) }
    rw [show s.schema = { S with graph := S.graph.commit ops } from hb, commit_snoc]
  | writeDone c ops panicked hc =>
    have hx : (s.clients c).exclusive = true := by rw [hc]; rfl
    have hb := h.busy c hx
    rw [hc] at hb
    refine ⟨_, .writeDone S c ops panicked, h.release hx rfl ?_⟩
    show ({ s.schema with poisoned := s.schema.poisoned || panicked } : Schema σ) = _
    rw [show s.schema = { S with graph := S.graph.commit ops } from hb]
  | openTx c hq => exact ⟨S, .openTx S c, h.take hq rfl fun e => e⟩
  | register c pre op hc =>
    have hx : (s.clients c).exclusive = true := by rw [hc]; rfl
    have hb := h.busy c hx
    rw [hc] at hb
    exact ⟨S, .register S c op, h.keep hx (x := .opened (pre ++ [op])) rfl rfl hb⟩
  | dropTx c pre hc =>
    have hx : (s.clients c).exclusive = true := by rw [hc]; rfl
    have hb := h.busy c hx
    rw [hc] at hb
    exact ⟨S, .dropTx S c, h.release hx rfl hb⟩
  | call c pre body hc =>
    have hx : (s.clients c).exclusive = true := by rw [hc]; rfl
    have hb : s.schema = S := by have := h.busy c hx; rw [hc] at this; exact this
    refine ⟨S, .call S c body, h.keep hx (x := .running pre body (.run [0] body) [] (s.schema.begin pre).frames []) rfl rfl ?_⟩
    show s.schema = { S with heap := s.schema.heap } ∧ _
    rw [set_schema, hb]
    refine ⟨rfl, ?_⟩
    have : S.begin pre = ⟨S.graph, (S.begin pre).frames, S.heap, []⟩ := by unfold Schema.begin; rw [guard_graph]
    rw [← this]
    exact .refl _
  | @work c pre body control stack frames locks next hc hst =>
    have hx : (s.clients c).exclusive = true := by rw [hc]; rfl
    have hb := h.busy c hx
    rw [hc] at hb
    obtain ⟨h1, h2⟩ := hb
    have henv : s.schema.env = S.env := by rw [h1]
    have hgr : s.schema.guard = S.graph := by rw [guard_graph, h1]
    rw [henv, hgr] at hst
    have h3 := h2.tail hst
    have hg : next.st.graph = S.graph := (steps_ok h3 (begin_ok S pre body)).reach.graph
    refine ⟨S, .internal S c, h.keep hx (x := .running pre body next.control next.stack next.st.frames next.st.locks) rfl rfl ⟨?_, ?_⟩⟩
    · show ({ s.schema with graph := next.st.graph, heap := next.st.heap } : Schema σ) = { S with heap := next.st.heap }
      rw [h1, hg]
    · obtain ⟨_, _, st⟩ := next
      obtain ⟨_, _, _, _⟩ := st
      cases hg
      exact h3
  | @commit c pre body v frames locks root hc hroot hl =>
    have hx : (s.clients c).exclusive = true := by rw [hc]; rfl
    have hb := h.busy c hx
    rw [hc] at hb
    obtain ⟨h1, h2⟩ := hb
    obtain ⟨fuel, h3⟩ := h2.eval
    refine ⟨S, .internal S c, h.keep hx (x := .committing pre body v 0 root.ops) rfl rfl ?_⟩
    exact ⟨fuel, frames, locks, root, [], hl, hroot, rfl, rfl, h3, h1⟩
  | @leaked c pre body v frames locks root hc hroot hl =>
    have hx : (s.clients c).exclusive = true := by rw [hc]; rfl
    have hb := h.busy c hx
    rw [hc] at hb
    obtain ⟨h1, h2⟩ := hb
    obtain ⟨fuel, h3⟩ := h2.eval
    refine ⟨s.schema, .finish c fuel ?_, h.release hx rfl rfl⟩
    unfold Schema.transact
    simp only [h3, commitRoot, hroot, hl]
    rw [h1]; rfl
  | @fail c pre body e frames locks hc =>
    have hx : (s.clients c).exclusive = true := by rw [hc]; rfl
    have hb := h.busy c hx
    rw [hc] at hb
    obtain ⟨h1, h2⟩ := hb
    obtain ⟨fuel, h3⟩ := h2.eval
    refine ⟨s.schema, .finish c fuel ?_, h.release hx rfl rfl⟩
    unfold Schema.transact
    simp only [h3]
    rw [h1]
  | @panic c pre body frames locks hc =>
    have hx : (s.clients c).exclusive = true := by rw [hc]; rfl
    have hb := h.busy c hx
    rw [hc] at hb
    obtain ⟨h1, h2⟩ := hb
    obtain ⟨fuel, h3⟩ := h2.eval
    refine ⟨{ s.schema with poisoned := true }, .finish c fuel ?_, h.release hx rfl rfl⟩
    unfold Schema.transact
    simp only [h3]
    rw [h1]
  | @apply c pre body v n op rest hc =>
    have hx : (s.clients c).exclusive = true := by rw [hc]; rfl
    have hb := h.busy c hx
    rw [hc] at hb
    obtain ⟨fuel, frames, locks, root, done, h1, h2, h3, h4, h5, h6⟩ := hb
    refine ⟨S, .internal S c, h.keep hx (x := .committing pre body v (n + 1) rest) rfl rfl ?_⟩
    refine ⟨fuel, frames, locks, root, done ++ [op], h1, h2, by simp [h3], by simp [h4], h5, ?_⟩
    show ({ s.schema with graph := s.schema.graph.applyOp op } : Schema σ) =
      { S with graph := S.graph.commit (done ++ [op]), heap := s.schema.heap }
    rw [commit_snoc, h6]
  | @finish c pre body v n hc =>
    have hx : (s.clients c).exclusive = true := by rw [hc]; rfl
    have hb := h.busy c hx
    rw [hc] at hb
    obtain ⟨fuel, frames, locks, root, done, h1, h2, h3, h4, h5, h6⟩ := hb
    refine ⟨s.schema, .finish c fuel ?_, h.release hx rfl rfl⟩
    unfold Schema.transact
    rw [List.append_nil] at h3
    simp only [h5, commitRoot, h2, h1, h3]
    rw [h6]; rfl
  | @crash c pre body v n op rest hc =>
    have hx : (s.clients c).exclusive = true := by rw [hc]; rfl
    have hb := h.busy c hx
    rw [hc] at hb
    obtain ⟨fuel, frames, locks, root, done, h1, h2, h3, h4, h5, h6⟩ := hb
    refine ⟨{ s.schema with poisoned := true }, .crash c fuel ?_, h.release hx rfl rfl⟩
    unfold Schema.transactCrash
    have hlt : n < root.ops.length := by rw [h3, ← h4]; simp
    simp only [h5, h2, h1, hlt, if_true, Bool.false_eq_true, if_false]
    rw [h3, ← h4, commitCrash_append, h6]

/-- The start. -/
theorem Served.start (S : Schema σ) : Served S (Sys.start S) :=
  ⟨fun _ _ h => (by cases h), fun _ => rfl, fun _ h => by cases h⟩

theorem Served.run {S : Schema σ} {s : Sys σ} {es : List (SysEvent σ)} (h : Sys.Run (Sys.start S) es s) :
    ∃ S', OneByOne S es S' ∧ Served S' s := by
  induction h with
  | nil => exact ⟨S, .nil S, .start S⟩
  | snoc _ hstep ih =>
    obtain ⟨S1, h1, h2⟩ := ih
    obtain ⟨S2, h3, h4⟩ := h2.step hstep
    exact ⟨S2, .snoc h1 h3, h4⟩

/-! ## What clients can do -/

theorem Sys.Run.trans {a b c : Sys σ} {es es' : List (SysEvent σ)} (h : Sys.Run a es b) (h' : Sys.Run b es' c) :
    Sys.Run a (es ++ es') c := by
  induction h' with
  | nil => rw [List.append_nil]; exact h
  | snoc _ hs ih => rw [← List.append_assoc]; exact .snoc ih hs

theorem Sys.Run.one {a b : Sys σ} {e : SysEvent σ} (h : Sys.Step a e b) : Sys.Run a [e] b := .snoc (.nil a) h

theorem Sys.Run.cons {a b c : Sys σ} {e : SysEvent σ} {es : List (SysEvent σ)} (h : Sys.Step a e b) (h' : Sys.Run b es c) :
    Sys.Run a (e :: es) c := (Sys.Run.one h).trans h'

theorem set_set (s : Sys σ) (c : Nat) (x y : Client σ) : (s.set c x).set c y = s.set c y := by
  unfold Sys.set
  congr 1
  funext d
  by_cases h : d = c <;> simp [h]

/-- Registering operations. -/
theorem run_register (c : Nat) (s : Sys σ) (ops : List (Operation σ.K σ.T)) : ∀ pre,
    Sys.Run (s.set c (.opened pre)) (ops.map (.register c)) (s.set c (.opened (pre ++ ops))) := by
  induction ops with
  | nil => intro pre; rw [List.append_nil]; exact .nil _
  | cons op t ih =>
    intro pre
    have h1 : Sys.Step (s.set c (.opened pre)) (.register c op) (s.set c (.opened (pre ++ [op]))) := by
      have := Sys.Step.register (s := s.set c (.opened pre)) c pre op (set_self ..)
      rwa [set_set] at this
    have h2 := ih (pre ++ [op])
    rw [List.append_assoc] at h2
    exact (Sys.Run.one h1).trans h2

/-- Running a closure. -/
theorem run_work (c : Nat) (s : Sys σ) (pre : List (Operation σ.K σ.T)) (body : Prog σ) {a b : Conf σ}
    (h : Conf.Steps s.schema.env a b) :
    ∃ n, Sys.Run ({ s.set c (.running pre body a.control a.stack a.st.frames a.st.locks) with
        schema := { s.schema with graph := a.st.graph, heap := a.st.heap } } : Sys σ) (List.replicate n (.internal c))
      { s.set c (.running pre body b.control b.stack b.st.frames b.st.locks) with
        schema := { s.schema with graph := b.st.graph, heap := b.st.heap } } := by
  induction h with
  | refl a => exact ⟨0, .nil _⟩
  | @head a a' b h1 _ ih =>
    obtain ⟨n, hn⟩ := ih
    refine ⟨n + 1, ?_⟩
    have h2 : Sys.Step ({ s.set c (.running pre body a.control a.stack a.st.frames a.st.locks) with
        schema := { s.schema with graph := a.st.graph, heap := a.st.heap } } : Sys σ) (.internal c)
        { s.set c (.running pre body a'.control a'.stack a'.st.frames a'.st.locks) with
          schema := { s.schema with graph := a'.st.graph, heap := a'.st.heap } } := by
      have := Sys.Step.work (s := ({ s.set c (.running pre body a.control a.stack a.st.frames a.st.locks) with
        schema := { s.schema with graph := a.st.graph, heap := a.st.heap } } : Sys σ)) c (set_self ..) (next := a')
        (by rw [guard_graph]; exact h1)
      have e := set_set s c (.running pre body a.control a.stack a.st.frames a.st.locks) (.running pre body a'.control a'.stack a'.st.frames a'.st.locks)
      have e2 := congrArg Sys.clients e
      simp only [Sys.set] at this e2 ⊢
      rw [e2] at this
      exact this
    exact (Sys.Run.one h2).trans hn

/-- Applying operations in a commit. -/
theorem run_apply (c : Nat) (s : Sys σ) (pre : List (Operation σ.K σ.T)) (body : Prog σ) (v : σ.V)
    (ops : List (Operation σ.K σ.T)) : ∀ (n : Nat) (S : Schema σ),
    Sys.Run ({ s.set c (.committing pre body v n ops) with schema := S } : Sys σ) (ops.map fun _ => .internal c)
      { s.set c (.committing pre body v (n + ops.length) []) with schema := { S with graph := S.graph.commit ops } } := by
  induction ops with
  | nil => intro n S; exact .nil _
  | cons op t ih =>
    intro n S
    have h2 : Sys.Step ({ s.set c (.committing pre body v n (op :: t)) with schema := S } : Sys σ) (.internal c)
        { s.set c (.committing pre body v (n + 1) t) with schema := { S with graph := S.graph.applyOp op } } := by
      have := Sys.Step.apply (s := ({ s.set c (.committing pre body v n (op :: t)) with schema := S } : Sys σ)) c (set_self ..)
      have e2 := congrArg Sys.clients (set_set s c (.committing pre body v n (op :: t)) (.committing pre body v (n + 1) t))
      simp only [Sys.set] at this e2 ⊢
      rw [e2] at this
      exact this
    have h3 := ih (n + 1) { S with graph := S.graph.applyOp op }
    rw [show n + 1 + t.length = n + (op :: t).length by simp; omega] at h3
    exact (Sys.Run.one h2).trans h3

/-- The machine stops only at the end of the closure, or blocked. -/
theorem step_none {E : Env σ} {c : Conf σ} (h : c.step E = none) :
    c.control = .back .stuck ∨ (c.stack = [] ∧ ∃ out, c.control = .back out) := by
  obtain ⟨control, K, s⟩ := c
  cases control with
  | run env p =>
    exfalso
    cases p <;> simp only [Conf.step, reduceCtorEq] at h
    case runTriggers c sch k =>
      split at h
      · cases h
      · split at h <;> cases h
    case targetWrite c fn k =>
      split at h
      · cases h
      · split at h
        · cases h
        · split at h <;> cases h
    case resWrite t fn k =>
      split at h
      · cases h
      · split at h <;> cases h
    case resScope t excl body k =>
      split at h
      · cases h
      · split at h
        · cases h
        · split at h <;> cases h
    case resAssign t x k =>
      split at h
      · cases h
      · split at h <;> cases h
    all_goals (split at h <;> cases h)
  | back out =>
    cases K with
    | nil => exact .inr ⟨rfl, out, rfl⟩
    | cons κ K =>
      rcases out with (e | v) | _ | _
      · cases κ with
        | triggers f rest env k => cases rest <;> cases h
        | _ => cases h
      · cases κ with
        | triggers f rest env k => cases rest <;> cases h
        | _ => cases h
      · cases κ with
        | triggers f rest env k => cases rest <;> cases h
        | _ => cases h
      · exact .inl rfl

end Plotline
