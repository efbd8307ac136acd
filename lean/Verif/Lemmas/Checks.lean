import Verif.Spec.Checks
import Verif.Lemmas.Copy

/-! # Lemmas for C118 -/

namespace Plotline

open Std

set_option linter.unusedSectionVars false

variable {σ : Sig}

section
variable [LawfulSig σ]

theorem Filed.put {m : FMap σ.K σ.T} (h : m.Filed) (n : σ.T) : (m.put (id n) n).Filed := by
  refine ⟨fun i n' hi => ?_, fun i j hij => ?_⟩
  · simp only [FMap.put] at hi
    split at hi
    · next he => cases hi; exact BEq.symm he
    · exact h.own i n' hi
  · simp only [FMap.put]
    rw [BEq.congr_left hij, h.equal i j hij]

theorem Filed.del {m : FMap σ.K σ.T} (h : m.Filed) (i : σ.K) : (m.del i).Filed := by
  refine ⟨fun j n' hi => ?_, fun j k hjk => ?_⟩
  · simp only [FMap.del] at hi
    split at hi
    · cases hi
    · exact h.own j n' hi
  · simp only [FMap.del]
    rw [BEq.congr_left hjk, h.equal j k hjk]

theorem Filed.applyAll {m : FMap σ.K σ.T} (h : m.Filed) (ops : List (Operation σ.K σ.T)) : (FMap.applyAll m ops).Filed := by
  induction ops generalizing m with
  | nil => exact h
  | cons op ops ih =>
    refine ih (m := FMap.apply m op) ?_
    cases op with
    | save n => exact Filed.put h n
    | delete i => exact Filed.del h i

theorem Filed.get {g : Graph σ.K σ.T} (hg : g.Reachable) : FMap.Filed (σ := σ) g.get :=
  ⟨fun _ _ h => BEq.symm (Graph.get_some_id _ hg.valid h), fun _ _ h => Graph.get_congr g h⟩

/-- So it is in every context. -/
theorem Filed.ctx {g : Graph σ.K σ.T} (hg : g.Reachable) {s : St σ} (hs : Reachable g s) {f : Nat} (hf : f < s.frames.length) :
    FMap.Filed (σ := σ) (ctxGet s.graph s.frames f) := by
  obtain ⟨ops, hops⟩ := pending_exists hs.wf hf
  rw [ctxGet_pending hs.wf hops, hs.graph]
  exact Filed.applyAll (Filed.get hg) ops

theorem Filed.del_own {m : FMap σ.K σ.T} {i : σ.K} {n : σ.T} (hn : (id n == i) = true) : m.del (id n) = m.del i := by
  funext j
  simp only [FMap.del]
  have : (j == id n) = (j == i) := by
    rw [Bool.eq_iff_iff, Graph.beq_iff, Graph.beq_iff]
    have := Graph.beq_iff.1 hn
    constructor
    · intro h; exact TransCmp.eq_trans h this
    · intro h; exact TransCmp.eq_trans h (OrientedCmp.eq_symm this)
  rw [this]

/-- Triggers run one after another keep what each of them keeps. -/
theorem copyEach_keeps {run : Prog σ → View σ → Option (Out (Except Error σ.V) × View σ)} {J : View σ → Prop}
    (ts : List (Prog σ)) (h : ∀ t ∈ ts, ∀ v out v', J v → run t v = some (out, v') → J v') (v : View σ) (out : Out (Except Error Unit))
    (v' : View σ) (hv : J v) (hr : copyEach run ts v = some (out, v')) : J v' := by
  induction ts generalizing v with
  | nil => simp only [copyEach] at hr; cases hr; exact hv
  | cons t ts ih =>
    simp only [copyEach, bind, Option.bind] at hr
    split at hr
    · cases hr
    · next r hrun =>
      dsimp only at hr
      have h1 := h t (List.mem_cons_self ..) v r.1 r.2 hv hrun
      split at hr
      · exact ih (fun t ht => h t (List.mem_cons_of_mem _ ht)) _ h1 hr
      all_goals (cases hr; exact h1)

/-- If all of them returned `Ok`, the last one did, on what the others left. -/
theorem copyEach_last {run : Prog σ → View σ → Option (Out (Except Error σ.V) × View σ)} (ts : List (Prog σ)) (t : Prog σ) (v v' : View σ)
    (h : copyEach run (ts ++ [t]) v = some (.ret (.ok ()), v')) :
    ∃ v1 a, copyEach run ts v = some (.ret (.ok ()), v1) ∧ run t v1 = some (.ret (.ok a), v') := by
  induction ts generalizing v with
  | nil =>
    simp only [List.nil_append, copyEach, bind, Option.bind] at h
    split at h
    · cases h
    · next r hrun =>
      dsimp only at h
      obtain ⟨o, w⟩ := r
      split at h
      · next heq => cases heq; cases h; exact ⟨v, _, rfl, hrun⟩
      all_goals cases h
  | cons u ts ih =>
    simp only [List.cons_append, copyEach, bind, Option.bind] at h ⊢
    split at h
    · cases h
    · next r hrun =>
      dsimp only at h
      obtain ⟨o, w⟩ := r
      rw [hrun]
      split at h
      · next heq => cases heq; exact ih _ h
      all_goals cases h

/-- Nodes stay filed under their own ids, whatever runs. -/
theorem copyRun_filed (E : Env σ) : ∀ (fuel : Nat) (p : Prog σ) (v : View σ) (out : Out (Except Error σ.V)) (v' : View σ),
    v.map.Filed → copyRun E fuel p v = some (out, v') → v'.map.Filed := by
  intro fuel
  induction fuel with
  | zero => intro p v out v' _ h; cases p <;> simp [copyRun] at h
  | succ fuel ih =>
    intro p v out v' hv h
    cases p <;> simp only [copyRun] at h
    case done => cases h; exact hv
    case panic => cases h; exact hv
    case reenter => cases h; exact hv
    case save c n k => exact ih _ _ _ _ (Filed.put hv n) h
    case delete c i k => exact ih _ _ _ _ (Filed.del hv i) h
    case get => exact ih _ _ _ _ (by exact hv) h
    case contains => exact ih _ _ _ _ (by exact hv) h
    case tx c body k =>
      simp only [bind, Option.bind] at h
      split at h
      · cases h
      · next r hb =>
        dsimp only at h
        have h1 := ih _ _ r.1 r.2 (by exact hv) hb
        split at h
        · exact ih _ _ _ _ (by exact h1) h
        · exact ih _ _ _ _ (by exact hv) h
        all_goals (cases h; exact hv)
    case runTriggers c s k =>
      simp only [bind, Option.bind] at h
      split at h
      · cases h
      · next r hb =>
        dsimp only at h
        have h1 : r.2.map.Filed := copyEach_keeps (J := fun v => v.map.Filed) _ (fun t _ v out v' hv hr => ih t v out v' hv hr) _ _ _ hv hb
        split at h
        · exact ih _ _ _ _ (by exact h1) h
        all_goals (cases h; exact h1)
    case withTarget => exact ih _ _ _ _ (by exact hv) h
    case targetRead => exact ih _ _ _ _ (by exact hv) h
    case targetWrite =>
      split at h
      · exact ih _ _ _ _ (by exact hv) h
      · split at h
        · cases h; exact hv
        · exact ih _ _ _ _ (by exact hv) h
    case resRead =>
      split at h
      · cases h; exact hv
      · exact ih _ _ _ _ (by exact hv) h
    case resWrite =>
      split at h
      · cases h; exact hv
      · split at h
        · exact ih _ _ _ _ (by exact hv) h
        · exact ih _ _ _ _ (by exact hv) h
        · cases h; exact hv
    case resScope =>
      split at h
      · cases h; exact hv
      · split at h
        · simp only [bind, Option.bind] at h
          split at h
          · cases h
          · next r hb =>
            dsimp only at h
            have h1 := ih _ _ r.1 r.2 (by exact hv) hb
            split at h
            · exact ih _ _ _ _ (by exact h1) h
            all_goals (cases h; exact h1)
        · exact ih _ _ _ _ (by exact hv) h
    case resAssign =>
      split at h
      · cases h; exact hv
      · split at h
        · exact ih _ _ _ _ (by exact hv) h
        · cases h; exact hv
    case catchUnwind =>
      simp only [bind, Option.bind] at h
      split at h
      · cases h
      · next r hb =>
        dsimp only at h
        have h1 := ih _ _ r.1 r.2 (by exact hv) hb
        split at h
        · exact ih _ _ _ _ (by exact h1) h
        · exact ih _ _ _ _ (by exact h1) h
        · cases h; exact h1
    case forget => cases h

/-- What leaves the target alone leaves the target alone. -/
theorem copyRun_aims (E : Env σ) : ∀ (fuel : Nat) (p : Prog σ) (v : View σ) (out : Out (Except Error σ.V)) (v' : View σ),
    p.Aims → copyRun E fuel p v = some (out, v') → v'.target = v.target := by
  intro fuel
  induction fuel with
  | zero => intro p v out v' _ h; cases p <;> simp [copyRun] at h
  | succ fuel ih =>
    intro p v out v' hp h
    cases p <;> simp only [copyRun] at h <;> simp only [Prog.Aims] at hp
    case done => cases h; rfl
    case panic => cases h; rfl
    case reenter => cases h; rfl
    case save c n k => have h2 := ih _ _ _ _ hp h; exact h2
    case delete c i k => have h2 := ih _ _ _ _ hp h; exact h2
    case get => have h2 := ih _ _ _ _ (hp _) h; exact h2
    case contains => have h2 := ih _ _ _ _ (hp _) h; exact h2
    case tx c body k =>
      simp only [bind, Option.bind] at h
      split at h
      · cases h
      · dsimp only at h
        split at h
        · have h2 := ih _ _ _ _ (hp _) h; exact h2
        · have h2 := ih _ _ _ _ (hp _) h; exact h2
        all_goals (cases h; rfl)
    case targetRead => have h2 := ih _ _ _ _ (hp _) h; exact h2
    case resRead =>
      split at h
      · cases h; rfl
      · have h2 := ih _ _ _ _ (hp _) h; exact h2
    case resWrite =>
      split at h
      · cases h; rfl
      · split at h
        · have h2 := ih _ _ _ _ (hp _) h; exact h2
        · have h2 := ih _ _ _ _ (hp _) h; exact h2
        · cases h; rfl
    case resScope =>
      split at h
      · cases h; rfl
      · split at h
        · simp only [bind, Option.bind] at h
          split at h
          · cases h
          · next r hb =>
            dsimp only at h
            have h1 : r.2.target = v.target := (by have h3 := ih _ _ r.1 r.2 (hp.1 _) hb; exact h3)
            split at h
            · have h2 := ih _ _ _ _ (hp.2 _) h; exact h2.trans h1
            all_goals (cases h; exact h1)
        · have h2 := ih _ _ _ _ (hp.2 _) h; exact h2
    case resAssign =>
      split at h
      · cases h; rfl
      · split at h
        · have h2 := ih _ _ _ _ hp h; exact h2
        · cases h; rfl
    case catchUnwind =>
      simp only [bind, Option.bind] at h
      split at h
      · cases h
      · next r hb =>
        dsimp only at h
        have h1 := ih _ _ r.1 r.2 hp.1 hb
        split at h
        · have h2 := ih _ _ _ _ (hp.2 _) h; exact h2.trans h1
        · have h2 := ih _ _ _ _ (hp.2 _) h; exact h2.trans h1
        · cases h; exact h1
    case forget => cases h

/-- What the two closures do, from the point where the triggers after the operation run. -/
theorem copyRun_after (E : Env σ) {s : Sched} {fuel : Nat} {v v' : View σ} {a : σ.V}
    (h : copyRun E fuel (.runTriggers 0 s fun | .error e => .done (.error e) | .ok _ => .done (.ok σ.unit)) v = some (.ret (.ok a), v')) :
    ∃ fuel', fuel = fuel' + 1 ∧ copyEach (copyRun E fuel') (E.fire s) v = some (.ret (.ok ()), v') := by
  cases fuel with
  | zero => simp [copyRun] at h
  | succ fuel =>
    refine ⟨fuel, rfl, ?_⟩
    simp only [copyRun, bind, Option.bind] at h
    split at h
    · cases h
    · next r hb =>
      dsimp only at h
      obtain ⟨o, w⟩ := r
      split at h
      · next r w' heq =>
        cases heq
        cases r with
        | error e => cases fuel <;> simp [copyRun] at h
        | ok u =>
          cases fuel with
          | zero => simp [copyRun] at h
          | succ fuel => simp only [copyRun, Option.some.injEq, Prod.mk.injEq] at h; rw [Env.fire, hb, h.2]
      all_goals cases h

/-- How `Save` came to an end well. -/
theorem copyRun_saveBody (E : Env σ) {fuel : Nat} {n : σ.T} {v v' : View σ} {a : σ.V}
    (h : copyRun E fuel (saveBody n) v = some (.ret (.ok a), v')) :
    ∃ f1 f2 v1, f1 < fuel ∧ f2 < fuel ∧
      copyEach (copyRun E f1) (E.fire .beforeSave) { v with target := some ⟨n, false⟩ } = some (.ret (.ok ()), v1) ∧
      ((v1.targetVal = none ∧ copyEach (copyRun E f2) (E.fire .afterSave) v1 = some (.ret (.ok ()), v')) ∨
       ∃ m, v1.targetVal = some m ∧ copyEach (copyRun E f2) (E.fire .afterSave)
          { v1 with map := v1.map.put (id m) m, issued := v1.issued ++ [.save m] } = some (.ret (.ok ()), v')) := by
  cases fuel with
  | zero => simp [copyRun] at h
  | succ fuel =>
  cases fuel with
  | zero => simp [copyRun, saveBody] at h
  | succ fuel =>
    simp only [saveBody, copyRun, bind, Option.bind] at h
    split at h
    · cases h
    · next r hb =>
      dsimp only at h
      obtain ⟨o, w⟩ := r
      split at h
      · next r w' heq =>
        cases heq
        cases r with
        | error e => cases fuel <;> simp [copyRun] at h
        | ok u =>
          cases fuel with
          | zero => simp [copyRun] at h
          | succ fuel =>
            simp only [copyRun] at h
            refine ⟨fuel + 1, ?_⟩
            cases ht : w.targetVal with
            | none =>
              rw [ht] at h
              obtain ⟨f2, rfl, h2⟩ := copyRun_after E h
              exact ⟨f2, w, by omega, by omega, hb, Or.inl ⟨ht, h2⟩⟩
            | some m =>
              rw [ht] at h
              cases fuel with
              | zero => simp [copyRun] at h
              | succ fuel =>
                simp only [copyRun] at h
                obtain ⟨f2, rfl, h2⟩ := copyRun_after E h
                exact ⟨f2, w, by omega, by omega, hb, Or.inr ⟨m, ht, h2⟩⟩
      all_goals cases h

/-- How `Delete` came to an end well. -/
theorem copyRun_deleteBody (E : Env σ) {fuel : Nat} {i : σ.K} {v v' : View σ} {a : σ.V}
    (h : copyRun E fuel (deleteBody i) v = some (.ret (.ok a), v')) :
    ∃ f1 f2 n v1, f1 < fuel ∧ f2 < fuel ∧ v.map i = some n ∧
      copyEach (copyRun E f1) (E.fire .beforeDelete) { v with target := some ⟨n, false⟩ } = some (.ret (.ok ()), v1) ∧
      copyEach (copyRun E f2) (E.fire .afterDelete)
          { v1 with map := v1.map.del i, issued := v1.issued ++ [.delete i] } = some (.ret (.ok ()), v') := by
  cases fuel with
  | zero => simp [copyRun] at h
  | succ fuel =>
    simp only [deleteBody, copyRun] at h
    cases hm : v.map i with
    | none => rw [hm] at h; cases fuel <;> simp [copyRun] at h
    | some n =>
      rw [hm] at h
      cases fuel with
      | zero => simp [copyRun] at h
      | succ fuel =>
      cases fuel with
      | zero => simp [copyRun] at h
      | succ fuel =>
        simp only [copyRun, bind, Option.bind] at h
        split at h
        · cases h
        · next r hb =>
          dsimp only at h
          obtain ⟨o, w⟩ := r
          split at h
          · next r w' heq =>
            cases heq
            cases r with
            | error e => cases fuel <;> simp [copyRun] at h
            | ok u =>
              cases fuel with
              | zero => simp [copyRun] at h
              | succ fuel =>
                simp only [copyRun] at h
                obtain ⟨f2, rfl, h2⟩ := copyRun_after E h
                exact ⟨_, f2, n, w, by omega, by omega, rfl, hb, h2⟩
          all_goals cases h

/-- What is kept by `Save` and `Delete` is kept by all that goes through them. -/
theorem copyRun_through (E : Env σ) (I : FMap σ.K σ.T → Prop) (hsave : SaveChecked E I) (hdel : DeleteChecked E I) :
    ∀ (fuel : Nat) (p : Prog σ) (v : View σ) (out : Out (Except Error σ.V)) (v' : View σ),
      p.Through → v.map.Filed ∧ I v.map → copyRun E fuel p v = some (out, v') → v'.map.Filed ∧ I v'.map := by
  intro fuel
  induction fuel using Nat.strongRecOn with
  | ind fuel ih =>
  intro p v out v' hp hv h
  have hmany : ∀ f, f < fuel → ∀ ts : List (Prog σ), (∀ t ∈ ts, t.Through) → ∀ v o v', v.map.Filed ∧ I v.map →
      copyEach (copyRun E f) ts v = some (o, v') → v'.map.Filed ∧ I v'.map := by
    intro f hf ts hts v o v' hv h
    exact copyEach_keeps (J := fun v => v.map.Filed ∧ I v.map) ts (fun t ht v out v' hv hr => ih f hf t v out v' (hts t ht) hv hr) _ _ _ hv h
  cases fuel with
  | zero => cases p <;> simp [copyRun] at h
  | succ fuel =>
    have ih1 := ih fuel (Nat.lt_succ_self _)
    have hfiled := copyRun_filed E (fuel + 1) p v out v' hv.1 h
    cases hp
    case done => simp only [copyRun] at h; cases h; exact hv
    case panic => simp only [copyRun] at h; cases h; exact hv
    case reenter => simp only [copyRun] at h; cases h; exact hv
    case get hk => simp only [copyRun] at h; exact ih1 _ _ _ _ (hk _) (by exact hv) h
    case contains hk => simp only [copyRun] at h; exact ih1 _ _ _ _ (hk _) (by exact hv) h
    case saveOp n k hk =>
      simp only [Prog.saveOp, copyRun, bind, Option.bind] at h
      split at h
      · cases h
      · next r hb =>
        dsimp only at h
        obtain ⟨o, c⟩ := r
        split at h
        · next a c' heq =>
          cases heq
          have hf := copyRun_filed E _ _ _ _ _ (show ({ map := v.map, issued := [], target := none, heap := v.heap, inUse := v.inUse } : View σ).map.Filed from hv.1) hb
          refine (fun hI => ih1 _ _ _ _ (hk _) (by exact ⟨hf, hI⟩) h) ?_
          obtain ⟨f1, f2, v1, hf1, hf2, hbefore, hafter⟩ := copyRun_saveBody E hb
          rcases hsave with ⟨ts, t, hts, hthr, hvet, hother⟩ | ⟨ts, t, hts, haud⟩
          · rw [hts] at hbefore
            obtain ⟨w, b, hw, ht⟩ := copyEach_last _ _ _ _ hbefore
            have hw1 := hmany f1 (by omega) ts hthr _ _ _ (by exact hv) hw
            have hvt := hvet _ _ _ _ hw1.1 hw1.2 ht
            have hv1 := copyRun_filed E _ _ _ _ _ hw1.1 ht
            rcases hafter with ⟨-, h2⟩ | ⟨m, hm, h2⟩
            · exact (hmany f2 (by omega) _ hother _ _ _ ⟨hv1, hvt.1⟩ h2).2
            · exact (hmany f2 (by omega) _ hother _ _ _ ⟨Filed.put hv1 m, hvt.2 m hm⟩ h2).2
          · have hv1 : v1.map.Filed := copyEach_keeps (J := fun v => v.map.Filed) _
              (fun t _ v out v' hv hr => copyRun_filed E _ t v out v' hv hr) _ _ _ (by exact hv.1) hbefore
            rw [hts] at hafter
            have key : ∀ w : View σ, w.map.Filed → copyEach (copyRun E f2) (ts ++ [t]) w = some (.ret (.ok ()), c) → I c.map := by
              intro w hw h2
              obtain ⟨w1, b, hw1, ht⟩ := copyEach_last _ _ _ _ h2
              exact haud _ _ _ _ (copyEach_keeps (J := fun v => v.map.Filed) _
                (fun t _ v out v' hv hr => copyRun_filed E _ t v out v' hv hr) _ _ _ hw hw1) ht
            rcases hafter with ⟨-, h2⟩ | ⟨m, hm, h2⟩
            · exact key _ hv1 h2
            · exact key _ (Filed.put hv1 m) h2
        · exact ih1 _ _ _ _ (hk _) (by exact hv) h
        all_goals (cases h; exact hv)
    case deleteOp i k hk =>
      simp only [Prog.deleteOp, copyRun, bind, Option.bind] at h
      split at h
      · cases h
      · next r hb =>
        dsimp only at h
        obtain ⟨o, c⟩ := r
        split at h
        · next a c' heq =>
          cases heq
          have hf := copyRun_filed E _ _ _ _ _ (show ({ map := v.map, issued := [], target := none, heap := v.heap, inUse := v.inUse } : View σ).map.Filed from hv.1) hb
          refine (fun hI => ih1 _ _ _ _ (hk _) (by exact ⟨hf, hI⟩) h) ?_
          obtain ⟨f1, f2, n, v1, hf1, hf2, hn, hbefore, hafter⟩ := copyRun_deleteBody E hb
          rcases hdel with ⟨ts, t, hts, hthr, haim, hvet, hother⟩ | ⟨ts, t, hts, haud⟩ | ⟨hclosed, hthr⟩
          · rw [hts] at hbefore
            obtain ⟨w, b, hw, ht⟩ := copyEach_last _ _ _ _ hbefore
            have hw1 := hmany f1 (by omega) ts (fun p hp => (hthr p hp).1) _ _ _ (by exact hv) hw
            have hwt : w.target = some ⟨n, false⟩ := copyEach_keeps (J := fun v => v.target = some ⟨n, false⟩) ts
              (fun t ht v out v' hv hr => (copyRun_aims E _ t v out v' (hthr t ht).2 hr).trans hv) _ _ _ rfl hw
            have hvt := hvet _ _ _ _ hw1.1 hw1.2 ht
            have hv1 := copyRun_filed E _ _ _ _ _ hw1.1 ht
            have htv : v1.targetVal = some n := by
              unfold View.targetVal; rw [copyRun_aims E _ _ _ _ _ haim ht, hwt]
            have := hvt.2 n htv
            rw [Filed.del_own (hv.1.own i n hn)] at this
            exact (hmany f2 (by omega) _ hother _ _ _ ⟨Filed.del hv1 i, this⟩ hafter).2
          · have hv1 : v1.map.Filed := copyEach_keeps (J := fun v => v.map.Filed) _
              (fun t _ v out v' hv hr => copyRun_filed E _ t v out v' hv hr) _ _ _ (by exact hv.1) hbefore
            rw [hts] at hafter
            obtain ⟨w1, b, hw1, ht⟩ := copyEach_last _ _ _ _ hafter
            exact haud _ _ c _ (copyEach_keeps (J := fun v => v.map.Filed) _
              (fun t _ v out v' hv hr => copyRun_filed E _ t v out v' hv hr) _ _ _ (Filed.del hv1 i) hw1) ht
          · have h1 := hmany f1 (by omega) _ (fun p hp => hthr p (List.mem_append_left _ hp)) _ _ _ (by exact hv) hbefore
            exact (hmany f2 (by omega) _ (fun p hp => hthr p (List.mem_append_right _ hp)) _ _ _ ⟨Filed.del h1.1 i, hclosed _ i h1.1 h1.2⟩ hafter).2
        · exact ih1 _ _ _ _ (hk _) (by exact hv) h
        all_goals (cases h; exact hv)
    case tx body k hbody hk =>
      simp only [copyRun, bind, Option.bind] at h
      split at h
      · cases h
      · next r hb =>
        dsimp only at h
        have h1 := ih1 _ _ r.1 r.2 hbody (by exact hv) hb
        split at h
        · exact ih1 _ _ _ _ (hk _) (by exact h1) h
        · exact ih1 _ _ _ _ (hk _) (by exact hv) h
        all_goals (cases h; exact hv)
    case withTarget hk => simp only [copyRun] at h; exact ih1 _ _ _ _ hk (by exact hv) h
    case targetRead hk => simp only [copyRun] at h; exact ih1 _ _ _ _ (hk _) (by exact hv) h
    case targetWrite hk =>
      simp only [copyRun] at h
      split at h
      · exact ih1 _ _ _ _ (hk _) (by exact hv) h
      · split at h
        · cases h; exact hv
        · exact ih1 _ _ _ _ (hk _) (by exact hv) h
    case resRead hk =>
      simp only [copyRun] at h
      split at h
      · cases h; exact hv
      · exact ih1 _ _ _ _ (hk _) (by exact hv) h
    case resWrite hk =>
      simp only [copyRun] at h
      split at h
      · cases h; exact hv
      · split at h
        · exact ih1 _ _ _ _ (hk _) (by exact hv) h
        · exact ih1 _ _ _ _ (hk _) (by exact hv) h
        · cases h; exact hv
    case resScope hbody hk =>
      simp only [copyRun] at h
      split at h
      · cases h; exact hv
      · split at h
        · simp only [bind, Option.bind] at h
          split at h
          · cases h
          · next r hb =>
            dsimp only at h
            have h1 := ih1 _ _ r.1 r.2 (hbody _) (by exact hv) hb
            split at h
            · exact ih1 _ _ _ _ (hk _) (by exact h1) h
            all_goals (cases h; exact h1)
        · exact ih1 _ _ _ _ (hk _) (by exact hv) h
    case resAssign hk =>
      simp only [copyRun] at h
      split at h
      · cases h; exact hv
      · split at h
        · exact ih1 _ _ _ _ hk (by exact hv) h
        · cases h; exact hv
    case catchUnwind hbody hk =>
      simp only [copyRun, bind, Option.bind] at h
      split at h
      · cases h
      · next r hb =>
        dsimp only at h
        have h1 := ih1 _ _ r.1 r.2 hbody (by exact hv) hb
        split at h
        · exact ih1 _ _ _ _ (hk _) (by exact h1) h
        · exact ih1 _ _ _ _ (hk _) (by exact h1) h
        · cases h; exact h1

/-- The same of `Save` and `Delete` themselves, if they returned `Ok`. -/
theorem copyRun_ops (E : Env σ) (I : FMap σ.K σ.T → Prop) (hsave : SaveChecked E I) (hdel : DeleteChecked E I) (fuel : Nat) (p : Prog σ)
    (hp : (∃ n, p = saveBody n) ∨ ∃ i, p = deleteBody i) (v v' : View σ) (a : σ.V) (hv : v.map.Filed ∧ I v.map)
    (h : copyRun E fuel p { map := v.map, issued := [], target := none, heap := v.heap, inUse := v.inUse } = some (.ret (.ok a), v')) :
    I v'.map := by
  have key : ∀ q : Prog σ, q.Through → q = .tx 0 p .done → I v'.map := by
    intro q hq he
    have : copyRun E (fuel + 1) q v = some (.ret (.ok a), { v with map := v'.map, issued := v.issued ++ v'.issued, heap := v'.heap }) := by
      rw [he]
      cases fuel with
      | zero => simp [copyRun] at h
      | succ fuel => rw [copyRun, h]; rfl
    exact (copyRun_through E I hsave hdel _ q v _ _ hq hv this).2
  rcases hp with ⟨n, rfl⟩ | ⟨i, rfl⟩
  · exact key _ (.saveOp (n := n) fun x => .done x) rfl
  · exact key _ (.deleteOp (i := i) fun x => .done x) rfl

end

/-- `Save` uses its own context. -/
theorem saveBody_own (n : σ.T) : (saveBody n).Every Prog.Own := by
  unfold saveBody saveAfter
  refine ⟨trivial, rfl, ?_⟩
  rintro (_ | _)
  · trivial
  · refine ⟨rfl, ?_⟩
    rintro (_ | _)
    · exact ⟨rfl, by rintro (_ | _) <;> trivial⟩
    · exact ⟨rfl, rfl, by rintro (_ | _) <;> trivial⟩

/-- So does `Delete`. -/
theorem deleteBody_own (i : σ.K) : (deleteBody i).Every Prog.Own := by
  unfold deleteBody deleteAfter
  refine ⟨rfl, ?_⟩
  rintro (_ | _)
  · trivial
  · refine ⟨trivial, rfl, ?_⟩
    rintro (_ | _)
    · trivial
    · exact ⟨rfl, rfl, by rintro (_ | _) <;> trivial⟩

/-- And what goes through them. -/
theorem Prog.Through.own {p : Prog σ} (h : p.Through) : p.Every Prog.Own := by
  induction h with
  | done => trivial
  | panic => trivial
  | reenter => trivial
  | get _ ih => exact ⟨rfl, ih⟩
  | contains _ ih => exact ⟨rfl, ih⟩
  | saveOp _ ih => exact ⟨rfl, saveBody_own _, ih⟩
  | deleteOp _ ih => exact ⟨rfl, deleteBody_own _, ih⟩
  | tx _ _ ih1 ih2 => exact ⟨rfl, ih1, ih2⟩
  | withTarget _ ih => exact ⟨trivial, ih⟩
  | targetRead _ ih => exact ⟨rfl, ih⟩
  | targetWrite _ ih => exact ⟨rfl, ih⟩
  | resRead _ ih => exact ⟨trivial, ih⟩
  | resWrite _ ih => exact ⟨trivial, ih⟩
  | resScope _ _ ih1 ih2 => exact ⟨trivial, ih1, ih2⟩
  | resAssign _ ih => exact ⟨trivial, ih⟩
  | catchUnwind _ _ ih1 ih2 => exact ⟨trivial, ih1, ih2⟩

/-! ## Links -/

section
variable [LawfulSig σ]

theorem among_iff {i : σ.K} {l : List σ.K} : among i l = true ↔ ∃ j ∈ l, (i == j) = true := by simp [among]

theorem among_congr {i i' : σ.K} {l : List σ.K} (h : (i == i') = true) : among i l = among i' l := by
  unfold among
  congr 1
  funext j
  exact BEq.congr_left h

/-- `requireAll` changes nothing and returns `Ok` only if all is as required. -/
theorem copyRun_requireAll (E : Env σ) {f : σ.K → Option σ.T → Bool} {e : Error} (ks : List σ.K) {fuel : Nat} {v v' : View σ} {a : σ.V}
    (h : copyRun E fuel (requireAll f e ks) v = some (.ret (.ok a), v')) : v' = v ∧ ∀ k ∈ ks, f k (v.map k) = true := by
  induction ks generalizing fuel with
  | nil =>
    cases fuel with
    | zero => simp [copyRun] at h
    | succ fuel =>
      simp only [requireAll, copyRun, Option.some.injEq, Prod.mk.injEq] at h
      exact ⟨h.2.symm, fun k hk => by cases hk⟩
  | cons k ks ih =>
    cases fuel with
    | zero => simp [copyRun] at h
    | succ fuel =>
      simp only [requireAll, copyRun] at h
      split at h
      · next hf =>
        obtain ⟨h1, h2⟩ := ih h
        refine ⟨h1, fun j hj => ?_⟩
        rcases List.mem_cons.1 hj with rfl | hj
        · exact hf
        · exact h2 j hj
      · cases fuel with
        | zero => simp [copyRun] at h
        | succ fuel => simp [copyRun] at h

theorem requireAll_through {f : σ.K → Option σ.T → Bool} {e : Error} (ks : List σ.K) : (requireAll f e ks : Prog σ).Through := by
  induction ks with
  | nil => exact .done _
  | cons k ks ih =>
    refine .get fun x => ?_
    split
    · exact ih
    · exact .done _

theorem requireAll_aims {f : σ.K → Option σ.T → Bool} {e : Error} (ks : List σ.K) : (requireAll f e ks : Prog σ).Aims := by
  induction ks with
  | nil => trivial
  | cons k ks ih =>
    intro x
    dsimp only
    split
    · exact ih
    · trivial

theorem Linking.beforeSave_through (L : Linking σ) (e : Error) : (L.beforeSave e).Through := by
  refine .targetRead fun x => ?_
  cases x with
  | none => exact .done _
  | some n =>
    refine .get fun old => ?_
    split
    · exact requireAll_through _
    · exact .done _

theorem Linking.beforeDelete_through (L : Linking σ) (e : Error) : (L.beforeDelete e).Through := by
  refine .targetRead fun x => ?_
  cases x with
  | none => exact .done _
  | some n =>
    refine .get fun old => ?_
    cases old with
    | none => exact .done _
    | some now => exact requireAll_through _

theorem Linking.beforeDelete_aims (L : Linking σ) (e : Error) : (L.beforeDelete e).Aims := by
  intro x
  cases x with
  | none => trivial
  | some n =>
    intro old
    cases old with
    | none => trivial
    | some now => exact requireAll_aims _

/-- The check before saves does its work. -/
theorem Linking.vetsSave (L : Linking σ) (E : Env σ) (e : Error) : VetsSave E L.Linked (L.beforeSave e) := by
  intro fuel v v' a hfiled hv h
  cases fuel with
  | zero => simp [copyRun] at h
  | succ fuel =>
  simp only [Linking.beforeSave, copyRun] at h
  cases fuel with
  | zero => simp [copyRun] at h
  | succ fuel =>
  cases ht : v.targetVal with
  | none =>
    rw [ht] at h
    simp only [copyRun, Option.some.injEq, Prod.mk.injEq] at h
    rw [← h.2]
    exact ⟨hv, fun n hn => by rw [ht] at hn; cases hn⟩
  | some n =>
    rw [ht] at h
    simp only [copyRun] at h
    split at h
    · next hold =>
      obtain ⟨rfl, hall⟩ := copyRun_requireAll E _ h
      refine ⟨hv, fun n' hn' => ?_⟩
      rw [ht] at hn'; cases hn'
      intro i x hi k hk
      simp only [FMap.put] at hi ⊢
      split at hi
      · next hin =>
        cases hi
        have hc := hall k hk
        split at hc
        · next hkn => exact ⟨n, by rw [if_pos hkn], by rw [among_congr hin]; exact hc⟩
        · next hkn =>
          cases hm : v'.map k with
          | none => rw [hm] at hc; cases hc
          | some n' =>
            rw [hm] at hc
            exact ⟨n', by rw [if_neg hkn], by rw [among_congr hin]; exact hc⟩
      · obtain ⟨n', hn', hb⟩ := hv i x hi k hk
        by_cases hkn : (k == id n) = true
        · refine ⟨n, by rw [if_pos hkn], ?_⟩
          have hmid : v'.map (id n) = some n' := by rw [← hfiled.equal k (id n) hkn]; exact hn'
          rw [hmid] at hold
          obtain ⟨j, hj, hij⟩ := among_iff.1 hb
          rw [among_congr hij]
          exact List.all_eq_true.1 hold j hj
        · exact ⟨n', by rw [if_neg hkn]; exact hn', hb⟩
    · cases fuel with
      | zero => simp [copyRun] at h
      | succ fuel => simp [copyRun] at h

/-- So does the check before deletions. -/
theorem Linking.vetsDelete (L : Linking σ) (E : Env σ) (e : Error) : VetsDelete E L.Linked (L.beforeDelete e) := by
  intro fuel v v' a hfiled hv h
  cases fuel with
  | zero => simp [copyRun] at h
  | succ fuel =>
  simp only [Linking.beforeDelete, copyRun] at h
  cases fuel with
  | zero => simp [copyRun] at h
  | succ fuel =>
  cases ht : v.targetVal with
  | none =>
    rw [ht] at h
    simp only [copyRun, Option.some.injEq, Prod.mk.injEq] at h
    rw [← h.2]
    exact ⟨hv, fun n hn => by rw [ht] at hn; cases hn⟩
  | some n =>
    rw [ht] at h
    simp only [copyRun] at h
    have key : v' = v ∧ ∀ now, v.map (id n) = some now → ∀ j ∈ L.backs now,
        ((j == id n) || (v.map j).all fun m => !among (id n) (L.refs m)) = true := by
      cases hm : v.map (id n) with
      | none =>
        rw [hm] at h
        cases fuel with
        | zero => simp [copyRun] at h
        | succ fuel =>
          simp only [copyRun, Option.some.injEq, Prod.mk.injEq] at h
          exact ⟨h.2.symm, fun _ hc => by cases hc⟩
      | some now =>
        rw [hm] at h
        obtain ⟨h1, h2⟩ := copyRun_requireAll E _ h
        exact ⟨h1, fun now' hnow j hj => by cases hnow; exact h2 j hj⟩
    obtain ⟨rfl, hall⟩ := key
    refine ⟨hv, fun n' hn' => ?_⟩
    rw [ht] at hn'; cases hn'
    intro i x hi k hk
    simp only [FMap.del] at hi ⊢
    split at hi
    · cases hi
    · next hin =>
      obtain ⟨n', hn', hb⟩ := hv i x hi k hk
      by_cases hkn : (k == id n) = true
      · exfalso
        have hmid : v'.map (id n) = some n' := by rw [← hfiled.equal k (id n) hkn]; exact hn'
        obtain ⟨j, hj, hij⟩ := among_iff.1 hb
        have hc := hall n' hmid j hj
        have hji : (j == id n) = false := by
          cases hjn : j == id n with
          | false => rfl
          | true => exact absurd (BEq.trans hij hjn) hin
        rw [hji, Bool.false_or, ← hfiled.equal i j hij, hi] at hc
        have : among (id n) (L.refs x) = true := among_iff.2 ⟨k, hk, BEq.symm hkn⟩
        simp [this] at hc
      · exact ⟨n', by rw [if_neg hkn]; exact hn', hb⟩

end

end Plotline
