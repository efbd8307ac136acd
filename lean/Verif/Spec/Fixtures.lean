import Verif.Spec.Transaction

/-! Concrete node and id types used only by the non-vacuity examples. -/

namespace Plotline

open Std

deriving instance DecidableEq for Except

/-! A node with an id and a payload. -/

structure Doc where
  key : Nat
  body : Nat
deriving DecidableEq, Repr

instance : Identify Doc Nat := ⟨Doc.key⟩

/-! An id type whose equal values need not be identical (like `PathBuf`): only `major` is compared. -/

structure LooseId where
  major : Nat
  spelling : Nat
deriving DecidableEq, Repr

instance : Ord LooseId := ⟨fun a b => compare a.major b.major⟩
instance : BEq LooseId := ⟨fun a b => a.major == b.major⟩
instance : TransOrd LooseId where
  eq_swap {a b} := OrientedCmp.eq_swap (cmp := compare) (a := a.major) (b := b.major)
  isLE_trans {a b c} := TransCmp.isLE_trans (cmp := compare) (a := a.major) (b := b.major) (c := c.major)
instance : LawfulBEqOrd LooseId where
  compare_eq_iff_beq {a b} := LawfulBEqOrd.compare_eq_iff_beq (a := a.major) (b := b.major)
instance : Identify (LooseId × Nat) LooseId := ⟨Prod.fst⟩

instance : Identify Nat Nat := ⟨fun n => n⟩

/-! Signatures: documents keyed by numbers, closures returning `()`, one resource type per number, all holding numbers;
and the same with equal but not identical ids. -/

abbrev demo : Sig := { K := Nat, T := Doc, V := Unit, unit := (), Ty := Nat, Val := fun _ => Nat }

instance : LawfulSig demo where
  transK := inferInstanceAs (TransOrd Nat)
  beqK := inferInstanceAs (LawfulBEqOrd Nat)
  transTy := inferInstanceAs (TransOrd Nat)
  eqTy := inferInstanceAs (LawfulEqOrd Nat)

abbrev looseDemo : Sig :=
  { K := LooseId, T := LooseId × Nat, V := Unit, unit := (), Ty := Nat, Val := fun _ => Nat }

instance : LawfulSig looseDemo where
  transK := inferInstanceAs (TransOrd LooseId)
  beqK := inferInstanceAs (LawfulBEqOrd LooseId)
  transTy := inferInstanceAs (TransOrd Nat)
  eqTy := inferInstanceAs (LawfulEqOrd Nat)

end Plotline
