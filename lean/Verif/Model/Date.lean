import Verif.Model.Interval

/-!
# Dates (plugins/interval/src/date.rs)

`Date<N, T, Endian>` holds `N` components (date.rs:25-28); the two encodings are two types here.
-/

namespace Plotline

/-- `LittleEndianDate` (date.rs:14). -/
structure LittleEndianDate (n : Nat) (T : Type) where
  components : Vector T n

/-- `BigEndianDate` (date.rs:21). -/
structure BigEndianDate (n : Nat) (T : Type) where
  components : Vector T n

/-- The body of both `cmp` (date.rs:70-77, 86-93): a loop over pairs of components that returns at the first order that is not
`Equal`. -/
def cmpLoop {T : Type} [Ord T] : List (T × T) → Ordering
  | [] => .eq
  | (this, other) :: rest =>
    let order := compare this other
    if !order.isEq then order else cmpLoop rest

variable {n : Nat} {T : Type}

/-- `Ord for Date<N, T, LittleEndian>` (date.rs:65-79). -/
instance [Ord T] : Ord (LittleEndianDate n T) where
  compare a b := cmpLoop (a.components.toList.zip b.components.toList).reverse

/-- `Ord for Date<N, T, BigEndian>` (date.rs:81-95). -/
instance [Ord T] : Ord (BigEndianDate n T) where
  compare a b := cmpLoop (a.components.toList.zip b.components.toList)

/-- `PartialEq for Date` (date.rs:32-39). -/
instance [BEq T] : BEq (LittleEndianDate n T) where
  beq a b := a.components.toList == b.components.toList

instance [BEq T] : BEq (BigEndianDate n T) where
  beq a b := a.components.toList == b.components.toList

/-- `Interval for Date` (date.rs:50-63). -/
instance : Interval (LittleEndianDate n T) (LittleEndianDate n T) := ⟨id, id⟩

instance : Interval (BigEndianDate n T) (BigEndianDate n T) := ⟨id, id⟩

end Plotline
