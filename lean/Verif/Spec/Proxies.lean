import Verif.Model.Proxies

/-! # What is expected of proxies kept as values -/

namespace Plotline

variable {K T : Type}

/-- Calls with their answers, latest first. -/
abbrev ProxyHistory (K T : Type) := List (ProxyCall K T × ProxyAnswer K T)

/-- The calls, with these answers, can be made one after the other, from the oldest. -/
inductive ProxyLegal (sources : Nat → Source K T) : ProxyHistory K T → Proxies K T → Prop where
  | start : ProxyLegal sources [] (Proxies.start sources)
  | call {h : ProxyHistory K T} {w w' : Proxies K T} {x : ProxyCall K T} {r : ProxyAnswer K T} :
      ProxyLegal sources h w → w.step x = some (r, w') → ProxyLegal sources ((x, r) :: h) w'

/-- How many proxies were made. -/
def proxiesMade : ProxyHistory K T → Nat
  | [] => 0
  | (.new _ _, _) :: h => proxiesMade h + 1
  | (.clone _, _) :: h => proxiesMade h + 1
  | _ :: h => proxiesMade h

/-- What source `s` answers by now. -/
def sourceNow (sources : Nat → Source K T) : ProxyHistory K T → Nat → Source K T
  | [], s => sources s
  | (.source s' now, _) :: h, s => if s = s' then now else sourceNow sources h s
  | _ :: h, s => sourceNow sources h s

/-- The id a proxy has: the one assigned last, else the one it was made with. -/
def proxyId : ProxyHistory K T → Nat → Option K
  | [], _ => none
  | (.new _ i, _) :: h, p => if p = proxiesMade h then some i else proxyId h p
  | (.clone q, _) :: h, p => if p = proxiesMade h then proxyId h q else proxyId h p
  | (.setId q i, _) :: h, p => if p = q then some i else proxyId h p
  | _ :: h, p => proxyId h p

/-- The source a proxy is over: the one assigned last, else the one it was made with. -/
def proxySource : ProxyHistory K T → Nat → Option Nat
  | [], _ => none
  | (.new s _, _) :: h, p => if p = proxiesMade h then some s else proxySource h p
  | (.clone q, _) :: h, p => if p = proxiesMade h then proxySource h q else proxySource h p
  | (.setSource q s, _) :: h, p => if p = q then some s else proxySource h p
  | _ :: h, p => proxySource h p

/-- A `try_deref` of the proxy, or of the one it was cloned from before that, was answered with `v`. -/
inductive Looked : ProxyHistory K T → Nat → Option T → Prop where
  | deref {h : ProxyHistory K T} {p : Nat} {v : Option T} : Looked ((.deref p, .node v) :: h) p v
  | clone {h : ProxyHistory K T} {q : Nat} {v : Option T} {r : ProxyAnswer K T} :
      Looked h q v → Looked ((.clone q, r) :: h) (proxiesMade h) v
  | later {h : ProxyHistory K T} {p : Nat} {v : Option T} {x : ProxyCall K T × ProxyAnswer K T} : Looked h p v → Looked (x :: h) p v

/-- The id of the proxy was never assigned, nor that of one it was cloned from before that. -/
inductive IdKept : ProxyHistory K T → Nat → Prop where
  | new {h : ProxyHistory K T} {s : Nat} {i : K} {r : ProxyAnswer K T} : IdKept ((.new s i, r) :: h) (proxiesMade h)
  | clone {h : ProxyHistory K T} {q : Nat} {r : ProxyAnswer K T} : IdKept h q → IdKept ((.clone q, r) :: h) (proxiesMade h)
  | later {h : ProxyHistory K T} {p : Nat} {x : ProxyCall K T × ProxyAnswer K T} :
      IdKept h p → (∀ i, x.1 ≠ .setId p i) → IdKept (x :: h) p

/-- The state of a shared proxy after a schedule. -/
def initAfter (value : Option (Option T)) (sched : List (Nat × Option (Option T))) : InitState T := (InitState.start value).run sched

end Plotline
