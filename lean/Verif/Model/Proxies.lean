import Verif.Model.Proxy

/-!
# Proxies kept as values, and shared by threads (graph/proxy.rs)

Programs keep any number of proxies, over sources that answer differently as time goes by, and assign to their public fields `source`
and `id` (proxy.rs:31, 33).

`OnceLock::get_or_init` (proxy.rs:75) among threads: a thread that finds no value claims the cell, or waits while another has claimed it;
if the closure panics the claim is given up and the cell stays empty.
-/

namespace Plotline

/-! ## Histories -/

/-- A call, on proxies and sources by number. -/
inductive ProxyCall (K T : Type) where
  /-- Source `s` answers like this from now on. -/
  | source (s : Nat) (now : Source K T)
  /-- `NodeProxy::new(&sources[s], i)`, the proxy numbered by how many there are. -/
  | new (s : Nat) (i : K)
  /-- `p.clone()` -/
  | clone (p : Nat)
  /-- `p.try_deref()` -/
  | deref (p : Nat)
  /-- `p.is_virtual()` -/
  | isVirtual (p : Nat)
  /-- `p.id()` -/
  | id (p : Nat)
  /-- `p.id = i` -/
  | setId (p : Nat) (i : K)
  /-- `p.source = &sources[s]` -/
  | setSource (p s : Nat)

/-- What a call returns. -/
inductive ProxyAnswer (K T : Type) where
  | none
  | node (v : Option T)
  | bool (b : Bool)
  | id (i : K)

/-- The sources as they are now, and the proxies with the number of their source. -/
structure Proxies (K T : Type) where
  sources : Nat → Source K T
  proxies : List (Nat × NodeProxy K T)

variable {K T : Type}

/-- No proxies. -/
def Proxies.start (sources : Nat → Source K T) : Proxies K T := ⟨sources, []⟩

/-- One call; `none` if there is no such proxy. -/
def Proxies.step (w : Proxies K T) : ProxyCall K T → Option (ProxyAnswer K T × Proxies K T)
  | .source s now => some (.none, { w with sources := fun s' => if s' = s then now else w.sources s' })
  | .new s i => some (.none, { w with proxies := w.proxies ++ [(s, NodeProxy.new i)] })
  | .clone p =>
    match w.proxies[p]? with
    | none => none
    | some (s, x) => some (.none, { w with proxies := w.proxies ++ [(s, x.clone)] })
  | .deref p =>
    match w.proxies[p]? with
    | none => none
    | some (s, x) =>
      let r := x.tryDeref (w.sources s)
      some (.node r.1, { w with proxies := w.proxies.set p (s, r.2) })
  | .isVirtual p =>
    match w.proxies[p]? with
    | none => none
    | some (s, x) => some (.bool (x.isVirtual (w.sources s)), w)
  | .id p =>
    match w.proxies[p]? with
    | none => none
    | some (_, x) => some (.id x.id, w)
  | .setId p i =>
    match w.proxies[p]? with
    | none => none
    | some (s, x) => some (.none, { w with proxies := w.proxies.set p (s, { x with id := i }) })
  | .setSource p s =>
    match w.proxies[p]? with
    | none => none
    | some (_, x) => some (.none, { w with proxies := w.proxies.set p (s, x) })

/-! ## Threads -/

/-- Where a thread is within `try_deref`. -/
inductive InitPc (T : Type) where
  /-- Not in a call. -/
  | idle
  /-- Before `OnceLock::get`, which `get_or_init` tries first. -/
  | get
  /-- In `OnceLock::initialize`, before claiming the cell. -/
  | claim
  /-- In `source.get(&self.id)`. -/
  | source
  /-- The source answered; before the value is stored and the claim given up. -/
  | store (v : Option T)
deriving DecidableEq

/-- How a call of `try_deref` ended; `none` if it panicked because the source did. -/
structure InitCall (T : Type) where
  thread : Nat
  result : Option (Option T)
deriving DecidableEq

/-- One proxy shared by threads: the `OnceLock`, the thread that claimed it, the threads, the calls finished (oldest first), and what
the calls of `source.get` that returned answered (oldest first). -/
structure InitState (T : Type) where
  value : Option (Option T)
  claimed : Option Nat
  pcs : Nat → InitPc T
  calls : List (InitCall T)
  answers : List (Option T)

namespace InitState

def pc (s : InitState T) (t : Nat) (p : InitPc T) : InitState T :=
  { s with pcs := fun t' => if t' = t then p else s.pcs t' }

def ret (s : InitState T) (t : Nat) (r : Option (Option T)) : InitState T :=
  { s.pc t .idle with calls := s.calls ++ [⟨t, r⟩] }

/-- The next atomic step of thread `t`. `answer` is how `source.get` ends if the thread is in it: it answers, or panics (`none`). A
thread that waits for another stays where it is. -/
def step (s : InitState T) (t : Nat) (answer : Option (Option T)) : InitState T :=
  match s.pcs t with
  | .idle => s.pc t .get
  | .get =>
    match s.value with
    | some v => s.ret t (some v)
    | none => s.pc t .claim
  | .claim =>
    match s.value with
    | some v => s.ret t (some v)
    | none => if s.claimed = none then { s.pc t .source with claimed := some t } else s
  | .source =>
    match answer with
    | none => { s.ret t none with claimed := none }
    | some v => { s.pc t (.store v) with answers := s.answers ++ [v] }
  | .store v => { s.ret t (some v) with value := some v, claimed := none }

/-- An execution: which thread steps, and how the source answers should it be asked. -/
def run (s : InitState T) (sched : List (Nat × Option (Option T))) : InitState T :=
  sched.foldl (fun s e => s.step e.1 e.2) s

/-- No call is going on. -/
def start (value : Option (Option T)) : InitState T := ⟨value, none, fun _ => .idle, [], []⟩

end InitState

end Plotline
