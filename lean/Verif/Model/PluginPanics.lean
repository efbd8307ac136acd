import Verif.Model.Plugin
import Verif.Model.TreePanics

/-!
# The interval plugin when user code panics (plugins/interval/src/plugin.rs)

The extractor, the id of a node, the clones of the id, and what the tree calls (`Model/TreePanics`) are user code. Here each of
these calls may panic. When they do is told by a stream with an entry for every run of a trigger of the plugin: the number of calls
of user code in that run that return before one panics, or `none` if none panics. The rest of the stream is kept as one more
resource, so the triggers are programs as all others are; it stands for whatever makes the user code panic, and the code has no
such resource. `Model/Plugin` has the same triggers for user code that does not panic.

`all`, `id` and the first `clone` are called in the closure of `(target, extractor).with` (plugin.rs:70-78, 105-113), which holds
read guards only, and these poison nothing. The iterator it returns is lazy: the `clone` for each interval (plugin.rs:74, 109) is
called by `for_each` in the closure of `with_mut` (plugin.rs:82-86, 117-121), as is all the tree calls.
-/

namespace Plotline

/-- When user code panics: an entry for every run of a trigger of the plugin. -/
abbrev Fates : Type := Nat → Option Nat

/-- The values of the resources beside the plugin's: the first one tells when user code panics. -/
abbrev Fated (W : Nat → Type) : Nat → Type
  | 0 => Fates
  | n + 1 => W n

section
variable {K T I B : Type} {W : Nat → Type} [Ord K] [BEq K] [Identify T K] [Ord B] [BEq I] [Interval I B]

/-- The next entry of the stream. -/
def nextFate (k : Option Nat → Prog (PSigOf K T I B (Fated W))) : Prog (PSigOf K T I B (Fated W)) :=
  .resRead (.other 0) fun
    | none => k none
    | some (s : Fates) => .resWrite (.other 0) (fun (s : Fates) => (fun n => s (n + 1), false)) fun _ => k (s 0)

/-- The loop of `on_save` (plugin.rs:117-121): the tree it leaves, and whether it panicked. An insertion that panics leaves an
empty tree (`ITree.act`). -/
def insertEachR : Nat → List (NodeInterval K I) → ITree (NodeInterval K I) B → ITree (NodeInterval K I) B × Bool
  | _, [], t => (t, false)
  -- plugin.rs:109
  | 0, _ :: _, t => (t, true)
  | n + 1, i :: is, t =>
    match t.insertR i n with
    | (_, none) => (.nil, true)
    | (_, some (t', m)) => insertEachR m is t'

/-- The loop of `on_delete` (plugin.rs:82-86), `none` if some deletion does not return within `fuel`. -/
def deleteEachR (fuel : Nat) : Nat → List (NodeInterval K I) → ITree (NodeInterval K I) B → Option (ITree (NodeInterval K I) B × Bool)
  | _, [], t => some (t, false)
  -- plugin.rs:74
  | 0, _ :: _, t => some (t, true)
  | n + 1, i :: is, t =>
    match t.deleteR fuel i n with
    | (_, none) => some (.nil, true)
    | (_, some (none, _)) => none
    | (_, some (some t', m)) => deleteEachR fuel m is t'

/-- `(target, extractor).with(..)` (plugin.rs:70-80, 105-115). Its closure calls `all`, `id` and `clone` once each, whatever
intervals there are. `k` is also given what is left of the number of calls that return. -/
def withIntervalsR (k : Option (List (NodeInterval K I)) → Option Nat → Prog (PSigOf K T I B (Fated W))) :
    Prog (PSigOf K T I B (Fated W)) :=
  nextFate fun fate => .targetRead 0 fun
    | none => k none fate
    | some node => .resRead .extractor fun
      | none => k none fate
      | some extract =>
        match fate with
        | none => k (some (nodeIntervals extract node)) none
        | some 0 | some 1 | some 2 => .panic
        | some (n + 3) => k (some (nodeIntervals extract node)) (some n)

/-- `on_save` (plugin.rs:99-124). -/
def onSaveR : Prog (PSigOf K T I B (Fated W)) :=
  withIntervalsR fun
    | none, _ => .done (.ok ())
    | some is, none => .resWrite .treeOfId (fun t => (insertEach is t, false)) fun _ => .done (.ok ())
    | some is, some n => .resWrite .treeOfId (fun t => insertEachR n is t) fun _ => .done (.ok ())

/-- What `on_delete` does to a tree; `none` if it does not return within `fuel`. -/
def deleteFate (fuel : Nat) (is : List (NodeInterval K I)) (t : ITree (NodeInterval K I) B) :
    Option Nat → Option (ITree (NodeInterval K I) B × Bool)
  | none => (deleteEach fuel is t).map fun t' => (t', false)
  | some n => deleteEachR fuel n is t

/-- `on_delete` (plugin.rs:64-89). -/
def onDeleteR (fuel : Nat) : Prog (PSigOf K T I B (Fated W)) :=
  withIntervalsR fun
    | none, _ => .done (.ok ())
    | some is, fate => .resRead .treeOfId fun
      | none => .done (.ok ())
      | some t =>
        match deleteFate fuel is t fate with
        | none => .reenter
        | some r => .resWrite .treeOfId (fun _ => r) fun _ => .done (.ok ())

/-- `IntervalPlugin::install` (plugin.rs:134-143). The first line is not in the code: it says when user code will panic. -/
def installR (merged : Bool) (fuel : Nat) (extract : T → List I) (fates : Fates) (S : Schema (PSigOf K T I B (Fated W))) :
    Schema (PSigOf K T I B (Fated W)) :=
  let S := S.withResource (.other 0) fates
  let S := S.withResource .extractor extract
  let S := if merged then S.withResource .treeOfId .nil else S.withResource .treeOfNode .nil
  (S.withTrigger .afterSave onSaveR).withTrigger .afterDelete (onDeleteR fuel)

end

end Plotline
