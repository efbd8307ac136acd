import Verif.Model.Args

/-! # What a command line may look like

The grammar of the tool, as its usage has it:

    plotline [OPTIONS] doc [OPTIONS] [ID] [OPTIONS] delete|list|ls|save [OPTIONS] [CONTENT]
-/

namespace Plotline

/-- A word that is not an option. -/
def NoOption (w : Word) : Prop := w = ['-'] ∨ w.head? ≠ some '-'

/-- The options by their letters, as the usage has them. -/
def shortOf : Opt → Char
  | .context => 'C'
  | .extension => 'e'

/-- The options by their names, as the usage has them. -/
def longOf : Opt → Word
  | .context => "context".toList
  | .extension => "extension".toList

/-- The ways of writing an option and its value, `taken` being the words that mean something else here. -/
inductive OptionWords (taken : Word → Prop) (o : Opt) : Word → List Word → Prop where
  | short {v : Word} : NoOption v → ¬ taken v → OptionWords taken o v [['-', shortOf o], v]
  | long {v : Word} : NoOption v → ¬ taken v → OptionWords taken o v ['-' :: '-' :: longOf o, v]
  | shortJoined {v : Word} : v ≠ [] → v.head? ≠ some '=' → OptionWords taken o v ['-' :: shortOf o :: v]
  | shortEq {v : Word} : OptionWords taken o v ['-' :: shortOf o :: '=' :: v]
  | longEq {v : Word} : OptionWords taken o v ['-' :: '-' :: longOf o ++ '=' :: v]

/-- What is read by one command: options, each at most once, and other words, in any order; if `esc`, the word `--` may announce
that the rest are no options. -/
inductive Items (taken : Word → Prop) (esc : Prop) : Options → List Word → List Word → Prop where
  | nil : Items taken esc {} [] []
  | context {s : Options} {ps ws us : List Word} {v : Word} : OptionWords taken .context v us → v ≠ [] → s.context = none →
      Items taken esc s ps ws → Items taken esc { s with context := some v } ps (us ++ ws)
  | extension {s : Options} {ps ws us : List Word} {v : Word} : OptionWords taken .extension v us → s.extension = none →
      Items taken esc s ps ws → Items taken esc { s with extension := some v } ps (us ++ ws)
  | word {s : Options} {ps ws : List Word} {w : Word} : NoOption w → ¬ taken w → Items taken esc s ps ws →
      Items taken esc s (w :: ps) (w :: ws)
  | escape {ws : List Word} : esc → Items taken esc {} ws (['-', '-'] :: ws)

/-- The words that are not ids. -/
def Reserved (w : Word) : Prop :=
  w = "delete".toList ∨ w = "list".toList ∨ w = "ls".toList ∨ w = "save".toList ∨ w = "help".toList

/-- The names of the actions. -/
inductive Calls : Action → Word → Prop where
  | delete : Calls .delete "delete".toList
  | list : Calls .list "list".toList
  | ls : Calls .list "ls".toList
  | save : Calls .save "save".toList

/-- The value that counts: the innermost one. -/
def innermost (a b c : Option Word) : Option Word :=
  match c with
  | some v => some v
  | none =>
    match b with
    | some v => some v
    | none => a

/-- The command lines that run something, and what. -/
inductive Line : List Word → Invocation → Prop where
  | mk {o1 o2 o3 : Options} {w1 w2 w3 : List Word} {n : Word} {a : Action} {id content : Option Word} :
      Items (fun _ => False) False o1 [] w1 → Items Reserved False o2 id.toList w2 → Calls a n →
      Items (fun _ => False) True o3 content.toList w3 → (a ≠ .save → content = none) →
      Line (w1 ++ "doc".toList :: (w2 ++ n :: w3))
        ⟨⟨innermost o1.context o2.context o3.context, innermost o1.extension o2.extension o3.extension⟩, id, a, content⟩

end Plotline
