import Verif.Spec.Programs
import Verif.Spec.Alike
import Verif.Model.Log

/-!
# What reading the log tells

Closures that do not panic, closures that do not leak their context, the same closures without the leaks, and a schema used by
one transaction after another.
-/

namespace Plotline

variable {σ : Sig}

/-- Does not panic here. -/
def Prog.Sober : Prog σ → Prop
  | .panic => False
  | .targetWrite _ f _ => ∀ n, (f n).2 = false
  | .resWrite _ f _ => ∀ v, (f v).2 = false
  | _ => True

/-- Does not leak its context here. -/
def Prog.Retains : Prog σ → Prop
  | .forget _ => False
  | _ => True

/-- The program without its calls of `std::mem::forget`. -/
def Prog.unforgotten : Prog σ → Prog σ
  | .done r => .done r
  | .panic => .panic
  | .reenter => .reenter
  | .save c n k => .save c n k.unforgotten
  | .delete c i k => .delete c i k.unforgotten
  | .get c i k => .get c i fun x => (k x).unforgotten
  | .contains c i k => .contains c i fun x => (k x).unforgotten
  | .tx c body k => .tx c body.unforgotten fun x => (k x).unforgotten
  | .runTriggers c s k => .runTriggers c s fun x => (k x).unforgotten
  | .withTarget n k => .withTarget n k.unforgotten
  | .targetRead c k => .targetRead c fun x => (k x).unforgotten
  | .targetWrite c f k => .targetWrite c f fun x => (k x).unforgotten
  | .resRead t k => .resRead t fun x => (k x).unforgotten
  | .resWrite t f k => .resWrite t f fun x => (k x).unforgotten
  | .resScope t excl body k => .resScope t excl (fun v => (body v).unforgotten) fun x => (k x).unforgotten
  | .resAssign t x k => .resAssign t x k.unforgotten
  | .catchUnwind body k => .catchUnwind body.unforgotten fun x => (k x).unforgotten
  | .forget k => k.unforgotten

/-- The schema with every trigger in it without its calls of `std::mem::forget`. -/
def Schema.unforgotten (S : Schema σ) : Schema σ :=
  { S with env := { S.env with
      triggers := ⟨⟨S.env.triggers.triggers.entries.map fun e => (e.1, e.2.map Prog.unforgotten)⟩⟩ } }

/-- No lock of the schema is poisoned: neither the graph's nor that of a resource. -/
def Schema.Unharmed (S : Schema σ) : Prop := S.poisoned = false ∧ ∀ cell ∈ S.heap, cell.poisoned = false

/-- Transactions of the schema, one after another: these closures, with these operations registered before, leave it as `S'` and
have logged `ls` in all. -/
inductive LoggedBy : Schema σ → List (List (Operation σ.K σ.T) × Prog σ) → List (LogLine σ) → Schema σ → Prop where
  | nil (S : Schema σ) : LoggedBy S [] [] S
  | cons {S S' S'' : Schema σ} {fuel : Nat} {pre : List (Operation σ.K σ.T)} {body : Prog σ} {out : Out (Except Error σ.V)}
      {ls ls' : List (LogLine σ)} {rest : List (List (Operation σ.K σ.T) × Prog σ)} :
      S.transact fuel pre body = some (out, S') → S.Logs pre body ls → LoggedBy S' rest ls' S'' →
      LoggedBy S ((pre, body) :: rest) (ls ++ ls') S''

/-- A use of the schema by closures, or the registration of a trigger, that neither panic nor leak their contexts. -/
def Use.Careful : Use σ → Prop
  | .trigger _ p => p.Every fun p => p.Sober ∧ p.Retains
  | .tx _ body => body.Every fun p => p.Sober ∧ p.Retains
  | .write _ f => ∀ v, (f v).2 = false
  | .register .. | .update _ | .get _ | .iter | .read _ => True

end Plotline
