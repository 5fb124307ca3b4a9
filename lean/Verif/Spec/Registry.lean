/-
What a history of registrations is supposed to do.
-/
import Verif.Model.Registry
import Verif.Spec.JaxSem

namespace AB
namespace JB
open TEA
variable {K R : Type}

/-- The call is for the primitive `p`, with enclosure function `g`. -/
def Call.Registers (c : Call K R) (p : String) (g : Generator K) : Prop :=
  match c with
  | .primitive q g' => q = p ∧ g' = g
  | .function fname _ g' => autoboundName fname = p ∧ g' = g

/-- The call is for a Jax function whose primitive has this name. -/
def Call.Names (c : Call K R) (name : String) : Prop :=
  match c with
  | .primitive _ _ => False
  | .function fname _ _ => autoboundName fname = name

/-- The call, made after the calls `before` in the state `s`, does not raise: a Jax function may be registered once. -/
def Accepted (s : Registry K R) (before : List (Call K R)) (c : Call K R) : Prop :=
  ∀ name, c.Names name → name ∉ s.names ∧ ∀ c' ∈ before, ¬ c'.Names name

/-- In the history, `p` was last registered with `g`. -/
def LastRegistered (s : Registry K R) (history : List (Call K R)) (p : String) (g : Generator K) : Prop :=
  ∃ before c later, history = before ++ c :: later ∧ Accepted s before c ∧ c.Registers p g ∧
    ∀ mid c' rest g', later = mid ++ c' :: rest → Accepted s (before ++ c :: mid) c' → ¬ c'.Registers p g'

/-- In the history, `p` was not registered. -/
def NotRegistered (s : Registry K R) (history : List (Call K R)) (p : String) : Prop :=
  ∀ before c later g, history = before ++ c :: later → Accepted s before c → ¬ c.Registers p g

end JB
end AB
