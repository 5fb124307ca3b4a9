/-
Specification vocabulary for the notebook programs: what a scalar program computes.
-/
import Verif.Spec.Static

namespace AB
namespace NB
variable {K : Type} [Field K] [LinearOrder K]
open JB

/-- On `[a, b]` the program computes the scalar function `f`: for every `x` in `[a, b]` its evaluation at `x` returns an
array of rank 0 with entry `f x` (and every array computed on the way has at least one entry), and every equation
meets the conditions of C42 (`ProgramFits`). -/
structure Computes (sem : Sem K) (jaxpr : Jaxpr K) (consts : List (ND K)) (f : K → K) (a b : K) : Prop where
  eval : ∀ x, a ≤ x → x ≤ b → ∃ vals y, evalEnv sem jaxpr consts (ND.scalar x) = .ok vals ∧ NonEmptyVals vals ∧
    evalJaxpr sem jaxpr consts (ND.scalar x) = .ok y ∧ y.shape = [] ∧ y.get [] = f x
  fits : ∀ x, a ≤ x → x ≤ b → ProgramFits sem jaxpr consts (ND.scalar x)

end NB
end AB
