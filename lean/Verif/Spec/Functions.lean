/-
Specification vocabulary: the mathematical functions behind the predefined FunctionIds
(/repo/autobound/elementwise_functions.py:113-119).
-/
import Verif.Model.Elementwise

namespace AB
open EF

/-- The mathematical function with the given name. -/
noncomputable def mathFun : FName → ℝ → ℝ
  | .abs => fun x => |x|
  | .exp => Real.exp
  | .log => Real.log
  | .sigmoid => fun x => 1 / (1 + Real.exp (-x))
  | .softplus => fun x => Real.log (1 + Real.exp x)
  | .swish => fun x => x / (1 + Real.exp (-x))
  | .other _ => fun _ => 0

/-- The open set on which the function is smooth. -/
def smoothDomain : FName → Set ℝ
  | .abs => {x | x ≠ 0}
  | .log => {x | 0 < x}
  | _ => Set.univ

/-- Number of derivatives with an implementation (`none`: all of them). -/
def supportedOrder : FName → ℕ → Prop
  | .abs, k => k ≤ 1
  | .exp, _ => True
  | .log, _ => True
  | .sigmoid, k => k ≤ 4
  | .softplus, k => k ≤ 5
  | .swish, k => k ≤ 4
  | .other _, _ => False

end AB
