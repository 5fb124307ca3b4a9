/-
When a program computes a polynomial: a certificate of degrees.
-/
import Verif.Spec.JaxSem

namespace AB
namespace JB
variable {K : Type}

/-- the degree of an argument: 0 for a literal -/
def Atom.degree (deg : ℤ → ℕ) : Atom K → ℕ
  | .lit _ => 0
  | .var v => deg v

/-- Degrees of the result of one polynomial operation: the maximum for sums, the sum for products, the multiple for
powers with a nonnegative integer exponent, unchanged for linear operations. -/
def PolyOp (deg : ℤ → ℕ) : Prim K → List (Atom K) → List ℤ → Prop
  | .add, [a, b], [o] => max (a.degree deg) (b.degree deg) ≤ deg o
  | .sub, [a, b], [o] => max (a.degree deg) (b.degree deg) ≤ deg o
  | .mul, [a, b], [o] => a.degree deg + b.degree deg ≤ deg o
  | .dotGeneral _ _ _ _, [a, b], [o] => a.degree deg + b.degree deg ≤ deg o
  | .conv _, [a, b], [o] => a.degree deg + b.degree deg ≤ deg o
  | .integerPow n, [a], [o] => 0 ≤ n ∧ n * a.degree deg ≤ deg o
  | .neg, [a], [o] => a.degree deg ≤ deg o
  | .broadcastInDim _ _, [a], [o] => a.degree deg ≤ deg o
  | .convertElementType _, [a], [o] => a.degree deg ≤ deg o
  | .reshape _, [a], [o] => a.degree deg ≤ deg o
  | .reduceSum _, [a], [o] => a.degree deg ≤ deg o
  | .reduceWindowSum _, [a], [o] => a.degree deg ≤ deg o
  | .squeeze _, [a], [o] => a.degree deg ≤ deg o
  | .transpose _, [a], [o] => a.degree deg ≤ deg o
  | .jit _, [a], [o] => a.degree deg ≤ deg o
  | _, _, _ => False

/-- The program computes a polynomial of degree at most `d` in its input: every variable has a degree at most `d`, the
input has degree at least 1, and every equation is either a polynomial operation, or an arbitrary one on arguments
of degree 0 (constants). -/
def PolyProgram (deg : ℤ → ℕ) (d : ℕ) (jaxpr : Jaxpr K) : Prop :=
  (∀ v, deg v ≤ d) ∧ (∀ v ∈ jaxpr.invars, 1 ≤ deg v) ∧
  ∀ eqn ∈ jaxpr.eqns, (∀ a ∈ eqn.invars, a.degree deg = 0) ∨ PolyOp deg eqn.prim eqn.invars eqn.outvars

end JB
end AB
