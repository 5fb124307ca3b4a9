/-
How many coefficients an enclosure has: a certificate of lower bounds.
-/
import Verif.Spec.JaxSem

namespace AB
namespace JB
variable {K : Type}

/-- the number of coefficients of an argument: 1 for a literal -/
def Atom.terms (len : ℤ → ℕ) : Atom K → ℕ
  | .lit _ => 1
  | .var v => len v

/-- Lower bounds on the number of coefficients of the result of one operation, for arithmetic of degree `md`. -/
def TermsOp (md : ℕ) (len : ℤ → ℕ) : Prim K → List (Atom K) → List ℤ → Prop
  | .add, [a, b], [o] => len o ≤ max (a.terms len) (b.terms len)
  | .sub, [a, b], [o] => len o ≤ max (a.terms len) (b.terms len)
  | .mul, [a, b], [o] => len o ≤ min (md + 1) (a.terms len + b.terms len - 1)
  | .dotGeneral _ _ _ _, [a, b], [o] => len o ≤ min (md + 1) (a.terms len + b.terms len - 1)
  | .conv _, [a, b], [o] => len o ≤ min (md + 1) (a.terms len + b.terms len - 1)
  | .integerPow n, [a], [o] => 1 ≤ n ∧ len o ≤ min (md + 1) ((a.terms len - 1) * n.toNat + 1)
  | .neg, [a], [o] => len o ≤ a.terms len
  | .elementwise _, [a], [o] => len o ≤ min 2 (a.terms len)
  | .broadcastInDim _ _, [a], [o] => len o ≤ a.terms len
  | .convertElementType _, [a], [o] => len o ≤ a.terms len
  | .reshape _, [a], [o] => len o ≤ a.terms len
  | .reduceSum _, [a], [o] => len o ≤ a.terms len
  | .reduceWindowSum _, [a], [o] => len o ≤ a.terms len
  | .squeeze _, [a], [o] => len o ≤ a.terms len
  | .transpose _, [a], [o] => len o ≤ a.terms len
  | .jit _, [a], [o] => len o ≤ a.terms len
  | _, _, _ => False

/-- `len` is a lower bound on the number of coefficients of the enclosures of all variables: the input has the
coefficients of degree 0 and 1, constants have one coefficient, and every equation either follows `TermsOp`, or nothing
is claimed about its outputs. -/
def TermsProgram (md : ℕ) (len : ℤ → ℕ) (jaxpr : Jaxpr K) : Prop :=
  (∀ v ∈ jaxpr.invars, len v ≤ 2) ∧ (∀ v ∈ jaxpr.constvars, len v ≤ 1) ∧
  ∀ eqn ∈ jaxpr.eqns, (∀ o ∈ eqn.outvars, len o ≤ 1) ∨ TermsOp md len eqn.prim eqn.invars eqn.outvars

end JB
end AB
