/-
Specification vocabulary for C88: programs followed by one affine operation.
-/
import Verif.Spec.JaxSem

namespace AB
namespace JB
variable {K : Type}

/-- The program `p`, followed by one equation `w := prim(args)`, with output `w`. -/
def Jaxpr.andThen (p : Jaxpr K) (prim : Prim K) (args : List (Atom K)) (w : ℤ) : Jaxpr K :=
  { p with eqns := p.eqns ++ [⟨prim, args, [w]⟩], outvars := [.var w] }

/-- The equations that compute `k * v + s` from the value `v` of `o`: `-v`, `v + c`, `c + v`, `v - c`, `c - v`, `v * k`,
`k * v`, for an array `c` and a number `k`. -/
inductive AffineEqn [Zero K] [One K] [Neg K] (o : Atom K) : K → ND K → Prim K → List (Atom K) → Prop
  | neg : AffineEqn o (-1) (ND.scalar 0) .neg [o]
  | add (c : ND K) : AffineEqn o 1 c .add [o, .lit c]
  | radd (c : ND K) : AffineEqn o 1 c .add [.lit c, o]
  | sub (c : ND K) : AffineEqn o 1 (c.map (- ·)) .sub [o, .lit c]
  | rsub (c : ND K) : AffineEqn o (-1) c .sub [.lit c, o]
  | mul (k : K) : AffineEqn o k (ND.scalar 0) .mul [o, .lit (ND.scalar k)]
  | rmul (k : K) : AffineEqn o k (ND.scalar 0) .mul [.lit (ND.scalar k), o]

end JB
end AB
