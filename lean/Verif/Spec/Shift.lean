/-
Specification vocabulary for C90: programs preceded by a shift of their argument.
-/
import Verif.Spec.JaxSem
import Verif.Spec.Contains

namespace AB
namespace JB
variable {K : Type}

/-- The program that computes `v := prim(args)` from its argument `w` and then runs `p`, whose argument was `v`. -/
def Jaxpr.after (p : Jaxpr K) (prim : Prim K) (args : List (Atom K)) (v w : ℤ) : Jaxpr K :=
  { p with invars := [w], eqns := ⟨prim, args, [v]⟩ :: p.eqns }

/-- The equations that compute `x + s` from the value `x` of `o`: `x + c`, `c + x`, `x - c`, for an array `c`. -/
inductive ShiftEqn [Neg K] (o : Atom K) : ND K → Prim K → List (Atom K) → Prop
  | add (c : ND K) : ShiftEqn o c .add [o, .lit c]
  | radd (c : ND K) : ShiftEqn o c .add [.lit c, o]
  | sub (c : ND K) : ShiftEqn o (c.map (- ·)) .sub [o, .lit c]

/-- Equal as numpy arrays, or intervals with equal end points. -/
def SameCoef : Coef K → Coef K → Prop
  | .arr a, .arr b => a.Same b
  | .ivl l u, .ivl l' u' => l.Same l' ∧ u.Same u'
  | _, _ => False

end JB
end AB
