/-
Specification vocabulary for C91: the sum and the difference of two values of a program.
-/
import Verif.Spec.Affine

namespace AB
namespace JB
variable {K : Type}

/-- The program `p` with output `o`. -/
def Jaxpr.out (p : Jaxpr K) (o : Atom K) : Jaxpr K := { p with outvars := [o] }

end JB
end AB
