/-
Specification vocabulary for C45 with trust regions of any size: programs that are smooth at the reference point.
-/
import Verif.Spec.Fat
import Verif.Spec.Functions
import Verif.Spec.RealLib

namespace AB
namespace JB
open EF

/-- The element-wise primitive `name` is smooth at `u`, and its derivatives of order up to `d` are implemented: `log` and
the roots at positive numbers, `abs` away from 0, the others everywhere. -/
def SmoothFn (name : String) (d : ℕ) (u : ℝ) : Prop :=
  match builtinName name with
  | some n => supportedOrder n d ∧ u ∈ smoothDomain n
  | none => 0 < u

/-- The function of the curved argument (`curvedArg`) of a primitive is smooth at `u`: the element-wise functions as above,
division and negative integer powers away from 0, `pow` at positive bases. -/
def SmoothAt (d : ℕ) : Prim ℝ → ℝ → Prop
  | .elementwise name, u => SmoothFn name d u
  | .pow, u => 0 < u
  | _, u => u ≠ 0

/-- Every argument of an element-wise function, every denominator and every base of a power has, at `x0`, values at which
the function is smooth — for the equations that depend on the input. -/
def SmoothArgs (jaxpr : Jaxpr ℝ) (consts : List (ND ℝ)) (d : ℕ) (x0 : ND ℝ) : Prop :=
  ∀ pre eqn post t a0, jaxpr.eqns = pre ++ eqn :: post →
    eqn.invars.all (Atom.constIn (constantVars { jaxpr with eqns := pre })) = false →
    curvedArg eqn.prim eqn.invars = some t → ValueAfter realSem jaxpr consts pre x0 t a0 →
    ∀ I, ValidIdx a0.shape I → SmoothAt d eqn.prim (a0.get I)

/-- The tables of jax_bound.py with enclosure generators that always return: `ProgramReturns` for these tables contains
only the conditions on shapes and on supported primitives. -/
noncomputable def shapeLib : Lib ℝ where
  sem := realLib.sem
  gen name := (realLib.gen name).map fun _ _ _ _ => .ok []
  powGen _ _ _ _ := .ok []
  expo := realLib.expo

end JB
end AB
