/-
Specification vocabulary for C73: programs whose intermediate values vary enough over the trust region for the cap of
`taylor_remainder_ratio` (/repo/autobound/primitive_enclosures.py:277-305) to play no role.
-/
import Verif.Spec.TableLib
import Verif.Spec.TotalStatic

namespace AB
namespace JB

/-- The argument of an equation for which an enclosure is taken from the tables: the argument of an element-wise function,
the denominator of a division, the base of a power (negative integer exponents only for `integer_pow`). -/
def curvedArg {K α : Type} : Prim K → List α → Option α
  | .elementwise _, [a] => some a
  | .div, [_, b] => some b
  | .integerPow y, [a] => if y < 0 then some a else none
  | .pow, [a, _] => some a
  | _, _ => none

/-- `softplus`, for which the code has a special rule in degree 2. -/
def IsSoftplus {K : Type} : Prim K → Prop
  | .elementwise name => builtinName name = some .softplus
  | _ => False

/-- `a` is the value of `t` in the call of the program at `x`, after the equations `pre`. -/
def ValueAfter {K : Type} [Field K] [LinearOrder K] (sem : Sem K) (jaxpr : Jaxpr K) (consts : List (ND K))
    (pre : List (Eqn K)) (x : ND K) (t : Atom K) (a : ND K) : Prop :=
  ∃ vals, evalEnv sem { jaxpr with eqns := pre } consts x = .ok vals ∧ NonEmptyVals vals ∧ getVal vals t = .ok a

/-- Every entry of every argument (that depends on the input) of an enclosure from the tables takes, somewhere in the trust
region, a value smaller by `η` than its value at `x0`, and a value larger by `η`.  For `softplus` in degree 2 its value at
`x0` is 0, or not too close to 0. -/
def FatArgs {K : Type} [Field K] [LinearOrder K] (sem : Sem K) (jaxpr : Jaxpr K) (consts : List (ND K)) (maxDegree : ℤ)
    (x0 lo hi : ND K) (η : K) : Prop :=
  ∀ pre eqn post t a0, jaxpr.eqns = pre ++ eqn :: post → curvedArg eqn.prim eqn.invars = some t →
    t.constIn (constantVars { jaxpr with eqns := pre }) = false → ValueAfter sem jaxpr consts pre x0 t a0 →
    ∀ I, ValidIdx a0.shape I →
      (∃ x a, (Coef.ivl lo hi).Contains x ∧ ValueAfter sem jaxpr consts pre x t a ∧ a.get I ≤ a0.get I - η) ∧
      (∃ x a, (Coef.ivl lo hi).Contains x ∧ ValueAfter sem jaxpr consts pre x t a ∧ a0.get I + η ≤ a.get I) ∧
      (IsSoftplus eqn.prim → maxDegree = 2 → a0.get I = 0 ∨ η ≤ 2 * |a0.get I|)

end JB
end AB
