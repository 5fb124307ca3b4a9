/-
Conditions on a program (and not on the run of the interpreter) under which `taylor_bounds`
(/repo/autobound/jax/jax_bound.py:61-212) is claimed to return.
-/
import Verif.Spec.Total
import Verif.Spec.Static

namespace AB
namespace JB
variable {K : Type} [Field K] [LinearOrder K]

/-- The enclosure generator `g` returns at degree `d` whenever the trust region broadcasts to the shape of `x0`
and contains `x0`. -/
def GenTotal (g : TEA.Generator K) (d : ℕ) : Prop :=
  ∀ x0 lo hi : ND K, lo.shape = hi.shape → bshape lo.shape x0.shape = some x0.shape →
    (∀ I, ValidIdx x0.shape I → lo.bget I ≤ x0.get I ∧ x0.get I ≤ hi.bget I) →
    ∃ e, g x0 (lo, hi) d = .ok e

/-- Every enclosure that `g` returns has `degree + 1` coefficients, and the last one is an interval. -/
def GenFull (g : TEA.Generator K) : Prop :=
  ∀ x0 tr d e, g x0 tr d = .ok e → e.length = d + 1 ∧ ∃ lo hi, e[d]? = some (.ivl lo hi)

/-- All tables contain such generators only. -/
structure LibFull (lib : Lib K) : Prop where
  gen : ∀ n g, lib.gen n = some g → GenFull g
  pow : ∀ p, GenFull (lib.powGen p)

/-- `g` can be called by the interpreter: it returns at the degree `md` and, if trust regions are propagated, also
at degree 0. -/
def GenUsable (md : ℕ) (propagate : Bool) (g : TEA.Generator K) : Prop :=
  GenTotal g md ∧ (propagate = true → GenTotal g 0)

/-- The condition on one equation that depends on the input variable (`args` are the values of its arguments, of
which only the shapes matter — and the value of a constant exponent; `cs` are the variables that do not depend on
the input; `xs` is the shape of the input).
* element-wise functions, division, powers: there are `einsum` labels, and the enclosure generator returns;
* `integer_pow`: the exponent is not 0;
* `pow`: trust regions are not propagated, the exponent is a constant scalar, and neither 0 nor a positive integer;
* `conv_general_dilated`: the input is a scalar, and the convolution accepts the shapes;
* `broadcast_in_dim`: the input is a scalar, and the degree is not 1;
* `reshape`, `transpose`, `reduce_window_sum`: the input is a scalar;
* `jit`: the jitted function accepts the shapes of all coefficients;
* primitives that are in none of the tables: never;
* everything else (`add`, `sub`, `mul`, `neg`, `dot_general`, `reduce_sum`, `squeeze`, `convert_element_type`): no
  condition. -/
def EqnReturns (lib : Lib K) (xs : List ℕ) (md : ℕ) (propagate : Bool) (cs : List ℤ) :
    Prim K → List (Atom K) → List (ND K) → Prop
  | .div, _, [_, v] => Labels xs v.shape (md * md) ∧ GenUsable md propagate (lib.powGen (.int (-1)))
  | .integerPow y, _, [u] => y ≠ 0 ∧ (0 ≤ y → Labels xs u.shape (md * y.toNat)) ∧
      (y < 0 → Labels xs u.shape (md * md) ∧ GenUsable md propagate (lib.powGen (.int y)))
  | .pow, [_, b], [u, v] => propagate = false ∧ b.constIn cs ∧ v.shape = [] ∧ Labels xs u.shape (md * md) ∧
      match lib.expo (v.get []) with
      | .frac q => GenTotal (lib.powGen (.frac q)) md
      | .int n => n < 0 ∧ GenTotal (lib.powGen (.int n)) md
  | .elementwise name, _, [u] => Labels xs u.shape (md * md) ∧
      ∃ g, lib.gen name = some g ∧ GenUsable md propagate g
  | .conv op, _, [u, v] => xs = [] ∧
      ∀ u' v' : ND K, u'.shape = u.shape → v'.shape = v.shape → ∃ s, op u' v' = .ok s
  | .broadcastInDim _ _, _, _ => xs = [] ∧ md ≠ 1
  | .reshape _, _, _ => xs = []
  | .transpose _, _, _ => xs = []
  | .reduceWindowSum _, _, _ => xs = []
  | .jit body, _, [u] => ∀ (i : ℕ) (u' : ND K), i ≤ md →
      u'.shape = u.shape ++ (List.replicate i xs).flatten → ∃ s, body u' = .ok s
  | .other _ _, _, _ => False
  | _, _, _ => True

/-- Every equation that depends on the input meets `EqnReturns`; every other equation has an implementation that
returns. -/
def EqnsReturn (lib : Lib K) (sem : Sem K) (xs : List ℕ) (md : ℕ) (propagate : Bool) :
    List ℤ → Vals K → List (Eqn K) → Prop
  | _, _, [] => True
  | cs, vals, eqn :: eqns =>
    (∀ args, eqn.invars.mapM (getVal vals) = .ok args →
      if eqn.invars.all (Atom.constIn cs) then ∃ outs, eqn.prim.bind lib.sem args = .ok outs
      else EqnReturns lib xs md propagate cs eqn.prim eqn.invars args) ∧
    ∀ vals', evalEqn sem vals eqn = .ok vals' →
      EqnsReturn lib sem xs md propagate (constAfter cs eqn) vals' eqns

/-- The equations of the program meet these conditions; the shapes are those of the evaluation at `x0`. -/
def ProgramReturns (lib : Lib K) (sem : Sem K) (jaxpr : Jaxpr K) (consts : List (ND K)) (maxDegree : ℤ)
    (propagate : Bool) (x0 : ND K) : Prop :=
  EqnsReturn lib sem x0.shape maxDegree.toNat (propagate && (maxDegree != 0)) jaxpr.constvars
    (evalInit jaxpr consts x0) jaxpr.eqns

end JB
end AB
