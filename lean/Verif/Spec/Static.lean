/-
Conditions on a program (and not on the run of the interpreter) under which the claims about
`taylor_bounds` are made.
-/
import Mathlib.Data.ENat.Basic
import Verif.Spec.JaxSem

namespace AB
namespace JB
variable {K : Type} [Field K] [LinearOrder K]

/-! ### The number of coefficients

`add` and `sub` do not broadcast coefficients that only one operand has, so that an operand which is stretched must not
have more coefficients than the other one. -/

/-- Bounds on the number of coefficients of the enclosure of each variable, if the degree is large. -/
structure Counts where
  least : ℤ → ℕ
  most : ℤ → ℕ∞

/-- Nothing known: at least one coefficient. -/
def Counts.trivial : Counts := ⟨fun _ => 1, fun _ => ⊤⟩

/-- Bounds for an argument; a literal has one coefficient. -/
def Atom.least (ct : Counts) : Atom K → ℕ
  | .lit _ => 1
  | .var v => ct.least v

def Atom.most (ct : Counts) : Atom K → ℕ∞
  | .lit _ => 1
  | .var v => ct.most v

/-- Bounds on the number of coefficients of the result of one operation. -/
def CountOp (ct : Counts) : Prim K → List (Atom K) → List ℤ → Prop
  | .add, [a, b], [o] => ct.least o ≤ max (a.least ct) (b.least ct) ∧ max (a.most ct) (b.most ct) ≤ ct.most o
  | .sub, [a, b], [o] => ct.least o ≤ max (a.least ct) (b.least ct) ∧ max (a.most ct) (b.most ct) ≤ ct.most o
  | .mul, [a, b], [o] => ct.least o + 1 ≤ a.least ct + b.least ct ∧ a.most ct + b.most ct ≤ ct.most o + 1
  | .dotGeneral _ _ _ _, [a, b], [o] => ct.least o + 1 ≤ a.least ct + b.least ct ∧ a.most ct + b.most ct ≤ ct.most o + 1
  | .conv _, [a, b], [o] => ct.least o + 1 ≤ a.least ct + b.least ct ∧ a.most ct + b.most ct ≤ ct.most o + 1
  | .neg, [a], [o] => ct.least o ≤ a.least ct ∧ a.most ct ≤ ct.most o
  | .broadcastInDim _ _, [a], [o] => ct.least o ≤ a.least ct ∧ a.most ct ≤ ct.most o
  | .convertElementType _, [a], [o] => ct.least o ≤ a.least ct ∧ a.most ct ≤ ct.most o
  | .reshape _, [a], [o] => ct.least o ≤ a.least ct ∧ a.most ct ≤ ct.most o
  | .reduceSum _, [a], [o] => ct.least o ≤ a.least ct ∧ a.most ct ≤ ct.most o
  | .reduceWindowSum _, [a], [o] => ct.least o ≤ a.least ct ∧ a.most ct ≤ ct.most o
  | .squeeze _, [a], [o] => ct.least o ≤ a.least ct ∧ a.most ct ≤ ct.most o
  | .transpose _, [a], [o] => ct.least o ≤ a.least ct ∧ a.most ct ≤ ct.most o
  | .jit _, [a], [o] => ct.least o ≤ a.least ct ∧ a.most ct ≤ ct.most o
  | _, _, _ => False

/-- An equation either follows `CountOp`, or nothing is claimed about its results. -/
def CountEqn (ct : Counts) (eqn : Eqn K) : Prop :=
  (∀ o ∈ eqn.outvars, ct.least o ≤ 1 ∧ ct.most o = ⊤) ∨ CountOp ct eqn.prim eqn.invars eqn.outvars

/-- `ct` is right about the program: constants have one coefficient, the input variable two. -/
def CountsFit (ct : Counts) (jaxpr : Jaxpr K) : Prop :=
  (∀ v ∈ jaxpr.invars, ct.least v ≤ 2 ∧ 2 ≤ ct.most v) ∧ (∀ v ∈ jaxpr.constvars, ct.least v ≤ 1 ∧ 1 ≤ ct.most v) ∧
  ∀ eqn ∈ jaxpr.eqns, CountEqn ct eqn

/-- The condition on one equation that depends on the input variable: `args` and `outs` are the values of its
arguments and results (only their shapes matter), `cs` are the variables that do not depend on the input, `xs`
is the shape of the input.
* `add`, `sub`: an operand that depends on the input has the shape of the result, or certainly not more coefficients than
  the other operand (as in `x @ w + b`, where JAX leaves the stretching of `b` along the batch to `add`);
* `dot_general` with batch dimensions: the input is a scalar, or the left operand does not depend on it;
* `conv_general_dilated`: the convolution is a bilinear operation with nonnegative weights;
* `reshape`: the input is not an array with exactly one entry and positive rank;
* `convert_element_type`: it does not change the numbers (all of them are representable in the new type);
* `jit`: the jitted function is linear with nonnegative weights;
* everything else: no condition. -/
def EqnFits (ct : Counts) (xs : List ℕ) (cs : List ℤ) : Prim K → List (Atom K) → List (ND K) → List (ND K) → Prop
  | .add, [a, b], [u, v], [y] => (a.constIn cs ∨ u.shape = y.shape ∨ a.most ct ≤ b.least ct) ∧
      (b.constIn cs ∨ v.shape = y.shape ∨ b.most ct ≤ a.least ct)
  | .sub, [a, b], [u, v], [y] => (a.constIn cs ∨ u.shape = y.shape ∨ a.most ct ≤ b.least ct) ∧
      (b.constIn cs ∨ v.shape = y.shape ∨ b.most ct ≤ a.least ct)
  | .dotGeneral _ _ lb _, [a, _], _, _ => lb = [] ∨ xs = [] ∨ a.constIn cs
  | .conv op, _, [u, v], _ => ∃ Rc terms,
      PairwiseContract [] u.shape v.shape Rc terms (fun u v _ _ => op u v) ∧
      ∀ L, ValidIdx Rc L → ∀ t ∈ terms L, 0 ≤ t.1
  | .reshape _, _, _, _ => xs = [] ∨ xs.prod ≠ 1
  | .convertElementType round, _, _, _ => ∀ t, round t = t
  | .jit body, _, [u], _ => ∃ Rc terms, LinearContract xs u.shape Rc terms body ∧
      ∀ L, ValidIdx Rc L → ∀ t ∈ terms L, 0 ≤ t.1
  | _, _, _, _ => True

/-- The variables that do not depend on the input, after one more equation. -/
def constAfter (cs : List ℤ) (eqn : Eqn K) : List ℤ :=
  if eqn.invars.all (Atom.constIn cs) then cs ++ eqn.outvars.filter (· ≠ -1) else cs

/-- Every equation that depends on the input meets `EqnFits`. -/
def EqnsFit (sem : Sem K) (ct : Counts) (xs : List ℕ) : List ℤ → Vals K → List (Eqn K) → Prop
  | _, _, [] => True
  | cs, vals, eqn :: eqns =>
    (eqn.invars.all (Atom.constIn cs) = false → ∀ args outs, eqn.invars.mapM (getVal vals) = .ok args →
      eqn.prim.bind sem args = .ok outs → EqnFits ct xs cs eqn.prim eqn.invars args outs) ∧
    ∀ vals', evalEqn sem vals eqn = .ok vals' → EqnsFit sem ct xs (constAfter cs eqn) vals' eqns

/-- Every equation of the program that depends on the input meets `EqnFits` (with some bounds on the number of
coefficients); the shapes are those of the evaluation at `x0`. -/
def ProgramFits (sem : Sem K) (jaxpr : Jaxpr K) (consts : List (ND K)) (x0 : ND K) : Prop :=
  (∀ v ∈ jaxpr.invars, v ∉ jaxpr.constvars) ∧ ∃ ct, CountsFit ct jaxpr ∧
  EqnsFit sem ct x0.shape jaxpr.constvars (evalInit jaxpr consts x0) jaxpr.eqns

end JB
end AB
