/-
Specification vocabulary for "taylor_bounds returns": the conditions under which one equation of the program
cannot raise (/repo/autobound/jax/jax_bound.py:135-205).
-/
import Verif.Spec.JaxSem

namespace AB
namespace JB
variable {K : Type}

/-- `numpy.einsum` has labels (26 of them) for `n` copies of the axes of `x` after the axes of an array of
shape `R`; for `R = []` no labels are needed. -/
def Labels (xs R : List ℕ) (n : ℕ) : Prop := R = [] ∨ R.length + n * xs.length ≤ 26

/-- The Jaxpr is well formed: one input, one output, as many constants as constant variables, every variable
is bound only once (-1 marks an unused output), and literals have at least one entry (they are scalars). -/
structure WellFormedProgram (jaxpr : Jaxpr K) (consts : List (ND K)) : Prop where
  input : jaxpr.invars.length = 1
  output : jaxpr.outvars.length = 1
  consts : consts.length = jaxpr.constvars.length
  once : (jaxpr.invars ++ jaxpr.constvars ++ (jaxpr.eqns.flatMap Eqn.outvars).filter (· ≠ -1)).Nodup
  lits : ∀ eqn ∈ jaxpr.eqns, ∀ a, Atom.lit a ∈ eqn.invars → ∃ I, ValidIdx a.shape I

variable [Field K] [LinearOrder K]

/-- The enclosure generator `g` returns when `get_elementwise_fun` calls it on the argument `arg`. -/
def GenReturns (T : TEA K) (g : TEA.Generator K) (arg : Encl K) (tr : Option (Coef K)) : Prop :=
  ∀ r c x0, T.argRegion arg tr = .ok r → arg[0]? = some c → T.expansionPoint c = .ok x0 →
    ∃ e, g x0 (TEA.toInterval r) T.maxDegree = .ok e

/-- The conditions under which one equation that depends on the input is claimed not to raise (`xs` is the
shape of `x`; `StepOk` is assumed as well).
* element-wise functions, division, powers: there are `einsum` labels, and the enclosure generator returns;
* `pow`: the exponent is a known scalar that is not a positive integer;
* `conv_general_dilated`: `x` is a scalar (or none of the operands has more than a constant term), and the
  convolution accepts the shapes;
* `broadcast_in_dim`: `x` is a scalar and the degree-1 coefficient is not an interval (or there is only a
  constant term);
* `reshape`, `transpose`, `reduce_window_sum`: `x` is a scalar (or there is only a constant term);
* `jit`: the jitted function accepts the shapes of all coefficients;
* primitives that are in none of the tables: never;
* everything else (`add`, `sub`, `mul`, `neg`, `dot_general`, `reduce_sum`, `squeeze`,
  `convert_element_type`): no condition. -/
def StepReturns (lib : Lib K) (T : TEA K) (xs : List ℕ) : Prim K → List (Inter K) → Prop
  | .div, [_, b] => Labels xs b.headShape ((b.encl.length - 1) * T.maxDegree) ∧
      GenReturns T (lib.powGen (.int (-1))) b.encl none
  | .integerPow y, [a] =>
      (0 ≤ y → Labels xs a.headShape ((a.encl.length - 1) * y.toNat)) ∧
      (y < 0 → Labels xs a.headShape ((a.encl.length - 1) * T.maxDegree) ∧
        GenReturns T (lib.powGen (.int y)) a.encl none)
  | .pow, [a, b] => ∃ v, b.constantValue = some v ∧ v.shape = [] ∧
      Labels xs a.headShape ((a.encl.length - 1) * T.maxDegree) ∧
      match lib.expo (v.get []) with
      | .frac q => GenReturns T (lib.powGen (.frac q)) a.encl none
      | .int n => n ≤ 0 ∧ (n < 0 → GenReturns T (lib.powGen (.int n)) a.encl none)
  | .elementwise name, [a] => Labels xs a.headShape ((a.encl.length - 1) * T.maxDegree) ∧
      ∃ g, lib.gen name = some g ∧ GenReturns T g a.encl a.tr
  | .conv op, [a, b] => (xs = [] ∨ (a.encl.length = 1 ∧ b.encl.length = 1)) ∧
      ∀ u v : ND K, u.shape = a.headShape → v.shape = b.headShape → ∃ s, op u v = .ok s
  | .broadcastInDim _ _, [a] => a.encl.length = 1 ∨ (xs = [] ∧ ∃ c, a.encl[1]? = some (.arr c))
  | .reshape _, [a] => a.encl.length = 1 ∨ xs = []
  | .transpose _, [a] => a.encl.length = 1 ∨ xs = []
  | .reduceWindowSum _, [a] => a.encl.length = 1 ∨ xs = []
  | .jit body, [a] => ∀ (i : ℕ) (u : ND K), i < a.encl.length →
      u.shape = a.headShape ++ (List.replicate i xs).flatten → ∃ s, body u = .ok s
  | .other _ _, _ => False
  | _, _ => True

/-- The degree-0 arguments made of the trust regions of the inputs (jax_bound.py:153-158). -/
def regions (ins : List (Inter K)) : Option (List (Inter K)) :=
  ins.mapM fun i => i.tr.map fun r => ⟨[r], none⟩

/-- The additional conditions with propagated trust regions: the pushforward function also returns on the
degree-0 arguments, with an interval as the result (this fails for `integer_pow` with exponent 0), and
the enclosure of the output is not just a constant. -/
def RegionReturns (lib : Lib K) (T T0 : TEA K) (xs : List ℕ) (p : Prim K) (ins : List (Inter K)) : Prop :=
  ∀ ins0, regions ins = some ins0 → StepReturns lib T0 xs p ins0 ∧
    (∀ f e, pushforward lib T0 p = some f → f ins0 = .ok e → ∃ lo hi, e[0]? = some (.ivl lo hi)) ∧
    ∀ f e, pushforward lib T p = some f → f ins = .ok e → 2 ≤ e.length

/-- Every equation executed from `env` on meets `StepReturns` (and `RegionReturns`, if trust regions are
propagated) — or, if all its inputs are constants, has an implementation that returns. -/
def RunReturns (lib : Lib K) (T T0 : TEA K) (propagate : Bool) (xs : List ℕ) : Env K → List (Eqn K) → Prop
  | _, [] => True
  | env, eqn :: eqns =>
    (∀ ins, eqn.invars.mapM (getInter env) = .ok ins →
      match ins.mapM Inter.constantValue with
      | none => StepReturns lib T xs eqn.prim ins ∧ (propagate = true → RegionReturns lib T T0 xs eqn.prim ins)
      | some vals => ∃ outs, eqn.prim.bind lib.sem vals = .ok outs) ∧
    ∀ env', step lib T T0 propagate xs env eqn = .ok env' → RunReturns lib T T0 propagate xs env' eqns

/-- Every equation of the run `taylor_bounds(f, ...)(x0, (lo, hi))` meets these conditions. -/
def TaylorBoundsReturns (lib : Lib K) (jaxpr : Jaxpr K) (consts : List (ND K)) (maxDegree : ℤ)
    (propagate : Bool) (x0 lo hi : ND K) : Prop :=
  ∀ tlo thi T T0 env, IA.subtract (.ivl lo hi) (.arr x0) = .ok (.ivl tlo thi) →
    TEA.init maxDegree.toNat tlo thi = .ok T → TEA.init 0 tlo thi = .ok T0 →
    initEnv (propagate && (maxDegree != 0)) maxDegree.toNat jaxpr consts x0 lo hi = .ok env →
    RunReturns lib T T0 (propagate && (maxDegree != 0)) x0.shape env jaxpr.eqns

end JB
end AB
