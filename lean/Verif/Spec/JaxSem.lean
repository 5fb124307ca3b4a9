/-
Specification vocabulary for /repo/autobound/jax/jax_bound.py: what the function `f` given to
`taylor_bounds` computes (the usual evaluation of its Jaxpr on arrays), and the conditions under which
the claims about `taylor_bounds` are made.
-/
import Verif.Spec.Enclosure
import Verif.Model.JaxBound

namespace AB
namespace JB
variable {K : Type}

/-- Values of variables. -/
abbrev Vals (K : Type) := List (ℤ × ND K)

/-- The value of a variable or literal. -/
def getVal (env : Vals K) : Atom K → Py (ND K)
  | .var v => match env.lookup v with
    | some a => .ok a
    | none => .error .keyError
  | .lit a => .ok a

/-- Bind one output variable (variables with number -1 are unused outputs). -/
def storeVal (env : Vals K) (va : ℤ × ND K) : Vals K := if va.1 = -1 then env else va :: env

section
variable [Zero K] [One K] [Add K] [Sub K] [Mul K] [Pow K ℤ] [Neg K] [Div K]

/-- Evaluate one equation. -/
def evalEqn (sem : Sem K) (env : Vals K) (eqn : Eqn K) : Py (Vals K) := do
  let args ← eqn.invars.mapM (getVal env)
  let outs ← eqn.prim.bind sem args
  if outs.length ≠ eqn.outvars.length then .error .assertion
  else return (eqn.outvars.zip outs).foldl storeVal env

/-- The variables before the first equation: one input variable, and the constants. -/
def evalInit (jaxpr : Jaxpr K) (consts : List (ND K)) (x : ND K) : Vals K :=
  (jaxpr.invars.map fun v => (v, x)) ++ jaxpr.constvars.zip consts

/-- The values of all variables when the Jaxpr is evaluated at `x`. -/
def evalEnv (sem : Sem K) (jaxpr : Jaxpr K) (consts : List (ND K)) (x : ND K) : Py (Vals K) :=
  jaxpr.eqns.foldlM (evalEqn sem) (evalInit jaxpr consts x)

/-- `f(x)`: evaluate the Jaxpr at `x`. -/
def evalJaxpr (sem : Sem K) (jaxpr : Jaxpr K) (consts : List (ND K)) (x : ND K) : Py (ND K) := do
  let env ← evalEnv sem jaxpr consts x
  match jaxpr.outvars with
  | [o] => getVal env o
  | _ => .error .assertion

/-- Every array computed in the evaluation has at least one entry. -/
def NonEmptyVals (env : Vals K) : Prop := ∀ va ∈ env, ∃ I, ValidIdx va.2.shape I
end

/-- Shape of the constant term. -/
def Inter.headShape (i : Inter K) : List ℕ := match i.encl with | [] => [] | c :: _ => c.shape

/-- All coefficients have the full batch shape. -/
def Inter.Exact (xs : List ℕ) (i : Inter K) : Prop := ExactBatch xs i.headShape i.encl

/-- All coefficients have a batch shape of full rank. -/
def Inter.Uniform (xs : List ℕ) (i : Inter K) : Prop := UniformBatch xs i.headShape.length i.encl

variable [Field K] [LinearOrder K]

/-- The conditions under which one equation with non-constant inputs is claimed to be handled soundly
(`xs` is the shape of `x`).  `add`, `sub`, `mul`, `neg` and nonnegative integer
powers: none.  `convert_element_type`: the numbers are not changed.  Element-wise functions: the coefficients of the argument have full rank.  Linear and
bilinear primitives: the coefficients of the arguments have the full shape, and
* `dot_general` with batch dimensions: `x` is a scalar or the left operand does not depend on `x`;
* `conv_general_dilated`: the convolution is a bilinear operation with nonnegative weights;
* `reshape`: `x` is not an array with exactly one entry and positive rank;
* `jit`: the jitted function is linear with nonnegative weights. -/
def StepOk (xs : List ℕ) : Prim K → List (Inter K) → Prop
  | .div, [_, b] => b.Uniform xs
  | .integerPow y, [a] => 0 ≤ y ∨ a.Uniform xs
  | .pow, [a, _] => a.Uniform xs
  | .elementwise _, [a] => a.Uniform xs
  | .dotGeneral _ _ lb _, [a, b] => a.Exact xs ∧ b.Exact xs ∧ (lb = [] ∨ xs = [] ∨ a.encl.length = 1)
  | .conv op, [a, b] => a.Exact xs ∧ b.Exact xs ∧ ∃ Rc terms,
      PairwiseContract [] a.headShape b.headShape Rc terms (fun u v _ _ => op u v) ∧
      ∀ L, ValidIdx Rc L → ∀ t ∈ terms L, 0 ≤ t.1
  | .broadcastInDim _ _, [a] => a.Exact xs
  | .reduceSum _, [a] => a.Exact xs
  | .reduceWindowSum _, [a] => a.Exact xs
  | .squeeze _, [a] => a.Exact xs
  | .transpose _, [a] => a.Exact xs
  | .reshape _, [a] => a.Exact xs ∧ (xs = [] ∨ xs.prod ≠ 1)
  | .convertElementType round, [_] => ∀ t, round t = t
  | .jit body, [a] => a.Exact xs ∧ ∃ Rc terms, LinearContract xs a.headShape Rc terms body ∧
      ∀ L, ValidIdx Rc L → ∀ t ∈ terms L, 0 ≤ t.1
  | _, _ => True

/-- Every equation executed from `env` on meets `StepOk` (unless all its inputs are constants). -/
def RunOk (lib : Lib K) (T T0 : TEA K) (propagate : Bool) (xs : List ℕ) : Env K → List (Eqn K) → Prop
  | _, [] => True
  | env, eqn :: eqns =>
    (∀ ins, eqn.invars.mapM (getInter env) = .ok ins → ins.mapM Inter.constantValue = none →
      StepOk xs eqn.prim ins) ∧
    ∀ env', step lib T T0 propagate xs env eqn = .ok env' → RunOk lib T T0 propagate xs env' eqns

/-- Every equation of the run `taylor_bounds(f, ...)(x0, (lo, hi))` meets `StepOk`. -/
def TaylorBoundsOk (lib : Lib K) (jaxpr : Jaxpr K) (consts : List (ND K)) (maxDegree : ℤ)
    (propagate : Bool) (x0 lo hi : ND K) : Prop :=
  ∀ tlo thi T T0 env, IA.subtract (.ivl lo hi) (.arr x0) = .ok (.ivl tlo thi) →
    TEA.init maxDegree.toNat tlo thi = .ok T → TEA.init 0 tlo thi = .ok T0 →
    initEnv (propagate && (maxDegree != 0)) maxDegree.toNat jaxpr consts x0 lo hi = .ok env →
    RunOk lib T T0 (propagate && (maxDegree != 0)) x0.shape env jaxpr.eqns

/-- The tables of enclosure generators are right about the functions `sem`, and the implementations that
`bind` calls compute them. -/
structure LibSound (lib : Lib K) (sem : Sem K) : Prop where
  fn : ∀ n f, lib.sem.fn n = some f → sem.fn n = some f
  pow : lib.sem.pow = sem.pow
  gen : ∀ n g, lib.gen n = some g → ∃ f, sem.fn n = some f ∧
    SoundGenerator f (fun _ => True) g ∧ KeepsShape g
  powInt : ∀ n : ℤ, n < 0 → SoundGenerator (fun x => x ^ n) (fun _ => True) (lib.powGen (.int n)) ∧
    KeepsShape (lib.powGen (.int n))
  expoInt : ∀ p n, lib.expo p = .int n → ∀ x, sem.pow x p = x ^ n
  expoFrac : ∀ p q, lib.expo p = .frac q →
    SoundGenerator (fun x => sem.pow x p) (fun _ => True) (lib.powGen (.frac q)) ∧
    KeepsShape (lib.powGen (.frac q))

/-- `LibSound`, for the values at the single point `z` only. -/
structure LibSoundAt (z : ND K) (lib : Lib K) (sem : Sem K) : Prop where
  fn : ∀ n f, lib.sem.fn n = some f → sem.fn n = some f
  pow : lib.sem.pow = sem.pow
  gen : ∀ n g, lib.gen n = some g → ∃ f, sem.fn n = some f ∧
    SoundGeneratorAt z f (fun _ => True) g ∧ KeepsShape g
  powInt : ∀ n : ℤ, n < 0 → SoundGeneratorAt z (fun x => x ^ n) (fun _ => True) (lib.powGen (.int n)) ∧
    KeepsShape (lib.powGen (.int n))
  expoInt : ∀ p n, lib.expo p = .int n → ∀ x, sem.pow x p = x ^ n
  expoFrac : ∀ p q, lib.expo p = .frac q →
    SoundGeneratorAt z (fun x => sem.pow x p) (fun _ => True) (lib.powGen (.frac q)) ∧
    KeepsShape (lib.powGen (.frac q))

theorem LibSound.at {lib : Lib K} {sem : Sem K} (h : LibSound lib sem) (z : ND K) : LibSoundAt z lib sem where
  fn := h.fn
  pow := h.pow
  gen n g hg := by
    obtain ⟨f, h1, h2, h3⟩ := h.gen n g hg
    exact ⟨f, h1, h2.at z, h3⟩
  powInt n hn := ⟨(h.powInt n hn).1.at z, (h.powInt n hn).2⟩
  expoInt := h.expoInt
  expoFrac p q hq := ⟨(h.expoFrac p q hq).1.at z, (h.expoFrac p q hq).2⟩

end JB
end AB

namespace AB
namespace JB
variable {K : Type}

/-- The arguments whose value does not depend on the input, given the variables known to be constant. -/
def Atom.constIn (cs : List ℤ) : Atom K → Bool
  | .lit _ => true
  | .var v => cs.contains v

/-- The variables of a program whose value does not depend on the input variable: the constants, and all
outputs of equations all of whose arguments are such variables or literals (-1 marks an unused output). -/
def constantVars (jaxpr : Jaxpr K) : List ℤ :=
  jaxpr.eqns.foldl (fun cs eqn => if eqn.invars.all (Atom.constIn cs) then cs ++ eqn.outvars.filter (· ≠ -1) else cs)
    jaxpr.constvars

/-- A primitive for which there is no enclosure rule: it is in none of the tables, or it is an
element-wise primitive that has not been registered. -/
def NoRule (lib : Lib K) : Prim K → Prop
  | .other _ _ => True
  | .elementwise name => lib.gen name = none
  | _ => False

end JB
end AB

namespace AB
variable {K : Type}

/-- All coefficients of degree below `n` are arrays (not intervals). -/
def ArrBelow (n : ℕ) (E : Encl K) : Prop := ∀ i c, E[i]? = some c → i < n → c.IsArr

/-- The enclosure generator returns arrays below the requested degree. -/
def ArrGen (g : TEA.Generator K) : Prop := ∀ x0 tr d e, g x0 tr d = .ok e → ArrBelow d e

/-- Every generator in the tables returns arrays below the requested degree. -/
structure JB.LibArr (lib : JB.Lib K) : Prop where
  gen : ∀ n g, lib.gen n = some g → ArrGen g
  pow : ∀ p, ArrGen (lib.powGen p)

end AB
