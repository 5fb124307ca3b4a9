/-
Model of the programs in /repo/autobound/notebooks: `bounding_integrals.ipynb` and `safe_learning_rates.ipynb`
(code cells, cited by the name of the function they define).

Not modelled: plotting, `jax.jit` of the user's functions, floating point.
-/
import Verif.Model.JaxBound

namespace AB
namespace NB
variable {K : Type} [Field K] [LinearOrder K]
open JB

/-! ### bounding_integrals.ipynb -/

/-- `antiderivative(x)` of `integrate`, bounding_integrals.ipynb: `sum(c*(x**(i+1))/(i+1) for i, c in
enumerate(coefficients))`. -/
def antiderivative (coefficients : List K) (x : K) : K :=
  ((Poly.enum coefficients).map fun ic => ic.2 * x ^ (ic.1 + 1) / ((ic.1 + 1 : ℕ) : K)).sum

/-- `integrate(coefficients, a, b)`, bounding_integrals.ipynb. -/
def integrate (coefficients : List K) (a b : K) : K := antiderivative coefficients b - antiderivative coefficients a

/-- `float(v)` of an array: `TypeError` unless it has rank 0. -/
def toFloat (v : ND K) : Py K := if v.shape = [] then .ok (v.get []) else .error .typeError

/-- `integral_bound_v0(f, a, b, degree)`, bounding_integrals.ipynb; `jaxpr`, `consts` is the Jaxpr of `f` (the same
for every scalar argument).  `float(c[0]) if isinstance(c, tuple) else float(c)` for the lower coefficients,
`float(c[1])` for the upper ones. -/
def integralBoundV0 (lib : Lib K) (jaxpr : Jaxpr K) (consts : List (ND K)) (a b : K) (degree : ℤ) : Py (K × K) :=
  if degree % 2 ≠ 0 then .error .notImplemented
  else do
    let x0 := (a + b) / 2
    let bounds ← taylorBounds lib jaxpr consts degree false (ND.scalar x0) (ND.scalar a) (ND.scalar b)
    let lower ← bounds.coefficients.mapM fun c => toFloat (TEA.toInterval c).1
    let upper ← bounds.coefficients.mapM fun c => toFloat (TEA.toInterval c).2
    return (integrate lower (a - x0) (b - x0), integrate upper (a - x0) (b - x0))

/-- One iteration of the loop of `integral_bound_v1`, bounding_integrals.ipynb. -/
def v1Step (lib : Lib K) (jaxpr : Jaxpr K) (consts : List (ND K)) (a w : K) (degree : ℤ) (acc : K × K) (i : ℕ) :
    Py (K × K) := do
  let ai := a + w * i
  let bi := ai + w
  let lu ← integralBoundV0 lib jaxpr consts ai bi degree
  return (acc.1 + lu.1, acc.2 + lu.2)

/-- `integral_bound_v1(f, a, b, degree, num_grid_cells)`, bounding_integrals.ipynb. -/
def integralBoundV1 (lib : Lib K) (jaxpr : Jaxpr K) (consts : List (ND K)) (a b : K) (degree : ℤ)
    (numGridCells : ℕ) : Py (K × K) :=
  if numGridCells = 0 then .error .zeroDivision
  else (List.range numGridCells).foldlM (v1Step lib jaxpr consts a ((b - a) / (numGridCells : K)) degree) (0, 0)

/-! ### safe_learning_rates.ipynb -/

/-- `minimize_1d_quadratic(c1, c2, (a, b))`, safe_learning_rates.ipynb (division by zero, whose result is not used, is
0 in the model). -/
def minimize1dQuadratic (c1 c2 a b : K) : K :=
  let project := fun x => min b (max a x)
  let c2PosSolution := project (-c1 / (2 * c2))
  let q := fun x => c1 * x + c2 * x ^ 2
  let c2NegSolution := if q a < q b then a else b
  let c2ZeroSolution := (if c1 = 0 then 1 else 0) * project 0 + (if c1 > 0 then 1 else 0) * a +
    (if c1 < 0 then 1 else 0) * b
  let c2NonzeroSolution := if c2 > 0 then c2PosSolution else c2NegSolution
  if c2 = 0 then c2ZeroSolution else c2NonzeroSolution

/-- The Jaxpr (and its constants) of `next_loss` in `bound_loss(loss, x, update_dir, _)`, safe_learning_rates.ipynb:
tracing is not modelled, so it is a given function of `x` and `update_dir`. -/
structure TracedLoss (K X : Type) where
  jaxpr : X → X → Jaxpr K
  consts : X → X → List (ND K)

/-- `bound_loss(loss, x, update_dir, max_learning_rate)`, safe_learning_rates.ipynb. -/
def boundLoss {X : Type} (lib : Lib K) (loss : TracedLoss K X) (x updateDir : X) (maxLearningRate : K) :
    Py (Bounds K) :=
  taylorBounds lib (loss.jaxpr x updateDir) (loss.consts x updateDir) 2 false (ND.scalar 0) (ND.scalar 0)
    (ND.scalar maxLearningRate)

/-- `safe_learning_rate(loss, x, update_dir, max_learning_rate)`, safe_learning_rates.ipynb.  Losses that are not
scalars, and an interval as coefficient of degree 1, are outside the model. -/
def safeLearningRate {X : Type} (lib : Lib K) (loss : TracedLoss K X) (x updateDir : X) (maxLearningRate : K) :
    Py K := do
  let bounds ← boundLoss lib loss x updateDir maxLearningRate
  if bounds.coefficients.length < 3 then .error .notImplemented
  else
    let final : ND K × ND K ← bounds.finalInterval
    let c2 := final.2
    match (bounds.coefficients[1]? : Option (Coef K)) with
    | some (.arr c1) =>
      if c1.shape = [] ∧ c2.shape = [] then
        .ok (minimize1dQuadratic (c1.get []) (c2.get []) 0 maxLearningRate)
      else .error .unmodelled
    | _ => .error .unmodelled

/-- `next_max_eta` of `update_state`, safe_learning_rates.ipynb; `none` is NaN, for which every comparison is false:
`where(logical_or(safe_eta < max_eta / 2, safe_eta > safe_eta), max_eta / 2, max_eta * 2)`. -/
def nextMaxEta (safeEta : Option K) (maxEta : K) : K :=
  let lt : Bool := match safeEta with | some e => decide (e < maxEta / 2) | none => false
  let gt : Bool := match safeEta with | some e => decide (e > e) | none => false
  if lt || gt then maxEta / 2 else maxEta * 2

/-- The state `(x, safe_eta, max_eta)` of `saferate_optimizer`, safe_learning_rates.ipynb. -/
structure State (K X : Type) where
  x : X
  eta : K
  maxEta : K

/-- `init_fun`, safe_learning_rates.ipynb. -/
def initState {X : Type} (x0 : X) (initialMaxEta : K) : State K X := ⟨x0, 0, initialMaxEta⟩

/-- `update_state`, safe_learning_rates.ipynb; `dir x` is `-grad(loss)(x)` (differentiation is not modelled: an
arbitrary function), and `tree_map(lambda p, v: p + eta*v, x, dir)` is `x + eta • dir` in the space of parameters. -/
def updateState {X : Type} [AddCommGroup X] [Module K X] (lib : Lib K) (loss : TracedLoss K X) (dir : X → X)
    (s : State K X) : Py (State K X) := do
  let updateDir := dir s.x
  let safeEta ← safeLearningRate lib loss s.x updateDir s.maxEta
  return ⟨s.x + safeEta • updateDir, safeEta, nextMaxEta (some safeEta) s.maxEta⟩

/-- `n` steps of the optimizer. -/
def runOptimizer {X : Type} [AddCommGroup X] [Module K X] (lib : Lib K) (loss : TracedLoss K X) (dir : X → X) :
    ℕ → State K X → Py (State K X)
  | 0, s => .ok s
  | n + 1, s => do updateState lib loss dir (← runOptimizer lib loss dir n s)

end NB
end AB
