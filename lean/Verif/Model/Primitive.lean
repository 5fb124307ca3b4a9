/-
Model of /repo/autobound/primitive_enclosures.py, function by function.  All functions of that file
act element-wise, so they are modelled at one array element and lifted to arrays (with numpy
broadcasting) by `liftGen`.
-/
import Verif.Model.Elementwise
import Verif.Model.Enclosure
import Mathlib.Analysis.SpecialFunctions.Pow.Real

namespace AB
namespace PE
open EF

/-- One element of an `ElementwiseTaylorEnclosure` (types.py:48-64) as built by this file: the
coefficients of degree `< degree`, and the interval coefficient of degree `degree`. -/
abbrev SEncl (K : Type) := List K × (K × K)

section
variable {K : Type} [Zero K] [One K] [Add K] [Sub K] [Mul K] [Neg K] [Div K] [NatCast K] [Pow K ℕ] [LinearOrder K]

/-- `taylor_remainder_ratio`, primitive_enclosures.py:277-305 (`sum` adds from left to right, starting with 0). -/
def taylorRemainderRatio (x0 : K) (degree : ℕ) (sigma : K → K) (coeffs : List K) (x : K) : Py K :=
  if coeffs.length ≠ degree + 1 then .error .valueError
  else
    let rk := sigma x - ((Poly.enum coeffs).map fun ic => ic.2 * (x - x0) ^ ic.1).foldl (· + ·) 0
    let denom := (x - x0) ^ degree
    .ok (coeffs.getD degree 0 + rk * sgn denom / max (1 / ((10 ^ 12 : ℕ) : K)) (max denom (-denom)))

/-- `sharp_enclosure_monotonic_derivative`, primitive_enclosures.py:203-241 (`degree` is a natural
number; a negative degree raises `ValueError`). -/
def sharpMonotonic (x0 : K) (degree : ℕ) (a b : K) (sigma : K → K) (coeffs : List K)
    (increasing : Bool) : Py (SEncl K) := do
  let ra ← taylorRemainderRatio x0 degree sigma coeffs a
  let rb ← taylorRemainderRatio x0 degree sigma coeffs b
  return (coeffs.take degree, if increasing then (ra, rb) else (rb, ra))

/-- `np_like.clip(x, a, b)`. -/
def clip (x a b : K) : K := min (max x a) b

/-- `sharp_quadratic_enclosure_even_symmetric_hessian`, primitive_enclosures.py:244-274. -/
def sharpQuadratic (x0 a b : K) (sigma : K → K) (coeffs : List K) : Py (SEncl K) := do
  let maxRatio ← taylorRemainderRatio x0 2 sigma coeffs (clip (-x0) a b)
  let ra ← taylorRemainderRatio x0 2 sigma coeffs a
  let rb ← taylorRemainderRatio x0 2 sigma coeffs b
  return (coeffs.take 2, (min ra rb, maxRatio))

/-- `bounded_derivative_enclosure`, primitive_enclosures.py:188-200. -/
def boundedDerivative (degree : ℕ) (coeffs : List K) (bound : K × K) : Py (SEncl K) :=
  if coeffs.length ≠ degree then .error .valueError
  else .ok (coeffs.take degree, (bound.1 / degree.factorial, bound.2 / degree.factorial))

end

section
variable {K : Type} [Field K] [LinearOrder K]

/-- The exponent of `pow_enclosure`: an integer (Python `int` or integer-valued float), or any
other number (for which `int(exponent) != exponent`). -/
inductive Expo (K : Type) where
  | int (n : ℤ)
  | frac (p : K)

/-- the exponent as a number -/
def Expo.val : Expo K → K
  | .int n => (n : K)
  | .frac p => p

/-- The constant `c` of `_pow_kth_deriv_sign` and `pow_enclosure` after `k` iterations
(primitive_enclosures.py:312-314, 119-126): `p * (p-1) * ... * (p-k+1)`. -/
def fallProd (p : K) : ℕ → K
  | 0 => 1
  | k + 1 => fallProd p k * (p - k)

/-- The local function `sign`, primitive_enclosures.py:316. -/
def signInt (z : K) : ℤ := if z > 0 then 1 else if z = 0 then 0 else -1

/-- `_pow_kth_deriv_sign`, primitive_enclosures.py:308-326. -/
def powKthDerivSign (xSign : ℤ) (p : Expo K) (k : ℕ) : Py ℤ :=
  let c := fallProd p.val k
  if xSign = 1 then .ok (signInt c)
  else if xSign = -1 then
    match p with
    | .int n => .ok (signInt c * (if (n - k) % 2 = 0 then 1 else -1))
    | .frac _ => .error .valueError
  else .error .valueError

/-- `x ** (exponent - i)`; `rp` is the back end's power function for non-integer exponents. -/
def powShift (rp : K → K → K) (p : Expo K) (i : ℕ) (x : K) : K :=
  match p with
  | .int n => x ^ (n - i)
  | .frac q => rp x (q - i)

/-- The loop of `pow_enclosure` computing `taylor_coefficients_at_x0`,
primitive_enclosures.py:118-126. -/
def powCoeffs (rp : K → K → K) (p : Expo K) (degree : ℕ) (x0 : K) : List K :=
  (List.range (degree + 1)).map fun i =>
    fallProd p.val i * powShift rp p i x0 / i.factorial

/-- Inputs for which all the numbers `pow_enclosure` selects are finite real numbers: otherwise
numpy produces `inf` or `nan` (0 to a negative power, a negative number to a fractional power) or the
code itself returns the interval `(-inf, inf)` (lines 161-168).  Outside this condition the model
makes no claim. -/
def powFinite (p : Expo K) (degree : ℕ) (x0 a b : K) : Prop :=
  match p with
  | .int n => (x0 = 0 → (degree : ℤ) ≤ n) ∧ (n < 0 → 0 < a ∨ b < 0)
  | .frac q => 0 < x0 ∧ (0 < a ∨ (a = 0 ∧ 0 < q)) ∧ 0 < b

instance (p : Expo K) (degree : ℕ) (x0 a b : K) : Decidable (powFinite p degree x0 a b) := by
  cases p <;> unfold powFinite <;> infer_instance

/-- `pow_enclosure`, primitive_enclosures.py:111-185. -/
def powEnclosure (rp : K → K → K) (p : Expo K) (x0 a b : K) (degree : ℕ) : Py (SEncl K) := do
  let coeffs := powCoeffs rp p degree x0
  let encDecreasing ← sharpMonotonic x0 degree a b (powShift rp p 0) coeffs false
  let encIncreasing ← sharpMonotonic x0 degree a b (powShift rp p 0) coeffs true
  let encPos := if (← powKthDerivSign 1 p (degree + 1)) ≥ 0 then encIncreasing else encDecreasing
  if ¬ powFinite p degree x0 a b then .error .unmodelled
  else match p with
  | .frac _ => return (encDecreasing.1, encPos.2)
  | .int _ =>
    let encNeg := if (← powKthDerivSign (-1) p (degree + 1)) ≥ 0 then encIncreasing else encDecreasing
    let endpoint (f : K × K → K) (g : K → K → K) :=
      if a ≥ 0 then f encPos.2
      else if b ≤ 0 then f encNeg.2
      else g (f encPos.2) (f encNeg.2)
    return (encDecreasing.1, (endpoint (·.1) min, endpoint (·.2) max))

end

section
variable {K : Type} [Zero K]

/-- the final interval of a computed enclosure (helper of `liftGen`) -/
def finOf : Py (SEncl K) → K × K
  | .ok s => s.2
  | .error _ => (0, 0)

/-- coefficient `i` of a computed list (helper of `liftGen`) -/
def coefOf (i : ℕ) : Py (List K) → K
  | .ok l => l.getD i 0
  | .error _ => 0

/-- Lifting to arrays: the element-wise functions are applied with numpy broadcasting of `x0` and
the trust region `(lo, hi)` (`lo` and `hi` of equal shapes); the coefficients of degree
`< degree` depend on `x0` only and have its shape (`tc`), the final interval has the broadcast shape.
An exception at any element is an exception of the call. -/
def liftGen (tc : ℕ → K → Py (List K)) (g : K → K → K → ℕ → Py (SEncl K)) : TEA.Generator K :=
  fun x0 tr d =>
    match bshape x0.shape tr.1.shape with
    | none => .error .valueError
    | some R => do
      let _ ← (idx R).mapM fun I => g (x0.bget I) (tr.1.bget I) (tr.2.bget I) d
      let fin (I : List ℕ) : K × K := finOf (g (x0.bget I) (tr.1.bget I) (tr.2.bget I) d)
      return (List.range d).map (fun i => .arr (x0.map fun x => coefOf i (tc d x))) ++
        [.ivl ⟨R, fun I => (fin I).1⟩ ⟨R, fun I => (fin I).2⟩]

end

section
variable {K : Type} [Field K] [LinearOrder K]

/-- `functools.partial(pow_enclosure, exponent)` on arrays. -/
def powGen (rp : K → K → K) (p : Expo K) : TEA.Generator K :=
  liftGen (fun d x => .ok (powCoeffs rp p d x)) (fun x0 a b d => powEnclosure rp p x0 a b d)

end

/-- `get_elementwise_taylor_enclosure`, primitive_enclosures.py:31-91. -/
noncomputable def getElementwiseTaylorEnclosure (fid : FunctionId) (x0 a b : ℝ) (degree : ℕ) :
    Py (SEncl ℝ) := do
  let f ← getFunction fid
  let derivId := fid.derivativeId degree
  let derivData ← getFunctionData derivId
  let coeffs ← getTaylorPolynomialCoefficients fid degree x0
  if derivData.increasing || derivData.decreasing then
    sharpMonotonic x0 degree a b f coeffs derivData.increasing
  else if degree = 2 ∧ derivData.evenSymmetric then
    sharpQuadratic x0 a b f coeffs
  else
    let encIfDecreasing ← sharpMonotonic x0 degree a b f coeffs false
    let encIfIncreasing ← sharpMonotonic x0 degree a b f coeffs true
    let mono := derivData.monotoneOver a b
    let derivRange ← getRange derivId a b
    let fallback ← boundedDerivative degree coeffs.dropLast derivRange
    let endpoint (p : ℝ × ℝ → ℝ) :=
      if mono.1 then p encIfDecreasing.2 else if mono.2 then p encIfIncreasing.2 else p fallback.2
    return (coeffs.take degree, (endpoint (·.1), endpoint (·.2)))

/-- `abs_enclosure`, `exp_enclosure`, `log_enclosure`, `sigmoid_enclosure`, `softplus_enclosure`,
`swish_enclosure`, primitive_enclosures.py:94-105, on arrays. -/
noncomputable def elementwiseGen (fid : FunctionId) : TEA.Generator ℝ :=
  liftGen (fun d x => getTaylorPolynomialCoefficients fid d x)
    (fun x0 a b d => getElementwiseTaylorEnclosure fid x0 a b d)

end PE
end AB
