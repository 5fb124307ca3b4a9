/-
Model of /repo/autobound/interval_arithmetic.py, function by function.
`as_interval`, `as_interval_or_ndarray` (l.136-145) convert numbers to arrays; the model's values
are already arrays, so they are identities and do not appear.
-/
import Verif.Model.ND

namespace AB
namespace IA
variable {K : Type}

/-- `IntervalArithmetic.add`, interval_arithmetic.py:35-48. -/
def add [Add K] (a b : Coef K) : Py (Coef K) :=
  match a, b with
  | .ivl a0 a1, .ivl b0 b1 => do return .ivl (← ND.map2 (· + ·) a0 b0) (← ND.map2 (· + ·) a1 b1)
  | .ivl a0 a1, .arr b => do return .ivl (← ND.map2 (· + ·) a0 b) (← ND.map2 (· + ·) a1 b)
  | .arr a, .ivl b0 b1 => do return .ivl (← ND.map2 (· + ·) a b0) (← ND.map2 (· + ·) a b1)
  | .arr a, .arr b => do return .arr (← ND.map2 (· + ·) a b)

/-- `IntervalArithmetic.subtract`, interval_arithmetic.py:246-261. -/
def subtract [Sub K] (a b : Coef K) : Py (Coef K) :=
  match a, b with
  | .ivl a0 a1, .ivl b0 b1 => do return .ivl (← ND.map2 (· - ·) a0 b1) (← ND.map2 (· - ·) a1 b0)
  | .ivl a0 a1, .arr b => do return .ivl (← ND.map2 (· - ·) a0 b) (← ND.map2 (· - ·) a1 b)
  | .arr a, .ivl b0 b1 => do return .ivl (← ND.map2 (· - ·) a b1) (← ND.map2 (· - ·) a b0)
  | .arr a, .arr b => do return .arr (← ND.map2 (· - ·) a b)

/-- `IntervalArithmetic.negative`, interval_arithmetic.py:157-163. -/
def negative [Neg K] : Coef K → Coef K
  | .ivl a0 a1 => .ivl (a1.map (- ·)) (a0.map (- ·))
  | .arr a => .arr (a.map (- ·))

/-- `a if a_is_interval else (a,)`, interval_arithmetic.py:80-81. -/
def endpoints : Coef K → List (ND K)
  | .ivl a0 a1 => [a0, a1]
  | .arr a => [a]

/-- `functools.reduce(f, l)` for a non-empty list; Python raises `TypeError` on the empty one. -/
def reduce (f : ND K → ND K → Py (ND K)) : List (ND K) → Py (ND K)
  | [] => .error .typeError
  | x :: l => l.foldlM f x

/-- `positive_and_negative_parts(x)[0] = np_like.maximum(0, x)`, interval_arithmetic.py:96-97
(broadcasting against the Python number 0 is the unary map). -/
def posPart [Zero K] [LinearOrder K] (x : ND K) : ND K := x.map (max 0)
/-- `positive_and_negative_parts(x)[1] = np_like.minimum(0, x)`, interval_arithmetic.py:96-97. -/
def negPart [Zero K] [LinearOrder K] (x : ND K) : ND K := x.map (min 0)

/-- `IntervalArithmetic.arbitrary_bilinear` with `assume_product=True`,
interval_arithmetic.py:73-88. -/
def bilinearProduct [LinearOrder K] (a b : Coef K) (op : ND K → ND K → Py (ND K)) : Py (Coef K) := do
  let ps ← ((endpoints a).flatMap fun x => (endpoints b).map fun y => (x, y)).mapM
    fun p => op p.1 p.2
  return .ivl (← reduce (ND.map2 min) ps) (← reduce (ND.map2 max) ps)

/-- `IntervalArithmetic.arbitrary_bilinear` with `assume_product=False`,
interval_arithmetic.py:89-134. -/
def bilinearGeneral [Add K] [Zero K] [LinearOrder K] (a b : Coef K) (op : ND K → ND K → Py (ND K)) : Py (Coef K) :=
  match a, b with
  | .arr a, .arr b => do return .arr (← op a b)
  | .ivl a0 a1, .arr b => do
    let minVals ← ND.map2 (· + ·) (← op a0 (posPart b)) (← op a1 (negPart b))
    let maxVals ← ND.map2 (· + ·) (← op a1 (posPart b)) (← op a0 (negPart b))
    return .ivl minVals maxVals
  | .arr a, .ivl b0 b1 => do
    let minVals ← ND.map2 (· + ·) (← op (posPart a) b0) (← op (negPart a) b1)
    let maxVals ← ND.map2 (· + ·) (← op (posPart a) b1) (← op (negPart a) b0)
    return .ivl minVals maxVals
  | .ivl u v, .ivl w x => do
    let minPairs := [(posPart u, posPart w), (posPart v, negPart w),
                     (negPart u, posPart x), (negPart v, negPart x)]
    let minVals ← reduce (ND.map2 (· + ·)) (← minPairs.mapM fun p => op p.1 p.2)
    let maxPairs := [(posPart v, posPart x), (negPart v, posPart w),
                     (posPart u, negPart x), (negPart u, negPart w)]
    let maxVals ← reduce (ND.map2 (· + ·)) (← maxPairs.mapM fun p => op p.1 p.2)
    return .ivl minVals maxVals

/-- `IntervalArithmetic.arbitrary_bilinear`, interval_arithmetic.py:50-134. -/
def arbitraryBilinear [Add K] [Zero K] [LinearOrder K] (a b : Coef K) (op : ND K → ND K → Py (ND K))
    (assumeProduct : Bool := false) : Py (Coef K) :=
  match a, b with
  | .arr a, .arr b => do return .arr (← op a b)
  | a, b => if assumeProduct then bilinearProduct a b op else bilinearGeneral a b op

/-- `IntervalArithmetic.multiply`, interval_arithmetic.py:147-152. -/
def multiply [Add K] [Mul K] [Zero K] [LinearOrder K] (a b : Coef K) : Py (Coef K) :=
  arbitraryBilinear a b (ND.map2 (· * ·)) true

/-- `(1-contains_zero)*pow0` at one index, interval_arithmetic.py:231-235: `contains_zero` is the
0/1 value of `u < 0 and v > 0`. -/
def zeroedPow [Zero K] [One K] [Sub K] [Mul K] [Pow K ℤ] [LinearOrder K] (k : ℤ) (u v : K) : K := (1 - if u < 0 ∧ v > 0 then 1 else 0) * u ^ k

/-- `IntervalArithmetic.power`, interval_arithmetic.py:213-239, for an integer exponent (the type
annotation allows any float; only integers reach it from the modelled code).  For an array and a
negative exponent the model's `x⁻¹` of 0 is 0 where floats give `inf`. -/
def power [Zero K] [One K] [Sub K] [Mul K] [Pow K ℤ] [LinearOrder K] (a : Coef K) (k : ℤ) : Py (Coef K) :=
  match a with
  | .ivl a0 a1 =>
    if k < 0 then .error .notImplemented
    else if k = 0 then .ok (.arr a0.onesLike)
    else do
      let pow0 := a0.map (· ^ k)
      let pow1 := a1.map (· ^ k)
      let zeroed ← ND.map2 (zeroedPow k) a0 a1
      let minVals ← reduce (ND.map2 min) [pow0, pow1, zeroed]
      let maxVals ← ND.map2 max pow0 pow1
      return .ivl minVals maxVals
  | .arr a => .ok (.arr (a.map (· ^ k)))

variable [Zero K] [One K] [Add K] [Sub K] [Mul K] [Pow K ℤ] [LinearOrder K]

/-- `_ndarray_outer_product`, interval_arithmetic.py:306-337. -/
def ndarrayOuterProduct (batchDims : ℕ) (a b : ND K) : Py (ND K) :=
  if batchDims = 0 then ND.tensordot a b 0 else ND.einsumOuter a b batchDims

/-- `IntervalArithmetic.outer_product`, interval_arithmetic.py:202-211. -/
def outerProduct (a b : Coef K) (batchDims : ℕ := 0) : Py (Coef K) :=
  if batchDims > a.ndim ∨ batchDims > b.ndim then .error .valueError
  else arbitraryBilinear a b (ndarrayOuterProduct batchDims) true

/-- `_generalized_diag_ndarray`, interval_arithmetic.py:285-297. -/
def generalizedDiagNdarray (a : ND K) (n : ℤ) : Py (ND K) :=
  if n = 1 then .ok a
  else if n = 2 then
    if a.ndim = 1 then .ok a.diag else .error .notImplemented
  else .error .notImplemented

/-- `IntervalArithmetic._generalized_diag_interval`, interval_arithmetic.py:272-282. -/
def generalizedDiagInterval (a : Coef K) (n : ℤ) : Py (Coef K) :=
  match a with
  | .ivl a0 a1 => do return .ivl (← generalizedDiagNdarray a0 n) (← generalizedDiagNdarray a1 n)
  | .arr a => do return .arr (← generalizedDiagNdarray a n)

/-- The loop of `outer_power`, interval_arithmetic.py:180-183 (`m` iterations). -/
def runningOuterProduct (a : Coef K) (batchDims : ℕ) : ℕ → Py (Coef K)
  | 0 => .ok a
  | m + 1 => do outerProduct (← runningOuterProduct a batchDims m) a batchDims

/-- `a[0] if a_is_interval else a`, interval_arithmetic.py:190. -/
def firstEndpoint : Coef K → ND K
  | .ivl a0 _ => a0
  | .arr a => a

/-- `IntervalArithmetic.outer_power`, interval_arithmetic.py:165-200.  The `try ... except
NotImplementedError` of l.187-193 is the match on the error. -/
def outerPower (a : Coef K) (k : ℤ) (batchDims : ℕ := 0) : Py (Coef K) :=
  if k < 0 then .error .valueError
  else if k = 0 then .ok (.arr (ND.scalar 1))
  else if a.ndim = 0 then power a k
  else do
    let rop ← runningOuterProduct a batchDims (k.toNat - 1)
    if batchDims ≠ 0 then return rop
    else match generalizedDiagNdarray (firstEndpoint a).onesLike k with
      | .error .notImplemented => return rop
      | .error e => .error e
      | .ok eye => do
        let diagonalElements ← power a k
        let diag ← generalizedDiagInterval diagonalElements k
        add (← multiply rop (.arr (eye.map (1 - ·)))) diag

/-- `IntervalArithmetic.tensordot`, interval_arithmetic.py:263-270, with integer `axes`. -/
def tensordot (a b : Coef K) (axes : ℕ) : Py (Coef K) :=
  arbitraryBilinear a b (fun x y => ND.tensordot x y axes) (axes == 0)

end IA
end AB
