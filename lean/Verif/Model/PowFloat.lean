/-
`pow_enclosure` with infinities and NaN: /repo/autobound/primitive_enclosures.py:111-185, 203-241, 277-305 again, now
with IEEE special values, for all inputs.  (`Model/Primitive.lean` models it where all numbers are finite.)
Finite arithmetic is exact; there is one zero (the code's `0.0`; a negative zero is not modelled).
-/
import Verif.Model.Primitive

namespace AB

/-- A float: a number, an infinity or NaN. -/
inductive Flt (K : Type) where
  | fin (x : K)
  | pinf
  | ninf
  | nan

namespace Flt
variable {K : Type} [Field K] [LinearOrder K]

/-- `-x` -/
def neg : Flt K → Flt K
  | fin x => fin (-x)
  | pinf => ninf
  | ninf => pinf
  | nan => nan

/-- `x + y` -/
def add : Flt K → Flt K → Flt K
  | fin x, fin y => fin (x + y)
  | nan, _ => nan
  | _, nan => nan
  | pinf, ninf => nan
  | ninf, pinf => nan
  | pinf, _ => pinf
  | _, pinf => pinf
  | ninf, _ => ninf
  | _, ninf => ninf

/-- `x - y` -/
def sub (x y : Flt K) : Flt K := x.add y.neg

/-- an infinity (positive if `s`) times a number -/
def infMul (s : Bool) (y : K) : Flt K :=
  if y = 0 then nan else if (0 < y) = s then pinf else ninf

/-- `x * y` -/
def mul : Flt K → Flt K → Flt K
  | fin x, fin y => fin (x * y)
  | nan, _ => nan
  | _, nan => nan
  | pinf, fin y => infMul true y
  | ninf, fin y => infMul false y
  | fin x, pinf => infMul true x
  | fin x, ninf => infMul false x
  | pinf, pinf => pinf
  | ninf, ninf => pinf
  | pinf, ninf => ninf
  | ninf, pinf => ninf

/-- `x / y` for a number `y ≠ 0` (the code only divides by positive numbers here) -/
def div (x : Flt K) (y : K) : Flt K := x.mul (fin y⁻¹)

/-- `np_like.minimum` -/
def minimum : Flt K → Flt K → Flt K
  | nan, _ => nan
  | _, nan => nan
  | fin x, fin y => fin (min x y)
  | ninf, _ => ninf
  | _, ninf => ninf
  | pinf, y => y
  | x, pinf => x

/-- `np_like.maximum` -/
def maximum : Flt K → Flt K → Flt K
  | nan, _ => nan
  | _, nan => nan
  | fin x, fin y => fin (max x y)
  | pinf, _ => pinf
  | _, pinf => pinf
  | ninf, y => y
  | x, ninf => x

end Flt

namespace PE
open EF
variable {K : Type} [Field K] [LinearOrder K]

/-- `x ** (exponent - i)` in floats: 0 to a negative power is `inf`, a negative number to a non-integer power is
`nan`. -/
def powF (rp : K → K → K) (p : Expo K) (i : ℕ) (x : K) : Flt K :=
  match p with
  | .int n => if x = 0 ∧ n - i < 0 then .pinf else .fin (x ^ (n - i))
  | .frac q =>
    if x < 0 then .nan
    else if x = 0 then (if q - i < 0 then .pinf else if q - i = 0 then .fin 1 else .fin 0)
    else .fin (rp x (q - i))

/-- The loop computing `taylor_coefficients_at_x0`, primitive_enclosures.py:118-126. -/
def powCoeffsF (rp : K → K → K) (p : Expo K) (degree : ℕ) (x0 : K) : List (Flt K) :=
  (List.range (degree + 1)).map fun i =>
    ((Flt.fin (fallProd p.val i)).mul (powF rp p i x0)).div (i.factorial : K)

/-- `sum(c * (x - x0)**i for i, c in enumerate(coeffs))`, primitive_enclosures.py:296-297. -/
def sumF (coeffs : List (Flt K)) (z : K) : Flt K :=
  (Poly.enum coeffs).foldl (fun s ic => s.add (ic.2.mul (.fin (z ^ ic.1)))) (.fin 0)

/-- `taylor_remainder_ratio`, primitive_enclosures.py:277-305 (for `degree + 1` coefficients). -/
def ratioF (x0 : K) (degree : ℕ) (sigma : K → Flt K) (coeffs : List (Flt K)) (x : K) : Flt K :=
  let rk := (sigma x).sub (sumF coeffs (x - x0))
  let denom := (x - x0) ^ degree
  (coeffs.getD degree .nan).add ((rk.mul (.fin (sgn denom))).div (max (1 / 10 ^ 12) |denom|))

/-- The final interval of `sharp_enclosure_monotonic_derivative`, primitive_enclosures.py:203-241. -/
def sharpF (ra rb : Flt K) (increasing : Bool) : Flt K × Flt K := if increasing then (ra, rb) else (rb, ra)

/-- `pow_enclosure`, primitive_enclosures.py:111-185, for finite `x0`, `a`, `b`. -/
def powEnclosureF (rp : K → K → K) (p : Expo K) (x0 a b : K) (degree : ℕ) :
    Py (List (Flt K) × (Flt K × Flt K)) := do
  let coeffs := powCoeffsF rp p degree x0
  let ra := ratioF x0 degree (powF rp p 0) coeffs a
  let rb := ratioF x0 degree (powF rp p 0) coeffs b
  let encPos := sharpF ra rb (decide ((← powKthDerivSign 1 p (degree + 1)) ≥ 0))
  match p with
  | .frac _ => return (coeffs.take degree, if a ≥ 0 then encPos else (.ninf, .pinf))
  | .int n =>
    let encNeg := sharpF ra rb (decide ((← powKthDerivSign (-1) p (degree + 1)) ≥ 0))
    return (coeffs.take degree,
      if a ≥ 0 then encPos
      else if b ≤ 0 then encNeg
      else if n < 0 then (.ninf, .pinf)
      else (encPos.1.minimum encNeg.1, encPos.2.maximum encNeg.2))

end PE
end AB
