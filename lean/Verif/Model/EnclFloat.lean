/-
Interval arithmetic and Taylor-enclosure arithmetic with IEEE infinities and NaN, for arrays of rank 0 (a scalar input `x`
and scalar values): /repo/autobound/interval_arithmetic.py, polynomials.py and enclosure_arithmetic.py again, now over
`Flt K` (`Model/PowFloat.lean`: finite arithmetic is exact, there is one zero).  `Model/Interval.lean` and
`Model/Enclosure.lean` model the same code for arrays of any shape where all numbers are finite.
-/
import Verif.Model.PowFloat
import Verif.Model.Polynomials

namespace AB

/-- A coefficient: a rank-0 array or an interval of rank-0 arrays. -/
inductive FC (K : Type) where
  | pt (x : Flt K)
  | iv (lo hi : Flt K)

namespace Flt
variable {K : Type} [Field K] [LinearOrder K]

/-- `x < y` (false for NaN) -/
def lt : Flt K → Flt K → Bool
  | nan, _ => false
  | _, nan => false
  | fin x, fin y => decide (x < y)
  | ninf, ninf => false
  | ninf, _ => true
  | _, ninf => false
  | pinf, _ => false
  | fin _, pinf => true

/-- `x ** k` for an integer `k ≥ 0` (`nan ** 0` is 1) -/
def npow (x : Flt K) (k : ℕ) : Flt K :=
  if k = 0 then fin 1 else
  match x with
  | fin x => fin (x ^ k)
  | pinf => pinf
  | ninf => if k % 2 = 0 then pinf else ninf
  | nan => nan

/-- `functools.reduce(f, xs)` -/
def reduce (f : Flt K → Flt K → Flt K) : List (Flt K) → Flt K
  | [] => nan
  | x :: xs => xs.foldl f x

end Flt

namespace FC
open Flt
variable {K : Type} [Field K] [LinearOrder K]

/-- `a if a_is_interval else (a,)`, interval_arithmetic.py:79-80. -/
def ends : FC K → List (Flt K)
  | pt x => [x]
  | iv lo hi => [lo, hi]

/-- `IntervalArithmetic.add`, interval_arithmetic.py:35-48. -/
def add : FC K → FC K → FC K
  | iv a0 a1, iv b0 b1 => iv (a0.add b0) (a1.add b1)
  | iv a0 a1, pt b => iv (a0.add b) (a1.add b)
  | pt a, iv b0 b1 => iv (a.add b0) (a.add b1)
  | pt a, pt b => pt (a.add b)

/-- `IntervalArithmetic.negative`, interval_arithmetic.py:157-163. -/
def negative : FC K → FC K
  | iv a0 a1 => iv a1.neg a0.neg
  | pt a => pt a.neg

/-- `IntervalArithmetic.subtract`, interval_arithmetic.py:246-261. -/
def subtract : FC K → FC K → FC K
  | iv a0 a1, iv b0 b1 => iv (a0.sub b1) (a1.sub b0)
  | iv a0 a1, pt b => iv (a0.sub b) (a1.sub b)
  | pt a, iv b0 b1 => iv (a.sub b1) (a.sub b0)
  | pt a, pt b => pt (a.sub b)

/-- `endpoint_products`, interval_arithmetic.py:78-85. -/
def products (a b : FC K) : List (Flt K) := a.ends.flatMap fun x => b.ends.map fun y => x.mul y

/-- `IntervalArithmetic.multiply` (`arbitrary_bilinear` of a product with `assume_product=True`),
interval_arithmetic.py:72-89, 147-152; also `_elementwise_term_product_coefficient` and
`interval_left_broadcasting_multiply` for rank-0 arrays, enclosure_arithmetic.py:232-236, 435-446. -/
def multiply : FC K → FC K → FC K
  | pt a, pt b => pt (a.mul b)
  | a, b => iv (reduce minimum (products a b)) (reduce maximum (products a b))

/-- `positive_and_negative_parts`, interval_arithmetic.py:96-97. -/
def posPart (x : Flt K) : Flt K := (fin 0).maximum x
@[inherit_doc posPart]
def negPart (x : Flt K) : Flt K := (fin 0).minimum x

/-- `np_like.tensordot(u, v, 1)` of two rank-1 arrays: the products are added in order. -/
def dotF (u v : List (Flt K)) : Flt K := (List.zipWith Flt.mul u v).foldl Flt.add (fin 0)

/-- `IntervalArithmetic.tensordot((lo, hi), z, 1)` of an interval of rank-1 arrays and a rank-1 array, which is
`arbitrary_bilinear` with `assume_product=False`, interval_arithmetic.py:96-106, 263-270.  Evaluating a Taylor enclosure
uses it when `x` is a vector (for the degree-1 coefficient; `z` is `x - x0`). -/
def dot (lo hi z : List (Flt K)) : Flt K × Flt K :=
  ((dotF lo (z.map posPart)).add (dotF hi (z.map negPart)), (dotF hi (z.map posPart)).add (dotF lo (z.map negPart)))

/-- `IntervalArithmetic.power` with an integer exponent ≥ 0, interval_arithmetic.py:213-239. -/
def power (a : FC K) (k : ℕ) : FC K :=
  match a with
  | pt a => pt (a.npow k)
  | iv a0 a1 =>
    if k = 0 then pt (fin 1)
    else
      let containsZero := a0.lt (fin 0) && (fin 0).lt a1
      iv (reduce minimum [a0.npow k, a1.npow k, (fin (if containsZero then 0 else 1)).mul (a0.npow k)])
        ((a0.npow k).maximum (a1.npow k))

/-- `IntervalArithmetic.outer_power` for rank-0 arrays, interval_arithmetic.py:165-177. -/
def outerPower (a : FC K) (k : ℤ) : Py (FC K) :=
  if k < 0 then .error .valueError
  else if k = 0 then .ok (pt (fin 1))
  else .ok (a.power k.toNat)

/-- `eval_taylor_enclosure`, polynomials.py:62-76: `tensordot` over 0 axes is `arbitrary_bilinear` with
`assume_product=True`, interval_arithmetic.py:269-270, so it is `multiply`. -/
def evalTaylor (enclosure : List (FC K)) (xMinusX0 : FC K) : Py (FC K) :=
  Poly.evalPolynomial enclosure xMinusX0 (fun a b => .ok (multiply a b)) outerPower (fun a b => .ok (add a b))
    (pt (fin 0)) (pt (fin 1))

/-- `TaylorBounds.lower` (`upper`) at a finite `x`, jax_bound.py:42-58: an end point of the enclosure evaluated at
`x - x0`. -/
def lowerAt (coefficients : List (FC K)) (x0 x : K) : Py (Flt K) := do
  match (← evalTaylor coefficients (pt (fin (x - x0)))) with
  | iv lo _ => return lo
  | pt y => return y
@[inherit_doc lowerAt]
def upperAt (coefficients : List (FC K)) (x0 x : K) : Py (Flt K) := do
  match (← evalTaylor coefficients (pt (fin (x - x0)))) with
  | iv _ hi => return hi
  | pt y => return y

end FC

/-- The state of a `TaylorEnclosureArithmetic` object, enclosure_arithmetic.py:57-77, for a scalar `x`. -/
structure FT (K : Type) where
  maxDegree : ℕ
  trLo : Flt K
  trHi : Flt K

namespace FT
open Flt FC
variable {K : Type} [Field K] [LinearOrder K] (t : FT K)

/-- `enclose_enclosure`, enclosure_arithmetic.py:373-389. -/
def enclose (a : List (FC K)) (maxDegree : ℕ) : Py (List (FC K)) :=
  if a.length ≤ maxDegree + 1 then .ok a
  else do
    let c ← evalTaylor (a.drop maxDegree) (iv t.trLo t.trHi)
    return a.take maxDegree ++ [c]

/-- `get_coefficient(i)` of `add` for all `i`, enclosure_arithmetic.py:86-92. -/
def addCoeffs : List (FC K) → List (FC K) → List (FC K)
  | a :: as, b :: bs => a.add b :: addCoeffs as bs
  | as, [] => as
  | [], bs => bs

/-- `TaylorEnclosureArithmetic.add`, enclosure_arithmetic.py:79-95. -/
def add (a b : List (FC K)) : Py (List (FC K)) := t.enclose (addCoeffs a b) t.maxDegree

/-- `TaylorEnclosureArithmetic.negative`, enclosure_arithmetic.py:316-318. -/
def negative (a : List (FC K)) : Py (List (FC K)) := t.enclose (a.map FC.negative) t.maxDegree

/-- `TaylorEnclosureArithmetic.subtract`, enclosure_arithmetic.py:349-352. -/
def subtract (a b : List (FC K)) : Py (List (FC K)) := do t.add a (← t.negative b)

/-- `TaylorEnclosureArithmetic.multiply`, enclosure_arithmetic.py:297-314 (the validation passes for rank-0 arrays). -/
def multiply (a b : List (FC K)) : Py (List (FC K)) := do
  t.enclose (← Poly.arbitraryBilinear a b (fun x y => .ok (x.add y)) (pt (fin 0)) fun x y _ _ => .ok (x.multiply y))
    t.maxDegree

/-- `TaylorEnclosureArithmetic.power` for an integer `p ≥ 0`, enclosure_arithmetic.py:322-343. -/
def powerNat (a : List (FC K)) (p : ℕ) : Py (List (FC K)) :=
  match a with
  | [] => .error .indexError
  | _ :: _ => do
    t.enclose (← Poly.integerPower (fun x y => .ok (x.add y)) (pt (fin 1)) (fun x y _ _ => .ok (x.multiply y))
      (fun c _ k => c.outerPower k) (fun n c => .ok ((pt (fin (n : K))).multiply c)) (pt (fin 0)) a p) t.maxDegree

/-- The `term` of `compose_enclosures` for power `p`, enclosure_arithmetic.py:239-254. -/
def composeTerm (argDiff : List (FC K)) (p : ℕ) (c : FC K) : Py (List (FC K)) := do
  if p = 0 then return [c]
  else
    let poly ← t.powerNat argDiff p
    return (Poly.enum poly).map fun it => if it.1 < p then pt (fin 0) else c.multiply it.2

/-- One iteration of the loop of `compose_enclosures`, enclosure_arithmetic.py:238-255. -/
def composeStep (argDiff output : List (FC K)) (pc : ℕ × FC K) : Py (List (FC K)) := do
  t.add output (← t.composeTerm argDiff pc.1 pc.2)

/-- `TaylorEnclosureArithmetic.compose_enclosures`, enclosure_arithmetic.py:221-257. -/
def compose (e arg : List (FC K)) : Py (List (FC K)) :=
  if e.isEmpty then .error .valueError
  else (Poly.enum e).foldlM (t.composeStep (pt (fin 0) :: arg.drop 1)) [pt (fin 0)]

/-- The expansion point, enclosure_arithmetic.py:284-288. -/
def expansionPoint : FC K → Py (Flt K)
  | pt x => .ok x
  | iv lo _ => if t.maxDegree = 0 then .ok lo else .error .assertion

/-- The argument's trust region as an interval, enclosure_arithmetic.py:275-283, when none is supplied. -/
def argRegion (arg : List (FC K)) : Py (Flt K × Flt K) := do
  match (← t.enclose arg 0) with
  | [] => .error .indexError
  | pt x :: _ => .ok (x, x)
  | iv lo hi :: _ => .ok (lo, hi)

/-- `get_elementwise_fun`, enclosure_arithmetic.py:264-295. -/
def elementwiseFun (gen : Flt K → Flt K × Flt K → ℕ → Py (List (FC K))) (arg : List (FC K)) : Py (List (FC K)) := do
  let r ← t.argRegion arg
  match arg with
  | [] => .error .indexError
  | c :: _ =>
    let x0 ← t.expansionPoint c
    let e ← gen x0 r t.maxDegree
    t.compose e arg

end FT

namespace PE
variable {K : Type} [Field K] [LinearOrder K]

/-- `pow_enclosure` as a generator, for finite `x0` and trust region (primitive_enclosures.py:111-185); what it does for
an infinite or NaN expansion point or region is not modelled (`other`). -/
def powGenF (rp : K → K → K) (p : Expo K) (other : Flt K → Flt K × Flt K → ℕ → Py (List (FC K)))
    (x0 : Flt K) (r : Flt K × Flt K) (k : ℕ) : Py (List (FC K)) :=
  match x0, r with
  | .fin x, (.fin a, .fin b) => do
    let s ← powEnclosureF rp p x a b k
    return s.1.map FC.pt ++ [FC.iv s.2.1 s.2.2]
  | x0, r => other x0 r k

end PE
end AB
