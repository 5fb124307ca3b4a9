/-
Model of /repo/autobound/enclosure_arithmetic.py, function by function.
A `TaylorEnclosure` (/repo/autobound/types.py:16-46) is the list of its coefficients.
`as_taylor_enclosure` (enclosure_arithmetic.py:366-370) converts numbers to arrays and is the
identity on the model's values.
-/
import Verif.Model.Polynomials

namespace AB
variable {K : Type} [Zero K] [One K] [Add K] [Sub K] [Mul K] [Pow K ℤ] [Neg K] [NatCast K] [LinearOrder K]

/-- `TaylorEnclosure` / `ElementwiseTaylorEnclosure`, types.py:16-64. -/
abbrev Encl (K : Type) := List (Coef K)

/-- `enclose_enclosure`, enclosure_arithmetic.py:373-389 (`max_degree ≥ 0`; the code does not
check this, `taylor_bounds` does, jax_bound.py). `orig_degree <= max_degree` is
`len(enclosure) <= max_degree + 1`. -/
def encloseEnclosure (enclosure : Encl K) (trustRegion : Coef K) (maxDegree : ℕ) : Py (Encl K) :=
  if enclosure.length ≤ maxDegree + 1 then .ok enclosure
  else do
    let c ← Poly.evalTaylorEnclosure (enclosure.drop maxDegree) trustRegion
    return enclosure.take maxDegree ++ [c]

/-- `map_over_enclosure`, enclosure_arithmetic.py:400-405. -/
def mapOverEnclosure (a : Encl K) (f : ND K → Py (ND K)) : Py (Encl K) :=
  a.mapM fun c => match c with
    | .ivl lo hi => do return .ivl (← f lo) (← f hi)
    | .arr x => do return .arr (← f x)

/-- `_elementwise_term_power_coefficient`, enclosure_arithmetic.py:408-432. -/
def elementwiseTermPowerCoefficient (xNdim : ℕ) (c : Coef K) (i exponent : ℕ) : Py (Coef K) :=
  if c.ndim < i * xNdim then .error .valueError
  else IA.outerPower c exponent (c.ndim - i * xNdim)

/-- `_pairwise_batched_multiply`, enclosure_arithmetic.py:449-475. -/
def pairwiseBatchedMultiply (u v : ND K) (p q : ℕ) : Py (ND K) :=
  ND.map2 (· * ·) (u.expandDims q u.ndim) (v.expandDims p (v.ndim - q))

/-- `_elementwise_term_product_coefficient`, enclosure_arithmetic.py:435-446. -/
def elementwiseTermProductCoefficient (xNdim : ℕ) (c0 c1 : Coef K) (i j : ℕ) : Py (Coef K) :=
  IA.arbitraryBilinear c0 c1 (fun u v => pairwiseBatchedMultiply u v (i * xNdim) (j * xNdim)) true

/-- `_left_broadcasting_multiply`, enclosure_arithmetic.py:478-485. -/
def leftBroadcastingMultiply (a b : ND K) : Py (ND K) :=
  if a.ndim > b.ndim then .error .notImplemented
  else ND.map2 (· * ·) (a.expandDims (b.ndim - a.ndim) a.ndim) b

/-- The state of a `TaylorEnclosureArithmetic` object, enclosure_arithmetic.py:57-77.  `max_degree`
is a natural number (a negative `max_degree` is rejected by `taylor_bounds`). -/
structure TEA (K : Type) where
  maxDegree : ℕ
  trLo : ND K
  trHi : ND K

namespace TEA

/-- `TaylorEnclosureArithmetic.__init__`, enclosure_arithmetic.py:57-77. -/
def init (maxDegree : ℕ) (trLo trHi : ND K) : Py (TEA K) :=
  if trLo.shape ≠ trHi.shape then .error .valueError else .ok ⟨maxDegree, trLo, trHi⟩

variable (t : TEA K)

/-- `self.trust_region`. -/
def trustRegion : Coef K := .ivl t.trLo t.trHi
/-- `np_like.ndim(self.trust_region[0])`. -/
def xNdim : ℕ := t.trLo.ndim
/-- `set_arithmetic.shape(self.trust_region)`. -/
def xShape : List ℕ := t.trLo.shape

/-- `_truncate_if_necessary`, enclosure_arithmetic.py:354-356. -/
def truncateIfNecessary (a : Encl K) : Py (Encl K) := encloseEnclosure a t.trustRegion t.maxDegree

/-- `i*x_shape` for tuples. -/
def rep (i : ℕ) (S : List ℕ) : List ℕ := (List.replicate i S).flatten

/-- The check `s[len(s)-i*len(x_shape):] != i*x_shape` of enclosure_arithmetic.py:362.  When
`i*len(x_shape) > len(s)` Python's negative start index takes a (possibly shorter) suffix of `s`,
which is never as long as `i*x_shape`, so the check fails; `drop` with truncated subtraction gives
all of `s`, which is not as long either. -/
def coeffShapeOk (xShape : List ℕ) (i : ℕ) (c : Coef K) : Bool :=
  c.shape.drop (c.ndim - i * xShape.length) == rep i xShape

/-- `_validate_taylor_enclosure`, enclosure_arithmetic.py:358-363. -/
def validate (a : Encl K) : Py Unit :=
  if (Poly.enum a).all fun p => coeffShapeOk t.xShape p.1 p.2 then .ok () else .error .valueError

/-- `get_coefficient(i)` of `add`, enclosure_arithmetic.py:86-92, over all `i` in
`range(max(len(a), len(b)))`. -/
def addCoeffs : Encl K → Encl K → Py (Encl K)
  | a :: as, b :: bs => do return (← IA.add a b) :: (← addCoeffs as bs)
  | as, [] => .ok as
  | [], bs => .ok bs

/-- `TaylorEnclosureArithmetic.add`, enclosure_arithmetic.py:79-95. -/
def add (a b : Encl K) : Py (Encl K) := do t.truncateIfNecessary (← addCoeffs a b)

/-- `TaylorEnclosureArithmetic.negative`, enclosure_arithmetic.py:316-318. -/
def negative (a : Encl K) : Py (Encl K) := t.truncateIfNecessary (a.map IA.negative)

/-- `TaylorEnclosureArithmetic.subtract`, enclosure_arithmetic.py:349-352. -/
def subtract (a b : Encl K) : Py (Encl K) := do t.add a (← t.negative b)

/-- `TaylorEnclosureArithmetic.multiply`, enclosure_arithmetic.py:297-314. -/
def multiply (a b : Encl K) : Py (Encl K) := do
  t.validate a
  t.validate b
  let product ← Poly.arbitraryBilinear a b IA.add (.arr (ND.scalar 0))
    (elementwiseTermProductCoefficient t.xNdim)
  t.truncateIfNecessary product

/-- `TaylorEnclosureArithmetic.power` for an integer `p ≥ 0`, enclosure_arithmetic.py:322-343.
(`p` must be a Python `int`: for an integer-valued float `p > 0`, `range(1 + output_degree)` in
polynomials.py:224 raises `TypeError`.) -/
def powerNat (a : Encl K) (p : ℕ) : Py (Encl K) := do
  t.validate a
  match a with
  | [] => .error .indexError
  | a0 :: _ =>
    let one := (IA.firstEndpoint a0).onesLike
    let result ← Poly.integerPower IA.add (.arr one) (elementwiseTermProductCoefficient t.xNdim)
      (elementwiseTermPowerCoefficient t.xNdim)
      (fun n c => IA.multiply (.arr (ND.scalar (n : K))) c) (.arr (ND.scalar 0)) a p
    t.truncateIfNecessary result

/-- `get_term_enclosure_coefficient(i, j)` of `arbitrary_bilinear`,
enclosure_arithmetic.py:158-203. -/
def termEnclosureCoefficient (pbb : ND K → ND K → ℕ → ℕ → Py (ND K)) (ai bj : Coef K) (i j : ℕ) :
    Py (Coef K) := do
  if i + j ≤ t.maxDegree then
    IA.arbitraryBilinear ai bj fun y z => pbb y z (i * t.xNdim) (j * t.xNdim)
  else
    let excess := i + j - t.maxDegree
    let excessI := min i excess
    let excessJ := excess - excessI
    if (i - excessI) + (j - excessJ) ≠ t.maxDegree then .error .assertion
    else
      let c0 ← IA.tensordot ai (← IA.outerPower t.trustRegion excessI) (excessI * t.xNdim)
      let c1 ← if excessJ > 0 then do
          IA.tensordot bj (← IA.outerPower t.trustRegion excessJ) (excessJ * t.xNdim)
        else .ok bj
      IA.arbitraryBilinear c0 c1 fun y z =>
        pbb y z ((i - excessI) * t.xNdim) ((j - excessJ) * t.xNdim)

/-- One execution of the loop body of `arbitrary_bilinear`, enclosure_arithmetic.py:208-217. -/
def bilinearStep (pbb : ND K → ND K → ℕ → ℕ → Py (ND K))
    (output : Encl K) (x : (ℕ × Coef K) × (ℕ × Coef K)) : Py (Encl K) := do
  let c ← t.termEnclosureCoefficient pbb x.1.2 x.2.2 x.1.1 x.2.1
  let d := min (x.1.1 + x.2.1) t.maxDegree
  match output[d]? with
  | none => .error .indexError
  | some o => return output.set d (← IA.add o c)

/-- `TaylorEnclosureArithmetic.arbitrary_bilinear`, enclosure_arithmetic.py:97-219. (`output_degree
+ 1 = min(max_degree, len(a)+len(b)-2) + 1`, as a truncated natural number.) -/
def arbitraryBilinear (a b : Encl K) (pbb : ND K → ND K → ℕ → ℕ → Py (ND K)) : Py (Encl K) :=
  ((Poly.enum a).flatMap fun x => (Poly.enum b).map fun y => (x, y)).foldlM (t.bilinearStep pbb)
    (List.replicate (min (t.maxDegree + 1) (a.length + b.length - 1)) (.arr (ND.scalar 0)))

/-- The `term` of `compose_enclosures` for power `p`, enclosure_arithmetic.py:239-254. -/
def composeTerm (argDiff : Encl K) (p : ℕ) (coefficient : Coef K) : Py (Encl K) := do
  if p = 0 then return [coefficient]
  else
    let poly ← t.powerNat argDiff p
    (Poly.enum poly).mapM fun it =>
      if it.1 < p then .ok (.arr (ND.scalar 0))
      else IA.arbitraryBilinear coefficient it.2 leftBroadcastingMultiply true

/-- One iteration of the loop of `compose_enclosures`, enclosure_arithmetic.py:238-255. -/
def composeStep (argDiff : Encl K) (output : Encl K) (pc : ℕ × Coef K) : Py (Encl K) := do
  t.add output (← t.composeTerm argDiff pc.1 pc.2)

/-- `TaylorEnclosureArithmetic.compose_enclosures`, enclosure_arithmetic.py:221-257. -/
def composeEnclosures (e arg : Encl K) : Py (Encl K) :=
  if e.isEmpty then .error .valueError
  else (Poly.enum e).foldlM (t.composeStep (.arr (ND.scalar 0) :: arg.drop 1)) [.arr (ND.scalar 0)]

/-- An element-wise enclosure generator: `(x0, trust_region, degree) ↦ enclosure`. -/
abbrev Generator (K : Type) := ND K → ND K × ND K → ℕ → Py (Encl K)

/-- `arg_trust_region = (arg_trust_region, arg_trust_region)` unless it is already an interval,
enclosure_arithmetic.py:282-283. -/
def toInterval : Coef K → ND K × ND K
  | .ivl lo hi => (lo, hi)
  | .arr a => (a, a)

/-- The expansion point, enclosure_arithmetic.py:284-288: `assert self.max_degree == 0` when
`arg_enclosure[0]` is an interval. -/
def expansionPoint (arg0 : Coef K) : Py (ND K) :=
  match arg0 with
  | .arr a => .ok a
  | .ivl lo _ => if t.maxDegree = 0 then .ok lo else .error .assertion

/-- The argument trust region, enclosure_arithmetic.py:275-281: the supplied one, or the degree-0
enclosure of the argument over the trust region. -/
def argRegion (arg : Encl K) : Option (Coef K) → Py (Coef K)
  | some r => .ok r
  | none => do
    match (← encloseEnclosure arg t.trustRegion 0) with
    | [] => .error .indexError
    | c :: _ => .ok c

/-- `TaylorEnclosureArithmetic.get_elementwise_fun`, enclosure_arithmetic.py:264-295. -/
def elementwiseFun (gen : Generator K) (arg : Encl K) (argTrustRegion : Option (Coef K) := none) :
    Py (Encl K) := do
  let tr ← t.argRegion arg argTrustRegion
  match arg with
  | [] => .error .indexError
  | arg0 :: _ =>
    let x0 ← t.expansionPoint arg0
    let e ← gen x0 (toInterval tr) t.maxDegree
    t.composeEnclosures e arg

/-- `TaylorEnclosureArithmetic.power` for any other exponent, enclosure_arithmetic.py:344-347;
`powGen` is `functools.partial(primitive_enclosures.pow_enclosure, p)`. -/
def powerOther (powGen : Generator K) (a : Encl K) : Py (Encl K) := do
  t.validate a
  t.elementwiseFun powGen a

/-- `TaylorEnclosureArithmetic.divide`, enclosure_arithmetic.py:259-262; `recipGen` is
`functools.partial(primitive_enclosures.pow_enclosure, -1)`. -/
def divide (recipGen : Generator K) (a b : Encl K) : Py (Encl K) := do
  t.multiply a (← t.powerOther recipGen b)

end TEA
end AB
