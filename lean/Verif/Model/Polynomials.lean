/-
Model of /repo/autobound/polynomials.py, function by function.
The generic type `Foo` of the code is a type variable; every callable argument may raise, so it
returns in `Py`.
-/
import Verif.Model.Interval
import Mathlib.Data.Nat.Choose.Basic

namespace AB
namespace Poly

/-- One step of the loop of `eval_polynomial`, polynomials.py:39-43: state `(i, running_sum)`. -/
def evalStep {F : Type} (z : F) (innerProduct : F → F → Py F) (outerPower : F → ℤ → Py F)
    (add : F → F → Py F) (one : F) (st : ℕ × F) (coefficient : F) : Py (ℕ × F) := do
  let zi ← if st.1 > 0 then outerPower z st.1 else .ok one
  let term ← innerProduct coefficient zi
  return (st.1 + 1, ← add st.2 term)

/-- `eval_polynomial`, polynomials.py:28-44. -/
def evalPolynomial {F : Type} (coefficients : List F) (z : F) (innerProduct : F → F → Py F)
    (outerPower : F → ℤ → Py F) (add : F → F → Py F) (zero one : F) : Py F := do
  return (← coefficients.foldlM (evalStep z innerProduct outerPower add one) (0, zero)).2

section
variable {K : Type} [Zero K] [One K] [Add K] [Sub K] [Mul K] [Pow K ℤ] [LinearOrder K]

/-- `eval_elementwise_taylor_enclosure`, polynomials.py:47-59. -/
def evalElementwiseTaylorEnclosure (enclosure : List (Coef K)) (xMinusX0 : Coef K) : Py (Coef K) :=
  evalPolynomial enclosure xMinusX0 IA.multiply IA.power IA.add
    (.arr (ND.scalar 0)) (.arr (ND.scalar 1))

/-- `eval_taylor_enclosure`, polynomials.py:62-76. -/
def evalTaylorEnclosure (enclosure : List (Coef K)) (xMinusX0 : Coef K) : Py (Coef K) :=
  evalPolynomial enclosure xMinusX0 (fun a b => IA.tensordot a b b.ndim)
    (fun a k => IA.outerPower a k) IA.add (.arr (ND.scalar 0)) (.arr (ND.scalar 1))
end

/-- One execution of the loop body of `arbitrary_bilinear`, polynomials.py:119-122. -/
def bilinearStep {F : Type} (add : F → F → Py F) (tpc : F → F → ℕ → ℕ → Py F)
    (output : List F) (t : (ℕ × F) × (ℕ × F)) : Py (List F) := do
  let c ← tpc t.1.2 t.2.2 t.1.1 t.2.1
  match output[t.1.1 + t.2.1]? with
  | none => .error .indexError
  | some o => return output.set (t.1.1 + t.2.1) (← add o c)

/-- `enumerate(a)`. -/
def enum {F : Type} (a : List F) : List (ℕ × F) := (List.range a.length).zip a

/-- `arbitrary_bilinear`, polynomials.py:79-123 (the nested loops are one loop over the pairs, in
the same order). -/
def arbitraryBilinear {F : Type} (a b : List F) (add : F → F → Py F) (zero : F)
    (tpc : F → F → ℕ → ℕ → Py F) : Py (List F) :=
  ((enum a).flatMap fun x => (enum b).map fun y => (x, y)).foldlM (bilinearStep add tpc)
    (List.replicate (a.length + b.length - 1) zero)

/-- `_iter_partitions` on arguments that pass its checks, polynomials.py:227-242, as the list of
yielded tuples in order; `k` is the length. -/
def iterPartitionsNat : ℕ → ℕ → ℕ → List (List ℕ)
  | _, _, 0 => []
  | n, m, 1 => if n = 0 then [[m]] else []
  | n, m, k + 2 => (List.range (min (m + 1) (n / (k + 1) + 1))).flatMap fun z =>
      (iterPartitionsNat (n - (k + 1) * z) (m - z) (k + 1)).map fun p => p ++ [z]

/-- `_iter_partitions`, polynomials.py:227-242.  (The checks of the recursive calls never fire:
`z ≤ m` and `(k-1)*z ≤ n`.) -/
def iterPartitions (n m k : ℤ) : Py (List (List ℕ)) :=
  if n < 0 then .error .valueError
  else if m < 0 then .error .valueError
  else if k ≤ 0 then .error .valueError
  else .ok (iterPartitionsNat n.toNat m.toNat k.toNat)

/-- `_multinomial_coefficient`, polynomials.py:245-252. -/
def multinomialCoefficient : List ℕ → Py ℕ
  | [] => .error .valueError
  | [_] => .ok 1
  | k :: ks => do return Nat.choose (k :: ks).sum k * (← multinomialCoefficient ks)

section
variable {F : Type} (add : F → F → Py F) (one : F) (tpc : F → F → ℕ → ℕ → Py F)
  (tpow : F → ℕ → ℕ → Py F) (smul : ℕ → F → Py F)

/-- One step of the inner loop of `get_coeff`, polynomials.py:212-219; state
`(running_product, running_product_power)`, element `((j, p_j), a[j])`. -/
def productStep (st : F × ℕ) (t : (ℕ × F) × ℕ) : Py (F × ℕ) := do
  let c ← tpow t.1.2 t.1.1 t.2
  return (← tpc st.1 c st.2 (t.1.1 * t.2), st.2 + t.1.1 * t.2)

/-- The loop over one partition `p`, polynomials.py:210-219 (`p` has length `len(a)`, so pairing
`a[j]` with `p[j]` is `zip`). -/
def partitionProduct (a : List F) (p : List ℕ) : Py (F × ℕ) :=
  ((enum a).zip p).foldlM (productStep tpc tpow) (one, 0)

/-- One iteration of the outer loop of `get_coeff`, polynomials.py:207-222, with its assertions. -/
def coeffStep (a : List F) (i exponent : ℕ) (c : F) (p : List ℕ) : Py F := do
  if p.sum ≠ exponent then .error .assertion
  else if (((List.range p.length).zip p).map fun t => t.1 * t.2).sum ≠ i then .error .assertion
  else do
    let rp ← partitionProduct one tpc tpow a p
    if rp.2 ≠ i then .error .assertion
    else do
      let term ← smul (← multinomialCoefficient p) rp.1
      add c term

/-- `get_coeff(i)` of `integer_power`, polynomials.py:205-223. -/
def getCoeff (zero : F) (a : List F) (exponent i : ℕ) : Py F := do
  (← iterPartitions i exponent a.length).foldlM (coeffStep add one tpc tpow smul a i exponent) zero

/-- `integer_power`, polynomials.py:126-224. -/
def integerPower (zero : F) (a : List F) (exponent : ℤ) : Py (List F) :=
  if exponent < 0 then .error .valueError
  else if exponent = 0 then .ok [one]
  else (List.range (1 + ((a.length : ℤ) - 1) * exponent).toNat).mapM
    (getCoeff add one tpc tpow smul zero a exponent.toNat)
end

end Poly
end AB
