/-
Model of the numpy-like back end used by google/autobound (the `NumpyLike` protocol of
/repo/autobound/types.py) restricted to what the modelled code calls.

Numbers: a type `K` with the arithmetic operations and a linear order, no laws.  Most theorems take
`K` to be a linearly ordered field (exact arithmetic); C72, C75 and C83 take it to be a type with
rounded operations or with infinities and NaN.  dtypes are NOT modelled; the code itself documents
its results as "only correct up to floating point roundoff error"
(/repo/autobound/interval_arithmetic.py:29-30).
-/
import Mathlib.Algebra.Order.Field.Basic
import Mathlib.Algebra.BigOperators.Group.List.Basic

namespace AB

/-- The Python exceptions the modelled code can raise. -/
inductive PyErr where
  | valueError
  | notImplemented
  | typeError
  | indexError
  | assertion
  | keyError
  | attributeError
  | zeroDivision
  /-- not a Python exception: the real code returns a value outside the model here (an infinity or
  NaN); nothing is claimed about such calls -/
  | unmodelled
deriving DecidableEq, Repr

/-- The result of a Python call: a value or a raised exception. -/
abbrev Py (α : Type) := Except PyErr α

/-- An n-dimensional array (`NDArray`, /repo/autobound/types.py:92-200): a shape and a value for
every multi-index.  Only the values at indices valid for the shape are meaningful.
A Python number (`NDArrayLike`, types.py:79) is an array of shape `[]`, which is what
`np_like.asarray` turns it into. -/
structure ND (K : Type) where
  shape : List ℕ
  get : List ℕ → K

/-- All valid multi-indices of a shape, in row-major order. -/
def idx : List ℕ → List (List ℕ)
  | [] => [[]]
  | n :: S => (List.range n).flatMap fun i => (idx S).map (i :: ·)

/-- `I` is a valid multi-index of shape `S`. -/
def ValidIdx (S I : List ℕ) : Prop := List.Forall₂ (fun s i => i < s) S I

/-- numpy broadcasting, index side: read an array of shape `S` at an index `I` of a (longer or
equal) broadcast shape: align right, drop extra leading entries, size-1 axes are read at 0. -/
def bidx (S I : List ℕ) : List ℕ :=
  (List.zipWith (fun s i => if s = 1 then 0 else i) S.reverse I.reverse).reverse

/-- numpy broadcasting of one axis. -/
def bdim (s t : ℕ) : Option ℕ :=
  if s = t then some s else if s = 1 then some t else if t = 1 then some s else none

/-- numpy broadcasting of two shapes given in reversed order (innermost axis first). -/
def bshapeR : List ℕ → List ℕ → Option (List ℕ)
  | [], T => some T
  | S, [] => some S
  | s :: S, t :: T =>
    match bdim s t, bshapeR S T with
    | some d, some R => some (d :: R)
    | _, _ => none

/-- numpy broadcasting of two shapes (right aligned). -/
def bshape (S T : List ℕ) : Option (List ℕ) :=
  (bshapeR S.reverse T.reverse).map List.reverse

namespace ND
variable {K : Type}

/-- Number of axes (`np_like.ndim`). -/
def ndim (a : ND K) : ℕ := a.shape.length

/-- Value of `a`, broadcast, at index `I`. -/
def bget (a : ND K) (I : List ℕ) : K := a.get (bidx a.shape I)

/-- `np_like.asarray(c)` for a Python number `c`. -/
def scalar (c : K) : ND K := ⟨[], fun _ => c⟩

/-- A unary element-wise operation. -/
def map (f : K → K) (a : ND K) : ND K := ⟨a.shape, fun I => f (a.get I)⟩

/-- A binary element-wise operation with numpy broadcasting (`np_like.add`, `multiply`, `minimum`,
...); shapes that do not broadcast raise `ValueError`. -/
def map2 (f : K → K → K) (a b : ND K) : Py (ND K) :=
  match bshape a.shape b.shape with
  | none => .error .valueError
  | some R => .ok ⟨R, fun I => f (a.bget I) (b.bget I)⟩

/-- `np_like.ones_like(a)`. -/
def onesLike [One K] (a : ND K) : ND K := ⟨a.shape, fun _ => 1⟩

/-- `np_like.tensordot(a, b, n)` with an integer `axes = n`: contracts the last `n` axes of `a` with
the first `n` axes of `b`; mismatched axes raise `ValueError`, missing axes `IndexError`. -/
def tensordot [Add K] [Zero K] [Mul K] (a b : ND K) (n : ℕ) : Py (ND K) :=
  if n > a.ndim ∨ n > b.ndim then .error .indexError
  else if a.shape.drop (a.ndim - n) ≠ b.shape.take n then .error .valueError
  else .ok ⟨a.shape.take (a.ndim - n) ++ b.shape.drop n, fun L =>
    ((idx (b.shape.take n)).map fun J =>
      a.get (L.take (a.ndim - n) ++ J) * b.get (J ++ L.drop (a.ndim - n))).sum⟩

/-- `np_like.einsum` as called by `_ndarray_outer_product`
(/repo/autobound/interval_arithmetic.py:332-337): equation
`I J, I K -> I J K` with `batch_dims = d ≥ 1` labels in `I`.  Labels are single letters starting at
`'a'` (`_stringify`, interval_arithmetic.py:300-303), so needing more than 26 labels raises
`ValueError`.  Batch axes must be equal or 1 (numpy's rule for a repeated label). -/
def einsumOuter [Mul K] (a b : ND K) (d : ℕ) : Py (ND K) :=
  if a.ndim + (b.ndim - d) > 26 then .error .valueError
  else match bshape (a.shape.take d) (b.shape.take d) with
  | none => .error .valueError
  | some B => .ok ⟨B ++ a.shape.drop d ++ b.shape.drop d, fun L =>
      a.get (bidx (a.shape.take d) (L.take d) ++ (L.drop d).take (a.ndim - d)) *
      b.get (bidx (b.shape.take d) (L.take d) ++ L.drop a.ndim)⟩

/-- `np_like.diag(a)` for a vector `a`. -/
def diag [Zero K] (a : ND K) : ND K :=
  ⟨a.shape ++ a.shape, fun L => if L.take 1 = L.drop 1 then a.get (L.take 1) else 0⟩

/-- `expand_multiple_dims` (/repo/autobound/enclosure_arithmetic.py:392-397):
`a[(colon,)*axis + (None,)*n + (...,)]`.  `axis` is a natural number: the only caller that can
compute a negative axis is `v.ndim-q` (l.475), and Python's `(colon,) * negative` is `()`, i.e. axis
0, which is what truncated subtraction gives. -/
def expandDims (a : ND K) (n : ℕ) (axis : ℕ) : ND K :=
  ⟨a.shape.take axis ++ List.replicate n 1 ++ a.shape.drop axis,
   fun L => a.get (L.take axis ++ L.drop (axis + n))⟩

end ND

/-- `Union[NDArray, Interval]` (types.py:10): a plain array, or a Python pair `(lo, hi)`. -/
inductive Coef (K : Type) where
  | arr (a : ND K)
  | ivl (lo hi : ND K)

namespace Coef
variable {K : Type}

/-- `IntervalArithmetic.shape` (/repo/autobound/interval_arithmetic.py:241-244). -/
def shape : Coef K → List ℕ
  | arr a => a.shape
  | ivl lo _ => lo.shape

/-- `IntervalArithmetic.ndim` (/repo/autobound/interval_arithmetic.py:154-155). -/
def ndim (c : Coef K) : ℕ := c.shape.length

end Coef

end AB
