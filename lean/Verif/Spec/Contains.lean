/-
Specification vocabulary: what it means for an array to lie in an `Interval` or to be an array
(/repo/autobound/types.py:6-9: an interval (a, b) "represents the set of NDArrays {x: a <= x <= b},
where the inequalities are elementwise").
-/
import Verif.Model.ND

namespace AB
variable {K : Type} [LE K]

namespace Coef

/-- The admissible values of `c` at index `I`. -/
def AtIdx : Coef K → List ℕ → K → Prop
  | arr a, I, v => v = a.get I
  | ivl lo hi, I, v => lo.get I ≤ v ∧ v ≤ hi.get I

/-- `y` is an element of `c`: same shape, and element-wise admissible. -/
def Contains (c : Coef K) (y : ND K) : Prop :=
  y.shape = c.shape ∧ ∀ I, ValidIdx c.shape I → c.AtIdx I (y.get I)

/-- "An interval is represented as a pair (a, b) of NDArrays of the same shape" (types.py:6). -/
def SameShape : Coef K → Prop
  | arr _ => True
  | ivl lo hi => lo.shape = hi.shape

/-- `lo ≤ hi` element-wise. -/
def Ordered : Coef K → Prop
  | arr _ => True
  | ivl lo hi => ∀ I, ValidIdx lo.shape I → lo.get I ≤ hi.get I

/-- A well-formed array or interval. -/
def WellFormed (c : Coef K) : Prop := c.SameShape ∧ c.Ordered

/-- `c` is a plain array. -/
def IsArr : Coef K → Prop
  | arr _ => True
  | ivl _ _ => False

/-- `v` is one of the two endpoint values (the value, for an array) of `c` at index `I`. -/
def IsEndpoint {K : Type} : Coef K → List ℕ → K → Prop
  | arr a, I, v => v = a.get I
  | ivl lo hi, I, v => v = lo.get I ∨ v = hi.get I

/-- The lower endpoint (the array itself, for an array). -/
def lower {K : Type} : Coef K → ND K
  | arr a => a
  | ivl lo _ => lo

/-- The upper endpoint (the array itself, for an array). -/
def upper {K : Type} : Coef K → ND K
  | arr a => a
  | ivl _ hi => hi

/-- The degenerate interval `(x, x)`. -/
def degenerate {K : Type} (x : ND K) : Coef K := ivl x x

/-- Every element of `c` is an element of `d`. -/
def Inside (c d : Coef K) : Prop := ∀ y, c.Contains y → d.Contains y

end Coef

/-- Two arrays are equal as numpy arrays: same shape, same elements. -/
def ND.Same {K : Type} (a b : ND K) : Prop :=
  a.shape = b.shape ∧ ∀ I, ValidIdx a.shape I → a.get I = b.get I

end AB
