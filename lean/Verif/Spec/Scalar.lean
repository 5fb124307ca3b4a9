/-
Specification vocabulary for element-wise Taylor enclosures at one array element
(/repo/autobound/types.py:48-64) and for derivatives.
-/
import Verif.Model.Primitive
import Mathlib.Analysis.Calculus.Deriv.Basic

namespace AB
open PE

/-- `v` lies in the element-wise enclosure `s` (coefficients `s.1`, final interval `s.2`) evaluated
at `δ = x - x0`: `v = c_0 + c_1 δ + ... + c_{d-1} δ^{d-1} + r δ^d` for some `r` in the final interval. -/
def SEncl.Has {K : Type} [Field K] [LinearOrder K] (s : SEncl K) (δ v : K) : Prop :=
  ∃ r, s.2.1 ≤ r ∧ r ≤ s.2.2 ∧
    v = ∑ i ∈ Finset.range s.1.length, s.1.getD i 0 * δ ^ i + r * δ ^ s.1.length

/-- `s` encloses `f` over the trust region `[a, b]` in terms of `x - x0`. -/
def SEncl.EnclosesFun {K : Type} [Field K] [LinearOrder K] (s : SEncl K) (f : K → K)
    (x0 a b : K) : Prop :=
  ∀ x, a ≤ x → x ≤ b → SEncl.Has s (x - x0) (f x)

/-- `D 0, D 1, ..., D k` are `f` and its first `k` derivatives on `[a, b]` (one-sided at the end
points). -/
def IsDerivChain (D : ℕ → ℝ → ℝ) (k : ℕ) (a b : ℝ) : Prop :=
  ∀ i < k, ∀ x ∈ Set.Icc a b, HasDerivWithinAt (D i) (D (i + 1) x) (Set.Icc a b) x

/-- the Taylor coefficients `D_0(x0), D_1(x0), D_2(x0)/2, ...` up to degree `k` -/
noncomputable def taylorCoeffs (D : ℕ → ℝ → ℝ) (k : ℕ) (x0 : ℝ) : List ℝ :=
  (List.range (k + 1)).map fun i => D i x0 / (i.factorial : ℝ)

/-- The end point `e` is not affected by the cap `1e12` on `1/(e-x0)^k` in `taylor_remainder_ratio`
(primitive_enclosures.py:300-305). -/
def NotCapped {K : Type} [Field K] [LinearOrder K] (x0 : K) (k : ℕ) (e : K) : Prop :=
  e = x0 ∨ 1 / 10 ^ 12 ≤ |e - x0| ^ k

end AB
