/-
Specification vocabulary: the conditions under which the element-wise enclosures of
/repo/autobound/primitive_enclosures.py are sound, and generators restricted to them.
-/
import Verif.Spec.Scalar
import Verif.Spec.Functions
import Verif.Spec.Enclosure
import Mathlib.Analysis.Calculus.IteratedDeriv.Defs

namespace AB
open PE EF

/-- The generator `gen` restricted to the calls whose inputs satisfy `ok x0 lo hi degree` at every array
element: other calls are treated as "nothing is claimed". -/
noncomputable def guardGen {K : Type} (ok : K → K → K → ℕ → Prop) (gen : TEA.Generator K) :
    TEA.Generator K := by
  classical exact fun x0 tr d =>
    if (∀ R, bshape x0.shape tr.1.shape = some R → ∀ I, ValidIdx R I →
      ok (x0.bget I) (tr.1.bget I) (tr.2.bget I) d)
    then gen x0 tr d else .error .unmodelled

/-- The table of extrema and flags for the `k`-th derivative of `n` is right about `[a, b]`: what
`monotone_over` reports is true, and if it reports nothing then `get_range` contains the range. -/
def TableTruthful (n : FName) (k : ℕ) (a b : ℝ) : Prop :=
  ∃ d r, getFunctionData ⟨n, k⟩ = .ok d ∧ getRange ⟨n, k⟩ a b = .ok r ∧
    ¬ (k = 2 ∧ d.evenSymmetric = true) ∧
    ((d.monotoneOver a b).1 = true → AntitoneOn (iteratedDeriv k (mathFun n)) (Set.Icc a b)) ∧
    ((d.monotoneOver a b).2 = true → MonotoneOn (iteratedDeriv k (mathFun n)) (Set.Icc a b)) ∧
    ((d.monotoneOver a b).1 = false → (d.monotoneOver a b).2 = false →
      ∀ x ∈ Set.Icc a b, r.1 ≤ iteratedDeriv k (mathFun n) x ∧ iteratedDeriv k (mathFun n) x ≤ r.2)

/-- Trust regions `[a, b]` on which the element-wise enclosure of degree `k` of the built-in function
`n` about `x0` is sound. -/
def BuiltinRegion (n : FName) (x0 a b : ℝ) (k : ℕ) : Prop :=
  NotCapped x0 k a ∧ NotCapped x0 k b ∧
  match n with
  | .exp => True
  | .log => 0 < a
  | .abs => k ≤ 1
  | .sigmoid => k ≤ 1 ∨ TableTruthful .sigmoid k a b
  | .softplus => k ≤ 1 ∨ (k = 2 ∧ NotCapped x0 2 (clip (-x0) a b)) ∨ TableTruthful .softplus k a b
  | .swish => TableTruthful .swish k a b
  | .other _ => False

/-- Trust regions `[a, b]` on which `pow_enclosure(p, x0, (a, b), k)` is sound: the region lies strictly
on one side of 0 (on the positive side for a non-integer exponent; 0 may be included for a positive
exponent), or `p` is a nonnegative integer, and the region does not contain 0 in its interior or `p - k` is
not an even positive number. -/
def PowRegion (p : Expo ℝ) (k : ℕ) (a b : ℝ) : Prop :=
  match p with
  | .frac q => 0 < a ∨ (a = 0 ∧ 0 < q)
  | .int n => 0 < a ∨ b < 0 ∨ (0 ≤ n ∧ (0 ≤ a ∨ b ≤ 0 ∨ n ≤ k ∨ (n - k) % 2 = 1))

/-- The inputs for which C34 claims anything. -/
def PowOk (p : Expo ℝ) (x0 a b : ℝ) (k : ℕ) : Prop :=
  PowRegion p k a b ∧ powFinite p k x0 a b ∧ NotCapped x0 k a ∧ NotCapped x0 k b

end AB
