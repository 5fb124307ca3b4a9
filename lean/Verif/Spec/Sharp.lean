/-
Specification vocabulary for C77: the best (smallest) element-wise Taylor enclosure.
-/
import Verif.Spec.Scalar

namespace AB
open PE

/-- `s` is the smallest enclosure of `f` over `[a, b]`: it encloses `f`, and every enclosure of `f` over `[a, b]` with as
many coefficients has the same coefficients and a final interval that contains the one of `s`. -/
def SEncl.Smallest {K : Type} [Field K] [LinearOrder K] (s : SEncl K) (f : K → K) (x0 a b : K) : Prop :=
  SEncl.EnclosesFun s f x0 a b ∧
    ∀ t : SEncl K, t.1.length = s.1.length → SEncl.EnclosesFun t f x0 a b →
      t.1 = s.1 ∧ t.2.1 ≤ s.2.1 ∧ s.2.2 ≤ t.2.2

end AB
