/-
Specification vocabulary: element-wise enclosures that are right up to a small error.
-/
import Verif.Spec.Scalar
import Verif.Spec.Functions

namespace AB
open PE EF

/-- The enclosure `s` with its final interval widened by `ε` on both sides. -/
def SEncl.widen {K : Type} [Field K] (s : SEncl K) (ε : K) : SEncl K := (s.1, (s.2.1 - ε, s.2.2 + ε))

/-- `get_elementwise_taylor_enclosure` of degree `k` of the built-in function `n` about `x0` returns an enclosure
over `[a, b]` that is right once its final interval is widened by `ε`. -/
def BuiltinApprox (n : FName) (k : ℕ) (x0 a b ε : ℝ) : Prop :=
  ∃ s, getElementwiseTaylorEnclosure ⟨n, 0⟩ x0 a b k = .ok s ∧ s.1.length = k ∧
    SEncl.EnclosesFun (SEncl.widen s ε) (mathFun n) x0 a b

/-- `get_elementwise_taylor_enclosure` of degree `k` of the built-in function `n` about `x0` returns an enclosure
over `[a, b]` such that every value of the function is within `ε` of the enclosure with its final interval widened
by `η`. -/
def BuiltinNear (n : FName) (k : ℕ) (x0 a b η ε : ℝ) : Prop :=
  ∃ s, getElementwiseTaylorEnclosure ⟨n, 0⟩ x0 a b k = .ok s ∧ s.1.length = k ∧
    ∀ x, a ≤ x → x ≤ b → ∃ w, SEncl.Has (SEncl.widen s η) (x - x0) w ∧ |mathFun n x - w| ≤ ε

end AB
