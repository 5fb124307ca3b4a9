/-
Specification vocabulary for convergence: how fast the bounds tighten as the trust region shrinks to `x0`.
-/
import Verif.Spec.Isotone

namespace AB
variable {K : Type} [Field K] [LinearOrder K]

/-- An enclosure-generating function is Lipschitz in the width of the trust region: once it returns for a trust region
`[lo, hi]` there is a constant `C` such that for every smaller trust region `[lo', hi']` (and the same expansion point,
which may differ only in degree 0) the intervals it returns are at most `C * w` wide, where `w` bounds the width of
`[lo', hi']`. The expansion points lie in the trust regions. -/
def LipschitzGen (g : TEA.Generator K) : Prop :=
  ∀ (x0 lo hi : ND K) (d : ℕ) (e : Encl K) (R : List ℕ), bshape x0.shape lo.shape = some R →
    (Coef.ivl lo hi).WellFormed → (∀ I, ValidIdx R I → lo.bget I ≤ x0.bget I ∧ x0.bget I ≤ hi.bget I) →
    g x0 (lo, hi) d = .ok e →
    ∃ C : K, 0 ≤ C ∧ ∀ (x0' lo' hi' : ND K) (e' : Encl K) (w : K), 0 ≤ w → Nest (.ivl lo' hi') (.ivl lo hi) →
      x0'.shape = x0.shape → (∀ I, ValidIdx R I → lo'.bget I ≤ x0'.bget I ∧ x0'.bget I ≤ hi'.bget I) →
      (d ≠ 0 → x0' = x0) → (∀ I, ValidIdx R I → hi'.bget I - lo'.bget I ≤ w) → g x0' (lo', hi') d = .ok e' →
      ∀ (n : ℕ) (c : Coef K), e'[n]? = some c → ∀ L, ValidIdx c.shape L →
        (TEA.toInterval c).2.bget L - (TEA.toInterval c).1.bget L ≤ C * w

/-- A Lipschitz operation on arrays, for each shape of the operand. -/
def LipschitzOp (f : ND K → Py (ND K)) : Prop :=
  ∀ S : List ℕ, ∃ C : K, 0 ≤ C ∧ ∀ (x y s t : ND K) (w : K), 0 ≤ w → x.shape = S → y.shape = S →
    (∀ I, ValidIdx S I → |y.get I - x.get I| ≤ w) → f x = .ok s → f y = .ok t →
    ∀ I, ValidIdx s.shape I → |t.get I - s.get I| ≤ C * w

namespace JB

/-- Every enclosure-generating function in the tables is Lipschitz. -/
structure LibLipschitz (lib : Lib K) : Prop where
  gen : ∀ n g, lib.gen n = some g → LipschitzGen g
  pow : ∀ p, LipschitzGen (lib.powGen p)

/-- Jitted functions and conversions are Lipschitz. -/
def PrimLipschitz : Prim K → Prop
  | .jit body => LipschitzOp body
  | .convertElementType round => ∃ C, 0 ≤ C ∧ ∀ s t, |round t - round s| ≤ C * |t - s|
  | _ => True

end JB
end AB
