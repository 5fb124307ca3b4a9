/-
Specification vocabulary for inclusion isotonicity: smaller inputs give smaller outputs.
-/
import Verif.Spec.JaxSem

namespace AB
variable {K : Type} [Field K] [LinearOrder K]

/-- `Nest c' c`: the coefficient `c'` is contained in `c` (equal arrays, or a well-formed interval inside a
well-formed interval of the same shape) -/
inductive Nest : Coef K → Coef K → Prop
  | arr (a : ND K) : Nest (.arr a) (.arr a)
  | ivl {l' u' l u : ND K} : (Coef.ivl l' u').WellFormed → (Coef.ivl l u).WellFormed →
      (Coef.ivl l' u').Inside (.ivl l u) → Nest (.ivl l' u') (.ivl l u)

/-- Enclosures of equal degree, every coefficient contained in the corresponding one. -/
abbrev NestE (e' e : Encl K) : Prop := List.Forall₂ Nest e' e

/-- An enclosure-generating function is isotone: for a smaller trust region (and the same expansion point,
which may differ only in degree 0, where the enclosure is just a range) it returns a smaller enclosure. The
expansion points lie in the trust regions. -/
def IsotoneGen (g : TEA.Generator K) : Prop :=
  ∀ (x0' x0 lo' hi' lo hi : ND K) (d : ℕ) (e' e : Encl K) (R : List ℕ),
    Nest (.ivl lo' hi') (.ivl lo hi) → x0'.shape = x0.shape → bshape x0.shape lo.shape = some R →
    (∀ I, ValidIdx R I → lo'.bget I ≤ x0'.bget I ∧ x0'.bget I ≤ hi'.bget I) →
    (∀ I, ValidIdx R I → lo.bget I ≤ x0.bget I ∧ x0.bget I ≤ hi.bget I) →
    (d ≠ 0 → x0' = x0) →
    g x0' (lo', hi') d = .ok e' → g x0 (lo, hi) d = .ok e → NestE e' e

/-- A bilinear operation with nonnegative weights: for all shapes `S`, `U` of the operands, the entry `L` of the
result is the sum over `(w, α, β) ∈ terms L` of `w * x[α] * y[β]`. -/
def NonnegBilinear (op : ND K → ND K → Py (ND K)) : Prop :=
  ∀ S U, ∃ (R : List ℕ) (terms : List ℕ → List (K × List ℕ × List ℕ)),
    (∀ L, ValidIdx R L → ∀ t ∈ terms L, 0 ≤ t.1 ∧ ValidIdx S t.2.1 ∧ ValidIdx U t.2.2) ∧
    ∀ x y s : ND K, x.shape = S → y.shape = U → op x y = .ok s → s.shape = R ∧ ∀ L, ValidIdx R L →
      s.get L = ((terms L).map fun t => t.1 * (x.get t.2.1 * y.get t.2.2)).sum

/-- An order-preserving operation on arrays: larger entries give larger entries. -/
def MonotoneOp (f : ND K → Py (ND K)) : Prop :=
  ∀ x' x s' s : ND K, x'.shape = x.shape → (∀ I, ValidIdx x.shape I → x'.get I ≤ x.get I) →
    f x' = .ok s' → f x = .ok s → s'.shape = s.shape ∧ ∀ I, ValidIdx s.shape I → s'.get I ≤ s.get I

namespace JB

/-- Every enclosure-generating function in the tables is isotone. -/
structure LibIsotone (lib : Lib K) : Prop where
  gen : ∀ n g, lib.gen n = some g → IsotoneGen g
  pow : ∀ p, IsotoneGen (lib.powGen p)

/-- Convolutions have nonnegative weights, jitted functions and conversions are order preserving. -/
def PrimIsotone : Prim K → Prop
  | .conv op => NonnegBilinear op
  | .jit body => MonotoneOp body
  | .convertElementType round => Monotone round
  | _ => True

/-- `[lo', hi']` is contained in `[lo, hi]` and contains `x0` (arrays of equal shapes). -/
structure Within (x0 lo' hi' lo hi : ND K) : Prop where
  shapes : lo'.shape = x0.shape ∧ hi'.shape = x0.shape ∧ lo.shape = x0.shape ∧ hi.shape = x0.shape
  le : ∀ I, ValidIdx x0.shape I → lo.get I ≤ lo'.get I ∧ lo'.get I ≤ x0.get I ∧ x0.get I ≤ hi'.get I ∧
    hi'.get I ≤ hi.get I

end JB
end AB
