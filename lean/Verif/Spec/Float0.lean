/-
Specification vocabulary for C84: `taylor_bounds` with `max_degree = 0` (interval arithmetic) in rounded arithmetic.
-/
import Verif.Spec.FloatRef
import Verif.Spec.Contains

namespace AB

/-- entry by entry `≤`, for arrays of the same shape -/
def ND.AllLe {F : Type} [LE F] (a b : ND F) : Prop := a.shape = b.shape ∧ ∀ I, a.get I ≤ b.get I

namespace JB
variable {F : Type} [Zero F] [One F] [Add F] [Sub F] [Mul F] [Pow F ℤ] [Neg F] [Div F] [NatCast F] [LinearOrder F]

/-- At degree 0 the generator returns one interval (or array), and it contains the *computed* values of the function
on the region. -/
def GenHolds0 (g : TEA.Generator F) (f : F → F) : Prop :=
  ∀ x0 lo hi e, lo.shape = hi.shape → (Coef.ivl lo hi).Contains x0 → g x0 (lo, hi) 0 = .ok e →
    ∃ c, e = [c] ∧ c.SameShape ∧ ∀ y, (Coef.ivl lo hi).Contains y → c.Contains (y.map f)

/-- The tables of enclosure generators are right, at degree 0, about the computed functions. -/
structure LibHolds0 (lib : Lib F) (sem : Sem F) : Prop where
  fn : ∀ n f, lib.sem.fn n = some f → sem.fn n = some f
  semPow : lib.sem.pow = sem.pow
  gen : ∀ name g f, lib.gen name = some g → sem.fn name = some f → GenHolds0 g f
  recip : ∀ y : ℤ, y < 0 → GenHolds0 (lib.powGen (.int y)) (· ^ y)
  pow : ∀ c : F, (∀ n : ℤ, lib.expo c = .int n → n < 0) → GenHolds0 (lib.powGen (lib.expo c)) fun x => sem.pow x c
  pow_zero : ∀ c : F, lib.expo c = .int 0 → ∀ x, sem.pow x c = 1

/-- The primitives covered: not `dot_general` and convolutions (the claim is false for them,
`C72_dot_counterexample`), and of jitted functions and conversions those that are monotone. -/
def Safe0 : Prim F → Prop
  | .dotGeneral _ _ _ _ => False
  | .conv _ => False
  | .jit body => ∀ a b ra rb, a.AllLe b → body a = .ok ra → body b = .ok rb → ra.AllLe rb
  | .convertElementType round => ∀ s t, s ≤ t → round s ≤ round t
  | _ => True

end JB
end AB
