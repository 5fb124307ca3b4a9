/-
Specification vocabulary for C83: `taylor_bounds` run in rounded arithmetic.

Nothing here assumes that the operations of the number type `F` are exact: no associativity, no distributivity, no
`a * b⁻¹ = a / b`.  `UnitLaws F` lists what is used, and all of it is true of IEEE 754 binary arithmetic on finite
numbers (with -0 and 0 identified).
-/
import Verif.Spec.JaxSem
import Verif.Spec.Rounding

namespace AB

/-- What 0, 1, subtraction of equal numbers and small powers do, exactly, in a number type with rounded operations. -/
structure UnitLaws (F : Type) [Zero F] [One F] [Add F] [Sub F] [Neg F] [Mul F] [Pow F ℤ] [NatCast F] : Prop where
  zero_add : ∀ a : F, 0 + a = a
  add_zero : ∀ a : F, a + 0 = a
  zero_mul : ∀ a : F, 0 * a = 0
  mul_zero : ∀ a : F, a * 0 = 0
  one_mul : ∀ a : F, 1 * a = a
  mul_one : ∀ a : F, a * 1 = a
  sub_self : ∀ a : F, a - a = 0
  sub_eq : ∀ a b : F, a - b = a + -b
  zero_pow : ∀ k : ℤ, 0 < k → (0 : F) ^ k = 0
  pow_zero : ∀ a : F, a ^ (0 : ℤ) = 1
  pow_one : ∀ a : F, a ^ (1 : ℤ) = a
  pow_two : ∀ a : F, a ^ (2 : ℤ) = a * a
  natCast_one : ((1 : ℕ) : F) = 1

/-- `x * x * … * x` with `n` factors, multiplied from left to right. -/
def timesSelf {F : Type} [One F] [Mul F] (x : F) : ℕ → F
  | 0 => 1
  | 1 => x
  | n + 2 => timesSelf x (n + 1) * x

/-- `r` is `y` broadcast to the shape of `r`. -/
def ND.BroadcastOf {F : Type} (y r : ND F) : Prop :=
  bshape y.shape r.shape = some r.shape ∧ ∀ I, ValidIdx r.shape I → r.get I = y.bget I

namespace JB
variable {F : Type} [Zero F] [One F] [Add F] [Sub F] [Mul F] [Pow F ℤ] [Neg F] [Div F] [NatCast F] [LinearOrder F]

/-- The first coefficient of an enclosure is the array `y`. -/
def HeadIs (y : ND F) (e : Encl F) : Prop := ∃ c l, e = .arr c :: l ∧ c.Same y

/-- The first coefficient an enclosure generator returns is the value of the function at `x0`, as computed. -/
def GenHead (g : TEA.Generator F) (f : F → F) : Prop :=
  ∀ x0 tr d e, 1 ≤ d → g x0 tr d = .ok e → HeadIs (x0.map f) e

/-- The tables of enclosure generators start with the computed values of the functions they are for; `sem` is what
the primitives compute (`lib.sem` may lack implementations). -/
structure LibHead (lib : Lib F) (sem : Sem F) : Prop where
  fn : ∀ n f, lib.sem.fn n = some f → sem.fn n = some f
  semPow : lib.sem.pow = sem.pow
  gen : ∀ name g f, lib.gen name = some g → sem.fn name = some f → GenHead g f
  recip : ∀ y : ℤ, y < 0 → GenHead (lib.powGen (.int y)) (· ^ y)
  pow : ∀ c : F, (∀ n : ℤ, lib.expo c = .int n → n < 0) → GenHead (lib.powGen (lib.expo c)) fun x => sem.pow x c
  pow_zero : ∀ c : F, lib.expo c = .int 0 → ∀ x, sem.pow x c = 1

/-- What is asked of an equation with arguments `args` (beyond the laws of `UnitLaws`).  A division must round like
the multiplication by a reciprocal (floats do not).  For an integer power with exponent `≥ 3` of an array of rank
`≥ 1`, the power must round like repeated multiplication. -/
def OpExact : Prim F → List (ND F) → Prop
  | .div, _ => ∀ a b : F, a / b = a * b ^ (-1 : ℤ)
  | .integerPow y, args => y ≤ 2 ∨ (∀ a ∈ args, a.shape = []) ∨ ∀ x : F, x ^ y = timesSelf x y.toNat
  | _, _ => True

/-- Every equation meets `OpExact` for the arguments it has when the program is evaluated. -/
def EqnsExact (sem : Sem F) : Vals F → List (Eqn F) → Prop
  | _, [] => True
  | env, eqn :: rest => (∀ args, eqn.invars.mapM (getVal env) = .ok args → OpExact eqn.prim args) ∧
      ∀ env', evalEqn sem env eqn = .ok env' → EqnsExact sem env' rest

end JB
end AB
