/-
Specification vocabulary for C72: arithmetic whose every operation is rounded.

numpy / jax compute with floating point numbers, the other properties are about exact arithmetic.
`RoundedArith F` lists what is used of a number type with rounded operations: the operations are
monotone in the way the exact ones are (IEEE 754 addition, subtraction, multiplication and negation
of finite numbers have these properties in every rounding mode, because rounding is monotone), and
0 and 1 behave exactly.  No associativity, distributivity or cancellation is assumed, and none
holds for floats.  NaN and infinities are not in `F`: an operation that overflows is not covered.

`Rounded rd` is the standard example: the numbers `x` with `rd x = x`, each operation being the
exact one followed by the rounding `rd`.
-/
import Verif.Model.Interval
import Mathlib.Algebra.Order.Ring.Defs
import Mathlib.Algebra.Order.Field.Basic
import Mathlib.Algebra.Group.Int.Even

namespace AB

/-- Rounded arithmetic: monotone operations, no algebraic laws beyond those of 0 and 1. -/
structure RoundedArith (F : Type) [Zero F] [One F] [Add F] [Sub F] [Neg F] [Mul F] [Pow F ℤ]
    [LinearOrder F] : Prop where
  add_le : ∀ {a b c d : F}, a ≤ b → c ≤ d → a + c ≤ b + d
  sub_le : ∀ {a b c d : F}, a ≤ b → c ≤ d → a - d ≤ b - c
  neg_le : ∀ {a b : F}, a ≤ b → -b ≤ -a
  mul_le_right : ∀ {a b c : F}, a ≤ b → 0 ≤ c → a * c ≤ b * c
  mul_ge_right : ∀ {a b c : F}, a ≤ b → c ≤ 0 → b * c ≤ a * c
  mul_le_left : ∀ {a b c : F}, a ≤ b → 0 ≤ c → c * a ≤ c * b
  mul_ge_left : ∀ {a b c : F}, a ≤ b → c ≤ 0 → c * b ≤ c * a
  /-- raising to a positive odd integer is monotone -/
  pow_odd : ∀ {a b : F} {k : ℤ}, 0 < k → Odd k → a ≤ b → a ^ k ≤ b ^ k
  /-- raising to a positive even integer is monotone on the numbers ≥ 0 ... -/
  pow_even : ∀ {a b : F} {k : ℤ}, 0 < k → Even k → 0 ≤ a → a ≤ b → a ^ k ≤ b ^ k
  /-- ... and antitone on the numbers ≤ 0. -/
  pow_even_neg : ∀ {a b : F} {k : ℤ}, 0 < k → Even k → b ≤ 0 → a ≤ b → b ^ k ≤ a ^ k
  zero_pow : ∀ {k : ℤ}, 0 < k → (0 : F) ^ k = 0
  pow_zero : ∀ a : F, a ^ (0 : ℤ) = 1
  zero_mul : ∀ a : F, 0 * a = 0
  one_mul : ∀ a : F, 1 * a = a
  one_sub_zero : (1 : F) - 0 = 1
  one_sub_one : (1 : F) - 1 = 0

/-- A rounding function: monotone, with representable results, that keeps 0 and 1. -/
structure IsRounding {K : Type} [Field K] [LinearOrder K] (rd : K → K) : Prop where
  mono : Monotone rd
  idem : ∀ x, rd (rd x) = rd x
  zero : rd 0 = 0
  one : rd 1 = 1

/-- The representable numbers. -/
def Rounded {K : Type} [Field K] [LinearOrder K] {rd : K → K} (_h : IsRounding rd) : Type :=
  { x : K // rd x = x }

namespace Rounded
variable {K : Type} [Field K] [LinearOrder K] {rd : K → K} {h : IsRounding rd}

/-- The nearest-below/above/… representable number of an exact number. -/
def round (h : IsRounding rd) (x : K) : Rounded h := ⟨rd x, h.idem x⟩

instance : LinearOrder (Rounded h) := inferInstanceAs (LinearOrder { x : K // rd x = x })
instance : Zero (Rounded h) := ⟨⟨0, h.zero⟩⟩
instance : One (Rounded h) := ⟨⟨1, h.one⟩⟩
instance : Add (Rounded h) := ⟨fun a b => round h (a.1 + b.1)⟩
instance : Sub (Rounded h) := ⟨fun a b => round h (a.1 - b.1)⟩
instance : Neg (Rounded h) := ⟨fun a => round h (-a.1)⟩
instance : Mul (Rounded h) := ⟨fun a b => round h (a.1 * b.1)⟩
instance : Pow (Rounded h) ℤ := ⟨fun a k => round h (a.1 ^ k)⟩

end Rounded
end AB
