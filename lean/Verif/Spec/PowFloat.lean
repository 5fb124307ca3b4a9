/-
Specification vocabulary: what it means for an enclosure whose final interval may be infinite (or NaN) to be right.
-/
import Verif.Model.PowFloat
import Verif.Spec.Scalar

namespace AB
open PE

/-- `l ≤ r` for a float `l` and a number `r` (false for NaN). -/
def Flt.Below : Flt ℝ → ℝ → Prop
  | .fin x, r => x ≤ r
  | .ninf, _ => True
  | .pinf, _ => False
  | .nan, _ => False

/-- `r ≤ u` for a float `u` and a number `r` (false for NaN). -/
def Flt.Above : Flt ℝ → ℝ → Prop
  | .fin x, r => r ≤ x
  | .pinf, _ => True
  | .ninf, _ => False
  | .nan, _ => False

/-- The numbers `x` for which `x ** p` is a real number. -/
def powDomain (p : Expo ℝ) : Set ℝ :=
  match p with
  | .int n => {x | 0 ≤ n ∨ x ≠ 0}
  | .frac q => {x | 0 < x ∨ (x = 0 ∧ 0 < q)}

/-- All coefficients of `s` but the last are finite, and for every `x` in `D` some number between the end points of the
last one makes the polynomial equal to `f x`. -/
def EnclosesF (s : List (Flt ℝ) × (Flt ℝ × Flt ℝ)) (f : ℝ → ℝ) (x0 : ℝ) (D : Set ℝ) : Prop :=
  ∃ cs : List ℝ, s.1 = cs.map Flt.fin ∧ ∀ x ∈ D, ∃ r, s.2.1.Below r ∧ s.2.2.Above r ∧
    f x = ∑ i ∈ Finset.range cs.length, cs.getD i 0 * (x - x0) ^ i + r * (x - x0) ^ cs.length

/-- The Taylor coefficients of degree at most `k` of `x ** p` at `x0` are finite. -/
def StartOk (p : Expo ℝ) (k : ℕ) (x0 : ℝ) : Prop :=
  match p with
  | .int n => x0 = 0 → (k : ℤ) ≤ n
  | .frac q => q ≠ 0 ∧ (0 < x0 ∨ (x0 = 0 ∧ (k : ℝ) < q))

/-- The trust regions on which `pow_enclosure` is not right: it straddles 0 and `p - k` is an even positive number, or it
ends at 0 from the left and `p` is an odd negative number. -/
def PowWrong (p : Expo ℝ) (k : ℕ) (a b : ℝ) : Prop :=
  match p with
  | .int n => (a < 0 ∧ 0 < b ∧ (k : ℤ) < n ∧ (n - k) % 2 = 0) ∨ (a < 0 ∧ b = 0 ∧ n < 0 ∧ n % 2 = 1)
  | .frac _ => False

end AB
