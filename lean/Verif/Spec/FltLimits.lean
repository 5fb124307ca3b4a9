/-
An independent description of arithmetic with infinities and NaN: the result is the limit, if there is one.
-/
import Verif.Model.PowFloat
import Mathlib.Topology.Algebra.Order.Field
import Mathlib.Topology.Instances.Real.Lemmas

namespace AB
open Filter

/-- The sequence of numbers tends to the float. -/
def Flt.Limit (f : Flt ℝ) (x : ℕ → ℝ) : Prop :=
  match f with
  | .fin a => Tendsto x atTop (nhds a)
  | .pinf => Tendsto x atTop atTop
  | .ninf => Tendsto x atTop atBot
  | .nan => False

/-- `c` is what IEEE 754 prescribes for an operation with arguments `a`, `b`, up to rounding and the sign of zero: NaN if an
argument is NaN or the limit of the operation depends on how the arguments are approached, and the limit otherwise. -/
def Flt.IsIEEE (op : ℝ → ℝ → ℝ) (a b c : Flt ℝ) : Prop :=
  (c ≠ .nan → ∀ x y, a.Limit x → b.Limit y → c.Limit fun n => op (x n) (y n)) ∧
  (c = .nan → a = .nan ∨ b = .nan ∨ ∃ x y x' y' : ℕ → ℝ, a.Limit x ∧ b.Limit y ∧ a.Limit x' ∧ b.Limit y' ∧
    ∃ l l' : ℝ, l ≠ l' ∧ Tendsto (fun n => op (x n) (y n)) atTop (nhds l) ∧
      Tendsto (fun n => op (x' n) (y' n)) atTop (nhds l')) ∧
  (a = .nan ∨ b = .nan → c = .nan)

end AB
