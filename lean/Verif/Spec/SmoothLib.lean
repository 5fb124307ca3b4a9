/-
Specification vocabulary: the regions on which the built-in functions are smooth enough for the bounds to converge at the
full rate.
-/
import Verif.Spec.TableLib

namespace AB
open PE EF

/-- `BuiltinTable`, and the function is smooth on the region: `abs` in degree 1 only away from its kink. -/
def BuiltinSmooth (n : FName) (x0 a b : ℝ) (k : ℕ) : Prop :=
  BuiltinTable n x0 a b k ∧ (n = .abs → k = 0 ∨ 0 < a ∨ b < 0)

/-- `PowTable`, and the function is smooth on the region: fractional powers only on positive regions. -/
def PowSmooth (p : Expo ℝ) (x0 a b : ℝ) (k : ℕ) : Prop := PowTable p x0 a b k ∧ ∀ q, p = .frac q → 0 < a

namespace JB
open TEA

/-- The real-number tables, restricted to calls whose arguments satisfy `BuiltinSmooth` / `PowSmooth`. -/
noncomputable def smoothLib : Lib ℝ where
  sem := realLib.sem
  gen name := match builtinName name with
    | some n => some (guardGen (BuiltinSmooth n) (elementwiseGen ⟨n, 0⟩))
    | none => (rootExponent name).map fun q =>
        guardGen (PowSmooth (.frac q)) (powGen (fun x p : ℝ => x ^ p) (.frac q))
  powGen p := guardGen (PowSmooth p) (powGen (fun x p : ℝ => x ^ p) p)
  expo := realLib.expo

end JB
end AB
