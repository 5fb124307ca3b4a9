/-
Specification vocabulary: the regions on which the tables behind the element-wise enclosures are right, without any
condition on the size of the trust region.
-/
import Verif.Spec.RealLib

namespace AB
open PE EF

/-- Regions `[a, b]` on which the tables for the function `n` and degree `k` are right (`BuiltinRegion` without the
conditions on how close the ends of the region are to the reference point). -/
def BuiltinTable (n : FName) (_x0 a b : ℝ) (k : ℕ) : Prop :=
  match n with
  | .exp => True
  | .log => 0 < a
  | .abs => k ≤ 1
  | .sigmoid => k ≤ 1 ∨ TableTruthful .sigmoid k a b
  | .softplus => k ≤ 1 ∨ k = 2 ∨ TableTruthful .softplus k a b
  | .swish => TableTruthful .swish k a b
  | .other _ => False

/-- `PowOk` without the conditions on how close the ends of the region are to the reference point -/
def PowTable (p : Expo ℝ) (x0 a b : ℝ) (k : ℕ) : Prop := PowRegion p k a b ∧ powFinite p k x0 a b

namespace JB
open TEA

/-- The real-number tables, restricted to calls whose arguments satisfy `BuiltinTable` / `PowTable`. -/
noncomputable def tableLib : Lib ℝ where
  sem := realLib.sem
  gen name := match builtinName name with
    | some n => some (guardGen (BuiltinTable n) (elementwiseGen ⟨n, 0⟩))
    | none => (rootExponent name).map fun q =>
        guardGen (PowTable (.frac q)) (powGen (fun x p : ℝ => x ^ p) (.frac q))
  powGen p := guardGen (PowTable p) (powGen (fun x p : ℝ => x ^ p) p)
  expo := realLib.expo

end JB
end AB
