/-
Specification vocabulary for the real-number tables: the functions the element-wise primitives stand for,
and the interpreter restricted to calls inside the regions on which the enclosures are claimed to be sound.
-/
import Verif.Model.RealLib
import Verif.Spec.Guard
import Verif.Spec.JaxSem

namespace AB
namespace JB
open TEA PE EF

/-- The mathematical functions: those of JAX, and the functions which the primitives that
jax_bound.py:250-292 introduces replace. -/
noncomputable def realSem : Sem ℝ where
  fn
    | "__autobound_sigmoid__" => some fun x => 1 / (1 + Real.exp (-x))
    | "__autobound_softplus__" => some fun x => Real.log (1 + Real.exp x)
    | "__autobound_swish__" => some fun x => x / (1 + Real.exp (-x))
    | name => realFn name
  pow x p := x ^ p

/-- The real-number tables, restricted to calls of the enclosure-generating functions whose arguments
satisfy `BuiltinRegion` / `PowOk`; a run of the interpreter with these tables succeeds exactly if all such
calls satisfy these conditions and the run succeeds. -/
noncomputable def safeLib : Lib ℝ where
  sem := realLib.sem
  gen name := match builtinName name with
    | some n => some (guardGen (BuiltinRegion n) (elementwiseGen ⟨n, 0⟩))
    | none => (rootExponent name).map fun q =>
        guardGen (PowOk (.frac q)) (powGen (fun x p : ℝ => x ^ p) (.frac q))
  powGen p := guardGen (PowOk p) (powGen (fun x p : ℝ => x ^ p) p)
  expo := realLib.expo

end JB
end AB
