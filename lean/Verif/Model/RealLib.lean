/-
The tables of /repo/autobound/jax/jax_bound.py:273-304 over the real numbers: which enclosure-generating
function the interpreter uses for which primitive, and what the primitives' implementations compute.

Simplifications: floats are real numbers (`1/3` is the real number 1/3).
-/
import Verif.Model.JaxBound
import Verif.Model.Registry

namespace AB
namespace JB
open TEA PE EF

/-- `jax.lax.cbrt`: the real cube root. -/
noncomputable def cbrt (x : ℝ) : ℝ := SignType.sign x * |x| ^ ((1 / 3 : ℝ))

/-- The implementations that `primitive.bind` calls (part of JAX, not of /repo).  The primitives
`__autobound_...__` (jax_bound.py:250-268) have no implementation, only an abstract evaluation rule. -/
noncomputable def realFn : String → Option (ℝ → ℝ)
  | "abs" => some fun x => |x|
  | "cbrt" => some cbrt
  | "exp" => some Real.exp
  | "log" => some Real.log
  | "logistic" => some fun x => 1 / (1 + Real.exp (-x))
  | "rsqrt" => some fun x => 1 / √x
  | "sqrt" => some Real.sqrt
  | _ => none

/-- The FunctionId behind an element-wise primitive, jax_bound.py:273-292. -/
def builtinName : String → Option FName
  | "abs" => some .abs
  | "exp" => some .exp
  | "log" => some .log
  | "logistic" => some .sigmoid
  | "__autobound_sigmoid__" => some .sigmoid
  | "__autobound_softplus__" => some .softplus
  | "__autobound_swish__" => some .swish
  | _ => none

/-- The exponents of the primitives enclosed by `pow_enclosure`, jax_bound.py:275-283. -/
noncomputable def rootExponent : String → Option ℝ
  | "cbrt" => some (1 / 3)
  | "rsqrt" => some (-1 / 2)
  | "sqrt" => some (1 / 2)
  | _ => none

/-- `_ELEMENTWISE_PRIMITIVE_ENCLOSURES`, jax_bound.py:273-292. -/
noncomputable def realGen (name : String) : Option (Generator ℝ) :=
  match builtinName name with
  | some n => some (elementwiseGen ⟨n, 0⟩)
  | none => (rootExponent name).map fun q => powGen (fun x p : ℝ => x ^ p) (.frac q)

/-- `int(exponent) == exponent` (primitive_enclosures.py:128, enclosure_arithmetic.py:320-347). -/
noncomputable def realExpo (p : ℝ) : Expo ℝ := if p = (⌊p⌋ : ℤ) then .int ⌊p⌋ else .frac p

/-- The tables of jax_bound.py. -/
noncomputable def realLib : Lib ℝ where
  sem := ⟨realFn, fun x p => x ^ p⟩
  gen := realGen
  powGen := powGen fun x p : ℝ => x ^ p
  expo := realExpo

/-- The dict display `_ELEMENTWISE_PRIMITIVE_ENCLOSURES`, jax_bound.py:273-284, and the two empty collections,
jax_bound.py:246-254. -/
noncomputable def displayState {R : Type} : Registry ℝ R where
  names := []
  rules := []
  enclosures :=
    [("abs", elementwiseGen ⟨.abs, 0⟩),
     ("cbrt", powGen (fun x p : ℝ => x ^ p) (.frac (1 / 3))),
     ("exp", elementwiseGen ⟨.exp, 0⟩),
     ("log", elementwiseGen ⟨.log, 0⟩),
     ("logistic", elementwiseGen ⟨.sigmoid, 0⟩),
     ("rsqrt", powGen (fun x p : ℝ => x ^ p) (.frac (-1 / 2))),
     ("sqrt", powGen (fun x p : ℝ => x ^ p) (.frac (1 / 2)))]

/-- The state after the import of the module: the three calls of `_register_elementwise_function`, jax_bound.py:285-290.
(`f.__name__` is written `swish` for `jax.nn.swish`; in JAX versions where that is another name of `jax.nn.silu` it is
`silu`.  Nothing depends on it but the name of the primitive.) -/
noncomputable def importedState {R : Type} (rule : String → String → R) : Registry ℝ R :=
  displayState.after
    [.function "sigmoid" (rule "sigmoid") (elementwiseGen ⟨.sigmoid, 0⟩),
     .function "softplus" (rule "softplus") (elementwiseGen ⟨.softplus, 0⟩),
     .function "swish" (rule "swish") (elementwiseGen ⟨.swish, 0⟩)]

end JB
end AB
