/-
The module state of /repo/autobound/jax/jax_bound.py (which enclosures are registered for which primitives) and how the
interpreter's table of functions is built from it: jax_bound.py:227-312, 433-453, 463-503.

Primitives are identified by their names.  (In the code a primitive is an object; two different primitives with the same
name do not arise from the functions modelled here, since `_register_elementwise_function` rejects repeated names.)
-/
import Verif.Model.JaxBound

namespace AB
namespace JB
open TEA

/-- A Python dict whose keys are primitives: key-value pairs in the order of insertion. -/
abbrev Dict (β : Type) := List (String × β)

/-- `d[k] = v`. -/
def Dict.set {β : Type} (d : Dict β) (k : String) (v : β) : Dict β :=
  if (List.lookup k d).isSome then d.map fun e => if e.1 = k then (k, v) else e else d ++ [(k, v)]

/-- `d.update(e)`. -/
def Dict.update {β : Type} (d e : Dict β) : Dict β := e.foldl (fun d kv => d.set kv.1 kv.2) d

/-- The module state: `_PRIMITIVE_NAMES` (a set), `_JAXPR_REWRITE_RULES`, `_ELEMENTWISE_PRIMITIVE_ENCLOSURES`,
jax_bound.py:246-254, 271-284.  (`R` is the type of the rewrite rules.) -/
structure Registry (K R : Type) where
  names : List String
  rules : List R
  enclosures : Dict (Generator K)

/-- The name of the primitive for a Jax function, jax_bound.py:261. -/
def autoboundName (fname : String) : String := "__autobound_" ++ fname ++ "__"

variable {K R : Type}

/-- `register_elementwise_primitive`, jax_bound.py:227-237. -/
def Registry.registerPrimitive (s : Registry K R) (p : String) (g : Generator K) : Registry K R :=
  { s with enclosures := Dict.set s.enclosures p g }

/-- `_register_elementwise_function`, jax_bound.py:256-269; `rule` makes the rewrite rule for the new primitive. -/
def Registry.registerFunction (s : Registry K R) (fname : String) (rule : String → R) (g : Generator K) :
    Py (Registry K R) :=
  let name := autoboundName fname
  if name ∈ s.names then .error .valueError
  else .ok (Registry.registerPrimitive ⟨name :: s.names, s.rules ++ [rule name], s.enclosures⟩ name g)

/-- A call that changes the module state. -/
inductive Call (K R : Type) where
  | primitive (p : String) (g : Generator K)
  | function (fname : String) (rule : String → R) (g : Generator K)

/-- Make a call. -/
def Registry.call (s : Registry K R) : Call K R → Py (Registry K R)
  | .primitive p g => .ok (s.registerPrimitive p g)
  | .function fname rule g => s.registerFunction fname rule g

/-- Make calls one after the other (a caller that catches exceptions): the state afterwards.  A call that raises leaves
the state as it was: the check comes first, jax_bound.py:262-263. -/
def Registry.after (s : Registry K R) : List (Call K R) → Registry K R
  | [] => s
  | c :: cs => match s.call c with
    | .ok s' => s'.after cs
    | .error _ => s.after cs

variable [Field K] [LinearOrder K]

/-- The name of a primitive (`other` stands for a primitive none of whose rules are modelled). -/
def _root_.AB.Prim.key : Prim K → String
  | .add => "add" | .sub => "sub" | .mul => "mul" | .div => "div" | .neg => "neg" | .pow => "pow"
  | .integerPow _ => "integer_pow"
  | .dotGeneral .. => "dot_general"
  | .conv _ => "conv_general_dilated"
  | .broadcastInDim .. => "broadcast_in_dim"
  | .elementwise name => name
  | .convertElementType _ => "convert_element_type"
  | .reshape _ => "reshape"
  | .reduceSum _ => "reduce_sum"
  | .reduceWindowSum _ => "reduce_window_sum"
  | .squeeze _ => "squeeze"
  | .transpose _ => "transpose"
  | .jit _ => "jit"
  | .other name _ => name

/-- A function in the interpreter's table: `fun(*intermediates, **eqn.params)` (the parameters are part of the
primitive). -/
abbrev PushFun (K : Type) := Prim K → List (Inter K) → Py (Encl K)

/-- `wrap(f)` of a function of two enclosures, jax_bound.py:477-480. -/
def wrap2 (f : Encl K → Encl K → Py (Encl K)) : PushFun K := fun _ ins =>
  match ins with
  | [a, b] => f a.encl b.encl
  | _ => .error .typeError

/-- The dict display of `_pushforward_funs`, jax_bound.py:482-495. -/
def fixedFuns (lib : Lib K) (T : TEA K) : Dict (PushFun K) :=
  [("add", wrap2 T.add),
   ("div", wrap2 (T.divide (lib.powGen (.int (-1))))),
   ("integer_pow", fun p ins => match p, ins with
      | .integerPow y, [a] => if 0 ≤ y then T.powerNat a.encl y.toNat else T.powerOther (lib.powGen (.int y)) a.encl
      | _, _ => .error .typeError),
   ("mul", wrap2 T.multiply),
   ("neg", fun _ ins => match ins with | [a] => T.negative a.encl | _ => .error .typeError),
   ("pow", fun _ ins => match ins with | [a, b] => powPush lib T a b | _ => .error .typeError),
   ("sub", wrap2 T.subtract),
   ("dot_general", fun p ins => match p, ins with
      | .dotGeneral lc rc lb rb, [a, b] => T.arbitraryBilinear a.encl b.encl (dotPairwise lib.sem lc rc lb rb)
      | _, _ => .error .typeError),
   ("conv_general_dilated", fun p ins => match p, ins with
      | .conv op, [a, b] => T.arbitraryBilinear a.encl b.encl (convPairwise lib.sem op)
      | _, _ => .error .typeError),
   ("broadcast_in_dim", fun p ins => match p, ins with
      | .broadcastInDim shape dims, [a] => broadcastInDimPush shape dims a.encl
      | _, _ => .error .typeError)]

/-- `_elementwise_pushforward_fun`, jax_bound.py:430-434. -/
def elementwisePush (T : TEA K) (g : Generator K) : PushFun K := fun _ ins =>
  match ins with
  | [a] => T.elementwiseFun g a.encl a.tr
  | _ => .error .typeError

/-- `_pass_thru_pushforward_fun`, jax_bound.py:444-450. -/
def passThruPush (lib : Lib K) : PushFun K := fun p ins =>
  match ins with
  | [a] => mapOverEnclosure a.encl (p.bind1 lib.sem)
  | _ => .error .typeError

/-- `_PASS_THRU_PRIMITIVES`, jax_bound.py:296-305. -/
def passThruNames : List String :=
  ["convert_element_type", "reshape", "reduce_sum", "reduce_window_sum", "squeeze", "transpose", "jit"]

/-- `_pushforward_funs`, jax_bound.py:463-503: the dict display, updated with the registered enclosures, updated with
the pass-through primitives. -/
def pushforwardFuns (lib : Lib K) (s : Registry K R) (T : TEA K) : Dict (PushFun K) :=
  Dict.update (Dict.update (fixedFuns lib T) (s.enclosures.map fun e => (e.1, elementwisePush T e.2)))
    (passThruNames.map fun n => (n, passThruPush lib))

/-- The tables of the interpreter in a module state (`lib` gives `pow_enclosure` and the implementations). -/
def Lib.inState (lib : Lib K) (s : Registry K R) : Lib K := { lib with gen := fun n => List.lookup n s.enclosures }

end JB
end AB
