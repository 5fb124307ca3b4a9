/-
Model of /repo/autobound/jax/jax_bound.py, function by function.

Not modelled: tracing (`jax.make_jaxpr(f)`): the Jaxpr is an input; `_rewrite_jaxpr` (jax_bound.py:307-312)
is modelled in Model/Pipeline.lean, so the Jaxpr here is the rewritten one.
-/
import Verif.Model.Lax
import Verif.Model.Primitive

namespace AB
namespace JB
open TEA PE

/-- An argument of an equation: a variable (identified by an integer) or a literal. -/
inductive Atom (K : Type) where
  | var (v : ℤ)
  | lit (a : ND K)

/-- An equation of a Jaxpr.  An output variable with `count == -1` is an unused one (`DropVar`). -/
structure Eqn (K : Type) where
  prim : Prim K
  invars : List (Atom K)
  outvars : List ℤ

/-- A Jaxpr. -/
structure Jaxpr (K : Type) where
  constvars : List ℤ
  invars : List ℤ
  outvars : List (Atom K)
  eqns : List (Eqn K)

variable {K : Type} [Zero K] [One K] [Add K] [Sub K] [Mul K] [Pow K ℤ] [Neg K] [Div K] [NatCast K] [LinearOrder K]

/-- The tables of enclosure-generating functions the interpreter uses (jax_bound.py:227-304):
`_ELEMENTWISE_PRIMITIVE_ENCLOSURES` including registered primitives, `pow_enclosure`, the classification
of a float exponent (`p == int(p)`), and the implementations `bind` calls. -/
structure Lib (K : Type) where
  sem : Sem K
  gen : String → Option (Generator K)
  powGen : Expo K → Generator K
  expo : K → Expo K

/-- `_IntermediateEnclosure`, jax_bound.py:315-330. -/
structure Inter (K : Type) where
  encl : Encl K
  tr : Option (Coef K) := none

/-- `_IntermediateEnclosure.constant_value` (`none` unless `is_constant()`), jax_bound.py:320-330. -/
def Inter.constantValue (i : Inter K) : Option (ND K) :=
  match i.encl with
  | [.arr v] => some v
  | _ => none

/-- `_IntermediateEnclosure.is_constant`, jax_bound.py:320-322. -/
def Inter.isConstant (i : Inter K) : Bool := i.constantValue.isSome

/-- `_constant_intermediate_enclosure`, jax_bound.py:355-357. -/
def constantInter (v : ND K) : Inter K := ⟨[.arr v], some (.ivl v v)⟩

/-- `x_shape` of `_broadcast_in_dim_pushforward_fun`, jax_bound.py:337-341. `enclosure[1].shape` raises
`AttributeError` if `enclosure[1]` is a tuple. -/
def bidXShape : Encl K → Py (List ℕ)
  | [] => .error .indexError
  | [_] => .ok []
  | c0 :: .arr c1 :: _ => .ok (c1.shape.drop c0.ndim)
  | _ :: .ivl _ _ :: _ => .error .attributeError

/-- `broadcast_ndarray_or_interval`, jax_bound.py:342-348. -/
def bidCoef (shape dims xShape : List ℕ) (ic : ℕ × Coef K) : Py (Coef K) :=
  match ic.2 with
  | .ivl lo hi => do
    return .ivl (← Lax.broadcastInDim (shape ++ rep ic.1 xShape) dims lo)
      (← Lax.broadcastInDim (shape ++ rep ic.1 xShape) dims hi)
  | .arr a => do return .arr (← Lax.broadcastInDim (shape ++ rep ic.1 xShape) dims a)

/-- `_broadcast_in_dim_pushforward_fun`, jax_bound.py:333-352. -/
def broadcastInDimPush (shape dims : List ℕ) (e : Encl K) : Py (Encl K) := do
  let xShape ← bidXShape e
  (Poly.enum e).mapM (bidCoef shape dims xShape)

/-- `move_last_n_dims_to_front`, jax_bound.py:369-374. -/
def moveLastToFront (x : ND K) (n : ℕ) : Py (ND K) :=
  if n = 0 then .ok x
  else do
    let t ← Lax.transpose (List.range' (x.ndim - n) n ++ List.range (x.ndim - n)) x
    Lax.reshape ((x.shape.drop (x.ndim - n)).prod :: x.shape.take (x.ndim - n)) t

/-- `pairwise_batched_bilinear` of `_conv_general_dilated_pushforward_fun`, jax_bound.py:366-387. -/
def convPairwise (sem : Sem K) (op : ND K → ND K → Py (ND K)) (a b : ND K) (p q : ℕ) : Py (ND K) := do
  let a' ← moveLastToFront a p
  let b' ← moveLastToFront b q
  let c ← (Prim.conv op).bind2 sem a' b'
  if p = 0 ∧ q = 0 then return c
  else if p = 0 ∨ q = 0 then .error .notImplemented
  else do
    let t ← Lax.transpose (List.range' 2 (c.ndim - 2) ++ [0, 1]) c
    Lax.reshape (c.shape.drop 2 ++ a.shape.drop (a.ndim - p) ++ b.shape.drop (b.ndim - q)) t

/-- `pairwise_batched_bilinear` of `_dot_general_pushforward_fun`, jax_bound.py:405-423: `dot_general`,
then a transposition.  `a_contracting_dims` (l.401-403) is the set of all contracting *and batch* axes of
the left operand. -/
def dotPairwise (sem : Sem K) (lc rc lb rb : List ℕ) (a b : ND K) (p q : ℕ) : Py (ND K) := do
  let t ← (Prim.dotGeneral lc rc lb rb).bind2 sem a b
  let d := p + (lc ++ lb).dedup.length
  if a.ndim < d then .error .assertion
  else
    let pStart := a.ndim - d
    let n := t.ndim
    if n < q ∨ n - q < pStart + p then .error .assertion
    else Lax.transpose (List.range pStart ++ List.range' (pStart + p) (n - q - (pStart + p)) ++
      List.range' pStart p ++ List.range' (n - q) q) t

/-- `pushforward_pow`, jax_bound.py:470-474, followed by `TaylorEnclosureArithmetic.power` with a float
exponent.  `float(...)` of an array of rank > 0 raises `TypeError`; a positive integer-valued float makes
`range(1 + output_degree)` (polynomials.py:224) raise `TypeError`. -/
def powPush (lib : Lib K) (T : TEA K) (a b : Inter K) : Py (Encl K) :=
  match b.constantValue with
  | none => .error .notImplemented
  | some v =>
    if v.shape ≠ [] then .error .typeError
    else match lib.expo (v.get []) with
      | .frac q => T.powerOther (lib.powGen (.frac q)) a.encl
      | .int n =>
        if n < 0 then T.powerOther (lib.powGen (.int n)) a.encl
        else if n = 0 then T.powerNat a.encl 0
        else .error .typeError

/-- `_pushforward_funs`, jax_bound.py:463-503: the function registered for a primitive, `none` if there
is none.  The wrong number of arguments raises `TypeError`. -/
def pushforward (lib : Lib K) (T : TEA K) : Prim K → Option (List (Inter K) → Py (Encl K))
  | .add => some fun | [a, b] => T.add a.encl b.encl | _ => .error .typeError
  | .div => some fun | [a, b] => T.divide (lib.powGen (.int (-1))) a.encl b.encl | _ => .error .typeError
  | .integerPow y => some fun
    | [a] => if 0 ≤ y then T.powerNat a.encl y.toNat else T.powerOther (lib.powGen (.int y)) a.encl
    | _ => .error .typeError
  | .mul => some fun | [a, b] => T.multiply a.encl b.encl | _ => .error .typeError
  | .neg => some fun | [a] => T.negative a.encl | _ => .error .typeError
  | .pow => some fun | [a, b] => powPush lib T a b | _ => .error .typeError
  | .sub => some fun | [a, b] => T.subtract a.encl b.encl | _ => .error .typeError
  | .dotGeneral lc rc lb rb => some fun
    | [a, b] => T.arbitraryBilinear a.encl b.encl (dotPairwise lib.sem lc rc lb rb)
    | _ => .error .typeError
  | .conv op => some fun
    | [a, b] => T.arbitraryBilinear a.encl b.encl (convPairwise lib.sem op)
    | _ => .error .typeError
  | .broadcastInDim shape dims => some fun
    | [a] => broadcastInDimPush shape dims a.encl
    | _ => .error .typeError
  | .elementwise name => (lib.gen name).map fun g => fun
    | [a] => T.elementwiseFun g a.encl a.tr
    | _ => .error .typeError
  | .other _ _ => none
  | p => some fun
    | [a] => mapOverEnclosure a.encl (p.bind1 lib.sem)
    | _ => .error .typeError

/-- `_intersect_intervals`, jax_bound.py:440-444.  A plain array in place of an interval raises `TypeError`
(rank 0) or `ValueError` (leading axis not 2), and is unpacked along an axis of length 2. -/
def intersectIntervals : Coef K → Coef K → Py (ND K × ND K)
  | .ivl a0 a1, .ivl b0 b1 => do return (← ND.map2 max a0 b0, ← ND.map2 min a1 b1)
  | a, b =>
    if a.shape = [] ∨ b.shape = [] then .error .typeError
    else if a.shape.head? = some 2 ∨ b.shape.head? = some 2 then .error .unmodelled
    else .error .valueError

/-- The trust region of an output variable, jax_bound.py:146-178, given its enclosure `e`. -/
def outRegion (lib : Lib K) (T T0 : TEA K) (p : Prim K) (ins : List (Inter K)) (e : Encl K) :
    Py (Coef K) := do
  match pushforward lib T0 p with
  | none => .error .assertion
  | some fun0 =>
    let ins0 ← ins.mapM fun i => match i.tr with
      | none => (.error .assertion : Py (Inter K))
      | some r => .ok ⟨[r], none⟩
    match ← fun0 ins0, ← encloseEnclosure e T.trustRegion 0, e with
    | ra :: _, rb :: _, .arr y0 :: _ => do
      let (a, b) ← intersectIntervals ra rb
      return .ivl (← ND.map2 min y0 a) (← ND.map2 max y0 b)
    | _ :: _, _ :: _, .ivl _ _ :: _ => .error .typeError
    | _, _, _ => .error .indexError

/-- `_validate_taylor_enclosure`, jax_bound.py:506-511. -/
def validateEnclosure (xShape : List ℕ) (e : Encl K) : Py Unit :=
  if (Poly.enum e).all fun p => coeffShapeOk xShape p.1 p.2 then .ok () else .error .valueError

/-- `var_to_intermediate`. -/
abbrev Env (K : Type) := List (ℤ × Inter K)

/-- `get_intermediate`, jax_bound.py:127-133. -/
def getInter (env : Env K) : Atom K → Py (Inter K)
  | .var v => match env.lookup v with
    | some i => .ok i
    | none => .error .keyError
  | .lit a => .ok (constantInter a)

/-- Storing one output variable, jax_bound.py:198-205. -/
def storeOne (xShape : List ℕ) (env : Env K) (vi : ℤ × Inter K) : Py (Env K) := do
  if vi.1 = -1 then return env
  else if (env.lookup vi.1).isSome then .error .assertion
  else do
    validateEnclosure xShape vi.2.encl
    return (vi.1, vi.2) :: env

/-- The outputs of one equation, jax_bound.py:136-194.  An equation with non-constant inputs and a number
of outputs different from 1 (whose pushforward function would return several enclosures) is outside the
model: no primitive in the tables has more than one output. -/
def eqnOutputs (lib : Lib K) (T T0 : TEA K) (propagate : Bool) (eqn : Eqn K) (ins : List (Inter K)) :
    Py (List (Inter K)) := do
  match ins.mapM Inter.constantValue with
  | none =>
    match pushforward lib T eqn.prim with
    | none => .error .notImplemented
    | some f => do
      let e ← f ins
      if eqn.outvars.length ≠ 1 then .error .unmodelled
      else if propagate then do
        let r ← outRegion lib T T0 eqn.prim ins e
        return [⟨e, some r⟩]
      else return [⟨e, none⟩]
  | some vals => do
    let outs ← eqn.prim.bind lib.sem vals
    return outs.map constantInter

/-- One iteration of the loop over the equations, jax_bound.py:135-205. -/
def step (lib : Lib K) (T T0 : TEA K) (propagate : Bool) (xShape : List ℕ) (env : Env K) (eqn : Eqn K) :
    Py (Env K) := do
  let ins ← eqn.invars.mapM (getInter env)
  let outs ← eqnOutputs lib T T0 propagate eqn ins
  if outs.length ≠ eqn.outvars.length then .error .assertion
  else (eqn.outvars.zip outs).foldlM (storeOne xShape) env

/-- The identity coefficient, jax_bound.py:107-113. -/
def identityCoef (x0 : ND K) : Py (ND K) :=
  match x0.shape with
  | [] => .ok (ND.scalar 1)
  | [n] => .ok ⟨[n, n], fun I => if I.getD 0 0 = I.getD 1 0 then 1 else 0⟩
  | _ => .error .notImplemented

/-- `TaylorBounds`, jax_bound.py:32-41 (without `f`). -/
structure Bounds (K : Type) where
  x0 : ND K
  regionLo : ND K
  regionHi : ND K
  coefficients : Encl K

/-- The initial `var_to_intermediate`, jax_bound.py:114-125. -/
def initEnv (propagate : Bool) (maxDegree : ℕ) (jaxpr : Jaxpr K) (consts : List (ND K)) (x0 lo hi : ND K) :
    Py (Env K) := do
  let identity ← identityCoef x0
  let e : Encl K := if maxDegree > 0 then [.arr x0, .arr identity] else [.ivl lo hi]
  if consts.length ≠ jaxpr.constvars.length then .error .assertion
  else match jaxpr.invars with
    | [v] => return (v, ⟨e, if propagate then some (.ivl lo hi) else none⟩) ::
        (jaxpr.constvars.zip (consts.map constantInter))
    | _ => .error .assertion

/-- The body of `taylor_bounds(f, max_degree, propagate_trust_regions)(x0, (lo, hi))` up to the end of the
loop over the equations, jax_bound.py:84-205, where `jaxpr`, `consts` is the (rewritten) Jaxpr of `f`: the
final `var_to_intermediate`. -/
def taylorEnv (lib : Lib K) (jaxpr : Jaxpr K) (consts : List (ND K)) (maxDegree : ℤ)
    (propagate : Bool) (x0 lo hi : ND K) : Py (Env K) := do
  if maxDegree < 0 then .error .valueError
  else
    let propagate := propagate && (maxDegree != 0)
    let md := maxDegree.toNat
    match ← IA.subtract (.ivl lo hi) (.arr x0) with
    | .arr _ => .error .assertion
    | .ivl tlo thi => do
      let T ← TEA.init md tlo thi
      let T0 ← TEA.init 0 tlo thi
      let env ← initEnv propagate md jaxpr consts x0 lo hi
      jaxpr.eqns.foldlM (step lib T T0 propagate x0.shape) env

/-- `taylor_bounds(f, max_degree, propagate_trust_regions)(x0, (lo, hi))`, jax_bound.py:61-212. -/
def taylorBounds (lib : Lib K) (jaxpr : Jaxpr K) (consts : List (ND K)) (maxDegree : ℤ)
    (propagate : Bool) (x0 lo hi : ND K) : Py (Bounds K) := do
  let env ← taylorEnv lib jaxpr consts maxDegree propagate x0 lo hi
  match jaxpr.outvars with
  | [o] => do
    let out ← getInter env o
    return ⟨x0, lo, hi, out.encl⟩
  | _ => .error .assertion

/-- `TaylorBounds.__call__`, jax_bound.py:43-46. -/
def Bounds.call (b : Bounds K) (x : ND K) : Py (Coef K) := do
  Poly.evalTaylorEnclosure b.coefficients (.arr (← ND.map2 (· - ·) x b.x0))

/-- `TaylorBounds.final_interval`, jax_bound.py:48-51. -/
def Bounds.finalInterval (b : Bounds K) : Py (ND K × ND K) :=
  match b.coefficients.getLast? with
  | none => .error .indexError
  | some c => .ok (toInterval c)

/-- `TaylorBounds.lower`, jax_bound.py:53-55. -/
def Bounds.lower (b : Bounds K) (x : ND K) : Py (ND K) := do
  return (toInterval (← b.call x)).1

/-- `TaylorBounds.upper`, jax_bound.py:57-59. -/
def Bounds.upper (b : Bounds K) (x : ND K) : Py (ND K) := do
  return (toInterval (← b.call x)).2

/-- `register_elementwise_primitive`, jax_bound.py:227-240. -/
def Lib.register (lib : Lib K) (name : String) (g : Generator K) : Lib K :=
  { lib with gen := fun n => if n = name then some g else lib.gen n }

end JB
end AB
