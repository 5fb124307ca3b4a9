/-
Model of /repo/autobound/jax/jaxpr_editor.py, function by function.

`C` is the type of the values of literals, `P` the type of parameter values that are neither Jaxprs nor
functions; Python's `==` on them is equality (so NaN literals are not modelled).  A JAX primitive is
identified by its name, a data type by a string.
-/
import Verif.Model.Interval
import Verif.Model.Graph

namespace AB
namespace JE

/-- The attributes of an abstract value that the code looks at. -/
structure Aval where
  dtype : String
  shape : List ℕ
deriving DecidableEq

/-- `jex.core.Var`: compared and hashed by identity (`uid` is the identity of the object; `count` and `aval`
are attributes of it).  A `DropVar` (unused output of an equation) has count -1. -/
structure Var where
  uid : ℕ
  count : ℤ
  aval : Aval
deriving DecidableEq

/-- `jex.core.Literal`. -/
structure Lit (C : Type) where
  val : C
  aval : Aval
deriving DecidableEq

/-- A variable or a literal. -/
inductive Atom (C : Type) where
  | var (v : Var)
  | lit (l : Lit C)
deriving DecidableEq

/-- `atom.aval`. -/
def Atom.aval {C : Type} : Atom C → Aval
  | .var v => v.aval
  | .lit l => l.aval

mutual
/-- The value of a parameter of an equation: a `ClosedJaxpr`, a `Jaxpr`, a Python function or another
value. -/
inductive Param (C P : Type) where
  | closedJaxpr (j : Jaxpr C P) (consts : List P)
  | jaxpr (j : Jaxpr C P)
  | function (id : ℕ)
  | other (p : P)
/-- `JaxprEqn` (its `effects`, `source_info` and `ctx` are not modelled); `params` is a dict. -/
inductive Eqn (C P : Type) where
  | mk (primitive : String) (invars : List (Atom C)) (outvars : List Var) (params : List (String × Param C P))
/-- `jex.core.Jaxpr`. -/
inductive Jaxpr (C P : Type) where
  | mk (constvars invars : List Var) (outvars : List (Atom C)) (eqns : List (Eqn C P))
end

variable {C P : Type}

def Eqn.primitive : Eqn C P → String | .mk p _ _ _ => p
def Eqn.invars : Eqn C P → List (Atom C) | .mk _ i _ _ => i
def Eqn.outvars : Eqn C P → List Var | .mk _ _ o _ => o
def Eqn.params : Eqn C P → List (String × Param C P) | .mk _ _ _ p => p
def Jaxpr.constvars : Jaxpr C P → List Var | .mk c _ _ _ => c
def Jaxpr.invars : Jaxpr C P → List Var | .mk _ i _ _ => i
def Jaxpr.outvars : Jaxpr C P → List (Atom C) | .mk _ _ o _ => o
def Jaxpr.eqns : Jaxpr C P → List (Eqn C P) | .mk _ _ _ e => e

/-! ### Jaxprs and computation graphs -/

/-- `_EqnData`, jaxpr_editor.py:94-98. -/
structure EqnData (C P : Type) where
  primitive : String
  params : List (String × Param C P)

/-- `_IntermediateVariable`, jaxpr_editor.py:112-121: `(True, count, aval)` or `(False, val, aval)`. -/
inductive Vertex (C : Type) where
  | var (count : ℤ) (aval : Aval)
  | lit (val : C) (aval : Aval)
deriving DecidableEq

/-- `get_intermediate_variable`, jaxpr_editor.py:136-146, on a variable. -/
def varVertex (offset : ℤ) (v : Var) : Vertex C := .var (v.count + offset) v.aval

/-- `get_intermediate_variable`, jaxpr_editor.py:136-146. -/
def atomVertex (offset : ℤ) : Atom C → Vertex C
  | .var v => varVertex offset v
  | .lit l => .lit l.val l.aval

/-- One iteration of the loop of `_jaxpr_to_graph`, jaxpr_editor.py:149-156. -/
def eqnOp (offset : ℤ) (eqn : Eqn C P) : GE.Op (Vertex C) (EqnData C P) :=
  ⟨⟨eqn.primitive, eqn.params⟩, eqn.invars.map (atomVertex offset), eqn.outvars.map (varVertex offset)⟩

/-- The graphs of the Jaxpr editor; their data are the constant variables. -/
abbrev JGraph (C P : Type) := GE.Graph (Vertex C) (EqnData C P) (List (Vertex C))

/-- `_jaxpr_to_graph`, jaxpr_editor.py:124-165. -/
def jaxprToGraph (jaxpr : Jaxpr C P) (offset : ℤ := 0) : JGraph C P :=
  ⟨jaxpr.invars.map (varVertex offset), jaxpr.outvars.map (atomVertex offset),
    jaxpr.eqns.map (eqnOp offset), jaxpr.constvars.map (varVertex offset)⟩

/-- `count_to_var`, jaxpr_editor.py:170. -/
abbrev CountMap := List (ℤ × Var)

/-- `vertex_to_var_or_literal`, jaxpr_editor.py:172-184.  The identity of a newly created variable is
`fresh +` the number of variables created before. -/
def toAtom (fresh : ℕ) (m : CountMap) : Vertex C → Atom C × CountMap
  | .var count aval =>
    match m.lookup count with
    | some v => (.var v, m)
    | none => let v : Var := ⟨fresh + m.length, count, aval⟩; (.var v, (count, v) :: m)
  | .lit val aval => (.lit ⟨val, aval⟩, m)

/-- `[vertex_to_var_or_literal(u) for u in us]`. -/
def toAtoms (fresh : ℕ) : CountMap → List (Vertex C) → List (Atom C) × CountMap
  | m, [] => ([], m)
  | m, u :: us =>
    let (a, m1) := toAtom fresh m u
    let (as, m2) := toAtoms fresh m1 us
    (a :: as, m2)

/-- The same, where a variable is needed: JAX expects `Var`s as outputs of equations, and as inputs and
constants of a Jaxpr. (A literal there is an ill-formed Jaxpr: modelled as `TypeError`.) -/
def onlyVars : List (Atom C) → Py (List Var)
  | [] => .ok []
  | .var v :: l => do return v :: (← onlyVars l)
  | .lit _ :: _ => .error .typeError

/-- The loop over the operations of `_graph_to_jaxpr`, jaxpr_editor.py:186-195. -/
def toEqns (fresh : ℕ) : CountMap → List (GE.Op (Vertex C) (EqnData C P)) →
    Py (List (Eqn C P) × CountMap)
  | m, [] => .ok ([], m)
  | m, o :: os => do
    let (ins, m1) := toAtoms fresh m o.inputs
    let (outs, m2) := toAtoms fresh m1 o.outputs
    let ovs ← onlyVars outs
    let (rest, m3) ← toEqns fresh m2 os
    return (.mk o.data.primitive ins ovs o.data.params :: rest, m3)

/-- `_graph_to_jaxpr`, jaxpr_editor.py:168-199. -/
def graphToJaxpr (fresh : ℕ) (h : JGraph C P) : Py (Jaxpr C P) := do
  let (eqns, m) ← toEqns fresh [] h.operations
  let (ins, m1) := toAtoms fresh m h.inputs
  let (outs, m2) := toAtoms fresh m1 h.outputs
  let (consts, _) := toAtoms fresh m2 h.data
  return .mk (← onlyVars consts) (← onlyVars ins) outs eqns

/-- `_can_bind`, jaxpr_editor.py:202-207. -/
def canBind [DecidableEq C] : Vertex C → Vertex C → Bool
  | .var _ _, .var _ _ => true
  | .var _ _, .lit _ _ => false
  | .lit _ _, .var _ _ => false
  | .lit a _, .lit b _ => a = b

/-! ### Equality up to the names of variables -/

/-- `_JAXPR_EQN_PARAMS_TO_IGNORE`, jaxpr_editor.py:211. -/
def ignoredParams : List String := ["weak_type", "jvp_jaxpr_fun"]

/-- `_match_avals`, jaxpr_editor.py:239-240. -/
def matchAvals (a0 a1 : Aval) (ignoreShape : Bool) : Bool :=
  a0.dtype = a1.dtype && (ignoreShape || a0.shape = a1.shape)

/-- `_equiv_literals`, jaxpr_editor.py:243-251: a `Literal` has no attributes `dtype` and `shape` (they are
attributes of its `aval`), so `getattr(l, name, None)` is `None` and only the values are compared. -/
def equivLiterals [DecidableEq C] (l0 l1 : Lit C) : Bool := l0.val = l1.val

/-- `var_map`, jaxpr_editor.py:258. -/
abbrev VarMap (C : Type) := List (Var × Atom C)

/-- `check`, jaxpr_editor.py:259-275, with the updated `var_map`; `none` is `False`. -/
def check [DecidableEq C] (ignoreShape : Bool) (m : VarMap C) (v0 v1 : Atom C) : Option (VarMap C) :=
  match v0 with
  | .lit l0 => match v1 with
    | .lit l1 => if equivLiterals l0 l1 then some m else none
    | .var _ => none
  | .var v => match m.lookup v with
    | none => if matchAvals v.aval v1.aval ignoreShape then some ((v, v1) :: m) else none
    | some w => if w = v1 then some m else none

/-- `for v0, v1 in zip(...): if not check(v0, v1): return False`. -/
def checks [DecidableEq C] (ignoreShape : Bool) (m : VarMap C) (l : List (Atom C × Atom C)) :
    Option (VarMap C) :=
  l.foldlM (fun m p => check ignoreShape m p.1 p.2) m

variable [DecidableEq C] [DecidableEq P]

/-- `set(p0.keys()) == set(p1.keys())`, jaxpr_editor.py:216. -/
def sameKeys {α : Type} (p0 p1 : List (String × α)) : Bool :=
  (p0.map Prod.fst).all (fun k => k ∈ p1.map Prod.fst) && (p1.map Prod.fst).all fun k => k ∈ p0.map Prod.fst

mutual
/-- `_same_jaxpr_up_to_variable_renaming`, jaxpr_editor.py:254-304. -/
def sameJaxpr (ignoreShape : Bool) : Jaxpr C P → Jaxpr C P → Py Bool
  | .mk c0 i0 o0 e0, j1 =>
    if c0.length ≠ j1.constvars.length ∨ i0.length ≠ j1.invars.length ∨ o0.length ≠ j1.outvars.length ∨
        e0.length ≠ j1.eqns.length then .ok false
    else
      match checks ignoreShape [] ((i0.map Atom.var).zip (j1.invars.map Atom.var) ++
          (c0.map Atom.var).zip (j1.constvars.map Atom.var) ++ o0.zip j1.outvars) with
      | none => .ok false
      | some m => sameEqns ignoreShape m e0 j1.eqns
  termination_by structural j => j

/-- The loop over the equations, jaxpr_editor.py:289-302. -/
def sameEqns (ignoreShape : Bool) : VarMap C → List (Eqn C P) → List (Eqn C P) → Py Bool
  | m, .mk p0 i0 o0 q0 :: es0, e1 :: es1 =>
    if p0 ≠ e1.primitive then .ok false
    else do
      -- `_jaxpr_eqn_params_equiv(eq0.params, eq1.params)`
      let same ← if sameKeys q0 e1.params then paramsLoop q0 e1.params else .ok false
      if !same then return false
      else if i0.length ≠ e1.invars.length ∨ o0.length ≠ e1.outvars.length then return false
      else
        match checks ignoreShape m (i0.zip e1.invars ++ (o0.map Atom.var).zip (e1.outvars.map Atom.var)) with
        | none => return false
        | some m' => sameEqns ignoreShape m' es0 es1
  | _, [], _ => .ok true
  | _, _ :: _, [] => .ok true
  termination_by structural _ l => l

/-- The loop of `_jaxpr_eqn_params_equiv`, jaxpr_editor.py:218-235. -/
def paramsLoop : List (String × Param C P) → List (String × Param C P) → Py Bool
  | [], _ => .ok true
  | (k0, v0) :: p0, p1 =>
    if k0 ∈ ignoredParams then paramsLoop p0 p1
    else match p1.lookup k0 with
      | none => .error .keyError
      | some v1 => do
        if !(← paramEquiv v0 v1) then return false
        else paramsLoop p0 p1
  termination_by structural l => l

/-- The body of the loop of `_jaxpr_eqn_params_equiv`, jaxpr_editor.py:222-235: `False` if the loop returns
`False`.  A Jaxpr compared with something else raises `AttributeError`. -/
def paramEquiv : Param C P → Param C P → Py Bool
  | .closedJaxpr j0 _, .closedJaxpr j1 _ => sameJaxpr true j0 j1
  | .closedJaxpr _ _, _ => .error .attributeError
  | .jaxpr j0, .jaxpr j1 => sameJaxpr true j0 j1
  | .jaxpr _, _ => .error .attributeError
  | .function _, .function _ => .ok true
  | .function _, _ => .ok false
  | .other p0, .other p1 => .ok (p0 = p1)
  | .other _, _ => .ok false
  termination_by structural p => p
end

/-- `_jaxpr_eqn_params_equiv`, jaxpr_editor.py:214-236. -/
def paramsEquiv (p0 p1 : List (String × Param C P)) : Py Bool :=
  if sameKeys p0 p1 then paramsLoop p0 p1 else .ok false

/-- `_EqnData.__eq__`, jaxpr_editor.py:100-103.  (An exception raised by `_jaxpr_eqn_params_equiv` is
modelled as `False`.) -/
def eqDataEq (d0 d1 : EqnData C P) : Bool :=
  d0.primitive = d1.primitive && (match paramsEquiv d0.params d1.params with
    | .ok b => b
    | .error _ => false)

/-! ### replace -/

/-- `v[1] if v[0] else -1`, jaxpr_editor.py:80-82. -/
def Vertex.countOr : Vertex C → ℤ
  | .var count _ => count
  | .lit _ _ => -1

/-- `max(...)` of jaxpr_editor.py:79-82; `max` of nothing raises `ValueError`. -/
def maxCount (g : JGraph C P) : Py ℤ :=
  match g.intermediateVariables.map Vertex.countOr with
  | [] => .error .valueError
  | n :: l => .ok (l.foldl max n)

/-- `intermediate_variable_map`, jaxpr_editor.py:86-91. -/
def replacementMap (replacement pattern : JGraph C P) : GE.VMap (Vertex C) :=
  (replacement.inputs.zip pattern.inputs ++ replacement.outputs.zip pattern.outputs).foldl
    (fun m uv => m.set uv.1 uv.2) fun _ => none

/-- `replacement_operations`, jaxpr_editor.py:83-94. -/
def replacementOps (pattern replacement : Jaxpr C P) : Py (List (GE.Op (Vertex C) (EqnData C P))) := do
  let pg := jaxprToGraph pattern
  let rg := jaxprToGraph replacement ((← maxCount pg) + 1)
  return rg.operations.map fun e => e.subs (replacementMap rg pg)

/-- `replace`, jaxpr_editor.py:26-91: `fuel` bounds the number of iterations of the loop of
`graph_editor.replace` (`none` if it has not ended by then), `fresh` is the identity of the first variable
created. -/
def replace (pattern replacement subject : Jaxpr C P) (fresh fuel : ℕ) : Option (Py (Jaxpr C P)) :=
  if pattern.invars.length ≠ replacement.invars.length then some (.error .valueError)
  else if pattern.outvars.length ≠ replacement.outvars.length then some (.error .valueError)
  else if pattern.constvars ≠ [] ∨ replacement.constvars ≠ [] then some (.error .notImplemented)
  else match replacementOps pattern replacement with
    | .error e => some (.error e)
    | .ok ops =>
      (GE.replace eqDataEq canBind (jaxprToGraph pattern).operations ops (jaxprToGraph subject) fuel).map
        (graphToJaxpr fresh)

end JE
end AB
