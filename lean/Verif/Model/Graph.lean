/-
Model of /repo/autobound/graph_editor.py, function by function.

`V` is the type of intermediate variables (any hashable type, with lawful equality), `D` the type of
`Operation.data`; Python's `==` on data is the argument `deq` (it is an arbitrary `__eq__`: the
Jaxpr editor's is not equality).  A Python dict from variables to variables is a partial function.
-/
import Mathlib.Logic.Basic
import Mathlib.Data.List.Basic

namespace AB
namespace GE

/-- `Operation`, graph_editor.py:32-37. -/
structure Op (V D : Type) where
  data : D
  inputs : List V
  outputs : List V

/-- A dict from variables to variables. -/
abbrev VMap (V : Type) := V → Option V

/-- `mapping.get(u, u)`. -/
def VMap.app {V : Type} (m : VMap V) (u : V) : V := (m u).getD u

/-- `d[u] = v`. -/
def VMap.set {V : Type} [DecidableEq V] (m : VMap V) (u v : V) : VMap V :=
  fun x => if x = u then some v else m x

/-- `Operation.subs`, graph_editor.py:39-42. -/
def Op.subs {V D : Type} (o : Op V D) (m : VMap V) : Op V D :=
  ⟨o.data, o.inputs.map m.app, o.outputs.map m.app⟩

/-- `ComputationGraph`, graph_editor.py:45-51 (its `data` field is carried along unchanged). -/
structure Graph (V D G : Type) where
  inputs : List V
  outputs : List V
  operations : List (Op V D)
  data : G

/-- `ComputationGraph.intermediate_variables`, graph_editor.py:53-59 (a set: here a list with
possible repetitions). -/
def Graph.intermediateVariables {V D G : Type} (g : Graph V D G) : List V :=
  g.inputs ++ g.outputs ++ g.operations.flatMap fun o => o.inputs ++ o.outputs

section
variable {V D : Type} [DecidableEq V] (deq : D → D → Bool) (canBind : V → V → Bool)

/-- The body of the inner loop of `match`, graph_editor.py:97-104; `none` is `return None`. -/
def bindVar (m : VMap V) (uv : V × V) : Option (VMap V) :=
  match m uv.1 with
  | some w => if w ≠ uv.2 then none else some m
  | none => if canBind uv.1 uv.2 then some (m.set uv.1 uv.2) else none

/-- The body of the outer loop of `match`, graph_editor.py:90-104. -/
def matchOp (m : VMap V) (ps : Op V D × Op V D) : Option (VMap V) :=
  if ps.1.inputs.length ≠ ps.2.inputs.length ∨ ps.1.outputs.length ≠ ps.2.outputs.length then none
  else if !deq ps.1.data ps.2.data then none
  else (ps.1.inputs.zip ps.2.inputs ++ ps.1.outputs.zip ps.2.outputs).foldlM (bindVar canBind) m

/-- `match`, graph_editor.py:62-105. -/
def matchOps (pattern subject : List (Op V D)) : Option (VMap V) :=
  if pattern.length ≠ subject.length then none
  else (pattern.zip subject).foldlM (matchOp deq canBind) fun _ => none

/-- The `while` loop of `replace`, graph_editor.py:137-145, from position `i` with
`output_operations = out`, run for at most `fuel` iterations of the loop condition; `none` means
that the loop has not ended by then. -/
def replaceLoop (pattern replacement ops : List (Op V D)) :
    ℕ → ℕ → List (Op V D) → Option (List (Op V D))
  | 0, _, _ => none
  | fuel + 1, i, out =>
    if h : i < ops.length then
      match matchOps deq canBind pattern ((ops.drop i).take pattern.length) with
      | some m => replaceLoop pattern replacement ops fuel (i + pattern.length)
          (out ++ replacement.map (·.subs m))
      | none => replaceLoop pattern replacement ops fuel (i + 1) (out ++ [ops[i]])
    else some out

/-- `replace`, graph_editor.py:108-151, run for at most `fuel` iterations. -/
def replace {G : Type} (pattern replacement : List (Op V D)) (subject : Graph V D G) (fuel : ℕ) :
    Option (Graph V D G) :=
  (replaceLoop deq canBind pattern replacement subject.operations fuel 0 []).map fun ops =>
    ⟨subject.inputs, subject.outputs, ops, subject.data⟩
end

end GE
end AB
