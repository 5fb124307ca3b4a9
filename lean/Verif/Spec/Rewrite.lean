/-
What "replace the occurrences of a pattern, from left to right" means, without reference to the algorithm.
-/
import Verif.Spec.Program
import Verif.Spec.Pipeline

namespace AB
namespace GE
variable {V D : Type}

/-- The variables of a sequence of operations. -/
def varsOf (ops : List (Op V D)) (v : V) : Prop := readsOf ops v ∨ writesOf ops v

/-- An occurrence of the pattern starts at the beginning of `ops`. -/
def OccursAtStart (deq : D → D → Bool) (canBind : V → V → Bool) (pattern ops : List (Op V D)) : Prop :=
  ∃ occ rest m, ops = occ ++ rest ∧ IsMatch deq canBind pattern occ m

/-- `v'` is `v` with the variables of the pattern renamed by `m`, and other variables kept. -/
def RenamedVar (pattern : List (Op V D)) (m : V → V) (v v' : V) : Prop :=
  (varsOf pattern v → v' = m v) ∧ (¬ varsOf pattern v → v' = v)

/-- The operation `o'` is `o` with its variables renamed so. -/
structure RenamedOp (pattern : List (Op V D)) (m : V → V) (o o' : Op V D) : Prop where
  data : o'.data = o.data
  inputs : List.Forall₂ (RenamedVar pattern m) o.inputs o'.inputs
  outputs : List.Forall₂ (RenamedVar pattern m) o.outputs o'.outputs

/-- `result` is `ops` where, going from left to right, every occurrence of the pattern that does not overlap an earlier
replaced one is replaced by the (renamed) replacement, and every other operation is kept. -/
inductive Rewritten (deq : D → D → Bool) (canBind : V → V → Bool) (pattern replacement : List (Op V D)) :
    List (Op V D) → List (Op V D) → Prop
  | done : Rewritten deq canBind pattern replacement [] []
  | occurrence {occ rest new result : List (Op V D)} {m : V → V} (h : IsMatch deq canBind pattern occ m)
      (hnew : List.Forall₂ (RenamedOp pattern m) replacement new)
      (hrest : Rewritten deq canBind pattern replacement rest result) :
      Rewritten deq canBind pattern replacement (occ ++ rest) (new ++ result)
  | keep {o : Op V D} {rest result : List (Op V D)} (h : ¬ OccursAtStart deq canBind pattern (o :: rest))
      (hrest : Rewritten deq canBind pattern replacement rest result) :
      Rewritten deq canBind pattern replacement (o :: rest) (o :: result)

end GE

namespace JE
variable {C P : Type}

/-- A rule whose pattern is one equation `e` (such as a call of a jitted function) that reads the pattern's input and
computes its result, and whose replacement is one application of a primitive; such are the rules of
`_register_elementwise_function`. -/
structure OneEqnRule (r : PRule C P) (e : Eqn C P) : Prop where
  eqns : r.pattern.eqns = [e]
  consts : r.pattern.constvars = []
  input : r.pattern.invars = [r.px]
  output : r.pattern.outvars = [.var r.po]
  used : Atom.var r.px ∈ e.invars
  result : e.outvars = [r.po]
  ssa : r.pattern.SSA
  wellScoped : r.pattern.WellScoped
  counts : r.pattern.CountsIdentify
  vars : r.rx.count ≠ r.ry.count

/-- The equation `e` of a program is an occurrence of the pattern equation `p`: the variables of `p` are bound as `m`
says (variables to variables, literals to literals with the same value), and the primitives are the same, with
equivalent parameters. -/
def IsOccurrence [DecidableEq C] [DecidableEq P] (p e : Eqn C P) (m : Vertex C → Vertex C) : Prop :=
  GE.IsMatch eqDataEq canBind [eqnOp 0 p] [eqnOp 0 e] m

/-- The same equation, up to the identity of the variable objects (their counts and types agree). -/
def SameEqn (e e' : Eqn C P) : Prop := eqnOp 0 e = eqnOp 0 e'

/-- `e'` applies the rule's primitive to what the pattern's input is bound to, and assigns what the pattern's result is
bound to. -/
structure AppliesPrimitive (r : PRule C P) (m : Vertex C → Vertex C) (e' : Eqn C P) : Prop where
  primitive : e'.primitive = r.name
  params : e'.params = r.params
  invars : e'.invars.map (atomVertex 0) = [m (varVertex 0 r.px)]
  outvars : e'.outvars.map (varVertex 0) = [m (varVertex 0 r.po)]

/-- What becomes of an equation `e` of the program under the rules (each with the equation of its pattern): the first
rule of whose pattern it is an occurrence is applied to it; if there is none, it is kept. -/
inductive RewrittenEqn [DecidableEq C] [DecidableEq P] : List (PRule C P × Eqn C P) → Eqn C P → Eqn C P → Prop
  | keep {e e' : Eqn C P} (h : SameEqn e e') : RewrittenEqn [] e e'
  | apply {r : PRule C P} {p e e' : Eqn C P} {rules : List (PRule C P × Eqn C P)} {m : Vertex C → Vertex C}
      (h : IsOccurrence p e m) (h' : AppliesPrimitive r m e') : RewrittenEqn ((r, p) :: rules) e e'
  | skip {r : PRule C P} {p e e' : Eqn C P} {rules : List (PRule C P × Eqn C P)}
      (h : ¬ ∃ m, IsOccurrence p e m) (h' : RewrittenEqn rules e e') : RewrittenEqn ((r, p) :: rules) e e'

end JE
end AB
