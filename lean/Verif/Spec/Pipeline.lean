/-
Specification vocabulary for the pipeline of `taylor_bounds`: what the equations of a Jaxpr compute, and the rules and
Jaxprs the claims are about.
-/
import Verif.Model.Pipeline
import Verif.Spec.Jaxpr
import Verif.Spec.JaxSem

namespace AB
namespace JE
variable {C P α : Type}

/-- Variables with count -1 (`DropVar`s) are neither constants, inputs or outputs nor arguments of equations. -/
def Jaxpr.DropsUnused (j : Jaxpr C P) : Prop :=
  (∀ v ∈ j.constvars ++ j.invars ++ atomVars j.outvars, v.count ≠ -1) ∧
  ∀ e ∈ j.eqns, ∀ v ∈ atomVars e.invars, v.count ≠ -1

/-- A rule (pattern, replacement) where the replacement is one application of a primitive. -/
structure PRule (C P : Type) where
  pattern : Jaxpr C P
  px : Var
  po : Var
  rx : Var
  ry : Var
  name : String
  params : List (String × Param C P)

/-- The two Jaxprs of the rule. -/
def PRule.pair (r : PRule C P) : Jaxpr C P × Jaxpr C P := (r.pattern, primitiveJaxpr r.rx r.ry r.name r.params)

/-- The rule replaces a pattern by a primitive that computes the same function. -/
structure PRule.Ok (𝓜 : Meaning C P α) (r : PRule C P) : Prop where
  rule : PrimitiveRule 𝓜 r.pattern r.px r.po r.name r.params
  vars : r.rx.count ≠ r.ry.count

/-- The parameters in the rule have the property `G`. -/
def PRule.ParamsIn (G : List (String × Param C P) → Prop) (r : PRule C P) : Prop :=
  r.pattern.ParamsIn G ∧ G r.params

end JE

namespace JB
open JE (Meaning PRule OccurrencesClosed)
variable {C P K : Type}

/-- What the literals and equations of a Jaxpr compute, on arrays that are compared by shape and entries. -/
def Decode.meaning [Field K] (D : Decode C P K) (sem : Sem K) : Meaning C P (ND K) where
  lit c := (D.lit c).canon
  prim name params xs := (((D.prim name params).bind sem xs).toOption).map (List.map ND.canon)

/-- When the rules are applied one after the other, the occurrences of their patterns are closed. -/
def RewriteOk [DecidableEq C] [DecidableEq P] (fresh : ℕ) : List (PRule C P) → JE.Jaxpr C P → Prop
  | [], _ => True
  | r :: rules, j => OccurrencesClosed r.pattern j r.px r.po ∧
    ∀ j', JE.replace r.pattern r.pair.2 j fresh (j.eqns.length + 1) = some (.ok j') → RewriteOk fresh rules j'

/-- What the pipeline assumes about the Jaxpr of `f`: it is well formed, with one input and one output. -/
structure SubjectOk (j : JE.Jaxpr C P) (consts : List (ND K)) : Prop where
  ssa : j.SSA
  wellScoped : j.WellScoped
  counts : j.CountsIdentify
  drops : j.DropsUnused
  invars : j.invars.length = 1
  outvars : j.outvars.length = 1
  consts : consts.length = j.constvars.length

end JB
end AB
