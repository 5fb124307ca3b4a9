/-
Specification vocabulary for /repo/autobound/jax/jaxpr_editor.py: Jaxprs that are equal up to the names of
variables, and what a Jaxpr computes.
-/
import Verif.Model.Jaxpr
import Verif.Spec.Program

namespace AB
namespace JE
variable {C P α : Type}

/-- The variables of a list of atoms. -/
def atomVars (l : List (Atom C)) : List Var :=
  l.filterMap fun | .var v => some v | .lit _ => none

/-- The variables that occur in a list of equations / a Jaxpr (not those inside parameters). -/
def eqnsVars (l : List (Eqn C P)) : List Var := l.flatMap fun e => atomVars e.invars ++ e.outvars
def Jaxpr.vars (j : Jaxpr C P) : List Var :=
  j.constvars ++ j.invars ++ atomVars j.outvars ++ eqnsVars j.eqns

/-- The atom `b` is the atom `a` with variables renamed by `ρ` (literals: same value). -/
def SameAtom (ρ : Var → Atom C) : Atom C → Atom C → Prop
  | .var v, b => b = ρ v
  | .lit l, .lit l' => l.val = l'.val
  | .lit _, .var _ => False

/-- `ρ` maps the variables `vs` to atoms of the same data type, and of the same shape unless that is
ignored. -/
def KeepsAvals (ignoreShape : Bool) (ρ : Var → Atom C) (vs : List Var) : Prop :=
  ∀ v ∈ vs, v.aval.dtype = (ρ v).aval.dtype ∧ (ignoreShape = false → v.aval.shape = (ρ v).aval.shape)

mutual
/-- The Jaxprs are equal up to a renaming of variables. -/
def SameJaxpr (ignoreShape : Bool) : Jaxpr C P → Jaxpr C P → Prop
  | .mk c0 i0 o0 e0, j1 => ∃ ρ : Var → Atom C,
      c0.map ρ = j1.constvars.map Atom.var ∧ i0.map ρ = j1.invars.map Atom.var ∧
      List.Forall₂ (SameAtom ρ) o0 j1.outvars ∧ SameEqns ρ e0 j1.eqns ∧
      KeepsAvals ignoreShape ρ (c0 ++ i0 ++ atomVars o0 ++ eqnsVars e0)
  termination_by structural j => j
/-- The equations are equal after renaming the variables of the first list by `ρ`. -/
def SameEqns (ρ : Var → Atom C) : List (Eqn C P) → List (Eqn C P) → Prop
  | [], l => l = []
  | .mk _ _ _ _ :: _, [] => False
  | .mk p0 i0 o0 q0 :: es0, e1 :: es1 =>
    (p0 = e1.primitive ∧ List.Forall₂ (SameAtom ρ) i0 e1.invars ∧ o0.map ρ = e1.outvars.map Atom.var ∧
      ((∀ k, k ∈ q0.map Prod.fst ↔ k ∈ e1.params.map Prod.fst) ∧ SameValues q0 e1.params)) ∧
    SameEqns ρ es0 es1
  termination_by structural l => l
/-- Every parameter of the first list has the same value in the second one (except ignored parameters). -/
def SameValues : List (String × Param C P) → List (String × Param C P) → Prop
  | [], _ => True
  | (k, v) :: q0, q1 =>
    (k ∉ ["weak_type", "jvp_jaxpr_fun"] → ∃ v1, q1.lookup k = some v1 ∧ SameParam v v1) ∧ SameValues q0 q1
  termination_by structural l => l
/-- The same value of a parameter: Jaxprs up to a renaming of variables, ignoring shapes (and, for
`ClosedJaxpr`s, the values of their constants); any two functions; otherwise equal values. -/
def SameParam : Param C P → Param C P → Prop
  | .closedJaxpr j0 _, .closedJaxpr j1 _ => SameJaxpr true j0 j1
  | .jaxpr j0, .jaxpr j1 => SameJaxpr true j0 j1
  | .function _, .function _ => True
  | .other p0, .other p1 => p0 = p1
  | _, _ => False
  termination_by structural p => p
end

/-- The parameters of two equations are the same (up to the above). -/
def SameParams (q0 q1 : List (String × Param C P)) : Prop :=
  (∀ k, k ∈ q0.map Prod.fst ↔ k ∈ q1.map Prod.fst) ∧ SameValues q0 q1

/-! ### What a Jaxpr computes -/

/-- A meaning for literals and primitives: `prim name params xs` is the list of results of the primitive on
the arguments `xs` (`none` if it fails). -/
structure Meaning (C P α : Type) where
  lit : C → α
  prim : String → List (String × Param C P) → List α → Option (List α)

/-- The meaning of a primitive is the same for parameters that are the same. -/
def Meaning.Respects (𝓜 : Meaning C P α) : Prop :=
  ∀ p q q', SameParams q q' → 𝓜.prim p q = 𝓜.prim p q'

/-- The same for parameters with the property `G`. -/
def Meaning.RespectsOn (G : List (String × Param C P) → Prop) (𝓜 : Meaning C P α) : Prop :=
  ∀ p q q', G q → G q' → SameParams q q' → 𝓜.prim p q = 𝓜.prim p q'

/-- The parameters of all equations have the property `G`. -/
def Jaxpr.ParamsIn (G : List (String × Param C P) → Prop) (j : Jaxpr C P) : Prop := ∀ e ∈ j.eqns, G e.params

/-- The values of the variables. -/
abbrev VEnv (α : Type) := Var → Option α

/-- The value of an atom. -/
def Meaning.read (𝓜 : Meaning C P α) (e : VEnv α) : Atom C → Option α
  | .var v => e v
  | .lit l => some (𝓜.lit l.val)

/-- Evaluate one equation. -/
def Meaning.step (𝓜 : Meaning C P α) (e : VEnv α) (eqn : Eqn C P) : Option (VEnv α) := do
  let xs ← eqn.invars.mapM (𝓜.read e)
  let ys ← 𝓜.prim eqn.primitive eqn.params xs
  GE.assign e eqn.outvars ys

/-- The outputs of a Jaxpr on given values of its constant variables and inputs. -/
def Meaning.eval (𝓜 : Meaning C P α) (j : Jaxpr C P) (consts xs : List α) : Option (List α) := do
  let e ← GE.assign (fun _ => none) j.constvars consts
  let e ← GE.assign e j.invars xs
  let e ← j.eqns.foldlM 𝓜.step e
  j.outvars.mapM (𝓜.read e)

/-- The variables bound by a Jaxpr. -/
def Jaxpr.binders (j : Jaxpr C P) : List Var :=
  j.constvars ++ j.invars ++ j.eqns.flatMap Eqn.outvars

/-- Only variables in `scope`, or bound by an earlier equation, are used. -/
def Scoped : List Var → List (Eqn C P) → List (Atom C) → Prop
  | scope, [], outs => ∀ v ∈ atomVars outs, v ∈ scope
  | scope, e :: es, outs => (∀ v ∈ atomVars e.invars, v ∈ scope) ∧ Scoped (scope ++ e.outvars) es outs

/-- Every variable is bound before it is used. -/
def Jaxpr.WellScoped (j : Jaxpr C P) : Prop := Scoped (j.constvars ++ j.invars) j.eqns j.outvars

/-- Every variable is bound at most once. -/
def Jaxpr.SSA (j : Jaxpr C P) : Prop := j.binders.Nodup

/-! ### Renaming -/

/-- Rename the variables of an atom / a Jaxpr (not those inside parameters). -/
def Atom.rename (σ : Var → Var) : Atom C → Atom C
  | .var v => .var (σ v)
  | .lit l => .lit l
def Eqn.rename (σ : Var → Var) (e : Eqn C P) : Eqn C P :=
  .mk e.primitive (e.invars.map (Atom.rename σ)) (e.outvars.map σ) e.params
def Jaxpr.rename (σ : Var → Var) (j : Jaxpr C P) : Jaxpr C P :=
  .mk (j.constvars.map σ) (j.invars.map σ) (j.outvars.map (Atom.rename σ)) (j.eqns.map (Eqn.rename σ))

/-- Parameter dicts have different keys, also inside nested Jaxprs. -/
def keysNodup {β : Type} (q : List (String × β)) : Prop := (q.map Prod.fst).Nodup

mutual
def Jaxpr.DictsOk : Jaxpr C P → Prop
  | .mk _ _ _ e => eqnsDictsOk e
  termination_by structural j => j
def eqnsDictsOk : List (Eqn C P) → Prop
  | [] => True
  | .mk _ _ _ q :: es => (keysNodup q ∧ paramsDictsOk q) ∧ eqnsDictsOk es
  termination_by structural l => l
def paramsDictsOk : List (String × Param C P) → Prop
  | [] => True
  | (_, v) :: q => v.DictsOk ∧ paramsDictsOk q
  termination_by structural l => l
def Param.DictsOk : Param C P → Prop
  | .closedJaxpr j _ => j.DictsOk
  | .jaxpr j => j.DictsOk
  | .function _ => True
  | .other _ => True
  termination_by structural p => p
end

end JE
end AB

namespace AB
namespace JE
variable {C P α : Type}

/-- Different variables of a Jaxpr have different counts. -/
def Jaxpr.CountsIdentify (j : Jaxpr C P) : Prop := ∀ u ∈ j.vars, ∀ v ∈ j.vars, u.count = v.count → u = v

/-- A rewrite rule that replaces the pattern, a function of one variable `px` with one result `po`, by one
application of the primitive `name`: the pattern is a well-formed Jaxpr that uses its input and computes its
result, and the primitive computes the same function. -/
structure PrimitiveRule (𝓜 : Meaning C P α) (pattern : Jaxpr C P) (px po : Var) (name : String)
    (params : List (String × Param C P)) : Prop where
  consts : pattern.constvars = []
  input : pattern.invars = [px]
  output : pattern.outvars = [.var po]
  ssa : pattern.SSA
  wellScoped : pattern.WellScoped
  counts : pattern.CountsIdentify
  used : ∃ e ∈ pattern.eqns, Atom.var px ∈ e.invars
  computed : ∃ e ∈ pattern.eqns, po ∈ e.outvars
  same : ∀ x ys, 𝓜.eval pattern [] [x] = some ys → 𝓜.prim name params [x] = some ys

/-- The Jaxpr of a primitive applied to one argument (`jax.make_jaxpr(p.bind)(0.)`). -/
def primitiveJaxpr (rx ry : Var) (name : String) (params : List (String × Param C P)) : Jaxpr C P :=
  .mk [] [rx] [.var ry] [.mk name [.var rx] [ry] params]

/-- In every occurrence of the pattern in `subject`, the results other than the pattern's output `po` are
neither used later nor are outputs, and the pattern's input `px` is not bound to a result of the occurrence
itself. -/
def OccurrencesClosed [DecidableEq C] [DecidableEq P] (pattern subject : Jaxpr C P) (px po : Var) : Prop :=
  ∀ A occ B m, (jaxprToGraph subject).operations = A ++ occ ++ B →
    GE.IsMatch eqDataEq canBind (jaxprToGraph pattern).operations occ m →
    (∀ e ∈ pattern.eqns, ∀ v ∈ e.outvars, v ≠ po →
      ¬ GE.readsOf B (m (varVertex 0 v)) ∧ m (varVertex 0 v) ∉ (jaxprToGraph subject).outputs) ∧
    ¬ GE.writesOf occ (m (varVertex 0 px))

end JE
end AB
