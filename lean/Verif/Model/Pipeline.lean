/-
Model of the way `taylor_bounds` (/repo/autobound/jax/jax_bound.py) uses the Jaxpr editor: the Jaxpr of `f` is
rewritten with the registered rules, and the rewritten Jaxpr is interpreted.
-/
import Verif.Model.JaxBound
import Verif.Model.Jaxpr

namespace AB
namespace JB
variable {C P K : Type}

/-- How the literals and equations of a Jaxpr are read as arrays and primitives with their parameters (what the
`bind` of a primitive finds in `eqn.params`). -/
structure Decode (C P K : Type) where
  lit : C → ND K
  prim : String → List (String × JE.Param C P) → Prim K

/-- A variable is identified by its count.  (`var_to_intermediate`, jax_bound.py:107-112, is keyed by the variable
itself; this is the same in Jaxprs where different variables have different counts.) -/
def Decode.atom (D : Decode C P K) : JE.Atom C → Atom K
  | .var v => .var v.count
  | .lit l => .lit (D.lit l.val)

/-- One equation, as the interpreter of jax_bound.py:136-205 sees it. -/
def Decode.eqn (D : Decode C P K) (e : JE.Eqn C P) : Eqn K :=
  ⟨D.prim e.primitive e.params, e.invars.map D.atom, e.outvars.map JE.Var.count⟩

/-- A Jaxpr, as the interpreter of jax_bound.py:89-205 sees it. -/
def Decode.jaxpr (D : Decode C P K) (j : JE.Jaxpr C P) : Jaxpr K :=
  ⟨j.constvars.map JE.Var.count, j.invars.map JE.Var.count, j.outvars.map D.atom, j.eqns.map D.eqn⟩

variable [DecidableEq C] [DecidableEq P]

/-- `_rewrite_jaxpr`, jax_bound.py:307-312, with the rules (pattern, replacement) as an argument; `none` if a call of
`jaxpr_editor.replace` does not return.  (With a non-empty pattern the loop of `graph_editor.replace` makes at most as
many iterations as there are equations, C39, so the bound on the number of iterations is no restriction.  The
variables of the result of `replace` are all new, so the identities of the variables of different calls need not be
different.) -/
def rewriteJaxpr (fresh : ℕ) : List (JE.Jaxpr C P × JE.Jaxpr C P) → JE.Jaxpr C P → Option (Py (JE.Jaxpr C P))
  | [], jaxpr => some (.ok jaxpr)
  | (pattern, replacement) :: rules, jaxpr =>
    match JE.replace pattern replacement jaxpr fresh (jaxpr.eqns.length + 1) with
    | none => none
    | some (.error e) => some (.error e)
    | some (.ok jaxpr) => rewriteJaxpr fresh rules jaxpr

variable [Field K] [LinearOrder K]

/-- `taylor_bounds(f, max_degree, propagate_trust_regions)(x0, (lo, hi))`, jax_bound.py:61-212, where `jaxpr` and
`consts` are the Jaxpr of `f` and its constants, before rewriting.  (In the code the rewriting comes after the check of
`max_degree` and the computation of the trust region, so if several steps raise, another exception may be reported.) -/
def taylorBoundsOf (lib : Lib K) (D : Decode C P K) (fresh : ℕ) (rules : List (JE.Jaxpr C P × JE.Jaxpr C P))
    (jaxpr : JE.Jaxpr C P) (consts : List (ND K)) (maxDegree : ℤ) (propagate : Bool) (x0 lo hi : ND K) :
    Option (Py (Bounds K)) :=
  match rewriteJaxpr fresh rules jaxpr with
  | none => none
  | some (.error e) => some (.error e)
  | some (.ok jaxpr) => some (taylorBounds lib (D.jaxpr jaxpr) consts maxDegree propagate x0 lo hi)

end JB
end AB
