/-
Specification vocabulary for C85: primitives that call a function, such as `jit`, whose meaning is to evaluate the
Jaxpr they have as a parameter.
-/
import Verif.Spec.Pipeline

namespace AB
namespace JE
variable {C P α : Type}

mutual
/-- The Jaxpr and all Jaxprs inside its parameters bind every variable once and before it is used, and those inside the
parameters have no constants of their own (`jit` turns them into inputs). -/
def Jaxpr.DeepOk : Jaxpr C P → Prop
  | .mk c i o e => Jaxpr.WellScoped (.mk c i o e) ∧ Jaxpr.SSA (.mk c i o e) ∧ eqnsDeepOk e
  termination_by structural j => j
def eqnsDeepOk : List (Eqn C P) → Prop
  | [] => True
  | .mk _ _ _ q :: es => paramsDeepOk q ∧ eqnsDeepOk es
  termination_by structural l => l
def paramsDeepOk : List (String × Param C P) → Prop
  | [] => True
  | (_, v) :: q => v.DeepOk ∧ paramsDeepOk q
  termination_by structural l => l
def Param.DeepOk : Param C P → Prop
  | .closedJaxpr j _ => j.constvars = [] ∧ j.DeepOk
  | .jaxpr j => j.constvars = [] ∧ j.DeepOk
  | .function _ => True
  | .other _ => True
  termination_by structural p => p
end

/-- The Jaxpr under the key `key` of the parameters of an equation. -/
def bodyOf (key : String) (params : List (String × Param C P)) : Option (Jaxpr C P) :=
  match params.lookup key with
  | some (.closedJaxpr j _) => some j
  | some (.jaxpr j) => some j
  | _ => none

/-- The meaning of programs with calls: `calls name` is the parameter in which a primitive that calls a function keeps
the Jaxpr of the function (`none` for other primitives, which mean what they mean in `base`).  Calls are nested up to
`n` deep; a deeper call fails. -/
def callMeaning (base : Meaning C P α) (calls : String → Option String) : ℕ → Meaning C P α
  | 0 => ⟨base.lit, fun name params xs =>
      match calls name with
      | none => base.prim name params xs
      | some _ => none⟩
  | n + 1 => ⟨base.lit, fun name params xs =>
      match calls name with
      | none => base.prim name params xs
      | some key => (bodyOf key params).bind fun j => (callMeaning base calls n).eval j [] xs⟩

/-- Primitives that are not calls mean the same for parameters that are the same; the parameters with the Jaxprs of
the functions called are not among those the comparison ignores. -/
structure CallsOk (base : Meaning C P α) (calls : String → Option String) : Prop where
  respects : ∀ name, calls name = none → ∀ q q', SameParams q q' → base.prim name q = base.prim name q'
  keys : ∀ name key, calls name = some key → key ∉ ["weak_type", "jvp_jaxpr_fun"]

end JE

namespace JB
open JE (Meaning bodyOf)
variable {C P K : Type} [Field K]

/-- A list of results, as an outcome. -/
def pyOfOption {β : Type} : Option β → Py β
  | some b => .ok b
  | none => .error .typeError

/-- The function of one argument that a Jaxpr computes. -/
def unary (𝓜 : Meaning C P (ND K)) (j : JE.Jaxpr C P) (a : ND K) : Py (ND K) :=
  match 𝓜.eval j [] [a] with
  | some [y] => .ok y
  | _ => .error .typeError

/-- How the equations of programs with calls are read: a `jit` of a function with one argument and one result is the
primitive `jit` with that function, other calls are primitives that `taylor_bounds` has no rule for (for a `jit` of a
function of several arguments the rule raises `TypeError`, jax_bound.py:444-450); `D` says how the other equations are
read. -/
def callDecode (D : Decode C P K) (sem : Sem K) (calls : String → Option String) : ℕ → Decode C P K
  | 0 => ⟨D.lit, fun name params =>
      match calls name with
      | none => D.prim name params
      | some _ => .other name fun _ => .error .typeError⟩
  | n + 1 => ⟨D.lit, fun name params =>
      match calls name with
      | none => D.prim name params
      | some key =>
        match bodyOf key params with
        | none => .other name fun _ => .error .typeError
        | some j =>
          if name = "jit" ∧ j.invars.length = 1 ∧ j.outvars.length = 1 then
            .jit (unary ((callDecode D sem calls n).meaning sem) j)
          else
            .other name fun xs => pyOfOption (((callDecode D sem calls n).meaning sem).eval j [] xs)⟩

/-- As `CallsOk`, for the way equations are read. -/
structure DecodeCallsOk (D : Decode C P K) (calls : String → Option String) : Prop where
  respects : ∀ name, calls name = none → ∀ q q', JE.SameParams q q' → D.prim name q = D.prim name q'
  keys : ∀ name key, calls name = some key → key ∉ ["weak_type", "jvp_jaxpr_fun"]

end JB
end AB
