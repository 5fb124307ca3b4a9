/-
Specification vocabulary: programs that differ only in the names of their variables, the order of their equations or in
equations that do not matter.
-/
import Verif.Model.JaxBound

namespace AB.JB
variable {K : Type}

/-- Renaming the variables of an atom. -/
def Atom.rename (ρ : ℤ → ℤ) : Atom K → Atom K
  | .var v => .var (ρ v)
  | .lit a => .lit a

/-- Renaming the variables of an equation. -/
def Eqn.rename (ρ : ℤ → ℤ) (e : Eqn K) : Eqn K := ⟨e.prim, e.invars.map (Atom.rename ρ), e.outvars.map ρ⟩

/-- Renaming the variables of a Jaxpr. -/
def Jaxpr.rename (ρ : ℤ → ℤ) (j : Jaxpr K) : Jaxpr K :=
  ⟨j.constvars.map ρ, j.invars.map ρ, j.outvars.map (Atom.rename ρ), j.eqns.map (Eqn.rename ρ)⟩

/-- The variables assigned by a list of equations (without `DropVar`s, whose count is -1). -/
def assigned (eqns : List (Eqn K)) : List ℤ := (eqns.flatMap Eqn.outvars).filter (· ≠ -1)

/-- Every variable an equation reads has a value: it is in `known` or assigned by an earlier equation. -/
def InOrder : List ℤ → List (Eqn K) → Prop
  | _, [] => True
  | known, e :: rest => (∀ v, Atom.var v ∈ e.invars → v ∈ known) ∧ InOrder (known ++ assigned [e]) rest

end AB.JB
