/-
Specification vocabulary for computation graphs: what a sequence of operations computes.
-/
import Verif.Model.Graph

namespace AB
namespace GE
variable {V D α : Type}

/-- `m` is a match of `pattern` with `subject`: substituting it in `pattern` gives `subject` (data up to
`deq`), and every variable it binds may be bound so. -/
structure IsMatch (deq : D → D → Bool) (canBind : V → V → Bool) (pattern subject : List (Op V D))
    (m : V → V) : Prop where
  same : List.Forall₂ (fun p s => deq p.data s.data = true ∧ p.inputs.map m = s.inputs ∧
    p.outputs.map m = s.outputs) pattern subject
  binds : ∀ p ∈ pattern, ∀ u, u ∈ p.inputs ∨ u ∈ p.outputs → canBind u (m u) = true

/-- variables read, written by a sequence of operations -/
def readsOf (ops : List (Op V D)) (v : V) : Prop := ∃ o ∈ ops, v ∈ o.inputs
def writesOf (ops : List (Op V D)) (v : V) : Prop := ∃ o ∈ ops, v ∈ o.outputs

section
variable [DecidableEq V]

/-- A meaning for the vertices and operations: `lit v = some a` if the vertex `v` is a constant with value
`a`, and `interp d xs` is the list of results of an operation with data `d` on arguments `xs` (`none` if it
fails). -/
structure Interp (V D α : Type) where
  lit : V → Option α
  interp : D → List α → Option (List α)

/-- An environment gives values to the variables computed so far. -/
abbrev Env (V α : Type) := V → Option α

/-- the value of a vertex -/
def Interp.look (𝓘 : Interp V D α) (e : Env V α) (v : V) : Option α := (𝓘.lit v).orElse fun _ => e v

/-- assign `xs` to the variables `vs` -/
def assign (e : Env V α) : List V → List α → Option (Env V α)
  | [], [] => some e
  | v :: vs, x :: xs => assign (fun w => if w = v then some x else e w) vs xs
  | _, _ => none

/-- execute one operation: fails if an argument has no value, or the operation fails, or the number of
results is wrong -/
def Interp.step (𝓘 : Interp V D α) (e : Env V α) (o : Op V D) : Option (Env V α) := do
  let xs ← o.inputs.mapM (𝓘.look e)
  let ys ← 𝓘.interp o.data xs
  assign e o.outputs ys

/-- execute a sequence of operations -/
def Interp.run (𝓘 : Interp V D α) (ops : List (Op V D)) (e : Env V α) : Option (Env V α) :=
  ops.foldlM 𝓘.step e

/-- the values of the outputs of a graph, given the values `xs` of its inputs (on top of `e`, which gives
values to e.g. constant variables) -/
def Interp.eval {G : Type} (𝓘 : Interp V D α) (g : Graph V D G) (e : Env V α) (xs : List α) :
    Option (List α) := do
  let e ← assign e g.inputs xs
  let e ← 𝓘.run g.operations e
  g.outputs.mapM (𝓘.look e)
end

/-- `replacement` computes the same values of the variables `outs` as `pattern`, whenever `pattern` runs; it
reads only constants, its own results and the inputs of `pattern`, and writes only `outs` and `internal`
variables, which do not occur in `pattern`. -/
structure RuleOk [DecidableEq V] (𝓘 : Interp V D α) (pattern replacement : List (Op V D)) (outs : List V)
    (internal : V → Prop) : Prop where
  equiv : ∀ ε ε1, 𝓘.run pattern ε = some ε1 →
    ∃ ε2, 𝓘.run replacement ε = some ε2 ∧ ∀ u ∈ outs, 𝓘.look ε1 u = 𝓘.look ε2 u
  outs_written : ∀ u ∈ outs, writesOf pattern u
  reads : ∀ u, readsOf replacement u →
    writesOf replacement u ∨ 𝓘.lit u ≠ none ∨ (readsOf pattern u ∧ ¬ writesOf pattern u)
  writes : ∀ u, writesOf replacement u → u ∈ outs ∨ internal u
  not_const : ∀ u, writesOf pattern u ∨ writesOf replacement u → 𝓘.lit u = none
  internal_fresh : ∀ u, internal u → ¬ readsOf pattern u ∧ ¬ writesOf pattern u

/-- The graph `g` may be rewritten with the rule: no variable is written twice, the replacement's internal
variables do not occur in `g`, and for every occurrence of the pattern (i) its results other than the
pattern's outputs are used neither later nor as outputs of `g`, (ii) no input of the pattern is bound to a
variable the occurrence itself computes. -/
structure Rewritable {G : Type} [DecidableEq V] (deq : D → D → Bool) (canBind : V → V → Bool)
    (pattern : List (Op V D)) (outs : List V) (internal : V → Prop) (g : Graph V D G) : Prop where
  once : (g.operations.flatMap (·.outputs)).Nodup
  internal_fresh : ∀ u, internal u → ¬ readsOf g.operations u ∧ ¬ writesOf g.operations u ∧ u ∉ g.outputs
  unused : ∀ A occ B m, g.operations = A ++ occ ++ B → IsMatch deq canBind pattern occ m →
    ∀ u, writesOf pattern u → u ∉ outs → ¬ readsOf B (m u) ∧ m u ∉ g.outputs
  inputs_outside : ∀ A occ B m, g.operations = A ++ occ ++ B → IsMatch deq canBind pattern occ m →
    ∀ u, readsOf pattern u → ¬ writesOf pattern u → ¬ writesOf occ (m u)

end GE
end AB
