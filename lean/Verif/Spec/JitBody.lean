/-
Specification vocabulary for C50 (jit): jitted functions whose body is a sequence of the primitives in
`_PASS_THRU_PRIMITIVES` (/repo/autobound/jax/jax_bound.py:293-304), such as `jnp.squeeze`, `jnp.sum`,
`jnp.reshape`, which JAX traces as calls of `jit`.
-/
import Verif.Model.Lax

namespace AB
open Lax
variable {K : Type} [Field K]

/-- The function a jitted body computes that applies the primitives `ps` one after the other. -/
def jitBody (sem : Sem K) (ps : List (Prim K)) (u : ND K) : Py (ND K) :=
  ps.foldlM (fun v p => p.bind1 sem v) u

mutual
/-- The pass-through primitive `p` takes arrays of shape `Ra` to arrays of shape `Rc`
(`xs` is the shape of `x`, which only matters for `reshape`). -/
inductive PassThruPrim (sem : Sem K) (xs : List ℕ) : Prim K → List ℕ → List ℕ → Prop
  | reduceSum {axes Ra} : AxesOk Ra.length axes →
      PassThruPrim sem xs (.reduceSum axes) Ra (dropAxes axes Ra)
  | squeeze {dims Ra} : AxesOk Ra.length dims → (∀ d ∈ dims, Ra.getD d 0 = 1) →
      PassThruPrim sem xs (.squeeze dims) Ra (dropAxes dims Ra)
  | transpose {perm Ra} : perm.length = Ra.length → perm.Nodup → (∀ p ∈ perm, p < Ra.length) →
      PassThruPrim sem xs (.transpose perm) Ra (perm.map fun p => Ra.getD p 0)
  | reduceWindowSum {ws Ra} : ws.length = Ra.length →
      PassThruPrim sem xs (.reduceWindowSum ws) Ra (List.zipWith WinAxis.outSize ws Ra)
  | reshape {newSizes Ra} : (xs = [] ∨ xs.prod ≠ 1) → newSizes.prod = Ra.prod → Ra.prod ≠ 0 →
      PassThruPrim sem xs (.reshape newSizes) Ra newSizes
  | convert {round Ra} : (∀ t, round t = t) → PassThruPrim sem xs (.convertElementType round) Ra Ra
  /-- a jitted function may itself call jitted functions of this kind -/
  | jit {ps Ra Rc} : PassThruChain sem xs ps Ra Rc →
      PassThruPrim sem xs (.jit (jitBody sem ps)) Ra Rc
/-- The primitives `ps`, applied one after the other, take arrays of shape `Ra` to arrays of shape
`Rc`. -/
inductive PassThruChain (sem : Sem K) (xs : List ℕ) : List (Prim K) → List ℕ → List ℕ → Prop
  | nil {Ra} : PassThruChain sem xs [] Ra Ra
  | cons {p ps Ra Rb Rc} : PassThruPrim sem xs p Ra Rb → PassThruChain sem xs ps Rb Rc →
      PassThruChain sem xs (p :: ps) Ra Rc
end

end AB
