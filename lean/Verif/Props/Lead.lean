/-
C76: the polynomial part of the bounds (all coefficients but the final interval) does not depend on the trust
region, on `propagate_trust_regions`, or on how the final interval of an element-wise function was computed.
-/
import Verif.Proofs.Lead2
import Verif.Proofs.IsoLib
import Verif.Props.AtRef

set_option linter.unusedSectionVars false

namespace AB
namespace JB
open TEA PE EF

section
variable {K : Type} [Field K] [LinearOrder K] [IsStrictOrderedRing K]

/-- **C76.**  Take one program, one reference point `x0`, one degree, and two trust regions of the same shape; the two
runs may also differ in `propagate_trust_regions` and in the tables of enclosure generators, as long as these use
the same Taylor polynomials.  If both calls return, then (for a positive degree) they return equally many
coefficients, and every coefficient of degree less than `max_degree` is the same. -/
theorem C76_polynomial_part {lib' lib : Lib K} {md : ℤ} (hlib : LeadLib md.toNat lib' lib) {jaxpr : Jaxpr K}
    {consts : List (ND K)} {propagate' propagate : Bool} {x0 lo' hi' lo hi : ND K} (hs : lo'.shape = lo.shape)
    {b' b : Bounds K}
    (h' : taylorBounds lib' jaxpr consts md propagate' x0 lo' hi' = .ok b')
    (h : taylorBounds lib jaxpr consts md propagate x0 lo hi = .ok b) :
    (0 < md → b'.coefficients.length = b.coefficients.length) ∧
    ∀ i : ℕ, (i : ℤ) < md → b'.coefficients[i]? = b.coefficients[i]? := by
  by_cases hmd : 0 < md
  · have key : Lead md.toNat b'.coefficients b.coefficients := by
      simp only [taylorBounds, py_bind_ok] at h h'
      obtain ⟨env, he, h⟩ := h
      obtain ⟨env', he', h'⟩ := h'
      have hE := lead_taylorEnv hmd hlib hs he' he
      split at h
      · rename_i o ho
        simp only [ho, py_bind_ok, py_pure] at h h'
        obtain ⟨i, hi, rfl⟩ := h
        obtain ⟨i', hi', rfl⟩ := h'
        exact lead_getInter hE o hi' hi
      · cases h
    exact ⟨fun _ => key.1, fun i hi => key.2 i (by omega)⟩
  · exact ⟨fun h => absurd h hmd, fun i hi => absurd hi (by omega)⟩

/-- Generators made from one function for the Taylor coefficients agree below the degree, whatever they use for
the final interval. -/
theorem leadGen_lift (tc : ℕ → K → Py (List K)) (g' g : K → K → K → ℕ → Py (SEncl K)) (d : ℕ) :
    LeadGen d (liftGen tc g') (liftGen tc g) := by
  intro x0 r' r e' e h' h
  have key : ∀ {g : K → K → K → ℕ → Py (SEncl K)} {r : ND K × ND K} {e : Encl K}, liftGen tc g x0 r d = .ok e →
      ∃ c : Coef K, e = (List.range d).map (fun i => .arr (x0.map fun x => coefOf i (tc d x))) ++ [c] := by
    intro g r e h
    unfold liftGen at h
    split at h
    · cases h
    · simp only [py_bind_ok, py_pure] at h
      obtain ⟨_, -, rfl⟩ := h
      exact ⟨_, rfl⟩
  obtain ⟨c, rfl⟩ := key h
  obtain ⟨c', rfl⟩ := key h'
  refine ⟨by simp, fun i hi => ?_⟩
  rw [List.getElem?_append_left (by simpa using hi), List.getElem?_append_left (by simpa using hi)]

theorem leadGen_guard_left {ok : K → K → K → ℕ → Prop} {g' g : Generator K} {d : ℕ} (h : LeadGen d g' g) :
    LeadGen d (guardGen ok g') g :=
  fun x0 r' r e' e h1 h2 => h x0 r' r e' e (guardGen_ok h1).2 h2

end

/-- The tables of jax_bound.py use one Taylor polynomial per primitive and point, for all trust regions. -/
theorem realLib_lead (d : ℕ) : LeadLib d realLib realLib where
  sem := rfl
  expo := rfl
  gen := by
    intro name g' g h' h
    have : g' = g := Option.some.inj (h'.symm.trans h)
    subst this
    change realGen name = some g' at h
    unfold realGen at h
    split at h
    · cases h; exact leadGen_lift _ _ _ _
    · simp only [Option.map_eq_some_iff] at h
      obtain ⟨q, -, rfl⟩ := h
      exact leadGen_lift _ _ _ _
  pow := fun p => leadGen_lift _ _ _ _

/-- **C76, for the tables of jax_bound.py**, with no further hypotheses: changing the trust region or
`propagate_trust_regions` changes at most the final interval. -/
theorem C76_tables {jaxpr : Jaxpr ℝ} {consts : List (ND ℝ)} {md : ℤ} {propagate' propagate : Bool}
    {x0 lo' hi' lo hi : ND ℝ} (hs : lo'.shape = lo.shape) {b' b : Bounds ℝ}
    (h' : taylorBounds realLib jaxpr consts md propagate' x0 lo' hi' = .ok b')
    (h : taylorBounds realLib jaxpr consts md propagate x0 lo hi = .ok b) :
    (0 < md → b'.coefficients.length = b.coefficients.length) ∧
    ∀ i : ℕ, (i : ℤ) < md → b'.coefficients[i]? = b.coefficients[i]? :=
  C76_polynomial_part (realLib_lead _) hs h' h

/-- The hypotheses are met: the quickstart-like program `x * exp(x)`, degree 3, at `x0 = 1`, over `[0, 2]` with
propagation and over `[-5, 9]` without. -/
example : ∃ b' b : Bounds ℝ,
    taylorBounds realLib exX [] 3 true (ND.scalar 1) (ND.scalar 0) (ND.scalar 2) = .ok b' ∧
    taylorBounds realLib exX [] 3 false (ND.scalar 1) (ND.scalar (-5)) (ND.scalar 9) = .ok b ∧
    b'.coefficients.length = b.coefficients.length ∧ ∀ i < 3, b'.coefficients[i]? = b.coefficients[i]? := by
  obtain ⟨b', h', -⟩ := exX_all 1 0 2 (by norm_num) (by norm_num) 3 (by norm_num) true
  obtain ⟨b, h, -⟩ := exX_all 1 (-5) 9 (by norm_num) (by norm_num) 3 (by norm_num) false
  have := C76_tables (lo := ND.scalar (-5)) (lo' := ND.scalar 0) rfl h' h
  exact ⟨b', b, h', h, this.1 (by norm_num), fun i hi => this.2 i (by exact_mod_cast hi)⟩

end JB
end AB
