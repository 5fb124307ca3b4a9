/-
C43, C44, C53 with the code's own tables, without any condition on how small the trust region is: whatever the cap in
`taylor_remainder_ratio` (/repo/autobound/primitive_enclosures.py:277-305) does, `taylor_bounds` returns, and its bounds
are exact at the reference point.
-/
import Verif.Proofs.AtRef

set_option linter.unusedSectionVars false

namespace AB
open PE EF Set
namespace JB

/-- Element-wise primitives, and degrees, for which the tables of the code are right about every trust region. -/
def AlwaysRight (name : String) (k : ℕ) : Prop :=
  name = "exp" ∨ (name = "abs" ∧ k ≤ 1) ∨ (name = "logistic" ∧ k ≤ 1) ∨ (name = "__autobound_sigmoid__" ∧ k ≤ 1) ∨
    (name = "__autobound_softplus__" ∧ k ≤ 2)

theorem elementwise_returns {n : FName} {k : ℕ} {d : FunctionData ℝ} (hk : supportedOrder n k)
    (hd : getFunctionData ⟨n, k⟩ = .ok d) (x0 a b : ℝ) :
    ∃ s, getElementwiseTaylorEnclosure ⟨n, 0⟩ x0 a b k = .ok s := by
  rw [elementwise_cap hk hd (getRange_ok hk hd a b)]
  by_cases h1 : (d.increasing || d.decreasing) = true
  · rw [if_pos h1]; exact ⟨_, rfl⟩
  rw [if_neg h1]
  by_cases h : k = 2 ∧ d.evenSymmetric = true
  · rw [if_pos h]
    obtain ⟨rfl, -⟩ := h
    unfold sharpQuadratic
    rw [ratio_cap, ratio_cap, ratio_cap]
    exact ⟨_, rfl⟩
  · rw [if_neg h]; exact ⟨_, rfl⟩

theorem total_of {n : FName} {k : ℕ} {d : FunctionData ℝ} (hk : supportedOrder n k)
    (hd : getFunctionData ⟨n, k⟩ = .ok d) (ht : ∀ x0 a b, BuiltinTable n x0 a b k) :
    GenTotal (guardGen (BuiltinTable n) (elementwiseGen ⟨n, 0⟩)) k := by
  intro x0 lo hi hsh hR _
  unfold guardGen
  rw [if_pos (fun R _ I _ => ht _ _ _)]
  have hR' : bshape x0.shape lo.shape = some x0.shape := bshape_eq_of_ble' (ble_iff_bshape.1 hR)
  unfold elementwiseGen liftGen
  simp only [hR']
  obtain ⟨l, hl⟩ := Poly.mapM_total (f := fun I => getElementwiseTaylorEnclosure ⟨n, 0⟩ (x0.bget I) (lo.bget I)
    (hi.bget I) k) (l := idx x0.shape) (fun I _ => elementwise_returns hk hd _ _ _)
  rw [hl]
  exact ⟨_, rfl⟩

/-- these enclosure generators return on every trust region -/
theorem alwaysRight_total {name : String} {k : ℕ} (h : AlwaysRight name k) :
    ∃ g, tableLib.gen name = some g ∧ GenTotal g k := by
  rcases h with rfl | ⟨rfl, h⟩ | ⟨rfl, h⟩ | ⟨rfl, h⟩ | ⟨rfl, h⟩
  · exact ⟨_, rfl, total_of (n := .exp) (k := k) trivial rfl (fun _ _ _ => trivial)⟩
  · have : k = 0 ∨ k = 1 := by omega
    rcases this with rfl | rfl
    · exact ⟨_, rfl, total_of (n := .abs) (k := 0) (by simp [supportedOrder]) rfl (fun _ _ _ => h)⟩
    · exact ⟨_, rfl, total_of (n := .abs) (k := 1) (by simp [supportedOrder]) rfl (fun _ _ _ => h)⟩
  · have : k = 0 ∨ k = 1 := by omega
    rcases this with rfl | rfl
    · exact ⟨_, rfl, total_of (n := .sigmoid) (k := 0) (by simp [supportedOrder]) rfl (fun _ _ _ => Or.inl h)⟩
    · exact ⟨_, rfl, total_of (n := .sigmoid) (k := 1) (by simp [supportedOrder]) rfl (fun _ _ _ => Or.inl h)⟩
  · have : k = 0 ∨ k = 1 := by omega
    rcases this with rfl | rfl
    · exact ⟨_, rfl, total_of (n := .sigmoid) (k := 0) (by simp [supportedOrder]) rfl (fun _ _ _ => Or.inl h)⟩
    · exact ⟨_, rfl, total_of (n := .sigmoid) (k := 1) (by simp [supportedOrder]) rfl (fun _ _ _ => Or.inl h)⟩
  · have : k = 0 ∨ k = 1 ∨ k = 2 := by omega
    rcases this with rfl | rfl | rfl
    · exact ⟨_, rfl, total_of (n := .softplus) (k := 0) (by simp [supportedOrder]) rfl (fun _ _ _ => Or.inl (by norm_num))⟩
    · exact ⟨_, rfl, total_of (n := .softplus) (k := 1) (by simp [supportedOrder]) rfl (fun _ _ _ => Or.inl le_rfl)⟩
    · exact ⟨_, rfl, total_of (n := .softplus) (k := 2) (by simp [supportedOrder]) rfl
        (fun _ _ _ => Or.inr (Or.inl rfl))⟩

/-- the element-wise part of `ProgramReturns` -/
theorem alwaysRight_usable {name : String} {md : ℕ} {propagate : Bool} (h : AlwaysRight name md) :
    ∃ g, tableLib.gen name = some g ∧ GenUsable md propagate g := by
  obtain ⟨g, hg, ht⟩ := alwaysRight_total h
  refine ⟨g, hg, ht, fun _ => ?_⟩
  have h0 : AlwaysRight name 0 := by
    rcases h with h | ⟨h, -⟩ | ⟨h, -⟩ | ⟨h, -⟩ | ⟨h, -⟩
    · exact Or.inl h
    · exact Or.inr (Or.inl ⟨h, by omega⟩)
    · exact Or.inr (Or.inr (Or.inl ⟨h, by omega⟩))
    · exact Or.inr (Or.inr (Or.inr (Or.inl ⟨h, by omega⟩)))
    · exact Or.inr (Or.inr (Or.inr (Or.inr ⟨h, by omega⟩)))
  obtain ⟨g', hg', ht'⟩ := alwaysRight_total h0
  rw [hg] at hg'
  cases hg'
  exact ht'

theorem tableLib_at_ref (x0 : ND ℝ) (z : ND ℝ) (hz : ND.map2 (· - ·) x0 x0 = .ok z) : LibSoundAt z tableLib realSem := by
  rw [ND.map2_same (fun a b : ℝ => a - b) rfl] at hz
  cases hz
  have : (⟨x0.shape, fun I => x0.bget I - x0.bget I⟩ : ND ℝ) = ⟨x0.shape, fun _ => 0⟩ := by simp
  rw [this]
  exact tableLib_soundAt _

/-- **C44 (the code's tables).** Suppose that in the run of `taylor_bounds` every call of an enclosure generator has a
trust region about which the tables of extrema are right (`tableLib`: no condition on how small the region is).  Then
the run with the code's own tables returns the same bounds; for `max_degree ≥ 1` they are exact at the reference point;
and `lower(x) ≤ upper(x)` for every `x` of the right shape, inside the trust region or not. -/
theorem C44_tables {jaxpr : Jaxpr ℝ} {consts : List (ND ℝ)} {maxDegree : ℤ}
    {propagate : Bool} {x0 lo hi y : ND ℝ} {bnd : Bounds ℝ}
    (hlh : lo.shape = hi.shape) (h0 : (Coef.ivl lo hi).Contains x0)
    (hb : taylorBounds tableLib jaxpr consts maxDegree propagate x0 lo hi = .ok bnd)
    (hfit : ProgramFits realSem jaxpr consts x0)
    {vals : Vals ℝ} (hev : evalEnv realSem jaxpr consts x0 = .ok vals) (hne : NonEmptyVals vals)
    (hy : evalJaxpr realSem jaxpr consts x0 = .ok y) :
    taylorBounds realLib jaxpr consts maxDegree propagate x0 lo hi = .ok bnd ∧
    (1 ≤ maxDegree → ∃ l u, bnd.lower x0 = .ok l ∧ bnd.upper x0 = .ok u ∧ l.Same y ∧ u.Same y) ∧
    (∃ l u, bnd.lower x0 = .ok l ∧ bnd.upper x0 = .ok u ∧ l.shape = y.shape ∧ u.shape = y.shape ∧
      ∀ I, ValidIdx y.shape I → l.get I ≤ y.get I ∧ y.get I ≤ u.get I) ∧
    ∀ x : ND ℝ, x.shape = x0.shape → ∃ l u, bnd.lower x = .ok l ∧ bnd.upper x = .ok u ∧ l.shape = u.shape ∧
      ∀ I, ValidIdx l.shape I → l.get I ≤ u.get I := by
  have hmd : 0 ≤ maxDegree := by
    have hb' := hb
    simp only [taylorBounds, py_bind_ok] at hb'
    obtain ⟨env, he, -⟩ := hb'
    exact (taylorEnv_inv he).1
  have hok := taylorBoundsOk_of_fits_at hmd (propagate := propagate) (tableLib_at_ref x0) hlh h0 hfit hev hne
  exact ⟨okLe_taylorBounds tableLib_le _ _ _ _ _ _ _ _ hb,
    fun h1 => exact_at_x0_at tableLib_arr h1 (tableLib_at_ref x0) hlh h0 hb hok hev hne hy,
    taylorBounds_lower_upper_at (tableLib_at_ref x0) hlh h0 h0 hb hok hev hne hy,
    fun x hx => ordered_everywhere_at (tableLib_at_ref x0) hlh h0 hx hb hok hev hne⟩

/-- **C53 (the code's tables).** Let the Jaxpr be well formed, with one input of rank at most 1 and one output; let `x0`
lie in the trust region, and let the evaluation of `f` at `x0` succeed with non-empty arrays.  If the program meets
`ProgramFits` and `ProgramReturns` (conditions on its primitives and the shapes of their arguments; for an element-wise
primitive, `AlwaysRight` is sufficient), then `taylor_bounds`, with the code's own tables, returns for every trust
region; for `max_degree ≥ 1` the bounds are exact at `x0`; and `lower ≤ upper` everywhere. -/
theorem C53_tables {jaxpr : Jaxpr ℝ} {consts : List (ND ℝ)} {maxDegree : ℤ} {propagate : Bool} {x0 lo hi y : ND ℝ}
    (hmd : 0 ≤ maxDegree) (hlh : lo.shape = hi.shape) (hrank : x0.shape.length ≤ 1)
    (h0 : (Coef.ivl lo hi).Contains x0) (hwf : WellFormedProgram jaxpr consts)
    (hused : propagate = true → ∀ eqn ∈ jaxpr.eqns, -1 ∉ eqn.outvars)
    (hfit : ProgramFits realSem jaxpr consts x0)
    (hret : ProgramReturns tableLib realSem jaxpr consts maxDegree propagate x0)
    {vals : Vals ℝ} (hev : evalEnv realSem jaxpr consts x0 = .ok vals) (hne : NonEmptyVals vals)
    (hy : evalJaxpr realSem jaxpr consts x0 = .ok y) :
    ∃ bnd, taylorBounds realLib jaxpr consts maxDegree propagate x0 lo hi = .ok bnd ∧
      (1 ≤ maxDegree → ∃ l u, bnd.lower x0 = .ok l ∧ bnd.upper x0 = .ok u ∧ l.Same y ∧ u.Same y) ∧
      (∃ l u, bnd.lower x0 = .ok l ∧ bnd.upper x0 = .ok u ∧ l.shape = y.shape ∧ u.shape = y.shape ∧
        ∀ I, ValidIdx y.shape I → l.get I ≤ y.get I ∧ y.get I ≤ u.get I) ∧
      ∀ x : ND ℝ, x.shape = x0.shape → ∃ l u, bnd.lower x = .ok l ∧ bnd.upper x = .ok u ∧ l.shape = u.shape ∧
        ∀ I, ValidIdx l.shape I → l.get I ≤ u.get I := by
  have hok := taylorBoundsOk_of_fits_at hmd (propagate := propagate) (tableLib_at_ref x0) hlh h0 hfit hev hne
  have hr := taylorBoundsReturns_of_at tableLib_arr tableLib_full hmd (tableLib_at_ref x0) hlh h0 hfit hret hev hne
  obtain ⟨bnd, hb⟩ := returns_at tableLib_arr hmd (tableLib_at_ref x0) hlh hrank h0 h0 hwf hused hok hr hev hne hy
  obtain ⟨k1, k2⟩ := C44_tables hlh h0 hb hfit hev hne hy
  exact ⟨bnd, k1, k2⟩

/-! ### A concrete program -/

theorem exX_wf : WellFormedProgram exX [] where
  input := rfl
  output := rfl
  consts := rfl
  once := by decide
  lits := by
    intro eqn he a ha
    simp only [exX, List.mem_cons, List.not_mem_nil, or_false] at he
    rcases he with rfl | rfl <;> simp at ha

theorem exX_fits (x0 : ℝ) : ProgramFits realSem exX [] (ND.scalar x0) := by
  refine ⟨fun v _ h => absurd h List.not_mem_nil, _, countsFit_trivial _, ?_⟩
  refine ⟨fun _ a o ha ho => ?_, fun v1 h1 => ?_⟩
  · cases ha; cases ho; trivial
  cases h1
  refine ⟨fun _ a o ha ho => ?_, fun v2 h2 => trivial⟩
  cases ha; cases ho; trivial

theorem exX_returns (x0 : ℝ) (md : ℤ) (propagate : Bool) :
    ProgramReturns tableLib realSem exX [] md propagate (ND.scalar x0) := by
  refine ⟨fun a ha => ?_, fun v1 h1 => ?_⟩
  · rw [if_neg (by decide)]
    cases ha
    exact ⟨Or.inl rfl, alwaysRight_usable (Or.inl rfl)⟩
  cases h1
  refine ⟨fun a ha => ?_, fun v2 h2 => trivial⟩
  rw [if_neg (by decide)]
  cases ha; trivial

/-- `C53_tables` for the program `x * exp(x)`: for every degree, every reference point, every trust region around it
(however small) and with or without propagated trust regions, `taylor_bounds` returns, and the bounds are exact at the
reference point. -/
theorem exX_all (x0 lo hi : ℝ) (h1 : lo ≤ x0) (h2 : x0 ≤ hi) (md : ℤ) (hmd : 1 ≤ md) (propagate : Bool) :
    ∃ bnd, taylorBounds realLib exX [] md propagate (ND.scalar x0) (ND.scalar lo) (ND.scalar hi) = .ok bnd ∧
      ∃ l u, bnd.lower (ND.scalar x0) = .ok l ∧ bnd.upper (ND.scalar x0) = .ok u ∧
        l.get [] = x0 * Real.exp x0 ∧ u.get [] = x0 * Real.exp x0 := by
  obtain ⟨bnd, hb, h, -⟩ := C53_tables (jaxpr := exX) (consts := []) (x0 := ND.scalar x0) (lo := ND.scalar lo) (hi := ND.scalar hi)
    (propagate := propagate) (by omega : 0 ≤ md) rfl (by simp [ND.scalar]) ⟨rfl, fun I _ => ⟨h1, h2⟩⟩ exX_wf (by
      intro _ eqn he
      simp only [exX, List.mem_cons, List.not_mem_nil, or_false] at he
      rcases he with rfl | rfl <;> decide) (exX_fits x0) (exX_returns x0 md propagate) rfl (exX_nonEmpty x0 rfl) rfl
  obtain ⟨l, u, hl, hu, sl, su⟩ := h hmd
  refine ⟨bnd, hb, l, u, hl, hu, ?_, ?_⟩
  · exact sl.2 [] (by rw [sl.1]; exact .nil)
  · exact su.2 [] (by rw [su.1]; exact .nil)

end JB
end AB
