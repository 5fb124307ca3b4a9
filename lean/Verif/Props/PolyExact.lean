/-
C63: `taylor_bounds` (/repo/autobound/jax/jax_bound.py:61-212) is exact for polynomials of degree at most `max_degree`.
-/
import Verif.Proofs.PolyExact
import Verif.Props.Static
import Verif.Props.PolyEx

set_option linter.unusedSectionVars false

namespace AB
namespace JB
variable {K : Type} [Field K] [LinearOrder K] [IsStrictOrderedRing K]
open TEA

theorem PolyEncl.eval {k : ℕ} {E : Encl K} (h : PolyEncl k E) {z : ND K} {r : Coef K}
    (hr : Poly.evalTaylorEnclosure E (.arr z) = .ok r) : r.IsArr := by
  have harr : ∀ c ∈ E, c.isArr = true := by
    intro c hc
    obtain ⟨i, hi⟩ := List.mem_iff_getElem?.1 hc
    have := h.arr (i + 1) i c hi (by omega)
    cases c with
    | arr a => rfl
    | ivl l u => exact absurd this id
  have hwf : WFE E := by
    intro c hc
    have := harr c hc
    cases c with
    | arr a => exact Coef.WF_arr _
    | ivl l u => cases this
  have := (eval_ok (Coef.WF_arr _) (zmem_self z) hwf hr).2.2.2.1 ⟨rfl, harr⟩
  cases r with
  | arr a => trivial
  | ivl l u => cases this

/-- the run over another region returns the same coefficients -/
theorem poly_region {lib : Lib K} {jaxpr : Jaxpr K} {consts : List (ND K)} {maxDegree : ℤ} {propagate : Bool}
    {x0 lo hi lo' hi' : ND K} {bnd : Bounds K} {deg : ℤ → ℕ}
    (hlo : lo.shape = x0.shape) (hhi : hi.shape = x0.shape)
    (hlo' : lo'.shape = x0.shape) (hhi' : hi'.shape = x0.shape)
    (hb : taylorBounds lib jaxpr consts maxDegree propagate x0 lo hi = .ok bnd)
    (hpoly : PolyProgram deg maxDegree.toNat jaxpr) :
    ∃ k bnd', PolyEncl k bnd.coefficients ∧
      taylorBounds lib jaxpr consts maxDegree false x0 lo' hi' = .ok bnd' ∧
      bnd'.coefficients = bnd.coefficients ∧ bnd'.x0 = bnd.x0 := by
  obtain ⟨hdeg, hin, hops⟩ := hpoly
  simp only [taylorBounds, py_bind_ok] at hb
  obtain ⟨env, he, hb⟩ := hb
  obtain ⟨hmd, tlo, thi, T, T0, env0, ht, hT, hT0, henv, hrun⟩ := taylorEnv_inv he
  have hTeq : T = ⟨maxDegree.toNat, tlo, thi⟩ := by
    unfold TEA.init at hT
    split_ifs at hT
    cases hT; rfl
  have hTd : T.maxDegree = maxDegree.toNat := by rw [hTeq]
  -- the other region
  have e1 := ND.map2_same (fun a b : K => a - b) hlo'
  have e2 := ND.map2_same (fun a b : K => a - b) hhi'
  have e3 := ND.map2_same (fun a b : K => a - b) hlo
  have hsub : ∃ tlo' thi', IA.subtract (.ivl lo' hi') (.arr x0) = .ok (.ivl tlo' thi') ∧
      tlo'.shape = x0.shape ∧ thi'.shape = x0.shape := by
    refine ⟨⟨lo'.shape, fun I => lo'.bget I - x0.bget I⟩, ⟨hi'.shape, fun I => hi'.bget I - x0.bget I⟩, ?_,
      hlo', hhi'⟩
    simp only [IA.subtract, e1, e2, py_ok_bind]
    rfl
  obtain ⟨tlo', thi', ht', hs1, hs2⟩ := hsub
  have hts : tlo.shape = x0.shape := by
    simp only [IA.subtract, e3, ND.map2_same (fun a b : K => a - b) hhi, py_ok_bind] at ht
    cases ht
    exact hlo
  obtain ⟨identity, v, hid, hcl, hv, rfl⟩ := initEnv_inv henv
  have hdv : 1 ≤ deg v := hin v (by rw [hv]; simp)
  have hpos : maxDegree.toNat > 0 := by have := hdeg v; omega
  have hE : EnvPoly deg ((v, (⟨if maxDegree.toNat > 0 then [.arr x0, .arr identity] else [.ivl lo hi],
      if (propagate && (maxDegree != 0)) = true then some (.ivl lo hi) else none⟩ : Inter K)) ::
        (jaxpr.constvars.zip (consts.map constantInter))) := by
    intro w i hw
    rw [List.lookup_cons] at hw
    by_cases hwv : (w == v) = true
    · rw [hwv] at hw
      cases hw
      have : w = v := by simpa using hwv
      subst this
      rw [if_pos hpos]
      refine ⟨by simp, ?_, by simp; omega⟩
      intro n i c hc _
      match i with
      | 0 => cases hc; trivial
      | 1 => cases hc; trivial
      | i + 2 => simp at hc
    · have hwv : (w == v) = false := by simpa using hwv
      rw [hwv] at hw
      obtain ⟨a, -, rfl⟩ := lookup_zip_const hcl hw
      exact poly_const _ _
  have hrefl : ∀ l : Env K, EnvSame l l := fun l => by
    induction l with
    | nil => exact .nil
    | cons p l ih => exact .cons ⟨rfl, rfl⟩ ih
  have hS : EnvSame ((v, (⟨if maxDegree.toNat > 0 then [.arr x0, .arr identity] else [.ivl lo hi],
      if (propagate && (maxDegree != 0)) = true then some (.ivl lo hi) else none⟩ : Inter K)) ::
        (jaxpr.constvars.zip (consts.map constantInter)))
      ((v, (⟨[.arr x0, .arr identity], none⟩ : Inter K)) :: (jaxpr.constvars.zip (consts.map constantInter))) := by
    refine List.Forall₂.cons ⟨rfl, ?_⟩ (hrefl _)
    simp only [if_pos hpos]
  obtain ⟨out', h1, h2, h3⟩ := poly_run (T' := ⟨maxDegree.toNat, tlo', thi'⟩) (T0' := ⟨0, tlo', thi'⟩)
    ⟨hTd.symm, by rw [hTeq]; exact hs1.trans hts.symm⟩ (fun w => by rw [hTd]; exact hdeg w) hops hE hS hrun
  have henv' : initEnv (false && (maxDegree != 0)) maxDegree.toNat jaxpr consts x0 lo' hi' =
      .ok ((v, (⟨[.arr x0, .arr identity], none⟩ : Inter K)) ::
        (jaxpr.constvars.zip (consts.map constantInter))) := by
    simp only [initEnv, hid, py_ok_bind]
    rw [if_neg (by simpa using hcl), hv]
    simp only [if_pos hpos]
    rfl
  have hTinit : ∀ d, TEA.init d tlo' thi' = .ok ⟨d, tlo', thi'⟩ := by
    intro d
    unfold TEA.init
    rw [if_neg (by rw [hs1, hs2]; simp)]
  have htenv : taylorEnv lib jaxpr consts maxDegree false x0 lo' hi' = .ok out' := by
    unfold taylorEnv
    rw [if_neg (by omega)]
    simp only [ht', hTinit, henv', py_ok_bind]
    exact h1
  split at hb
  case h_2 => cases hb
  rename_i o ho
  simp only [py_bind_ok, py_pure] at hb
  obtain ⟨out, hout, rfl⟩ := hb
  obtain ⟨i', g1, g2⟩ := same_getInter h3 hout
  refine ⟨_, ⟨x0, lo', hi', i'.encl⟩, poly_getInter h2 hout, ?_, g2, rfl⟩
  simp only [taylorBounds, htenv, py_ok_bind, ho, g1]
  rfl

/-- **C63.** Let the program be a polynomial of degree at most `max_degree` (`PolyProgram`) that fits (as in C42).
If `taylor_bounds` returns `bnd`, then at *every* `x` of the shape of `x0`, inside or outside of the trust region,
`bnd.lower(x) = bnd.upper(x) = f(x)`. -/
theorem C63_polynomial_exact {lib : Lib K} {sem : Sem K} (hlib : LibSound lib sem) {jaxpr : Jaxpr K}
    {consts : List (ND K)} {maxDegree : ℤ} {propagate : Bool} {x0 lo hi x y : ND K} {bnd : Bounds K}
    {deg : ℤ → ℕ} (hpoly : PolyProgram deg maxDegree.toNat jaxpr)
    (hlh : lo.shape = hi.shape) (h0 : (Coef.ivl lo hi).Contains x0) (hx : x.shape = x0.shape)
    (hb : taylorBounds lib jaxpr consts maxDegree propagate x0 lo hi = .ok bnd)
    (hfit : ProgramFits sem jaxpr consts x0)
    {vals0 : Vals K} (hev0 : evalEnv sem jaxpr consts x0 = .ok vals0) (hne0 : NonEmptyVals vals0)
    {vals : Vals K} (hev : evalEnv sem jaxpr consts x = .ok vals) (hne : NonEmptyVals vals)
    (hy : evalJaxpr sem jaxpr consts x = .ok y) :
    ∃ l u, bnd.lower x = .ok l ∧ bnd.upper x = .ok u ∧ l.Same y ∧ u.Same y := by
  have hlo : lo.shape = x0.shape := h0.1.symm
  obtain ⟨k, bnd', hP, hb', hc', hx0'⟩ := poly_region
    (lo' := ⟨x0.shape, fun I => min (x0.get I) (x.get I)⟩) (hi' := ⟨x0.shape, fun I => max (x0.get I) (x.get I)⟩)
    hlo (hlh.symm.trans hlo) rfl rfl hb hpoly
  obtain ⟨⟨r, hr, hrc⟩, l, u, hl, hu, -⟩ := C42_static hlib (x0 := x0)
    (lo := ⟨x0.shape, fun I => min (x0.get I) (x.get I)⟩) (hi := ⟨x0.shape, fun I => max (x0.get I) (x.get I)⟩)
    rfl ⟨rfl, fun I _ => ⟨min_le_left _ _, le_max_left _ _⟩⟩ (x := x) ⟨hx, fun I _ => ⟨min_le_right _ _, le_max_right _ _⟩⟩ hb' hfit hev0 hne0 hev hne hy
  have hcall : bnd.call x = .ok r := by
    unfold Bounds.call at hr ⊢
    rw [← hc', ← hx0']
    exact hr
  have harr : r.IsArr := by
    simp only [Bounds.call, py_bind_ok] at hcall
    obtain ⟨z, -, hz⟩ := hcall
    exact PolyEncl.eval hP hz
  cases r with
  | ivl l u => exact absurd harr id
  | arr a =>
    have hs : a.Same y := ⟨hrc.1.symm, fun I hI => (hrc.2 I hI).symm⟩
    refine ⟨a, a, ?_, ?_, hs, hs⟩
    · simp only [Bounds.lower, hcall, py_ok_bind]; rfl
    · simp only [Bounds.upper, hcall, py_ok_bind]; rfl

/-- C63 for `f(x) = 2 * sum((A x + c)^2)` and `max_degree = 2`: `taylor_bounds` returns bounds that equal `f` on all of
ℚ², although the trust region is bounded. -/
theorem C63_instance : ∃ bnd, taylorBounds polyLib exQuad [exA, exC] 2 true exX0 exLo' exHi' = .ok bnd ∧
    ∀ x : ND ℚ, x.shape = [2] → ∃ l u y, bnd.lower x = .ok l ∧ bnd.upper x = .ok u ∧
      evalJaxpr polySem exQuad [exA, exC] x = .ok y ∧ l.Same y ∧ u.Same y := by
  obtain ⟨bnd, hb⟩ := ok_of_isSome
    (show (taylorBounds polyLib exQuad [exA, exC] 2 true exX0 exLo' exHi').toOption.isSome = true by decide +kernel)
  obtain ⟨v0, y0, he0, hn0, hy0, -⟩ := exQuad_eval (x := exX0) rfl
  refine ⟨bnd, hb, fun x hx => ?_⟩
  obtain ⟨v, y, he, hn, hy, hys⟩ := exQuad_eval (x := x) hx
  have hpoly : PolyProgram (fun v => if v = 0 ∨ v = 3 ∨ v = 4 then 1 else if v = 1 ∨ v = 2 then 0 else 2)
      (2 : ℤ).toNat exQuad := by
    refine ⟨fun v => ?_, fun v hv => ?_, fun eqn he => Or.inr ?_⟩
    · dsimp only
      split_ifs <;> decide
    · obtain rfl : v = 0 := by simpa [exQuad] using hv
      decide
    · simp only [exQuad, List.mem_cons, List.not_mem_nil, or_false] at he
      rcases he with rfl | rfl | rfl | rfl | rfl
      · show 0 + 1 ≤ 1; decide
      · show max 1 0 ≤ 1; decide
      · exact ⟨by decide, by show (2 : ℤ) * (1 : ℕ) ≤ (2 : ℕ); decide⟩
      · show 2 ≤ 2; decide
      · show 2 + 0 ≤ 2; decide
  obtain ⟨l, u, h1, h2, h3, h4⟩ := C63_polynomial_exact polyLib_sound hpoly (lo := exLo') (hi := exHi') rfl exX0_mem hx hb
    exQuad_fits he0 hn0 he hn hy
  exact ⟨l, u, y, h1, h2, hy, h3, h4⟩

/-- the condition on the degree is needed: with `max_degree = 1` the bounds of the same quadratic function are not exact -/
theorem C63_degree_needed : ∃ bnd l u x, taylorBounds polyLib exQuad [exA, exC] 1 true exX0 exLo' exHi' = .ok bnd ∧
    (Coef.ivl exLo' exHi').Contains x ∧ bnd.lower x = .ok l ∧ bnd.upper x = .ok u ∧ l.get [] < u.get [] := by
  obtain ⟨bnd, hb⟩ := ok_of_isSome
    (show (taylorBounds polyLib exQuad [exA, exC] 1 true exX0 exLo' exHi').toOption.isSome = true by decide +kernel)
  have h : (do
    let b ← taylorBounds polyLib exQuad [exA, exC] 1 true exX0 exLo' exHi'
    let x : ND ℚ := ND.mk' [2] [0, 1/2]
    return decide ((← b.lower x).get [] < (← b.upper x).get []) : Py Bool) = .ok true := by decide +kernel
  simp only [hb, py_ok_bind, py_bind_ok, py_pure, decide_eq_true_eq] at h
  obtain ⟨l, hl, u, hu, h⟩ := h
  refine ⟨bnd, l, u, _, hb, ?_, hl, hu, by simpa using h⟩
  decide +kernel

end JB
end AB
