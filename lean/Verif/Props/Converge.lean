/-
C71: the bounds tighten at the rate `w^(d+1)` as the trust region (of width `w`) shrinks to `x0`
(/repo/autobound/jax/jax_bound.py:32-212 and everything it calls).
-/
import Verif.Proofs.Thin6
import Verif.Props.Gap
import Verif.Props.Form
import Verif.Proofs.Smooth
import Verif.Props.Shrink
import Verif.Props.PolyEx
import Verif.Props.AtRef

set_option linter.unusedSectionVars false

namespace AB
namespace JB
variable {K : Type} [Field K] [LinearOrder K] [IsStrictOrderedRing K]

/-- **C71 (coefficients).** Suppose `taylor_bounds` returns for the trust region `[lo, hi]`. Then there is a constant `C`
such that for *every* smaller trust region `[lo', hi']` around `x0`, of width at most `w`, for which `taylor_bounds`
returns: every interval coefficient is at most `C * w` wide. -/
theorem C71_coefficients {lib : Lib K} (hiso : LibIsotone lib) (hlip : LibLipschitz lib) {jaxpr : Jaxpr K}
    (hp : ∀ eqn ∈ jaxpr.eqns, PrimIsotone eqn.prim) (hq : ∀ eqn ∈ jaxpr.eqns, PrimLipschitz eqn.prim)
    {consts : List (ND K)} {maxDegree : ℤ} {propagate : Bool} {x0 lo hi : ND K} (h0 : Within x0 lo hi lo hi) {b : Bounds K}
    (h : taylorBounds lib jaxpr consts maxDegree propagate x0 lo hi = .ok b) :
    ∃ C : K, 0 ≤ C ∧ ∀ (lo' hi' : ND K) (w : K) (b' : Bounds K), 0 ≤ w → Within x0 lo' hi' lo hi →
      (∀ I, ValidIdx x0.shape I → hi'.get I - lo'.get I ≤ w) →
      taylorBounds lib jaxpr consts maxDegree propagate x0 lo' hi' = .ok b' →
      ∀ (n : ℕ) (c : Coef K), b'.coefficients[n]? = some c → ∀ L, ValidIdx c.shape L →
        (TEA.toInterval c).2.bget L - (TEA.toInterval c).1.bget L ≤ C * w := by
  -- all the runs, with one for `[lo, hi]` itself
  let ι := {t : ND K × ND K × K × Bounds K // 0 ≤ t.2.2.1 ∧ Within x0 t.1 t.2.1 lo hi ∧
    (∀ I, ValidIdx x0.shape I → t.2.1.get I - t.1.get I ≤ t.2.2.1) ∧
    taylorBounds lib jaxpr consts maxDegree propagate x0 t.1 t.2.1 = .ok t.2.2.2}
  obtain ⟨W, w0, hW⟩ : ∃ W : K, 0 ≤ W ∧ ∀ I, ValidIdx x0.shape I → hi.get I - lo.get I ≤ W := by
    have : ∀ l : List (List ℕ), ∃ W : K, 0 ≤ W ∧ ∀ I ∈ l, hi.get I - lo.get I ≤ W := by
      intro l
      induction l with
      | nil => exact ⟨0, le_rfl, by simp⟩
      | cons J l ih =>
        obtain ⟨W, w0, hW⟩ := ih
        refine ⟨max W (hi.get J - lo.get J), le_max_of_le_left w0, fun I hI => ?_⟩
        rcases List.mem_cons.1 hI with rfl | hI
        · exact le_max_right _ _
        · exact (hW I hI).trans (le_max_left _ _)
    obtain ⟨W, w0, hW⟩ := this (idx x0.shape)
    exact ⟨W, w0, fun I hI => hW I (mem_idx.2 hI)⟩
  let i0 : ι := ⟨(lo, hi, W, b), w0, h0, hW, h⟩
  have hthin : ThinE (fun i : ι => i.1.2.2.1) i0 fun i : ι => i.1.2.2.2.coefficients :=
    thin_taylorBounds (ι := ι) (i0 := i0) (lo := fun i => i.1.1) (hi := fun i => i.1.2.1) (fun i => i.2.1) hiso hlip hp hq
      ⟨fun i => i.2.2.1, fun i => i.2.2.2.1⟩ fun i => i.2.2.2.2
  obtain ⟨L, h1, h2⟩ := hthin
  obtain ⟨C, c0, hC⟩ : ∃ C : K, 0 ≤ C ∧ ∀ x ∈ L, ∀ (i : ι) J, ValidIdx (x i0).shape J →
      (x i).hi.bget J - (x i).lo.bget J ≤ C * i.1.2.2.1 := by
    clear h2
    induction L with
    | nil => exact ⟨0, le_rfl, by simp⟩
    | cons x L ih =>
      obtain ⟨C, c0, hC⟩ := ih fun x hx => h1 x (List.mem_cons_of_mem _ hx)
      obtain ⟨D, d0, hD⟩ := (h1 x (by simp)).uniform fun i => i.2.1
      refine ⟨max C D, le_max_of_le_left c0, fun y hy i J hJ => ?_⟩
      rcases List.mem_cons.1 hy with rfl | hy
      · exact (hD i J hJ).trans (mul_le_mul_of_nonneg_right (le_max_right _ _) i.2.1)
      · exact (hC y hy i J hJ).trans (mul_le_mul_of_nonneg_right (le_max_left _ _) i.2.1)
  refine ⟨C, c0, fun lo' hi' w b' hw hwi hwd hb' n c hc J hJ => ?_⟩
  let i : ι := ⟨(lo', hi', w, b'), hw, hwi, hwd, hb'⟩
  have e : b'.coefficients = L.map fun x => x i := h2 i
  rw [e, List.getElem?_map, Option.map_eq_some_iff] at hc
  obtain ⟨x, hx, rfl⟩ := hc
  have hx := List.mem_of_getElem? hx
  have := hC x hx i J (by rw [← (h1 x hx).shape i]; exact hJ)
  have hll : ∀ t : Coef K, (TEA.toInterval t).1 = t.lo ∧ (TEA.toInterval t).2 = t.hi := by
    intro t; cases t <;> exact ⟨rfl, rfl⟩
  rw [(hll (x i)).1, (hll (x i)).2]
  exact this

theorem monomial_le {z : ND K} {t : K} (ht : ∀ I, ValidIdx z.shape I → |z.get I| ≤ t) :
    ∀ (n : ℕ) (J : List ℕ), ValidIdx (List.replicate n z.shape).flatten J → |monomialAt z n J| ≤ t ^ n := by
  intro n
  induction n with
  | zero => intro J _; simp [monomialAt, groups]
  | succ n ih =>
    intro J hJ
    rw [List.replicate_succ, List.flatten_cons] at hJ
    obtain ⟨A, B, rfl, hA, hB⟩ := validIdx_split hJ
    have := ih B hB
    unfold monomialAt at this ⊢
    rw [groups, List.map_cons, List.prod_cons, abs_mul, pow_succ', hA.length, List.take_left, List.drop_left]
    rw [hA.length] at this
    exact mul_le_mul (ht A hA) this (abs_nonneg _) ((abs_nonneg _).trans (ht A hA))

theorem sum_le_length {α : Type} (l : List α) (f : α → K) (m : K) (h : ∀ a ∈ l, f a ≤ m) : (l.map f).sum ≤ l.length * m := by
  induction l with
  | nil => simp
  | cons a l ih =>
    simp only [List.map_cons, List.sum_cons, List.length_cons, Nat.cast_add, Nat.cast_one]
    have := ih fun b hb => h b (List.mem_cons_of_mem _ hb)
    have := h a (by simp)
    linarith

theorem toInterval_shapes (c : Coef K) (h : c.WellFormed) :
    (TEA.toInterval c).1.shape = c.shape ∧ (TEA.toInterval c).2.shape = c.shape := by
  cases c with
  | arr a => exact ⟨rfl, rfl⟩
  | ivl l u => exact ⟨rfl, (show l.shape = u.shape from h.1).symm⟩

/-- **C71 (distance of the bounds).** ... and at every `x` with `|x - x0| ≤ t` (entry by entry; inside or outside of the
trust region) at which the bounds can be evaluated, `upper(x) - lower(x) ≤ C * w * t^max_degree`. -/
theorem C71_gap {lib : Lib K} (hiso : LibIsotone lib) (hlip : LibLipschitz lib) (harr : LibArr lib) {jaxpr : Jaxpr K}
    (hp : ∀ eqn ∈ jaxpr.eqns, PrimIsotone eqn.prim) (hq : ∀ eqn ∈ jaxpr.eqns, PrimLipschitz eqn.prim)
    {consts : List (ND K)} {maxDegree : ℤ} {propagate : Bool} {x0 lo hi : ND K} (h0 : Within x0 lo hi lo hi) {b : Bounds K}
    (h : taylorBounds lib jaxpr consts maxDegree propagate x0 lo hi = .ok b) :
    ∃ C : K, 0 ≤ C ∧ ∀ (lo' hi' : ND K) (w : K) (b' : Bounds K), 0 ≤ w → Within x0 lo' hi' lo hi →
      (∀ I, ValidIdx x0.shape I → hi'.get I - lo'.get I ≤ w) →
      taylorBounds lib jaxpr consts maxDegree propagate x0 lo' hi' = .ok b' →
      ∀ (x : ND K) (t : K) (l u : ND K), x.shape = x0.shape → 0 ≤ t →
        (∀ I, ValidIdx x0.shape I → |x.get I - x0.get I| ≤ t) → b'.lower x = .ok l → b'.upper x = .ok u →
        ∀ I, ValidIdx l.shape I → u.get I - l.get I ≤ C * w * t ^ maxDegree.toNat := by
  obtain ⟨C, c0, hC⟩ := C71_coefficients hiso hlip hp hq h0 h
  refine ⟨(idx (List.replicate maxDegree.toNat x0.shape).flatten).length * C, by positivity, ?_⟩
  intro lo' hi' w b' hw hwi hwd hb' x t l u hx ht hxt hl hu I hI
  obtain ⟨e0, -, hnest⟩ := iso_taylorBounds hiso hp hwi hb' h
  have hwf : WellFormedEncl b'.coefficients := fun c hc => (TEA.nestE_wf hnest).1 c hc
  have hform := C52_form hb'
  have hmd : 0 ≤ maxDegree := by
    simp only [taylorBounds, py_bind_ok] at hb'
    obtain ⟨env, he, -⟩ := hb'
    exact (taylorEnv_inv he).1
  have hlen : b'.coefficients.length ≤ maxDegree.toNat + 1 := by have := hform.2.2.2.2.1; omega
  have harr' := coefficients_arr harr hb'
  simp only [Bounds.lower, Bounds.upper, Bounds.call, py_bind_ok, py_pure] at hl hu
  rw [e0] at hl hu
  obtain ⟨r, ⟨z, hz, hr⟩, hl⟩ := hl
  obtain ⟨r2, ⟨z2, hz2, hr2⟩, hu⟩ := hu
  rw [hz] at hz2; cases hz2
  rw [hr] at hr2; cases hr2
  rw [ND.map2_same (fun a b : K => a - b) hx] at hz
  have hzs : z.shape = x0.shape := by rw [← Except.ok.inj hz]; exact hx
  have hze : ∀ J, ValidIdx z.shape J → |z.get J| ≤ t := by
    intro J hJ
    rw [hzs] at hJ
    rw [← Except.ok.inj hz]
    show |x.bget J - x0.bget J| ≤ t
    rw [ND.bget_valid x (hx.symm ▸ hJ), ND.bget_valid x0 hJ]
    exact hxt J hJ
  have hI' : ValidIdx r.shape I := by
    revert hl
    cases r with
    | arr a => intro hl; cases hl; exact hI
    | ivl a c => intro hl; cases hl; exact hI
  have hgap := (C62_point_value hwf hr hI').2.2
  have e1 : l = (TEA.toInterval r).1 := by
    revert hl; cases r <;> (intro hl; cases hl; rfl)
  have e2 : u = (TEA.toInterval r).2 := by
    revert hu; cases r <;> (intro hu; cases hu; rfl)
  rw [e1, e2, hgap]
  obtain ⟨-, hV, -, -, -⟩ := eval_ok (Coef.WF_arr _) (zmem_self z) hwf.wfe hr
  have hrow : ∀ i ∈ List.range b'.coefficients.length, i < maxDegree.toNat →
      ((idx (List.replicate i z.shape).flatten).map fun J =>
        (hiAt (b'.coefficients[i]?.getD (.arr (ND.scalar 0))) (I ++ J) -
          loAt (b'.coefficients[i]?.getD (.arr (ND.scalar 0))) (I ++ J)) * |monomialAt z i J|).sum = 0 := by
    intro i hi hlt
    have hi := List.mem_range.1 hi
    have g1 : b'.coefficients[i]? = some b'.coefficients[i] := List.getElem?_eq_getElem hi
    have g2 := harr' i _ g1 hlt
    apply List.sum_eq_zero
    intro v hv
    obtain ⟨J, -, rfl⟩ := List.mem_map.1 hv
    rw [g1, Option.getD_some]
    cases h3 : b'.coefficients[i] with
    | arr a => simp [hiAt, loAt, TEA.toInterval]
    | ivl l u => rw [h3] at g2; exact absurd g2 id
  have hT : 0 ≤ (idx (List.replicate maxDegree.toNat x0.shape).flatten).length * C * w * t ^ maxDegree.toNat := by positivity
  unfold sumOver
  rcases Nat.lt_or_ge maxDegree.toNat b'.coefficients.length with hlt | hge
  · have hn : b'.coefficients.length = maxDegree.toNat + 1 := by omega
    rw [hn] at hrow ⊢
    rw [List.range_succ, List.map_append, List.sum_append, List.sum_eq_zero, zero_add]
    · rw [List.map_cons, List.map_nil, List.sum_cons, List.sum_nil, add_zero]
      have g1 : b'.coefficients[maxDegree.toNat]? = some b'.coefficients[maxDegree.toNat] := List.getElem?_eq_getElem hlt
      rw [g1, Option.getD_some, hzs]
      refine (sum_le_length _ _ (C * w * t ^ maxDegree.toNat) fun J hJ => ?_).trans (le_of_eq (by ring))
      have hJ := mem_idx.1 hJ
      set c := b'.coefficients[maxDegree.toNat] with hc
      obtain ⟨-, B, hB, hble⟩ := hV _ c g1
      have hb1 : ble c.shape (r.shape ++ IA.repS maxDegree.toNat z.shape) := by
        rw [hB]
        exact ble_append hble (ble_refl _) rfl
      have hv : ValidIdx c.shape (bidx c.shape (I ++ J)) :=
        validIdx_bidx hb1 (validIdx_append hI' (by rw [IA.repS, hzs]; exact hJ))
      have := hC lo' hi' w b' hw hwi hwd hb' _ c g1 _ hv
      have hcw : c.WellFormed := hwf c (List.mem_of_getElem? g1)
      have hd : hiAt c (I ++ J) - loAt c (I ++ J) ≤ C * w := by
        refine le_trans (le_of_eq ?_) this
        unfold hiAt loAt
        obtain ⟨s1, s2⟩ := toInterval_shapes c hcw
        rw [ND.bget_valid _ (by rw [s2]; exact hv), ND.bget_valid _ (by rw [s1]; exact hv)]
      exact mul_le_mul hd (monomial_le hze _ J (by rw [hzs]; exact hJ)) (abs_nonneg _) (mul_nonneg c0 hw)
    · intro v hv
      obtain ⟨i, hi, rfl⟩ := List.mem_map.1 hv
      have hi := List.mem_range.1 hi
      exact hrow i (List.mem_range.2 (by omega)) hi
  · refine le_trans (le_of_eq ?_) hT
    apply List.sum_eq_zero
    intro v hv
    obtain ⟨i, hi, rfl⟩ := List.mem_map.1 hv
    exact hrow i hi ((List.mem_range.1 hi).trans_le hge)

/-- **C71 (rate).** ... in particular everywhere in the trust region `[lo', hi']`, of width `w`, the distance of the bounds
is at most `C * w^(max_degree + 1)`. -/
theorem C71_rate {lib : Lib K} (hiso : LibIsotone lib) (hlip : LibLipschitz lib) (harr : LibArr lib) {jaxpr : Jaxpr K}
    (hp : ∀ eqn ∈ jaxpr.eqns, PrimIsotone eqn.prim) (hq : ∀ eqn ∈ jaxpr.eqns, PrimLipschitz eqn.prim)
    {consts : List (ND K)} {maxDegree : ℤ} {propagate : Bool} {x0 lo hi : ND K} (h0 : Within x0 lo hi lo hi) {b : Bounds K}
    (h : taylorBounds lib jaxpr consts maxDegree propagate x0 lo hi = .ok b) :
    ∃ C : K, 0 ≤ C ∧ ∀ (lo' hi' : ND K) (w : K) (b' : Bounds K), 0 ≤ w → Within x0 lo' hi' lo hi →
      (∀ I, ValidIdx x0.shape I → hi'.get I - lo'.get I ≤ w) →
      taylorBounds lib jaxpr consts maxDegree propagate x0 lo' hi' = .ok b' →
      ∀ (x l u : ND K), x.shape = x0.shape → (∀ I, ValidIdx x0.shape I → lo'.get I ≤ x.get I ∧ x.get I ≤ hi'.get I) →
        b'.lower x = .ok l → b'.upper x = .ok u →
        ∀ I, ValidIdx l.shape I → u.get I - l.get I ≤ C * w ^ (maxDegree.toNat + 1) := by
  obtain ⟨C, c0, hC⟩ := C71_gap hiso hlip harr hp hq h0 h
  refine ⟨C, c0, fun lo' hi' w b' hw hwi hwd hb' x l u hx hin hl hu I hI => ?_⟩
  have := hC lo' hi' w b' hw hwi hwd hb' x w l u hx hw (fun J hJ => ?_) hl hu I hI
  · rw [pow_succ]
    linarith [this]
  · have k1 := hin J hJ
    have k2 := (hwi.le J hJ).2
    have k3 := hwd J hJ
    exact abs_le.2 ⟨by linarith [k2.2.1], by linarith [k2.1]⟩

/-- **C71 (error of the bounds).** If moreover the tables are sound and the program fits (as in C42), both bounds are within
`C * w^(max_degree + 1)` of the function's value everywhere in `[lo', hi']`. -/
theorem C71_error {lib : Lib K} {sem : Sem K} (hlib : LibSound lib sem) (hiso : LibIsotone lib) (hlip : LibLipschitz lib)
    (harr : LibArr lib) {jaxpr : Jaxpr K}
    (hp : ∀ eqn ∈ jaxpr.eqns, PrimIsotone eqn.prim) (hq : ∀ eqn ∈ jaxpr.eqns, PrimLipschitz eqn.prim)
    {consts : List (ND K)} {maxDegree : ℤ} {propagate : Bool} {x0 lo hi : ND K} (h0 : Within x0 lo hi lo hi) {b : Bounds K}
    (h : taylorBounds lib jaxpr consts maxDegree propagate x0 lo hi = .ok b) (hfit : ProgramFits sem jaxpr consts x0)
    {vals0 : Vals K} (hev0 : evalEnv sem jaxpr consts x0 = .ok vals0) (hne0 : NonEmptyVals vals0) :
    ∃ C : K, 0 ≤ C ∧ ∀ (lo' hi' : ND K) (w : K) (b' : Bounds K), 0 ≤ w → Within x0 lo' hi' lo hi →
      (∀ I, ValidIdx x0.shape I → hi'.get I - lo'.get I ≤ w) →
      taylorBounds lib jaxpr consts maxDegree propagate x0 lo' hi' = .ok b' →
      ∀ (x y : ND K) (vals : Vals K), (Coef.ivl lo' hi').Contains x → evalEnv sem jaxpr consts x = .ok vals →
        NonEmptyVals vals → evalJaxpr sem jaxpr consts x = .ok y →
        ∃ l u, b'.lower x = .ok l ∧ b'.upper x = .ok u ∧ l.shape = y.shape ∧ u.shape = y.shape ∧
          ∀ I, ValidIdx y.shape I → l.get I ≤ y.get I ∧ y.get I ≤ u.get I ∧
            y.get I - l.get I ≤ C * w ^ (maxDegree.toNat + 1) ∧ u.get I - y.get I ≤ C * w ^ (maxDegree.toNat + 1) := by
  obtain ⟨C, c0, hC⟩ := C71_rate hiso hlip harr hp hq h0 h
  refine ⟨C, c0, fun lo' hi' w b' hw hwi hwd hb' x y vals hx hev hne hy => ?_⟩
  obtain ⟨⟨s1, s2, s3, s4⟩, hle⟩ := hwi
  have hx0 : (Coef.ivl lo' hi').Contains x0 := ⟨s1.symm, fun I hI => by
    have hI : ValidIdx lo'.shape I := hI
    rw [s1] at hI
    exact ⟨(hle I hI).2.1, (hle I hI).2.2.1⟩⟩
  have hxs : x.shape = x0.shape := hx.1.trans s1
  obtain ⟨-, l, u, hl, hu, e1, e2, hb⟩ := C42_static hlib (lo := lo') (hi := hi') (s1.trans s2.symm) hx0 hx hb' hfit hev0 hne0
    hev hne hy
  refine ⟨l, u, hl, hu, e1, e2, fun I hI => ?_⟩
  obtain ⟨g1, g2⟩ := hb I hI
  have g3 := hC lo' hi' w b' hw ⟨⟨s1, s2, s3, s4⟩, hle⟩ hwd hb' x l u hxs (fun J hJ => hx.2 J (by
    show ValidIdx lo'.shape J
    rw [s1]; exact hJ)) hl hu I (by rw [e1]; exact hI)
  exact ⟨g1, g2, by linarith, by linarith⟩

/-- **C71 for the built-in tables.** Over the real numbers: suppose `taylor_bounds` returns for the trust region `[lo, hi]`,
every call of an element-wise enclosure being on a region on which the tables are right and the function is smooth
(`BuiltinSmooth`, `PowSmooth`). Then there is a constant `C` such that for every smaller trust region `[lo', hi']` around
`x0` of width `w` (with the same condition), everywhere in it `upper(x) - lower(x) ≤ C * w^(max_degree + 1)`. -/
theorem C71_builtin {jaxpr : Jaxpr ℝ}
    (hp : ∀ eqn ∈ jaxpr.eqns, PrimIsotone eqn.prim) (hq : ∀ eqn ∈ jaxpr.eqns, PrimLipschitz eqn.prim)
    {consts : List (ND ℝ)} {maxDegree : ℤ} {propagate : Bool} {x0 lo hi : ND ℝ} (h0 : Within x0 lo hi lo hi) {b : Bounds ℝ}
    (h : taylorBounds smoothLib jaxpr consts maxDegree propagate x0 lo hi = .ok b) :
    ∃ C : ℝ, 0 ≤ C ∧ ∀ (lo' hi' : ND ℝ) (w : ℝ) (b' : Bounds ℝ), 0 ≤ w → Within x0 lo' hi' lo hi →
      (∀ I, ValidIdx x0.shape I → hi'.get I - lo'.get I ≤ w) →
      taylorBounds smoothLib jaxpr consts maxDegree propagate x0 lo' hi' = .ok b' →
      taylorBounds realLib jaxpr consts maxDegree propagate x0 lo' hi' = .ok b' ∧
      ∀ (x l u : ND ℝ), x.shape = x0.shape → (∀ I, ValidIdx x0.shape I → lo'.get I ≤ x.get I ∧ x.get I ≤ hi'.get I) →
        b'.lower x = .ok l → b'.upper x = .ok u →
        ∀ I, ValidIdx l.shape I → u.get I - l.get I ≤ C * w ^ (maxDegree.toNat + 1) := by
  obtain ⟨C, c0, hC⟩ := C71_rate smoothLib_isotone smoothLib_lipschitz smoothLib_arr hp hq h0 h
  exact ⟨C, c0, fun lo' hi' w b' hw hwi hwd hb' =>
    ⟨okLe_taylorBounds smoothLib_le _ _ _ _ _ _ _ _ hb', hC lo' hi' w b' hw hwi hwd hb'⟩⟩

/-! ### Concrete cases -/

theorem smoothLib_exp : smoothLib.gen "exp" = realLib.gen "exp" := by
  show some (guardGen (BuiltinSmooth .exp) (PE.elementwiseGen ⟨.exp, 0⟩)) = some (PE.elementwiseGen ⟨.exp, 0⟩)
  congr 1
  funext x0 tr d
  unfold guardGen
  rw [if_pos]
  exact fun _ _ _ _ => ⟨trivial, fun h => by cases h⟩

theorem exX_smooth (x0 lo hi : ND ℝ) (md : ℤ) (pr : Bool) :
    taylorBounds smoothLib exX [] md pr x0 lo hi = taylorBounds realLib exX [] md pr x0 lo hi := by
  have hs : ∀ T T0 pr xs env eqn, eqn ∈ exX.eqns → step smoothLib T T0 pr xs env eqn = step realLib T T0 pr xs env eqn := by
    intro T T0 pr xs env eqn he
    have ho : ∀ ins, eqnOutputs smoothLib T T0 pr eqn ins = eqnOutputs realLib T T0 pr eqn ins := by
      intro ins
      have hpf : ∀ T : TEA ℝ, pushforward smoothLib T eqn.prim = pushforward realLib T eqn.prim := by
        intro T
        rcases List.mem_cons.1 he with rfl | he
        · simp only [pushforward, smoothLib_exp]
        · obtain rfl := List.mem_singleton.1 he
          rfl
      unfold eqnOutputs outRegion
      simp only [hpf]
      rfl
    unfold step
    simp only [ho]
  have hf : ∀ T T0 pr xs env, exX.eqns.foldlM (step smoothLib T T0 pr xs) env = exX.eqns.foldlM (step realLib T T0 pr xs) env := by
    intro T T0 pr xs env
    simp only [exX, List.foldlM_cons, List.foldlM_nil]
    rw [hs T T0 pr xs env _ (by simp [exX])]
    congr 1
  unfold taylorBounds taylorEnv
  simp only [hf]

/-- C71 for `x * exp(x)`, about any `x0`, in any degree `d ≥ 1`: there is one constant `C` such that for *every* `r` in
`(0, 1]` the call for the trust region `[x0 - r, x0 + r]` returns, and its bounds are at most `C * (2 r)^(d+1)` apart in
that region. -/
theorem C71_instance (x0 : ℝ) (d : ℕ) (hd : 1 ≤ d) (propagate : Bool) : ∃ C : ℝ, 0 ≤ C ∧ ∀ r : ℝ, 0 < r → r ≤ 1 → ∃ b' : Bounds ℝ,
    taylorBounds realLib exX [] d propagate (ND.scalar x0) (ND.scalar (x0 - r)) (ND.scalar (x0 + r)) = .ok b' ∧
    ∀ (x l u : ND ℝ), x.shape = [] → x0 - r ≤ x.get [] ∧ x.get [] ≤ x0 + r → b'.lower x = .ok l → b'.upper x = .ok u →
      ∀ I, ValidIdx l.shape I → u.get I - l.get I ≤ C * (2 * r) ^ (d + 1) := by
  obtain ⟨b, hb, -⟩ := exX_all x0 (x0 - 1) (x0 + 1) (by linarith) (by linarith) d (by exact_mod_cast hd) propagate
  have hw : ∀ r : ℝ, 0 < r → r ≤ 1 →
      Within (ND.scalar x0) (ND.scalar (x0 - r)) (ND.scalar (x0 + r)) (ND.scalar (x0 - 1)) (ND.scalar (x0 + 1)) :=
    fun r h0 h1 => ⟨⟨rfl, rfl, rfl, rfl⟩, fun I _ => by
      simp only [ND.scalar]
      exact ⟨by linarith, by linarith, by linarith, by linarith⟩⟩
  rw [← exX_smooth] at hb
  have hall : ∀ P : Prim ℝ → Prop, P (.elementwise "exp") → P .mul → ∀ eqn ∈ exX.eqns, P eqn.prim := by
    intro P h1 h2 eqn he
    rcases List.mem_cons.1 he with rfl | he
    · exact h1
    · obtain rfl := List.mem_singleton.1 he
      exact h2
  obtain ⟨C, c0, hC⟩ := C71_builtin (jaxpr := exX) (hall PrimIsotone trivial trivial) (hall PrimLipschitz trivial trivial)
    (hw 1 one_pos le_rfl) hb
  refine ⟨C, c0, fun r h0 h1 => ?_⟩
  obtain ⟨b', hb', -⟩ := exX_all x0 (x0 - r) (x0 + r) (by linarith) (by linarith) d (by exact_mod_cast hd) propagate
  have := (hC _ _ (2 * r) b' (by linarith) (hw r h0 h1) (fun I _ => by simp only [ND.scalar]; linarith)
    (by rw [exX_smooth]; exact hb')).2
  refine ⟨b', hb', fun x l u hx hin hl hu I hI => this x l u hx (fun J hJ => ?_) hl hu I hI⟩
  have hJ : ValidIdx [] J := hJ
  cases hJ
  exact hin

theorem polyLib_isotone : LibIsotone (polyLib : Lib K) where
  gen n g h := by cases h
  pow p := by
    intro _ _ _ _ _ _ _ _ _ _ _ _ _ _ _ _ h
    cases h

theorem polyLib_lipschitz : LibLipschitz (polyLib : Lib K) where
  gen n g h := by cases h
  pow p := by
    intro _ _ _ _ _ _ _ _ _ h
    cases h

/-- C71 for the program of PolyEx (2-dimensional, with `dot_general`, `integer_pow` and `reduce_sum`), degree 1. -/
example : ∃ C : ℚ, 0 ≤ C ∧ ∀ (lo' hi' : ND ℚ) (w : ℚ) (b' : Bounds ℚ), 0 ≤ w → Within exX0 lo' hi' exLo' exHi' →
    (∀ I, ValidIdx exX0.shape I → hi'.get I - lo'.get I ≤ w) →
    taylorBounds polyLib exQuad [exA, exC] 1 true exX0 lo' hi' = .ok b' →
    ∀ (x l u : ND ℚ), x.shape = exX0.shape → (∀ I, ValidIdx exX0.shape I → lo'.get I ≤ x.get I ∧ x.get I ≤ hi'.get I) →
      b'.lower x = .ok l → b'.upper x = .ok u → ∀ I, ValidIdx l.shape I → u.get I - l.get I ≤ C * w ^ 2 := by
  obtain ⟨b, hb, -⟩ := exQuad_bounds
  exact C71_rate polyLib_isotone polyLib_lipschitz polyLib_arr (jaxpr := exQuad) (by simp [exQuad, PrimIsotone])
    (by simp [exQuad, PrimLipschitz]) ⟨⟨rfl, rfl, rfl, rfl⟩, fun I hI => by
      have := exX0_mem.2 I hI
      exact ⟨le_rfl, this.1, this.2, le_rfl⟩⟩ hb

end JB
end AB
