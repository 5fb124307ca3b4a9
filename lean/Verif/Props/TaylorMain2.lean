/-
C43 (everywhere), C44, C46, C47, C48: more about `taylor_bounds` (/repo/autobound/jax/jax_bound.py:61-212).
-/
import Verif.Props.TaylorMain
import Verif.Proofs.ArrBelow

set_option linter.unusedSectionVars false

namespace AB
variable {K : Type} [Field K] [LinearOrder K] [IsStrictOrderedRing K]
open IA (repS)

/-- evaluating a well-formed enclosure at an array gives an ordered result -/
theorem eval_ordered {E : Encl K} (hE : WellFormedEncl E) {z : ND K} {r : Coef K}
    (h : Poly.evalTaylorEnclosure E (.arr z) = .ok r) : r.WellFormed := by
  obtain ⟨hW, hV, -, -, hm⟩ := eval_ok (Coef.WF_arr _) (zmem_self z) hE.wfe h
  refine ⟨Coef.sameShape_iff.2 hW, ?_⟩
  cases r with
  | arr _ => trivial
  | ivl lo hi =>
    intro I hI
    have hI' : ValidIdx (Coef.ivl lo hi).shape I := hI
    have hs : lo.shape = hi.shape := Coef.sameShape_iff.2 hW
    have := hm I hI.length.le z.get (zmem_self z) (fun j J => (E[j]?.getD (.arr (ND.scalar 0))).lo.bget (I ++ J)) (by
      intro j c hj J hJ
      simp only [hj, Option.getD_some]
      obtain ⟨-, B, hB, hle⟩ := hV j c hj
      exact (hE c (List.mem_of_getElem? hj)).lo_mem (R := (Coef.ivl lo hi).shape ++ repS j z.shape)
        (by rw [hB]; exact ble_append hle (ble_refl _) rfl) (validIdx_append hI' hJ))
    have h2 : lo.bget I ≤ hi.bget I := this.1.trans this.2
    rwa [ND.bget_valid _ hI, ND.bget_valid _ (hs ▸ hI)] at h2

namespace JB
open TEA Lax

/-- `C43_ordered_everywhere`, with the tables right at the point considered only. -/
theorem ordered_everywhere_at {lib : Lib K} {sem : Sem K} {jaxpr : Jaxpr K}
    {consts : List (ND K)} {maxDegree : ℤ} {propagate : Bool} {x0 lo hi x : ND K} {bnd : Bounds K}
    (hlib : ∀ z, ND.map2 (· - ·) x0 x0 = .ok z → LibSoundAt z lib sem)
    (hlh : lo.shape = hi.shape) (h0 : (Coef.ivl lo hi).Contains x0) (hx : x.shape = x0.shape)
    (hb : taylorBounds lib jaxpr consts maxDegree propagate x0 lo hi = .ok bnd)
    (hok : TaylorBoundsOk lib jaxpr consts maxDegree propagate x0 lo hi)
    {vals : Vals K} (hev : evalEnv sem jaxpr consts x0 = .ok vals) (hne : NonEmptyVals vals) :
    ∃ l u, bnd.lower x = .ok l ∧ bnd.upper x = .ok u ∧ l.shape = u.shape ∧
      ∀ I, ValidIdx l.shape I → l.get I ≤ u.get I := by
  obtain ⟨z, y, hz, hy, hx0, -, -, -, -, hzs, hs⟩ := taylorBounds_sound_at hlib hlh h0 h0 hb hok hev hne
  have hz' := ND.map2_same (fun a b : K => a - b) hx
  obtain ⟨hV, -⟩ := (encloses_iff hs.wf).1 hs.encl
  have hV' : VE (⟨x.shape, fun I => x.bget I - x0.bget I⟩ : ND K).shape y.shape bnd.coefficients := by
    show VE x.shape _ _
    rw [hx, ← hzs]
    exact hV
  obtain ⟨r, hr, -⟩ := eval_total (Z := .arr ⟨x.shape, fun I => x.bget I - x0.bget I⟩) (Coef.WF_arr _)
    (zmem_self _) hV'
  have hcall : bnd.call x = .ok r := by
    simp only [Bounds.call, hx0, hz', py_ok_bind]
    exact hr
  obtain ⟨w1, w2⟩ := eval_ordered hs.wf hr
  refine ⟨(toInterval r).1, (toInterval r).2, ?_, ?_, ?_, ?_⟩
  · simp only [Bounds.lower, hcall, py_ok_bind]; rfl
  · simp only [Bounds.upper, hcall, py_ok_bind]; rfl
  · cases r with
    | arr a => rfl
    | ivl l u => exact w1
  · intro I hI
    cases r with
    | arr a => exact le_rfl
    | ivl l u => exact w2 I hI

/-- **C43 (everywhere).** `lower(x) ≤ upper(x)` at *every* `x` of the shape of `x0`, inside or outside of the
trust region. -/
theorem C43_ordered_everywhere {lib : Lib K} {sem : Sem K} (hlib : LibSound lib sem) {jaxpr : Jaxpr K}
    {consts : List (ND K)} {maxDegree : ℤ} {propagate : Bool} {x0 lo hi x : ND K} {bnd : Bounds K}
    (hlh : lo.shape = hi.shape) (h0 : (Coef.ivl lo hi).Contains x0) (hx : x.shape = x0.shape)
    (hb : taylorBounds lib jaxpr consts maxDegree propagate x0 lo hi = .ok bnd)
    (hok : TaylorBoundsOk lib jaxpr consts maxDegree propagate x0 lo hi)
    {vals : Vals K} (hev : evalEnv sem jaxpr consts x0 = .ok vals) (hne : NonEmptyVals vals) :
    ∃ l u, bnd.lower x = .ok l ∧ bnd.upper x = .ok u ∧ l.shape = u.shape ∧
      ∀ I, ValidIdx l.shape I → l.get I ≤ u.get I :=
  ordered_everywhere_at (fun z _ => hlib.at z) hlh h0 hx hb hok hev hne

/-! ### C44 -/

/-- The coefficients below `max_degree` are arrays. -/
theorem coefficients_arr {lib : Lib K} (hlib : LibArr lib) {jaxpr : Jaxpr K}
    {consts : List (ND K)} {maxDegree : ℤ} {propagate : Bool} {x0 lo hi : ND K} {bnd : Bounds K}
    (hb : taylorBounds lib jaxpr consts maxDegree propagate x0 lo hi = .ok bnd) :
    ArrBelow maxDegree.toNat bnd.coefficients := by
  simp only [taylorBounds, py_bind_ok] at hb
  obtain ⟨env', henv', hb⟩ := hb
  obtain ⟨hmd, tlo, thi, T, T0, env, ht, hT, hT0, henv, hrun⟩ := taylorEnv_inv henv'
  have hTm : T.maxDegree = maxDegree.toNat := by
    unfold TEA.init at hT
    split_ifs at hT
    cases hT; rfl
  have h0 : EnvArr T.maxDegree env := by
    obtain ⟨identity, v, hid, hcl, hv, rfl⟩ := initEnv_inv henv
    intro w i hw
    rw [List.lookup_cons] at hw
    split at hw
    · cases hw
      simp only
      split_ifs with hm
      · intro i c hc _
        match i with
        | 0 => cases hc; trivial
        | 1 => cases hc; trivial
        | i + 2 => simp at hc
      · intro i c hc hi
        omega
    · obtain ⟨a, -, rfl⟩ := lookup_zip_const hcl hw
      exact arr_const _ a
  have hfin : EnvArr T.maxDegree env' := by
    clear henv hb henv'
    revert hrun
    generalize jaxpr.eqns = l
    intro hrun
    induction l generalizing env with
    | nil => cases hrun; exact h0
    | cons q l ih =>
      rw [List.foldlM_cons, py_bind_ok] at hrun
      obtain ⟨env1, h1, h2⟩ := hrun
      exact ih env1 (arr_step hlib h0 h1) h2
  split at hb
  case h_2 => cases hb
  simp only [py_bind_ok, py_pure] at hb
  obtain ⟨out, hout, rfl⟩ := hb
  exact hTm ▸ arr_getInter hfin hout

theorem zp_zero_fun (k i : ℕ) (hi : i ≠ 0) (J : List ℕ) : zp k (fun _ => (0 : K)) i J = 0 := by
  obtain ⟨i, rfl⟩ := Nat.exists_eq_succ_of_ne_zero hi
  simp [zp, chunks]

/-- `C44_exact_at_x0`, with the tables right at the point considered only. -/
theorem exact_at_x0_at {lib : Lib K} {sem : Sem K} (harr : LibArr lib)
    {jaxpr : Jaxpr K} {consts : List (ND K)} {maxDegree : ℤ} (hmd : 1 ≤ maxDegree) {propagate : Bool}
    {x0 lo hi y : ND K} {bnd : Bounds K}
    (hlib : ∀ z, ND.map2 (· - ·) x0 x0 = .ok z → LibSoundAt z lib sem)
    (hlh : lo.shape = hi.shape) (h0 : (Coef.ivl lo hi).Contains x0)
    (hb : taylorBounds lib jaxpr consts maxDegree propagate x0 lo hi = .ok bnd)
    (hok : TaylorBoundsOk lib jaxpr consts maxDegree propagate x0 lo hi)
    {vals : Vals K} (hev : evalEnv sem jaxpr consts x0 = .ok vals) (hne : NonEmptyVals vals)
    (hy : evalJaxpr sem jaxpr consts x0 = .ok y) :
    ∃ l u, bnd.lower x0 = .ok l ∧ bnd.upper x0 = .ok u ∧ l.Same y ∧ u.Same y := by
  obtain ⟨l, u, hl, hu, hls, hus, hlu⟩ := taylorBounds_lower_upper_at hlib hlh h0 h0 hb hok hev hne hy
  obtain ⟨z, y', hz, hy', hx0, -, -, -, -, hzs, hs⟩ := taylorBounds_sound_at hlib hlh h0 h0 hb hok hev hne
  rw [hy] at hy'; cases hy'
  have harr' := coefficients_arr harr hb
  have hl0 := hl
  have hu0 := hu
  simp only [Bounds.lower, Bounds.upper, py_bind_ok, py_pure] at hl hu
  obtain ⟨r, hr, rfl⟩ := hl
  obtain ⟨r', hr', rfl⟩ := hu
  rw [hr] at hr'; cases hr'
  have hr1 := hr
  rw [ND.map2_same (fun a b : K => a - b) rfl] at hz
  cases hz
  simp only [Bounds.call, hx0, ND.map2_same (fun a b : K => a - b) rfl, py_ok_bind] at hr1
  have hzero : (⟨x0.shape, fun I => x0.bget I - x0.bget I⟩ : ND K) = ⟨x0.shape, fun _ => 0⟩ := by simp
  rw [hzero] at hr1
  obtain ⟨hW, hV, -, -, -⟩ := eval_ok (Coef.WF_arr _) (zmem_self _) hs.wf.wfe hr1
  -- every admissible value at `x0` is the constant term
  have key : ∀ I, ValidIdx r.shape I → ∀ v, r.Mem I v → ∃ a, bnd.coefficients[0]? = some (.arr a) ∧ v = a.bget I := by
    intro I hI v hv
    have := eval_conv hs.wf.wfe hr1 hI.length.le (by
      intro j c hj J hJ
      obtain ⟨-, B, hB, hle⟩ := hV j c hj
      exact (hs.wf c (List.mem_of_getElem? hj)).le (R := r.shape ++ repS j x0.shape)
        (by rw [hB]; exact ble_append hle (ble_refl _) rfl) (validIdx_append hI hJ)) hv
    obtain ⟨w, hw, e⟩ := this
    rcases hE : bnd.coefficients with _ | ⟨c, E⟩
    · exact absurd hE hs.ne
    have hc := harr' 0 c (by rw [hE]; rfl) (by omega)
    cases c with
    | ivl _ _ => cases hc
    | arr a =>
      refine ⟨a, rfl, ?_⟩
      have hm := (hw 0).1 (.arr a) (by rw [hE]; rfl) [] ValidIdx.nil
      rw [Coef.mem_arr] at hm
      rw [List.append_nil] at hm
      rw [← hm, e, selVal, Finset.sum_eq_single 0]
      · exact pair_zero_deg _ _ _
      · intro i _ hi
        simp [pair, zp_zero_fun _ i hi]
      · intro h
        exfalso; apply h
        rw [hE]; simp
  have hrs : r.shape = y.shape := by
    cases r <;> exact hls
  have hordered := eval_ordered hs.wf hr1
  have hsame : ∀ I, ValidIdx y.shape I → (toInterval r).1.get I = (toInterval r).2.get I := by
    intro I hI
    cases r with
    | arr a => rfl
    | ivl lo' hi' =>
      have hs' : lo'.shape = hi'.shape := hordered.1
      have hI' : ValidIdx (Coef.ivl lo' hi').shape I := hrs ▸ hI
      have e1 := ND.bget_valid lo' hI'
      have e2 := ND.bget_valid hi' (I := I) (hs' ▸ hI')
      have hle : lo'.bget I ≤ hi'.bget I := by
        rw [e1, e2]; exact hordered.2 I hI'
      obtain ⟨a, ha, k1⟩ := key I hI' (lo'.bget I) ⟨le_rfl, hle⟩
      obtain ⟨b, hb', k2⟩ := key I hI' (hi'.bget I) ⟨hle, le_rfl⟩
      rw [ha] at hb'
      cases hb'
      show lo'.get I = hi'.get I
      rw [← e1, ← e2, k1, k2]
  refine ⟨_, _, hl0, hu0, ⟨hls, fun I hI => ?_⟩, ⟨hus, fun I hI => ?_⟩⟩
  · have hI : ValidIdx y.shape I := hls ▸ hI
    have := hlu I hI
    rw [← hsame I hI] at this
    exact le_antisymm this.1 this.2
  · have hI : ValidIdx y.shape I := hus ▸ hI
    have := hlu I hI
    rw [hsame I hI] at this
    exact le_antisymm this.1 this.2

/-- **C44.** For `max_degree ≥ 1`, the bounds are exact at the reference point:
`lower(x0) = upper(x0) = f(x0)`. -/
theorem C44_exact_at_x0 {lib : Lib K} {sem : Sem K} (hlib : LibSound lib sem) (harr : LibArr lib)
    {jaxpr : Jaxpr K} {consts : List (ND K)} {maxDegree : ℤ} (hmd : 1 ≤ maxDegree) {propagate : Bool}
    {x0 lo hi y : ND K} {bnd : Bounds K}
    (hlh : lo.shape = hi.shape) (h0 : (Coef.ivl lo hi).Contains x0)
    (hb : taylorBounds lib jaxpr consts maxDegree propagate x0 lo hi = .ok bnd)
    (hok : TaylorBoundsOk lib jaxpr consts maxDegree propagate x0 lo hi)
    {vals : Vals K} (hev : evalEnv sem jaxpr consts x0 = .ok vals) (hne : NonEmptyVals vals)
    (hy : evalJaxpr sem jaxpr consts x0 = .ok y) :
    ∃ l u, bnd.lower x0 = .ok l ∧ bnd.upper x0 = .ok u ∧ l.Same y ∧ u.Same y :=
  exact_at_x0_at harr hmd (fun z _ => hlib.at z) hlh h0 hb hok hev hne hy

end JB
end AB
