/-
C91: the bounds of a sum or a difference (/repo/autobound/jax/jax_bound.py:61-212,
/repo/autobound/enclosure_arithmetic.py:79-95, 349-352).
-/
import Verif.Spec.SumEqn
import Verif.Proofs.SumPrograms
import Verif.Props.Affine

set_option linter.unusedSectionVars false
set_option linter.unusedSimpArgs false

namespace AB
variable {K : Type} [Field K] [LinearOrder K] [IsStrictOrderedRing K]

namespace JB

theorem AffE.rfl' {E : Encl K} (hE : WellFormedEncl E) : AffE 1 (ND.scalar 0) E E := by
  refine ⟨rfl, fun c c' hc hc' => ?_, fun i c c' _ hc hc' => ?_⟩
  · rw [hc] at hc'
    cases hc'
    exact ⟨ble_nil _, AffC.one (hE c (List.mem_of_getElem? hc))⟩
  · rw [hc] at hc'
    cases hc'
    exact AffC.one (hE c (List.mem_of_getElem? hc))

theorem add_short {T : TEA K} {E1 E2 E3 : Encl K} (h1 : E1.length ≤ T.maxDegree + 1) (h2 : E2.length ≤ T.maxDegree + 1)
    (h : T.add E1 E2 = .ok E3) : TEA.addCoeffs E1 E2 = .ok E3 := by
  unfold TEA.add TEA.truncateIfNecessary at h
  simp only [py_bind_ok] at h
  obtain ⟨F, hF, h⟩ := h
  have := TEA.addCoeffs_length hF
  rw [TEA.encloseEnclosure_short (by rw [this]; omega)] at h
  cases h
  exact hF

/-- the enclosure of `o1 + o2` (`k = 1`) or `o1 - o2` (`k = -1`) -/
theorem sumEqn_encl {lib : Lib K} {T : TEA K} {env : Env K} {o1 o2 : Atom K} {k : K} {prim : Prim K}
    (hk : (k = 1 ∧ prim = .add) ∨ (k = -1 ∧ prim = .sub)) {i1 i2 : Inter K} {ins : List (Inter K)} {E3 : Encl K}
    (hi1 : getInter env o1 = .ok i1) (hi2 : getInter env o2 = .ok i2)
    (hins : [o1, o2].mapM (getInter env) = .ok ins) (w1 : WellFormedEncl i1.encl) (w2 : WellFormedEncl i2.encl)
    (l1 : i1.encl.length ≤ T.maxDegree + 1) (l2 : i2.encl.length ≤ T.maxDegree + 1) {S : List ℕ}
    (s1 : ∀ c, i1.encl[0]? = some c → c.shape = S) (s2 : ∀ c, i2.encl[0]? = some c → c.shape = S)
    (hr : (∃ vals r, ins.mapM Inter.constantValue = some vals ∧ prim.bind lib.sem vals = .ok [r] ∧ E3 = [.arr r]) ∨
      ∃ f, pushforward lib T prim = some f ∧ f ins = .ok E3) :
    ∃ E2' E3', AffE k (ND.scalar 0) i2.encl E2' ∧ TEA.addCoeffs i1.encl E2' = .ok E3' ∧ AffE 1 (ND.scalar 0) E3' E3 := by
  simp only [List.mapM_cons, List.mapM_nil, hi1, hi2, py_ok_bind, py_pure] at hins
  cases hins
  rcases hr with ⟨vals, r, q1, q2, rfl⟩ | ⟨f, q1, q2⟩
  · simp only [List.mapM_cons, List.mapM_nil, Option.bind_eq_bind, Option.bind_eq_some_iff, Option.pure_def, Option.some.injEq] at q1
    obtain ⟨a, ha, l, ⟨b, hb, l', rfl, rfl⟩, rfl⟩ := q1
    have ha := constantValue_some ha
    have hb := constantValue_some hb
    have sa : a.shape = S := s1 (.arr a) (by rw [ha]; rfl)
    have sb : b.shape = S := s2 (.arr b) (by rw [hb]; rfl)
    have hs : ble b.shape a.shape := by rw [sa, sb]; exact ble_refl _
    rw [ha, hb]
    rcases hk with ⟨rfl, rfl⟩ | ⟨rfl, rfl⟩
    · obtain ⟨e1, e2⟩ := (nary_value hs).1 (one_inv q2)
      refine ⟨[.arr b], [.arr ⟨a.shape, fun I => a.bget I + b.bget I⟩], AffE.rfl' (hb ▸ w2), ?_, AffE_single e1 (ble_nil _) fun L hL => ?_⟩
      · simp only [TEA.addCoeffs, IA.add, (map2_into (f := (· + ·)) hs).1, py_ok_bind]; rfl
      · rw [e2 L hL]
        show _ = 1 * (a.bget L + b.bget L) + 0
        rw [ND.bget_valid a hL]; ring
    · obtain ⟨e1, e2⟩ := (nary_value hs).1 (one_inv q2)
      have hs' : ble (b.map (- ·)).shape a.shape := hs
      refine ⟨[.arr (b.map (- ·))], [.arr ⟨a.shape, fun I => a.bget I + (b.map (- ·)).bget I⟩], AffE_single rfl (ble_nil _) fun L hL => ?_, ?_,
        AffE_single e1 (ble_nil _) fun L hL => ?_⟩
      · show -(b.get L) = -1 * b.get L + 0
        ring
      · simp only [TEA.addCoeffs, IA.add, (map2_into (f := (· + ·)) hs').1, py_ok_bind]; rfl
      · rw [e2 L hL]
        show _ = 1 * (a.bget L + - b.bget L) + 0
        rw [ND.bget_valid a hL]; ring
  · rcases hk with ⟨rfl, rfl⟩ | ⟨rfl, rfl⟩
    · cases q1
      have h := add_short l1 l2 q2
      exact ⟨_, _, AffE.rfl' w2, h, AffE.rfl' (addCoeffs_wf w1 w2 h)⟩
    · cases q1
      replace q2 : T.subtract i1.encl i2.encl = .ok E3 := q2
      simp only [TEA.subtract, py_bind_ok] at q2
      obtain ⟨N, hN, q2⟩ := q2
      have hA := AffE.negative w2 l2 hN
      have h := add_short l1 (by rw [hA.len]; exact l2) q2
      exact ⟨_, _, hA, h, AffE.rfl' (addCoeffs_wf w1 hA.wf h)⟩

theorem taylorEnv_out {lib : Lib K} {p : Jaxpr K} {o o' : Atom K} {consts : List (ND K)} {maxDegree : ℤ} {propagate : Bool}
    {x0 lo hi : ND K} : taylorEnv lib (p.out o) consts maxDegree propagate x0 lo hi =
      taylorEnv lib (p.out o') consts maxDegree propagate x0 lo hi := rfl

/-- the result is evaluated at `x`, with the shape of the value of the program -/
theorem call_total {E : Encl K} {x x0 z0 y0 : ND K} (hx : x.shape = x0.shape) (hzs : z0.shape = x0.shape)
    (hsd : SoundEncl E z0 y0) : ∃ r, Poly.evalTaylorEnclosure E (.arr ⟨x.shape, fun I => x.bget I - x0.bget I⟩) = .ok r ∧
      r.shape = y0.shape := by
  obtain ⟨hV, -⟩ := (encloses_iff hsd.wf).1 hsd.encl
  have hV' : VE (⟨x.shape, fun I => x.bget I - x0.bget I⟩ : ND K).shape y0.shape E := by
    show VE x.shape _ _
    rw [hx, ← hzs]
    exact hV
  obtain ⟨r, hr, -⟩ := eval_total (Z := .arr ⟨x.shape, fun I => x.bget I - x0.bget I⟩) (Coef.WF_arr _) (zmem_self _) hV'
  obtain ⟨-, hVr, hmin, -, -⟩ := eval_ok (Coef.WF_arr _) (zmem_self _) hsd.wf.wfe hr
  refine ⟨r, hr, ble_antisymm (hmin _ hV') ?_⟩
  obtain ⟨c, hc⟩ : ∃ c, E[0]? = some c := by
    cases h : E with
    | nil => exact absurd h hsd.ne
    | cons c l => exact ⟨c, rfl⟩
  obtain ⟨-, B, hB, hle⟩ := hVr 0 c hc
  rw [← hsd.head c hc]
  have : c.shape = B := by rw [show c.shape = B ++ _ from hB]; simp [IA.repS_zero]
  rw [this]
  exact hle

theorem sum_core {lib : Lib K} {p : Jaxpr K} {consts : List (ND K)} {maxDegree : ℤ}
    {propagate : Bool} {x0 lo hi x y1 y2 z1 z2 : ND K} {b1 b2 b3 : Bounds K} {o1 o2 : Atom K} {k : K} {prim : Prim K} {w : ℤ}
    (hk : (k = 1 ∧ prim = .add) ∨ (k = -1 ∧ prim = .sub)) (hx : x.shape = x0.shape) (hw : w ≠ -1)
    (hb1 : taylorBounds lib (p.out o1) consts maxDegree propagate x0 lo hi = .ok b1)
    (hb2 : taylorBounds lib (p.out o2) consts maxDegree propagate x0 lo hi = .ok b2)
    (hb3 : taylorBounds lib (p.andThen prim [o1, o2] w) consts maxDegree propagate x0 lo hi = .ok b3)
    (l1 : b1.coefficients.length ≤ maxDegree.toNat + 1) (l2 : b2.coefficients.length ≤ maxDegree.toNat + 1)
    (hz1 : z1.shape = x0.shape) (hz2 : z2.shape = x0.shape) (h1 : SoundEncl b1.coefficients z1 y1)
    (h2 : SoundEncl b2.coefficients z2 y2) (hy : y1.shape = y2.shape) :
    ∃ lo1 up1 lo2 up2 lo3 up3 : ND K, b1.lower x = .ok lo1 ∧ b1.upper x = .ok up1 ∧ b2.lower x = .ok lo2 ∧ b2.upper x = .ok up2 ∧
      b3.lower x = .ok lo3 ∧ b3.upper x = .ok up3 ∧
      lo1.shape = y1.shape ∧ up1.shape = y1.shape ∧ lo2.shape = y1.shape ∧ up2.shape = y1.shape ∧ lo3.shape = y1.shape ∧
      up3.shape = y1.shape ∧ ∀ I, ValidIdx y1.shape I →
        (k = 1 → lo3.get I = lo1.get I + lo2.get I ∧ up3.get I = up1.get I + up2.get I) ∧
        (k = -1 → lo3.get I = lo1.get I - up2.get I ∧ up3.get I = up1.get I - lo2.get I) := by
  have hb3' : taylorBounds lib ((p.out o1).andThen prim [o1, o2] w) consts maxDegree propagate x0 lo hi = .ok b3 := hb3
  obtain ⟨T, env, i1, ins, hdeg, henv, hoi, hie, hins, hx1, hx3, hr⟩ := andThen_inv (p := p.out o1) rfl hw hb1 hb3'
  -- the second output
  have hb2' := hb2
  simp only [taylorBounds, py_bind_ok] at hb2'
  obtain ⟨env2, henv2, hb2'⟩ := hb2'
  rw [taylorEnv_out (o' := o1), henv] at henv2
  cases henv2
  replace hb2' : (getInter env o2 >>= fun out => (.ok ⟨x0, lo, hi, out.encl⟩ : Py (Bounds K))) = .ok b2 := hb2'
  rw [py_bind_ok] at hb2'
  obtain ⟨i2, hi2, hb2'⟩ := hb2'
  cases hb2'
  obtain ⟨E2', E3', a2, hadd, a3⟩ := sumEqn_encl (S := y1.shape) (T := T) hk hoi hi2 hins (by rw [hie]; exact h1.wf) h2.wf
    (by rw [hie, hdeg]; exact l1) (by rw [hdeg]; exact l2) (by rw [hie]; exact h1.head) (by rw [hy]; exact h2.head) hr
  rw [hie] at hadd
  have hz' := ND.map2_same (fun a b : K => a - b) hx
  obtain ⟨r1, hr1, hs1⟩ := call_total hx hz1 h1
  obtain ⟨r2, hr2, hs2⟩ := call_total hx hz2 h2
  obtain ⟨r2', hr2', c2⟩ := affine_eval h2.wf h2.ne a2 hr2 (fun c hc => by rw [h2.head c hc, hs2])
  have hE2 : E2' ≠ [] := fun h => h2.ne (List.length_eq_zero_iff.1 (by rw [← a2.len, h]; rfl))
  have hd2 : ∀ c, E2'[0]? = some c → c.shape = r1.shape := fun c hc => by
    obtain ⟨d, hd⟩ := a2.get' hc
    rw [(a2.head d c hd hc).2.shape, h2.head d hd, hs1, hy]
  obtain ⟨r3', hr3', w3, s3, e3⟩ := sum_eval h1.wf a2.wf hadd h1.ne hE2 hr1 hr2' (by rw [c2.shape, hs2, hs1, hy])
    (fun c hc => by rw [h1.head c hc, hs1]) hd2
  have hE3 : E3' ≠ [] := fun h => by
    have := TEA.addCoeffs_length hadd
    have h0 := List.length_pos_iff.2 h1.ne
    rw [h] at this
    simp only [List.length_nil] at this
    omega
  have wfE3 : WellFormedEncl E3' := addCoeffs_wf h1.wf a2.wf hadd
  obtain ⟨r3, hr3, c3⟩ := affine_eval wfE3 hE3 a3 hr3' (fun c hc => by
    obtain ⟨u, hu⟩ : ∃ c, b1.coefficients[0]? = some c := by
      cases h : b1.coefficients with
      | nil => exact absurd h h1.ne
      | cons c l => exact ⟨c, rfl⟩
    obtain ⟨v, hv⟩ : ∃ c, E2'[0]? = some c := by
      cases h : E2' with
      | nil => exact absurd h hE2
      | cons c l => exact ⟨c, rfl⟩
    obtain ⟨q, hq, e⟩ := ((addCoeffs_get hadd).2 0).1 u v hu hv
    rw [hc] at hq
    cases hq
    obtain ⟨-, e2, -, -⟩ := IA.add_ok (h1.wf.wfe u (List.mem_of_getElem? hu)) (a2.wf.wfe v (List.mem_of_getElem? hv)) e
    rw [hd2 v hv, h1.head u hu, ← hs1, bshape_self] at e2
    rw [← Option.some.inj e2, s3])
  have hcall1 : b1.call x = .ok r1 := by
    simp only [Bounds.call, hx1, hz', py_ok_bind]
    exact hr1
  have hcall2 : (⟨x0, lo, hi, i2.encl⟩ : Bounds K).call x = .ok r2 := by
    simp only [Bounds.call, hz', py_ok_bind]
    exact hr2
  have hcall3 : b3.call x = .ok r3 := by
    simp only [Bounds.call, hx3, hz', py_ok_bind]
    exact hr3
  have w1 := eval_ordered h1.wf hr1
  have w2 := eval_ordered h2.wf hr2
  have shapes : ∀ c : Coef K, c.WellFormed → (TEA.toInterval c).1.shape = c.shape ∧ (TEA.toInterval c).2.shape = c.shape := by
    intro c hc
    cases c with
    | arr a => exact ⟨rfl, rfl⟩
    | ivl l u => exact ⟨rfl, hc.1.symm⟩
  refine ⟨(TEA.toInterval r1).1, (TEA.toInterval r1).2, (TEA.toInterval r2).1, (TEA.toInterval r2).2, (TEA.toInterval r3).1,
    (TEA.toInterval r3).2, ?_, ?_, ?_, ?_, ?_, ?_, (shapes r1 w1).1.trans hs1, (shapes r1 w1).2.trans hs1,
    (shapes r2 w2).1.trans (hs2.trans hy.symm), (shapes r2 w2).2.trans (hs2.trans hy.symm),
    (shapes r3 c3.wf).1.trans (c3.shape.trans (s3.trans hs1)), (shapes r3 c3.wf).2.trans (c3.shape.trans (s3.trans hs1)), fun I hI => ?_⟩
  · simp only [Bounds.lower, hcall1, py_ok_bind]; rfl
  · simp only [Bounds.upper, hcall1, py_ok_bind]; rfl
  · simp only [Bounds.lower, hcall2, py_ok_bind]; rfl
  · simp only [Bounds.upper, hcall2, py_ok_bind]; rfl
  · simp only [Bounds.lower, hcall3, py_ok_bind]; rfl
  · simp only [Bounds.upper, hcall3, py_ok_bind]; rfl
  · have hI1 : ValidIdx r1.shape I := by rw [hs1]; exact hI
    have hI2 : ValidIdx r2.shape I := by rw [hs2, ← hy]; exact hI
    have hI3 : ValidIdx r3'.shape I := by rw [s3]; exact hI1
    obtain ⟨f1, f2⟩ := e3 I hI1
    have g1 := c2.lo I hI2
    have g2 := c2.hi I hI2
    have k1 := c3.lo I hI3
    have k2 := c3.hi I hI3
    have o2' := cLo_le_cHi w2 hI2
    have o3' := cLo_le_cHi w3 hI3
    have zz : (ND.scalar 0 : ND K).bget I = 0 := rfl
    rw [one_mul, one_mul, min_eq_left o3', zz, add_zero, f1] at k1
    rw [one_mul, one_mul, max_eq_right o3', zz, add_zero, f2] at k2
    rw [zz, add_zero] at g1 g2
    unfold cLo cHi at *
    refine ⟨fun hk => ?_, fun hk => ?_⟩
    · rw [hk, one_mul, one_mul, min_eq_left o2'] at g1
      rw [hk, one_mul, one_mul, max_eq_right o2'] at g2
      rw [k1, k2, g1, g2]
      exact ⟨rfl, rfl⟩
    · rw [hk, neg_one_mul, neg_one_mul, min_eq_right (neg_le_neg o2')] at g1
      rw [hk, neg_one_mul, neg_one_mul, max_eq_left (neg_le_neg o2')] at g2
      rw [k1, k2, g1, g2]
      exact ⟨by ring, by ring⟩

theorem both_sound {lib : Lib K} {sem : Sem K} (hlib : LibSound lib sem) {p : Jaxpr K} {consts : List (ND K)} {maxDegree : ℤ}
    {propagate : Bool} {x0 lo hi y1 y2 : ND K} {b1 b2 : Bounds K} {o1 o2 : Atom K}
    (hlh : lo.shape = hi.shape) (h0 : (Coef.ivl lo hi).Contains x0)
    (hb1 : taylorBounds lib (p.out o1) consts maxDegree propagate x0 lo hi = .ok b1)
    (hb2 : taylorBounds lib (p.out o2) consts maxDegree propagate x0 lo hi = .ok b2)
    (hfit : ProgramFits sem p consts x0)
    {vals0 : Vals K} (hev0 : evalEnv sem p consts x0 = .ok vals0) (hne0 : NonEmptyVals vals0)
    (hy1 : evalJaxpr sem (p.out o1) consts x0 = .ok y1) (hy2 : evalJaxpr sem (p.out o2) consts x0 = .ok y2) :
    ∃ z1 z2 : ND K, b1.coefficients.length ≤ maxDegree.toNat + 1 ∧ b2.coefficients.length ≤ maxDegree.toNat + 1 ∧
      z1.shape = x0.shape ∧ z2.shape = x0.shape ∧ SoundEncl b1.coefficients z1 y1 ∧ SoundEncl b2.coefficients z2 y2 := by
  have hmd : 0 ≤ maxDegree := by
    have hb := hb1
    simp only [taylorBounds, py_bind_ok] at hb
    obtain ⟨env, he, -⟩ := hb
    exact (taylorEnv_inv he).1
  have ok1 := taylorBoundsOk_of_fits (lib := lib) (jaxpr := p.out o1) hlib hmd (propagate := propagate) hlh h0 hfit hev0 hne0
  have ok2 := taylorBoundsOk_of_fits (lib := lib) (jaxpr := p.out o2) hlib hmd (propagate := propagate) hlh h0 hfit hev0 hne0
  obtain ⟨z1, y, hz0, hy, hx0, -, -, -, hl1, hz1, s1⟩ := taylorBounds_sound (jaxpr := p.out o1) hlib hlh h0 h0 hb1 ok1 hev0 hne0
  rw [hy1] at hy
  cases hy
  obtain ⟨z2, y', hz0', hy', hx0', -, -, -, hl2, hz2, s2⟩ := taylorBounds_sound (jaxpr := p.out o2) hlib hlh h0 h0 hb2 ok2 hev0 hne0
  rw [hy2] at hy'
  cases hy'
  exact ⟨z1, z2, hl1, hl2, hz1, hz2, s1, s2⟩

/-- **C91 (sums).** Let `b1` and `b2` be the bounds of two values `o1`, `o2` of a program `p` (as in C42), of equal shapes, and
`b3` the bounds of `o1 + o2`, computed by one equation after `p`.  At *every* `x` of the shape of `x0`, inside or outside of the
trust region, the bounds of the sum are the sums of the bounds. -/
theorem C91_add {lib : Lib K} {sem : Sem K} (hlib : LibSound lib sem) {p : Jaxpr K} {consts : List (ND K)} {maxDegree : ℤ}
    {propagate : Bool} {x0 lo hi x y1 y2 : ND K} {b1 b2 b3 : Bounds K} {o1 o2 : Atom K} {w : ℤ}
    (hlh : lo.shape = hi.shape) (h0 : (Coef.ivl lo hi).Contains x0) (hx : x.shape = x0.shape) (hw : w ≠ -1)
    (hb1 : taylorBounds lib (p.out o1) consts maxDegree propagate x0 lo hi = .ok b1)
    (hb2 : taylorBounds lib (p.out o2) consts maxDegree propagate x0 lo hi = .ok b2)
    (hb3 : taylorBounds lib (p.andThen .add [o1, o2] w) consts maxDegree propagate x0 lo hi = .ok b3)
    (hfit : ProgramFits sem p consts x0)
    {vals0 : Vals K} (hev0 : evalEnv sem p consts x0 = .ok vals0) (hne0 : NonEmptyVals vals0)
    (hy1 : evalJaxpr sem (p.out o1) consts x0 = .ok y1) (hy2 : evalJaxpr sem (p.out o2) consts x0 = .ok y2)
    (hy : y1.shape = y2.shape) :
    ∃ lo1 up1 lo2 up2 lo3 up3 : ND K, b1.lower x = .ok lo1 ∧ b1.upper x = .ok up1 ∧ b2.lower x = .ok lo2 ∧
      b2.upper x = .ok up2 ∧ b3.lower x = .ok lo3 ∧ b3.upper x = .ok up3 ∧
      lo1.shape = y1.shape ∧ up1.shape = y1.shape ∧ lo2.shape = y1.shape ∧ up2.shape = y1.shape ∧ lo3.shape = y1.shape ∧
      up3.shape = y1.shape ∧ ∀ I, ValidIdx y1.shape I → lo3.get I = lo1.get I + lo2.get I ∧ up3.get I = up1.get I + up2.get I := by
  obtain ⟨z1, z2, l1, l2, hz1, hz2, s1, s2⟩ := both_sound hlib hlh h0 hb1 hb2 hfit hev0 hne0 hy1 hy2
  obtain ⟨a1, a2, a3, a4, a5, a6, q1, q2, q3, q4, q5, q6, t1, t2, t3, t4, t5, t6, h⟩ :=
    sum_core (k := 1) (.inl ⟨rfl, rfl⟩) hx hw hb1 hb2 hb3 l1 l2 hz1 hz2 s1 s2 hy
  exact ⟨a1, a2, a3, a4, a5, a6, q1, q2, q3, q4, q5, q6, t1, t2, t3, t4, t5, t6, fun I hI => (h I hI).1 rfl⟩

/-- **C91 (differences).** The lower bound of `o1 - o2` is the lower bound of `o1` minus the *upper* bound of `o2`, and the upper
bound is the upper bound of `o1` minus the lower bound of `o2`. -/
theorem C91_sub {lib : Lib K} {sem : Sem K} (hlib : LibSound lib sem) {p : Jaxpr K} {consts : List (ND K)} {maxDegree : ℤ}
    {propagate : Bool} {x0 lo hi x y1 y2 : ND K} {b1 b2 b3 : Bounds K} {o1 o2 : Atom K} {w : ℤ}
    (hlh : lo.shape = hi.shape) (h0 : (Coef.ivl lo hi).Contains x0) (hx : x.shape = x0.shape) (hw : w ≠ -1)
    (hb1 : taylorBounds lib (p.out o1) consts maxDegree propagate x0 lo hi = .ok b1)
    (hb2 : taylorBounds lib (p.out o2) consts maxDegree propagate x0 lo hi = .ok b2)
    (hb3 : taylorBounds lib (p.andThen .sub [o1, o2] w) consts maxDegree propagate x0 lo hi = .ok b3)
    (hfit : ProgramFits sem p consts x0)
    {vals0 : Vals K} (hev0 : evalEnv sem p consts x0 = .ok vals0) (hne0 : NonEmptyVals vals0)
    (hy1 : evalJaxpr sem (p.out o1) consts x0 = .ok y1) (hy2 : evalJaxpr sem (p.out o2) consts x0 = .ok y2)
    (hy : y1.shape = y2.shape) :
    ∃ lo1 up1 lo2 up2 lo3 up3 : ND K, b1.lower x = .ok lo1 ∧ b1.upper x = .ok up1 ∧ b2.lower x = .ok lo2 ∧
      b2.upper x = .ok up2 ∧ b3.lower x = .ok lo3 ∧ b3.upper x = .ok up3 ∧
      lo1.shape = y1.shape ∧ up1.shape = y1.shape ∧ lo2.shape = y1.shape ∧ up2.shape = y1.shape ∧ lo3.shape = y1.shape ∧
      up3.shape = y1.shape ∧ ∀ I, ValidIdx y1.shape I → lo3.get I = lo1.get I - up2.get I ∧ up3.get I = up1.get I - lo2.get I := by
  obtain ⟨z1, z2, l1, l2, hz1, hz2, s1, s2⟩ := both_sound hlib hlh h0 hb1 hb2 hfit hev0 hne0 hy1 hy2
  obtain ⟨a1, a2, a3, a4, a5, a6, q1, q2, q3, q4, q5, q6, t1, t2, t3, t4, t5, t6, h⟩ :=
    sum_core (k := -1) (.inr ⟨rfl, rfl⟩) hx hw hb1 hb2 hb3 l1 l2 hz1 hz2 s1 s2 hy
  exact ⟨a1, a2, a3, a4, a5, a6, q1, q2, q3, q4, q5, q6, t1, t2, t3, t4, t5, t6, fun I hI => (h I hI).2 rfl⟩

/-- **C91 with the library's own tables** (under the conditions of C42 for them). -/
theorem C91_add_builtin {p : Jaxpr ℝ} {consts : List (ND ℝ)} {maxDegree : ℤ}
    {propagate : Bool} {x0 lo hi x y1 y2 : ND ℝ} {b1 b2 b3 : Bounds ℝ} {o1 o2 : Atom ℝ} {w : ℤ}
    (hlh : lo.shape = hi.shape) (h0 : (Coef.ivl lo hi).Contains x0) (hx : x.shape = x0.shape) (hw : w ≠ -1)
    (hb1 : taylorBounds safeLib (p.out o1) consts maxDegree propagate x0 lo hi = .ok b1)
    (hb2 : taylorBounds safeLib (p.out o2) consts maxDegree propagate x0 lo hi = .ok b2)
    (hb3 : taylorBounds realLib (p.andThen .add [o1, o2] w) consts maxDegree propagate x0 lo hi = .ok b3)
    (hfit : ProgramFits realSem p consts x0)
    {vals0 : Vals ℝ} (hev0 : evalEnv realSem p consts x0 = .ok vals0) (hne0 : NonEmptyVals vals0)
    (hy1 : evalJaxpr realSem (p.out o1) consts x0 = .ok y1) (hy2 : evalJaxpr realSem (p.out o2) consts x0 = .ok y2)
    (hy : y1.shape = y2.shape) :
    taylorBounds realLib (p.out o1) consts maxDegree propagate x0 lo hi = .ok b1 ∧
    taylorBounds realLib (p.out o2) consts maxDegree propagate x0 lo hi = .ok b2 ∧
    ∃ lo1 up1 lo2 up2 lo3 up3 : ND ℝ, b1.lower x = .ok lo1 ∧ b1.upper x = .ok up1 ∧ b2.lower x = .ok lo2 ∧
      b2.upper x = .ok up2 ∧ b3.lower x = .ok lo3 ∧ b3.upper x = .ok up3 ∧
      lo1.shape = y1.shape ∧ up1.shape = y1.shape ∧ lo2.shape = y1.shape ∧ up2.shape = y1.shape ∧ lo3.shape = y1.shape ∧
      up3.shape = y1.shape ∧ ∀ I, ValidIdx y1.shape I → lo3.get I = lo1.get I + lo2.get I ∧ up3.get I = up1.get I + up2.get I := by
  have hr1 := okLe_taylorBounds safeLib_le _ _ _ _ _ _ _ _ hb1
  have hr2 := okLe_taylorBounds safeLib_le _ _ _ _ _ _ _ _ hb2
  refine ⟨hr1, hr2, ?_⟩
  obtain ⟨z1, z2, l1, l2, hz1, hz2, s1, s2⟩ := both_sound safeLib_sound hlh h0 hb1 hb2 hfit hev0 hne0 hy1 hy2
  obtain ⟨a1, a2, a3, a4, a5, a6, q1, q2, q3, q4, q5, q6, t1, t2, t3, t4, t5, t6, h⟩ :=
    sum_core (k := 1) (.inl ⟨rfl, rfl⟩) hx hw hr1 hr2 hb3 l1 l2 hz1 hz2 s1 s2 hy
  exact ⟨a1, a2, a3, a4, a5, a6, q1, q2, q3, q4, q5, q6, t1, t2, t3, t4, t5, t6, fun I hI => (h I hI).1 rfl⟩

/-- **C91 with the library's own tables**, for differences. -/
theorem C91_sub_builtin {p : Jaxpr ℝ} {consts : List (ND ℝ)} {maxDegree : ℤ}
    {propagate : Bool} {x0 lo hi x y1 y2 : ND ℝ} {b1 b2 b3 : Bounds ℝ} {o1 o2 : Atom ℝ} {w : ℤ}
    (hlh : lo.shape = hi.shape) (h0 : (Coef.ivl lo hi).Contains x0) (hx : x.shape = x0.shape) (hw : w ≠ -1)
    (hb1 : taylorBounds safeLib (p.out o1) consts maxDegree propagate x0 lo hi = .ok b1)
    (hb2 : taylorBounds safeLib (p.out o2) consts maxDegree propagate x0 lo hi = .ok b2)
    (hb3 : taylorBounds realLib (p.andThen .sub [o1, o2] w) consts maxDegree propagate x0 lo hi = .ok b3)
    (hfit : ProgramFits realSem p consts x0)
    {vals0 : Vals ℝ} (hev0 : evalEnv realSem p consts x0 = .ok vals0) (hne0 : NonEmptyVals vals0)
    (hy1 : evalJaxpr realSem (p.out o1) consts x0 = .ok y1) (hy2 : evalJaxpr realSem (p.out o2) consts x0 = .ok y2)
    (hy : y1.shape = y2.shape) :
    taylorBounds realLib (p.out o1) consts maxDegree propagate x0 lo hi = .ok b1 ∧
    taylorBounds realLib (p.out o2) consts maxDegree propagate x0 lo hi = .ok b2 ∧
    ∃ lo1 up1 lo2 up2 lo3 up3 : ND ℝ, b1.lower x = .ok lo1 ∧ b1.upper x = .ok up1 ∧ b2.lower x = .ok lo2 ∧
      b2.upper x = .ok up2 ∧ b3.lower x = .ok lo3 ∧ b3.upper x = .ok up3 ∧
      lo1.shape = y1.shape ∧ up1.shape = y1.shape ∧ lo2.shape = y1.shape ∧ up2.shape = y1.shape ∧ lo3.shape = y1.shape ∧
      up3.shape = y1.shape ∧ ∀ I, ValidIdx y1.shape I → lo3.get I = lo1.get I - up2.get I ∧ up3.get I = up1.get I - lo2.get I := by
  have hr1 := okLe_taylorBounds safeLib_le _ _ _ _ _ _ _ _ hb1
  have hr2 := okLe_taylorBounds safeLib_le _ _ _ _ _ _ _ _ hb2
  refine ⟨hr1, hr2, ?_⟩
  obtain ⟨z1, z2, l1, l2, hz1, hz2, s1, s2⟩ := both_sound safeLib_sound hlh h0 hb1 hb2 hfit hev0 hne0 hy1 hy2
  obtain ⟨a1, a2, a3, a4, a5, a6, q1, q2, q3, q4, q5, q6, t1, t2, t3, t4, t5, t6, h⟩ :=
    sum_core (k := -1) (.inr ⟨rfl, rfl⟩) hx hw hr1 hr2 hb3 l1 l2 hz1 hz2 s1 s2 hy
  exact ⟨a1, a2, a3, a4, a5, a6, q1, q2, q3, q4, q5, q6, t1, t2, t3, t4, t5, t6, fun I hI => (h I hI).2 rfl⟩

/-- **C91 (meaning).** The program `p` followed by `o1 + o2` or `o1 - o2` computes the sum or the difference of the two values. -/
theorem C91_meaning {sem : Sem K} {p : Jaxpr K} {consts : List (ND K)} {x y1 y2 y3 : ND K} {o1 o2 : Atom K} {w : ℤ} (hw : w ≠ -1)
    (hy1 : evalJaxpr sem (p.out o1) consts x = .ok y1) (hy2 : evalJaxpr sem (p.out o2) consts x = .ok y2)
    (hy : y1.shape = y2.shape) :
    (evalJaxpr sem (p.andThen .add [o1, o2] w) consts x = .ok y3 →
      y3.shape = y1.shape ∧ ∀ I, ValidIdx y1.shape I → y3.get I = y1.get I + y2.get I) ∧
    (evalJaxpr sem (p.andThen .sub [o1, o2] w) consts x = .ok y3 →
      y3.shape = y1.shape ∧ ∀ I, ValidIdx y1.shape I → y3.get I = y1.get I - y2.get I) := by
  have key : ∀ prim, evalJaxpr sem (p.andThen prim [o1, o2] w) consts x = .ok y3 → prim.bind sem [y1, y2] = .ok [y3] := by
    intro prim h3
    simp only [evalJaxpr, py_bind_ok] at hy1 hy2 h3
    obtain ⟨env, he, hy1⟩ := hy1
    obtain ⟨env2, he2, hy2⟩ := hy2
    obtain ⟨env', he', h3⟩ := h3
    replace he : p.eqns.foldlM (evalEqn sem) (evalInit p consts x) = .ok env := he
    replace he2 : p.eqns.foldlM (evalEqn sem) (evalInit p consts x) = .ok env2 := he2
    rw [he] at he2
    cases he2
    replace hy1 : getVal env o1 = .ok y1 := hy1
    replace hy2 : getVal env o2 = .ok y2 := hy2
    replace he' : (p.eqns ++ [(⟨prim, [o1, o2], [w]⟩ : Eqn K)]).foldlM (evalEqn sem) (evalInit p consts x) = .ok env' := he'
    rw [List.foldlM_append, he, py_ok_bind, List.foldlM_cons, py_bind_ok] at he'
    obtain ⟨env1, hst, hnil⟩ := he'
    cases hnil
    simp only [evalEqn, py_bind_ok] at hst
    obtain ⟨vals, hvals, outs, houts, hst⟩ := hst
    have hlen : outs.length = 1 := by
      by_contra hne
      rw [if_pos (show outs.length ≠ [w].length from hne)] at hst
      cases hst
    obtain ⟨out, rfl⟩ := List.length_eq_one_iff.1 hlen
    rw [if_neg (by simp)] at hst
    cases hst
    replace h3 : getVal (storeVal env (w, out)) (.var w) = .ok y3 := h3
    rw [storeVal, if_neg hw, getVal, List.lookup_cons_self] at h3
    cases h3
    simp only [List.mapM_cons, List.mapM_nil, hy1, hy2, py_ok_bind, py_pure] at hvals
    cases hvals
    exact houts
  have hs : ble y2.shape y1.shape := by rw [hy]; exact ble_refl _
  constructor
  all_goals
    intro h
    obtain ⟨e1, e2⟩ := (nary_value hs).1 (one_inv (key _ h))
    exact ⟨e1, fun I hI => by rw [e2 I hI, ND.bget_valid y2 (hy ▸ hI)]⟩

/-- The hypotheses of C91 are met: two values of the program of `PolyEx`, `s = sum((A x + c)^2)` and `2 * s`; at every `x` with two
entries the bounds of `s + 2 * s` are the sums of the bounds, those of `s - 2 * s` the differences. -/
theorem C91_example : ∃ b1 b2 b3 b4 : Bounds ℚ,
    taylorBounds polyLib (exQuad.out (.var 6)) [exA, exC] 1 true exX0 exLo' exHi' = .ok b1 ∧
    taylorBounds polyLib (exQuad.out (.var 7)) [exA, exC] 1 true exX0 exLo' exHi' = .ok b2 ∧
    taylorBounds polyLib (exQuad.andThen .add [.var 6, .var 7] 8) [exA, exC] 1 true exX0 exLo' exHi' = .ok b3 ∧
    taylorBounds polyLib (exQuad.andThen .sub [.var 6, .var 7] 8) [exA, exC] 1 true exX0 exLo' exHi' = .ok b4 ∧
    ∀ x : ND ℚ, x.shape = [2] → ∃ l1 u1 l2 u2 l3 u3 l4 u4, b1.lower x = .ok l1 ∧ b1.upper x = .ok u1 ∧ b2.lower x = .ok l2 ∧
      b2.upper x = .ok u2 ∧ b3.lower x = .ok l3 ∧ b3.upper x = .ok u3 ∧ b4.lower x = .ok l4 ∧ b4.upper x = .ok u4 ∧
      l3.get [] = l1.get [] + l2.get [] ∧ u3.get [] = u1.get [] + u2.get [] ∧
      l4.get [] = l1.get [] - u2.get [] ∧ u4.get [] = u1.get [] - l2.get [] := by
  obtain ⟨b1, h1⟩ := ok_of_isSome
    (show (taylorBounds polyLib (exQuad.out (.var 6)) [exA, exC] 1 true exX0 exLo' exHi').toOption.isSome = true by decide +kernel)
  obtain ⟨b2, h2⟩ := ok_of_isSome
    (show (taylorBounds polyLib (exQuad.out (.var 7)) [exA, exC] 1 true exX0 exLo' exHi').toOption.isSome = true by decide +kernel)
  obtain ⟨b3, h3⟩ := ok_of_isSome (show (taylorBounds polyLib (exQuad.andThen .add [.var 6, .var 7] 8) [exA, exC] 1 true exX0 exLo'
    exHi').toOption.isSome = true by decide +kernel)
  obtain ⟨b4, h4⟩ := ok_of_isSome (show (taylorBounds polyLib (exQuad.andThen .sub [.var 6, .var 7] 8) [exA, exC] 1 true exX0 exLo'
    exHi').toOption.isSome = true by decide +kernel)
  obtain ⟨v0, y0, he0, hn0, hy0, hys⟩ := exQuad_eval (x := exX0) rfl
  have hs6 : (evalJaxpr polySem (exQuad.out (.var 6)) [exA, exC] exX0).toOption.map (fun y => y.shape) = some [] := by decide +kernel
  obtain ⟨y6, hy6⟩ := ok_of_isSome
    (show (evalJaxpr polySem (exQuad.out (.var 6)) [exA, exC] exX0).toOption.isSome = true by decide +kernel)
  rw [hy6] at hs6
  have hs6 : y6.shape = [] := Option.some.inj hs6
  refine ⟨b1, b2, b3, b4, h1, h2, h3, h4, fun x hx => ?_⟩
  have hlh : exLo'.shape = exHi'.shape := rfl
  obtain ⟨l1, u1, l2, u2, l3, u3, a1, a2, a3, a4, a5, a6, -, -, -, -, -, -, ha⟩ := C91_add polyLib_sound hlh exX0_mem (x := x) hx
    (by decide) h1 h2 h3 exQuad_fits he0 hn0 hy6 hy0 (by rw [hs6, hys])
  obtain ⟨l1', u1', l2', u2', l4, u4, c1, c2, c3, c4, c5, c6, -, -, -, -, -, -, hc⟩ := C91_sub polyLib_sound hlh exX0_mem (x := x) hx
    (by decide) h1 h2 h4 exQuad_fits he0 hn0 hy6 hy0 (by rw [hs6, hys])
  rw [a1] at c1; cases c1
  rw [a2] at c2; cases c2
  rw [a3] at c3; cases c3
  rw [a4] at c4; cases c4
  have hv : ValidIdx y6.shape [] := by rw [hs6]; exact .nil
  exact ⟨l1, u1, l2, u2, l3, u3, l4, u4, a1, a2, a3, a4, a5, a6, c5, c6, (ha [] hv).1, (ha [] hv).2, (hc [] hv).1, (hc [] hv).2⟩

end JB
end AB
