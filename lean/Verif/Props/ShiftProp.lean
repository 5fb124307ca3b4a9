/-
C90 with propagation of trust regions: the bounds of `x ↦ f(x + c)` at `x0` are those of `f` at `x0 + c`
(/repo/autobound/jax/jax_bound.py:61-212).
-/
import Verif.Props.Shift
import Verif.Props.Shrink
import Verif.Props.Converge

set_option linter.unusedSectionVars false
set_option linter.unusedSimpArgs false

namespace AB
variable {K : Type} [Field K] [LinearOrder K] [IsStrictOrderedRing K]

namespace JB
open TEA

/-- the trust region of the first equation -/
theorem first_region {lib : Lib K} {T T0 : TEA K} {E : Encl K} {lo hi : ND K} {o : Atom K} {c : ND K} {prim : Prim K}
    {args : List (Atom K)} {env : Env K} {ins : List (Inter K)} {R r : Coef K} {e : Encl K} (hs : ShiftEqn o c prim args)
    (ho : getInter env o = .ok ⟨E, some (.ivl lo hi)⟩) (hins : args.mapM (getInter env) = .ok ins)
    (h1 : IA.add (.ivl lo hi) (.ivl c c) = .ok R) (h2 : IA.add (.ivl c c) (.ivl lo hi) = .ok R)
    (h : outRegion lib T T0 prim ins e = .ok r) :
    ∃ rb bs y0 es a b l u, encloseEnclosure e T.trustRegion 0 = .ok (rb :: bs) ∧ e = .arr y0 :: es ∧
      intersectIntervals R rb = .ok (a, b) ∧ ND.map2 min y0 a = .ok l ∧ ND.map2 max y0 b = .ok u ∧ r = .ivl l u := by
  obtain ⟨f, ins0, ra, as, rb, bs, y0, es, a, b, l, u, k1, k2, k3, k4, k5, k6, k7, k8, k9⟩ := outRegion_inv h
  refine ⟨rb, bs, y0, es, a, b, l, u, k4, k5, ?_, k7, k8, k9⟩
  have hra : ra = R := by
    have hlit : ∀ c : ND K, getInter env (.lit c) = .ok (constantInter c) := fun _ => rfl
    have add1 : T0.add [.ivl lo hi] [.ivl c c] = .ok [R] := by
      unfold TEA.add TEA.truncateIfNecessary
      simp only [TEA.addCoeffs, h1, py_ok_bind]
      exact TEA.encloseEnclosure_short (E := [R]) (Z := T0.trustRegion) (d := T0.maxDegree) (Nat.le_add_left 1 _)
    have add2 : T0.add [.ivl c c] [.ivl lo hi] = .ok [R] := by
      unfold TEA.add TEA.truncateIfNecessary
      simp only [TEA.addCoeffs, h2, py_ok_bind]
      exact TEA.encloseEnclosure_short (E := [R]) (Z := T0.trustRegion) (d := T0.maxDegree) (Nat.le_add_left 1 _)
    cases hs with
    | add =>
      simp only [List.mapM_cons, List.mapM_nil, ho, hlit, py_ok_bind] at hins
      cases hins
      simp only [List.mapM_cons, List.mapM_nil, constantInter, py_ok_bind] at k2
      cases k2
      cases k1
      have k3 : T0.add [.ivl lo hi] [.ivl c c] = .ok (ra :: as) := k3
      rw [add1] at k3
      cases k3
      rfl
    | radd =>
      simp only [List.mapM_cons, List.mapM_nil, ho, hlit, py_ok_bind] at hins
      cases hins
      simp only [List.mapM_cons, List.mapM_nil, constantInter, py_ok_bind] at k2
      cases k2
      cases k1
      have k3 : T0.add [.ivl c c] [.ivl lo hi] = .ok (ra :: as) := k3
      rw [add2] at k3
      cases k3
      rfl
    | sub c0 =>
      simp only [List.mapM_cons, List.mapM_nil, ho, hlit, py_ok_bind] at hins
      cases hins
      simp only [List.mapM_cons, List.mapM_nil, constantInter, py_ok_bind] at k2
      cases k2
      cases k1
      have k3 : T0.subtract [.ivl lo hi] [.ivl c0 c0] = .ok (ra :: as) := k3
      unfold TEA.subtract at k3
      have : T0.negative [.ivl c0 c0] = .ok [.ivl (c0.map (- ·)) (c0.map (- ·))] := by
        unfold TEA.negative TEA.truncateIfNecessary
        rw [TEA.encloseEnclosure_short (by simp)]
        rfl
      rw [this, py_ok_bind, add1] at k3
      cases k3
      rfl
  rw [← hra]
  exact k6

/-- the interval `R = [l0, h0]` (the range of `x + c` over the trust region) is what is stored -/
theorem first_region_eq {T : TEA K} {x0 idc lo hi tlo thi l u a b y0 : ND K} {es bs : Encl K} {rb : Coef K}
    (hid : identityCoef x0 = .ok idc) (hlo : lo.shape = x0.shape) (hhi : hi.shape = x0.shape)
    (h0 : (Coef.ivl lo hi).Contains x0)
    (ht : IA.subtract (.ivl lo hi) (.arr x0) = .ok (.ivl tlo thi)) (hZ : T.trustRegion = .ivl tlo thi)
    (hen : encloseEnclosure [.arr x0, .arr idc] T.trustRegion 0 = .ok (rb :: bs))
    (hy : ([.arr x0, .arr idc] : Encl K) = .arr y0 :: es)
    (hint : intersectIntervals (.ivl lo hi) rb = .ok (a, b)) (hl : ND.map2 min y0 a = .ok l) (hu : ND.map2 max y0 b = .ok u) :
    l.shape = x0.shape ∧ u.shape = x0.shape ∧ ∀ I, ValidIdx x0.shape I → l.get I = lo.get I ∧ u.get I = hi.get I := by
  cases hy
  rw [hZ] at hen
  have hbs : bs = [] := by
    have := enclose_len hen
    simp only [List.length_cons, List.length_nil] at this
    exact List.eq_nil_of_length_eq_zero (by omega)
  subst hbs
  have hlh : lo.shape = hi.shape := hlo.trans hhi.symm
  have hord : ∀ I, ValidIdx x0.shape I → lo.get I ≤ x0.get I ∧ x0.get I ≤ hi.get I := fun I hI => by
    have := h0.2 I (show ValidIdx lo.shape I by rw [hlo]; exact hI)
    exact this
  have ht2 : tlo.shape = thi.shape := by
    simp only [IA.subtract, py_bind_ok, py_pure, Coef.ivl.injEq] at ht
    obtain ⟨p, hp, q, hq, rfl, rfl⟩ := ht
    have h1 := (ND.map2_ok hp).1
    have h2 := (ND.map2_ok hq).1
    rw [hlh, h2] at h1
    exact (Option.some.inj h1).symm
  have cov : ∀ x : ND K, (Coef.ivl lo hi).Contains x →
      rb.WF ∧ ble rb.shape x.shape ∧ ∀ I, ValidIdx x.shape I → rb.Mem I (x.get I) := by
    intro x hx
    obtain ⟨z, hz, -, hzc⟩ := region_shift hlh h0 ht hx
    exact region_covers (sound_input hz (hx.1.trans h0.1.symm) hid) ht2 hzc hen
  obtain ⟨w1, w2, w3⟩ := cov lo ⟨rfl, fun I hI => ⟨le_rfl, by
    have hI : ValidIdx lo.shape I := hI
    rw [hlo] at hI
    exact (hord I hI).1.trans (hord I hI).2⟩⟩
  obtain ⟨-, v2, v3⟩ := cov hi ⟨hlh.symm, fun I hI => ⟨by
    have hI : ValidIdx lo.shape I := hI
    rw [hlo] at hI
    exact (hord I hI).1.trans (hord I hI).2, le_rfl⟩⟩
  cases rb with
  | arr _ => simp only [intersectIntervals] at hint; split_ifs at hint
  | ivl b0 b1 =>
    simp only [intersectIntervals, py_bind_ok, py_pure, Prod.mk.injEq] at hint
    obtain ⟨m1, hm1, m2, hm2, rfl, rfl⟩ := hint
    have wb : b0.shape = b1.shape := w1
    have w2 : ble b0.shape x0.shape := by rw [← hlo]; exact w2
    have sh : ∀ (f : K → K → K) (p q w : ND K), p.shape = x0.shape → ble q.shape x0.shape →
        ND.map2 f p q = .ok w → w.shape = x0.shape ∧ ∀ I, ValidIdx x0.shape I → w.get I = f (p.get I) (q.bget I) := by
      intro f p q w hu hv hw
      have hb := (ND.map2_ok hw).1
      rw [hu, bshape_eq_of_ble' hv] at hb
      have hs : w.shape = x0.shape := (Option.some.inj hb).symm
      refine ⟨hs, fun I hI => ?_⟩
      rw [map2_at hw (hs ▸ hI), ND.bget_valid _ (hu ▸ hI)]
    obtain ⟨s1, g1⟩ := sh _ _ _ _ hlo w2 hm1
    obtain ⟨s2, g2⟩ := sh _ _ _ _ hhi (wb ▸ w2) hm2
    obtain ⟨s3, g3⟩ := sh _ _ _ _ rfl (s1 ▸ ble_refl _) hl
    obtain ⟨s4, g4⟩ := sh _ _ _ _ rfl (s2 ▸ ble_refl _) hu
    refine ⟨s3, s4, fun I hI => ?_⟩
    have k1 : b0.bget I ≤ lo.get I := (w3 I (by rw [hlo]; exact hI)).1
    have k2 : hi.get I ≤ b1.bget I := (v3 I (by rw [hhi]; exact hI)).2
    rw [g3 I hI, g4 I hI, ND.bget_valid _ (s1 ▸ hI), ND.bget_valid _ (s2 ▸ hI), g1 I hI, g2 I hI, max_eq_left k1, min_eq_left k2]
    exact ⟨min_eq_right (hord I hI).1, max_eq_right (hord I hI).2⟩

theorem nestE_self {lib : Lib K} (hlib : LibIsotone lib) {p : Jaxpr K} (hp : ∀ eqn ∈ p.eqns, PrimIsotone eqn.prim)
    {consts : List (ND K)} {maxDegree : ℤ} {propagate : Bool} {x0 lo hi : ND K} {b : Bounds K} (hlo : lo.shape = x0.shape)
    (hhi : hi.shape = x0.shape) (h0 : (Coef.ivl lo hi).Contains x0)
    (h : taylorBounds lib p consts maxDegree propagate x0 lo hi = .ok b) : NestE b.coefficients b.coefficients := by
  refine (iso_taylorBounds hlib hp (lo' := lo) (hi' := hi) ⟨⟨hlo, hhi, hlo, hhi⟩, fun I hI => ?_⟩ h h).2.2
  have := h0.2 I (show ValidIdx lo.shape I by rw [hlo]; exact hI)
  exact ⟨le_rfl, this.1, this.2, le_rfl⟩

/-- **C90 with propagation.** As in C90, but with propagation of trust regions and for the tables and programs of C60: if
`taylor_bounds` returns for `f` at `x0 + s` and `[lo + s, hi + s]` and for `x ↦ f(x + s)` at `x0` and `[lo, hi]`
(`lo <= x0 <= hi`), the coefficients are contained in each other: they have the same shapes and the same entries. -/
theorem C90_propagate {lib : Lib K} (hlib : LibIsotone lib) {p : Jaxpr K} (hp : ∀ eqn ∈ p.eqns, PrimIsotone eqn.prim)
    {consts : List (ND K)} {maxDegree : ℤ} {propagate : Bool}
    {x0 lo hi s x0' lo' hi' : ND K} {bnd bnd' : Bounds K} {prim : Prim K} {args : List (Atom K)} {v w : ℤ}
    (hin : p.invars = [v]) (hv : v ≠ -1) (hw : w ≠ -1)
    (hwf : w ∉ v :: p.constvars ++ assigned p.eqns) (hvf : v ∉ p.constvars)
    (hlo : lo.shape = x0.shape) (hhi : hi.shape = x0.shape) (h0 : (Coef.ivl lo hi).Contains x0)
    (hs : bshape s.shape x0.shape = some x0.shape)
    (hx' : ND.map2 (· + ·) x0 s = .ok x0') (hlo' : ND.map2 (· + ·) lo s = .ok lo') (hhi' : ND.map2 (· + ·) hi s = .ok hi')
    (he : ShiftEqn (.var w) s prim args)
    (hb : taylorBounds lib p consts maxDegree propagate x0' lo' hi' = .ok bnd)
    (hb' : taylorBounds lib (p.after prim args v w) consts maxDegree propagate x0 lo hi = .ok bnd') :
    NestE bnd'.coefficients bnd.coefficients ∧ NestE bnd.coefficients bnd'.coefficients := by
  obtain ⟨sx, sx'⟩ := shift_eq hs
  obtain ⟨sl, sl'⟩ := shift_eq (a := lo) (c := s) (by rw [hlo]; exact hs)
  obtain ⟨sh, sh'⟩ := shift_eq (a := hi) (c := s) (by rw [hhi]; exact hs)
  have hord : ∀ I, ValidIdx x0.shape I → lo.get I ≤ x0.get I ∧ x0.get I ≤ hi.get I := fun I hI =>
    h0.2 I (show ValidIdx lo.shape I by rw [hlo]; exact hI)
  have h0' : (Coef.ivl (shifted lo s) (shifted hi s)).Contains (shifted x0 s) := by
    refine ⟨hlo.symm, fun I hI => ?_⟩
    have hI : ValidIdx lo.shape I := hI
    have hI0 : ValidIdx x0.shape I := hlo ▸ hI
    have hI1 : ValidIdx hi.shape I := hhi ▸ hI0
    have := hord I hI0
    show lo.bget I + s.bget I ≤ x0.bget I + s.bget I ∧ x0.bget I + s.bget I ≤ hi.bget I + s.bget I
    rw [ND.bget_valid _ hI, ND.bget_valid _ hI0, ND.bget_valid _ hI1]
    exact ⟨add_le_add_left this.1 _, add_le_add_left this.2 _⟩
  by_cases hpr : propagate = false ∨ maxDegree = 0
  · obtain ⟨bnd2, hb2, hc, -⟩ := C90_shift hpr hin hv hw hwf hvf hlo hhi hs hx' hlo' hhi' he hb
    rw [hb'] at hb2
    cases hb2
    rw [hc]
    rw [sx] at hx'; cases hx'
    rw [sl] at hlo'; cases hlo'
    rw [sh] at hhi'; cases hhi'
    have := nestE_self hlib hp (show (shifted lo s).shape = (shifted x0 s).shape from hlo)
      (show (shifted hi s).shape = (shifted x0 s).shape from hhi) h0' hb
    exact ⟨this, this⟩
  simp only [not_or, Bool.not_eq_false] at hpr
  obtain ⟨rfl, hm0⟩ := hpr
  rw [sx] at hx'; cases hx'
  rw [sl] at hlo'; cases hlo'
  rw [sh] at hhi'; cases hhi'
  simp only [List.cons_append, List.mem_cons, List.mem_append, not_or] at hwf
  obtain ⟨hwv, hwc, hwa⟩ := hwf
  simp only [taylorBounds, py_bind_ok] at hb hb'
  obtain ⟨envF, hrun, hb⟩ := hb
  obtain ⟨envG, hrunG, hb'⟩ := hb'
  obtain ⟨hmd, tlo, thi, T, T0, env0, ht, hT, hT0, hinit, hrun⟩ := taylorEnv_inv hrun
  obtain ⟨-, tlo', thi', T', T0', envG0, ht', hT', hT0', hinitG, hrunG⟩ := taylorEnv_inv hrunG
  have hprop : (true && (maxDegree != 0)) = true := by simp [hm0]
  rw [hprop] at hinit hrun hinitG hrunG
  have hteq : IA.subtract (.ivl lo hi) (.arr x0) = .ok (.ivl tlo thi) := by
    rw [← ht]
    simp only [IA.subtract]
    rw [sub_shifted hlo, sub_shifted hhi]
  rw [hteq] at ht'
  cases ht'
  rw [hT] at hT'
  cases hT'
  rw [hT0] at hT0'
  cases hT0'
  have hd : maxDegree.toNat > 0 := by omega
  have hwithin : Within x0 lo hi lo hi := ⟨⟨hlo, hhi, hlo, hhi⟩, fun I hI => ⟨le_rfl, (hord I hI).1, (hord I hI).2, le_rfl⟩⟩
  obtain ⟨n1, z1, -⟩ := within_nestT hwithin hteq hteq hT hT
  obtain ⟨n0, z0, -⟩ := within_nestT hwithin hteq hteq hT0 hT0
  have hR : NestRun lib T T0 T T0 := ⟨hlib, n1, n0, z1, z1, z0, z0⟩
  have hTd : T.maxDegree = maxDegree.toNat ∧ T.trustRegion = .ivl tlo thi := by
    unfold TEA.init at hT
    split_ifs at hT
    cases hT
    exact ⟨rfl, rfl⟩
  -- the initial environments
  simp only [initEnv, py_bind_ok] at hinit hinitG
  obtain ⟨idc, hid, hinit⟩ := hinit
  obtain ⟨idc', hid', hinitG⟩ := hinitG
  rw [show identityCoef x0 = identityCoef (shifted x0 s) from rfl, hid] at hid'
  cases hid'
  have hid' : identityCoef x0 = .ok idc := hid
  by_cases hcl : consts.length ≠ p.constvars.length
  · rw [if_pos hcl] at hinit; cases hinit
  have hcl' : ¬ consts.length ≠ (p.after prim args v w).constvars.length := hcl
  rw [if_neg hcl, hin] at hinit
  rw [if_neg hcl', show (p.after prim args v w).invars = [w] from rfl,
    show (p.after prim args v w).constvars = p.constvars from rfl] at hinitG
  simp only [if_true, py_pure, if_pos hd] at hinit hinitG
  obtain ⟨cenv, hcenv⟩ : ∃ cenv : Env K, cenv = p.constvars.zip (consts.map constantInter) := ⟨_, rfl⟩
  rw [← hcenv] at hinit hinitG
  have hnone : ∀ u, u ∉ p.constvars → List.lookup u cenv = none := by
    intro u hu
    rw [hcenv, List.lookup_eq_none_iff]
    intro a ha
    have := (List.of_mem_zip (show (a.1, a.2) ∈ _ from ha)).1
    rw [bne_iff_ne]
    rintro rfl
    exact hu this
  subst hinit hinitG
  -- the run of `p`, with one more variable
  obtain ⟨W, hW⟩ : ∃ W : Inter K, W = ⟨[.arr x0, .arr idc], some (.ivl lo hi)⟩ := ⟨_, rfl⟩
  rw [← hW] at hrunG
  have hagree : Agree w ((v, (⟨[.arr (shifted x0 s), .arr idc], some (.ivl (shifted lo s) (shifted hi s))⟩ : Inter K)) :: cenv)
      ((v, ⟨[.arr (shifted x0 s), .arr idc], some (.ivl (shifted lo s) (shifted hi s))⟩) :: (w, W) :: cenv) := by
    refine ⟨fun u hu => ?_, ?_⟩
    · simp only [List.lookup_cons]
      rw [beq_eq_false_iff_ne.2 hu]
    · rw [List.lookup_cons, beq_eq_false_iff_ne.2 hwv]
      exact hnone w hwc
  obtain ⟨envP, hrunP, hag⟩ := hagree.run (fun e he hwe => hwa (by
    unfold assigned
    rw [List.mem_filter]
    exact ⟨List.mem_flatMap.2 ⟨e, he, hwe⟩, by simpa using hw⟩)) hrun
  -- the first equation
  replace hrunG : ((⟨prim, args, [v]⟩ : Eqn K) :: p.eqns).foldlM (step lib T T0 true x0.shape) ((w, W) :: cenv) = .ok envG := hrunG
  rw [List.foldlM_cons, py_bind_ok] at hrunG
  obtain ⟨env1, hst, hrunG⟩ := hrunG
  have ho : getInter ((w, W) :: cenv) (.var w) = .ok ⟨[.arr x0, .arr idc], some (.ivl lo hi)⟩ := by
    simp [getInter, List.lookup_cons, hW]
  obtain ⟨ins, f, f1, f2, f3, f4⟩ := first_enclosure (lib := lib) (T := T) (env := (w, W) :: cenv)
    (E' := [.arr (shifted x0 s), .arr idc]) he ho
    (fun v h => (nomatch h)) (by simp only [TEA.addCoeffs, IA.add, sx, py_ok_bind]; rfl)
    (by simp only [TEA.addCoeffs, IA.add, sx', py_ok_bind]; rfl)
    (by simp only [List.length_cons, List.length_nil]; omega)
  simp only [step, f1, py_ok_bind, eqnOutputs, f2, f3, f4] at hst
  simp only [List.length_cons, List.length_nil, if_true, py_bind_ok, py_pure] at hst
  obtain ⟨outs, ho', hst⟩ := hst
  rw [if_neg (by simp)] at ho'
  obtain ⟨r, hr, hro⟩ := py_bind_ok.1 ho'
  cases hro
  simp only [List.length_cons, List.length_nil, ne_eq, not_true_eq_false, if_false, List.zip_cons_cons, List.zip_nil_right,
    List.foldlM_cons, List.foldlM_nil, py_bind_ok] at hst
  obtain ⟨env2, hst, h2⟩ := hst
  cases h2
  have henv1 : env1 = (v, ⟨[.arr (shifted x0 s), .arr idc], some r⟩) :: (w, W) :: cenv := by
    unfold storeOne at hst
    rw [if_neg hv] at hst
    split_ifs at hst
    simp only [py_bind_ok, py_pure] at hst
    obtain ⟨_, -, rfl⟩ := hst
    rfl
  obtain ⟨rb, bs, y0, es, a, b, l, u, k1, k2, k3, k4, k5, rfl⟩ := first_region
    (R := .ivl (shifted lo s) (shifted hi s)) he ho f1
    (by simp only [IA.add, sl, sh, py_ok_bind]; rfl) (by simp only [IA.add, sl', sh', py_ok_bind]; rfl) hr
  obtain ⟨q1, q2, q3⟩ := first_region_eq (T := T) (x0 := shifted x0 s) (lo := shifted lo s) (hi := shifted hi s) hid hlo hhi h0' ht hTd.2 k1 k2 k3 k4 k5
  have hx0s : (shifted x0 s).shape = x0.shape := rfl
  have hordS : ∀ I, ValidIdx x0.shape I → (shifted lo s).get I ≤ (shifted x0 s).get I ∧ (shifted x0 s).get I ≤ (shifted hi s).get I :=
    fun I hI => h0'.2 I (show ValidIdx lo.shape I by rw [hlo]; exact hI)
  have wa : Within (shifted x0 s) l u (shifted lo s) (shifted hi s) := ⟨⟨q1, q2, hlo, hhi⟩, fun I hI => by
    obtain ⟨e1, e2⟩ := q3 I hI
    rw [e1, e2]
    exact ⟨le_rfl, (hordS I hI).1, (hordS I hI).2, le_rfl⟩⟩
  have wb : Within (shifted x0 s) (shifted lo s) (shifted hi s) l u := ⟨⟨hlo, hhi, q1, q2⟩, fun I hI => by
    obtain ⟨e1, e2⟩ := q3 I hI
    rw [e1, e2]
    exact ⟨le_rfl, (hordS I hI).1, (hordS I hI).2, le_rfl⟩⟩
  have regOk : ∀ (y l u idc : ND K), l.shape = y.shape → u.shape = y.shape →
      (∀ I, ValidIdx y.shape I → l.get I ≤ y.get I ∧ y.get I ≤ u.get I) → RegionOk [.arr y, .arr idc] (.ivl l u) := by
    intro y l u idc e1 e2 h
    refine ⟨y, _, rfl, by show ble y.shape l.shape; rw [e1]; exact ble_refl _, fun I hI => ?_⟩
    have hI : ValidIdx y.shape I := e1 ▸ (show ValidIdx l.shape I from hI)
    simp only [Coef.lo, Coef.hi]
    rw [ND.bget_valid l (e1.symm ▸ hI), ND.bget_valid u (e2.symm ▸ hI), ND.bget_valid y hI]
    exact h I hI
  have ok1 : RegionOk [.arr (shifted x0 s), .arr idc] (.ivl l u) := regOk _ _ _ _ q1 q2 fun I hI => by
    obtain ⟨e1, e2⟩ := q3 I hI
    rw [e1, e2]
    exact hordS I hI
  have ok2 : RegionOk [.arr (shifted x0 s), .arr idc] (.ivl (shifted lo s) (shifted hi s)) := regOk _ _ _ _ hlo hhi hordS
  have hbase : NestEnv ((w, W) :: cenv) ((w, W) :: cenv) := by
    refine .cons ⟨rfl, ?_⟩ ?_
    · rw [hW]
      have ok : RegionOk [.arr x0, .arr idc] (.ivl lo hi) := regOk _ _ _ _ hlo hhi hord
      exact ⟨.cons (.arr _) (.cons (.arr _) .nil), .inr ⟨_, _, rfl, rfl, hwithin.nest, ok, ok⟩⟩
    · rw [hcenv]
      refine List.forall₂_same.2 fun x hx => ⟨rfl, ?_⟩
      obtain ⟨c, -, hc⟩ := List.mem_map.1 (List.of_mem_zip (show (x.1, x.2) ∈ _ from hx)).2
      rw [← hc]
      exact nestI_const c
  have ns : ∀ {a b : Coef K}, Nest a b → RegionOk [.arr (shifted x0 s), .arr idc] a → RegionOk [.arr (shifted x0 s), .arr idc] b →
      NestEnv ((v, ⟨[.arr (shifted x0 s), .arr idc], some a⟩) :: (w, W) :: cenv)
        ((v, ⟨[.arr (shifted x0 s), .arr idc], some b⟩) :: (w, W) :: cenv) := fun hab ha hb =>
    .cons ⟨rfl, .cons (.arr _) (.cons (.arr _) .nil), .inr ⟨_, _, rfl, rfl, hab, ha, hb⟩⟩ hbase
  subst henv1
  have r1 := iso_run hR hp (ns wa.nest ok1 ok2) hrunG hrunP
  have r2 := iso_run hR hp (ns wb.nest ok2 ok1) hrunP hrunG
  rw [show (p.after prim args v w).outvars = p.outvars from rfl] at hb'
  revert hb hb'
  match p.outvars with
  | [] => intro hb; cases hb
  | _ :: _ :: _ => intro hb; cases hb
  | [o] =>
    intro hb hb'
    simp only [py_bind_ok, py_pure] at hb hb'
    obtain ⟨i, hi1, rfl⟩ := hb
    obtain ⟨j, hj, rfl⟩ := hb'
    have hi2 := hag.getInter hi1
    exact ⟨(iso_getInter r1 o hj hi2).encl, (iso_getInter r2 o hi2 hj).encl⟩

/-- Coefficients contained in each other have equal end points. -/
theorem nest_same {a b : Coef K} (h : Nest a b) (h' : Nest b a) : SameCoef a b := by
  cases h with
  | arr a => exact ⟨rfl, fun I _ => rfl⟩
  | @ivl p q s t w' w ins =>
    have N : Nest (.ivl p q) (.ivl s t) := .ivl w' w ins
    have s1 : p.shape = s.shape := N.shape
    have s2 : p.shape = q.shape := w'.1
    have s3 : s.shape = t.shape := w.1
    have key : ∀ I, ValidIdx s.shape I → p.get I = s.get I ∧ q.get I = t.get I := fun I hI => by
      have h1 := N.entries (R := s.shape) (ble_refl _) hI
      have h2 := h'.entries (R := p.shape) (ble_refl _) (s1 ▸ hI)
      simp only [Coef.lo, Coef.hi] at h1 h2
      rw [ND.bget_valid s hI, ND.bget_valid p (s1.symm ▸ hI), ND.bget_valid q ((s2.symm.trans s1).symm ▸ hI),
        ND.bget_valid t (s3 ▸ hI)] at h1 h2
      exact ⟨le_antisymm h2.1 h1.1, le_antisymm h1.2.2 h2.2.2⟩
    exact ⟨⟨s1, fun I hI => (key I (s1 ▸ hI)).1⟩, ⟨s2.symm.trans (s1.trans s3), fun I hI => (key I (s1 ▸ s2.symm ▸ hI)).2⟩⟩

theorem nestE_same {a b : Encl K} (h : NestE a b) (h' : NestE b a) : List.Forall₂ SameCoef a b := by
  induction h with
  | nil => exact .nil
  | cons h1 _ ih =>
    cases h' with
    | cons h2 h3 => exact .cons (nest_same h1 h2) (ih h3)

/-- The expansion points of the two results. -/
theorem taylorBounds_x0 {lib : Lib K} {p : Jaxpr K} {consts : List (ND K)} {maxDegree : ℤ} {propagate : Bool}
    {x0 lo hi : ND K} {b : Bounds K} (h : taylorBounds lib p consts maxDegree propagate x0 lo hi = .ok b) : b.x0 = x0 := by
  simp only [taylorBounds, py_bind_ok] at h
  obtain ⟨env, -, h⟩ := h
  revert h
  match p.outvars with
  | [] => intro h; cases h
  | _ :: _ :: _ => intro h; cases h
  | [o] =>
    intro h
    simp only [py_bind_ok, py_pure] at h
    obtain ⟨i, -, rfl⟩ := h
    rfl

/-- **C90 with propagation (entries).** ... so the coefficients of the two results have the same entries, and so have the
values of the two bounds, at `x` and at `x + s`. -/
theorem C90_propagate_bounds {lib : Lib K} (hlib : LibIsotone lib) {p : Jaxpr K} (hp : ∀ eqn ∈ p.eqns, PrimIsotone eqn.prim)
    {consts : List (ND K)} {maxDegree : ℤ} {propagate : Bool}
    {x0 lo hi s x0' lo' hi' : ND K} {bnd bnd' : Bounds K} {prim : Prim K} {args : List (Atom K)} {v w : ℤ}
    (hin : p.invars = [v]) (hv : v ≠ -1) (hw : w ≠ -1)
    (hwf : w ∉ v :: p.constvars ++ assigned p.eqns) (hvf : v ∉ p.constvars)
    (hlo : lo.shape = x0.shape) (hhi : hi.shape = x0.shape) (h0 : (Coef.ivl lo hi).Contains x0)
    (hs : bshape s.shape x0.shape = some x0.shape)
    (hx' : ND.map2 (· + ·) x0 s = .ok x0') (hlo' : ND.map2 (· + ·) lo s = .ok lo') (hhi' : ND.map2 (· + ·) hi s = .ok hi')
    (he : ShiftEqn (.var w) s prim args)
    (hb : taylorBounds lib p consts maxDegree propagate x0' lo' hi' = .ok bnd)
    (hb' : taylorBounds lib (p.after prim args v w) consts maxDegree propagate x0 lo hi = .ok bnd') :
    List.Forall₂ SameCoef bnd'.coefficients bnd.coefficients ∧
    ∀ x x' l u l' u', x.shape = x0.shape → ND.map2 (· + ·) x s = .ok x' →
      bnd'.lower x = .ok l' → bnd'.upper x = .ok u' → bnd.lower x' = .ok l → bnd.upper x' = .ok u →
      l'.Same l ∧ u'.Same u := by
  obtain ⟨n1, n2⟩ := C90_propagate hlib hp hin hv hw hwf hvf hlo hhi h0 hs hx' hlo' hhi' he hb hb'
  refine ⟨nestE_same n1 n2, fun x x' l u l' u' hx hxs hl' hu' hl hu => ?_⟩
  obtain ⟨sx, -⟩ := shift_eq hs
  rw [sx] at hx'
  cases hx'
  obtain ⟨sz, -⟩ := shift_eq (a := x) (c := s) (by rw [hx]; exact hs)
  rw [sz] at hxs
  cases hxs
  simp only [Bounds.lower, Bounds.upper, Bounds.call, py_bind_ok, py_pure] at hl hu hl' hu'
  rw [taylorBounds_x0 hb, sub_shifted hx] at hl hu
  rw [taylorBounds_x0 hb'] at hl' hu'
  obtain ⟨r, ⟨z, hz, hr⟩, rfl⟩ := hl
  obtain ⟨r2, ⟨z2, hz2, hr2⟩, rfl⟩ := hu
  obtain ⟨r', ⟨z', hz', hr'⟩, rfl⟩ := hl'
  obtain ⟨r2', ⟨z2', hz2', hr2'⟩, rfl⟩ := hu'
  rw [hz] at hz2 hz' hz2'
  cases hz2; cases hz'; cases hz2'
  rw [hr] at hr2; cases hr2
  rw [hr'] at hr2'; cases hr2'
  have N := nest_same (Poly.iso_evalTaylor n1 (.arr z) hr' hr) (Poly.iso_evalTaylor n2 (.arr z) hr hr')
  match r', r, N with
  | .arr a, .arr b, N => exact ⟨N, N⟩
  | .ivl .., .ivl .., N => exact N

/-- The hypotheses are met: degree 2 with propagation switched on, the quadratic of `PolyEx` and its argument shifted by 5. -/
theorem C90_propagate_example : ∃ b b' : Bounds ℚ,
    taylorBounds polyLib exQuad [exA, exC] 2 true (shifted exX0 (ND.scalar 5)) (shifted exLo' (ND.scalar 5))
      (shifted exHi' (ND.scalar 5)) = .ok b ∧
    taylorBounds polyLib (exQuad.after .add [.var 20, .lit (ND.scalar 5)] 0 20) [exA, exC] 2 true exX0 exLo' exHi' = .ok b' ∧
    List.Forall₂ SameCoef b'.coefficients b.coefficients := by
  obtain ⟨b, hb⟩ := ok_of_isSome (show (taylorBounds polyLib exQuad [exA, exC] 2 true (shifted exX0 (ND.scalar 5))
    (shifted exLo' (ND.scalar 5)) (shifted exHi' (ND.scalar 5))).toOption.isSome = true by decide +kernel)
  obtain ⟨b', hb'⟩ := ok_of_isSome (show (taylorBounds polyLib (exQuad.after .add [.var 20, .lit (ND.scalar 5)] 0 20)
    [exA, exC] 2 true exX0 exLo' exHi').toOption.isSome = true by decide +kernel)
  have hadd : ∀ a : ND ℚ, ND.map2 (· + ·) a (ND.scalar 5) = .ok (shifted a (ND.scalar 5)) := fun a =>
    (shift_eq (bshape_nil_left _)).1
  exact ⟨b, b', hb, hb', (C90_propagate_bounds polyLib_isotone (w := 20) (s := ND.scalar 5) (x0 := exX0) (lo := exLo') (hi := exHi')
    (by simp [exQuad, PrimIsotone]) rfl (by decide) (by decide) (by decide) (by decide) rfl rfl exX0_mem rfl (hadd _) (hadd _)
    (hadd _) (.add (ND.scalar 5)) hb hb').1⟩

end JB
end AB
