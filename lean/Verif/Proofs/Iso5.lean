/-
Inclusion isotonicity of the interpreter of /repo/autobound/jax/jax_bound.py.
-/
import Verif.Proofs.Iso4

set_option linter.unusedSectionVars false

namespace AB
namespace JB
open TEA
variable {K : Type} [Field K] [LinearOrder K] [IsStrictOrderedRing K]

/-- two runs with nested trust regions -/
structure NestRun (lib : Lib K) (T' T0' T T0 : TEA K) : Prop where
  isoLib : LibIsotone lib
  nest : NestT T' T
  nest0 : NestT T0' T0
  zero' : T'.Zero
  zero : T.Zero
  zero0' : T0'.Zero
  zero0 : T0.Zero

variable {lib : Lib K} {T' T0' T T0 : TEA K}

theorem outRegion_inv {T T0 : TEA K} {p : Prim K} {ins : List (Inter K)} {e : Encl K} {r : Coef K}
    (h : outRegion lib T T0 p ins e = .ok r) :
    ∃ f ins0 ra as rb bs y0 es a b l u, pushforward lib T0 p = some f ∧
      ins.mapM (fun i => match i.tr with
        | none => (.error .assertion : Py (Inter K))
        | some r => .ok ⟨[r], none⟩) = .ok ins0 ∧
      f ins0 = .ok (ra :: as) ∧ encloseEnclosure e T.trustRegion 0 = .ok (rb :: bs) ∧ e = .arr y0 :: es ∧
      intersectIntervals ra rb = .ok (a, b) ∧ ND.map2 min y0 a = .ok l ∧ ND.map2 max y0 b = .ok u ∧ r = .ivl l u := by
  unfold outRegion at h
  cases hf : pushforward lib T0 p with
  | none => rw [hf] at h; cases h
  | some f =>
    rw [hf] at h
    simp only [py_bind_ok] at h
    obtain ⟨ins0, hi, x, hx, y, hy, h⟩ := h
    rcases x with _ | ⟨ra, as⟩
    · simp at h
    rcases y with _ | ⟨rb, bs⟩
    · simp at h
    rcases e with _ | ⟨y0, es⟩
    · simp at h
    cases y0 with
    | ivl _ _ => cases h
    | arr y0 =>
      simp only [py_bind_ok, py_pure] at h
      obtain ⟨⟨a, b⟩, hab, l, hl, u, hu, rfl⟩ := h
      exact ⟨f, ins0, ra, as, rb, bs, y0, es, a, b, l, u, rfl, hi, hx, hy, rfl, hab, hl, hu, rfl⟩

theorem iso_outRegion (hR : NestRun lib T' T0' T T0) {p : Prim K} (hp : PrimIsotone p) {ins' ins : List (Inter K)}
    (hi : List.Forall₂ NestI ins' ins) {e' e : Encl K} (he : NestE e' e) {r' r : Coef K}
    (h' : outRegion lib T' T0' p ins' e' = .ok r') (h : outRegion lib T T0 p ins e = .ok r) :
    Nest r' r ∧ RegionOk e' r' ∧ RegionOk e r := by
  obtain ⟨f, j, ra, as, rb, bs, y0, es, a, b, l, u, h1, h2, h3, h4, rfl, h5, h6, h7, rfl⟩ := outRegion_inv h
  obtain ⟨f', j', ra', as', rb', bs', y0', es', a', b', l', u', h1', h2', h3', h4', rfl, h5', h6', h7', rfl⟩ :=
    outRegion_inv h'
  have hj : List.Forall₂ NestI j' j := by
    refine mapM_rel (Rx := NestI) ?_ hi h2' h2
    intro i' i x' x hn hx' hx
    rcases hn.reg with ⟨e1, e2⟩ | ⟨s', s, e1, e2, hs, -, -⟩
    · rw [e2] at hx; cases hx
    · rw [e1] at hx'
      rw [e2] at hx
      cases hx; cases hx'
      exact ⟨.cons hs .nil, .inl ⟨rfl, rfl⟩⟩
  have n1 := iso_pushforward hR.isoLib hR.nest0 hR.zero0' hR.zero0 hp h1' h1 hj h3' h3
  have n2 := iso_enclose he hR.nest.region h4' h4
  cases n1 with | cons na _ =>
  cases n2 with | cons nb _ =>
  cases he with | cons hy _ =>
  cases hy
  obtain ⟨k1, k2, k3⟩ := iso_intersect na nb h5' h5 h6' h7' h6 h7
  exact ⟨k1, ⟨y0, es', rfl, k3.1, k3.2⟩, ⟨y0, es, rfl, k2.1, k2.2⟩⟩

theorem iso_eqnOutputs (hR : NestRun lib T' T0' T T0) {propagate : Bool} {eqn : Eqn K} (hp : PrimIsotone eqn.prim)
    {ins' ins : List (Inter K)} (hi : List.Forall₂ NestI ins' ins) {o' o : List (Inter K)}
    (h' : eqnOutputs lib T' T0' propagate eqn ins' = .ok o') (h : eqnOutputs lib T T0 propagate eqn ins = .ok o) :
    List.Forall₂ NestI o' o := by
  have hcv : ins'.mapM Inter.constantValue = ins.mapM Inter.constantValue := by
    clear h h'
    induction hi with
    | nil => rfl
    | cons h1 _ ih => rw [List.mapM_cons, List.mapM_cons, h1.constantValue, ih]
  unfold eqnOutputs at h h'
  rw [hcv] at h'
  cases hc : ins.mapM Inter.constantValue with
  | some vals =>
    rw [hc] at h h'
    simp only [py_bind_ok, py_pure] at h h'
    obtain ⟨v, hv, rfl⟩ := h
    obtain ⟨v', hv', rfl⟩ := h'
    rw [hv] at hv'; cases hv'
    show List.Forall₂ NestI _ _
    rw [List.forall₂_map_left_iff, List.forall₂_map_right_iff]
    exact List.forall₂_same.2 fun v _ => nestI_const v
  | none =>
    rw [hc] at h h'
    simp only at h h'
    cases hf : pushforward lib T eqn.prim with
    | none => rw [hf] at h; cases h
    | some f =>
      cases hf' : pushforward lib T' eqn.prim with
      | none => rw [hf'] at h'; cases h'
      | some f' =>
        rw [hf] at h
        rw [hf'] at h'
        simp only [py_bind_ok] at h h'
        obtain ⟨e, he, h⟩ := h
        obtain ⟨e', he', h'⟩ := h'
        have hn := iso_pushforward hR.isoLib hR.nest hR.zero' hR.zero hp hf' hf hi he' he
        by_cases hl : eqn.outvars.length ≠ 1
        · rw [if_pos hl] at h; cases h
        rw [if_neg hl] at h h'
        cases propagate with
        | false =>
          simp only [Bool.false_eq_true, if_false, py_pure] at h h'
          cases h; cases h'
          exact .cons ⟨hn, .inl ⟨rfl, rfl⟩⟩ .nil
        | true =>
          simp only [if_true, py_bind_ok, py_pure] at h h'
          obtain ⟨r, hr, rfl⟩ := h
          obtain ⟨r', hr', rfl⟩ := h'
          obtain ⟨k1, k2, k3⟩ := iso_outRegion hR hp hi hn hr' hr
          exact .cons ⟨hn, .inr ⟨r', r, rfl, rfl, k1, k2, k3⟩⟩ .nil

/-- nested environments -/
abbrev NestEnv (env' env : Env K) : Prop := List.Forall₂ (fun x y : ℤ × Inter K => x.1 = y.1 ∧ NestI x.2 y.2) env' env

theorem nestEnv_lookup {env' env : Env K} (h : NestEnv env' env) (v : ℤ) :
    (env'.lookup v = none ∧ env.lookup v = none) ∨
    ∃ i' i, env'.lookup v = some i' ∧ env.lookup v = some i ∧ NestI i' i := by
  induction h with
  | nil => exact .inl ⟨rfl, rfl⟩
  | @cons x y l' l h1 _ ih =>
    obtain ⟨n', i'⟩ := x
    obtain ⟨n, i⟩ := y
    obtain ⟨rfl, h2⟩ : n' = n ∧ NestI i' i := h1
    by_cases hv : v == n'
    · exact .inr ⟨i', i, by simp [List.lookup, hv], by simp [List.lookup, hv], h2⟩
    · have hv : (v == n') = false := by simpa using hv
      simp only [List.lookup, hv]
      exact ih

theorem iso_getInter {env' env : Env K} (h : NestEnv env' env) (a : Atom K) {i' i : Inter K}
    (h1 : getInter env' a = .ok i') (h2 : getInter env a = .ok i) : NestI i' i := by
  cases a with
  | lit a => cases h1; cases h2; exact nestI_const a
  | var v =>
    unfold getInter at h1 h2
    rcases nestEnv_lookup h v with ⟨e1, e2⟩ | ⟨j', j, e1, e2, hj⟩
    · simp only [e1] at h1; cases h1
    · simp only [e1] at h1
      simp only [e2] at h2
      cases h1; cases h2; exact hj

theorem iso_step (hR : NestRun lib T' T0' T T0) {propagate : Bool} {xs : List ℕ} {eqn : Eqn K}
    (hp : PrimIsotone eqn.prim) {env' env r' r : Env K} (he : NestEnv env' env)
    (h' : step lib T' T0' propagate xs env' eqn = .ok r') (h : step lib T T0 propagate xs env eqn = .ok r) :
    NestEnv r' r := by
  simp only [step, py_bind_ok] at h h'
  obtain ⟨ins, hi, o, ho, h⟩ := h
  obtain ⟨ins', hi', o', ho', h'⟩ := h'
  have hn : List.Forall₂ NestI ins' ins := by
    refine mapM_rel (Rx := Eq) ?_ (List.forall₂_same.2 fun _ _ => rfl) hi' hi
    rintro a _ i' i rfl h' h
    exact iso_getInter he a h' h
  have hno := iso_eqnOutputs hR hp hn ho' ho
  by_cases hl : o.length ≠ eqn.outvars.length
  · rw [if_pos hl] at h; cases h
  rw [if_neg hl] at h
  rw [if_neg (by rw [hno.length_eq]; exact hl)] at h'
  have hz : List.Forall₂ (fun x y : ℤ × Inter K => x.1 = y.1 ∧ NestI x.2 y.2) (eqn.outvars.zip o') (eqn.outvars.zip o) := by
    clear h h' hl ho ho' hp
    generalize eqn.outvars = vs
    induction hno generalizing vs with
    | nil => simp
    | cons h1 _ ih =>
      cases vs with
      | nil => simp
      | cons v vs => exact .cons ⟨rfl, h1⟩ (ih vs)
  refine foldlM_rel (Rs := NestEnv) ?_ hz he h' h
  rintro s' s ⟨v', i'⟩ ⟨v, i⟩ t' t hs ⟨hv, hi⟩ h' h
  obtain rfl : v' = v := hv
  unfold storeOne at h h'
  simp only at h h'
  by_cases hm : v' = -1
  · rw [if_pos hm] at h h'
    cases h; cases h'; exact hs
  rw [if_neg hm] at h h'
  rcases nestEnv_lookup hs v' with ⟨e1, e2⟩ | ⟨j', j, e1, e2, -⟩
  · rw [e2] at h
    rw [e1] at h'
    simp only [Option.isSome_none, Bool.false_eq_true, if_false, py_bind_ok, py_pure] at h h'
    obtain ⟨_, _, rfl⟩ := h
    obtain ⟨_, _, rfl⟩ := h'
    exact .cons ⟨rfl, hi⟩ hs
  · rw [e2] at h
    simp at h

theorem iso_run (hR : NestRun lib T' T0' T T0) {propagate : Bool} {xs : List ℕ} {eqns : List (Eqn K)}
    (hp : ∀ eqn ∈ eqns, PrimIsotone eqn.prim) {env' env r' r : Env K} (he : NestEnv env' env)
    (h' : eqns.foldlM (step lib T' T0' propagate xs) env' = .ok r')
    (h : eqns.foldlM (step lib T T0 propagate xs) env = .ok r) : NestEnv r' r := by
  induction eqns generalizing env' env with
  | nil => cases h; cases h'; exact he
  | cons q qs ih =>
    rw [List.foldlM_cons, py_bind_ok] at h h'
    obtain ⟨m, hm, h⟩ := h
    obtain ⟨m', hm', h'⟩ := h'
    exact ih (fun q hq => hp q (List.mem_cons_of_mem _ hq)) (iso_step hR (hp q (by simp)) he hm' hm) h' h

theorem region_init {md : ℕ} {x0 lo hi tlo thi : ND K} {T : TEA K} (hs : lo.shape = x0.shape ∧ hi.shape = x0.shape)
    (hsub : IA.subtract (.ivl lo hi) (.arr x0) = .ok (.ivl tlo thi)) (hT : TEA.init md tlo thi = .ok T) :
    T.maxDegree = md ∧ T.trustRegion = .ivl tlo thi ∧ tlo.shape = x0.shape ∧ thi.shape = x0.shape ∧
    ∀ I, ValidIdx x0.shape I → tlo.bget I = lo.get I - x0.get I ∧ thi.bget I = hi.get I - x0.get I := by
  obtain ⟨k1, k2, k3, k4⟩ := IA.sub_ok (a := .ivl lo hi) (b := .arr x0) (by show lo.shape = hi.shape; rw [hs.1, hs.2]) trivial hsub
  have e1 : bshape lo.shape x0.shape = some tlo.shape := k2
  rw [hs.1, bshape_self] at e1
  have e1 := (Option.some.inj e1).symm
  have e2 : tlo.shape = thi.shape := k1
  unfold TEA.init at hT
  split_ifs at hT
  cases hT
  refine ⟨rfl, rfl, e1, by rw [← e2, e1], fun I hI => ?_⟩
  have hlen : (Coef.ivl tlo thi).shape.length ≤ I.length := by
    show tlo.shape.length ≤ _
    rw [e1]; exact hI.length.le
  obtain ⟨a1, a2⟩ := k4 I hlen
  have b1 : lo.bget I = lo.get I := ND.bget_valid _ (hs.1.symm ▸ hI)
  have b2 : hi.bget I = hi.get I := ND.bget_valid _ (hs.2.symm ▸ hI)
  have b3 : x0.bget I = x0.get I := ND.bget_valid _ hI
  simp only [Coef.lo, Coef.hi, b1, b2, b3] at a1 a2
  exact ⟨a1, a2⟩

theorem within_nestT {md : ℕ} {x0 lo' hi' lo hi tlo' thi' tlo thi : ND K} (hw : Within x0 lo' hi' lo hi)
    (hsub' : IA.subtract (.ivl lo' hi') (.arr x0) = .ok (.ivl tlo' thi'))
    (hsub : IA.subtract (.ivl lo hi) (.arr x0) = .ok (.ivl tlo thi)) (hT' : TEA.init md tlo' thi' = .ok T')
    (hT : TEA.init md tlo thi = .ok T) : NestT T' T ∧ T'.Zero ∧ T.Zero := by
  obtain ⟨s1, s2, s3, s4⟩ := hw.shapes
  obtain ⟨d', r', a1', a2', a3'⟩ := region_init ⟨s1, s2⟩ hsub' hT'
  obtain ⟨d, r, a1, a2, a3⟩ := region_init ⟨s3, s4⟩ hsub hT
  refine ⟨⟨by rw [d, d'], ?_⟩, ?_, ?_⟩
  · rw [r, r']
    refine Nest.of_entries (show tlo'.shape = thi'.shape by rw [a1', a2']) (show tlo.shape = thi.shape by rw [a1, a2])
      (show tlo'.shape = tlo.shape by rw [a1, a1']) (fun I hI => ?_) rfl (fun h => by cases h)
    have hI : ValidIdx x0.shape I := a1 ▸ (show ValidIdx tlo.shape I from hI)
    simp only [Coef.lo, Coef.hi]
    obtain ⟨b1, b2⟩ := a3 I hI
    obtain ⟨b1', b2'⟩ := a3' I hI
    obtain ⟨c1, c2, c3, c4⟩ := hw.le I hI
    rw [b1, b2, b1', b2']
    exact ⟨by linarith, by linarith, by linarith⟩
  · intro I hI
    rw [r'] at hI ⊢
    have hI : ValidIdx x0.shape I := a1' ▸ (show ValidIdx tlo'.shape I from hI)
    obtain ⟨b1', b2'⟩ := a3' I hI
    obtain ⟨c1, c2, c3, c4⟩ := hw.le I hI
    show tlo'.bget I ≤ 0 ∧ 0 ≤ thi'.bget I
    rw [b1', b2']
    exact ⟨by linarith, by linarith⟩
  · intro I hI
    rw [r] at hI ⊢
    have hI : ValidIdx x0.shape I := a1 ▸ (show ValidIdx tlo.shape I from hI)
    obtain ⟨b1, b2⟩ := a3 I hI
    obtain ⟨c1, c2, c3, c4⟩ := hw.le I hI
    show tlo.bget I ≤ 0 ∧ 0 ≤ thi.bget I
    rw [b1, b2]
    exact ⟨by linarith, by linarith⟩

theorem Within.nest {x0 lo' hi' lo hi : ND K} (hw : Within x0 lo' hi' lo hi) : Nest (.ivl lo' hi') (.ivl lo hi) := by
  obtain ⟨s1, s2, s3, s4⟩ := hw.shapes
  refine Nest.of_entries (show lo'.shape = hi'.shape by rw [s1, s2]) (show lo.shape = hi.shape by rw [s3, s4])
    (show lo'.shape = lo.shape by rw [s1, s3]) (fun I hI => ?_) rfl (fun h => by cases h)
  have hI : ValidIdx x0.shape I := s3 ▸ (show ValidIdx lo.shape I from hI)
  simp only [Coef.lo, Coef.hi]
  obtain ⟨c1, c2, c3, c4⟩ := hw.le I hI
  rw [ND.bget_valid lo' (s1.symm ▸ hI), ND.bget_valid hi' (s2.symm ▸ hI), ND.bget_valid lo (s3.symm ▸ hI),
    ND.bget_valid hi (s4.symm ▸ hI)]
  exact ⟨c1, c2.trans c3, c4⟩

theorem iso_initEnv {propagate : Bool} {md : ℕ} {jaxpr : Jaxpr K} {consts : List (ND K)} {x0 lo' hi' lo hi : ND K}
    (hmd : propagate = true → 0 < md)
    (hw : Within x0 lo' hi' lo hi) {env' env : Env K} (h' : initEnv propagate md jaxpr consts x0 lo' hi' = .ok env')
    (h : initEnv propagate md jaxpr consts x0 lo hi = .ok env) : NestEnv env' env := by
  simp only [initEnv, py_bind_ok] at h h'
  obtain ⟨idm, hid, h⟩ := h
  obtain ⟨idm', hid', h'⟩ := h'
  rw [hid] at hid'; cases hid'
  by_cases hl : consts.length ≠ jaxpr.constvars.length
  · rw [if_pos hl] at h; cases h
  rw [if_neg hl] at h h'
  split at h
  · rename_i v hv
    rw [hv] at h'
    simp only [py_pure] at h h'
    cases h; cases h'
    refine .cons ⟨rfl, ?_, ?_⟩ ?_
    · by_cases hm : md > 0
      · simp only [if_pos hm]
        exact .cons (.arr _) (.cons (.arr _) .nil)
      · simp only [if_neg hm]
        exact .cons hw.nest .nil
    · cases propagate with
      | false => exact .inl ⟨rfl, rfl⟩
      | true =>
        have hm := hmd rfl
        obtain ⟨s1, s2, s3, s4⟩ := hw.shapes
        simp only [gt_iff_lt, if_pos hm]
        refine .inr ⟨_, _, rfl, rfl, hw.nest, ⟨x0, _, rfl, ?_, fun I hI => ?_⟩, ⟨x0, _, rfl, ?_, fun I hI => ?_⟩⟩
        · show ble x0.shape lo'.shape
          rw [s1]; exact ble_refl _
        · have hI : ValidIdx x0.shape I := s1 ▸ (show ValidIdx lo'.shape I from hI)
          simp only [Coef.lo, Coef.hi]
          rw [ND.bget_valid lo' (s1.symm ▸ hI), ND.bget_valid hi' (s2.symm ▸ hI), ND.bget_valid x0 hI]
          exact ⟨(hw.le I hI).2.1, (hw.le I hI).2.2.1⟩
        · show ble x0.shape lo.shape
          rw [s3]; exact ble_refl _
        · have hI : ValidIdx x0.shape I := s3 ▸ (show ValidIdx lo.shape I from hI)
          simp only [Coef.lo, Coef.hi]
          rw [ND.bget_valid lo (s3.symm ▸ hI), ND.bget_valid hi (s4.symm ▸ hI), ND.bget_valid x0 hI]
          exact ⟨(hw.le I hI).1.trans (hw.le I hI).2.1, (hw.le I hI).2.2.1.trans (hw.le I hI).2.2.2⟩
    · have : ∀ (vs : List ℤ) (cs : List (ND K)),
          List.Forall₂ (fun x y : ℤ × Inter K => x.1 = y.1 ∧ NestI x.2 y.2) (vs.zip (cs.map constantInter))
            (vs.zip (cs.map constantInter)) := by
        intro vs cs
        refine List.forall₂_same.2 fun x hx => ⟨rfl, ?_⟩
        obtain ⟨c, -, hc⟩ := List.mem_map.1 (List.of_mem_zip hx).2
        rw [← hc]
        exact nestI_const c
      exact this _ _
  · cases h

/-- nested trust regions give nested coefficients -/
theorem iso_taylorBounds (hlib : LibIsotone lib) {jaxpr : Jaxpr K} (hp : ∀ eqn ∈ jaxpr.eqns, PrimIsotone eqn.prim)
    {consts : List (ND K)} {md : ℤ} {propagate : Bool} {x0 lo' hi' lo hi : ND K} (hw : Within x0 lo' hi' lo hi)
    {b' b : Bounds K} (h' : taylorBounds lib jaxpr consts md propagate x0 lo' hi' = .ok b')
    (h : taylorBounds lib jaxpr consts md propagate x0 lo hi = .ok b) :
    b'.x0 = x0 ∧ b.x0 = x0 ∧ NestE b'.coefficients b.coefficients := by
  simp only [taylorBounds, py_bind_ok] at h h'
  obtain ⟨env, he, h⟩ := h
  obtain ⟨env', he', h'⟩ := h'
  have hn : NestEnv env' env := by
    unfold taylorEnv at he he'
    by_cases hneg : md < 0
    · rw [if_pos hneg] at he; cases he
    rw [if_neg hneg] at he he'
    simp only [py_bind_ok] at he he'
    obtain ⟨s, hs, he⟩ := he
    obtain ⟨s', hs', he'⟩ := he'
    cases s with
    | arr _ => cases he
    | ivl tlo thi =>
    cases s' with
    | arr _ => cases he'
    | ivl tlo' thi' =>
    simp only [py_bind_ok] at he he'
    obtain ⟨T, hT, T0, hT0, e0, he0, he⟩ := he
    obtain ⟨T', hT', T0', hT0', e0', he0', he'⟩ := he'
    obtain ⟨n1, z1', z1⟩ := within_nestT hw hs' hs hT' hT
    obtain ⟨n0, z0', z0⟩ := within_nestT hw hs' hs hT0' hT0
    refine iso_run ⟨hlib, n1, n0, z1', z1, z0', z0⟩ hp (iso_initEnv ?_ hw he0' he0) he' he
    intro hpr
    simp only [Bool.and_eq_true, bne_iff_ne] at hpr
    have := hpr.2
    omega
  split at h
  · rename_i o ho
    rw [ho] at h'
    simp only [py_bind_ok, py_pure] at h h'
    obtain ⟨i, hi, rfl⟩ := h
    obtain ⟨i', hi', rfl⟩ := h'
    exact ⟨rfl, rfl, (iso_getInter hn o hi' hi).encl⟩
  · cases h

end JB
end AB
