/-
Propagating trust regions never loosens the enclosures (/repo/autobound/jax/jax_bound.py:84-205): the relation between a
run with `propagate_trust_regions=True` and one with `propagate_trust_regions=False`.
-/
import Verif.Proofs.Iso5
import Verif.Props.Static

set_option linter.unusedSectionVars false

namespace AB
variable {K : Type} [Field K] [LinearOrder K] [IsStrictOrderedRing K]
namespace JB
open TEA
variable {lib : Lib K} {T' T0' T T0 : TEA K}

/-- the region `r` (an interval) lies in `t` -/
structure Below (r t : Coef K) : Prop where
  isIvl : ∃ l u, r = .ivl l u ∧ l.shape = u.shape
  wf : t.WF
  shape : r.shape = t.shape
  le : ∀ I, ValidIdx t.shape I → t.lo.bget I ≤ r.lo.bget I ∧ r.lo.bget I ≤ r.hi.bget I ∧ r.hi.bget I ≤ t.hi.bget I

/-- what the two runs know about a variable: nested enclosures; and a constant, or the propagated region lies in the
region that would be derived from the enclosure -/
structure PropI (T' : TEA K) (i' i : Inter K) : Prop where
  encl : NestE i'.encl i.encl
  reg : (∃ r' r, i'.tr = some r' ∧ i.tr = some r ∧ Nest r' r ∧ RegionOk i'.encl r' ∧ RegionOk i.encl r) ∨
    (i.tr = none ∧ ∃ r' t', i'.tr = some r' ∧ RegionOk i'.encl r' ∧ T'.argRegion i'.encl none = .ok t' ∧ Below r' t')

theorem propI_const (v : ND K) : PropI T' (constantInter v) (constantInter v) := by
  refine ⟨.cons (.arr v) .nil, .inl ⟨_, _, rfl, rfl, Nest.refl ⟨rfl, fun _ _ => le_rfl⟩, ?_, ?_⟩⟩ <;>
  exact ⟨v, [], rfl, ble_refl _, fun I _ => ⟨le_rfl, le_rfl⟩⟩

theorem prop_elementwise (hT : NestT T' T) (h0' : T'.Zero) (h0 : T.Zero) {g : Generator K} (hg : IsotoneGen g)
    {i' i : Inter K} (hi : PropI T' i' i) {r' r : Encl K} (h' : T'.elementwiseFun g i'.encl i'.tr = .ok r')
    (h : T.elementwiseFun g i.encl i.tr = .ok r) : NestE r' r := by
  rcases hi.reg with ⟨s', s, e1, e2, k⟩ | ⟨e2, s', t', e1, ⟨y0', z1, q1, q2, q3⟩, ht', hb⟩
  · exact iso_elementwise hT h0' h0 hg hi.encl (.inr ⟨s', s, e1, e2, k⟩) h' h
  · have ha := hi.encl
    rw [e1, q1] at h'
    rw [e2] at h
    rw [q1] at ha ht'
    simp only [elementwiseFun, py_bind_ok] at h h'
    obtain ⟨tr, htr, h⟩ := h
    obtain ⟨tr', htr', h'⟩ := h'
    cases htr'
    have hw := nestE_wf ha
    have hN := iso_argRegion hT ha ht' htr
    generalize i.encl = a at ha h htr hw
    cases ha with
    | @cons c0' c0 as' as hc0 has =>
      simp only [py_bind_ok] at h h'
      obtain ⟨x0, hx, e, he, h⟩ := h
      obtain ⟨x0', hx', e', he', h'⟩ := h'
      refine iso_gen_box hT hg (.cons hc0 has) ?_ ⟨q2, q3⟩ (argRegion_head h0 hT.region.wf hw.2 htr) hx' hx he' he h' h
      obtain ⟨l, u, rfl, hlu⟩ := hb.isIvl
      have hsh : l.shape = tr.shape := hb.shape.trans hN.shape
      have e3 : (toInterval tr).1 = tr.lo ∧ (toInterval tr).2 = tr.hi := by cases tr <;> exact ⟨rfl, rfl⟩
      have e4 : tr.lo.shape = tr.shape := by cases tr <;> rfl
      rw [e3.1, e3.2]
      refine Nest.of_entries (c' := .ivl l u) (c := .ivl tr.lo tr.hi) hlu ?_ (hsh.trans e4.symm) (fun I hI => ?_) rfl
        (fun h => by cases h)
      · show tr.lo.shape = tr.hi.shape
        rw [e4, hN.wf.wf.hi_shape]
      · have hI : ValidIdx tr.shape I := e4 ▸ (show ValidIdx tr.lo.shape I from hI)
        obtain ⟨a1, a2, a3⟩ := hb.le I (hN.shape ▸ hI)
        obtain ⟨b1, -, b3⟩ := hN.entries (ble_refl _) hI
        exact ⟨b1.trans a1, a2, a3.trans b3⟩

/-- the region propagated for an output lies in the one derived from its enclosure -/
theorem prop_outRegion (h0' : T'.Zero) (hw : T'.trustRegion.WellFormed) {p : Prim K} {ins : List (Inter K)} {e : Encl K}
    (he : ∀ c ∈ e, c.WellFormed) {r : Coef K} (h : outRegion lib T' T0' p ins e = .ok r)
    (hs : ∀ y0 es, e = .arr y0 :: es → r.shape = y0.shape) (hwr : r.WF) :
    ∃ t', RegionOk e r ∧ T'.argRegion e none = .ok t' ∧ Below r t' := by
  obtain ⟨f, j, ra, as, rb, bs, y0, es, a, b, l, u, h1, h2, h3, h4, rfl, h5, h6, h7, rfl⟩ := outRegion_inv h
  have hr : T'.argRegion (.arr y0 :: es) none = .ok rb := by
    simp only [argRegion, h4, py_ok_bind]
  obtain ⟨a0, a1, b0, b1, rfl, rfl, hu, hv⟩ : ∃ a0 a1 b0 b1, ra = .ivl a0 a1 ∧ rb = .ivl b0 b1 ∧
      ND.map2 max a0 b0 = .ok a ∧ ND.map2 min a1 b1 = .ok b := by
    unfold intersectIntervals at h5
    split at h5
    · simp only [py_bind_ok, py_pure] at h5
      obtain ⟨x, hx, z, hz, e⟩ := h5
      cases e
      exact ⟨_, _, _, _, rfl, rfl, hx, hz⟩
    · split_ifs at h5
  obtain ⟨k1, k2⟩ := argRegion_head h0' hw he hr
  have hbw : (Coef.ivl b0 b1).WF := by
    have h4' := h4
    unfold encloseEnclosure at h4'
    by_cases hl : (Coef.arr y0 :: es).length ≤ 0 + 1
    · rw [if_pos hl] at h4'
      cases h4'
    · rw [if_neg hl] at h4'
      simp only [List.drop_zero, List.take_zero, List.nil_append, py_bind_ok, py_pure] at h4'
      obtain ⟨c, hc, e⟩ := h4'
      cases e
      exact (evalTaylor_head he hw h0' hc).1
  have hsl : l.shape = y0.shape := hs y0 es rfl
  have hsu : u.shape = l.shape := (show l.shape = u.shape from hwr).symm
  have sb : b0.shape = b1.shape := hbw
  obtain ⟨u1, u2⟩ := ND.map2_ok hu
  obtain ⟨v1, v2⟩ := ND.map2_ok hv
  obtain ⟨l1, l2⟩ := ND.map2_ok h6
  obtain ⟨r1, r2⟩ := ND.map2_ok h7
  have m1 := bshape_le u1
  have m2 := bshape_le l1
  have m3 := bshape_le v1
  have m4 := bshape_le r1
  have k1 : ble y0.shape b0.shape := k1
  have hb0 : b0.shape = y0.shape := ble_antisymm (by
    have := ble_trans m1.2 m2.2
    rwa [hsl] at this) k1
  have hent : ∀ I, ValidIdx y0.shape I → l.bget I = min (y0.bget I) (max (a0.bget I) (b0.bget I)) ∧
      u.bget I = max (y0.bget I) (min (a1.bget I) (b1.bget I)) ∧ b0.bget I ≤ y0.bget I ∧ y0.bget I ≤ b1.bget I := by
    intro I hI
    have n1 : l.shape.length ≤ I.length := by rw [hsl]; exact hI.length.le
    have n2 : u.shape.length ≤ I.length := by rw [hsu]; exact n1
    have n3 := (ble_length m2.2).trans n1
    have n4 := (ble_length m4.2).trans n2
    have := k2 I (show ValidIdx b0.shape I from hb0.symm ▸ hI)
    exact ⟨by rw [l2 I n1, u2 I n3], by rw [r2 I n2, v2 I n4], this.1, this.2⟩
  refine ⟨_, ⟨y0, es, rfl, ?_, fun I hI => ?_⟩, hr, ⟨l, u, rfl, hsu.symm⟩, hbw, hsl.trans hb0.symm, fun I hI => ?_⟩
  · show ble y0.shape l.shape
    rw [hsl]; exact ble_refl _
  · have hI : ValidIdx y0.shape I := hsl ▸ (show ValidIdx l.shape I from hI)
    obtain ⟨e1, e2, -, -⟩ := hent I hI
    simp only [Coef.lo, Coef.hi]
    rw [e1, e2]
    exact ⟨min_le_left _ _, le_max_left _ _⟩
  · have hI : ValidIdx y0.shape I := hb0 ▸ (show ValidIdx b0.shape I from hI)
    obtain ⟨e1, e2, e3, e4⟩ := hent I hI
    simp only [Coef.lo, Coef.hi]
    rw [e1, e2]
    exact ⟨le_min e3 (le_max_right _ _), (min_le_left _ _).trans (le_max_left _ _), max_le e4 (min_le_right _ _)⟩

/-- the outputs of one equation in the two runs -/
theorem prop_eqnOutputs (hlib : LibIsotone lib) (hT : NestT T' T) (h0' : T'.Zero) (h0 : T.Zero) {md : ℕ} {z : ND K}
    {eqn : Eqn K} (hp : PrimIsotone eqn.prim)
    {ins' ins : List (Inter K)} (hi : List.Forall₂ (PropI T') ins' ins) {o' o : List (Inter K)}
    (h' : eqnOutputs lib T' T0' true eqn ins' = .ok o') (h : eqnOutputs lib T T0 false eqn ins = .ok o) :
    List.Forall₂ (PropI T') o' o ∨ (eqn.outvars.length = 1 ∧ ∃ i' i, o' = [i'] ∧ o = [i] ∧
      ∀ v, InterOk md z i' v → PropI T' i' i) := by
  have hcv : ins'.mapM Inter.constantValue = ins.mapM Inter.constantValue := by
    clear h h'
    induction hi with
    | nil => rfl
    | cons h1 _ ih => rw [List.mapM_cons, List.mapM_cons, constantValue_nest h1.encl, ih]
  unfold eqnOutputs at h h'
  rw [hcv] at h'
  cases hc : ins.mapM Inter.constantValue with
  | some vals =>
    rw [hc] at h h'
    simp only [py_bind_ok, py_pure] at h h'
    obtain ⟨v, hv, rfl⟩ := h
    obtain ⟨v', hv', rfl⟩ := h'
    rw [hv] at hv'; cases hv'
    refine .inl ?_
    show List.Forall₂ (PropI T') _ _
    rw [List.forall₂_map_left_iff, List.forall₂_map_right_iff]
    exact List.forall₂_same.2 fun v _ => propI_const v
  | none =>
    rw [hc] at h h'
    simp only at h h'
    cases hf : pushforward lib T eqn.prim with
    | none => rw [hf] at h; cases h
    | some f =>
      cases hf' : pushforward lib T' eqn.prim with
      | none => rw [hf'] at h'; cases h'
      | some f' =>
        rw [hf] at h
        rw [hf'] at h'
        simp only [py_bind_ok] at h h'
        obtain ⟨e, he, h⟩ := h
        obtain ⟨e', he', h'⟩ := h'
        have hn := iso_pushforward_rel hlib hT h0' h0 hp hf' hf (R := PropI T') (fun _ _ h => h.encl)
          (fun _ _ _ _ _ hg hn k' k => prop_elementwise hT h0' h0 hg hn k' k) hi he' he
        by_cases hl : eqn.outvars.length ≠ 1
        · rw [if_pos hl] at h; cases h
        rw [if_neg hl] at h h'
        simp only [Bool.false_eq_true, if_false, py_pure] at h
        simp only [if_true, py_bind_ok, py_pure] at h'
        cases h
        obtain ⟨r', hr', rfl⟩ := h'
        refine .inr ⟨not_not.1 hl, _, _, rfl, rfl, fun v hv => ⟨hn, .inr ⟨rfl, ?_⟩⟩⟩
        obtain ⟨q1, q2, -⟩ := hv.reg r' rfl
        obtain ⟨t', k1, k2, k3⟩ := prop_outRegion h0' hT.region.wf' (nestE_wf hn).1 hr' (by
          intro y0 es hy
          have := hv.encl.head (.arr y0) (by rw [show (⟨e', some r'⟩ : Inter K).encl = e' from rfl, hy]; rfl)
          rw [q2, ← this]
          rfl) (Coef.sameShape_iff.1 q1)
        exact ⟨r', t', rfl, k1, k2, k3⟩

abbrev PropEnv (T' : TEA K) (env' env : Env K) : Prop :=
  List.Forall₂ (fun x y : ℤ × Inter K => x.1 = y.1 ∧ PropI T' x.2 y.2) env' env

theorem propEnv_lookup {env' env : Env K} (h : PropEnv T' env' env) (v : ℤ) :
    (env'.lookup v = none ∧ env.lookup v = none) ∨
    ∃ i' i, env'.lookup v = some i' ∧ env.lookup v = some i ∧ PropI T' i' i := by
  induction h with
  | nil => exact .inl ⟨rfl, rfl⟩
  | @cons x y l' l h1 _ ih =>
    obtain ⟨n', i'⟩ := x
    obtain ⟨n, i⟩ := y
    obtain ⟨rfl, h2⟩ : n' = n ∧ PropI T' i' i := h1
    by_cases hv : v == n'
    · exact .inr ⟨i', i, by simp [List.lookup, hv], by simp [List.lookup, hv], h2⟩
    · have hv : (v == n') = false := by simpa using hv
      simp only [List.lookup, hv]
      exact ih

theorem prop_getInter {env' env : Env K} (h : PropEnv T' env' env) (a : Atom K) {i' i : Inter K}
    (h1 : getInter env' a = .ok i') (h2 : getInter env a = .ok i) : PropI T' i' i := by
  cases a with
  | lit a => cases h1; cases h2; exact propI_const a
  | var v =>
    unfold getInter at h1 h2
    rcases propEnv_lookup h v with ⟨e1, e2⟩ | ⟨j', j, e1, e2, hj⟩
    · simp only [e1] at h1; cases h1
    · simp only [e1] at h1
      simp only [e2] at h2
      cases h1; cases h2; exact hj

theorem prop_store {xs : List ℕ} {env' env r' r : Env K} (hs : PropEnv T' env' env) {v : ℤ} {i' i : Inter K}
    (h' : storeOne xs env' (v, i') = .ok r') (h : storeOne xs env (v, i) = .ok r)
    (hi : v ≠ -1 → r' = (v, i') :: env' → PropI T' i' i) : PropEnv T' r' r := by
  unfold storeOne at h h'
  simp only at h h'
  by_cases hm : v = -1
  · rw [if_pos hm] at h h'
    cases h; cases h'; exact hs
  rw [if_neg hm] at h h'
  rcases propEnv_lookup hs v with ⟨e1, e2⟩ | ⟨j', j, e1, e2, -⟩
  · rw [e2] at h
    rw [e1] at h'
    simp only [Option.isSome_none, Bool.false_eq_true, if_false, py_bind_ok, py_pure] at h h'
    obtain ⟨_, _, rfl⟩ := h
    obtain ⟨_, _, rfl⟩ := h'
    exact .cons ⟨rfl, hi hm rfl⟩ hs
  · rw [e2] at h
    simp at h

theorem prop_step (hlib : LibIsotone lib) (hT : NestT T' T) (h0' : T'.Zero) (h0 : T.Zero) {md : ℕ} {z : ND K} {xs : List ℕ}
    {eqn : Eqn K} (hp : PrimIsotone eqn.prim) {env' env r' r : Env K} (he : PropEnv T' env' env)
    (h' : step lib T' T0' true xs env' eqn = .ok r') (h : step lib T T0 false xs env eqn = .ok r)
    {vals : Vals K} (hok : EnvOk md z r' vals) : PropEnv T' r' r := by
  simp only [step, py_bind_ok] at h h'
  obtain ⟨ins, hi, o, ho, h⟩ := h
  obtain ⟨ins', hi', o', ho', h'⟩ := h'
  have hn : List.Forall₂ (PropI T') ins' ins := by
    refine mapM_rel (Rx := Eq) ?_ (List.forall₂_same.2 fun _ _ => rfl) hi' hi
    rintro a _ i' i rfl h' h
    exact prop_getInter he a h' h
  by_cases hl : o.length ≠ eqn.outvars.length
  · rw [if_pos hl] at h; cases h
  rw [if_neg hl] at h
  by_cases hl' : o'.length ≠ eqn.outvars.length
  · rw [if_pos hl'] at h'; cases h'
  rw [if_neg hl'] at h'
  rcases prop_eqnOutputs hlib hT h0' h0 (md := md) (z := z) hp hn ho' ho with hno | ⟨hlen, i', i, rfl, rfl, hup⟩
  · have hz : List.Forall₂ (fun x y : ℤ × Inter K => x.1 = y.1 ∧ PropI T' x.2 y.2) (eqn.outvars.zip o') (eqn.outvars.zip o) := by
      clear h h' hl hl' ho ho' hp
      generalize eqn.outvars = vs
      induction hno generalizing vs with
      | nil => simp
      | cons h1 _ ih =>
        cases vs with
        | nil => simp
        | cons v vs => exact .cons ⟨rfl, h1⟩ (ih vs)
    refine foldlM_rel (Rs := PropEnv T') ?_ hz he h' h
    rintro s' s ⟨v', i'⟩ ⟨v, i⟩ t' t hs ⟨hv, hi⟩ h' h
    obtain rfl : v' = v := hv
    exact prop_store hs h' h fun _ _ => hi
  · obtain ⟨v, hv⟩ := List.length_eq_one_iff.1 hlen
    rw [hv, List.zip_cons_cons, List.zip_nil_left, List.foldlM_cons, py_bind_ok] at h h'
    obtain ⟨m, hm, h⟩ := h
    obtain ⟨m', hm', h'⟩ := h'
    cases h; cases h'
    refine prop_store he hm' hm fun _ hr => ?_
    obtain ⟨a, -, ha⟩ := hok v i' (by rw [hr]; simp [List.lookup])
    exact hup a ha

theorem prop_run (hlib : LibIsotone lib) (hT : NestT T' T) (h0z' : T'.Zero) (h0z : T.Zero) {sem : Sem K} {md : ℕ} {z : ND K}
    (hsound : LibSoundAt z lib sem) {lo hi : ND K}
    (hinit : TEA.init md lo hi = .ok T') (hinit0 : TEA.init 0 lo hi = .ok T0')
    (hz : (Coef.ivl lo hi).Contains z) (h0 : (Coef.ivl lo hi).Contains ⟨lo.shape, fun _ => 0⟩) (hmd : 1 ≤ md)
    {eqns : List (Eqn K)} (hp : ∀ eqn ∈ eqns, PrimIsotone eqn.prim) {env' env r' r : Env K} (he : PropEnv T' env' env)
    {vals vals' : Vals K} (hE : EnvOk md z env' vals) (hok : RunOk lib T' T0' true z.shape env' eqns)
    (hne : NonEmptyVals vals') (hev : eqns.foldlM (evalEqn sem) vals = .ok vals')
    (h' : eqns.foldlM (step lib T' T0' true z.shape) env' = .ok r')
    (h : eqns.foldlM (step lib T T0 false z.shape) env = .ok r) : PropEnv T' r' r := by
  induction eqns generalizing env' env vals with
  | nil => cases h; cases h'; exact he
  | cons q qs ih =>
    rw [List.foldlM_cons, py_bind_ok] at h h' hev
    obtain ⟨m, hm, h⟩ := h
    obtain ⟨m', hm', h'⟩ := h'
    obtain ⟨vals1, he1, he2⟩ := hev
    obtain ⟨k1, k2⟩ := hok
    have hE1 := step_ok hsound hinit hinit0 hz h0 (fun _ => hmd) hE k1 (fun va hva => hne va (evalEqns_mem he2 hva)) he1 hm'
    exact ih (fun q hq => hp q (List.mem_cons_of_mem _ hq)) (prop_step hlib hT h0z' h0z (hp q (by simp)) he hm' hm hE1)
      hE1 (k2 _ hm') he2 h' h

/-- the environments before the first equation -/
theorem prop_initEnv {md : ℕ} (hmd : 1 ≤ md) {jaxpr : Jaxpr K} {consts : List (ND K)} {x0 lo' hi' lo hi tlo thi : ND K}
    (hw : Within x0 lo' hi' lo hi) (ht : IA.subtract (.ivl lo' hi') (.arr x0) = .ok (.ivl tlo thi))
    (hT : TEA.init md tlo thi = .ok T') (h0' : T'.Zero) (hwT : T'.trustRegion.WellFormed) {env' env : Env K}
    (h' : initEnv true md jaxpr consts x0 lo' hi' = .ok env')
    (h : initEnv false md jaxpr consts x0 lo hi = .ok env) : PropEnv T' env' env := by
  obtain ⟨identity, v, hid, hcl, hv, rfl⟩ := initEnv_inv h'
  obtain ⟨identity2, v2, hid2, hcl2, hv2, rfl⟩ := initEnv_inv h
  rw [hid] at hid2; cases hid2
  rw [hv] at hv2; cases hv2
  have hm : md > 0 := hmd
  simp only [if_pos hm, if_true, Bool.false_eq_true, if_false]
  obtain ⟨s1, s2, s3, s4⟩ := hw.shapes
  have hlh : lo'.shape = hi'.shape := by rw [s1, s2]
  have c0 : (Coef.ivl lo' hi').Contains x0 := ⟨s1.symm, fun I hI => by
    have hI : ValidIdx x0.shape I := s1 ▸ (show ValidIdx lo'.shape I from hI)
    exact ⟨(hw.le I hI).2.1, (hw.le I hI).2.2.1⟩⟩
  have clo : (Coef.ivl lo' hi').Contains lo' := ⟨rfl, fun I hI => by
    have hI : ValidIdx x0.shape I := s1 ▸ (show ValidIdx lo'.shape I from hI)
    exact ⟨le_rfl, (hw.le I hI).2.1.trans (hw.le I hI).2.2.1⟩⟩
  have chi : (Coef.ivl lo' hi').Contains hi' := ⟨hlh.symm, fun I hI => by
    have hI : ValidIdx x0.shape I := s1 ▸ (show ValidIdx lo'.shape I from hI)
    exact ⟨(hw.le I hI).2.1.trans (hw.le I hI).2.2.1, le_rfl⟩⟩
  obtain ⟨z1, hz1, -, hc1⟩ := region_shift hlh c0 ht clo
  obtain ⟨z2, hz2, -, hc2⟩ := region_shift hlh c0 ht chi
  have S1 := sound_input hz1 s1 hid
  have S2 := sound_input hz2 s2 hid
  have htl : tlo.shape = thi.shape ∧ T'.trustRegion = .ivl tlo thi := by
    unfold TEA.init at hT
    split_ifs at hT with hsh
    cases hT
    exact ⟨not_not.1 hsh, rfl⟩
  obtain ⟨out, ho, -, hlo, -⟩ := C15_enclose_enclosure S1.wf (Z := .ivl tlo thi) htl.1 0 hc1 S1.encl
  rcases out with _ | ⟨t, lt⟩
  · unfold encloseEnclosure at ho
    simp only [List.length_cons, List.length_nil, zero_add, Nat.reduceAdd, Nat.reduceLeDiff, if_false, List.take_zero,
      List.nil_append, py_bind_ok, py_pure] at ho
    obtain ⟨_, _, e⟩ := ho
    cases e
  have hlt : lt = [] := List.eq_nil_of_length_eq_zero (by rw [List.length_cons] at hlo; omega)
  subst hlt
  obtain ⟨b1, b2, b3⟩ := region_covers S1 htl.1 hc1 ho
  obtain ⟨d1, d2, d3⟩ := region_covers S2 htl.1 hc2 ho
  have hr : T'.argRegion [.arr x0, .arr identity] none = .ok t := by
    simp only [argRegion, htl.2, ho, py_ok_bind]
  obtain ⟨g1, g2⟩ := argRegion_head h0' hwT (by
    intro c hc
    simp only [List.mem_cons, List.not_mem_nil, or_false] at hc
    rcases hc with rfl | rfl <;> exact ⟨trivial, trivial⟩) hr
  have g1 : ble x0.shape t.shape := g1
  have hts : t.shape = x0.shape := ble_antisymm (by rw [s1] at b2; exact b2) g1
  refine .cons ⟨rfl, .cons (.arr _) (.cons (.arr _) .nil), .inr ⟨rfl, _, t, rfl, ⟨x0, _, rfl, ?_, fun I hI => ?_⟩, hr,
    ⟨lo', hi', rfl, hlh⟩, b1, ?_, fun I hI => ?_⟩⟩ ?_
  · show ble x0.shape lo'.shape
    rw [s1]; exact ble_refl _
  · have hI : ValidIdx x0.shape I := s1 ▸ (show ValidIdx lo'.shape I from hI)
    simp only [Coef.lo, Coef.hi]
    rw [ND.bget_valid lo' (s1.symm ▸ hI), ND.bget_valid hi' (s2.symm ▸ hI), ND.bget_valid x0 hI]
    exact ⟨(hw.le I hI).2.1, (hw.le I hI).2.2.1⟩
  · exact s1.trans hts.symm
  · have hI : ValidIdx x0.shape I := hts ▸ hI
    have q1 := b3 I (s1.symm ▸ hI)
    have q2 := d3 I (s2.symm ▸ hI)
    simp only [show (Coef.ivl lo' hi').lo = lo' from rfl, show (Coef.ivl lo' hi').hi = hi' from rfl]
    rw [ND.bget_valid lo' (s1.symm ▸ hI), ND.bget_valid hi' (s2.symm ▸ hI)]
    exact ⟨q1.1, (hw.le I hI).2.1.trans (hw.le I hI).2.2.1, q2.2⟩
  · have : ∀ (vs : List ℤ) (cs : List (ND K)),
        List.Forall₂ (fun x y : ℤ × Inter K => x.1 = y.1 ∧ PropI T' x.2 y.2) (vs.zip (cs.map constantInter))
          (vs.zip (cs.map constantInter)) := by
      intro vs cs
      refine List.forall₂_same.2 fun x hx => ⟨rfl, ?_⟩
      obtain ⟨c, -, hc⟩ := List.mem_map.1 (List.of_mem_zip hx).2
      rw [← hc]
      exact propI_const c
    exact this _ _

/-- a run with propagated trust regions gives enclosures contained in those of a run without, over any larger trust
region -/
theorem prop_taylorBounds (hlib : LibIsotone lib) {sem : Sem K} {jaxpr : Jaxpr K}
    (hp : ∀ eqn ∈ jaxpr.eqns, PrimIsotone eqn.prim)
    {consts : List (ND K)} {md : ℤ} {x0 lo' hi' lo hi : ND K} (hw : Within x0 lo' hi' lo hi)
    (hsound : ∀ z, ND.map2 (· - ·) x0 x0 = .ok z → LibSoundAt z lib sem)
    (hfit : ProgramFits sem jaxpr consts x0) {vals : Vals K} (hev : evalEnv sem jaxpr consts x0 = .ok vals)
    (hne : NonEmptyVals vals)
    {b' b : Bounds K} (h' : taylorBounds lib jaxpr consts md true x0 lo' hi' = .ok b')
    (h : taylorBounds lib jaxpr consts md false x0 lo hi = .ok b) :
    b'.x0 = x0 ∧ b.x0 = x0 ∧ NestE b'.coefficients b.coefficients := by
  by_cases hmd0 : md = 0
  · subst hmd0
    have : taylorBounds lib jaxpr consts 0 true x0 lo' hi' = taylorBounds lib jaxpr consts 0 false x0 lo' hi' := by
      simp [taylorBounds, taylorEnv]
    rw [this] at h'
    exact iso_taylorBounds hlib hp hw h' h
  simp only [taylorBounds, py_bind_ok] at h h'
  obtain ⟨env, he, h⟩ := h
  obtain ⟨env', he', h'⟩ := h'
  have hn : ∃ T' : TEA K, PropEnv T' env' env := by
    obtain ⟨hmd, tlo', thi', T', T0', e', ht', hT', hT0', henv', hrun'⟩ := taylorEnv_inv he'
    obtain ⟨-, tlo, thi, T, T0, e, ht, hT, hT0, henv, hrun⟩ := taylorEnv_inv he
    obtain ⟨n1, z1', z1⟩ := within_nestT hw ht' ht hT' hT
    obtain ⟨s1, s2, s3, s4⟩ := hw.shapes
    have hlh : lo'.shape = hi'.shape := by rw [s1, s2]
    have c0 : (Coef.ivl lo' hi').Contains x0 := ⟨s1.symm, fun I hI => by
      have hI : ValidIdx x0.shape I := s1 ▸ (show ValidIdx lo'.shape I from hI)
      exact ⟨(hw.le I hI).2.1, (hw.le I hI).2.2.1⟩⟩
    have hrunok := taylorBoundsOk_of_fits_at hmd hsound hlh c0 hfit hev hne tlo' thi' T' T0' e' ht' hT' hT0' henv'
    obtain ⟨z, hz, hzs, hzc⟩ := region_shift hlh c0 ht' c0
    have h00 : (Coef.ivl tlo' thi').Contains ⟨tlo'.shape, fun _ => 0⟩ := by
      refine ⟨rfl, fun I hI => ?_⟩
      have hs : z.shape = tlo'.shape := hzc.1
      have := hzc.2 I hI
      rw [map2_at hz (hs ▸ hI), sub_self] at this
      exact this
    have hE := initEnv_ok hmd hlh c0 c0 hz henv'
    have hpr : (true && (md != 0)) = true := by simp [hmd0]
    have hmd1 : 1 ≤ md.toNat := by omega
    rw [hpr] at hrunok hrun' henv'
    rw [Bool.false_and] at hrun henv
    rw [← hzs] at hrunok hrun' hrun
    exact ⟨T', prop_run hlib n1 z1' z1 (hsound z hz) hT' hT0' hzc h00 hmd1 hp
      (prop_initEnv hmd1 hw ht' hT' z1' n1.region.wf' henv' henv) hE hrunok hne hev hrun' hrun⟩
  obtain ⟨T', hn⟩ := hn
  split at h
  · rename_i o ho
    rw [ho] at h'
    simp only [py_bind_ok, py_pure] at h h'
    obtain ⟨i, hi, rfl⟩ := h
    obtain ⟨i', hi', rfl⟩ := h'
    exact ⟨rfl, rfl, (prop_getInter hn o hi' hi).encl⟩
  · cases h

end JB
end AB
