/-
C42, C43, C47, C48: soundness of `taylor_bounds` (/repo/autobound/jax/jax_bound.py:61-212).
-/
import Verif.Proofs.JaxBound

set_option linter.unusedSectionVars false

namespace AB
variable {K : Type} [Field K] [LinearOrder K] [IsStrictOrderedRing K]
open IA (repS)

namespace JB
open TEA Lax
variable {md : ℕ} {z : ND K}

/-! ### constants -/

theorem const_ok (md : ℕ) (z v : ND K) : InterOk md z (constantInter v) v := by
  refine ⟨(good_const z v).sound, by simp [constantInter], ?_⟩
  intro r hr
  cases hr
  refine ⟨rfl, rfl, fun I _ => ⟨le_rfl, le_rfl⟩, ?_, ?_⟩
  · intro a ha I _
    cases ha
    exact ⟨le_rfl, le_rfl⟩
  · intro lo hi h
    cases h

theorem constantValue_eq {i : Inter K} {u : ND K} (h : i.constantValue = some u) : i.encl = [.arr u] := by
  unfold Inter.constantValue at h
  split at h
  · rename_i u' hu'; cases h; exact hu'
  · cases h

theorem consts_same {ins : List (Inter K)} {vals cs : List (ND K)}
    (h : List.Forall₂ (InterOk md z) ins vals) (hc : ins.mapM Inter.constantValue = some cs) :
    cs.map ND.canon = vals.map ND.canon := by
  induction h generalizing cs with
  | nil => cases hc; rfl
  | cons h1 _ ih =>
    rw [List.mapM_cons] at hc
    simp only [Option.bind_eq_bind, Option.bind_eq_some_iff, Option.pure_def, Option.some.injEq] at hc
    obtain ⟨u, hu, us, hus, rfl⟩ := hc
    have := h1.encl
    rw [constantValue_eq hu] at this
    rw [List.map_cons, List.map_cons, ih hus, ND.canon_eq_of_same this.same]

theorem bind_okLe {z : ND K} {lib : Lib K} {sem : Sem K} (hlib : LibSoundAt z lib sem) (p : Prim K) (vals : List (ND K)) :
    OkLe (p.bind lib.sem vals) (p.bind sem vals) := by
  intro outs h
  unfold Prim.bind at h ⊢
  rcases vals with _ | ⟨a, _ | ⟨b, _ | ⟨c, l⟩⟩⟩ <;> cases p <;> try exact h
  · simp only [List.map_cons, List.map_nil, Prim.eval] at h ⊢
    split at h
    · rename_i f hf
      rw [hlib.fn _ _ hf]
      exact h
    · cases h
  · simp only [List.map_cons, List.map_nil, Prim.eval] at h ⊢
    rw [hlib.pow] at h
    exact h

/-! ### propagated trust regions -/

section
variable {lib : Lib K} {sem : Sem K} (hlib : LibSoundAt z lib sem) {T T0 : TEA K} {lo hi : ND K}
  (hinit : TEA.init md lo hi = .ok T) (hinit0 : TEA.init 0 lo hi = .ok T0)
  (hz : (Coef.ivl lo hi).Contains z) (h0 : (Coef.ivl lo hi).Contains ⟨lo.shape, fun _ => 0⟩)
include hlib hinit hinit0 hz h0

omit hlib hinit hinit0 hz h0 in
theorem stepOk_regions {xs : List ℕ} {p : Prim K} {ins ins0 : List (Inter K)}
    (h : List.Forall₂ (fun i i0 => i0.headShape = i.headShape ∧ ∃ r, i0.encl = [r]) ins ins0)
    (hok : StepOk xs p ins) : StepOk xs p ins0 := by
  have hx : ∀ i : Inter K, (∃ r, i.encl = [r]) → i.Exact xs ∧ i.Uniform xs := by
    rintro ⟨e, t⟩ ⟨r, hr⟩
    simp only at hr
    subst hr
    constructor
    · intro k c hk
      rcases k with _ | k
      · cases hk; simp [Inter.headShape]
      · simp at hk
    · intro k c hk
      rcases k with _ | k
      · cases hk; left; simp [Inter.headShape, Coef.ndim]
      · simp at hk
  rcases h with _ | ⟨⟨a1, a2⟩, _ | ⟨⟨b1, b2⟩, _ | ⟨c1, c2⟩⟩⟩
  · cases p <;> exact hok
  · have := hx _ a2
    cases p <;> first | trivial | exact this.1 | exact this.2 | skip
    · exact Or.inr this.2
    · exact ⟨this.1, hok.2⟩
    · obtain ⟨-, k⟩ := hok
      exact ⟨this.1, by rw [a1]; exact k⟩
  · have ha := hx _ a2
    have hb := hx _ b2
    cases p <;> first | trivial | exact hb.2 | exact ha.2 | skip
    · obtain ⟨r, hr⟩ := a2
      exact ⟨ha.1, hb.1, Or.inr (Or.inr (by rw [hr]; rfl))⟩
    · obtain ⟨-, -, k⟩ := hok
      exact ⟨ha.1, hb.1, by rw [a1, b1]; exact k⟩
  · cases p <;> exact hok

omit hlib hinit hinit0 hz h0 in
theorem region_covers {e : Encl K} {y : ND K} {b : Coef K} (he : SoundEncl e z y) (hlh : lo.shape = hi.shape)
    (hz : (Coef.ivl lo hi).Contains z) (ho : encloseEnclosure e (.ivl lo hi) 0 = .ok [b]) :
    b.WF ∧ ble b.shape y.shape ∧ ∀ I, ValidIdx y.shape I → b.Mem I (y.get I) := by
  have wZ := Coef.sameShape_iff.1 (show (Coef.ivl lo hi).SameShape from hlh)
  have hzm := zmem_contains wZ hz
  obtain ⟨hV, hi'⟩ := (encloses_iff he.wf).1 he.encl
  rw [hz.1] at hV hi'
  obtain ⟨t1, -, -, -, t5⟩ := trunc_sel wZ hzm anyM_cl hV.veu ho
  obtain ⟨w1, B, hB, hle⟩ := t1.ve 0 b rfl
  refine ⟨w1, ?_, fun I hI => ?_⟩
  · rw [hB]; simpa [IA.repS] using hle
  · obtain ⟨w, hw, e⟩ := hi' I hI
    obtain ⟨W, hW, e', -⟩ := t5 I hI.length.le w hw
    rw [e, ← e']
    have := (hW 0).1 b rfl [] ValidIdx.nil
    simpa [selVal, pair_zero_deg] using this

theorem outRegion_ok (hmd1 : 1 ≤ md) {p : Prim K} {ins : List (Inter K)} {vals : List (ND K)} {y : ND K}
    (hins : List.Forall₂ (InterOk md z) ins vals) (hok : StepOk z.shape p ins)
    (hyne : ∃ I, ValidIdx y.shape I) (hev : p.bind sem vals = .ok [y]) {e : Encl K}
    (he : SoundEncl e z y) (hlen : e.length ≤ md + 1) {r : Coef K}
    (hr : outRegion lib T T0 p ins e = .ok r) : InterOk md z ⟨e, some r⟩ y := by
  refine ⟨he, hlen, ?_⟩
  intro r' hr'
  cases hr'
  unfold outRegion at hr
  cases hf : pushforward lib T0 p with
  | none => rw [hf] at hr; cases hr
  | some fun0 =>
    rw [hf] at hr
    simp only [py_bind_ok] at hr
    obtain ⟨ins0, hi0, ra, hra, rb, hrb, hr⟩ := hr
    -- the inputs of the degree-0 computation
    have hF : List.Forall₂ (fun i i0 : Inter K => ∃ r, i.tr = some r ∧ i0 = ⟨[r], none⟩) ins ins0 := by
      have := Poly.mapM_ok hi0
      refine this.imp ?_
      intro i i0 h
      cases ht : i.tr with
      | none => rw [ht] at h; cases h
      | some r => rw [ht] at h; cases h; exact ⟨r, rfl, rfl⟩
    have hins0 : List.Forall₂ (InterOk 0 z) ins0 vals := by
      clear hi0 hra hev hok
      induction hins generalizing ins0 with
      | nil => cases hF; exact .nil
      | cons h1 _ ih =>
        cases hF with
        | cons h2 h3 =>
          refine .cons ?_ (ih _ h3)
          obtain ⟨r, k1, rfl⟩ := h2
          obtain ⟨q1, q2, q3, q4, q5⟩ := h1.reg r k1
          refine ⟨sound_set ⟨q1, ?_⟩ q2 q3, by simp, fun r hr => by cases hr⟩
          cases r with
          | arr _ => trivial
          | ivl l h =>
            intro I hI
            have := q3 I (q2 ▸ hI)
            exact this.1.trans this.2
    have hok0 : StepOk z.shape p ins0 := by
      refine stepOk_regions ?_ hok
      clear hi0 hra hev hok hins0
      induction hins generalizing ins0 with
      | nil => cases hF; exact .nil
      | cons h1 _ ih =>
        cases hF with
        | cons h2 h3 =>
          refine .cons ?_ (ih _ h3)
          obtain ⟨r, k1, rfl⟩ := h2
          obtain ⟨-, q2, -⟩ := h1.reg r k1
          exact ⟨by rw [headShape_eq h1.encl]; exact q2, r, rfl⟩
    obtain ⟨y', hy', hsa, hla⟩ := push_sound hlib hinit0 hz h0 hf hins0 hok0 (by
      intro v hv
      rw [List.mem_singleton] at hv
      subst hv
      exact hyne) hev hra
    cases hy'
    obtain ⟨-, hT, -, hzs⟩ := unpack hinit hz
    have hZ : T.trustRegion = .ivl lo hi := by
      unfold TEA.init at hinit
      split_ifs at hinit
      cases hinit; rfl
    have hlh : lo.shape = hi.shape := by
      unfold TEA.init at hinit
      split_ifs at hinit with hsh
      exact not_not.1 hsh
    obtain ⟨out, ho, hen, hlo, -⟩ := C15_enclose_enclosure he.wf (Z := .ivl lo hi) hlh 0 hz he.encl
    rw [hZ, ho] at hrb
    cases hrb
    rcases ra with _ | ⟨a, la⟩
    · simp at hr
    rcases rb with _ | ⟨b, lb⟩
    · simp at hr
    have hla' : la = [] := List.eq_nil_of_length_eq_zero (by rw [List.length_cons] at hla; omega)
    have hlb' : lb = [] := List.eq_nil_of_length_eq_zero (by rw [List.length_cons] at hlo; omega)
    subst hla' hlb'
    rcases e with _ | ⟨e0, le⟩
    · simp at hr
    cases e0 with
    | ivl l h => simp at hr
    | arr y0 =>
      simp only [py_bind_ok, py_pure] at hr
      obtain ⟨⟨p1, p2⟩, hi, q1, hq1, q2, hq2, rfl⟩ := hr
      obtain ⟨a1, a2, a3⟩ := hsa.set
      obtain ⟨b1, b2, b3⟩ := region_covers he hlh hz ho
      cases a with
      | arr _ => simp only [intersectIntervals] at hi; split_ifs at hi
      | ivl a0 a1' =>
        cases b with
        | arr _ => simp only [intersectIntervals] at hi; split_ifs at hi
        | ivl b0 b1' =>
          simp only [intersectIntervals, py_bind_ok, py_pure, Prod.mk.injEq] at hi
          obtain ⟨m1, hm1, m2, hm2, rfl, rfl⟩ := hi
          have a2 : a0.shape = y.shape := a2
          have a1 : a0.shape = a1'.shape := a1
          have b2 : ble b0.shape y.shape := b2
          have b1 : b0.shape = b1'.shape := b1
          have hy0 : y0.shape = y.shape := he.head _ rfl
          have sh : ∀ (f : K → K → K) (u v w : ND K), u.shape = y.shape → ble v.shape y.shape →
              ND.map2 f u v = .ok w → w.shape = y.shape ∧ ∀ I, ValidIdx y.shape I →
                w.get I = f (u.get I) (v.bget I) := by
            intro f u v w hu hv hw
            have hb := (ND.map2_ok hw).1
            rw [hu, bshape_eq_of_ble' hv] at hb
            have hs : w.shape = y.shape := (Option.some.inj hb).symm
            refine ⟨hs, fun I hI => ?_⟩
            rw [map2_at hw (hs ▸ hI), ND.bget_valid _ (hu ▸ hI)]
          obtain ⟨s1, g1⟩ := sh _ _ _ _ a2 b2 hm1
          obtain ⟨s2, g2⟩ := sh _ _ _ _ (a1 ▸ a2) (b1 ▸ b2) hm2
          obtain ⟨s3, g3⟩ := sh _ _ _ _ hy0 (s1 ▸ ble_refl _) hq1
          obtain ⟨s4, g4⟩ := sh _ _ _ _ hy0 (s2 ▸ ble_refl _) hq2
          refine ⟨s3.trans s4.symm, s3, fun I hI => ?_, ?_, ?_⟩
          · have k1 := a3 I hI
            have k2 := b3 I hI
            show q1.get I ≤ y.get I ∧ y.get I ≤ q2.get I
            rw [g3 I hI, g4 I hI, ND.bget_valid _ (s1 ▸ hI), ND.bget_valid _ (s2 ▸ hI), g1 I hI, g2 I hI]
            exact ⟨(min_le_right _ _).trans (max_le k1.1 k2.1), (le_min k1.2 k2.2).trans (le_max_right _ _)⟩
          · intro a ha I hI
            cases ha
            show q1.get I ≤ y0.get I ∧ y0.get I ≤ q2.get I
            rw [g3 I hI, g4 I hI]
            exact ⟨min_le_left _ _, le_max_left _ _⟩
          · intro lo hi h
            cases h

/-! ### one equation -/

/-- the environment of the interpreter and the values of the variables -/
def EnvOk (md : ℕ) (z : ND K) (env : Env K) (vals : Vals K) : Prop :=
  ∀ v i, env.lookup v = some i → ∃ a, vals.lookup v = some a ∧ InterOk md z i a

omit hlib hinit hinit0 hz h0 in
theorem getInter_ok {env : Env K} {vals : Vals K} (h : EnvOk md z env vals) {atom : Atom K} {i : Inter K}
    (hi : getInter env atom = .ok i) : ∃ a, getVal vals atom = .ok a ∧ InterOk md z i a := by
  cases atom with
  | lit a => cases hi; exact ⟨a, rfl, const_ok md z a⟩
  | var v =>
    unfold getInter at hi
    cases hl : env.lookup v with
    | none => simp only [hl] at hi; cases hi
    | some i' =>
      simp only [hl] at hi
      cases hi
      obtain ⟨a, h1, h2⟩ := h v _ hl
      exact ⟨a, by simp only [getVal, h1], h2⟩

omit hlib hinit hinit0 hz h0 in
theorem getInters_ok {env : Env K} {vals : Vals K} (h : EnvOk md z env vals) {atoms : List (Atom K)}
    {ins : List (Inter K)} (hi : atoms.mapM (getInter env) = .ok ins) :
    ∃ args, atoms.mapM (getVal vals) = .ok args ∧ List.Forall₂ (InterOk md z) ins args := by
  induction atoms generalizing ins with
  | nil => cases hi; exact ⟨[], rfl, .nil⟩
  | cons a l ih =>
    rw [List.mapM_cons] at hi
    simp only [py_bind_ok, py_pure] at hi
    obtain ⟨i, hi1, is, hi2, rfl⟩ := hi
    obtain ⟨b, hb1, hb2⟩ := getInter_ok h hi1
    obtain ⟨bs, hbs1, hbs2⟩ := ih hi2
    refine ⟨b :: bs, ?_, .cons hb2 hbs2⟩
    rw [List.mapM_cons]
    simp only [hb1, hbs1, py_ok_bind]
    rfl

omit hlib hinit hinit0 hz h0 in
theorem store_ok {xs : List ℕ} {env : Env K} {vals : Vals K} (h : EnvOk md z env vals) {v : ℤ} {i : Inter K}
    {a : ND K} (hia : v = -1 ∨ InterOk md z i a) {env' : Env K} (hs : storeOne xs env (v, i) = .ok env') :
    EnvOk md z env' (storeVal vals (v, a)) := by
  unfold storeOne at hs
  unfold storeVal
  simp only at hs ⊢
  by_cases hv : v = -1
  · rw [if_pos hv] at hs
    rw [if_pos hv]
    cases hs
    exact h
  · rw [if_neg hv] at hs
    rw [if_neg hv]
    split_ifs at hs
    simp only [py_bind_ok, py_pure] at hs
    obtain ⟨_, _, rfl⟩ := hs
    intro w j hj
    rw [List.lookup_cons] at hj
    rw [List.lookup_cons]
    by_cases hw : (w == v) = true
    · rw [hw] at hj
      rw [hw]
      simp only at hj ⊢
      cases hj
      rcases hia with h | h
      · exact absurd h hv
      · exact ⟨a, rfl, h⟩
    · have hw : (w == v) = false := by simpa using hw
      rw [hw] at hj
      rw [hw]
      simp only at hj ⊢
      exact h w j hj

omit hlib hinit hinit0 hz h0 in
theorem stores_ok {xs : List ℕ} {outvars : List ℤ} {outs : List (Inter K)} {ys : List (ND K)} {env env' : Env K}
    {vals : Vals K} (h : EnvOk md z env vals)
    (ho : List.Forall₂ (fun vi (y : ND K) => vi.1 = -1 ∨ InterOk md z vi.2 y) (outvars.zip outs) ys)
    (hl : outvars.length = outs.length)
    (hs : (outvars.zip outs).foldlM (storeOne xs) env = .ok env') :
    EnvOk md z env' ((outvars.zip ys).foldl storeVal vals) := by
  induction outvars generalizing outs ys env vals with
  | nil =>
    cases hs
    exact h
  | cons v vs ih =>
    rcases outs with _ | ⟨i, is⟩
    · simp at hl
    rw [List.zip_cons_cons] at ho hs
    rcases ho with _ | ⟨h1, h2⟩
    rw [List.foldlM_cons, py_bind_ok] at hs
    obtain ⟨env1, hs1, hs2⟩ := hs
    rw [List.zip_cons_cons, List.foldl_cons]
    exact ih (store_ok h h1 hs1) h2 (by simpa using hl) hs2

omit hlib hinit hinit0 hz h0 in
theorem mem_storeVals {l : List (ℤ × ND K)} {vals : Vals K} {va : ℤ × ND K} :
    (va ∈ vals → va ∈ l.foldl storeVal vals) ∧
    (va ∈ l → va.1 ≠ -1 → va ∈ l.foldl storeVal vals) := by
  induction l generalizing vals with
  | nil => exact ⟨fun h => h, fun h => by cases h⟩
  | cons w l ih =>
    rw [List.foldl_cons]
    have hs : va ∈ vals → va ∈ storeVal vals w := by
      intro h
      unfold storeVal
      split_ifs
      · exact h
      · exact List.mem_cons_of_mem _ h
    refine ⟨fun h => ih.1 (hs h), fun h hn => ?_⟩
    rcases List.mem_cons.1 h with rfl | h
    · apply ih.1
      unfold storeVal
      rw [if_neg hn]
      exact List.mem_cons_self
    · exact ih.2 h hn

theorem step_ok {propagate : Bool} (hprop : propagate = true → 1 ≤ md) {env env' : Env K} {vals vals' : Vals K}
    {eqn : Eqn K} (h : EnvOk md z env vals)
    (hok : ∀ ins, eqn.invars.mapM (getInter env) = .ok ins → ins.mapM Inter.constantValue = none →
      StepOk z.shape eqn.prim ins)
    (hne : NonEmptyVals vals') (hev : evalEqn sem vals eqn = .ok vals')
    (hs : step lib T T0 propagate z.shape env eqn = .ok env') : EnvOk md z env' vals' := by
  simp only [step, py_bind_ok] at hs
  obtain ⟨ins, hins, outs, houts, hs⟩ := hs
  by_cases hlen : outs.length ≠ eqn.outvars.length
  · rw [if_pos hlen] at hs; cases hs
  rw [if_neg hlen] at hs
  rw [not_not] at hlen
  obtain ⟨args, hargs, hF⟩ := getInters_ok h hins
  simp only [evalEqn, py_bind_ok] at hev
  obtain ⟨args', hargs', ys, hys, hev⟩ := hev
  rw [hargs] at hargs'
  cases hargs'
  by_cases hylen : ys.length ≠ eqn.outvars.length
  · rw [if_pos hylen] at hev; cases hev
  rw [if_neg hylen] at hev
  rw [not_not] at hylen
  cases hev
  refine stores_ok h ?_ hlen.symm hs
  unfold eqnOutputs at houts
  cases hcv : ins.mapM Inter.constantValue with
  | some cs =>
    rw [hcv] at houts
    simp only [py_bind_ok, py_pure] at houts
    obtain ⟨rs, hrs, rfl⟩ := houts
    have hsame := consts_same hF hcv
    have hrs' := bind_okLe hlib _ _ _ hrs
    unfold Prim.bind at hrs' hys
    rw [hsame] at hrs'
    rw [hys] at hrs'
    cases hrs'
    rw [List.forall₂_iff_get]
    refine ⟨by simp [hylen], fun k h1 h2 => Or.inr ?_⟩
    have : ((eqn.outvars.zip (ys.map constantInter)).get ⟨k, h1⟩).2 = constantInter (ys.get ⟨k, h2⟩) := by
      simp
    rw [this]
    exact const_ok md z _
  | none =>
    rw [hcv] at houts
    have hstep := hok ins hins hcv
    cases hf : pushforward lib T eqn.prim with
    | none => simp only [hf] at houts; cases houts
    | some f =>
      simp only [hf, py_bind_ok] at houts
      obtain ⟨e, he, houts⟩ := houts
      by_cases ho1 : eqn.outvars.length ≠ 1
      · rw [if_pos ho1] at houts; cases houts
      rw [if_neg ho1] at houts
      rw [not_not] at ho1
      obtain ⟨v, hv⟩ := List.length_eq_one_iff.1 ho1
      obtain ⟨y, hy⟩ := List.length_eq_one_iff.1 (hylen.trans ho1)
      rw [hv, hy] at hne
      by_cases hv1 : v = -1
      · obtain ⟨o, hoo⟩ := List.length_eq_one_iff.1 (hlen.trans ho1)
        rw [hoo, hv, hy]
        exact .cons (Or.inl hv1) .nil
      have hyne : ∃ I, ValidIdx y.shape I := hne (v, y) (mem_storeVals.2 (by simp) hv1)
      rw [hy] at hys
      obtain ⟨y', hy', q1, q2⟩ := push_sound hlib hinit hz h0 hf hF hstep (by
        intro w hw
        rw [List.mem_singleton] at hw
        subst hw
        exact hyne) hys he
      cases hy'
      rw [hv, hy]
      cases propagate with
      | true =>
        simp only [if_true, py_bind_ok, py_pure] at houts
        obtain ⟨r, hr, rfl⟩ := houts
        exact .cons (Or.inr (outRegion_ok hlib hinit hinit0 hz h0 (hprop rfl) hF hstep hyne hys q1 q2 hr)) .nil
      | false =>
        cases houts
        exact .cons (Or.inr ⟨q1, q2, fun r hr => by cases hr⟩) .nil

omit hlib hinit hinit0 hz h0 in
theorem evalEqns_mem {eqns : List (Eqn K)} {vals vals' : Vals K}
    (he : eqns.foldlM (evalEqn sem) vals = .ok vals') {va : ℤ × ND K} (hva : va ∈ vals) : va ∈ vals' := by
  induction eqns generalizing vals with
  | nil => cases he; exact hva
  | cons q qs ih =>
    rw [List.foldlM_cons, py_bind_ok] at he
    obtain ⟨w1, e1, e2⟩ := he
    refine ih e2 ?_
    simp only [evalEqn, py_bind_ok] at e1
    obtain ⟨_, _, _, _, e1⟩ := e1
    split_ifs at e1
    cases e1
    exact mem_storeVals.1 hva

theorem run_ok {propagate : Bool} (hprop : propagate = true → 1 ≤ md) {eqns : List (Eqn K)} {env env' : Env K}
    {vals vals' : Vals K} (h : EnvOk md z env vals) (hok : RunOk lib T T0 propagate z.shape env eqns)
    (hne : NonEmptyVals vals') (hev : eqns.foldlM (evalEqn sem) vals = .ok vals')
    (hs : eqns.foldlM (step lib T T0 propagate z.shape) env = .ok env') : EnvOk md z env' vals' := by
  induction eqns generalizing env vals with
  | nil => cases hev; cases hs; exact h
  | cons eqn eqns ih =>
    rw [List.foldlM_cons, py_bind_ok] at hev hs
    obtain ⟨vals1, he1, he2⟩ := hev
    obtain ⟨env1, hs1, hs2⟩ := hs
    obtain ⟨k1, k2⟩ := hok
    have hsub : ∀ va ∈ vals1, va ∈ vals' := fun va hva => evalEqns_mem he2 hva
    exact ih (step_ok hlib hinit hinit0 hz h0 hprop h k1 (fun va hva => hne va (hsub va hva)) he1 hs1)
      (k2 env1 hs1) he2 hs2

end
end JB
end AB
