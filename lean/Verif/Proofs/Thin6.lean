/-
Widths: the interpreter of /repo/autobound/jax/jax_bound.py.
-/
import Verif.Proofs.Thin5

set_option linter.unusedSectionVars false

namespace AB
variable {K : Type} [Field K] [LinearOrder K] [IsStrictOrderedRing K]
open IA (repS)

theorem ThinE.nest {ι : Type} {w : ι → K} {i0 : ι} {e : ι → Encl K} (h : ThinE w i0 e) (i : ι) : NestE (e i) (e i0) := by
  obtain ⟨L, h1, h2⟩ := h
  rw [h2 i, h2 i0]
  show List.Forall₂ Nest _ _
  rw [List.forall₂_map_left_iff, List.forall₂_map_right_iff]
  exact List.forall₂_same.2 fun x hx => (h1 x hx).nest i

namespace JB
open TEA

section
variable {ι : Type} {w : ι → K} {i0 : ι} (hw : ∀ i, 0 ≤ w i)
variable {T T0 : ι → TEA K} {lib : Lib K}

theorem ThinI.nest {x : ι → Inter K} (h : ThinI w i0 x) (i : ι) : NestI (x i) (x i0) := by
  refine ⟨h.encl.nest i, ?_⟩
  rcases h.reg with h | ⟨r, h1, h2, h3⟩
  · exact .inl ⟨h i, h i0⟩
  · exact .inr ⟨r i, r i0, h1 i, h1 i0, h2.nest i, h3 i, h3 i0⟩

theorem famI_nest {x : ι → List (Inter K)} (h : FamList (ThinI w i0) x) (i : ι) : List.Forall₂ NestI (x i) (x i0) := by
  obtain ⟨L, h1, h2⟩ := h
  rw [h2 i, h2 i0, List.forall₂_map_left_iff, List.forall₂_map_right_iff]
  exact List.forall₂_same.2 fun x hx => (h1 x hx).nest i

/-- runs with shrinking trust regions -/
structure ThinRun (lib : Lib K) (w : ι → K) (i0 : ι) (T T0 : ι → TEA K) : Prop where
  nonneg : ∀ i, 0 ≤ w i
  iso : LibIsotone lib
  lip : LibLipschitz lib
  thin : ThinT w i0 T
  thin0 : ThinT w i0 T0
  zero : ∀ i, (T i).Zero
  zero0 : ∀ i, (T0 i).Zero

theorem ThinRun.nest (h : ThinRun lib w i0 T T0) (i : ι) : NestRun lib (T i) (T0 i) (T i0) (T0 i0) :=
  ⟨h.iso, h.thin.nest i, h.thin0.nest i, h.zero i, h.zero i0, h.zero0 i, h.zero0 i0⟩

theorem intersect_inv {a b : Coef K} {u v : ND K} (h : intersectIntervals a b = .ok (u, v)) :
    ∃ a0 a1 b0 b1, a = .ivl a0 a1 ∧ b = .ivl b0 b1 ∧ ND.map2 max a0 b0 = .ok u ∧ ND.map2 min a1 b1 = .ok v := by
  unfold intersectIntervals at h
  split at h
  · simp only [py_bind_ok, py_pure] at h
    obtain ⟨x, hx, z, hz, e⟩ := h
    cases e
    exact ⟨_, _, _, _, rfl, rfl, hx, hz⟩
  · split_ifs at h

theorem thin_outRegion (hR : ThinRun lib w i0 T T0) {p : Prim K} (hp : PrimIsotone p)
    {ins : ι → List (Inter K)} (hi : FamList (ThinI w i0) ins) {e : ι → Encl K} (he : ThinE w i0 e) {r : ι → Coef K}
    (h : ∀ i, outRegion lib (T i) (T0 i) p (ins i) (e i) = .ok (r i)) :
    Thin w i0 r ∧ ∀ i, RegionOk (e i) (r i) := by
  have hn : ∀ i, Nest (r i) (r i0) ∧ RegionOk (e i) (r i) := fun i => by
    obtain ⟨k1, k2, -⟩ := iso_outRegion (hR.nest i) hp (famI_nest hi i) (he.nest i) (h i) (h i0)
    exact ⟨k1, k2⟩
  refine ⟨⟨fun i => (hn i).1, fun L hL => ?_⟩, fun i => (hn i).2⟩
  have := fun i => outRegion_inv (h i)
  choose f j ra as rb bs y0 es a b l u h1 h2 h3 h4 h5 h6 h7 h8 h9 using this
  have hthin : Thin w i0 rb := by
    have : Nonempty ι := ⟨i0⟩
    exact (thin_enclose hR.nonneg he hR.thin.region h4).head.1
  have hin : ∀ i, ble (y0 i).shape (rb i).shape ∧ ∀ I, ValidIdx (rb i).shape I →
      (rb i).lo.bget I ≤ (y0 i).bget I ∧ (y0 i).bget I ≤ (rb i).hi.bget I := by
    intro i
    have hwf := thinE_wf he i
    have h4' := h4 i
    rw [h5 i] at h4' hwf
    have := argRegion_head (hR.zero i) ((hR.thin.region.nest i).wf') hwf (t := rb i) (by
      simp only [argRegion, h4', py_ok_bind])
    exact this
  have key : ∀ i, ble (rb i).shape (r i).shape ∧ (r i).hi.bget L - (r i).lo.bget L ≤ (rb i).hi.bget L - (rb i).lo.bget L := by
    intro i
    have hLi : ValidIdx (r i).shape L := by rw [(hn i).1.shape]; exact hL
    have hni := (hn i).1.wf'
    obtain ⟨a0, a1, b0, b1, e1, e2, m1, m2⟩ := intersect_inv (h6 i)
    obtain ⟨k1, k2⟩ := hin i
    have hwf : (rb i).WellFormed := (hthin.nest i).wf'
    rw [e2] at k1 k2 hwf ⊢
    rw [h9 i] at hLi hni ⊢
    replace hLi : ValidIdx (l i).shape L := hLi
    have slr : (l i).shape = (u i).shape := hni.1
    obtain ⟨u1, u2⟩ := ND.map2_ok m1
    obtain ⟨v1, v2⟩ := ND.map2_ok m2
    obtain ⟨l1, l2⟩ := ND.map2_ok (h7 i)
    obtain ⟨r1, r2⟩ := ND.map2_ok (h8 i)
    have hul := bshape_le u1
    have hvl := bshape_le v1
    have hll := bshape_le l1
    have hrl := bshape_le r1
    have hb : ble b0.shape (l i).shape := ble_trans hul.2 hll.2
    refine ⟨hb, ?_⟩
    have n1 : (l i).shape.length ≤ L.length := hLi.length.le
    have n2 : (a i).shape.length ≤ L.length := (ble_length hll.2).trans n1
    have n3 : (b i).shape.length ≤ L.length := (ble_length hrl.2).trans (slr ▸ n1)
    have sb : b0.shape = b1.shape := hwf.1
    have hy : b0.bget L ≤ (y0 i).bget L ∧ (y0 i).bget L ≤ b1.bget L := by
      have hv := validIdx_bidx hb hLi
      have := k2 _ hv
      simp only [Coef.lo, Coef.hi] at this
      rw [← bget_bidx b0 rfl hb hLi, ← bget_bidx b1 sb.symm hb hLi] at this
      have e3 : (y0 i).bget (bidx b0.shape L) = (y0 i).bget L := by
        show (y0 i).get (bidx _ (bidx _ _)) = (y0 i).get (bidx _ _)
        rw [bidx_bidx (R := b0.shape) k1 ((ble_length hb).trans n1)]
      rw [e3] at this
      exact this
    simp only [Coef.lo, Coef.hi]
    rw [l2 L n1, r2 L (slr ▸ n1), u2 L n2, v2 L n3]
    have q1 : b0.bget L ≤ min ((y0 i).bget L) (max (a0.bget L) (b0.bget L)) := le_min hy.1 (le_max_right _ _)
    have q2 : max ((y0 i).bget L) (min (a1.bget L) (b1.bget L)) ≤ b1.bget L := max_le hy.2 (min_le_right _ _)
    exact sub_le_sub q2 q1
  refine (hthin.entry (L := L) (key i0).1 hL).wid.mono fun i => (key i).2

theorem thin_eqnOutputs (hR : ThinRun lib w i0 T T0) {propagate : Bool} {eqn : Eqn K} (hp : PrimIsotone eqn.prim)
    (hq : PrimLipschitz eqn.prim) {ins : ι → List (Inter K)} (hi : FamList (ThinI w i0) ins) {o : ι → List (Inter K)}
    (h : ∀ i, eqnOutputs lib (T i) (T0 i) propagate eqn (ins i) = .ok (o i)) : FamList (ThinI w i0) o := by
  have hcv : ∀ i, (ins i).mapM Inter.constantValue = (ins i0).mapM Inter.constantValue := by
    intro i
    have := famI_nest hi i
    revert this
    generalize ins i = x, ins i0 = y
    intro this
    induction this with
    | nil => rfl
    | cons h1 _ ih => rw [List.mapM_cons, List.mapM_cons, h1.constantValue, ih]
  unfold eqnOutputs at h
  simp only [hcv] at h
  cases hc : (ins i0).mapM Inter.constantValue with
  | some vals =>
    simp only [hc, py_bind_ok, py_pure] at h
    obtain ⟨v, hv, h0⟩ := h i0
    have : o = fun _ => v.map constantInter := funext fun i => by
      obtain ⟨v', hv', h⟩ := h i
      rw [hv] at hv'
      cases hv'
      exact h.symm
    rw [this]
    refine .const _ fun x hx => ?_
    obtain ⟨y, -, rfl⟩ := List.mem_map.1 hx
    exact thinI_const hR.nonneg y
  | none =>
    simp only [hc] at h
    have hf : ∀ i, ∃ f, pushforward lib (T i) eqn.prim = some f := by
      intro i
      have := h i
      cases hf : pushforward lib (T i) eqn.prim with
      | none => rw [hf] at this; cases this
      | some f => exact ⟨f, rfl⟩
    choose f hf using hf
    simp only [hf, py_bind_ok] at h
    choose e he h using h
    have hn := thin_pushforward hR.nonneg hR.iso hR.lip hR.thin hR.zero hp hq hf hi he
    by_cases hl : eqn.outvars.length ≠ 1
    · have := h i0
      rw [if_pos hl] at this; cases this
    simp only [if_neg hl] at h
    cases propagate with
    | false =>
      simp only [Bool.false_eq_true, if_false, py_pure] at h
      obtain rfl : _ = o := funext h
      exact FamList.cons (P := ThinI w i0) (x := fun i => (⟨e i, none⟩ : Inter K)) ⟨hn, .inl fun _ => rfl⟩ .nil
    | true =>
      simp only [if_true, py_bind_ok, py_pure] at h
      choose r hr h using h
      obtain rfl : _ = o := funext h
      obtain ⟨k1, k2⟩ := thin_outRegion hR hp hi hn hr
      exact FamList.cons (P := ThinI w i0) (x := fun i => (⟨e i, some (r i)⟩ : Inter K)) ⟨hn, .inr ⟨r, fun _ => rfl, k1, k2⟩⟩ .nil

/-- families of environments -/
abbrev ThinEnv (w : ι → K) (i0 : ι) (env : ι → Env K) : Prop :=
  FamList (fun x : ι → ℤ × Inter K => ∃ (v : ℤ) (y : ι → Inter K), ThinI w i0 y ∧ x = fun i => (v, y i)) env

theorem thinEnv_lookup {env : ι → Env K} (h : ThinEnv w i0 env) (v : ℤ) :
    (∀ i, (env i).lookup v = none) ∨ ∃ y : ι → Inter K, ThinI w i0 y ∧ ∀ i, (env i).lookup v = some (y i) := by
  obtain ⟨L, h1, h2⟩ := h
  obtain rfl : env = _ := funext h2
  clear h2
  induction L with
  | nil => exact .inl fun i => rfl
  | cons x L ih =>
    obtain ⟨n, y, hy, rfl⟩ := h1 x (by simp)
    by_cases hv : v == n
    · exact .inr ⟨y, hy, fun i => by simp [List.lookup, hv]⟩
    · have hv : (v == n) = false := by simpa using hv
      simp only [List.map_cons, List.lookup, hv]
      exact ih fun x hx => h1 x (List.mem_cons_of_mem _ hx)

include hw in
theorem thin_getInter {env : ι → Env K} (h : ThinEnv w i0 env) (a : Atom K) {x : ι → Inter K}
    (h1 : ∀ i, getInter (env i) a = .ok (x i)) : ThinI w i0 x := by
  cases a with
  | lit a =>
    obtain rfl : x = fun _ => constantInter a := funext fun i => (Except.ok.inj (h1 i)).symm
    exact thinI_const hw a
  | var v =>
    unfold getInter at h1
    rcases thinEnv_lookup h v with hn | ⟨y, hy, hl⟩
    · have := h1 i0
      simp only [hn] at this; cases this
    · simp only [hl] at h1
      obtain rfl : x = y := funext fun i => (Except.ok.inj (h1 i)).symm
      exact hy

theorem thin_step (hR : ThinRun lib w i0 T T0) {propagate : Bool} {xs : List ℕ} {eqn : Eqn K}
    (hp : PrimIsotone eqn.prim) (hq : PrimLipschitz eqn.prim) {env r : ι → Env K} (he : ThinEnv w i0 env)
    (h : ∀ i, step lib (T i) (T0 i) propagate xs (env i) eqn = .ok (r i)) : ThinEnv w i0 r := by
  simp only [step, py_bind_ok] at h
  choose ins hi o ho h using h
  have hn : FamList (ThinI w i0) ins := by
    refine fam_mapM (P := fun x : ι → Atom K => ∃ a, x = fun _ => a) (E := fun _ => eqn.invars) (f := fun i => getInter (env i)) ?_
      (.const _ fun a _ => ⟨a, rfl⟩) hi
    rintro _ t ⟨a, rfl⟩ h
    exact thin_getInter hR.nonneg he a h
  have hno := thin_eqnOutputs hR hp hq hn ho
  by_cases hl : (o i0).length ≠ eqn.outvars.length
  · have := h i0
    rw [if_pos hl] at this; cases this
  simp only [hno.length _ i0, if_neg hl] at h
  have hz : ThinEnv w i0 fun i => eqn.outvars.zip (o i) := by
    obtain ⟨L, h1, h2⟩ := hno
    refine ⟨(eqn.outvars.zip L).map fun p i => (p.1, p.2 i), fun x hx => ?_, fun i => ?_⟩
    · obtain ⟨p, hp, rfl⟩ := List.mem_map.1 hx
      exact ⟨p.1, p.2, h1 _ (List.of_mem_zip hp).2, rfl⟩
    · beta_reduce
      rw [h2, List.zip_map_right, List.map_map]
      rfl
  refine fam_foldlM (Q := ThinEnv w i0) ?_ hz he h
  rintro s _ t hs ⟨v, y, hy, rfl⟩ h
  unfold storeOne at h
  simp only at h
  by_cases hm : v = -1
  · simp only [if_pos hm] at h
    obtain rfl : t = s := funext fun i => (Except.ok.inj (h i)).symm
    exact hs
  simp only [if_neg hm] at h
  rcases thinEnv_lookup hs v with hl | ⟨z, -, hl⟩
  · simp only [hl, Option.isSome_none, Bool.false_eq_true, if_false, py_bind_ok, py_pure] at h
    choose _ _ h using h
    obtain rfl : _ = t := funext h
    exact .cons (x := fun i => (v, y i)) ⟨v, y, hy, rfl⟩ hs
  · have := h i0
    simp [hl] at this

theorem thin_run (hR : ThinRun lib w i0 T T0) {propagate : Bool} {xs : List ℕ} {eqns : List (Eqn K)}
    (hp : ∀ eqn ∈ eqns, PrimIsotone eqn.prim) (hq : ∀ eqn ∈ eqns, PrimLipschitz eqn.prim) {env r : ι → Env K}
    (he : ThinEnv w i0 env) (h : ∀ i, eqns.foldlM (step lib (T i) (T0 i) propagate xs) (env i) = .ok (r i)) :
    ThinEnv w i0 r := by
  induction eqns generalizing env with
  | nil =>
    obtain rfl : r = env := funext fun i => (Except.ok.inj (h i)).symm
    exact he
  | cons q qs ih =>
    simp only [List.foldlM_cons, py_bind_ok] at h
    choose m hm h using h
    exact ih (fun q hq => hp q (List.mem_cons_of_mem _ hq)) (fun q h => hq q (List.mem_cons_of_mem _ h))
      (thin_step hR (hp q (by simp)) (hq q (by simp)) he hm) h

/-- shrinking trust regions -/
structure Shrink (w : ι → K) (i0 : ι) (x0 : ND K) (lo hi : ι → ND K) : Prop where
  within : ∀ i, Within x0 (lo i) (hi i) (lo i0) (hi i0)
  width : ∀ i I, ValidIdx x0.shape I → (hi i).get I - (lo i).get I ≤ w i

theorem Shrink.thin {x0 : ND K} {lo hi : ι → ND K} (h : Shrink w i0 x0 lo hi) : Thin w i0 fun i => .ivl (lo i) (hi i) := by
  refine ⟨fun i => (h.within i).nest, fun L hL => ⟨1, zero_le_one, fun i => ?_⟩⟩
  obtain ⟨s1, s2, s3, s4⟩ := (h.within i).shapes
  have hL : ValidIdx x0.shape L := s3 ▸ (show ValidIdx (lo i0).shape L from hL)
  simp only [Coef.lo, Coef.hi, one_mul]
  rw [ND.bget_valid (lo i) (s1.symm ▸ hL), ND.bget_valid (hi i) (s2.symm ▸ hL)]
  exact h.width i L hL

theorem shrink_thinT {md : ℕ} {x0 : ND K} {lo hi tlo thi : ι → ND K} (hs : Shrink w i0 x0 lo hi)
    (hsub : ∀ i, IA.subtract (.ivl (lo i) (hi i)) (.arr x0) = .ok (.ivl (tlo i) (thi i)))
    (hT : ∀ i, TEA.init md (tlo i) (thi i) = .ok (T i)) : ThinT w i0 T ∧ ∀ i, (T i).Zero := by
  have hn := fun i => within_nestT (hs.within i) (hsub i) (hsub i0) (hT i) (hT i0)
  refine ⟨⟨fun i => (hn i).1.deg, fun i => (hn i).1.region, fun L hL => ⟨1, zero_le_one, fun i => ?_⟩⟩, fun i => (hn i).2.1⟩
  obtain ⟨s1, s2, s3, s4⟩ := (hs.within i).shapes
  obtain ⟨-, r', a1', a2', a3'⟩ := region_init ⟨s1, s2⟩ (hsub i) (hT i)
  obtain ⟨-, r0, b1, b2, b3⟩ := region_init ⟨s3, s4⟩ (hsub i0) (hT i0)
  beta_reduce at hL ⊢
  rw [r0] at hL
  have hL : ValidIdx x0.shape L := b1 ▸ (show ValidIdx (tlo i0).shape L from hL)
  rw [r']
  simp only [Coef.lo, Coef.hi, one_mul]
  rw [(a3' L hL).1, (a3' L hL).2]
  have := hs.width i L hL
  linarith

theorem thin_initEnv (hw : ∀ i, 0 ≤ w i) {propagate : Bool} {md : ℕ} {jaxpr : Jaxpr K} {consts : List (ND K)} {x0 : ND K}
    {lo hi : ι → ND K} (hmd : propagate = true → 0 < md) (hs : Shrink w i0 x0 lo hi) {env : ι → Env K}
    (h : ∀ i, initEnv propagate md jaxpr consts x0 (lo i) (hi i) = .ok (env i)) : ThinEnv w i0 env := by
  simp only [initEnv, py_bind_ok] at h
  choose idm hid h using h
  have eid : ∀ i, idm i = idm i0 := fun i => by
    have := hid i
    rw [hid i0] at this
    exact (Except.ok.inj this).symm
  simp only [eid] at h
  by_cases hl : consts.length ≠ jaxpr.constvars.length
  · have := h i0
    rw [if_pos hl] at this; cases this
  simp only [if_neg hl] at h
  cases hv : jaxpr.invars with
  | nil => simp only [hv] at h; cases h i0
  | cons v vs =>
    cases vs with
    | cons _ _ => simp only [hv] at h; cases h i0
    | nil =>
      simp only [hv, py_pure] at h
      obtain rfl : _ = env := funext h
      refine .cons (x := fun i => (v, _)) ⟨v, _, ⟨?_, ?_⟩, rfl⟩ (.const _ fun x hx => ?_)
      · by_cases hm : md > 0
        · simp only [if_pos hm]
          exact .cons (.arr hw _) (.cons (.arr hw _) .nil)
        · simp only [if_neg hm]
          exact .cons hs.thin .nil
      · cases propagate with
        | false => exact .inl fun _ => rfl
        | true =>
          have hm := hmd rfl
          simp only [gt_iff_lt, if_pos hm]
          refine .inr ⟨_, fun i => rfl, hs.thin, fun i => ⟨x0, _, rfl, ?_, fun I hI => ?_⟩⟩
          · obtain ⟨s1, s2, s3, s4⟩ := (hs.within i).shapes
            show ble x0.shape (lo i).shape
            rw [s1]; exact ble_refl _
          · obtain ⟨s1, s2, s3, s4⟩ := (hs.within i).shapes
            have hI : ValidIdx x0.shape I := s1 ▸ (show ValidIdx (lo i).shape I from hI)
            simp only [Coef.lo, Coef.hi]
            rw [ND.bget_valid (lo i) (s1.symm ▸ hI), ND.bget_valid (hi i) (s2.symm ▸ hI), ND.bget_valid x0 hI]
            exact ⟨((hs.within i).le I hI).2.1, ((hs.within i).le I hI).2.2.1⟩
      · obtain ⟨a, b⟩ := x
        obtain ⟨c, -, hc⟩ := List.mem_map.1 (List.of_mem_zip hx).2
        refine ⟨a, fun _ => b, ?_, rfl⟩
        rw [← show constantInter c = b from hc]
        exact thinI_const hw c

/-- shrinking trust regions give shrinking coefficients -/
theorem thin_taylorBounds (hw : ∀ i, 0 ≤ w i) (hiso : LibIsotone lib) (hlip : LibLipschitz lib) {jaxpr : Jaxpr K}
    (hp : ∀ eqn ∈ jaxpr.eqns, PrimIsotone eqn.prim) (hq : ∀ eqn ∈ jaxpr.eqns, PrimLipschitz eqn.prim)
    {consts : List (ND K)} {md : ℤ} {propagate : Bool} {x0 : ND K} {lo hi : ι → ND K} (hs : Shrink w i0 x0 lo hi)
    {b : ι → Bounds K} (h : ∀ i, taylorBounds lib jaxpr consts md propagate x0 (lo i) (hi i) = .ok (b i)) :
    ThinE w i0 fun i => (b i).coefficients := by
  simp only [taylorBounds, py_bind_ok] at h
  choose env he h using h
  have hn : ThinEnv w i0 env := by
    unfold taylorEnv at he
    by_cases hneg : md < 0
    · have := he i0
      rw [if_pos hneg] at this; cases this
    simp only [if_neg hneg, py_bind_ok] at he
    choose s hsub he using he
    have hs' : ∀ i, ∃ tlo thi, s i = .ivl tlo thi := by
      intro i
      have := he i
      cases hsi : s i with
      | arr _ => rw [hsi] at this; cases this
      | ivl tlo thi => exact ⟨tlo, thi, rfl⟩
    choose tlo thi hs' using hs'
    obtain rfl : s = fun i => .ivl (tlo i) (thi i) := funext hs'
    simp only [py_bind_ok] at he
    choose T hT T0 hT0 e0 he0 he using he
    obtain ⟨n1, z1⟩ := shrink_thinT hs hsub hT
    obtain ⟨n0, z0⟩ := shrink_thinT hs hsub hT0
    refine thin_run ⟨hw, hiso, hlip, n1, n0, z1, z0⟩ hp hq (thin_initEnv hw ?_ hs he0) he
    intro hpr
    simp only [Bool.and_eq_true, bne_iff_ne] at hpr
    have := hpr.2
    omega
  cases ho : jaxpr.outvars with
  | nil => simp only [ho] at h; cases h i0
  | cons o os =>
    cases os with
    | cons _ _ => simp only [ho] at h; cases h i0
    | nil =>
      simp only [ho, py_bind_ok, py_pure] at h
      choose x hx h using h
      obtain rfl : _ = b := funext h
      exact (thin_getInter hw hn o hx).encl

end
end JB
end AB
