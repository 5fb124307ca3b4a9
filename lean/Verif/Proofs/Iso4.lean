/-
Inclusion isotonicity: element-wise functions and the interpreter.
-/
import Verif.Proofs.Iso3

set_option linter.unusedSectionVars false

namespace AB
variable {K : Type} [Field K] [LinearOrder K] [IsStrictOrderedRing K]
open IA (repS)

theorem repS_split {C : List ℕ} {m : ℕ} {J : List ℕ} (h : ValidIdx (repS m C) J) :
    ∃ Js : List (List ℕ), Js.length = m ∧ (∀ I ∈ Js, ValidIdx C I) ∧ Js.flatten = J := by
  induction m generalizing J with
  | zero =>
    cases h
    exact ⟨[], rfl, by simp, rfl⟩
  | succ m ih =>
    rw [IA.repS_succ] at h
    obtain ⟨A, B, rfl, h1, h2⟩ := validIdx_split h
    obtain ⟨Js, j1, j2, j3⟩ := ih h2
    exact ⟨A :: Js, by simp [j1], by
      intro I hI
      rcases List.mem_cons.1 hI with rfl | hI
      · exact h1
      · exact j2 I hI, by rw [List.flatten_cons, j3]⟩

/-! ### the constant term lies in the range -/

/-- the range of an enclosure over a region that contains 0 contains the constant term -/
theorem evalTaylor_head {c0 : Coef K} {e : Encl K} (hw : ∀ c ∈ c0 :: e, c.WellFormed) {Z : Coef K} (hZ : Z.WellFormed)
    (h0 : ∀ I, ValidIdx Z.shape I → Z.Mem I 0) {r : Coef K}
    (h : Poly.evalTaylorEnclosure (c0 :: e) Z = .ok r) :
    r.WF ∧ ble c0.shape r.shape ∧ ∀ I, ValidIdx r.shape I →
      r.lo.bget I ≤ c0.lo.bget I ∧ c0.lo.bget I ≤ c0.hi.bget I ∧ c0.hi.bget I ≤ r.hi.bget I := by
  unfold Poly.evalTaylorEnclosure at h
  simp only [Poly.evalPolynomial, py_bind_ok, py_pure] at h
  obtain ⟨⟨n, r1⟩, ht, rfl⟩ := h
  rw [List.foldlM_cons, py_bind_ok] at ht
  obtain ⟨⟨m, s⟩, hs, ht⟩ := ht
  simp only [Poly.evalStep, gt_iff_lt, lt_irrefl, if_false, py_ok_bind, py_bind_ok, py_pure] at hs
  obtain ⟨t0, ht0, s', hs', e1⟩ := hs
  obtain ⟨rfl, rfl⟩ := Prod.mk.inj e1
  have w0 := (hw c0 (by simp)).wf
  have inv0 : s'.WF ∧ ble c0.shape s'.shape ∧ ∀ R I, ble s'.shape R → ValidIdx R I →
      s'.lo.bget I ≤ c0.lo.bget I ∧ c0.hi.bget I ≤ s'.hi.bget I := by
    obtain ⟨q1, q2, q3, q4, q5, q6, q7⟩ := IA.tensordot_mem w0 (b := .arr (ND.scalar 1)) trivial ht0
    have hnd : (Coef.arr (ND.scalar (1 : K))).ndim = 0 := rfl
    rw [hnd] at q5 q7
    have hsh : t0.shape = c0.shape := by
      rw [q5]
      simp [Coef.ndim, Coef.shape, ND.scalar]
    obtain ⟨p1, p2, p3, p4⟩ := IA.add_ok (a := .arr (ND.scalar 0)) trivial q1 hs'
    have hsh' : s'.shape = t0.shape := by
      have : bshape ([] : List ℕ) t0.shape = some s'.shape := p2
      rw [bshape_nil_left] at this
      exact (Option.some.inj this).symm
    refine ⟨p1, by rw [hsh', hsh]; exact ble_refl _, fun R I hR hI => ?_⟩
    have hlen : s'.shape.length ≤ I.length := by
      rw [← hI.length]; exact ble_length hR
    obtain ⟨a1, a2⟩ := p4 I hlen
    rw [show (Coef.arr (ND.scalar (0 : K))).lo.bget I = 0 from rfl, zero_add] at a1
    rw [show (Coef.arr (ND.scalar (0 : K))).hi.bget I = 0 from rfl, zero_add] at a2
    rw [a1, a2]
    have key : ∀ v, c0.Mem I v → t0.Mem I v := by
      intro v hv
      have := q7 I [] (by rw [hsh', hsh] at hlen; show c0.shape.length - 0 ≤ _; omega) rfl (fun _ => v) (fun _ => 1)
        (by intro J hJ
            have : J = [] := by simpa [Coef.shape, idx] using hJ
            subst this; simpa using hv)
        (by intro J hJ
            show _ ≤ _ ∧ _ ≤ _
            exact ⟨le_rfl, le_rfl⟩)
      simpa [Coef.shape, idx] using this
    have hle := (hw c0 (by simp)).le (by rw [hsh', hsh] at hR; exact hR) hI
    exact ⟨(key (c0.lo.bget I) ⟨le_rfl, hle⟩).1, (key (c0.hi.bget I) ⟨hle, le_rfl⟩).2⟩
  have key : ∀ (l : Encl K) (m : ℕ) (s : Coef K) (st : ℕ × Coef K), (∀ c ∈ l, c.WellFormed) → 0 < m →
      (s.WF ∧ ble c0.shape s.shape ∧ ∀ R I, ble s.shape R → ValidIdx R I →
        s.lo.bget I ≤ c0.lo.bget I ∧ c0.hi.bget I ≤ s.hi.bget I) →
      l.foldlM (Poly.evalStep Z (fun a b => IA.tensordot a b b.ndim) (fun a k => IA.outerPower a k) IA.add
        (.arr (ND.scalar 1))) (m, s) = .ok st →
      (st.2.WF ∧ ble c0.shape st.2.shape ∧ ∀ R I, ble st.2.shape R → ValidIdx R I →
        st.2.lo.bget I ≤ c0.lo.bget I ∧ c0.hi.bget I ≤ st.2.hi.bget I) := by
    intro l
    induction l with
    | nil =>
      intro m s st _ _ hinv h
      cases h; exact hinv
    | cons c l ih =>
      intro m s st hl hm hinv h
      rw [List.foldlM_cons, py_bind_ok] at h
      obtain ⟨⟨m', s'⟩, h1, h⟩ := h
      simp only [Poly.evalStep, if_pos (show m > 0 from hm), py_bind_ok, py_pure] at h1
      obtain ⟨zi, hzi, t, ht, s2, hs2, e1⟩ := h1
      obtain ⟨rfl, rfl⟩ := Prod.mk.inj e1
      refine ih _ _ st (fun c hc => hl c (List.mem_cons_of_mem _ hc)) (Nat.succ_pos _) ?_ h
      obtain ⟨o1, o2, -, -, o5⟩ := IA.outerPower_mem (B := []) hZ.wf (C := Z.shape) rfl hzi
      have hzs : zi.shape = repS m Z.shape := by simpa using o2 (by omega)
      have hcw := hl c (by simp)
      obtain ⟨q1, q2, q3, q4, q5, q6, q7⟩ := IA.tensordot_mem hcw.wf o1 ht
      have hzero : ∀ R I, ble t.shape R → ValidIdx R I → t.lo.bget I ≤ 0 ∧ 0 ≤ t.hi.bget I := by
        intro R I hR hI
        have e2 : t.shape = c.shape.take (c.ndim - zi.ndim) := by
          rw [q5, Coef.ndim_def zi, List.drop_length, List.append_nil]
        have hlen : c.ndim - zi.ndim ≤ I.length := by
          have := ble_length hR
          rw [hI.length, e2, List.length_take] at this
          rw [Coef.ndim_def] at this ⊢
          rw [Coef.ndim_def] at *
          omega
        have htk : zi.shape.take zi.ndim = zi.shape := by rw [Coef.ndim_def, List.take_length]
        have := q7 I [] hlen (by simp) (fun J => c.lo.bget (I ++ J)) (fun _ => 0) ?_ ?_
        · have h2 : t.Mem I 0 := by simpa using this
          exact h2
        · intro J hJ
          rw [htk] at hJ q4
          have hJ := mem_idx.1 hJ
          have hcs : c.shape = t.shape ++ zi.shape := by
            rw [e2, ← q4, List.take_append_drop]
          exact ⟨le_rfl, hcw.le (R := R ++ zi.shape) (by rw [hcs]; exact ble_append hR (ble_refl _) rfl) (validIdx_append hI hJ)⟩
        · intro J hJ
          rw [htk] at hJ
          have hJ := mem_idx.1 hJ
          rw [hzs] at hJ
          obtain ⟨Js, hj1, hj2, hj3⟩ := repS_split hJ
          have := o5 [] (by simp) (fun _ => 0) Js hj1 (fun J hJ => ⟨hj2 J hJ, by simpa using h0 J (hj2 J hJ)⟩)
          rw [← hj3, List.append_nil]
          have e3 : (Js.map fun _ => (0 : K)).prod = 0 := by
            cases Js with
            | nil => simp at hj1; omega
            | cons => simp
          rw [e3] at this
          simpa using this
      obtain ⟨p1, p2, p3, p4⟩ := IA.add_ok hinv.1 q1 hs2
      have hle := bshape_le p2
      refine ⟨p1, ble_trans hinv.2.1 hle.1, fun R I hR hI => ?_⟩
      obtain ⟨a1, a2⟩ := p4 I (by rw [← hI.length]; exact ble_length hR)
      obtain ⟨b1, b2⟩ := hinv.2.2 R I (ble_trans hle.1 hR) hI
      obtain ⟨d1, d2⟩ := hzero R I (ble_trans hle.2 hR) hI
      rw [a1, a2]
      exact ⟨by linarith, by linarith⟩
  obtain ⟨k1, k2, k3⟩ := key e 1 s' _ (fun c hc => hw c (List.mem_cons_of_mem _ hc)) one_pos inv0 ht
  refine ⟨k1, k2, fun I hI => ?_⟩
  obtain ⟨a1, a2⟩ := k3 _ I (ble_refl _) hI
  exact ⟨a1, (hw c0 (by simp)).le k2 hI, a2⟩


namespace TEA
variable {T' T : TEA K}

/-- the enclosure generator, composed with nested arguments -/
theorem iso_gen_box (hT : NestT T' T) {g : Generator K} (hg : IsotoneGen g) {c0' c0 : Coef K} {a' a : Encl K}
    (ha : NestE (c0' :: a') (c0 :: a)) {t' t : Coef K}
    (hbox : Nest (.ivl (toInterval t').1 (toInterval t').2) (.ivl (toInterval t).1 (toInterval t).2))
    (hm' : ble c0'.shape t'.shape ∧ ∀ I, ValidIdx t'.shape I → t'.lo.bget I ≤ c0'.lo.bget I ∧
      c0'.lo.bget I ≤ t'.hi.bget I)
    (hm : ble c0.shape t.shape ∧ ∀ I, ValidIdx t.shape I → t.lo.bget I ≤ c0.lo.bget I ∧
      c0.lo.bget I ≤ t.hi.bget I)
    {x0' x0 : ND K} (hx' : T'.expansionPoint c0' = .ok x0') (hx : T.expansionPoint c0 = .ok x0)
    {e' e : Encl K} (he' : g x0' (toInterval t') T'.maxDegree = .ok e') (he : g x0 (toInterval t) T.maxDegree = .ok e)
    {r' r : Encl K} (h' : T'.composeEnclosures e' (c0' :: a') = .ok r') (h : T.composeEnclosures e (c0 :: a) = .ok r) :
    NestE r' r := by
  refine iso_compose hT ?_ ha h' h
  have hp : ∀ (S : TEA K) (c : Coef K) (x : ND K), S.expansionPoint c = .ok x → x = c.lo := by
    intro S c x hx
    unfold expansionPoint at hx
    cases c with
    | arr b => cases hx; rfl
    | ivl l h =>
      simp only at hx
      split_ifs at hx
      cases hx; rfl
  have e1 := hp _ _ _ hx
  have e2 := hp _ _ _ hx'
  have hc0 : Nest c0' c0 := by cases ha with | cons h _ => exact h
  have hd : T.maxDegree ≠ 0 → x0' = x0 := by
    intro hd
    cases hc0 with
    | arr b => rw [e1, e2]
    | ivl _ _ _ =>
      unfold expansionPoint at hx
      simp only at hx
      rw [if_neg hd] at hx
      cases hx
  rw [hT.deg] at he'
  have hs : (toInterval t).1.shape = t.shape := by cases t <;> rfl
  have hs2 : (toInterval t').1.shape = t'.shape := by cases t' <;> rfl
  have hs' : t'.shape = t.shape := by
    have : (toInterval t').1.shape = (toInterval t).1.shape := hbox.shape
    rw [← hs2, this, hs]
  have hl : ∀ t : Coef K, (toInterval t).1 = t.lo ∧ (toInterval t).2 = t.hi := by
    intro t; cases t <;> exact ⟨rfl, rfl⟩
  have hcs : ∀ c : Coef K, c.lo.shape = c.shape := by intro c; cases c <;> rfl
  refine hg x0' x0 _ _ _ _ T.maxDegree e' e t.shape hbox (by rw [e1, e2, hcs, hcs, hc0.shape]) ?_ ?_ ?_ hd he' he
  · rw [e1, hs, hcs]
    exact bshape_eq_of_ble hm.1
  · intro I hI
    rw [(hl t').1, (hl t').2, e2]
    exact hm'.2 I (hs' ▸ hI)
  · intro I hI
    rw [(hl t).1, (hl t).2, e1]
    exact hm.2 I hI

theorem iso_gen (hT : NestT T' T) {g : Generator K} (hg : IsotoneGen g) {c0' c0 : Coef K} {a' a : Encl K}
    (ha : NestE (c0' :: a') (c0 :: a)) {t' t : Coef K} (ht : Nest t' t)
    (hm' : ble c0'.shape t'.shape ∧ ∀ I, ValidIdx t'.shape I → t'.lo.bget I ≤ c0'.lo.bget I ∧
      c0'.lo.bget I ≤ t'.hi.bget I)
    (hm : ble c0.shape t.shape ∧ ∀ I, ValidIdx t.shape I → t.lo.bget I ≤ c0.lo.bget I ∧
      c0.lo.bget I ≤ t.hi.bget I)
    {x0' x0 : ND K} (hx' : T'.expansionPoint c0' = .ok x0') (hx : T.expansionPoint c0 = .ok x0)
    {e' e : Encl K} (he' : g x0' (toInterval t') T'.maxDegree = .ok e') (he : g x0 (toInterval t) T.maxDegree = .ok e)
    {r' r : Encl K} (h' : T'.composeEnclosures e' (c0' :: a') = .ok r') (h : T.composeEnclosures e (c0 :: a) = .ok r) :
    NestE r' r := by
  refine iso_gen_box hT hg ha ?_ hm' hm hx' hx he' he h' h
  cases ht with
  | arr b => exact Nest.refl ⟨rfl, fun _ _ => le_rfl⟩
  | ivl w' w hi => exact .ivl w' w hi

/-- the region contains 0 -/
def Zero (T : TEA K) : Prop := ∀ I, ValidIdx T.trustRegion.shape I → T.trustRegion.Mem I 0

theorem argRegion_head {T : TEA K} (h0 : T.Zero) (hw : T.trustRegion.WellFormed) {c0 : Coef K} {a : Encl K}
    (ha : ∀ c ∈ c0 :: a, c.WellFormed) {t : Coef K} (h : T.argRegion (c0 :: a) none = .ok t) :
    ble c0.shape t.shape ∧ ∀ I, ValidIdx t.shape I → t.lo.bget I ≤ c0.lo.bget I ∧ c0.lo.bget I ≤ t.hi.bget I := by
  simp only [argRegion, py_bind_ok] at h
  obtain ⟨out, ho, h⟩ := h
  unfold encloseEnclosure at ho
  by_cases hl : (c0 :: a).length ≤ 0 + 1
  · rw [if_pos hl] at ho
    cases ho
    cases h
    exact ⟨ble_refl _, fun I hI => ⟨le_rfl, (ha c0 (by simp)).le (ble_refl _) hI⟩⟩
  · rw [if_neg hl] at ho
    simp only [List.drop_zero, List.take_zero, List.nil_append, py_bind_ok, py_pure] at ho
    obtain ⟨c, hc, rfl⟩ := ho
    cases h
    obtain ⟨k1, k2, k3⟩ := evalTaylor_head ha hw h0 hc
    exact ⟨k2, fun I hI => ⟨(k3 I hI).1, (k3 I hI).2.1.trans (k3 I hI).2.2⟩⟩

theorem iso_argRegion (hT : NestT T' T) {a' a : Encl K} (ha : NestE a' a) {t' t : Coef K}
    (h' : T'.argRegion a' none = .ok t') (h : T.argRegion a none = .ok t) : Nest t' t := by
  simp only [argRegion, py_bind_ok] at h h'
  obtain ⟨o, ho, h⟩ := h
  obtain ⟨o', ho', h'⟩ := h'
  have := iso_enclose ha hT.region ho' ho
  cases this with
  | nil => cases h
  | cons hc _ => cases h; cases h'; exact hc

theorem nestE_wf {e' e : Encl K} (h : NestE e' e) : (∀ c ∈ e', c.WellFormed) ∧ ∀ c ∈ e, c.WellFormed := by
  induction h with
  | nil => exact ⟨by simp, by simp⟩
  | cons h _ ih =>
    refine ⟨fun c hc => ?_, fun c hc => ?_⟩
    · rcases List.mem_cons.1 hc with rfl | hc
      · exact h.wf'
      · exact ih.1 c hc
    · rcases List.mem_cons.1 hc with rfl | hc
      · exact h.wf
      · exact ih.2 c hc

/-- the region supplied for an argument contains its constant term -/
def RegionOk (a : Encl K) (r : Coef K) : Prop :=
  ∃ y0 rest, a = .arr y0 :: rest ∧ ble y0.shape r.shape ∧ ∀ I, ValidIdx r.shape I → r.lo.bget I ≤ y0.bget I ∧
    y0.bget I ≤ r.hi.bget I

theorem iso_elementwise (hT : NestT T' T) (h0' : T'.Zero) (h0 : T.Zero) {g : Generator K} (hg : IsotoneGen g)
    {a' a : Encl K} (ha : NestE a' a) {t' t : Option (Coef K)}
    (ht : (t' = none ∧ t = none) ∨ ∃ r' r, t' = some r' ∧ t = some r ∧ Nest r' r ∧ RegionOk a' r' ∧ RegionOk a r)
    {r' r : Encl K} (h' : T'.elementwiseFun g a' t' = .ok r') (h : T.elementwiseFun g a t = .ok r) : NestE r' r := by
  simp only [elementwiseFun, py_bind_ok] at h h'
  obtain ⟨tr, htr, h⟩ := h
  obtain ⟨tr', htr', h'⟩ := h'
  have ha2 := ha
  cases ha2 with
  | nil => cases h
  | @cons c0' c0 as' as hc0 has =>
    simp only [py_bind_ok] at h h'
    obtain ⟨x0, hx, e, he, h⟩ := h
    obtain ⟨x0', hx', e', he', h'⟩ := h'
    have hw := nestE_wf ha
    rcases ht with ⟨rfl, rfl⟩ | ⟨s', s, rfl, rfl, hs, ⟨y0', z1, q1, q2, q3⟩, ⟨y0, z2, p1, p2, p3⟩⟩
    · exact iso_gen hT hg ha (iso_argRegion hT ha htr' htr) (argRegion_head h0' hT.region.wf' hw.1 htr')
        (argRegion_head h0 hT.region.wf hw.2 htr) hx' hx he' he h' h
    · cases htr; cases htr'
      cases q1; cases p1
      exact iso_gen hT hg ha hs ⟨q2, q3⟩ ⟨p2, p3⟩ hx' hx he' he h' h

theorem iso_powerOther (hT : NestT T' T) (h0' : T'.Zero) (h0 : T.Zero) {g : Generator K} (hg : IsotoneGen g)
    {a' a : Encl K} (ha : NestE a' a) {r' r : Encl K} (h' : T'.powerOther g a' = .ok r') (h : T.powerOther g a = .ok r) :
    NestE r' r := by
  simp only [powerOther, py_bind_ok] at h h'
  obtain ⟨_, _, h⟩ := h
  obtain ⟨_, _, h'⟩ := h'
  exact iso_elementwise hT h0' h0 hg ha (.inl ⟨rfl, rfl⟩) h' h

theorem iso_divide (hT : NestT T' T) (h0' : T'.Zero) (h0 : T.Zero) {g : Generator K} (hg : IsotoneGen g)
    {a' a b' b : Encl K} (ha : NestE a' a) (hb : NestE b' b) {r' r : Encl K} (h' : T'.divide g a' b' = .ok r')
    (h : T.divide g a b = .ok r) : NestE r' r := by
  simp only [divide, py_bind_ok] at h h'
  obtain ⟨c, hc, h⟩ := h
  obtain ⟨c', hc', h'⟩ := h'
  exact iso_multiply hT ha (iso_powerOther hT h0' h0 hg hb hc' hc) h' h

end TEA

namespace JB
open TEA
variable {T' T : TEA K}

/-- nested intermediate enclosures -/
structure NestI (i' i : Inter K) : Prop where
  encl : NestE i'.encl i.encl
  reg : (i'.tr = none ∧ i.tr = none) ∨
    ∃ r' r, i'.tr = some r' ∧ i.tr = some r ∧ Nest r' r ∧ RegionOk i'.encl r' ∧ RegionOk i.encl r

theorem nestI_const (v : ND K) : NestI (constantInter v) (constantInter v) := by
  refine ⟨.cons (.arr v) .nil, .inr ⟨_, _, rfl, rfl, Nest.refl ⟨rfl, fun _ _ => le_rfl⟩, ?_, ?_⟩⟩ <;>
  exact ⟨v, [], rfl, ble_refl _, fun I _ => ⟨le_rfl, le_rfl⟩⟩

theorem constantValue_nest {i' i : Inter K} (h : NestE i'.encl i.encl) : i'.constantValue = i.constantValue := by
  obtain ⟨e', t'⟩ := i'
  obtain ⟨e, t⟩ := i
  simp only at h
  cases h with
  | nil => rfl
  | cons h1 h2 =>
    cases h1 with
    | arr a => cases h2 <;> rfl
    | ivl _ _ _ => rfl

theorem NestI.constantValue {i' i : Inter K} (h : NestI i' i) : i'.constantValue = i.constantValue :=
  constantValue_nest h.encl

theorem iso_pushforward_rel {lib : Lib K} (hlib : LibIsotone lib) (hT : NestT T' T) (h0' : T'.Zero) (h0 : T.Zero)
    {p : Prim K} (hp : PrimIsotone p) {f' f : List (Inter K) → Py (Encl K)} (hf' : pushforward lib T' p = some f')
    (hf : pushforward lib T p = some f) {ins' ins : List (Inter K)} {R : Inter K → Inter K → Prop}
    (hR : ∀ i' i, R i' i → NestE i'.encl i.encl)
    (hel : ∀ (g : Generator K) i' i r' r, IsotoneGen g → R i' i → T'.elementwiseFun g i'.encl i'.tr = .ok r' →
      T.elementwiseFun g i.encl i.tr = .ok r → NestE r' r)
    (hi : List.Forall₂ R ins' ins)
    {e' e : Encl K} (h' : f' ins' = .ok e') (h : f ins = .ok e) : NestE e' e := by
  have bin : ∀ g' g : Inter K → Inter K → Py (Encl K),
      (match ins' with | [a, b] => g' a b | _ => (.error .typeError : Py (Encl K))) = .ok e' →
      (match ins with | [a, b] => g a b | _ => (.error .typeError : Py (Encl K))) = .ok e →
      ∃ a' b' a b, R a' a ∧ R b' b ∧ g' a' b' = .ok e' ∧ g a b = .ok e := by
    intro g' g h' h
    rcases hi with _ | ⟨h1, _ | ⟨h2, _ | ⟨h3, h4⟩⟩⟩
    · cases h
    · cases h
    · exact ⟨_, _, _, _, h1, h2, h', h⟩
    · cases h
  have una : ∀ g' g : Inter K → Py (Encl K),
      (match ins' with | [a] => g' a | _ => (.error .typeError : Py (Encl K))) = .ok e' →
      (match ins with | [a] => g a | _ => (.error .typeError : Py (Encl K))) = .ok e →
      ∃ a' a, R a' a ∧ g' a' = .ok e' ∧ g a = .ok e := by
    intro g' g h' h
    rcases hi with _ | ⟨h1, _ | ⟨h2, h3⟩⟩
    · cases h
    · exact ⟨_, _, h1, h', h⟩
    · cases h
  cases p with
  | add =>
    cases hf; cases hf'
    obtain ⟨a', b', a, b, na, nb, k', k⟩ := bin _ _ h' h
    exact iso_add hT (hR _ _ na) (hR _ _ nb) k' k
  | sub =>
    cases hf; cases hf'
    obtain ⟨a', b', a, b, na, nb, k', k⟩ := bin _ _ h' h
    exact iso_subtract hT (hR _ _ na) (hR _ _ nb) k' k
  | mul =>
    cases hf; cases hf'
    obtain ⟨a', b', a, b, na, nb, k', k⟩ := bin _ _ h' h
    exact iso_multiply hT (hR _ _ na) (hR _ _ nb) k' k
  | div =>
    cases hf; cases hf'
    obtain ⟨a', b', a, b, na, nb, k', k⟩ := bin _ _ h' h
    exact iso_divide hT h0' h0 (hlib.pow _) (hR _ _ na) (hR _ _ nb) k' k
  | neg =>
    cases hf; cases hf'
    obtain ⟨a', a, na, k', k⟩ := una _ _ h' h
    exact iso_negative hT (hR _ _ na) k' k
  | pow =>
    cases hf; cases hf'
    obtain ⟨a', b', a, b, na, nb, k', k⟩ := bin _ _ h' h
    unfold powPush at k k'
    rw [constantValue_nest (hR _ _ nb)] at k'
    cases hv : b.constantValue with
    | none => rw [hv] at k; cases k
    | some v =>
      rw [hv] at k k'
      simp only at k k'
      by_cases hs : v.shape ≠ []
      · rw [if_pos hs] at k; cases k
      rw [if_neg hs] at k k'
      cases he : lib.expo (v.get []) with
      | frac q =>
        rw [he] at k k'
        exact iso_powerOther hT h0' h0 (hlib.pow _) (hR _ _ na) k' k
      | int n =>
        rw [he] at k k'
        simp only at k k'
        by_cases hn : n < 0
        · rw [if_pos hn] at k k'
          exact iso_powerOther hT h0' h0 (hlib.pow _) (hR _ _ na) k' k
        · rw [if_neg hn] at k k'
          by_cases hn0 : n = 0
          · rw [if_pos hn0] at k k'
            exact iso_powerNat hT (hR _ _ na) k' k
          · rw [if_neg hn0] at k; cases k
  | integerPow y =>
    cases hf; cases hf'
    obtain ⟨a', a, na, k', k⟩ := una _ _ h' h
    by_cases hy : 0 ≤ y
    · rw [if_pos hy] at k k'
      exact iso_powerNat hT (hR _ _ na) k' k
    · rw [if_neg hy] at k k'
      exact iso_powerOther hT h0' h0 (hlib.pow _) (hR _ _ na) k' k
  | dotGeneral lc rc lb rb =>
    cases hf; cases hf'
    obtain ⟨a', b', a, b, na, nb, k', k⟩ := bin _ _ h' h
    exact iso_arbitraryBilinear hT (formed_dot lib.sem lc rc lb rb) (hR _ _ na) (hR _ _ nb) k' k
  | conv op =>
    cases hf; cases hf'
    obtain ⟨a', b', a, b, na, nb, k', k⟩ := bin _ _ h' h
    exact iso_arbitraryBilinear hT (formed_conv hp) (hR _ _ na) (hR _ _ nb) (conv_reduce lib.sem k') (conv_reduce lib.sem k)
  | broadcastInDim shape dims =>
    cases hf; cases hf'
    obtain ⟨a', a, na, k', k⟩ := una _ _ h' h
    exact iso_broadcastInDim (hR _ _ na) k' k
  | elementwise name =>
    simp only [pushforward, Option.map_eq_some_iff] at hf hf'
    obtain ⟨g, hg, rfl⟩ := hf
    obtain ⟨g', hg', rfl⟩ := hf'
    rw [hg] at hg'; cases hg'
    obtain ⟨a', a, na, k', k⟩ := una _ _ h' h
    exact hel _ _ _ _ _ (hlib.gen _ _ hg) na k' k
  | other _ _ => cases hf
  | jit body =>
    cases hf; cases hf'
    obtain ⟨a', a, na, k', k⟩ := una _ _ h' h
    exact iso_mapOver (monotone_bind1 lib.sem (p := .jit body) hp) (hR _ _ na) k' k
  | convertElementType round =>
    cases hf; cases hf'
    obtain ⟨a', a, na, k', k⟩ := una _ _ h' h
    exact iso_mapOver (monotone_bind1 lib.sem (p := .convertElementType round) hp) (hR _ _ na) k' k
  | reshape s =>
    cases hf; cases hf'
    obtain ⟨a', a, na, k', k⟩ := una _ _ h' h
    exact iso_mapOver (monotone_bind1 lib.sem (p := .reshape s) trivial) (hR _ _ na) k' k
  | reduceSum s =>
    cases hf; cases hf'
    obtain ⟨a', a, na, k', k⟩ := una _ _ h' h
    exact iso_mapOver (monotone_bind1 lib.sem (p := .reduceSum s) trivial) (hR _ _ na) k' k
  | reduceWindowSum s =>
    cases hf; cases hf'
    obtain ⟨a', a, na, k', k⟩ := una _ _ h' h
    exact iso_mapOver (monotone_bind1 lib.sem (p := .reduceWindowSum s) trivial) (hR _ _ na) k' k
  | squeeze s =>
    cases hf; cases hf'
    obtain ⟨a', a, na, k', k⟩ := una _ _ h' h
    exact iso_mapOver (monotone_bind1 lib.sem (p := .squeeze s) trivial) (hR _ _ na) k' k
  | transpose s =>
    cases hf; cases hf'
    obtain ⟨a', a, na, k', k⟩ := una _ _ h' h
    exact iso_mapOver (monotone_bind1 lib.sem (p := .transpose s) trivial) (hR _ _ na) k' k

theorem iso_pushforward {lib : Lib K} (hlib : LibIsotone lib) (hT : NestT T' T) (h0' : T'.Zero) (h0 : T.Zero)
    {p : Prim K} (hp : PrimIsotone p) {f' f : List (Inter K) → Py (Encl K)} (hf' : pushforward lib T' p = some f')
    (hf : pushforward lib T p = some f) {ins' ins : List (Inter K)} (hi : List.Forall₂ NestI ins' ins)
    {e' e : Encl K} (h' : f' ins' = .ok e') (h : f ins = .ok e) : NestE e' e :=
  iso_pushforward_rel hlib hT h0' h0 hp hf' hf (R := NestI) (fun _ _ h => h.encl)
    (fun _ _ _ _ _ hg hn k' k => iso_elementwise hT h0' h0 hg hn.encl hn.reg k' k) hi h' h

/-! ### trust regions of intermediate variables -/

theorem iso_intersect {a' a b' b : Coef K} (na : Nest a' a) (nb : Nest b' b) {u' v' u v : ND K}
    (h' : intersectIntervals a' b' = .ok (u', v')) (h : intersectIntervals a b = .ok (u, v)) {y : ND K}
    {l' r' l r : ND K} (hl' : ND.map2 min y u' = .ok l') (hr' : ND.map2 max y v' = .ok r')
    (hl : ND.map2 min y u = .ok l) (hr : ND.map2 max y v = .ok r) :
    Nest (.ivl l' r') (.ivl l r) ∧ (ble y.shape l.shape ∧ ∀ I, ValidIdx l.shape I → l.bget I ≤ y.bget I ∧ y.bget I ≤ r.bget I) ∧
      (ble y.shape l'.shape ∧ ∀ I, ValidIdx l'.shape I → l'.bget I ≤ y.bget I ∧ y.bget I ≤ r'.bget I) := by
  have key : ∀ {a b : Coef K} {u v : ND K}, intersectIntervals a b = .ok (u, v) →
      ∃ a0 a1 b0 b1, a = .ivl a0 a1 ∧ b = .ivl b0 b1 ∧ ND.map2 max a0 b0 = .ok u ∧ ND.map2 min a1 b1 = .ok v := by
    intro a b u v h
    unfold intersectIntervals at h
    split at h
    · simp only [py_bind_ok, py_pure] at h
      obtain ⟨x, hx, z, hz, e⟩ := h
      cases e
      exact ⟨_, _, _, _, rfl, rfl, hx, hz⟩
    · split_ifs at h
  obtain ⟨a0, a1, b0, b1, rfl, rfl, hu, hv⟩ := key h
  obtain ⟨a0', a1', b0', b1', rfl, rfl, hu', hv'⟩ := key h'
  have sa : a0'.shape = a0.shape := na.shape
  have sb : b0'.shape = b0.shape := nb.shape
  have sa1 : a0.shape = a1.shape := na.wf.1
  have sb1 : b0.shape = b1.shape := nb.wf.1
  have sa1' : a0'.shape = a1'.shape := na.wf'.1
  have sb1' : b0'.shape = b1'.shape := nb.wf'.1
  obtain ⟨u1, u2⟩ := ND.map2_ok hu
  obtain ⟨v1, v2⟩ := ND.map2_ok hv
  obtain ⟨u1', u2'⟩ := ND.map2_ok hu'
  obtain ⟨v1', v2'⟩ := ND.map2_ok hv'
  obtain ⟨l1, l2⟩ := ND.map2_ok hl
  obtain ⟨r1, r2⟩ := ND.map2_ok hr
  obtain ⟨l1', l2'⟩ := ND.map2_ok hl'
  obtain ⟨r1', r2'⟩ := ND.map2_ok hr'
  have suv : u.shape = v.shape := by
    rw [sa1, sb1, v1] at u1; exact (Option.some.inj u1).symm
  have suu : u'.shape = u.shape := by
    rw [sa, sb, u1] at u1'; exact (Option.some.inj u1').symm
  have svv : v'.shape = v.shape := by
    rw [← sa1', ← sb1', sa, sb, u1] at v1'; rw [← suv]; exact (Option.some.inj v1').symm
  have slr : l.shape = r.shape := by
    rw [suv, r1] at l1; exact (Option.some.inj l1).symm
  have sll : l'.shape = l.shape := by
    rw [suu, l1] at l1'; exact (Option.some.inj l1').symm
  have srr : r'.shape = r.shape := by
    rw [svv, r1] at r1'; exact (Option.some.inj r1').symm
  have hul := bshape_le u1
  have hll := bshape_le l1
  have hent : ∀ I, ValidIdx l.shape I → l.bget I = min (y.bget I) (max (a0.bget I) (b0.bget I)) ∧
      r.bget I = max (y.bget I) (min (a1.bget I) (b1.bget I)) ∧
      l'.bget I = min (y.bget I) (max (a0'.bget I) (b0'.bget I)) ∧
      r'.bget I = max (y.bget I) (min (a1'.bget I) (b1'.bget I)) ∧
      a0.bget I ≤ a0'.bget I ∧ b0.bget I ≤ b0'.bget I ∧ a1'.bget I ≤ a1.bget I ∧ b1'.bget I ≤ b1.bget I := by
    intro I hI
    have n1 : l.shape.length ≤ I.length := hI.length.le
    have n2 : u.shape.length ≤ I.length := (ble_length hll.2).trans n1
    obtain ⟨x1, -, x2⟩ := na.entries (ble_trans hul.1 hll.2) hI
    obtain ⟨z1, -, z2⟩ := nb.entries (ble_trans hul.2 hll.2) hI
    refine ⟨?_, ?_, ?_, ?_, x1, z1, x2, z2⟩
    · rw [l2 I n1, u2 I n2]
    · rw [r2 I (slr ▸ n1), v2 I (suv ▸ n2)]
    · rw [l2' I (sll ▸ n1), u2' I (suu ▸ n2)]
    · rw [r2' I (by rw [srr, ← slr]; exact n1), v2' I (by rw [svv, ← suv]; exact n2)]
  refine ⟨Nest.of_entries (c' := .ivl l' r') (c := .ivl l r) (show l'.shape = r'.shape by rw [sll, slr, srr]) slr sll
    (fun I hI => ?_) rfl (fun h => by cases h), ⟨hll.1, fun I hI => ?_⟩, ⟨sll ▸ hll.1, fun I hI => ?_⟩⟩
  · obtain ⟨e1, e2, e3, e4, x1, x2, x3, x4⟩ := hent I hI
    simp only [Coef.lo, Coef.hi]
    rw [e1, e2, e3, e4]
    exact ⟨min_le_min_left _ (max_le_max x1 x2), (min_le_left _ _).trans (le_max_left _ _),
      max_le_max_left _ (min_le_min x3 x4)⟩
  · obtain ⟨e1, e2, e3, e4, x1, x2, x3, x4⟩ := hent I hI
    rw [e1, e2]
    exact ⟨min_le_left _ _, le_max_left _ _⟩
  · obtain ⟨e1, e2, e3, e4, x1, x2, x3, x4⟩ := hent I (sll ▸ hI)
    rw [e3, e4]
    exact ⟨min_le_left _ _, le_max_left _ _⟩

end JB
end AB
