/-
Batch shapes of the results of the operations of /repo/autobound/enclosure_arithmetic.py: from operands
whose coefficients have exactly the shape of the value (`GoodEncl`) the operations return results of the
same kind.  This is what makes chains of operations (taylor_bounds) sound.
-/
import Verif.Props.Encl4
set_option linter.unusedSectionVars false

namespace AB
variable {K : Type} [Field K] [LinearOrder K] [IsStrictOrderedRing K]
open IA (repS)

theorem SR.exact {xs R R1 I : List ℕ} {E : Encl K} {w : ℕ → List ℕ → K} {U : Mode}
    (h : SR U xs R I E w) (hE : ExactBatch xs R1 E) : SR (exactM R1) xs R I E w := by
  refine ⟨fun i x hx => ?_, h.2⟩
  obtain ⟨⟨wx, B, hB, hu⟩, hm⟩ := h.1 i x hx
  refine ⟨⟨wx, B, hB, hu.1, ?_⟩, hm⟩
  have := hE i x hx
  rw [hB] at this
  exact List.append_cancel_right this

theorem SRel.mode {U U' : Mode} {xs R I : List ℕ} {i : ℕ} {c : Coef K} {u : List ℕ → K}
    (h : SRel U xs R I i c u) (hU : ∀ B, U i B → U' i B) : SRel U' xs R I i c u := by
  obtain ⟨⟨w, B, hB, hu⟩, hm⟩ := h
  exact ⟨⟨w, B, hB, hu.1, hU B hu.2⟩, hm⟩

theorem exact_of_veu {xs R R' : List ℕ} {E : Encl K} (h : VEU (exactM R') xs R E) :
    ExactBatch xs R' E := by
  intro i x hx
  obtain ⟨-, B, hB, hu⟩ := h i x hx
  have : B = R' := hu.2
  rw [hB, this]; rfl

theorem good_const (z w : ND K) : GoodEncl [.arr w] z w := by
  refine ⟨by simp, ?_, ?_, ?_⟩
  · intro c hc
    rw [List.mem_singleton] at hc; subst hc; exact ⟨trivial, trivial⟩
  · have hwf : WellFormedEncl ([.arr w] : Encl K) := by
      intro c hc
      rw [List.mem_singleton] at hc; subst hc; exact ⟨trivial, trivial⟩
    rw [encloses_iff hwf]
    refine ⟨?_, fun I hI => ⟨fun i J => if i = 0 then w.bget (I ++ J) else 0, fun i => ⟨?_, ?_⟩, ?_⟩⟩
    · intro i c hc
      rcases i with _ | i
      · cases hc; exact ⟨Coef.WF_arr _, w.shape, by simp [Coef.shape, IA.repS], ble_refl _⟩
      · simp at hc
    · intro c hc J _
      rcases i with _ | i
      · cases hc; rw [Coef.mem_arr]; simp
      · simp at hc
    · intro hn J
      rcases i with _ | i
      · simp at hn
      · simp
    · simp [selVal, pair_zero_deg, ND.bget_valid _ hI]
  · intro i c hc
    rcases i with _ | i
    · cases hc; simp [Coef.shape]
    · simp at hc

/-- a good enclosure that is a constant is the value -/
theorem GoodEncl.same {z y w : ND K} (h : GoodEncl [.arr w] z y) : w.Same y := by
  have hs : w.shape = y.shape := by simpa [Coef.shape] using h.exact 0 _ rfl
  refine ⟨hs, fun I hI => ?_⟩
  obtain ⟨-, hi⟩ := (encloses_iff h.wf).1 h.encl
  obtain ⟨u, hu, e⟩ := hi I (hs ▸ hI)
  have := (hu 0).1 _ rfl [] (by simp [IA.repS, ValidIdx.nil])
  rw [Coef.mem_arr, List.append_nil, ND.bget_valid _ hI] at this
  rw [← this, e]
  simp [selVal, pair_zero_deg]

theorem GoodEncl.congr {E : Encl K} {z y y' : ND K} (h : GoodEncl E z y) (hs : y.Same y') :
    GoodEncl E z y' := by
  refine ⟨h.ne, h.wf, ?_, hs.1 ▸ h.exact⟩
  have := (encloses_iff h.wf).1 h.encl
  rw [encloses_iff h.wf]
  refine ⟨hs.1 ▸ this.1, fun I hI => ?_⟩
  rw [← hs.2 I (hs.1 ▸ hI)]
  exact this.2 I (hs.1 ▸ hI)

namespace TEA
variable {T : TEA K}

theorem good_of_SR {c : Encl K} {z y : ND K} (hzs : z.shape = T.xShape) (hne0 : c ≠ [])
    (hy : ∃ I, ValidIdx y.shape I)
    (h : ∀ I, ValidIdx y.shape I → ∃ W, SR (exactM y.shape) T.xShape y.shape I c W ∧
      selVal T.xShape z.get c.length W = y.get I) : GoodEncl c z y := by
  obtain ⟨k1, k2⟩ := sound_of_SR hzs hy h
  refine ⟨hne0, k2, k1, ?_⟩
  obtain ⟨I, hI⟩ := hy
  obtain ⟨W, hW, -⟩ := h I hI
  rw [hzs]
  exact exact_of_veu hW.veu

theorem GoodEncl.SR_at {a : Encl K} {z y : ND K} (hzs : z.shape = T.xShape)
    (h : GoodEncl a z y) {R : List ℕ} (hR : ble y.shape R) {I : List ℕ} (hI : ValidIdx R I) :
    ∃ u, SR (exactM y.shape) T.xShape R I a u ∧ selVal T.xShape z.get a.length u = y.bget I := by
  obtain ⟨u, hu, e⟩ := Encloses.SR_at h.wf hzs h.encl hR hI
  exact ⟨u, hu.exact (hzs ▸ h.exact), e⟩

theorem ne_nil_of_length {E : Encl K} (h : 0 < E.length) : E ≠ [] := by
  intro h'; rw [h'] at h; simp at h

section
variable {md : ℕ} {lo hi : ND K} (hinit : TEA.init md lo hi = .ok T) {z : ND K}
  (hz : (Coef.ivl lo hi).Contains z)
include hinit hz

/-- **C16 (shapes).** The sum has the full shape if the operand with more coefficients has it. -/
theorem good_add {a b c : Encl K} {y1 y2 y : ND K} (ha : GoodEncl a z y1) (hb : GoodEncl b z y2)
    (hy : ND.map2 (· + ·) y1 y2 = .ok y) (hne : ∃ I, ValidIdx y.shape I)
    (h1 : b.length < a.length → y1.shape = y.shape) (h2 : a.length < b.length → y2.shape = y.shape)
    (hc : T.add a b = .ok c) : GoodEncl c z y := by
  obtain ⟨-, hT, hzm, hzs⟩ := unpack hinit hz
  obtain ⟨l1, l2⟩ := ND.map2_shape hy
  refine good_of_SR hzs (add_ne_nil T ha.ne hc) hne fun I hI => ?_
  obtain ⟨u, hu, eu⟩ := GoodEncl.SR_at hzs ha l1 hI
  obtain ⟨v, hv, ev⟩ := GoodEncl.SR_at hzs hb l2 hI
  have hbs := (ND.map2_ok hy).1
  obtain ⟨-, W, hW, e⟩ := add_SRg hT hzm (U := exactM y.shape) (exactM_cl _) hI.length.le (u := u) (v := v)
    (fun i x x' r hx hx' hr => add_rel (exactM_pr hbs (i := i) (j := 0)) hI.length.le (hu.1 i x hx) (hv.1 i x' hx') hr)
    (fun i x hx hn => (hu.1 i x hx).mode fun B hB => by
      have l1 := (List.getElem?_eq_some_iff.1 hx).1
      have l2 := List.getElem?_eq_none_iff.1 hn
      rw [← h1 (by omega)]; exact hB)
    (fun i x hn hx => (hv.1 i x hx).mode fun B hB => by
      have l1 := (List.getElem?_eq_some_iff.1 hx).1
      have l2 := List.getElem?_eq_none_iff.1 hn
      rw [← h2 (by omega)]; exact hB)
    hu.2 hv.2 hc
  exact ⟨W, hW, by rw [e, eu, ev, map2_at hy hI]⟩

/-- **C17 (shapes).** -/
theorem good_negative {a c : Encl K} {y : ND K} (ha : GoodEncl a z y) (hne : ∃ I, ValidIdx y.shape I)
    (hc : T.negative a = .ok c) : GoodEncl c z (y.map (- ·)) ∧ c.length = min a.length (md + 1) := by
  obtain ⟨hmd, hT, hzm, hzs⟩ := unpack hinit hz
  have hl : c.length = min a.length (md + 1) := by
    obtain ⟨I, hI⟩ := hne
    obtain ⟨u, hu, eu⟩ := GoodEncl.SR_at hzs ha (ble_refl _) hI
    rw [← hmd]
    exact (negative_SR hT hzm (exactM_cl _) hI.length.le hu hc).1
  refine ⟨good_of_SR (y := y.map (- ·)) hzs (ne_nil_of_length ?_) hne fun I hI => ?_, hl⟩
  · have := List.length_pos_iff.2 ha.ne
    omega
  obtain ⟨u, hu, eu⟩ := GoodEncl.SR_at hzs ha (ble_refl _) hI
  obtain ⟨-, W, hW, e⟩ := negative_SR hT hzm (exactM_cl _) hI.length.le hu hc
  exact ⟨W, hW, by rw [e, eu, ND.bget_valid y hI]; rfl⟩

/-- **C17 (shapes).** -/
theorem good_subtract {a b c : Encl K} {y1 y2 y : ND K} (ha : GoodEncl a z y1) (hb : GoodEncl b z y2)
    (hy : ND.map2 (· - ·) y1 y2 = .ok y) (hne : ∃ I, ValidIdx y.shape I)
    (h1 : min b.length (md + 1) < a.length → y1.shape = y.shape)
    (h2 : a.length < min b.length (md + 1) → y2.shape = y.shape)
    (hc : T.subtract a b = .ok c) : GoodEncl c z y := by
  simp only [subtract, py_bind_ok] at hc
  obtain ⟨nb, hnb, hc⟩ := hc
  obtain ⟨l1, l2⟩ := ND.map2_shape hy
  obtain ⟨k1, k2⟩ := good_negative hinit hz hb (by
    obtain ⟨I, hI⟩ := hne; exact ⟨_, validIdx_bidx l2 hI⟩) hnb
  have hy' : ND.map2 (· + ·) y1 (y2.map (- ·)) = .ok y := by
    rw [← hy]
    unfold ND.map2
    show (match bshape y1.shape y2.shape with | none => _ | some R => _) = _
    cases bshape y1.shape y2.shape with
    | none => rfl
    | some R => simp only [ND.bget_map, sub_eq_add_neg]
  exact good_add hinit hz ha k1 hy' hne (by rw [k2]; exact h1) (by rw [k2]; exact h2) hc

/-- **C18 (shapes).** -/
theorem good_multiply {a b c : Encl K} {y1 y2 y : ND K} (ha : GoodEncl a z y1) (hb : GoodEncl b z y2)
    (hy : ND.map2 (· * ·) y1 y2 = .ok y) (hne : ∃ I, ValidIdx y.shape I)
    (hc : T.multiply a b = .ok c) : GoodEncl c z y := by
  obtain ⟨hmd, hT, hzm, hzs⟩ := unpack hinit hz
  obtain ⟨l1, l2⟩ := ND.map2_shape hy
  have hbs := (ND.map2_ok hy).1
  have hl : 0 < c.length := by
    obtain ⟨I, hI⟩ := hne
    obtain ⟨u, hu, eu⟩ := GoodEncl.SR_at hzs ha l1 hI
    obtain ⟨v, hv, ev⟩ := GoodEncl.SR_at hzs hb l2 hI
    rw [(multiply_SR hT hzm (U := exactM y.shape) (exactM_cl _) hI.length.le (exactM_pr hbs) ha.ne hb.ne hu hv hc).1]
    have := List.length_pos_iff.2 ha.ne
    have := List.length_pos_iff.2 hb.ne
    omega
  refine good_of_SR hzs (ne_nil_of_length hl) hne fun I hI => ?_
  obtain ⟨u, hu, eu⟩ := GoodEncl.SR_at hzs ha l1 hI
  obtain ⟨v, hv, ev⟩ := GoodEncl.SR_at hzs hb l2 hI
  obtain ⟨-, W, hW, e⟩ := multiply_SR hT hzm (exactM_cl _) hI.length.le (exactM_pr hbs) ha.ne hb.ne hu hv hc
  exact ⟨W, hW, by rw [e, eu, ev, map2_at hy hI]⟩

/-- **C19 (shapes).** -/
theorem good_power {a c : Encl K} {p : ℕ} {y : ND K} (ha : GoodEncl a z y)
    (hne : ∃ I, ValidIdx y.shape I) (hc : T.powerNat a p = .ok c) : GoodEncl c z (y.map (· ^ p)) := by
  obtain ⟨hmd, hT, hzm, hzs⟩ := unpack hinit hz
  have hl : 0 < c.length := by
    obtain ⟨I, hI⟩ := hne
    obtain ⟨u, hu, eu⟩ := GoodEncl.SR_at hzs ha (ble_refl _) hI
    rw [(power_SR hT hzm hI.length.le (exactM_pw _) hu hc).1]
    omega
  refine good_of_SR (y := y.map (· ^ p)) hzs (ne_nil_of_length hl) hne fun I hI => ?_
  obtain ⟨u, hu, eu⟩ := GoodEncl.SR_at hzs ha (ble_refl _) hI
  obtain ⟨-, W, hW, e, -⟩ := power_SR hT hzm hI.length.le (exactM_pw _) hu hc
  exact ⟨W, hW, by rw [e, eu, ND.bget_valid y hI]; rfl⟩

/-- **C20 (shapes).** -/
theorem good_bilinear {Rc : List ℕ} {terms : List ℕ → List (K × List ℕ × List ℕ)}
    {pbb : ND K → ND K → ℕ → ℕ → Py (ND K)} {a b c : Encl K} {y1 y2 y : ND K}
    (ha : GoodEncl a z y1) (hb : GoodEncl b z y2)
    (hP : PairwiseContract z.shape y1.shape y2.shape Rc terms pbb)
    (hw : ∀ L, ValidIdx Rc L → ∀ t ∈ terms L, 0 ≤ t.1) (hy : pbb y1 y2 0 0 = .ok y)
    (hne : ∃ I, ValidIdx y.shape I) (hc : T.arbitraryBilinear a b pbb = .ok c) : GoodEncl c z y := by
  obtain ⟨k1, k2, k3⟩ := C20_arbitrary_bilinear hinit hz ha.wf hb.wf ha.ne hb.ne hP hw ha.exact hb.exact
    ha.encl hb.encl hy hne hc
  refine ⟨ne_nil_of_length ?_, k2, k1, k3⟩
  unfold arbitraryBilinear at hc
  rw [setFold_length T hc]
  have := List.length_pos_iff.2 ha.ne
  have := List.length_pos_iff.2 hb.ne
  simp; omega
end

/-! ### element-wise functions -/

theorem add_head (T : TEA K) (hm : 1 ≤ T.maxDegree) {a b c : Encl K} {x : Coef K} (hx : a[0]? = some x)
    (hxw : x.WF) (hb : ∀ y, b[0]? = some y → y.WF ∧ y.shape = []) (h : T.add a b = .ok c) :
    ∃ x', c[0]? = some x' ∧ x'.WF ∧ x'.shape = x.shape := by
  simp only [add, py_bind_ok] at h
  obtain ⟨s, hs, h⟩ := h
  have hs0 : ∃ x', s[0]? = some x' ∧ x'.WF ∧ x'.shape = x.shape := by
    obtain ⟨-, hg⟩ := addCoeffs_get hs
    obtain ⟨g1, g2, g3⟩ := hg 0
    cases hy : b[0]? with
    | none => exact ⟨x, by rw [g3 hy, hx], hxw, rfl⟩
    | some y =>
      obtain ⟨yw, ys⟩ := hb y hy
      obtain ⟨r, hr, e⟩ := g1 x y hx hy
      obtain ⟨r1, r2, -, -⟩ := IA.add_ok hxw yw e
      rw [ys, bshape_nil_right] at r2
      exact ⟨r, hr, r1, by simpa using r2.symm⟩
  obtain ⟨x', e, w, sh⟩ := hs0
  refine ⟨x', ?_, w, sh⟩
  unfold truncateIfNecessary encloseEnclosure at h
  split_ifs at h with h0
  · cases h; exact e
  · simp only [py_bind_ok, py_pure] at h
    obtain ⟨r, -, rfl⟩ := h
    rw [List.getElem?_append_left (by simp; omega), List.getElem?_take_of_lt (by omega)]
    exact e

theorem enum_cons (x : Coef K) (e : Encl K) :
    Poly.enum (x :: e) = (0, x) :: (Poly.enum e).map (fun p => (p.1 + 1, p.2)) := by
  unfold Poly.enum
  simp only [List.length_cons, List.range_succ_eq_map, List.zip_cons_cons, List.zip_map_left]
  rfl

theorem compose_head (T : TEA K) {e arg c : Encl K} {e0 : Coef K} (he0 : e[0]? = some e0) (hw : e0.WF)
    (hm : 1 ≤ T.maxDegree ∨ e.length = 1) (h : T.composeEnclosures e arg = .ok c) :
    ∃ x', c[0]? = some x' ∧ x'.shape = e0.shape := by
  cases e with
  | nil => cases he0
  | cons x e =>
    simp only [List.getElem?_cons_zero, Option.some.injEq] at he0
    subst he0
    unfold composeEnclosures at h
    rw [if_neg (by simp)] at h
    have hen : Poly.enum (x :: e) = (0, x) :: (Poly.enum e).map (fun p => (p.1 + 1, p.2)) := by
      exact enum_cons x e
    rw [hen] at h
    simp only [List.foldlM_cons, py_bind_ok] at h
    obtain ⟨o, ho, h⟩ := h
    have ho0 : ∃ x', o[0]? = some x' ∧ x'.WF ∧ x'.shape = x.shape := by
      simp only [composeStep, py_bind_ok] at ho
      obtain ⟨t, ht, ho⟩ := ho
      unfold composeTerm at ht
      simp only [if_true] at ht
      cases ht
      simp only [add, py_bind_ok, addCoeffs, py_pure] at ho
      obtain ⟨s, ⟨r, hr, l, hl, rfl⟩, ho⟩ := ho
      cases hl
      unfold truncateIfNecessary encloseEnclosure at ho
      rw [if_pos (by simp)] at ho
      cases ho
      obtain ⟨r1, r2, -, -⟩ := IA.add_ok (Coef.WF_arr _) hw hr
      rw [Coef.shape_arr, ND.shape_scalar, bshape_nil_left] at r2
      exact ⟨r, rfl, r1, by simpa using r2.symm⟩
    have hfold : ∀ (l : List (ℕ × Coef K)) (o c : Encl K), (l = [] ∨ 1 ≤ T.maxDegree) →
        (∀ p ∈ l, 1 ≤ p.1) → (∃ x', o[0]? = some x' ∧ x'.WF ∧ x'.shape = x.shape) →
        l.foldlM (T.composeStep (.arr (ND.scalar 0) :: arg.drop 1)) o = .ok c →
        ∃ x', c[0]? = some x' ∧ x'.WF ∧ x'.shape = x.shape := by
      intro l
      induction l with
      | nil => intro o c _ _ ho h; simp only [List.foldlM_nil, py_pure] at h; rw [← h]; exact ho
      | cons y l ih =>
        intro o c hl hp ho h
        have hm : 1 ≤ T.maxDegree := by
          rcases hl with hl | hl
          · cases hl
          · exact hl
        simp only [List.foldlM_cons, py_bind_ok] at h
        obtain ⟨o', ho', h⟩ := h
        simp only [composeStep, py_bind_ok] at ho'
        obtain ⟨t, ht, ho'⟩ := ho'
        refine ih o' c (Or.inr hm) (fun p h => hp p (by simp [h])) ?_ h
        obtain ⟨x1, a1, a2, a3⟩ := ho
        have ht0 : ∀ y', t[0]? = some y' → y'.WF ∧ y'.shape = [] := by
          intro y' hy'
          unfold composeTerm at ht
          have hy1 := hp y (by simp)
          rw [if_neg (by omega)] at ht
          simp only [py_bind_ok] at ht
          obtain ⟨poly, -, ht⟩ := ht
          have := Poly.mapM_ok ht
          cases poly with
          | nil =>
            simp [Poly.enum] at this
            subst this; simp at hy'
          | cons q poly =>
            have hen : Poly.enum (q :: poly) = (0, q) :: (Poly.enum poly).map (fun p => (p.1 + 1, p.2)) := by
              exact enum_cons q poly
            rw [hen] at this
            cases this with
            | cons h1 h2 =>
              rw [if_pos (by omega)] at h1
              cases h1
              simp only [List.getElem?_cons_zero, Option.some.injEq] at hy'
              subst hy'
              exact ⟨Coef.WF_arr _, rfl⟩
        obtain ⟨x2, b1, b2, b3⟩ := add_head T hm a1 a2 ht0 ho'
        exact ⟨x2, b1, b2, b3.trans a3⟩
    obtain ⟨x', k1, -, k3⟩ := hfold _ o c (by
      rcases hm with hm | hm
      · exact Or.inr hm
      · left
        have : e = [] := by simpa using hm
        subst this; rfl) (by
      intro p hp
      obtain ⟨q, -, rfl⟩ := List.mem_map.1 hp
      simp) ho0 h
    exact ⟨x', k1, k3⟩

theorem exact_mode {xs R : List ℕ} {arg : Encl K} (h : ExactBatch xs R arg) :
    ∀ i c B, arg[i]? = some c → c.shape = B ++ repS i xs → exactWM R i B := by
  intro i c B hx hB
  left
  have := h i c hx
  rw [hB] at this
  exact List.append_cancel_right this

theorem exact_of_head {xs R : List ℕ} {c : Encl K} (h : VEU (exactWM R) xs R c) {x : Coef K}
    (hx : c[0]? = some x) (hxs : ble R x.shape) : ExactBatch xs R c := by
  intro i y hy
  obtain ⟨-, B, hB, hu⟩ := h i y hy
  rcases hu.2 with h' | ⟨h', h''⟩
  · rw [hB, h']; rfl
  · subst h'
    rw [hx] at hy; cases hy
    have e1 : x.shape = B := by simpa [IA.repS] using hB
    have : B = R := ble_antisymm hu.1 (e1 ▸ hxs)
    rw [hB, this]; rfl

section
variable {md : ℕ} {lo hi : ND K} (hinit : TEA.init md lo hi = .ok T) {z : ND K}
  (hz : (Coef.ivl lo hi).Contains z)
include hinit hz

theorem good_elementwise_core {f : K → K} {D : K → Prop} {gen : Generator K}
    (hgen : SoundGeneratorAt z f D gen) (hks : KeepsShape gen)
    {arg c : Encl K} {y : ND K} (hy : GoodEncl arg z y)
    (k1 : Encloses c z (y.map f)) (k2 : WellFormedEncl c) (k3 : VEU (exactWM y.shape) z.shape y.shape c)
    {a0 : Coef K} {x0 : ND K} {e : Encl K} {tr : ND K × ND K} (q1 : arg[0]? = some a0)
    (q2 : x0.shape = a0.shape) (hew : WellFormedEncl e)
    (q3 : gen x0 tr T.maxDegree = .ok e) (q4 : e.length ≤ md + 1)
    (q5 : T.composeEnclosures e arg = .ok c) : GoodEncl c z (y.map f) := by
  obtain ⟨hmd, hT, hzm, hzs⟩ := unpack hinit hz
  obtain ⟨e0, he0, hsh⟩ := hks _ _ _ _ q3
  have hsh := ble_iff_bshape.1 hsh
  obtain ⟨x', hx', hxs⟩ := compose_head T he0 (hew e0 (List.mem_of_getElem? he0)).wf (by
    rcases Nat.eq_zero_or_pos md with h | h
    · right
      have := (List.getElem?_eq_some_iff.1 he0).1
      omega
    · left; omega) q5
  refine ⟨compose_ne_nil T q5, k2, k1, exact_of_head k3 hx' ?_⟩
  have : a0.shape = y.shape := by simpa using hy.exact 0 a0 q1
  show ble y.shape x'.shape
  rw [hxs, ← this, ← q2]
  exact hsh

/-- **C22 (shapes, supplied trust region).** -/
theorem good_elementwise_supplied {f : K → K} {D : K → Prop} {gen : Generator K}
    (hgen : SoundGeneratorAt z f D gen) (hks : KeepsShape gen) {arg c : Encl K} {y : ND K}
    (hy : GoodEncl arg z y) (hne : ∃ I, ValidIdx y.shape I) {r : Coef K} (hr : r.SameShape)
    (hrn : r.shape = y.shape) (hry : r.Covers y)
    (hrx : ∀ a0 x0, arg[0]? = some a0 → T.expansionPoint a0 = .ok x0 →
      ∀ I, ValidIdx y.shape I → r.AtIdx I (x0.get I))
    (hD : ∀ I, ValidIdx r.shape I → ∀ v, r.AtIdx I v → D v)
    (hc : T.elementwiseFun gen arg (some r) = .ok c) : GoodEncl c z (y.map f) := by
  obtain ⟨k1, k2, k3, a0, x0, e, q1, q2, q3, ⟨q4, q4'⟩, q5⟩ := supplied_mode hinit hz hgen hy.wf
    (U := exactWM y.shape) (exactWM_cm _) (exact_mode hy.exact) hy.encl hne hr (Or.inl hrn) hry
    (fun a0 x0 h1 h2 I hI => by
      rw [hrn, bidx_valid hI, ND.bget_valid _ (by
        have : a0.shape = y.shape := by simpa using hy.exact 0 a0 h1
        have e2 : x0.shape = a0.shape := by
          unfold expansionPoint at h2
          cases a0 with
          | arr a => cases h2; rfl
          | ivl l h =>
            simp only at h2
            split_ifs at h2 with hm
            cases h2; rfl
        rw [e2, this]; exact hI)]
      exact hrx a0 x0 h1 h2 I hI) hD hc
  exact good_elementwise_core hinit hz hgen hks hy k1 k2 k3 q1 q2 q4' q3 q4 q5

/-- **C22 (shapes, derived trust region).** -/
theorem good_elementwise {f : K → K} {D : K → Prop} {gen : Generator K}
    (hgen : SoundGeneratorAt z f D gen) (hks : KeepsShape gen) {arg c : Encl K} {y : ND K}
    (hy : GoodEncl arg z y) (hne : ∃ I, ValidIdx y.shape I)
    (h0 : (Coef.ivl lo hi).Contains ⟨lo.shape, fun _ => 0⟩)
    (hD : ∀ r, encloseEnclosure arg (.ivl lo hi) 0 = .ok [r] →
      ∀ I, ValidIdx r.shape I → ∀ v, r.AtIdx I v → D v)
    (hc : T.elementwiseFun gen arg = .ok c) : GoodEncl c z (y.map f) := by
  obtain ⟨k1, k2, k3, r, a0, x0, e, q1, q2, q3, ⟨q4, q4'⟩, q5⟩ := derived_mode hinit hz hgen hy.wf
    (U := exactWM y.shape) (exactWM_cm _) (exact_mode hy.exact) hy.encl hne h0 hD hc
  exact good_elementwise_core hinit hz hgen hks hy k1 k2 k3 q1 q2 q4' q3 q4 q5

/-- **C23 (shapes, general power).** -/
theorem good_powerOther {f : K → K} {D : K → Prop} {gen : Generator K}
    (hgen : SoundGeneratorAt z f D gen) (hks : KeepsShape gen) {arg c : Encl K} {y : ND K}
    (hy : GoodEncl arg z y) (hne : ∃ I, ValidIdx y.shape I)
    (h0 : (Coef.ivl lo hi).Contains ⟨lo.shape, fun _ => 0⟩)
    (hD : ∀ r, encloseEnclosure arg (.ivl lo hi) 0 = .ok [r] →
      ∀ I, ValidIdx r.shape I → ∀ v, r.AtIdx I v → D v)
    (hc : T.powerOther gen arg = .ok c) : GoodEncl c z (y.map f) := by
  simp only [powerOther, py_bind_ok] at hc
  obtain ⟨_, _, hc⟩ := hc
  exact good_elementwise hinit hz hgen hks hy hne h0 hD hc

/-- **C23 (shapes, division).** -/
theorem good_divide {D : K → Prop} {gen : Generator K}
    (hgen : SoundGeneratorAt z (fun x => x⁻¹) D gen) (hks : KeepsShape gen) {a b c : Encl K}
    {y1 y2 y : ND K} (ha : GoodEncl a z y1) (hb : GoodEncl b z y2)
    (hy : ND.map2 (· / ·) y1 y2 = .ok y) (hne : ∃ I, ValidIdx y.shape I)
    (h0 : (Coef.ivl lo hi).Contains ⟨lo.shape, fun _ => 0⟩)
    (hD : ∀ r, encloseEnclosure b (.ivl lo hi) 0 = .ok [r] →
      ∀ I, ValidIdx r.shape I → ∀ v, r.AtIdx I v → D v)
    (hc : T.divide gen a b = .ok c) : GoodEncl c z y := by
  simp only [divide, py_bind_ok] at hc
  obtain ⟨q, hq, hc⟩ := hc
  obtain ⟨l1, l2⟩ := ND.map2_shape hy
  have hne2 : ∃ I, ValidIdx y2.shape I := by
    obtain ⟨I, hI⟩ := hne
    exact ⟨_, validIdx_bidx l2 hI⟩
  have k := good_powerOther hinit hz hgen hks hb hne2 h0 hD hq
  have hy' : ND.map2 (· * ·) y1 (y2.map fun x => x⁻¹) = .ok y := by
    rw [← hy]
    unfold ND.map2
    show (match bshape y1.shape y2.shape with | none => _ | some R => _) = _
    cases bshape y1.shape y2.shape with
    | none => rfl
    | some R => simp only [ND.bget_map, div_eq_mul_inv]
  exact good_multiply hinit hz ha k hy' hne hc

end
end TEA
end AB
