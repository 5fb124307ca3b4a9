/-
C16-C19, C24: `TaylorEnclosureArithmetic` (/repo/autobound/enclosure_arithmetic.py).
-/
import Verif.Props.Encl

set_option linter.unusedSectionVars false

namespace AB
variable {K : Type} [Field K] [LinearOrder K] [IsStrictOrderedRing K]
open IA (repS)

/-! ### Helpers -/

/-- every entry of a broadcast array is read at some index of a non-empty result -/
theorem bleR_surj {S R : List ℕ} (h : bleR S R) (hR : ∃ L, List.Forall₂ (fun s i => i < s) R L) :
    ∀ I, List.Forall₂ (fun s i => i < s) S I →
      ∃ L, List.Forall₂ (fun s i => i < s) R L ∧ List.zipWith ax S L = I := by
  induction S generalizing R with
  | nil =>
    intro I hI; cases hI
    obtain ⟨L, hL⟩ := hR
    exact ⟨L, hL, by simp⟩
  | cons s S ih =>
    intro I hI
    cases hI with
    | cons hi hI =>
      rename_i i I
      cases R with
      | nil => exact h.elim
      | cons r R =>
        obtain ⟨L, hL⟩ := hR
        cases hL with
        | cons hr hL =>
          rename_i l L
          obtain ⟨h1, h2⟩ := h
          obtain ⟨L', hL', e⟩ := ih h2 ⟨L, hL⟩ I hI
          by_cases hs : s = 1
          · refine ⟨l :: L', .cons hr hL', ?_⟩
            subst hs
            have : i = 0 := by omega
            simp [ax, e, this]
          · refine ⟨i :: L', .cons ?_ hL', ?_⟩
            · rcases h1 with h1 | h1
              · exact absurd h1 hs
              · omega
            · simp [ax, hs, e]

theorem ble_surj {S R : List ℕ} (h : ble S R) (hR : ∃ L, ValidIdx R L) {I : List ℕ}
    (hI : ValidIdx S I) : ∃ L, ValidIdx R L ∧ bidx S L = I := by
  obtain ⟨L0, hL0⟩ := hR
  obtain ⟨L, hL, e⟩ := bleR_surj h ⟨L0.reverse, List.rel_reverse hL0⟩ I.reverse (List.rel_reverse hI)
  refine ⟨L.reverse, ?_, ?_⟩
  · have := List.rel_reverse hL
    rwa [List.reverse_reverse] at this
  · rw [bidx_def, List.reverse_reverse, e, List.reverse_reverse]

/-- an enclosure that has a selection at every batch index is well formed -/
theorem wellFormedEncl_of_SR {U : Mode} {xs R : List ℕ} {c : Encl K} (hR : ∃ I, ValidIdx R I)
    (h : ∀ I, ValidIdx R I → ∃ W, SR U xs R I c W) : WellFormedEncl c := by
  intro x hx
  obtain ⟨i, hi⟩ := List.mem_iff_getElem?.1 hx
  obtain ⟨I0, hI0⟩ := hR
  obtain ⟨W0, hW0⟩ := h I0 hI0
  obtain ⟨wx, B, hB, hu⟩ := (hW0.1 i x hi).1
  refine ⟨Coef.sameShape_iff.2 wx, ?_⟩
  cases x with
  | arr a => trivial
  | ivl lo hi' =>
    intro L hL
    have e : lo.shape = hi'.shape := wx
    have hB' : lo.shape = B ++ repS i xs := hB
    rw [hB'] at hL
    obtain ⟨I, J, rfl, h1, h2⟩ := validIdx_split hL
    obtain ⟨I', hI', e'⟩ := ble_surj hu.1 ⟨I0, hI0⟩ h1
    obtain ⟨W, hW⟩ := h I' hI'
    have hm := (hW.1 i _ hi).2 J h2
    have key : ∀ a : ND K, a.shape = B ++ repS i xs → a.bget (I' ++ J) = a.get (I ++ J) := by
      intro a ha
      rw [ND.bget_def, ha, bidx_append h2.length, bidx_valid h2, e']
    have m1 := key lo hB'
    have m2 := key hi' (e ▸ hB')
    have : lo.bget (I' ++ J) ≤ hi'.bget (I' ++ J) := hm.1.trans hm.2
    rwa [m1, m2] at this

namespace TEA
variable {T : TEA K}

/-- common part of the soundness proofs of the operations -/
theorem sound_of_SR {c : Encl K} {z y : ND K} (hzs : z.shape = T.xShape) {U : Mode}
    (hy : ∃ I, ValidIdx y.shape I)
    (h : ∀ I, ValidIdx y.shape I → ∃ W, SR U T.xShape y.shape I c W ∧
      selVal T.xShape z.get c.length W = y.get I) : Encloses c z y ∧ WellFormedEncl c := by
  refine ⟨encloses_of_SR hzs ?_ h, wellFormedEncl_of_SR (U := U) (xs := T.xShape) hy fun I hI => ?_⟩
  · obtain ⟨I, hI⟩ := hy
    obtain ⟨W, hW, -⟩ := h I hI
    exact hW.veu.ve
  · obtain ⟨W, hW, -⟩ := h I hI
    exact ⟨W, hW⟩

theorem Encloses.SR_at {a : Encl K} (ha : WellFormedEncl a) {z y : ND K} (hzs : z.shape = T.xShape)
    (h : Encloses a z y) {R : List ℕ} (hR : ble y.shape R) {I : List ℕ} (hI : ValidIdx R I) :
    ∃ u, SR anyM T.xShape R I a u ∧ selVal T.xShape z.get a.length u = y.bget I := by
  obtain ⟨hV, hi⟩ := h.at ha hR
  obtain ⟨u, hu, e⟩ := hi I hI
  rw [hzs] at hV hu e
  exact ⟨u, SR.of_sel hV.veu hu, e.symm⟩

theorem map2_at {op : K → K → K} {y1 y2 y : ND K} (h : ND.map2 op y1 y2 = .ok y) {I : List ℕ}
    (hI : ValidIdx y.shape I) : y.get I = op (y1.bget I) (y2.bget I) := by
  rw [← (ND.map2_ok h).2 I hI.length.le, ND.bget_valid _ hI]

/-! ### totality of the linear operations -/

theorem addCoeffs_total {xs R : List ℕ} {a b : Encl K} :
    ∀ {d : ℕ}, (∀ i c, a[i]? = some c → VC xs R (d + i) c) →
      (∀ i c, b[i]? = some c → VC xs R (d + i) c) → ∃ c, addCoeffs a b = .ok c := by
  induction a generalizing b with
  | nil => intro d _ _; cases b <;> exact ⟨_, rfl⟩
  | cons x a ih =>
    intro d ha hb
    cases b with
    | nil => exact ⟨_, rfl⟩
    | cons y b =>
      obtain ⟨wx, B, hB, lB⟩ := ha 0 x (by simp)
      obtain ⟨wy, B', hB', lB'⟩ := hb 0 y (by simp)
      obtain ⟨r, hr⟩ := IA.add_lub wx wy (R := R ++ repS d xs)
        (by rw [hB]; exact ble_append lB (ble_refl _) rfl)
        (by rw [hB']; exact ble_append lB' (ble_refl _) rfl)
      obtain ⟨c, hc⟩ := ih (b := b) (d := d + 1)
        (fun i c h => by have := ha (i + 1) c (by simpa using h); rwa [show d + (i + 1) = d + 1 + i by omega] at this)
        (fun i c h => by have := hb (i + 1) c (by simpa using h); rwa [show d + (i + 1) = d + 1 + i by omega] at this)
      exact ⟨r :: c, by simp only [addCoeffs, hr, hc]; rfl⟩

theorem add_total (hT : T.trLo.shape = T.trHi.shape) {z : List ℕ → K} (hz : ZMem T.trustRegion z)
    {R : List ℕ} {a b : Encl K} (ha : VE T.xShape R a) (hb : VE T.xShape R b) :
    ∃ c, T.add a b = .ok c := by
  obtain ⟨s, hs⟩ := addCoeffs_total (d := 0) (fun i c h => by rw [Nat.zero_add]; exact ha i c h)
    (fun i c h => by rw [Nat.zero_add]; exact hb i c h)
  have hV : VE T.xShape R s := by
    intro i c hc
    obtain ⟨-, hg⟩ := addCoeffs_get hs
    obtain ⟨g1, g2, g3⟩ := hg i
    cases hx : a[i]? with
    | none => exact hb i c ((g2 hx) ▸ hc)
    | some x =>
      cases hy : b[i]? with
      | none => exact ha i c ((g3 hy) ▸ hc)
      | some y =>
        obtain ⟨r, hr, e⟩ := g1 x y hx hy
        rw [hc] at hr; cases hr
        obtain ⟨wx, B, hB, lB⟩ := ha i x hx
        obtain ⟨wy, B', hB', lB'⟩ := hb i y hy
        obtain ⟨r1, r2, -, -⟩ := IA.add_ok wx wy e
        rw [hB, hB'] at r2
        obtain ⟨Q, S, q1, q2, q3⟩ := bshape_append_inv rfl r2
        rw [bshape_self] at q2
        cases q2
        exact ⟨r1, Q, q3, ble_lub_of_bshape q1 lB lB'⟩
  obtain ⟨c, hc⟩ := enclose_total (trWF T hT) hz hV T.maxDegree
  exact ⟨c, by unfold add; rw [hs, py_ok_bind]; exact hc⟩

theorem negative_total (hT : T.trLo.shape = T.trHi.shape) {z : List ℕ → K}
    (hz : ZMem T.trustRegion z) {R : List ℕ} {a : Encl K} (ha : VE T.xShape R a) :
    ∃ c, T.negative a = .ok c := by
  refine enclose_total (trWF T hT) hz (R := R) ?_ T.maxDegree
  intro i c hc
  simp only [List.getElem?_map, Option.map_eq_some_iff] at hc
  obtain ⟨x, hx, rfl⟩ := hc
  obtain ⟨xw, B, hB, ux⟩ := ha i x hx
  obtain ⟨n1, n2, -, -⟩ := IA.neg_ok xw
  exact ⟨n1, B, by rw [n2, hB]; rfl, ux⟩

/-! ### C16, C17 -/

section
variable {md : ℕ} {lo hi : ND K} (hinit : TEA.init md lo hi = .ok T) {z : ND K}
  (hz : (Coef.ivl lo hi).Contains z)
include hinit hz

theorem unpack : T.maxDegree = md ∧ T.trLo.shape = T.trHi.shape ∧ ZMem T.trustRegion z.get ∧
    z.shape = T.xShape := by
  obtain ⟨rfl, hT⟩ := shape_of_init hinit
  obtain ⟨h1, h2⟩ := zmem hT hz
  exact ⟨rfl, hT, h1, h2⟩

/-- **C16.** If `y1` lies in `a` at `z` and `y2` in `b` at `z`, `z` in the trust region, then
`add(a, b)` returns a well-formed enclosure with `y1 + y2` in it at `z`.  (`y` has an entry: an
array with an axis of length 0 carries no values.) -/
theorem C16_add {a b : Encl K} (ha : WellFormedEncl a) (hb : WellFormedEncl b) {y1 y2 y : ND K}
    (h1 : Encloses a z y1) (h2 : Encloses b z y2) (hy : ND.map2 (· + ·) y1 y2 = .ok y)
    (hne : ∃ I, ValidIdx y.shape I) :
    ∃ c, T.add a b = .ok c ∧ Encloses c z y ∧ WellFormedEncl c := by
  obtain ⟨-, hT, hzm, hzs⟩ := unpack hinit hz
  obtain ⟨l1, l2⟩ := ND.map2_shape hy
  have va := (h1.at ha l1).1
  have vb := (h2.at hb l2).1
  rw [hzs] at va vb
  obtain ⟨c, hc⟩ := add_total hT hzm va vb
  refine ⟨c, hc, sound_of_SR hzs hne (U := anyM) fun I hI => ?_⟩
  obtain ⟨u, hu, eu⟩ := Encloses.SR_at ha hzs h1 l1 hI
  obtain ⟨v, hv, ev⟩ := Encloses.SR_at hb hzs h2 l2 hI
  obtain ⟨-, W, hW, e⟩ := add_SR hT hzm anyM_cl hI.length.le hu hv hc
  exact ⟨W, hW, by rw [e, eu, ev, map2_at hy hI]⟩

/-- **C17 (negative).** -/
theorem C17_negative {a : Encl K} (ha : WellFormedEncl a) {y : ND K}
    (h1 : Encloses a z y) (hne : ∃ I, ValidIdx y.shape I) :
    ∃ c, T.negative a = .ok c ∧ Encloses c z (y.map (- ·)) ∧ WellFormedEncl c := by
  obtain ⟨-, hT, hzm, hzs⟩ := unpack hinit hz
  have va := (h1.at ha (ble_refl _)).1
  rw [hzs] at va
  obtain ⟨c, hc⟩ := negative_total hT hzm va
  refine ⟨c, hc, sound_of_SR (y := y.map (- ·)) hzs hne (U := anyM) fun I hI => ?_⟩
  obtain ⟨u, hu, eu⟩ := Encloses.SR_at ha hzs h1 (ble_refl _) hI
  obtain ⟨-, W, hW, e⟩ := negative_SR hT hzm anyM_cl hI.length.le hu hc
  exact ⟨W, hW, by rw [e, eu, ND.bget_valid y hI]; rfl⟩

/-- **C17 (subtract).** -/
theorem C17_subtract {a b : Encl K} (ha : WellFormedEncl a) (hb : WellFormedEncl b) {y1 y2 y : ND K}
    (h1 : Encloses a z y1) (h2 : Encloses b z y2) (hy : ND.map2 (· - ·) y1 y2 = .ok y)
    (hne : ∃ I, ValidIdx y.shape I) :
    ∃ c, T.subtract a b = .ok c ∧ Encloses c z y ∧ WellFormedEncl c := by
  obtain ⟨-, hT, hzm, hzs⟩ := unpack hinit hz
  obtain ⟨l1, l2⟩ := ND.map2_shape hy
  have va := (h1.at ha l1).1
  have vb := (h2.at hb l2).1
  rw [hzs] at va vb
  obtain ⟨nb, hnb⟩ := negative_total hT hzm vb
  have vnb : VE T.xShape y.shape nb := by
    obtain ⟨I, hI⟩ := hne
    obtain ⟨v, hv, -⟩ := Encloses.SR_at hb hzs h2 l2 hI
    obtain ⟨-, W, hW, -⟩ := negative_SR hT hzm anyM_cl hI.length.le hv hnb
    exact hW.veu.ve
  obtain ⟨c, hc⟩ := add_total hT hzm va vnb
  have hc' : T.subtract a b = .ok c := by unfold subtract; rw [hnb, py_ok_bind, hc]
  refine ⟨c, hc', sound_of_SR hzs hne (U := anyM) fun I hI => ?_⟩
  obtain ⟨u, hu, eu⟩ := Encloses.SR_at ha hzs h1 l1 hI
  obtain ⟨v, hv, ev⟩ := Encloses.SR_at hb hzs h2 l2 hI
  obtain ⟨-, W, hW, e⟩ := subtract_SR hT hzm anyM_cl hI.length.le hu hv hc'
  exact ⟨W, hW, by rw [e, eu, ev, map2_at hy hI]⟩

/-! ### C18, C19 -/

/-- **C18.** If `multiply(a, b)` returns then it encloses the product (numpy broadcasting between
`y1` and `y2`). -/
theorem C18_multiply {a b c : Encl K} (ha : WellFormedEncl a) (hb : WellFormedEncl b)
    (ha0 : a ≠ []) (hb0 : b ≠ []) {y1 y2 y : ND K}
    (h1 : Encloses a z y1) (h2 : Encloses b z y2) (hy : ND.map2 (· * ·) y1 y2 = .ok y)
    (hne : ∃ I, ValidIdx y.shape I) (hc : T.multiply a b = .ok c) :
    Encloses c z y ∧ WellFormedEncl c := by
  obtain ⟨-, hT, hzm, hzs⟩ := unpack hinit hz
  obtain ⟨l1, l2⟩ := ND.map2_shape hy
  refine sound_of_SR hzs hne (U := anyM) fun I hI => ?_
  obtain ⟨u, hu, eu⟩ := Encloses.SR_at ha hzs h1 l1 hI
  obtain ⟨v, hv, ev⟩ := Encloses.SR_at hb hzs h2 l2 hI
  obtain ⟨-, W, hW, e⟩ := multiply_SR hT hzm anyM_cl hI.length.le anyM_pr ha0 hb0 hu hv hc
  exact ⟨W, hW, by rw [e, eu, ev, map2_at hy hI]⟩

/-- **C19.** If `power(a, p)` returns, `p ≥ 0` an integer, it encloses the `p`-th power. -/
theorem C19_power {a c : Encl K} (ha : WellFormedEncl a) {p : ℕ} {y : ND K}
    (h1 : Encloses a z y) (hne : ∃ I, ValidIdx y.shape I) (hc : T.powerNat a p = .ok c) :
    Encloses c z (y.map (· ^ p)) ∧ WellFormedEncl c := by
  obtain ⟨-, hT, hzm, hzs⟩ := unpack hinit hz
  refine sound_of_SR (y := y.map (· ^ p)) hzs hne (U := anyM) fun I hI => ?_
  obtain ⟨u, hu, eu⟩ := Encloses.SR_at ha hzs h1 (ble_refl _) hI
  obtain ⟨-, W, hW, e, -⟩ := power_SR hT hzm hI.length.le anyM_pw hu hc
  exact ⟨W, hW, by rw [e, eu, ND.bget_valid y hI]; rfl⟩
end
end TEA

/-! ### A concrete instance for C16-C19: a vector variable of shape (2,), an enclosure of degree 2
with an interval leading coefficient, truncation to degree 1 -/

def exLo : ND ℚ := ND.mk' [2] [0, -2]
def exHi : ND ℚ := ND.mk' [2] [1, 1]
/-- an enclosure with batch shape (3,) -/
def exF : Encl ℚ := [.arr (ND.mk' [3] [1, 2, 3]), .ivl (ND.mk' [3, 2] [0, 0, 1, -1, 2, 2])
  (ND.mk' [3, 2] [1, 0, 1, 0, 2, 3])]

example : ∃ T, TEA.init 1 exLo exHi = .ok T ∧ (Coef.ivl exLo exHi).Contains exZ ∧
    WellFormedEncl exE ∧ WellFormedEncl exF ∧ Encloses exE exZ (ND.scalar (7/2)) ∧
    Encloses exF exZ (ND.mk' [3] [5/4, 3, 3/2]) ∧
    (∃ y, ND.map2 (· + ·) (ND.scalar (7/2)) (ND.mk' [3] [5/4, 3, (3/2 : ℚ)]) = .ok y ∧
      ValidIdx y.shape [0] ∧ ∃ c, T.add exE exF = .ok c ∧ c.length = 2 ∧ Encloses c exZ y) ∧
    (∃ y, ND.map2 (· * ·) (ND.scalar (7/2)) (ND.mk' [3] [5/4, 3, (3/2 : ℚ)]) = .ok y ∧
      ValidIdx y.shape [0] ∧ ∃ c, T.multiply exE exF = .ok c ∧ c.length = 2 ∧ Encloses c exZ y) ∧
    (∃ c, T.powerNat exF 2 = .ok c ∧ c.length = 2 ∧ Encloses c exZ (ND.mk' [3] [25/16, 9, 9/4])) := by
  decide +kernel

/-! ### C24 -/

theorem encloseEnclosure_length {E out : Encl K} {Z : Coef K} {d : ℕ}
    (h : encloseEnclosure E Z d = .ok out) : out.length ≤ d + 1 := by
  unfold encloseEnclosure at h
  split_ifs at h with hl
  · cases h; exact hl
  · simp only [py_bind_ok, py_pure] at h
    obtain ⟨c, -, rfl⟩ := h
    simp

namespace TEA
variable (T : TEA K)

theorem setFold_length {pbb : ND K → ND K → ℕ → ℕ → Py (ND K)}
    {l : List ((ℕ × Coef K) × (ℕ × Coef K))} {o c : Encl K}
    (h : l.foldlM (T.bilinearStep pbb) o = .ok c) : c.length = o.length := by
  induction l generalizing o with
  | nil => simp only [List.foldlM_nil, py_pure] at h; rw [h]
  | cons x l ih =>
    simp only [List.foldlM_cons, py_bind_ok] at h
    obtain ⟨o', ho', h⟩ := h
    rw [ih h]
    unfold bilinearStep at ho'
    simp only [py_bind_ok] at ho'
    obtain ⟨y, -, ho'⟩ := ho'
    split at ho'
    · cases ho'
    · simp only [py_bind_ok, py_pure] at ho'
      obtain ⟨r, -, rfl⟩ := ho'
      simp

/-- **C24.** Every enclosure returned by an operation of `TaylorEnclosureArithmetic` has degree at
most `max_degree` (at most `max_degree + 1` coefficients); no hypothesis on the operands. -/
theorem C24_degree_bound (a b c : Encl K) :
    (T.add a b = .ok c → c.length ≤ T.maxDegree + 1) ∧
    (T.subtract a b = .ok c → c.length ≤ T.maxDegree + 1) ∧
    (T.negative a = .ok c → c.length ≤ T.maxDegree + 1) ∧
    (T.multiply a b = .ok c → c.length ≤ T.maxDegree + 1) ∧
    (∀ p, T.powerNat a p = .ok c → c.length ≤ T.maxDegree + 1) ∧
    (∀ pbb, T.arbitraryBilinear a b pbb = .ok c → c.length ≤ T.maxDegree + 1) ∧
    (T.composeEnclosures a b = .ok c → c.length ≤ T.maxDegree + 1) ∧
    (∀ gen tr, T.elementwiseFun gen a tr = .ok c → c.length ≤ T.maxDegree + 1) ∧
    (∀ gen, T.powerOther gen a = .ok c → c.length ≤ T.maxDegree + 1) ∧
    (∀ gen, T.divide gen a b = .ok c → c.length ≤ T.maxDegree + 1) := by
  have hadd : ∀ a b c : Encl K, T.add a b = .ok c → c.length ≤ T.maxDegree + 1 := by
    intro a b c h
    simp only [add, py_bind_ok] at h
    obtain ⟨_, _, h⟩ := h
    exact encloseEnclosure_length h
  have hmul : ∀ a b c : Encl K, T.multiply a b = .ok c → c.length ≤ T.maxDegree + 1 := by
    intro a b c h
    simp only [multiply, py_bind_ok] at h
    obtain ⟨_, _, _, _, _, _, h⟩ := h
    exact encloseEnclosure_length h
  have hcomp : ∀ e arg c : Encl K, T.composeEnclosures e arg = .ok c →
      c.length ≤ T.maxDegree + 1 := by
    intro e arg c h
    unfold composeEnclosures at h
    split_ifs at h with h0
    generalize [Coef.arr (ND.scalar (0 : K))] = o at h
    cases he : Poly.enum e with
    | nil =>
      unfold Poly.enum at he
      have : (e.zipIdx).length = 0 := by simpa using congrArg List.length he
      cases e with
      | nil => simp at h0
      | cons x e => simp at this
    | cons x l =>
      rw [he] at h
      clear he
      have : ∀ (l : List (ℕ × Coef K)) (o c : Encl K), o.length ≤ T.maxDegree + 1 →
          l.foldlM (T.composeStep (.arr (ND.scalar 0) :: arg.drop 1)) o = .ok c →
          c.length ≤ T.maxDegree + 1 := by
        intro l
        induction l with
        | nil => intro o c ho h; simp only [List.foldlM_nil, py_pure] at h; rw [← h]; exact ho
        | cons y l ih =>
          intro o c ho h
          simp only [List.foldlM_cons, py_bind_ok] at h
          obtain ⟨o', ho', h⟩ := h
          simp only [composeStep, py_bind_ok] at ho'
          obtain ⟨t, -, ho'⟩ := ho'
          exact ih o' c (hadd _ _ _ ho') h
      simp only [List.foldlM_cons, py_bind_ok] at h
      obtain ⟨o', ho', h⟩ := h
      simp only [composeStep, py_bind_ok] at ho'
      obtain ⟨t, -, ho'⟩ := ho'
      exact this l o' c (hadd _ _ _ ho') h
  have helem : ∀ gen a tr c, T.elementwiseFun gen a tr = .ok c → c.length ≤ T.maxDegree + 1 := by
    intro gen a tr c h
    unfold elementwiseFun at h
    simp only [py_bind_ok] at h
    obtain ⟨_, _, h⟩ := h
    cases a with
    | nil => cases h
    | cons a0 a =>
      simp only [py_bind_ok] at h
      obtain ⟨_, _, _, _, h⟩ := h
      exact hcomp _ _ _ h
  have hother : ∀ gen a c, T.powerOther gen a = .ok c → c.length ≤ T.maxDegree + 1 := by
    intro gen a c h
    simp only [powerOther, py_bind_ok] at h
    obtain ⟨_, _, h⟩ := h
    exact helem _ _ _ _ h
  refine ⟨hadd a b c, fun h => ?_, fun h => encloseEnclosure_length h, hmul a b c, fun p h => ?_,
    fun pbb h => ?_, hcomp a b c, fun gen tr h => helem gen a tr c h, fun gen h => hother gen a c h,
    fun gen h => ?_⟩
  · simp only [subtract, py_bind_ok] at h
    obtain ⟨_, _, h⟩ := h
    exact hadd _ _ _ h
  · simp only [powerNat, py_bind_ok] at h
    obtain ⟨_, _, h⟩ := h
    cases a with
    | nil => cases h
    | cons a0 a =>
      simp only [py_bind_ok] at h
      obtain ⟨_, _, h⟩ := h
      exact encloseEnclosure_length h
  · unfold arbitraryBilinear at h
    rw [setFold_length T h]; simp
  · simp only [divide, py_bind_ok] at h
    obtain ⟨_, _, h⟩ := h
    exact hmul _ _ _ h

end TEA
end AB
