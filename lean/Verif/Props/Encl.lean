/-
C09, C10, C15-C21, C24: evaluation of Taylor enclosures (/repo/autobound/polynomials.py) and
`TaylorEnclosureArithmetic` (/repo/autobound/enclosure_arithmetic.py).
-/
import Verif.Props.Interval
import Verif.Proofs.EncBilinear
import Verif.Proofs.EncCompose

set_option linter.unusedSectionVars false

namespace AB
variable {K : Type} [Field K] [LinearOrder K] [IsStrictOrderedRing K]
open IA (repS)

/-! ### Helpers -/

theorem inEnc_bidx {xs S : List ℕ} {E : Encl K} (hV : VE xs S E) {z : List ℕ → K} {I : List ℕ}
    (hI : S.length ≤ I.length) {v : K} (h : InEnc xs E z (bidx S I) v) : InEnc xs E z I v := by
  obtain ⟨w, hw, e⟩ := h
  refine ⟨w, fun i => ⟨fun c hc J hJ => ?_, (hw i).2⟩, e⟩
  have := (hw i).1 c hc J hJ
  obtain ⟨hW, B, hB, hle⟩ := hV i c hc
  have hb : bidx S I ++ J = bidx (S ++ repS i xs) (I ++ J) := by
    rw [bidx_append hJ.length, bidx_valid hJ]
  have key : ∀ a : ND K, a.shape = c.shape → a.bget (bidx S I ++ J) = a.bget (I ++ J) := by
    intro a ha
    rw [hb]
    refine ND.bget_bidx a ?_ ?_
    · rw [ha, hB]; exact ble_append hle (ble_refl _) rfl
    · rw [List.length_append, List.length_append, hJ.length]; omega
  unfold Coef.Mem at this ⊢
  rwa [key _ (Coef.lo_shape c), key _ hW.hi_shape] at this

theorem Encloses.at {E : Encl K} (hE : WellFormedEncl E) {z y : ND K} (h : Encloses E z y)
    {R : List ℕ} (hR : ble y.shape R) : VE z.shape R E ∧
      ∀ I, ValidIdx R I → InEnc z.shape E z.get I (y.bget I) := by
  obtain ⟨hV, hi⟩ := (encloses_iff hE).1 h
  refine ⟨hV.mono hR, fun I hI => ?_⟩
  refine inEnc_bidx hV ((ble_length hR).trans hI.length.le) ?_
  exact hi _ (validIdx_bidx hR hI)

theorem VE.get {xs R : List ℕ} {E : Encl K} {U : Mode} {w : List ℕ → ℕ → List ℕ → K}
    (h : ∀ I, ValidIdx R I → SR U xs R I E (w I)) (hR : ∃ I, ValidIdx R I) : VE xs R E := by
  obtain ⟨I, hI⟩ := hR
  exact (h I hI).veu.ve

/-! ### C09 -/

/-- **C09.** At a point `z`, a value `v` lies in `eval_taylor_enclosure(E, z)` at output index `I` iff
there is a choice of one value inside each entry of each coefficient with
`v = sum_i <c_i, z^i>`. -/
theorem C09_eval_iff_choice {E : Encl K} (hE : WellFormedEncl E) {z : ND K} {r : Coef K}
    (h : Poly.evalTaylorEnclosure E (.arr z) = .ok r) {I : List ℕ} (hI : ValidIdx r.shape I) (v : K) :
    r.AtIdx I v ↔ ∃ w, Chooses z.shape E I w ∧ v = polyValue z E.length w := by
  obtain ⟨hW, hV, -, -, -⟩ := eval_ok (Coef.WF_arr _) (zmem_self z) hE.wfe h
  rw [Coef.atIdx_iff hW hI, ← inEnc_iff hE.wfe]
  constructor
  · intro hv
    refine eval_conv hE.wfe h hI.length.le ?_ hv
    intro j c hj J hJ
    obtain ⟨-, B, hB, hBle⟩ := hV j c hj
    exact (hE c (List.mem_of_getElem? hj)).le (R := r.shape ++ repS j z.shape)
      (by rw [hB]; exact ble_append hBle (ble_refl _) rfl) (validIdx_append hI hJ)
  · exact fun hv => eval_mem (Coef.WF_arr _) hE.wfe h (zmem_self z) hI.length.le hv

/-- C09: a degree-2 enclosure in a vector variable `x` of shape (2,), with an interval leading
coefficient; it evaluates. -/
def exE : Encl ℚ := [.arr (ND.scalar 1), .arr (ND.mk' [2] [2, -1]),
  .ivl (ND.mk' [2, 2] [0, -1, 0, 1]) (ND.mk' [2, 2] [1, 1, 0, 3])]
def exZ : ND ℚ := ND.mk' [2] [1/2, -1]

example : WellFormedEncl exE ∧ ∃ r, Poly.evalTaylorEnclosure exE (.arr exZ) = .ok r ∧
    ValidIdx r.shape [] ∧ r.AtIdx [] (7/2) ∧ ¬ r.AtIdx [] (2) := by decide +kernel

/-! ### C10 -/

/-- **C10.** If `z ∈ Z` and `y` lies in `eval_taylor_enclosure(E, z)`, then `y` lies in
`eval_taylor_enclosure(E, Z)`. -/
theorem C10_eval_interval {E : Encl K} (hE : WellFormedEncl E) {Z : Coef K} (hZ : Z.SameShape)
    {z y : ND K} (hz : Z.Contains z) (h : Encloses E z y) :
    ∃ r, Poly.evalTaylorEnclosure E Z = .ok r ∧ r.Covers y := by
  have wZ := Coef.sameShape_iff.1 hZ
  obtain ⟨hV, hi⟩ := (encloses_iff hE).1 h
  have hzm := zmem_contains wZ hz
  rw [hz.1] at hV hi
  obtain ⟨r, hr, hle⟩ := eval_total wZ hzm hV
  have hW := (eval_ok wZ hzm hE.wfe hr).1
  refine ⟨r, hr, (Coef.covers_iff hW).2 ⟨hle, fun I hI => ?_⟩⟩
  exact eval_mem wZ hE.wfe hr hzm ((ble_length hle).trans hI.length.le) (hi I hI)

theorem elemEval_short {E : Encl K} (h : E.length ≤ 1) (Z Z' : Coef K) :
    Poly.evalElementwiseTaylorEnclosure E Z = Poly.evalElementwiseTaylorEnclosure E Z' := by
  match E, h with
  | [], _ => rfl
  | [c], _ => rfl

/-- the selection behind `ElemEncloses` -/
theorem ElemEncloses.at {e : Encl K} (he : WellFormedEncl e) {δ y : ND K} (h : ElemEncloses e δ y) :
    (∀ c ∈ e, ble c.shape y.shape) ∧ (2 ≤ e.length → ble δ.shape y.shape) ∧
    ∀ I, ValidIdx y.shape I → ∃ k : ℕ → K, (∀ (p : ℕ) (c : Coef K), e[p]? = some c → c.Mem I (k p)) ∧
      y.get I = ∑ p ∈ Finset.range e.length, k p * δ.bget I ^ p := by
  obtain ⟨r, hr, hc⟩ := h
  obtain ⟨hW, h2, h3, -, -⟩ := elemEval_ok he.wfe (Coef.WF_arr _) hr
  obtain ⟨hle, hm⟩ := (Coef.covers_iff hW).1 hc
  refine ⟨fun c hc => ble_trans (h2 c hc) hle, fun h => ble_trans (h3 h) hle, fun I hI => ?_⟩
  have hord : ∀ c ∈ e, c.lo.bget I ≤ c.hi.bget I := fun c hc =>
    (he c hc).le (ble_trans (h2 c hc) hle) hI
  by_cases hl : 2 ≤ e.length
  · exact elemEval_conv he.wfe hr ((ble_length hle).trans hI.length.le)
      ((ble_length (ble_trans (h3 hl) hle)).trans hI.length.le) hord (hm I hI)
  · rw [elemEval_short (by omega) _ (.arr (ND.scalar 0))] at hr
    obtain ⟨k, k1, k2⟩ := elemEval_conv he.wfe hr ((ble_length hle).trans hI.length.le)
      (Nat.zero_le _) hord (hm I hI)
    refine ⟨k, k1, k2.trans ?_⟩
    apply Finset.sum_congr rfl
    intro p hp
    have : p = 0 := by have := Finset.mem_range.1 hp; omega
    subst this; simp

/-- **C10 (element-wise).** -/
theorem C10_eval_elementwise_interval {e : Encl K} (he : WellFormedEncl e) {Z : Coef K}
    (hZ : Z.SameShape) {δ y : ND K} (hz : Z.Contains δ) (h : ElemEncloses e δ y) :
    ∃ r, Poly.evalElementwiseTaylorEnclosure e Z = .ok r ∧ r.Covers y := by
  have wZ := Coef.sameShape_iff.1 hZ
  by_cases hl : 2 ≤ e.length
  · obtain ⟨h1, h2, h3⟩ := h.at he
    have hZR : ble Z.shape y.shape := hz.1 ▸ h2 hl
    obtain ⟨r, hr⟩ := elemEval_total he.wfe wZ h1 hZR
    obtain ⟨hW, -, -, q4, q5⟩ := elemEval_ok he.wfe wZ hr
    have hle := q4 _ h1 hZR
    refine ⟨r, hr, (Coef.covers_iff hW).2 ⟨hle, fun I hI => ?_⟩⟩
    obtain ⟨k, k1, k2⟩ := h3 I hI
    rw [k2]
    exact q5 I ((ble_length hle).trans hI.length.le) ((ble_length hZR).trans hI.length.le) _
      (hz.memb hZ hZR hI) k k1
  · obtain ⟨r, hr, hc⟩ := h
    exact ⟨r, by rw [elemEval_short (by omega) _ (.arr δ)]; exact hr, hc⟩

example : WellFormedEncl exE ∧ (Coef.ivl (ND.mk' [2] [0, -2]) (ND.mk' [2] [1, (1 : ℚ)])).SameShape ∧
    (Coef.ivl (ND.mk' [2] [0, -2]) (ND.mk' [2] [1, (1 : ℚ)])).Contains exZ ∧
    Encloses exE exZ (ND.scalar (7/2)) := by decide +kernel

/-! ### C15 -/

theorem enclose_total {Z : Coef K} (hZ : Z.WF) {z : List ℕ → K} (hz : ZMem Z z) {R : List ℕ}
    {E : Encl K} (hE : VE Z.shape R E) (d : ℕ) : ∃ out, encloseEnclosure E Z d = .ok out := by
  unfold encloseEnclosure
  by_cases hl : E.length ≤ d + 1
  · rw [if_pos hl]; exact ⟨_, rfl⟩
  · rw [if_neg hl]
    have hV : VE Z.shape (R ++ repS d Z.shape) (E.drop d) := by
      intro i c hc
      rw [List.getElem?_drop] at hc
      obtain ⟨h1, B, h2, h3⟩ := hE _ c hc
      exact ⟨h1, B ++ repS d Z.shape, by rw [h2, IA.repS_add, List.append_assoc],
        ble_append h3 (ble_refl _) rfl⟩
    obtain ⟨r, hr, -⟩ := eval_total hZ hz hV
    exact ⟨_, by rw [hr, py_ok_bind]; rfl⟩

/-- **C15.** Truncation returns, is the identity when the degree is small enough, and preserves
membership for `z` in the trust region. -/
theorem C15_enclose_enclosure {E : Encl K} (hE : WellFormedEncl E) {Z : Coef K} (hZ : Z.SameShape)
    (d : ℕ) {z y : ND K} (hz : Z.Contains z) (h : Encloses E z y) :
    ∃ out, encloseEnclosure E Z d = .ok out ∧ Encloses out z y ∧ out.length ≤ d + 1 ∧
      (E.length ≤ d + 1 → out = E) := by
  have wZ := Coef.sameShape_iff.1 hZ
  have hzm := zmem_contains wZ hz
  obtain ⟨hV, hi⟩ := (encloses_iff hE).1 h
  rw [hz.1] at hV hi
  obtain ⟨out, ho⟩ := enclose_total wZ hzm hV d
  obtain ⟨t1, t2, t3, -, t5⟩ := trunc_sel wZ hzm anyM_cl hV.veu ho
  refine ⟨out, ho, encloses_of (by rw [hz.1]; exact t1.ve) fun I hI => ?_, by omega, t3⟩
  obtain ⟨w, hw, e⟩ := hi I hI
  obtain ⟨W, hW, e', -⟩ := t5 I hI.length.le w hw
  rw [hz.1]
  exact ⟨W, hW, by rw [e', e]⟩

example : WellFormedEncl exE ∧ (Coef.ivl (ND.mk' [2] [0, -2]) (ND.mk' [2] [1, (1 : ℚ)])).SameShape ∧
    (Coef.ivl (ND.mk' [2] [0, -2]) (ND.mk' [2] [1, (1 : ℚ)])).Contains exZ ∧
    Encloses exE exZ (ND.scalar (7/2)) ∧
    (∃ out, encloseEnclosure exE (Coef.ivl (ND.mk' [2] [0, -2]) (ND.mk' [2] [1, (1 : ℚ)])) 1 = .ok out ∧
      out.length = 2 ∧ Encloses out exZ (ND.scalar (7/2))) := by decide +kernel

/-! ### C16, C17, C18, C19 -/

namespace TEA
variable {T : TEA K}

theorem shape_of_init {md : ℕ} {lo hi : ND K} (h : TEA.init md lo hi = .ok T) :
    T = ⟨md, lo, hi⟩ ∧ T.trLo.shape = T.trHi.shape := by
  unfold TEA.init at h
  split_ifs at h with hs
  cases h
  exact ⟨rfl, not_not.1 hs⟩

theorem zmem (hT : T.trLo.shape = T.trHi.shape) {z : ND K} (hz : T.trustRegion.Contains z) :
    ZMem T.trustRegion z.get ∧ z.shape = T.xShape := ⟨zmem_contains (trWF T hT) hz, hz.1⟩

/-- common part of the soundness proofs of the operations -/
theorem encloses_of_SR {c : Encl K} {z y : ND K} (hzs : z.shape = T.xShape) {U : Mode}
    (hV : VE T.xShape y.shape c)
    (h : ∀ I, ValidIdx y.shape I → ∃ W, SR U T.xShape y.shape I c W ∧
      selVal T.xShape z.get c.length W = y.get I) : Encloses c z y := by
  refine encloses_of (by rw [hzs]; exact hV) fun I hI => ?_
  obtain ⟨W, hW, e⟩ := h I hI
  exact ⟨W, by rw [hzs]; exact hW.sel, by rw [hzs]; exact e.symm⟩

theorem ve_of_SR {R : List ℕ} {c : Encl K} {U : Mode} {xs I : List ℕ} {W : ℕ → List ℕ → K}
    (h : SR U xs R I c W) : VE xs R c := h.veu.ve

end TEA

end AB
