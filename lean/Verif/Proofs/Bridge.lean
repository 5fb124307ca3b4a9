import Verif.Spec.Enclosure
import Verif.Proofs.EvalElem
import Verif.Proofs.EncOps

set_option linter.unusedSectionVars false

/-! Bridges between the specification vocabulary and the proof vocabulary. -/

namespace AB
variable {K : Type}
open IA (repS)

theorem groups_eq (k i : ℕ) (J : List ℕ) : groups k i J = chunks k i J := by
  induction i generalizing J with
  | zero => rfl
  | succ i ih => simp [groups, chunks, ih]

theorem ble_iff_bshape {S R : List ℕ} : bshape S R = some R ↔ ble S R :=
  ⟨fun h => (bshape_le h).1, bshape_eq_of_ble⟩

section
variable [Field K] [LinearOrder K] [IsStrictOrderedRing K]

theorem Coef.atIdx_bidx {c : Coef K} (hc : c.WF) {I : List ℕ} {v : K} :
    c.AtIdx (bidx c.shape I) v ↔ c.Mem I v := by
  cases c with
  | arr a => rw [Coef.mem_arr]; rfl
  | ivl l h =>
    have e : l.shape = h.shape := hc
    show l.get (bidx l.shape I) ≤ v ∧ v ≤ h.get (bidx l.shape I) ↔ _
    rw [show h.get (bidx l.shape I) = h.bget I by rw [ND.bget_def, e]]
    rfl

theorem Coef.covers_iff {c : Coef K} (hc : c.WF) {y : ND K} :
    c.Covers y ↔ ble c.shape y.shape ∧ ∀ I, ValidIdx y.shape I → c.Mem I (y.get I) := by
  unfold Coef.Covers
  rw [ble_iff_bshape]
  constructor
  · exact fun h => ⟨h.1, fun I hI => (Coef.atIdx_bidx hc).1 (h.2 I hI)⟩
  · exact fun h => ⟨h.1, fun I hI => (Coef.atIdx_bidx hc).2 (h.2 I hI)⟩

theorem Coef.Contains.covers {c : Coef K} (hc : c.WF) {y : ND K} (h : c.Contains y) : c.Covers y := by
  rw [Coef.covers_iff hc]
  exact ⟨h.1 ▸ ble_refl _, fun I hI => ((Coef.contains_iff hc).1 h).2 I (h.1 ▸ hI)⟩

theorem Coef.contains_of_covers {c : Coef K} (hc : c.WF) {y : ND K} (h : c.Covers y)
    (hs : y.shape = c.shape) : c.Contains y := by
  rw [Coef.contains_iff hc]
  exact ⟨hs, fun I hI => ((Coef.covers_iff hc).1 h).2 I (hs ▸ hI)⟩

theorem Coef.WellFormed.wf {c : Coef K} (h : c.WellFormed) : c.WF := Coef.sameShape_iff.1 h.1

theorem Coef.WellFormed.le {c : Coef K} (h : c.WellFormed) {R I : List ℕ} (hR : ble c.shape R)
    (hI : ValidIdx R I) : c.lo.bget I ≤ c.hi.bget I := by
  cases c with
  | arr a => exact le_rfl
  | ivl l u =>
    have e : l.shape = u.shape := h.1
    have := h.2 (bidx l.shape I) (validIdx_bidx hR hI)
    show l.get (bidx l.shape I) ≤ u.get (bidx u.shape I)
    rw [← e]; exact this

theorem WellFormedEncl.wfe {E : Encl K} (h : WellFormedEncl E) : WFE E := fun c hc => (h c hc).wf

theorem zmem_self (z : ND K) : ZMem (.arr z) z.get := by
  intro J hJ; rw [Coef.mem_arr]; exact (ND.bget_valid _ hJ).symm

theorem zmem_contains {Z : Coef K} (hZ : Z.WF) {z : ND K} (h : Z.Contains z) : ZMem Z z.get :=
  fun J hJ => ((Coef.contains_iff hZ).1 h).2 J hJ

theorem encloses_of {E : Encl K} {z y : ND K} (hV : VE z.shape y.shape E)
    (h : ∀ I, ValidIdx y.shape I → InEnc z.shape E z.get I (y.get I)) : Encloses E z y := by
  obtain ⟨r, hr, hle⟩ := eval_total (Z := .arr z) (Coef.WF_arr _) (zmem_self z) hV
  have hW := (eval_ok (Coef.WF_arr _) (zmem_self z) hV.wfe hr).1
  refine ⟨r, hr, (Coef.covers_iff hW).2 ⟨hle, fun I hI => ?_⟩⟩
  exact eval_mem (Coef.WF_arr _) hV.wfe hr (zmem_self z)
    ((ble_length hle).trans hI.length.le) (h I hI)

theorem VE.mono {xs R R' : List ℕ} {E : Encl K} (h : VE xs R E) (hR : ble R R') : VE xs R' E :=
  fun i c hc => ⟨(h i c hc).1, by
    obtain ⟨-, B, hB, hle⟩ := h i c hc
    exact ⟨B, hB, ble_trans hle hR⟩⟩

theorem encloses_iff {E : Encl K} (hE : WellFormedEncl E) {z y : ND K} :
    Encloses E z y ↔ VE z.shape y.shape E ∧
      ∀ I, ValidIdx y.shape I → InEnc z.shape E z.get I (y.get I) := by
  constructor
  · rintro ⟨r, hr, hc⟩
    obtain ⟨hW, hV, -, -, -⟩ := eval_ok (Coef.WF_arr _) (zmem_self z) hE.wfe hr
    obtain ⟨hle, hm⟩ := (Coef.covers_iff hW).1 hc
    have hV' : VE z.shape y.shape E := VE.mono hV hle
    refine ⟨hV', fun I hI => ?_⟩
    refine eval_conv hE.wfe hr ((ble_length hle).trans hI.length.le) ?_ (hm I hI)
    intro j c hj J hJ
    obtain ⟨-, B, hB, hBle⟩ := hV' j c hj
    exact (hE c (List.mem_of_getElem? hj)).le (R := y.shape ++ repS j z.shape)
      (by rw [hB]; exact ble_append hBle (ble_refl _) rfl) (validIdx_append hI hJ)
  · rintro ⟨hV, h⟩
    exact encloses_of hV h

theorem polyValue_eq (z : ND K) (n : ℕ) (w : ℕ → List ℕ → K) :
    polyValue z n w = selVal z.shape z.get n w := by
  induction n with
  | zero => rfl
  | succ n ih =>
    have e : polyValue z (n + 1) w = polyValue z n w + pair z.shape z.get n (w n) := by
      unfold polyValue
      rw [List.range_succ, List.map_append, List.sum_append]
      simp [monomialAt, groups_eq, pair, zp, IA.repS]
    rw [e, ih]
    unfold selVal
    rw [Finset.sum_range_succ]

theorem inEnc_iff {z : ND K} {E : Encl K} (hE : WFE E) {I : List ℕ} {v : K} :
    InEnc z.shape E z.get I v ↔ ∃ w, Chooses z.shape E I w ∧ v = polyValue z E.length w := by
  constructor
  · rintro ⟨w, hw, rfl⟩
    refine ⟨w, fun i c hc J hJ => ?_, (polyValue_eq _ _ _).symm⟩
    exact (Coef.atIdx_bidx (hE c (List.mem_of_getElem? hc))).2 ((hw i).1 c hc J hJ)
  · rintro ⟨w, hw, rfl⟩
    refine ⟨fun i J => if i < E.length then w i J else 0, fun i => ⟨fun c hc J hJ => ?_, ?_⟩, ?_⟩
    · have := (List.getElem?_eq_some_iff.1 hc).1
      simp only [if_pos this]
      exact (Coef.atIdx_bidx (hE c (List.mem_of_getElem? hc))).1 (hw i c hc J hJ)
    · intro hn J
      have := List.getElem?_eq_none_iff.1 hn
      show (if i < E.length then _ else _) = (0 : K)
      rw [if_neg (by omega)]
    · rw [polyValue_eq]
      unfold selVal
      apply Finset.sum_congr rfl
      intro i hi
      apply pair_congr
      intro J _
      simp only [if_pos (Finset.mem_range.1 hi)]

end
end AB
