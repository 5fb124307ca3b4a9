import Verif.Proofs.EncArith

set_option linter.unusedSectionVars false

namespace AB
variable {K : Type}

open IA (repS repS_succ repS_succ' repS_zero repS_length repS_add repS_one)

section
variable [Field K] [LinearOrder K] [IsStrictOrderedRing K]

/-- `w` is a selection of the legal enclosure `E` -/
def SR (U : Mode) (xs R I : List ℕ) (E : Encl K) (w : ℕ → List ℕ → K) : Prop :=
  (∀ i c, E[i]? = some c → SRel U xs R I i c (w i)) ∧ ∀ i, E[i]? = none → w i = 0

theorem SR.of_sel {U : Mode} {xs R I : List ℕ} {E : Encl K} {w : ℕ → List ℕ → K}
    (hE : VEU U xs R E) (h : Sel xs E I w) : SR U xs R I E w :=
  ⟨fun i c hc => ⟨hE i c hc, (h i).1 c hc⟩, fun i hi => funext fun J => (h i).2 hi J⟩

theorem SR.veu {U : Mode} {xs R I : List ℕ} {E : Encl K} {w : ℕ → List ℕ → K}
    (h : SR U xs R I E w) : VEU U xs R E := fun i c hc => (h.1 i c hc).1

theorem SR.sel {U : Mode} {xs R I : List ℕ} {E : Encl K} {w : ℕ → List ℕ → K}
    (h : SR U xs R I E w) : Sel xs E I w :=
  fun i => ⟨fun c hc => (h.1 i c hc).2, fun hi J => by rw [h.2 i hi]; rfl⟩

theorem selVal_eq_val (xs : List ℕ) (z : List ℕ → K) (n : ℕ) (w : ℕ → List ℕ → K) :
    selVal xs z n w = ∑ i ∈ Finset.range n, (selG xs z).val i (w i) := rfl

theorem SR.extend {U : Mode} {xs R I : List ℕ} {E : Encl K} {w : ℕ → List ℕ → K}
    (h : SR U xs R I E w) (z : List ℕ → K) {n : ℕ} (hn : E.length ≤ n) :
    selVal xs z n w = selVal xs z E.length w := selVal_extend h.sel z hn

theorem selVal_add (xs : List ℕ) (z : List ℕ → K) (n : ℕ) (w w' : ℕ → List ℕ → K) :
    selVal xs z n (fun i => w i + w' i) = selVal xs z n w + selVal xs z n w' := by
  simp only [selVal_eq_val, map_add, Finset.sum_add_distrib]

/-- truncation, in terms of `SR` -/
theorem trunc_SR {Z : Coef K} (hZ : Z.WF) {z : List ℕ → K} (hz : ZMem Z z) {U : Mode}
    (hU : U.Cl) {R I : List ℕ} (hI : R.length ≤ I.length) {E out : Encl K} {md : ℕ} {w : ℕ → List ℕ → K}
    (hw : SR U Z.shape R I E w)
    (h : encloseEnclosure E Z md = .ok out) :
    out.length = min E.length (md + 1) ∧ ∃ W, SR U Z.shape R I out W ∧
      selVal Z.shape z out.length W = selVal Z.shape z E.length w ∧ ∀ i < md, W i = w i := by
  obtain ⟨h1, h2, -, -, h5⟩ := trunc_sel hZ hz hU hw.veu h
  obtain ⟨W, hW, e, hlt⟩ := h5 I hI w hw.sel
  exact ⟨h2, W, SR.of_sel h1 hW, e, hlt⟩

/-! ### `add` -/

theorem addCoeffs_get {a b c : Encl K} (h : TEA.addCoeffs a b = .ok c) :
    c.length = max a.length b.length ∧ ∀ i : ℕ,
      (∀ x y : Coef K, a[i]? = some x → b[i]? = some y → ∃ r, c[i]? = some r ∧ IA.add x y = .ok r) ∧
      (a[i]? = none → c[i]? = b[i]?) ∧ (b[i]? = none → c[i]? = a[i]?) := by
  induction a generalizing b c with
  | nil =>
    cases b with
    | nil => simp [TEA.addCoeffs] at h; subst h; simp
    | cons y b => simp [TEA.addCoeffs] at h; subst h; simp
  | cons x a ih =>
    cases b with
    | nil => simp [TEA.addCoeffs] at h; subst h; simp
    | cons y b =>
      simp only [TEA.addCoeffs, py_bind_ok, py_pure] at h
      obtain ⟨r, hr, cs, hcs, rfl⟩ := h
      obtain ⟨h1, h2⟩ := ih hcs
      refine ⟨by simp [h1], ?_⟩
      intro i
      cases i with
      | zero => simp [hr]
      | succ i => simpa using h2 i

theorem addCoeffs_SR {U : Mode} {xs R I : List ℕ} {a b c : Encl K}
    {u v : ℕ → List ℕ → K}
    (h2 : ∀ i x y r, a[i]? = some x → b[i]? = some y → IA.add x y = .ok r →
      SRel U xs R I i r (u i + v i))
    (ha : ∀ i x, a[i]? = some x → b[i]? = none → SRel U xs R I i x (u i))
    (hb : ∀ i y, a[i]? = none → b[i]? = some y → SRel U xs R I i y (v i))
    (hu0 : ∀ i, a[i]? = none → u i = 0) (hv0 : ∀ i, b[i]? = none → v i = 0)
    (h : TEA.addCoeffs a b = .ok c) : SR U xs R I c (fun i => u i + v i) := by
  obtain ⟨-, hg⟩ := addCoeffs_get h
  constructor
  · intro i r hr
    show SRel U xs R I i r (u i + v i)
    cases ha' : a[i]? with
    | none =>
      rw [(hg i).2.1 ha'] at hr
      have := hb i r ha' hr
      rwa [hu0 i ha', zero_add]
    | some x =>
      cases hb' : b[i]? with
      | none =>
        rw [(hg i).2.2 hb'] at hr
        rw [hv0 i hb', add_zero]; exact ha i r hr hb'
      | some y =>
        obtain ⟨r', hr', hadd⟩ := (hg i).1 x y ha' hb'
        rw [hr] at hr'; cases hr'
        exact h2 i x y r ha' hb' hadd
  · intro i hi
    show u i + v i = 0
    cases ha : a[i]? with
    | none =>
      rw [(hg i).2.1 ha] at hi
      rw [hu0 i ha, hv0 i hi]; simp
    | some x =>
      cases hb : b[i]? with
      | none => rw [(hg i).2.2 hb, ha] at hi; cases hi
      | some y =>
        obtain ⟨r', hr', _⟩ := (hg i).1 x y ha hb
        rw [hi] at hr'; cases hr'

namespace TEA
variable {T : TEA K} (hT : T.trLo.shape = T.trHi.shape) {z : List ℕ → K}
  (hz : ZMem T.trustRegion z) {U : Mode} (hU : U.Cl) {R I : List ℕ} (hI : R.length ≤ I.length)

theorem trShape (T : TEA K) : T.trustRegion.shape = T.xShape := rfl
theorem trWF (T : TEA K) (hT : T.trLo.shape = T.trHi.shape) : T.trustRegion.WF := hT

include hT hz hU hI

theorem truncate_SR {E out : Encl K} {w : ℕ → List ℕ → K} (hw : SR U T.xShape R I E w)
    (h : T.truncateIfNecessary E = .ok out) :
    out.length = min E.length (T.maxDegree + 1) ∧ ∃ W, SR U T.xShape R I out W ∧
      selVal T.xShape z out.length W = selVal T.xShape z E.length w ∧
      ∀ i < T.maxDegree, W i = w i :=
  trunc_SR (trWF T hT) hz hU hI hw h

/-- most general form of addition -/
theorem add_SRg {a b c : Encl K} {u v : ℕ → List ℕ → K}
    (h2 : ∀ i x y r, a[i]? = some x → b[i]? = some y → IA.add x y = .ok r →
      SRel U T.xShape R I i r (u i + v i))
    (ha : ∀ i x, a[i]? = some x → b[i]? = none → SRel U T.xShape R I i x (u i))
    (hb : ∀ i y, a[i]? = none → b[i]? = some y → SRel U T.xShape R I i y (v i))
    (hu0 : ∀ i, a[i]? = none → u i = 0) (hv0 : ∀ i, b[i]? = none → v i = 0)
    (h : T.add a b = .ok c) :
    c.length = min (max a.length b.length) (T.maxDegree + 1) ∧ ∃ W, SR U T.xShape R I c W ∧
      selVal T.xShape z c.length W = selVal T.xShape z a.length u + selVal T.xShape z b.length v := by
  simp only [add, py_bind_ok] at h
  obtain ⟨s, hs, h⟩ := h
  have hS := addCoeffs_SR h2 ha hb hu0 hv0 hs
  obtain ⟨l, W, hW, e, -⟩ := truncate_SR hT hz hU hI hS h
  have hsl := (addCoeffs_get hs).1
  rw [hsl] at l
  refine ⟨l, W, hW, ?_⟩
  rw [e, selVal_add]
  congr 1
  · unfold selVal
    symm
    apply Finset.sum_subset
    · intro i; simp only [Finset.mem_range]; omega
    · intro i _ hi
      rw [hu0 i (List.getElem?_eq_none (by simpa using hi))]
      exact pair_zero _ _ _
  · unfold selVal
    symm
    apply Finset.sum_subset
    · intro i; simp only [Finset.mem_range]; omega
    · intro i _ hi
      rw [hv0 i (List.getElem?_eq_none (by simpa using hi))]
      exact pair_zero _ _ _

/-- general form of addition, used by `add` and by `compose` -/
theorem add_SR0 {a b c : Encl K} {u v : ℕ → List ℕ → K} (hu : SR U T.xShape R I a u)
    (hv : ∀ i y, b[i]? = some y → SRel0 U T.xShape R I i y (v i))
    (hv0 : ∀ i, b[i]? = none → v i = 0)
    (hv' : ∀ i y, a[i]? = none → b[i]? = some y → SRel U T.xShape R I i y (v i))
    (h : T.add a b = .ok c) :
    c.length = min (max a.length b.length) (T.maxDegree + 1) ∧ ∃ W, SR U T.xShape R I c W ∧
      selVal T.xShape z c.length W = selVal T.xShape z a.length u + selVal T.xShape z b.length v :=
  add_SRg hT hz hU hI (fun i x y r hx hy hr => add0'_rel hU hI (hu.1 i x hx) (hv i y hy) hr)
    (fun i x hx _ => hu.1 i x hx) hv' hu.2 hv0 h

theorem add_SR {a b c : Encl K} {u v : ℕ → List ℕ → K} (hu : SR U T.xShape R I a u)
    (hv : SR U T.xShape R I b v) (h : T.add a b = .ok c) :
    c.length = min (max a.length b.length) (T.maxDegree + 1) ∧ ∃ W, SR U T.xShape R I c W ∧
      selVal T.xShape z c.length W = selVal T.xShape z a.length u + selVal T.xShape z b.length v :=
  add_SR0 hT hz hU hI hu (fun i y hy => Or.inl (hv.1 i y hy)) hv.2 (fun i y _ hy => hv.1 i y hy) h

theorem negative_SR {a c : Encl K} {u : ℕ → List ℕ → K} (hu : SR U T.xShape R I a u)
    (h : T.negative a = .ok c) :
    c.length = min a.length (T.maxDegree + 1) ∧ ∃ W, SR U T.xShape R I c W ∧
      selVal T.xShape z c.length W = - selVal T.xShape z a.length u := by
  unfold negative at h
  have hS : SR U T.xShape R I (a.map IA.negative) (fun i J => - u i J) := by
    constructor
    · intro i c hc
      simp only [List.getElem?_map, Option.map_eq_some_iff] at hc
      obtain ⟨x, hx, rfl⟩ := hc
      obtain ⟨⟨xw, B, hB, ux⟩, mx⟩ := hu.1 i x hx
      obtain ⟨n1, n2, -, n4⟩ := IA.neg_ok xw
      refine ⟨⟨n1, B, by rw [n2, hB], ux⟩, fun J hJ => ?_⟩
      have := mx J hJ
      unfold Coef.Mem
      rw [(n4 _).1, (n4 _).2]
      exact ⟨neg_le_neg this.2, neg_le_neg this.1⟩
    · intro i hi
      rw [List.getElem?_map, Option.map_eq_none_iff] at hi
      funext J; show - u i J = 0; rw [hu.2 i hi]; simp
  obtain ⟨l, W, hW, e, -⟩ := truncate_SR hT hz hU hI hS h
  refine ⟨by simpa using l, W, hW, ?_⟩
  rw [e, List.length_map]
  simp only [selVal, pair_neg, Finset.sum_neg_distrib]

theorem subtract_SR {a b c : Encl K} {u v : ℕ → List ℕ → K} (hu : SR U T.xShape R I a u)
    (hv : SR U T.xShape R I b v) (h : T.subtract a b = .ok c) :
    c.length ≤ T.maxDegree + 1 ∧ ∃ W, SR U T.xShape R I c W ∧
      selVal T.xShape z c.length W = selVal T.xShape z a.length u - selVal T.xShape z b.length v := by
  simp only [subtract, py_bind_ok] at h
  obtain ⟨nb, hnb, h⟩ := h
  obtain ⟨-, W1, hW1, e1⟩ := negative_SR hT hz hU hI hv hnb
  obtain ⟨l, W, hW, e⟩ := add_SR hT hz hU hI hu hW1 h
  exact ⟨by omega, W, hW, by rw [e, e1]; ring⟩

/-! ### `multiply`, `power` -/

theorem multiply_SR {UA UB : Mode} (hP : Mode.Pr UA UB U) {a b c : Encl K} (ha : a ≠ [])
    (hb : b ≠ []) {u v : ℕ → List ℕ → K}
    (hu : SR UA T.xShape R I a u) (hv : SR UB T.xShape R I b v) (h : T.multiply a b = .ok c) :
    c.length = min (a.length + b.length - 1) (T.maxDegree + 1) ∧ ∃ W, SR U T.xShape R I c W ∧
      selVal T.xShape z c.length W = selVal T.xShape z a.length u * selVal T.xShape z b.length v := by
  simp only [multiply, py_bind_ok] at h
  obtain ⟨-, -, -, -, p, hp, h⟩ := h
  obtain ⟨l1, w, w1, w2, w3⟩ := Poly.arbitraryBilinear_rel (sel_laws hU hP T.xShape R I z hI) ha hb
    hu.1 hv.1 hp
  obtain ⟨l, W, hW, e, -⟩ := truncate_SR hT hz hU hI (w := w) ⟨w1, w2⟩ h
  rw [l1] at l
  exact ⟨l, W, hW, by rw [e]; exact w3⟩

omit hU in
theorem power_SR {UP : Mode} (hW : Mode.Pw U UP) {a c : Encl K} {p : ℕ} {u : ℕ → List ℕ → K} (hu : SR U T.xShape R I a u)
    (h : T.powerNat a p = .ok c) :
    c.length = min (1 + (a.length - 1) * p) (T.maxDegree + 1) ∧ ∃ W, SR U T.xShape R I c W ∧
      selVal T.xShape z c.length W = selVal T.xShape z a.length u ^ p ∧
      (u 0 = 0 → ∀ i < p, i < T.maxDegree → W i = 0) := by
  simp only [powerNat, py_bind_ok] at h
  obtain ⟨-, -, h⟩ := h
  cases a with
  | nil => cases h
  | cons a0 a =>
    simp only [py_bind_ok] at h
    obtain ⟨r, hr, h⟩ := h
    have h0 := hu.1 0 a0 (by simp)
    have hone : Uni U R 0 (IA.firstEndpoint a0).onesLike.shape := by
      obtain ⟨⟨xw, B, hB, ux⟩, mx⟩ := h0
      have : (IA.firstEndpoint a0).onesLike.shape = B := by
        have h1 : (IA.firstEndpoint a0).shape = a0.shape := by cases a0 <;> rfl
        simpa [h1] using hB
      rw [this]; exact ux
    obtain ⟨l1, w, w1, w2, w3, w4⟩ := Poly.integerPower_rel (sel_laws hW.cl hW.pr T.xShape R I z hI)
      (sel_powLaws hW.nil hW.pow T.xShape R I z hI hone (by simp)) (by simp) hu.1 hr
    obtain ⟨l, W, hW', e, e'⟩ := truncate_SR hT hz hW.cl hI (w := w) ⟨w1, w2⟩ h
    rw [l1] at l
    refine ⟨l, W, hW', by rw [e]; exact w3, ?_⟩
    intro hu0 i hi hi'
    rw [e' i hi', w4 hu0 i hi]

end TEA
end
end AB
