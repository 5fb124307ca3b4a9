import Verif.Proofs.EncOps

set_option linter.unusedSectionVars false

namespace AB
variable {K : Type}

open IA (repS repS_succ repS_succ' repS_zero repS_length repS_add repS_one)

section
variable [Field K] [LinearOrder K] [IsStrictOrderedRing K]

/-- a legal coefficient of an element-wise enclosure for batch shape `R` -/
def EC (U : Mode) (R : List ℕ) (c : Coef K) : Prop := c.WF ∧ ble c.shape R ∧ U 0 c.shape

/-- a mode in which enclosures with batch rank `n` can be composed -/
structure Mode.Cm (U : Mode) (n : ℕ) : Prop where
  pw : Mode.Pw U U
  rk : ∀ {d B}, U d B → B.length = n ∨ (d = 0 ∧ B = [])

theorem rankM_cm (n : ℕ) : Mode.Cm (rankM n) n := ⟨rankM_pw n, id⟩
theorem exactWM_cm (R : List ℕ) : Mode.Cm (exactWM R) R.length :=
  ⟨exactWM_pw R, fun h => h.imp (fun h => by rw [h]) id⟩

theorem leftMul_ok {xs R B : List ℕ} {i : ℕ} {x y s : ND K} (hx : ble x.shape R)
    (hx' : x.shape.length = R.length ∨ x.shape = []) (hB : ble B R) (hBl : B.length = R.length)
    (hy : y.shape = B ++ repS i xs) (h : leftBroadcastingMultiply x y = .ok s) :
    ∃ Q, bshape x.shape B = some Q ∧ s.shape = Q ++ repS i xs ∧
      ∀ I J, R.length ≤ I.length → J.length = i * xs.length →
        s.bget (I ++ J) = x.bget I * y.bget (I ++ J) := by
  unfold leftBroadcastingMultiply at h
  split_ifs at h with h0
  obtain ⟨h1, h2⟩ := ND.map2_ok h
  have yn : y.ndim = R.length + i * xs.length := by simp [ND.ndim, hy, hBl]
  have hxn : x.ndim = x.shape.length := rfl
  rcases hx' with hxl | hxl
  · have e0 : y.ndim - x.ndim = i * xs.length := by omega
    rw [e0] at h1 h2
    have sx : (x.expandDims (i * xs.length) x.ndim).shape =
        x.shape ++ List.replicate (i * xs.length) 1 := by
      simp [ND.expandDims, ND.ndim]
    rw [sx, hy] at h1
    obtain ⟨Q, S, hQ, hS, e⟩ := bshape_append_inv (by simp) h1
    rw [bshape_eq_of_ble (ble_ones (by simp))] at hS; cases hS
    refine ⟨Q, hQ, e, ?_⟩
    intro I J hI hJ
    have hQl := ble_length (ble_lub_of_bshape hQ hx hB)
    rw [h2 _ (by rw [e]; simp [hJ]; omega)]
    congr 1
    have := ND.expandDims_bget (a := x) (A := x.shape) (C := []) (I := I) (X := J) (J := [])
      (n := i * xs.length) (by simp) (by omega) hJ rfl
    simpa [ND.ndim] using this
  · have e0 : y.ndim - x.ndim = R.length + i * xs.length := by rw [hxn, hxl]; simp [yn]
    rw [e0] at h1 h2
    have hx0 : x.ndim = 0 := by rw [hxn, hxl]; rfl
    have sx : (x.expandDims (R.length + i * xs.length) x.ndim).shape =
        List.replicate (R.length + i * xs.length) 1 := by
      simp [ND.expandDims, hxl]
    rw [sx, bshape_eq_of_ble (ble_ones (by rw [hy]; simp [hBl]))] at h1
    have h1' : y.shape = s.shape := by simpa using h1
    refine ⟨B, by rw [hxl, bshape_nil_left], by rw [← h1', hy], ?_⟩
    intro I J hI hJ
    rw [h2 _ (by rw [← h1', hy]; simp [hJ]; omega)]
    congr 1
    rw [ND.bget_nil hxl, ND.bget_def]
    simp only [ND.expandDims, hx0, List.take_zero, List.nil_append]
    congr 1
    rw [hxl]
    simp

theorem leftMul_rel {U : Mode} {xs R I : List ℕ} (hC : U.Cm R.length) (hI : R.length ≤ I.length) {i : ℕ} (hi : i ≠ 0)
    {c y r : Coef K} {k : K} {w : List ℕ → K} (hc : EC U R c) (hk : c.Mem I k)
    (hy : SRel U xs R I i y w)
    (h : IA.arbitraryBilinear c y leftBroadcastingMultiply true = .ok r) :
    SRel U xs R I i r (fun J => k * w J) := by
  obtain ⟨⟨yw, B, hB, uy⟩, my⟩ := hy
  obtain ⟨cw, cle, cl⟩ := hc
  have hBl : B.length = R.length := by
    rcases hC.rk uy.2 with h | h
    · exact h
    · exact absurd h.1 hi
  have cl' := cl
  replace cl : c.shape.length = R.length ∨ c.shape = [] := (hC.rk cl).imp id (fun h => h.2)
  obtain ⟨Q, hQ, hQR⟩ := bshape_lub cle uy.1
  have key := fun (a b s : ND K) (ha : a.shape = c.shape) (hb : b.shape = y.shape)
      (hs : leftBroadcastingMultiply a b = .ok s) =>
    leftMul_ok (xs := xs) (i := i) (ha ▸ cle) (ha ▸ cl) uy.1 hBl (hb.trans hB) hs
  have hR : ∀ a b s : ND K, a.shape = c.shape → b.shape = y.shape →
      leftBroadcastingMultiply a b = .ok s → s.shape = Q ++ repS i xs := by
    intro a b s ha hb hs
    obtain ⟨Q', hQ', e, -⟩ := key a b s ha hb hs
    rw [ha, hQ] at hQ'; cases hQ'; exact e
  obtain ⟨r1, r2, -, -⟩ := IA.bilinearTrue_ok cw yw hR h
  have hQl : Q.length = R.length := by
    have := bshape_length hQ
    have := ble_length cle
    omega
  refine ⟨⟨r1, Q, r2, hQR, by have := hC.pw.pr cl' uy.2 hQ; rwa [Nat.zero_add] at this⟩, ?_⟩
  intro J hJ
  have lJ : J.length = i * xs.length := by simpa using hJ.length.symm
  exact IA.bilinearTrue_mem cw yw hR h (L := I ++ J) (φ := I) (ψ := I ++ J)
    (by simp [lJ]; omega) (by
      intro a b s ha hb hs
      obtain ⟨Q', hQ', e, hm⟩ := key a b s ha hb hs
      exact hm I J hI lJ) hk (my J hJ)

namespace TEA
variable {T : TEA K} (hT : T.trLo.shape = T.trHi.shape) {z : List ℕ → K}
  (hz : ZMem T.trustRegion z) {U : Mode} {R I : List ℕ} (hC : U.Cm R.length) (hI : R.length ≤ I.length)

include hT hz hC hI

theorem composeTerm_rel {A term : Encl K} {u : ℕ → List ℕ → K} (hu : SR U T.xShape R I A u)
    (hu0 : u 0 = 0) {p : ℕ} (hp : p ≤ T.maxDegree) (hp0 : p ≠ 0) {c : Coef K} {k : K}
    (hc : EC U R c) (hk : c.Mem I k) (h : T.composeTerm A p c = .ok term) :
    term.length = min (1 + (A.length - 1) * p) (T.maxDegree + 1) ∧
    ∃ v : ℕ → List ℕ → K, (∀ i y, term[i]? = some y → SRel0 U T.xShape R I i y (v i)) ∧
      (∀ i, term[i]? = none → v i = 0) ∧
      (∀ i y, p ≤ i → term[i]? = some y → SRel U T.xShape R I i y (v i)) ∧
      selVal T.xShape z term.length v = k * selVal T.xShape z A.length u ^ p := by
  simp only [composeTerm, if_neg hp0, py_bind_ok] at h
  obtain ⟨poly, hpoly, h⟩ := h
  obtain ⟨l, W, hW, e, hz0⟩ := power_SR hT hz hI hC.pw hu hpoly
  have hm := Poly.mapM_ok h
  have hlen : term.length = poly.length := by
    have := hm.length_eq; simpa using this.symm
  have hget : ∀ i y, term[i]? = some y → ∃ x, poly[i]? = some x ∧
      (if i < p then .ok (.arr (ND.scalar 0))
        else IA.arbitraryBilinear c x leftBroadcastingMultiply true) = .ok y := by
    intro i y hy
    obtain ⟨⟨j, x⟩, hx, hf⟩ := (Poly.forall₂_getElem? hm i).1 y hy
    rw [Poly.enum_getElem?, Option.map_eq_some_iff] at hx
    obtain ⟨x', hx', e⟩ := hx
    cases e
    exact ⟨x, hx', hf⟩
  have hstrong : ∀ i y, p ≤ i → term[i]? = some y →
      SRel U T.xShape R I i y (fun J => k * W i J) := by
    intro i y hi hy
    obtain ⟨x, hx, hf⟩ := hget i y hy
    rw [if_neg (by omega)] at hf
    exact leftMul_rel hC hI (by omega) hc hk (hW.1 i x hx) hf
  refine ⟨by rw [hlen, l], fun i J => k * W i J, ?_, ?_, hstrong, ?_⟩
  · intro i y hy
    by_cases hi : i < p
    · right
      obtain ⟨x, hx, hf⟩ := hget i y hy
      rw [if_pos hi] at hf
      cases hf
      refine ⟨⟨_, rfl, rfl, rfl⟩, ?_⟩
      funext J
      show k * W i J = 0
      rw [hz0 hu0 i hi (by omega)]; simp
    · exact Or.inl (hstrong i y (by omega) hy)
  · intro i hi
    have : poly[i]? = none := by
      rw [List.getElem?_eq_none_iff] at hi ⊢; omega
    funext J
    show k * W i J = 0
    rw [hW.2 i this]; simp
  · rw [hlen, ← e]
    unfold selVal
    rw [Finset.mul_sum]
    apply Finset.sum_congr rfl
    intro i _
    rw [pair_smul]

theorem compose_fold {A : Encl K} {u : ℕ → List ℕ → K} (hu : SR U T.xShape R I A u)
    (hA : A ≠ []) (hu0 : u 0 = 0) {k : ℕ → K} (e : Encl K) (he : e.length ≤ T.maxDegree + 1)
    (hc : ∀ p c, e[p]? = some c → EC U R c ∧ c.Mem I (k p)) {out : Encl K}
    (h : (Poly.enum e).foldlM (T.composeStep A) [.arr (ND.scalar 0)] = .ok out) :
    1 ≤ out.length ∧ out.length ≤ T.maxDegree + 1 ∧
    (2 ≤ A.length → min (T.maxDegree + 1) e.length ≤ out.length) ∧
    ∃ W, SR U T.xShape R I out W ∧ selVal T.xShape z out.length W =
      ∑ p ∈ Finset.range e.length, k p * selVal T.xShape z A.length u ^ p := by
  have hAl : A.length ≠ 0 := fun h => hA (List.length_eq_zero_iff.1 h)
  induction e using List.reverseRecOn generalizing out with
  | nil =>
    simp [Poly.enum] at h; subst h
    refine ⟨by simp, by simp, by simp, fun _ => 0, ⟨?_, fun _ _ => rfl⟩, ?_⟩
    · intro i c hc
      cases i with
      | succ i => simp at hc
      | zero =>
        simp at hc; subst hc
        refine ⟨⟨Coef.WF_arr _, [], rfl, ble_nil _, hC.pw.nil⟩, fun J _ => ?_⟩
        rw [Coef.mem_arr]; rfl
    · simp only [selVal, List.length_nil, Finset.range_zero, Finset.sum_empty]
      apply Finset.sum_eq_zero
      intro i _; exact pair_zero _ _ _
  | append_singleton e c ih =>
    have henum : Poly.enum (e ++ [c]) = Poly.enum e ++ [(e.length, c)] := by
      unfold Poly.enum
      simp only [List.length_append, List.length_cons, List.length_nil, zero_add, List.range_succ]
      rw [List.zip_append (by simp)]; rfl
    rw [henum, List.foldlM_append] at h
    simp only [List.foldlM_cons, List.foldlM_nil, py_bind_ok, py_pure] at h
    obtain ⟨o, ho, o', ho', rfl⟩ := h
    simp only [List.length_append, List.length_cons, List.length_nil, zero_add] at he ⊢
    obtain ⟨i1, i2, i3, u', i4, i5⟩ := ih (by omega) (by
      intro p c' hc'
      exact hc p c' (by rw [List.getElem?_append_left (List.getElem?_eq_some_iff.1 hc').1]; exact hc')) ho
    obtain ⟨cE, cM⟩ := hc e.length c (by simp)
    simp only [composeStep, py_bind_ok] at ho'
    obtain ⟨term, hterm, hadd⟩ := ho'
    by_cases hp0 : e.length = 0
    · rw [hp0] at hterm
      simp only [composeTerm, if_true, py_pure] at hterm
      cases hterm
      have hst : SR U T.xShape R I [c] (fun i => if i = 0 then fun _ => k 0 else 0) := by
        constructor
        · intro i c' hc'
          cases i with
          | succ i => simp at hc'
          | zero =>
            simp at hc'; subst hc'
            refine ⟨⟨cE.1, c.shape, by simp, cE.2.1, cE.2.2⟩, ?_⟩
            · intro J hJ
              have : J = [] := by
                have := hJ.length; simp at this; exact List.length_eq_zero_iff.1 this.symm
              subst this
              rw [List.append_nil]
              rw [hp0] at cM
              exact cM
        · intro i hi
          cases i with
          | zero => simp at hi
          | succ i => simp
      obtain ⟨l, W, hW, e'⟩ := add_SR hT hz hC.pw.cl hI i4 hst hadd
      refine ⟨by rw [l]; simp only [List.length_cons, List.length_nil]; omega, by omega,
        fun _ => by rw [l]; simp only [List.length_cons, List.length_nil]; omega, W, hW, ?_⟩
      rw [e', i5, Finset.sum_range_succ, hp0]
      congr 1
      simp [selVal, pair_zero_deg]
    · obtain ⟨tl, v, v1, v2, v3, v4⟩ := composeTerm_rel hT hz hC hI hu hu0 (by omega) hp0 cE cM hterm
      obtain ⟨l, W, hW, e'⟩ := add_SR0 hT hz hC.pw.cl hI i4 v1 v2 (by
        intro i y hoi hy
        apply v3 i y _ hy
        have h1 := List.getElem?_eq_none_iff.1 hoi
        have h2 := (List.getElem?_eq_some_iff.1 hy).1
        by_cases hA2 : 2 ≤ A.length
        · have := i3 hA2; omega
        · have : A.length - 1 = 0 := by omega
          rw [tl, this] at h2; simp at h2; omega) hadd
      refine ⟨by omega, by omega, ?_, W, hW, ?_⟩
      · intro hA2
        have : e.length ≤ (A.length - 1) * e.length := Nat.le_mul_of_pos_left _ (by omega)
        rw [l, tl]; omega
      · rw [e', i5, Finset.sum_range_succ, v4]

/-- `compose_enclosures` -/
theorem compose_SR {arg e c : Encl K} {u : ℕ → List ℕ → K} (hu : SR U T.xShape R I arg u)
    (he : e.length ≤ T.maxDegree + 1) {k : ℕ → K}
    (hc : ∀ p c, e[p]? = some c → EC U R c ∧ c.Mem I (k p))
    (h : T.composeEnclosures e arg = .ok c) :
    c.length ≤ T.maxDegree + 1 ∧ c ≠ [] ∧ ∃ W, SR U T.xShape R I c W ∧
      selVal T.xShape z c.length W = ∑ p ∈ Finset.range e.length,
        k p * (selVal T.xShape z arg.length u - u 0 []) ^ p := by
  unfold composeEnclosures at h
  split_ifs at h with h0
  let u' : ℕ → List ℕ → K := fun i => if i = 0 then 0 else u i
  have hA : SR U T.xShape R I (.arr (ND.scalar 0) :: arg.drop 1) u' := by
    constructor
    · intro i x hx
      cases i with
      | zero =>
        simp at hx; subst hx
        refine ⟨⟨Coef.WF_arr _, [], rfl, ble_nil _, hC.pw.nil⟩, fun J _ => ?_⟩
        rw [Coef.mem_arr]; rfl
      | succ i =>
        simp at hx
        simp only [u', Nat.succ_ne_zero, if_false]
        exact hu.1 (i + 1) x hx
    · intro i hi
      cases i with
      | zero => simp at hi
      | succ i =>
        simp only [u', Nat.succ_ne_zero, if_false]
        apply hu.2
        rw [List.getElem?_eq_none_iff] at hi ⊢
        simp at hi; omega
  obtain ⟨l1, l2, -, W, hW, e'⟩ := compose_fold hT hz hC hI hA (by simp) (by simp [u']) e he hc h
  refine ⟨l2, by intro h; rw [h] at l1; simp at l1, W, hW, ?_⟩
  rw [e']
  have : selVal T.xShape z (List.length (Coef.arr (ND.scalar (0 : K)) :: List.drop 1 arg)) u' =
      selVal T.xShape z arg.length u - u 0 [] := by
    rw [← hA.extend z (n := arg.length + 1) (by simp),
      ← hu.extend z (n := arg.length + 1) (by omega)]
    unfold selVal
    rw [Finset.sum_range_succ', Finset.sum_range_succ' (fun i => pair T.xShape z i (u i))]
    simp [u', pair_zero_deg]
  rw [this]

end TEA
end
end AB
