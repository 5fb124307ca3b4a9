/-
C91: the value at a point of the sum of two enclosures (/repo/autobound/enclosure_arithmetic.py:79-95).
-/
import Verif.Proofs.Affine
import Verif.Props.Interval2

set_option linter.unusedSectionVars false

namespace AB
variable {K : Type} [Field K] [LinearOrder K] [IsStrictOrderedRing K]

namespace JB

/-- the coefficient that stands for a missing one -/
abbrev zeroC : Coef K := .arr (ND.scalar 0)

theorem loAt_zero (L : List ℕ) : loAt (zeroC : Coef K) L = 0 := rfl
theorem hiAt_zero (L : List ℕ) : hiAt (zeroC : Coef K) L = 0 := rfl

theorem loAt_eq (c : Coef K) (L : List ℕ) : loAt c L = c.lo.bget L := by
  cases c <;> rfl

theorem hiAt_eq {c : Coef K} (h : c.WF) (L : List ℕ) : hiAt c L = c.hi.bget L := by
  cases c with
  | arr a => rfl
  | ivl l u =>
    have hsh : u.shape = l.shape := h.hi_shape
    show u.get (bidx l.shape L) = u.get (bidx u.shape L)
    rw [hsh]

theorem range_extend {f : ℕ → K} {n N : ℕ} (hn : n ≤ N) (h : ∀ i, n ≤ i → f i = 0) :
    ((List.range N).map f).sum = ((List.range n).map f).sum := by
  obtain ⟨k, rfl⟩ := Nat.exists_eq_add_of_le hn
  rw [List.range_add, List.map_append, List.sum_append, List.map_map]
  have : ((List.range k).map (f ∘ (n + ·))).sum = 0 := by
    refine List.sum_eq_zero fun x hx => ?_
    obtain ⟨i, -, rfl⟩ := List.mem_map.1 hx
    exact h _ (Nat.le_add_right _ _)
  rw [this, add_zero]

theorem sumOver_extend {E : Encl K} {z : ND K} {g : Coef K → List ℕ → K → K} (hg : ∀ J m, g zeroC J m = 0) {N : ℕ}
    (hN : E.length ≤ N) :
    sumOver E z g = ((List.range N).map fun i => ((idx (List.replicate i z.shape).flatten).map fun J =>
      g (E[i]?.getD zeroC) J (monomialAt z i J)).sum).sum := by
  refine (range_extend hN fun i hi => List.sum_eq_zero fun x hx => ?_).symm
  obtain ⟨J, -, rfl⟩ := List.mem_map.1 hx
  rw [List.getElem?_eq_none hi]
  exact hg _ _

theorem sumOver_add {E1 E2 E3 : Encl K} {z : ND K} {g1 g2 g3 : Coef K → List ℕ → K → K} (h1 : ∀ J m, g1 zeroC J m = 0)
    (h2 : ∀ J m, g2 zeroC J m = 0) (hl : E3.length = max E1.length E2.length)
    (h : ∀ i J, ValidIdx (List.replicate i z.shape).flatten J →
      g3 (E3[i]?.getD zeroC) J (monomialAt z i J) =
        g1 (E1[i]?.getD zeroC) J (monomialAt z i J) + g2 (E2[i]?.getD zeroC) J (monomialAt z i J)) :
    sumOver E3 z g3 = sumOver E1 z g1 + sumOver E2 z g2 := by
  rw [sumOver_extend h1 (N := E3.length) (by omega), sumOver_extend h2 (N := E3.length) (by omega), ← List.sum_map_add]
  unfold sumOver
  congr 1
  refine List.map_congr_left fun i _ => ?_
  rw [← List.sum_map_add]
  congr 1
  exact List.map_congr_left fun J hJ => h i J (mem_idx.1 hJ)

theorem min_add_mul {a b c d m : K} (h1 : a ≤ b) (h2 : c ≤ d) :
    min ((a + c) * m) ((b + d) * m) = min (a * m) (b * m) + min (c * m) (d * m) ∧
      max ((a + c) * m) ((b + d) * m) = max (a * m) (b * m) + max (c * m) (d * m) := by
  rcases le_total 0 m with hm | hm
  · have e1 := mul_le_mul_of_nonneg_right h1 hm
    have e2 := mul_le_mul_of_nonneg_right h2 hm
    have e3 := mul_le_mul_of_nonneg_right (add_le_add h1 h2) hm
    rw [min_eq_left e1, min_eq_left e2, min_eq_left e3, max_eq_right e1, max_eq_right e2, max_eq_right e3]
    exact ⟨by ring, by ring⟩
  · have e1 := mul_le_mul_of_nonpos_right h1 hm
    have e2 := mul_le_mul_of_nonpos_right h2 hm
    have e3 := mul_le_mul_of_nonpos_right (add_le_add h1 h2) hm
    rw [min_eq_right e1, min_eq_right e2, min_eq_right e3, max_eq_left e1, max_eq_left e2, max_eq_left e3]
    exact ⟨by ring, by ring⟩

theorem ordAt {E : Encl K} (hE : WellFormedEncl E) {xs R : List ℕ} (hV : VE xs R E) {i : ℕ} {I J : List ℕ} (hI : ValidIdx R I)
    (hJ : ValidIdx (List.replicate i xs).flatten J) :
    loAt (E[i]?.getD zeroC) (I ++ J) ≤ hiAt (E[i]?.getD zeroC) (I ++ J) := by
  cases hc : E[i]? with
  | none => exact le_rfl
  | some c =>
    obtain ⟨-, B, hB, hle⟩ := hV i c hc
    refine cLo_le_cHi (hE c (List.mem_of_getElem? hc)) (validIdx_bidx (R := R ++ IA.repS i xs) ?_ (validIdx_append hI hJ))
    rw [show c.shape = B ++ IA.repS i xs from hB]
    exact ble_append hle (ble_refl _) rfl

theorem addCoeffs_wf {E1 E2 E3 : Encl K} (h1 : WellFormedEncl E1) (h2 : WellFormedEncl E2) (h : TEA.addCoeffs E1 E2 = .ok E3) :
    WellFormedEncl E3 := by
  obtain ⟨hl, hg⟩ := addCoeffs_get h
  intro c hc
  obtain ⟨i, hi⟩ := List.mem_iff_getElem?.1 hc
  obtain ⟨g1, g2, g3⟩ := hg i
  cases hx : E1[i]? with
  | none => exact h2 c (List.mem_of_getElem? ((g2 hx) ▸ hi))
  | some x =>
    cases hy : E2[i]? with
    | none => exact h1 c (List.mem_of_getElem? ((g3 hy) ▸ hi))
    | some y =>
      obtain ⟨r, hr, e⟩ := g1 x y hx hy
      rw [hi] at hr; cases hr
      exact (C06_wellFormed (h1 x (List.mem_of_getElem? hx)) (h2 y (List.mem_of_getElem? hy))).1 e

/-- the sum of two enclosures: legal coefficients, whose end points add up -/
theorem addCoeffs_ends {E1 E2 E3 : Encl K} (h1 : WellFormedEncl E1) (h2 : WellFormedEncl E2) (h : TEA.addCoeffs E1 E2 = .ok E3)
    {xs R : List ℕ} (v1 : VE xs R E1) (v2 : VE xs R E2) :
    WellFormedEncl E3 ∧ VE xs R E3 ∧ ∀ i I J, ValidIdx R I → ValidIdx (List.replicate i xs).flatten J →
      loAt (E3[i]?.getD zeroC) (I ++ J) = loAt (E1[i]?.getD zeroC) (I ++ J) + loAt (E2[i]?.getD zeroC) (I ++ J) ∧
      hiAt (E3[i]?.getD zeroC) (I ++ J) = hiAt (E1[i]?.getD zeroC) (I ++ J) + hiAt (E2[i]?.getD zeroC) (I ++ J) := by
  obtain ⟨hl, hg⟩ := addCoeffs_get h
  have wf : WellFormedEncl E3 := addCoeffs_wf h1 h2 h
  have v3 : VE xs R E3 := by
    intro i c hi
    obtain ⟨g1, g2, g3⟩ := hg i
    cases hx : E1[i]? with
    | none => exact v2 i c ((g2 hx) ▸ hi)
    | some x =>
      cases hy : E2[i]? with
      | none => exact v1 i c ((g3 hy) ▸ hi)
      | some y =>
        obtain ⟨r, hr, e⟩ := g1 x y hx hy
        rw [hi] at hr; cases hr
        obtain ⟨xw, B, hB, hBR⟩ := v1 i x hx
        obtain ⟨yw, B', hB', hBR'⟩ := v2 i y hy
        obtain ⟨r1, r2, -, -⟩ := IA.add_ok xw yw e
        rw [hB, hB'] at r2
        obtain ⟨Q, S, hQ, hS, e⟩ := bshape_append_inv rfl r2
        rw [bshape_self] at hS; cases hS
        exact ⟨r1, Q, e, ble_lub_of_bshape hQ hBR hBR'⟩
  refine ⟨wf, v3, fun i I J hI hJ => ?_⟩
  obtain ⟨g1, g2, g3⟩ := hg i
  cases hx : E1[i]? with
  | none =>
    rw [g2 hx]
    simp only [Option.getD_none, loAt_zero, hiAt_zero, zero_add, and_self]
  | some x =>
    cases hy : E2[i]? with
    | none =>
      rw [g3 hy, hx]
      simp only [Option.getD_none, loAt_zero, hiAt_zero, add_zero, and_self]
    | some y =>
      obtain ⟨r, hr, e⟩ := g1 x y hx hy
      rw [hr]
      simp only [Option.getD_some]
      obtain ⟨xw, -⟩ := v1 i x hx
      obtain ⟨yw, -⟩ := v2 i y hy
      obtain ⟨r1, -, -, r4⟩ := IA.add_ok xw yw e
      obtain ⟨-, Q, hQ, hle⟩ := v3 i r hr
      rw [loAt_eq, loAt_eq, loAt_eq, hiAt_eq xw, hiAt_eq yw, hiAt_eq r1]
      refine r4 (I ++ J) ?_
      rw [hQ, List.length_append, List.length_append]
      have a1 := ble_length hle
      have a2 := hI.length
      have a3 : (IA.repS i xs).length = J.length := hJ.length
      omega

theorem sum_eval {E1 E2 E3 : Encl K} (h1 : WellFormedEncl E1) (h2 : WellFormedEncl E2) (h : TEA.addCoeffs E1 E2 = .ok E3)
    (hne1 : E1 ≠ []) (hne2 : E2 ≠ []) {z : ND K} {r1 r2 : Coef K} (hr1 : Poly.evalTaylorEnclosure E1 (.arr z) = .ok r1)
    (hr2 : Poly.evalTaylorEnclosure E2 (.arr z) = .ok r2) (hs : r2.shape = r1.shape)
    (hs1 : ∀ c, E1[0]? = some c → c.shape = r1.shape) (hs2 : ∀ c, E2[0]? = some c → c.shape = r1.shape) :
    ∃ r3, Poly.evalTaylorEnclosure E3 (.arr z) = .ok r3 ∧ r3.WellFormed ∧ r3.shape = r1.shape ∧
      ∀ I, ValidIdx r1.shape I → cLo r3 I = cLo r1 I + cLo r2 I ∧ cHi r3 I = cHi r1 I + cHi r2 I := by
  obtain ⟨-, v1, -, -, -⟩ := eval_ok (Coef.WF_arr _) (zmem_self z) h1.wfe hr1
  obtain ⟨-, v2, -, -, -⟩ := eval_ok (Coef.WF_arr _) (zmem_self z) h2.wfe hr2
  rw [hs] at v2
  obtain ⟨wf, v3, ends⟩ := addCoeffs_ends h1 h2 h v1 v2
  obtain ⟨r3, hr3, hle⟩ := eval_total (Z := .arr z) (Coef.WF_arr _) (zmem_self z) v3
  obtain ⟨-, v3', -, -, -⟩ := eval_ok (Coef.WF_arr _) (zmem_self z) wf.wfe hr3
  obtain ⟨hl, hg⟩ := addCoeffs_get h
  have hsh : r3.shape = r1.shape := by
    refine ble_antisymm hle ?_
    obtain ⟨x, hx⟩ : ∃ c, E1[0]? = some c := by
      cases E1 with
      | nil => exact absurd rfl hne1
      | cons c l => exact ⟨c, rfl⟩
    obtain ⟨y, hy⟩ : ∃ c, E2[0]? = some c := by
      cases E2 with
      | nil => exact absurd rfl hne2
      | cons c l => exact ⟨c, rfl⟩
    obtain ⟨r, hr, e⟩ := (hg 0).1 x y hx hy
    obtain ⟨-, r2', -, -⟩ := IA.add_ok (v1 0 x hx).1 (v2 0 y hy).1 e
    rw [hs1 x hx, hs2 y hy, bshape_self] at r2'
    obtain ⟨-, B, hB, hBle⟩ := v3' 0 r hr
    have : r.shape = B := by rw [show r.shape = B ++ _ from hB]; simp [IA.repS_zero]
    rw [Option.some.inj r2', this]
    exact hBle
  refine ⟨r3, hr3, eval_ordered wf hr3, hsh, fun I hI => ?_⟩
  obtain ⟨p1, p2, -⟩ := C62_point_value h1 hr1 hI
  obtain ⟨q1, q2, -⟩ := C62_point_value h2 hr2 (hs ▸ hI)
  obtain ⟨s1, s2, -⟩ := C62_point_value wf hr3 (hsh ▸ hI)
  have z1 : ∀ (J : List ℕ) (m : K), min (loAt (zeroC : Coef K) (I ++ J) * m) (hiAt (zeroC : Coef K) (I ++ J) * m) = 0 := fun J m => by
    rw [loAt_zero, hiAt_zero]; simp
  have z2 : ∀ (J : List ℕ) (m : K), max (loAt (zeroC : Coef K) (I ++ J) * m) (hiAt (zeroC : Coef K) (I ++ J) * m) = 0 := fun J m => by
    rw [loAt_zero, hiAt_zero]; simp
  unfold cLo cHi
  rw [p1, p2, q1, q2, s1, s2]
  refine ⟨sumOver_add z1 z1 hl fun i J hJ => ?_, sumOver_add z2 z2 hl fun i J hJ => ?_⟩
  all_goals
    obtain ⟨e1, e2⟩ := ends i I J hI hJ
    rw [e1, e2]
  · exact (min_add_mul (ordAt h1 v1 hI hJ) (ordAt h2 v2 hI hJ)).1
  · exact (min_add_mul (ordAt h1 v1 hI hJ) (ordAt h2 v2 hI hJ)).2

end JB
end AB
