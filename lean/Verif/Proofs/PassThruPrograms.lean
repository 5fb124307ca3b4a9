/-
C92: the value at a point of an enclosure whose coefficients have gone through a linear operation
(/repo/autobound/enclosure_arithmetic.py:400-405, /repo/autobound/jax/jax_bound.py:447-453).
-/
import Verif.Proofs.SumPrograms
import Verif.Props.PassThru
import Verif.Props.Contracts
import Verif.Props.Static
import Verif.Spec.PassThruEqn

set_option linter.unusedSectionVars false
set_option linter.unusedSimpArgs false

namespace AB
variable {K : Type} [Field K] [LinearOrder K] [IsStrictOrderedRing K]

namespace JB

theorem sum_le_weighted {τ : Type} {l : List (K × τ)} (hw : ∀ t ∈ l, 0 ≤ t.1) {a b : τ → K} (h : ∀ t ∈ l, a t.2 ≤ b t.2) :
    (l.map fun t => t.1 * a t.2).sum ≤ (l.map fun t => t.1 * b t.2).sum :=
  List.sum_le_sum fun t ht => mul_le_mul_of_nonneg_left (h t ht) (hw t ht)

theorem min_weighted {τ : Type} {l : List (K × τ)} (hw : ∀ t ∈ l, 0 ≤ t.1) {a b : τ → K} (h : ∀ t ∈ l, a t.2 ≤ b t.2) (m : K) :
    min ((l.map fun t => t.1 * a t.2).sum * m) ((l.map fun t => t.1 * b t.2).sum * m) =
      (l.map fun t => t.1 * min (a t.2 * m) (b t.2 * m)).sum ∧
    max ((l.map fun t => t.1 * a t.2).sum * m) ((l.map fun t => t.1 * b t.2).sum * m) =
      (l.map fun t => t.1 * max (a t.2 * m) (b t.2 * m)).sum := by
  have hs := sum_le_weighted hw h
  have push : ∀ c : τ → K, (l.map fun t => t.1 * c t.2).sum * m = (l.map fun t => t.1 * (c t.2 * m)).sum := by
    intro c
    rw [← List.sum_map_mul_right]
    congr 1
    exact List.map_congr_left fun t _ => by ring
  rcases le_total 0 m with hm | hm
  · have e := mul_le_mul_of_nonneg_right hs hm
    rw [min_eq_left e, max_eq_right e, push, push]
    constructor <;> congr 1 <;> refine List.map_congr_left fun t ht => ?_
    · rw [min_eq_left (mul_le_mul_of_nonneg_right (h t ht) hm)]
    · rw [max_eq_right (mul_le_mul_of_nonneg_right (h t ht) hm)]
  · have e := mul_le_mul_of_nonpos_right hs hm
    rw [min_eq_right e, max_eq_left e, push, push]
    constructor <;> congr 1 <;> refine List.map_congr_left fun t ht => ?_
    · rw [min_eq_right (mul_le_mul_of_nonpos_right (h t ht) hm)]
    · rw [max_eq_left (mul_le_mul_of_nonpos_right (h t ht) hm)]

theorem sumOver_congr {E E' : Encl K} {z : ND K} {g g' : Coef K → List ℕ → K → K} (hl : E'.length = E.length)
    (h : ∀ i, i < E.length → ∀ J, ValidIdx (List.replicate i z.shape).flatten J →
      g' (E'[i]?.getD zeroC) J (monomialAt z i J) = g (E[i]?.getD zeroC) J (monomialAt z i J)) :
    sumOver E' z g' = sumOver E z g := by
  unfold sumOver
  rw [hl]
  congr 1
  refine List.map_congr_left fun i hi => ?_
  congr 1
  exact List.map_congr_left fun J hJ => h i (List.mem_range.1 hi) J (mem_idx.1 hJ)

theorem sumOver_weighted {τ : Type} (E : Encl K) (z : ND K) (l : List (K × τ)) (h : τ → Coef K → List ℕ → K → K) :
    sumOver E z (fun c J m => (l.map fun t => t.1 * h t.2 c J m).sum) = (l.map fun t => t.1 * sumOver E z (h t.2)).sum := by
  induction l with
  | nil => simp [sumOver]
  | cons t l ih =>
    simp only [List.map_cons, List.sum_cons]
    rw [← ih]
    unfold sumOver
    rw [← List.sum_map_mul_left, ← List.sum_map_add]
    congr 1
    refine List.map_congr_left fun i _ => ?_
    rw [← List.sum_map_mul_left, ← List.sum_map_add]

/-- A linear operation with nonnegative weights, applied to every coefficient: the ends of the value at a point are the same
linear operation applied to the ends of the value at the point. -/
theorem passThru_eval {E E' : Encl K} {z : ND K} {R Rc : List ℕ} {terms : List ℕ → List (K × List ℕ)} {g : ND K → Py (ND K)}
    (hE : WellFormedEncl E) (hE' : WellFormedEncl E') (hne : E ≠ []) (hex : ExactBatch z.shape R E)
    (h1 : ∀ L, ValidIdx Rc L → ∀ t ∈ terms L, ValidIdx R t.2) (hw : ∀ L, ValidIdx Rc L → ∀ t ∈ terms L, 0 ≤ t.1)
    (h2 : ∀ i < E.length, ∀ u s : ND K, u.shape = R ++ (List.replicate i z.shape).flatten → g u = .ok s →
      s.shape = Rc ++ (List.replicate i z.shape).flatten ∧ ∀ L J, ValidIdx Rc L → ValidIdx (List.replicate i z.shape).flatten J →
        s.get (L ++ J) = ((terms L).map fun t => t.1 * u.get (t.2 ++ J)).sum)
    (hm : mapOverEnclosure E g = .ok E') :
    ∃ r r', Poly.evalTaylorEnclosure E (.arr z) = .ok r ∧ Poly.evalTaylorEnclosure E' (.arr z) = .ok r' ∧
      r.WellFormed ∧ r'.WellFormed ∧ r.shape = R ∧ r'.shape = Rc ∧
      ∀ L, ValidIdx Rc L → cLo r' L = ((terms L).map fun t => t.1 * cLo r t.2).sum ∧
        cHi r' L = ((terms L).map fun t => t.1 * cHi r t.2).sum := by
  obtain ⟨hl, hg⟩ := mapOver_get hm
  have hV : VE z.shape R E := fun i c hc => ⟨hE.wfe c (List.mem_of_getElem? hc), R, hex i c hc, ble_refl _⟩
  -- the coefficients of the result
  have coef : ∀ i c', E'[i]? = some c' → ∃ c, E[i]? = some c ∧ c'.shape = Rc ++ IA.repS i z.shape ∧
      ∀ L J, ValidIdx Rc L → ValidIdx (List.replicate i z.shape).flatten J →
        loAt c' (L ++ J) = ((terms L).map fun t => t.1 * loAt c (t.2 ++ J)).sum ∧
        hiAt c' (L ++ J) = ((terms L).map fun t => t.1 * hiAt c (t.2 ++ J)).sum := by
    intro i c' hc'
    obtain ⟨c, hc, h⟩ := hg i c' hc'
    have hi : i < E.length := by
      by_contra hlt
      rw [List.getElem?_eq_none (not_lt.1 hlt)] at hc
      cases hc
    have hs := hex i c hc
    have part : ∀ u s : ND K, u.shape = c.shape → g u = .ok s → s.shape = Rc ++ IA.repS i z.shape ∧
        ∀ L J, ValidIdx Rc L → ValidIdx (List.replicate i z.shape).flatten J →
          s.bget (L ++ J) = ((terms L).map fun t => t.1 * u.bget (t.2 ++ J)).sum := by
      intro u s hu e
      obtain ⟨k1, k2⟩ := h2 i hi u s (hu.trans hs) e
      refine ⟨k1, fun L J hL hJ => ?_⟩
      have hv : ValidIdx s.shape (L ++ J) := by rw [k1]; exact validIdx_append hL hJ
      rw [ND.bget_valid s hv, k2 L J hL hJ]
      congr 1
      refine List.map_congr_left fun t ht => ?_
      rw [ND.bget_valid u (by rw [hu, hs]; exact validIdx_append (h1 L hL t ht) hJ)]
    rcases h with ⟨u, s, rfl, e, rfl⟩ | ⟨l, h', l', h'', rfl, e1, e2, rfl⟩
    · obtain ⟨k1, k2⟩ := part u s rfl e
      exact ⟨_, hc, k1, fun L J hL hJ => ⟨k2 L J hL hJ, k2 L J hL hJ⟩⟩
    · have hwf := hE _ (List.mem_of_getElem? hc)
      have hwf' := hE' _ (List.mem_of_getElem? hc')
      obtain ⟨k1, k2⟩ := part l l' rfl e1
      obtain ⟨k3, k4⟩ := part h' h'' hwf.1.symm e2
      refine ⟨_, hc, k1, fun L J hL hJ => ⟨k2 L J hL hJ, ?_⟩⟩
      rw [hiAt_eq hwf'.wf]
      refine (k4 L J hL hJ).trans ?_
      congr 1
      refine List.map_congr_left fun t _ => ?_
      rw [hiAt_eq hwf.wf]
      rfl
  have hV' : VE z.shape Rc E' := fun i c hc => by
    obtain ⟨-, -, hs, -⟩ := coef i c hc
    exact ⟨hE'.wfe c (List.mem_of_getElem? hc), Rc, hs, ble_refl _⟩
  have shape : ∀ {F : Encl K} {S : List ℕ}, WellFormedEncl F → VE z.shape S F → F ≠ [] → (∀ c, F[0]? = some c → c.shape = S) →
      ∃ r, Poly.evalTaylorEnclosure F (.arr z) = .ok r ∧ r.shape = S := by
    intro F S hF hVF hn h0
    obtain ⟨r, hr, hle⟩ := eval_total (Z := .arr z) (Coef.WF_arr _) (zmem_self _) hVF
    obtain ⟨-, hVr, -, -, -⟩ := eval_ok (Coef.WF_arr _) (zmem_self _) hF.wfe hr
    refine ⟨r, hr, ble_antisymm hle ?_⟩
    obtain ⟨c, hc⟩ : ∃ c, F[0]? = some c := by
      cases h : F with
      | nil => exact absurd h hn
      | cons c l => exact ⟨c, rfl⟩
    obtain ⟨-, B, hB, hBle⟩ := hVr 0 c hc
    rw [← h0 c hc]
    have : c.shape = B := by rw [show c.shape = B ++ _ from hB]; simp [IA.repS_zero]
    rw [this]
    exact hBle
  have hne' : E' ≠ [] := fun h => hne (List.length_eq_zero_iff.1 (by rw [← hl, h]; rfl))
  obtain ⟨r, hr, hrs⟩ := shape hE hV hne (fun c hc => by simpa using hex 0 c hc)
  obtain ⟨r', hr', hrs'⟩ := shape hE' hV' hne' (fun c hc => by
    obtain ⟨-, -, hs, -⟩ := coef 0 c hc
    simpa [IA.repS_zero] using hs)
  refine ⟨r, r', hr, hr', eval_ordered hE hr, eval_ordered hE' hr', hrs, hrs', fun L hL => ?_⟩
  obtain ⟨q1, q2, -⟩ := C62_point_value hE' hr' (hrs' ▸ hL)
  have pv : ∀ t ∈ terms L, _ := fun t ht => C62_point_value hE hr (I := t.2) (hrs ▸ h1 L hL t ht)
  have entry : ∀ i, i < E.length → ∃ c c', E[i]? = some c ∧ E'[i]? = some c' ∧
      ∀ J, ValidIdx (List.replicate i z.shape).flatten J →
        loAt c' (L ++ J) = ((terms L).map fun t => t.1 * loAt c (t.2 ++ J)).sum ∧
        hiAt c' (L ++ J) = ((terms L).map fun t => t.1 * hiAt c (t.2 ++ J)).sum ∧
        ∀ t ∈ terms L, loAt c (t.2 ++ J) ≤ hiAt c (t.2 ++ J) := by
    intro i hi
    have hi' : i < E'.length := by omega
    obtain ⟨c, hc, -, h⟩ := coef i E'[i] (List.getElem?_eq_getElem hi')
    refine ⟨c, E'[i], hc, List.getElem?_eq_getElem hi', fun J hJ => ⟨(h L J hL hJ).1, (h L J hL hJ).2, fun t ht => ?_⟩⟩
    have := ordAt hE hV (i := i) (h1 L hL t ht) hJ
    rwa [hc] at this
  unfold cLo cHi
  rw [q1, q2]
  refine ⟨?_, ?_⟩
  · refine (sumOver_congr hl fun i hi J hJ => ?_).trans ((sumOver_weighted E z (terms L)
      (fun α c J m => min (loAt c (α ++ J) * m) (hiAt c (α ++ J) * m))).trans ?_)
    · obtain ⟨c, c', hc, hc', h⟩ := entry i hi
      obtain ⟨e1, e2, e3⟩ := h J hJ
      rw [hc, hc']
      simp only [Option.getD_some]
      rw [e1, e2]
      exact (min_weighted (hw L hL) (a := fun α => loAt c (α ++ J)) (b := fun α => hiAt c (α ++ J)) e3 _).1
    · congr 1
      refine List.map_congr_left fun t ht => ?_
      rw [(pv t ht).1]
  · refine (sumOver_congr hl fun i hi J hJ => ?_).trans ((sumOver_weighted E z (terms L)
      (fun α c J m => max (loAt c (α ++ J) * m) (hiAt c (α ++ J) * m))).trans ?_)
    · obtain ⟨c, c', hc, hc', h⟩ := entry i hi
      obtain ⟨e1, e2, e3⟩ := h J hJ
      rw [hc, hc']
      simp only [Option.getD_some]
      rw [e1, e2]
      exact (min_weighted (hw L hL) (a := fun α => loAt c (α ++ J)) (b := fun α => hiAt c (α ++ J)) e3 _).2
    · congr 1
      refine List.map_congr_left fun t ht => ?_
      rw [(pv t ht).2.1]

end JB
end AB
