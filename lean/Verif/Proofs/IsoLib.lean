/-
The element-wise enclosures are inclusion isotone: a smaller trust region gives a smaller final interval, whatever the
cap in `taylor_remainder_ratio` does.
-/
import Verif.Spec.TableLib
import Verif.Spec.Isotone
import Verif.Proofs.Iso
import Verif.Props.Cap
import Verif.Props.RealLib

set_option linter.unusedSectionVars false

namespace AB
open PE EF Set

/-- scalar enclosures: a smaller region gives a smaller final interval -/
def ScalarIsotone {K : Type} [LinearOrder K] (g : K → K → K → ℕ → Py (SEncl K)) (ok : K → K → K → ℕ → Prop) : Prop :=
  ∀ x0' x0 a' b' a b d s' s, a ≤ a' → a' ≤ x0' → x0' ≤ b' → b' ≤ b → a ≤ x0 → x0 ≤ b → (d ≠ 0 → x0' = x0) →
    ok x0' a' b' d → ok x0 a b d → g x0' a' b' d = .ok s' → g x0 a b d = .ok s →
    s.2.1 ≤ s'.2.1 ∧ s'.2.1 ≤ s'.2.2 ∧ s'.2.2 ≤ s.2.2

section
variable {K : Type} [Field K] [LinearOrder K] [IsStrictOrderedRing K]

theorem lift_inv {tc : ℕ → K → Py (List K)} {g : K → K → K → ℕ → Py (SEncl K)} {x0 lo hi : ND K} {d : ℕ} {e : Encl K}
    {R : List ℕ} (hR : bshape x0.shape lo.shape = some R) (h : liftGen tc g x0 (lo, hi) d = .ok e) :
    (∀ I, ValidIdx R I → ∃ s, g (x0.bget I) (lo.bget I) (hi.bget I) d = .ok s) ∧
    e = (List.range d).map (fun i => .arr (x0.map fun x => coefOf i (tc d x))) ++
        [.ivl ⟨R, fun I => (finOf (g (x0.bget I) (lo.bget I) (hi.bget I) d)).1⟩
          ⟨R, fun I => (finOf (g (x0.bget I) (lo.bget I) (hi.bget I) d)).2⟩] := by
  unfold liftGen at h
  simp only [hR, py_bind_ok, py_pure] at h
  obtain ⟨ss, hss, rfl⟩ := h
  refine ⟨fun I hI => ?_, rfl⟩
  have := Poly.mapM_ok hss
  have hm := mem_idx.2 hI
  clear hss hI
  generalize idx R = l at this hm
  induction this with
  | nil => cases hm
  | cons h _ ih =>
    rcases List.mem_cons.1 hm with rfl | hm
    · exact ⟨_, h⟩
    · exact ih hm

theorem isotone_lift {tc : ℕ → K → Py (List K)} {g : K → K → K → ℕ → Py (SEncl K)} {ok : K → K → K → ℕ → Prop}
    (hs : ScalarIsotone g ok) : IsotoneGen (guardGen ok (liftGen tc g)) := by
  intro x0' x0 lo' hi' lo hi d e' e R hn hx hR h0' h0 hd h' h
  obtain ⟨ok', h'⟩ := guardGen_ok h'
  obtain ⟨ok, h⟩ := guardGen_ok h
  obtain ⟨w', w, ins⟩ : (Coef.ivl lo' hi').WellFormed ∧ (Coef.ivl lo hi).WellFormed ∧
      (Coef.ivl lo' hi').Inside (.ivl lo hi) := by
    cases hn with | ivl h1 h2 h3 => exact ⟨h1, h2, h3⟩
  have sh : lo'.shape = lo.shape := hn.shape
  have hR' : bshape x0'.shape lo'.shape = some R := by rw [hx, sh]; exact hR
  have ok' := ok' R hR'
  have ok := ok R hR
  simp only at ok ok'
  obtain ⟨g', rfl⟩ := lift_inv hR' h'
  obtain ⟨g, rfl⟩ := lift_inv hR h
  refine List.rel_append ?_ (.cons ?_ .nil)
  · rcases Nat.eq_zero_or_pos d with rfl | hd0
    · exact .nil
    · rw [hd hd0.ne']
      show List.Forall₂ Nest _ _
      rw [List.forall₂_same]
      intro c hc
      obtain ⟨i, -, rfl⟩ := List.mem_map.1 hc
      exact .arr _
  · refine Nest.of_entries (show R = R from rfl) (show R = R from rfl) rfl (fun I hI => ?_) rfl (fun h => by cases h)
    have hI : ValidIdx R I := hI
    obtain ⟨s', hs'⟩ := g' I hI
    obtain ⟨s, hs1⟩ := g I hI
    simp only [Coef.lo, Coef.hi]
    rw [ND.bget_valid _ hI, ND.bget_valid _ hI, ND.bget_valid _ hI, ND.bget_valid _ hI]
    simp only [hs', hs1, finOf]
    have hle := hn.entries (bshape_le hR).2 hI
    exact hs _ _ _ _ _ _ _ _ _ hle.1 (h0' I hI).1 (h0' I hI).2 hle.2.2 (h0 I hI).1 (h0 I hI).2
      (fun hd' => by rw [hd hd']) (ok' I hI) (ok I hI) hs' hs1

end

/-! ### the cap keeps monotonicity -/

theorem capTheta_mono {x0 e e' : ℝ} (k : ℕ) (h : |e' - x0| ≤ |e - x0|) : capTheta x0 k e' ≤ capTheta x0 k e := by
  unfold capTheta
  refine min_le_min le_rfl (mul_le_mul_of_nonneg_right (pow_le_pow_left₀ (abs_nonneg _) h k) (by positivity))

theorem cap_mono {D : ℕ → ℝ → ℝ} {k : ℕ} {x0 a b : ℝ} (hx0 : x0 ∈ Icc a b) (hm : MonotoneOn (rho D x0 k) (Icc a b)) :
    MonotoneOn (capRho D x0 k) (Icc a b) := by
  intro e he e' he' hee
  unfold capRho
  have t0 := capTheta_nonneg x0 k e
  have t0' := capTheta_nonneg x0 k e'
  rcases le_total x0 e with h | h
  · have h1 := hm hx0 he h
    have h2 := hm he he' hee
    have ht : capTheta x0 k e ≤ capTheta x0 k e' :=
      capTheta_mono k (by rw [abs_of_nonneg (by linarith), abs_of_nonneg (by linarith)]; linarith)
    nlinarith
  · rcases le_total x0 e' with h' | h'
    · have h1 := hm he hx0 h
      have h2 := hm hx0 he' h'
      nlinarith
    · have h1 := hm he' hx0 h'
      have h2 := hm he he' hee
      have ht : capTheta x0 k e' ≤ capTheta x0 k e :=
        capTheta_mono k (by rw [abs_of_nonpos (by linarith), abs_of_nonpos (by linarith)]; linarith)
      nlinarith

theorem cap_anti {D : ℕ → ℝ → ℝ} {k : ℕ} {x0 a b : ℝ} (hx0 : x0 ∈ Icc a b) (hm : AntitoneOn (rho D x0 k) (Icc a b)) :
    AntitoneOn (capRho D x0 k) (Icc a b) := by
  intro e he e' he' hee
  unfold capRho
  have t0 := capTheta_nonneg x0 k e
  have t0' := capTheta_nonneg x0 k e'
  rcases le_total x0 e with h | h
  · have h1 := hm hx0 he h
    have h2 := hm he he' hee
    have ht : capTheta x0 k e ≤ capTheta x0 k e' :=
      capTheta_mono k (by rw [abs_of_nonneg (by linarith), abs_of_nonneg (by linarith)]; linarith)
    nlinarith
  · rcases le_total x0 e' with h' | h'
    · have h1 := hm he hx0 h
      have h2 := hm hx0 he' h'
      nlinarith
    · have h1 := hm he' hx0 h'
      have h2 := hm he he' hee
      have ht : capTheta x0 k e' ≤ capTheta x0 k e :=
        capTheta_mono k (by rw [abs_of_nonpos (by linarith), abs_of_nonpos (by linarith)]; linarith)
      nlinarith

theorem cap_between {D : ℕ → ℝ → ℝ} {k : ℕ} {x0 e l u : ℝ} (h0 : l ≤ rho D x0 k x0 ∧ rho D x0 k x0 ≤ u)
    (he : l ≤ rho D x0 k e ∧ rho D x0 k e ≤ u) : l ≤ capRho D x0 k e ∧ capRho D x0 k e ≤ u := by
  unfold capRho
  have t0 := capTheta_nonneg x0 k e
  have t1 := capTheta_le x0 k e
  constructor <;> nlinarith

theorem cap_zero (D : ℕ → ℝ → ℝ) (x0 e : ℝ) : capRho D x0 0 e = D 0 e := by
  have : capTheta x0 0 e = 1 := by unfold capTheta; norm_num
  have h := rho_spec D x0 0 e
  simp at h
  unfold capRho
  rw [this, h]; ring

/-- nested regions, monotone ratio, either order of the ends -/
theorem nest_mono {D : ℕ → ℝ → ℝ} {k : ℕ} {x0 a' b' a b : ℝ} (h1 : a ≤ a') (h2 : a' ≤ x0) (h3 : x0 ≤ b') (h4 : b' ≤ b)
    (hm : MonotoneOn (rho D x0 k) (Icc a b)) :
    capRho D x0 k a ≤ capRho D x0 k a' ∧ capRho D x0 k a' ≤ capRho D x0 k b' ∧
      capRho D x0 k b' ≤ capRho D x0 k b := by
  have hc := cap_mono ⟨h1.trans h2, h3.trans h4⟩ hm
  have i1 : a ∈ Icc a b := ⟨le_rfl, by linarith⟩
  have i2 : a' ∈ Icc a b := ⟨h1, by linarith⟩
  have i3 : b' ∈ Icc a b := ⟨by linarith, h4⟩
  have i4 : b ∈ Icc a b := ⟨by linarith, le_rfl⟩
  exact ⟨hc i1 i2 h1, hc i2 i3 (h2.trans h3), hc i3 i4 h4⟩

theorem nest_anti {D : ℕ → ℝ → ℝ} {k : ℕ} {x0 a' b' a b : ℝ} (h1 : a ≤ a') (h2 : a' ≤ x0) (h3 : x0 ≤ b') (h4 : b' ≤ b)
    (hm : AntitoneOn (rho D x0 k) (Icc a b)) :
    capRho D x0 k b ≤ capRho D x0 k b' ∧ capRho D x0 k b' ≤ capRho D x0 k a' ∧
      capRho D x0 k a' ≤ capRho D x0 k a := by
  have hc := cap_anti ⟨h1.trans h2, h3.trans h4⟩ hm
  have i1 : a ∈ Icc a b := ⟨le_rfl, by linarith⟩
  have i2 : a' ∈ Icc a b := ⟨h1, by linarith⟩
  have i3 : b' ∈ Icc a b := ⟨by linarith, h4⟩
  have i4 : b ∈ Icc a b := ⟨by linarith, le_rfl⟩
  exact ⟨hc i3 i4 h4, hc i2 i3 (h2.trans h3), hc i1 i2 h1⟩

/-! ### `monotone_over` of a smaller region -/

theorem monotoneLoop_sub {minima : List ℝ} {a' b' a b : ℝ} (h1 : a ≤ a') (h2 : b' ≤ b) (l : List ℝ) :
    ∀ (prev : Option ℝ) (st' st : Bool × Bool), (st.1 = true → st'.1 = true) → (st.2 = true → st'.2 = true) →
      ((monotoneLoop minima a b prev l st).1 = true → (monotoneLoop minima a' b' prev l st').1 = true) ∧
      ((monotoneLoop minima a b prev l st).2 = true → (monotoneLoop minima a' b' prev l st').2 = true) := by
  induction l with
  | nil => exact fun _ _ _ h1 h2 => ⟨h1, h2⟩
  | cons x xs ih =>
    intro prev st' st hs1 hs2
    have hb : betweenExtrema a b prev x = true → betweenExtrema a' b' prev x = true := by
      cases prev with
      | none => simp only [betweenExtrema, decide_eq_true_eq]; exact fun h => h2.trans h
      | some p =>
        simp only [betweenExtrema, Bool.and_eq_true, decide_eq_true_eq]
        exact fun h => ⟨h.1.trans h1, h2.trans h.2⟩
    have ha : a ≥ x → a' ≥ x := fun h => le_trans h h1
    simp only [monotoneLoop]
    refine ih _ _ _ ?_ ?_
    · unfold monotoneStep
      by_cases hm : x ∈ minima <;> by_cases hl : xs.isEmpty = true <;> simp [hm, hl] <;> tauto
    · unfold monotoneStep
      by_cases hm : x ∈ minima <;> by_cases hl : xs.isEmpty = true <;> simp [hm, hl] <;> tauto

theorem monotoneOver_sub (d : FunctionData ℝ) {a' b' a b : ℝ} (h1 : a ≤ a') (h2 : b' ≤ b) :
    ((d.monotoneOver a b).1 = true → (d.monotoneOver a' b').1 = true) ∧
    ((d.monotoneOver a b).2 = true → (d.monotoneOver a' b').2 = true) :=
  monotoneLoop_sub h1 h2 _ _ _ _ id id

theorem minimumValue_attained (f : ℝ → ℝ) {a b : ℝ} (hab : a ≤ b) (l : List ℝ) :
    ∃ x ∈ Icc a b, minimumValue f a b l = f x := by
  rcases minimumValue_spec f a b l with ⟨x, -, h1, h2, h, -⟩ | ⟨-, h⟩
  · exact ⟨x, ⟨h1, h2⟩, h⟩
  · rcases min_choice (f a) (f b) with e | e
    · exact ⟨a, ⟨le_rfl, hab⟩, h.trans e⟩
    · exact ⟨b, ⟨hab, le_rfl⟩, h.trans e⟩

theorem maximumValue_attained (f : ℝ → ℝ) {a b : ℝ} (hab : a ≤ b) (l : List ℝ) :
    ∃ x ∈ Icc a b, maximumValue f a b l = f x := by
  rcases maximumValue_spec f a b l with ⟨x, -, h1, h2, h, -⟩ | ⟨-, h⟩
  · exact ⟨x, ⟨h1, h2⟩, h⟩
  · rcases max_choice (f a) (f b) with e | e
    · exact ⟨a, ⟨le_rfl, hab⟩, h.trans e⟩
    · exact ⟨b, ⟨hab, le_rfl⟩, h.trans e⟩

/-! ### `get_elementwise_taylor_enclosure` -/

/-- the table is right about the region, in terms of the ratio -/
structure RouteOk (n : FName) (k : ℕ) (d : FunctionData ℝ) (x0 a b : ℝ) : Prop where
  sup : supportedOrder n k
  data : getFunctionData ⟨n, k⟩ = .ok d
  noQuad : ¬ (k = 2 ∧ d.evenSymmetric = true)
  inc : d.increasing = true ∨ (d.monotoneOver a b).2 = true → MonotoneOn (rho (derivFun n) x0 k) (Icc a b)
  dec : d.decreasing = true ∨ (d.monotoneOver a b).1 = true → AntitoneOn (rho (derivFun n) x0 k) (Icc a b)
  range : (d.monotoneOver a b).1 = false → (d.monotoneOver a b).2 = false →
    ∀ r, getRange ⟨n, k⟩ a b = .ok r → ∀ x ∈ Icc a b, r.1 ≤ derivFun n k x ∧ derivFun n k x ≤ r.2 ∧
      r.1 / k.factorial ≤ rho (derivFun n) x0 k x ∧ rho (derivFun n) x0 k x ≤ r.2 / k.factorial

theorem iso_route {n : FName} {k : ℕ} {d' d : FunctionData ℝ} {x0 a' b' a b : ℝ} (h1 : a ≤ a') (h2 : a' ≤ x0)
    (h3 : x0 ≤ b') (h4 : b' ≤ b) (H' : RouteOk n k d' x0 a' b') (H : RouteOk n k d x0 a b) {s' s : SEncl ℝ}
    (e' : getElementwiseTaylorEnclosure ⟨n, 0⟩ x0 a' b' k = .ok s')
    (e : getElementwiseTaylorEnclosure ⟨n, 0⟩ x0 a b k = .ok s) :
    s.2.1 ≤ s'.2.1 ∧ s'.2.1 ≤ s'.2.2 ∧ s'.2.2 ≤ s.2.2 := by
  have hdd : d' = d := by
    have := H'.data
    rw [H.data] at this
    exact (Except.ok.inj this).symm
  subst hdd
  have hr' := getRange_ok H'.sup H'.data a' b'
  have hr := getRange_ok H.sup H.data a b
  rw [elementwise_cap H'.sup H'.data hr'] at e'
  rw [elementwise_cap H.sup H.data hr] at e
  have hab' : a' ≤ b' := h2.trans h3
  have hI' : ∀ x ∈ Icc a' b', x ∈ Icc a b := fun x hx => ⟨h1.trans hx.1, hx.2.trans h4⟩
  obtain ⟨sub1, sub2⟩ := monotoneOver_sub d' h1 h4
  by_cases hf : (d'.increasing || d'.decreasing) = true
  · rw [if_pos hf] at e e'
    cases e; cases e'
    by_cases hi : d'.increasing = true
    · rw [if_pos hi, if_pos hi]
      exact nest_mono h1 h2 h3 h4 (H.inc (Or.inl hi))
    · rw [if_neg hi, if_neg hi]
      exact nest_anti h1 h2 h3 h4 (H.dec (Or.inl (by simpa [hi] using hf)))
  rw [if_neg hf, if_neg H.noQuad] at e e'
  cases e; cases e'
  simp only
  have i2 : a' ∈ Icc a b := hI' a' ⟨le_rfl, hab'⟩
  have i3 : b' ∈ Icc a b := hI' b' ⟨hab', le_rfl⟩
  have i0 : x0 ∈ Icc a b := hI' x0 ⟨h2, h3⟩
  by_cases m1 : (d'.monotoneOver a b).1 = true
  · rw [if_pos m1, if_pos (sub1 m1)]
    exact nest_anti h1 h2 h3 h4 (H.dec (Or.inr m1))
  rw [if_neg m1]
  by_cases m2 : (d'.monotoneOver a b).2 = true
  · rw [if_pos m2]
    have hm := nest_mono h1 h2 h3 h4 (H.inc (Or.inr m2))
    by_cases m1' : (d'.monotoneOver a' b').1 = true
    · rw [if_pos m1']
      have ha := nest_anti le_rfl h2 h3 le_rfl (H'.dec (Or.inr m1'))
      exact ⟨hm.1.trans hm.2.1, ha.2.1, hm.2.1.trans hm.2.2⟩
    · rw [if_neg m1', if_pos (sub2 m2)]
      exact hm
  rw [if_neg m2]
  have hR := H.range (by simpa using m1) (by simpa using m2) _ hr
  have c0 := (hR x0 i0).2.2
  have c2 := cap_between c0 (hR a' i2).2.2
  have c3 := cap_between c0 (hR b' i3).2.2
  by_cases m1' : (d'.monotoneOver a' b').1 = true
  · rw [if_pos m1']
    exact ⟨c3.1, (nest_anti le_rfl h2 h3 le_rfl (H'.dec (Or.inr m1'))).2.1, c2.2⟩
  rw [if_neg m1']
  by_cases m2' : (d'.monotoneOver a' b').2 = true
  · rw [if_pos m2']
    exact ⟨c2.1, (nest_mono le_rfl h2 h3 le_rfl (H'.inc (Or.inr m2'))).2.1, c3.2⟩
  rw [if_neg m2']
  have hR' := H'.range (by simpa using m1') (by simpa using m2') _ hr'
  obtain ⟨y, hy, ey⟩ := minimumValue_attained (derivFun n k) hab' d'.localMinima
  obtain ⟨z, hz, ez⟩ := maximumValue_attained (derivFun n k) hab' d'.localMaxima
  have hfac : (0 : ℝ) < k.factorial := by positivity
  have q1 := (hR y (hI' y hy)).1
  have q2 := (hR z (hI' z hz)).2.1
  rw [← ey] at q1
  rw [← ez] at q2
  have q3 := (hR' x0 ⟨h2, h3⟩).1.trans (hR' x0 ⟨h2, h3⟩).2.1
  exact ⟨(div_le_div_iff_of_pos_right hfac).2 q1, (div_le_div_iff_of_pos_right hfac).2 q3,
    (div_le_div_iff_of_pos_right hfac).2 q2⟩


theorem route_truthful {n : FName} {k : ℕ} {x0 a b : ℝ} (hx0 : x0 ∈ Icc a b) (hdom : Icc a b ⊆ smoothDomain n)
    (h : TableTruthful n k a b) : ∃ d, RouteOk n k d x0 a b := by
  have hk := truthful_supported h
  obtain ⟨d, r, h1, h2, h3, h4, h5, h6⟩ := h
  have hD : EqOn (iteratedDeriv k (mathFun n)) (derivFun n k) (Icc a b) := fun x hx =>
    ((C25_derivative_formulas (n := n) (k := k) (g := derivFun n k) (by
      simpa [FunctionId.derivativeId] using getFunction_eq.2 ⟨hk, rfl⟩)).1 x (hdom hx)).symm
  have hcx : Convex ℝ (Icc a b) := convex_Icc a b
  have hch : Chain (derivFun n) k (Icc a b) := fun i hi x hx =>
    (hasDerivAt_derivFun (supportedOrder_mono hk hi) (hdom hx)).hasDerivWithinAt
  obtain ⟨f1, f2, -⟩ := C26_flags (getFunction_eq.2 ⟨hk, rfl⟩) h1
  have hsub : Icc a b ⊆ flagDomain n := by
    cases n with
    | log => exact hdom
    | _ => exact subset_univ _
  refine ⟨d, hk, h1, h3, ?_, ?_, ?_⟩
  · intro hf
    refine rho_mono hcx hch ?_ hx0
    rcases hf with hf | hf
    · exact (f1 hf).mono hsub
    · exact (h5 hf).congr hD
  · intro hf
    refine rho_anti hcx hch ?_ hx0
    rcases hf with hf | hf
    · exact (f2 hf).mono hsub
    · exact (h4 hf).congr hD
  · intro m1 m2 r' hr' x hx
    rw [h2] at hr'
    cases hr'
    have hR : ∀ y ∈ Icc a b, r.1 ≤ derivFun n k y ∧ derivFun n k y ≤ r.2 := fun y hy => by
      rw [← hD hy]; exact h6 m1 m2 y hy
    exact ⟨(hR x hx).1, (hR x hx).2, le_rho hcx hch (fun y hy => (hR y hy).1) hx0 hx,
      rho_le hcx hch (fun y hy => (hR y hy).2) hx0 hx⟩

theorem route_abs {k : ℕ} (hk : k ≤ 1) {x0 a b : ℝ} (hx0 : x0 ∈ Icc a b) : ∃ d, RouteOk .abs k d x0 a b := by
  have : k = 0 ∨ k = 1 := by omega
  rcases this with rfl | rfl
  · have hs : supportedOrder .abs 0 := by simp [supportedOrder]
    have hd : getFunctionData ⟨.abs, 0⟩ = .ok ⟨[0], [], false, false, true⟩ := rfl
    have hext : ExtremaOf (derivFun .abs 0) [0] [] := by
      refine ⟨?_, ?_, by simp, by simp⟩
      · intro m hm u _ x hx y hy h
        rw [List.mem_singleton.1 hm] at hx hy
        simp only [derivFun]
        rw [abs_of_nonpos hx.2, abs_of_nonpos hy.2]
        linarith
      · intro m hm u _ x hx y hy h
        rw [List.mem_singleton.1 hm] at hx hy
        simp only [derivFun]
        rwa [abs_of_nonneg hx.1, abs_of_nonneg hy.1]
    have hmo := C28_monotone_over (d := ⟨[0], [], false, false, true⟩) hext (by simp) (by simp) a b
    have hch : Chain (derivFun .abs) 0 (Icc a b) := fun i hi => by omega
    have hcx : Convex ℝ (Icc a b) := convex_Icc a b
    refine ⟨_, hs, hd, by simp, ?_, ?_, ?_⟩
    · rintro (h | h)
      · cases h
      · exact rho_mono hcx hch (hmo.2 h) hx0
    · rintro (h | h)
      · cases h
      · exact rho_anti hcx hch (hmo.1 h) hx0
    · intro _ _ r hr
      rw [getRange_ok hs hd] at hr
      obtain rfl := Except.ok.inj hr
      have hR : ∀ x ∈ Icc a b, minimumValue (derivFun .abs 0) a b [0] ≤ |x| ∧
          |x| ≤ maximumValue (derivFun .abs 0) a b [] := by
        intro x hx
        constructor
        · rcases minimumValue_spec (derivFun .abs 0) a b [0] with ⟨y, hy, -, -, h, -⟩ | ⟨h1, h⟩
          · rw [h, List.mem_singleton.1 hy]; simp [derivFun]
          · rw [h]
            have := h1 0 (by simp)
            simp only [derivFun]
            rcases not_and_or.1 this with h2 | h2
            · have h2 := not_le.1 h2
              rw [abs_of_pos h2, abs_of_pos (h2.trans_le hx.1)]
              exact (min_le_left _ _).trans hx.1
            · have h2 := not_le.1 h2
              rw [abs_of_neg h2, abs_of_neg (hx.2.trans_lt h2)]
              exact (min_le_right _ _).trans (neg_le_neg hx.2)
        · rcases maximumValue_spec (derivFun .abs 0) a b [] with ⟨y, hy, -⟩ | ⟨h1, h⟩
          · cases hy
          · rw [h]; simp only [derivFun]; exact abs_le_max_abs_abs hx.1 hx.2
      intro x hx
      exact ⟨(hR x hx).1, (hR x hx).2, le_rho hcx hch (fun x hx => (hR x hx).1) hx0 hx,
        rho_le hcx hch (fun x hx => (hR x hx).2) hx0 hx⟩
  · have hs : supportedOrder .abs 1 := by simp [supportedOrder]
    have hd : getFunctionData ⟨.abs, 1⟩ = .ok ⟨[], [], false, true, false⟩ := rfl
    refine ⟨_, hs, hd, by simp, fun _ => (abs_rho_mono x0).monotoneOn _, ?_, ?_⟩
    · rw [monotoneOver_nil]; simp
    · rw [monotoneOver_nil]; simp

theorem route_table {n : FName} {k : ℕ} {x0 a b : ℝ} (hx0 : x0 ∈ Icc a b) (h : BuiltinTable n x0 a b k)
    (h2 : ¬ (n = .softplus ∧ k = 2)) : ∃ d, RouteOk n k d x0 a b := by
  cases n with
  | exp => exact route_truthful hx0 (subset_univ _) (truthful_exact (Or.inl rfl)).1
  | log =>
    have := truthful_exact (n := .log) (k := k) (a := a) (b := b) (Or.inr (Or.inl ⟨rfl, h⟩))
    exact route_truthful hx0 this.2 this.1
  | abs => exact route_abs h hx0
  | sigmoid =>
    rcases h with h | h
    · exact route_truthful hx0 (subset_univ _) (truthful_exact (Or.inr (Or.inr (Or.inl ⟨rfl, h⟩)))).1
    · exact route_truthful hx0 (subset_univ _) h
  | softplus =>
    rcases h with h | h | h
    · exact route_truthful hx0 (subset_univ _) (truthful_exact (Or.inr (Or.inr (Or.inr ⟨rfl, h⟩)))).1
    · exact absurd ⟨rfl, h⟩ h2
    · exact route_truthful hx0 (subset_univ _) h
  | swish => exact route_truthful hx0 (subset_univ _) h
  | other _ => exact absurd h id

/-- the quadratic rule -/
theorem iso_quadratic {D : ℕ → ℝ → ℝ} (hE : EvenHessian D) {x0 a' b' a b : ℝ} (h1 : a ≤ a') (h2 : a' ≤ x0)
    (h3 : x0 ≤ b') (h4 : b' ≤ b) :
    min (capRho D x0 2 a) (capRho D x0 2 b) ≤ min (capRho D x0 2 a') (capRho D x0 2 b') ∧
    min (capRho D x0 2 a') (capRho D x0 2 b') ≤ capRho D x0 2 (clip (-x0) a' b') ∧
    capRho D x0 2 (clip (-x0) a' b') ≤ capRho D x0 2 (clip (-x0) a b) := by
  obtain ⟨u1, u2⟩ := hE.unimodal x0
  have t0 := fun e => capTheta_nonneg x0 2 e
  have up : ∀ e, rho D x0 2 x0 ≤ rho D x0 2 e → rho D x0 2 x0 ≤ capRho D x0 2 e := by
    intro e he
    have := t0 e
    unfold capRho
    nlinarith
  have dn : ∀ e, rho D x0 2 e ≤ rho D x0 2 x0 → capRho D x0 2 e ≤ rho D x0 2 x0 := by
    intro e he
    have := t0 e
    unfold capRho
    nlinarith
  -- moving away from `x0` beyond a point below the value at `x0`
  have far : ∀ e' e, |e' - x0| ≤ |e - x0| → rho D x0 2 e ≤ rho D x0 2 e' → rho D x0 2 e' ≤ rho D x0 2 x0 →
      capRho D x0 2 e ≤ capRho D x0 2 e' := by
    intro e' e ha hr hr'
    have ht := capTheta_mono 2 ha
    have := t0 e'
    unfold capRho
    nlinarith
  -- towards the peak
  have near : ∀ e' e, |e' - x0| ≤ |e - x0| → rho D x0 2 e' ≤ rho D x0 2 e → rho D x0 2 x0 ≤ rho D x0 2 e' →
      capRho D x0 2 e' ≤ capRho D x0 2 e := by
    intro e' e ha hr hr'
    have ht := capTheta_mono 2 ha
    have := t0 e'
    unfold capRho
    nlinarith
  have hab : a ≤ b := by linarith
  have hab' : a' ≤ b' := by linarith
  have habs : ∀ e' e, (e ≤ e' ∧ e' ≤ x0) ∨ (x0 ≤ e' ∧ e' ≤ e) → |e' - x0| ≤ |e - x0| := by
    rintro e' e (⟨g1, g2⟩ | ⟨g1, g2⟩)
    · rw [abs_of_nonpos (by linarith), abs_of_nonpos (by linarith)]; linarith
    · rw [abs_of_nonneg (by linarith), abs_of_nonneg (by linarith)]; linarith
  have lo : ∀ a' b' a b, a ≤ a' → a' ≤ x0 → x0 ≤ b' → b' ≤ b →
      min (capRho D x0 2 a) (capRho D x0 2 b) ≤ min (capRho D x0 2 a') (capRho D x0 2 b') := by
    intro a' b' a b h1 h2 h3 h4
    rcases le_total x0 (-x0) with hx | hx
    · -- the peak is to the right of `x0`
      have hle : ∀ e, e ≤ x0 → rho D x0 2 e ≤ rho D x0 2 x0 := fun e he => u1 (he.trans hx) hx he
      have hbase : capRho D x0 2 a ≤ rho D x0 2 x0 := dn a (hle a (h1.trans h2))
      have ga : capRho D x0 2 a ≤ capRho D x0 2 a' :=
        far a' a (habs _ _ (Or.inl ⟨h1, h2⟩)) (u1 (by simp; linarith) (by simp; linarith) h1) (hle a' h2)
      refine le_min ((min_le_left _ _).trans ga) ?_
      rcases le_total (rho D x0 2 x0) (rho D x0 2 b') with hb | hb
      · exact (min_le_left _ _).trans (hbase.trans (up b' hb))
      · rcases le_total b' (-x0) with hc | hc
        · have : rho D x0 2 x0 ≤ rho D x0 2 b' := u1 hx hc h3
          exact (min_le_left _ _).trans (hbase.trans (up b' this))
        · exact (min_le_right _ _).trans (far b' b (habs _ _ (Or.inr ⟨h3, h4⟩)) (u2 hc (hc.trans h4) h4) hb)
    · have hle : ∀ e, x0 ≤ e → rho D x0 2 e ≤ rho D x0 2 x0 := fun e he => u2 hx (hx.trans he) he
      have hbase : capRho D x0 2 b ≤ rho D x0 2 x0 := dn b (hle b (h3.trans h4))
      have gb : capRho D x0 2 b ≤ capRho D x0 2 b' :=
        far b' b (habs _ _ (Or.inr ⟨h3, h4⟩)) (u2 (by simp; linarith) (by simp; linarith) h4) (hle b' h3)
      refine le_min ?_ ((min_le_right _ _).trans gb)
      rcases le_total (rho D x0 2 x0) (rho D x0 2 a') with ha | ha
      · exact (min_le_right _ _).trans (hbase.trans (up a' ha))
      · rcases le_total (-x0) a' with hc | hc
        · have : rho D x0 2 x0 ≤ rho D x0 2 a' := u2 hc hx h2
          exact (min_le_right _ _).trans (hbase.trans (up a' this))
        · exact (min_le_left _ _).trans (far a' a (habs _ _ (Or.inl ⟨h1, h2⟩)) (u1 (h1.trans hc) hc h1) ha)
  -- the upper end: the clipped peak
  have hi : ∀ a' b' a b, a ≤ a' → a' ≤ x0 → x0 ≤ b' → b' ≤ b →
      capRho D x0 2 (clip (-x0) a' b') ≤ capRho D x0 2 (clip (-x0) a b) := by
    intro a' b' a b h1 h2 h3 h4
    unfold clip
    rcases le_total x0 (-x0) with hx | hx
    · rw [max_eq_left (show a' ≤ -x0 by linarith), max_eq_left (show a ≤ -x0 by linarith)]
      rcases le_total (-x0) b' with hb | hb
      · rw [min_eq_left hb, min_eq_left (hb.trans h4)]
      · rw [min_eq_right hb]
        have hle : b' ≤ min (-x0) b := le_min hb h4
        have hle2 : min (-x0) b ≤ -x0 := min_le_left _ _
        exact near _ _ (habs _ _ (Or.inr ⟨h3, hle⟩)) (u1 hb hle2 hle) (u1 hx hb h3)
    · rw [min_eq_left (show max (-x0) a' ≤ b' from max_le (by linarith) (by linarith)),
        min_eq_left (show max (-x0) a ≤ b from max_le (by linarith) (by linarith))]
      rcases le_total a' (-x0) with ha | ha
      · rw [max_eq_left ha, max_eq_left (h1.trans ha)]
      · rw [max_eq_right ha]
        have hle : max (-x0) a ≤ a' := max_le ha h1
        have hle2 : -x0 ≤ max (-x0) a := le_max_left _ _
        exact near _ _ (habs _ _ (Or.inl ⟨hle, h2⟩)) (u2 hle2 ha hle) (u2 ha hx h2)
  refine ⟨lo _ _ _ _ h1 h2 h3 h4, ?_, hi _ _ _ _ h1 h2 h3 h4⟩
  have := hi x0 x0 a' b' h2 le_rfl le_rfl h3
  have h5 := lo x0 x0 a' b' h2 le_rfl le_rfl h3
  have hc : clip (-x0) x0 x0 = x0 := by unfold clip; simp
  rw [hc] at this
  rw [min_self] at h5
  exact h5.trans this

theorem softplus2_eq {x0 a b : ℝ} {s : SEncl ℝ} (e : getElementwiseTaylorEnclosure ⟨.softplus, 0⟩ x0 a b 2 = .ok s) :
    s.2 = (min (capRho (derivFun .softplus) x0 2 a) (capRho (derivFun .softplus) x0 2 b),
      capRho (derivFun .softplus) x0 2 (clip (-x0) a b)) := by
  have hk : supportedOrder .softplus 2 := by simp [supportedOrder]
  have hd : getFunctionData ⟨.softplus, 2⟩ = .ok ⟨[], [0], false, false, true⟩ := rfl
  rw [elementwise_cap hk hd (getRange_ok hk hd a b)] at e
  simp only [Bool.or_self, Bool.false_eq_true, if_false, and_self, if_true] at e
  unfold sharpQuadratic at e
  rw [ratio_cap, ratio_cap, ratio_cap] at e
  cases e
  rfl

/-- the final interval of degree 0 does not depend on the reference point -/
theorem elementwise_zero {n : FName} {x0 y0 a b : ℝ} {s : SEncl ℝ} (hk : supportedOrder n 0) {d : FunctionData ℝ}
    (hd : getFunctionData ⟨n, 0⟩ = .ok d)
    (e : getElementwiseTaylorEnclosure ⟨n, 0⟩ x0 a b 0 = .ok s) :
    ∃ s', getElementwiseTaylorEnclosure ⟨n, 0⟩ y0 a b 0 = .ok s' ∧ s'.2 = s.2 := by
  rw [elementwise_cap hk hd (getRange_ok hk hd a b)] at e ⊢
  have h2 : ¬ ((0 : ℕ) = 2 ∧ d.evenSymmetric = true) := by simp
  rw [if_neg h2] at e ⊢
  simp only [cap_zero] at e ⊢
  by_cases hf : (d.increasing || d.decreasing) = true
  · rw [if_pos hf] at e ⊢
    cases e
    exact ⟨_, rfl, rfl⟩
  · rw [if_neg hf] at e ⊢
    cases e
    exact ⟨_, rfl, rfl⟩

theorem scalarIsotone_builtin (n : FName) :
    ScalarIsotone (fun x0 a b d => getElementwiseTaylorEnclosure ⟨n, 0⟩ x0 a b d) (BuiltinTable n) := by
  intro x0' x0 a' b' a b d s' s h1 h2 h3 h4 h5 h6 hd ok' ok e' e
  simp only at e e'
  by_cases hq : n = .softplus ∧ d = 2
  · obtain ⟨rfl, rfl⟩ := hq
    obtain rfl := hd (by norm_num)
    rw [softplus2_eq e, softplus2_eq e']
    exact iso_quadratic softplus_evenHessian h1 h2 h3 h4
  · have hx' : x0' ∈ Icc a b := ⟨h1.trans h2, h3.trans h4⟩
    obtain ⟨d1, H'⟩ := route_table ⟨h2, h3⟩ ok' hq
    obtain ⟨d2, H⟩ := route_table hx' (show BuiltinTable n x0' a b d from ok) hq
    rcases Nat.eq_zero_or_pos d with rfl | hd0
    · obtain ⟨t, ht, e2⟩ := elementwise_zero (y0 := x0') H.sup H.data e
      rw [← e2]
      exact iso_route h1 h2 h3 h4 H' H e' ht
    · obtain rfl := hd hd0.ne'
      exact iso_route h1 h2 h3 h4 H' H e' e

theorem scalarIsotone_pow (p : Expo ℝ) :
    ScalarIsotone (fun x0 a b d => powEnclosure (fun x p : ℝ => x ^ p) p x0 a b d) (PowTable p) := by
  intro x0' x0 a' b' a b d s' s h1 h2 h3 h4 h5 h6 hd ok' ok e' e
  simp only at e e'
  have hx' : x0' ∈ Icc a b := ⟨h1.trans h2, h3.trans h4⟩
  have key : ∃ t, powEnclosure (fun x p : ℝ => x ^ p) p x0' a b d = .ok t ∧ t.2 = s.2 ∧ powFinite p d x0' a b := by
    rcases Nat.eq_zero_or_pos d with rfl | hd0
    · have hf : powFinite p 0 x0' a b := by
        have g' := ok'.2
        have g := ok.2
        cases p with
        | frac q => exact ⟨g'.1, g.2⟩
        | int n =>
          refine ⟨fun h0 => ?_, g.2⟩
          exact g'.1 h0
      obtain ⟨i1, m1, r1⟩ := pow_mono ⟨h5, h6⟩ ok.1 ok.2
      obtain ⟨i2, m2, r2⟩ := pow_mono hx' ok.1 hf
      refine ⟨_, r2, ?_, hf⟩
      rw [r1] at e
      cases e
      have rz : ∀ y e, rho (powD p) y 0 e = powD p 0 e := fun y e => by
        have h := rho_spec (powD p) y 0 e
        simp at h
        exact h.symm
      have hab : a ≤ b := h5.trans h6
      have ia : a ∈ Icc a b := ⟨le_rfl, hab⟩
      have ib : b ∈ Icc a b := ⟨hab, le_rfl⟩
      simp only [cap_zero]
      cases i1 <;> cases i2 <;> simp only [if_true, if_false, Bool.false_eq_true] at m1 m2 ⊢
      · have q1 := m1 ia ib hab
        have q2 := m2 ia ib hab
        rw [rz, rz] at q1 q2
        rw [le_antisymm q1 q2]
      · have q1 := m1 ia ib hab
        have q2 := m2 ia ib hab
        rw [rz, rz] at q1 q2
        rw [le_antisymm q1 q2]
    · obtain rfl := hd hd0.ne'
      exact ⟨s, e, rfl, ok.2⟩
  obtain ⟨t, ht, e2, hf⟩ := key
  rw [← e2]
  obtain ⟨i, m, r⟩ := pow_mono hx' ok.1 hf
  obtain ⟨i', m', r'⟩ := pow_mono ⟨h2, h3⟩ ok'.1 ok'.2
  rw [r] at ht
  rw [r'] at e'
  cases ht; cases e'
  cases i <;> cases i' <;> simp only [if_true, if_false, Bool.false_eq_true] at m m' ⊢
  · exact nest_anti h1 h2 h3 h4 m
  · have q := nest_anti h1 h2 h3 h4 m
    have q' := nest_mono le_rfl h2 h3 le_rfl m'
    exact ⟨q.1.trans q.2.1, q'.2.1, q.2.1.trans q.2.2⟩
  · have q := nest_mono h1 h2 h3 h4 m
    have q' := nest_anti le_rfl h2 h3 le_rfl m'
    exact ⟨q.1.trans q.2.1, q'.2.1, q.2.1.trans q.2.2⟩
  · exact nest_mono h1 h2 h3 h4 m

namespace JB

theorem tableLib_isotone : LibIsotone tableLib where
  gen n g h := by
    simp only [tableLib] at h
    cases hn : builtinName n with
    | some b =>
      simp only [hn, Option.some.injEq] at h
      subst h
      exact isotone_lift (scalarIsotone_builtin b)
    | none =>
      simp only [hn] at h
      cases hq : rootExponent n with
      | none => rw [hq] at h; cases h
      | some q =>
        rw [hq] at h
        cases h
        exact isotone_lift (scalarIsotone_pow (.frac q))
  pow p := isotone_lift (scalarIsotone_pow p)

theorem tableLib_le : LibLe tableLib realLib where
  sem := rfl
  expo := rfl
  gen n := by
    cases hn : builtinName n with
    | some b =>
      exact Or.inr ⟨_, _, by simp only [tableLib, hn]; rfl, by simp only [realLib, realGen, hn], genLe_guard⟩
    | none =>
      cases hq : rootExponent n with
      | none => exact Or.inl ⟨by simp only [tableLib, hn, hq]; rfl, by simp only [realLib, realGen, hn, hq]; rfl⟩
      | some q =>
        exact Or.inr ⟨_, _, by simp only [tableLib, hn, hq]; rfl, by simp only [realLib, realGen, hn, hq]; rfl, genLe_guard⟩
  pow p := genLe_guard

end JB

end AB
