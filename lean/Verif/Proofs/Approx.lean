/-
Tables of extrema that are only approximately right: the k-th derivative is compared with a nearby continuous
function for which the table is exactly right.
-/
import Verif.Spec.Approx
import Verif.Props.Builtin
import Mathlib.MeasureTheory.Integral.IntervalIntegral.FundThmCalculus

set_option linter.unusedSectionVars false

namespace AB
open PE EF Set

/-- the `j`-fold integral of `g` from `x0` -/
noncomputable def iterInt (g : ℝ → ℝ) (x0 : ℝ) : ℕ → ℝ → ℝ
  | 0 => g
  | j + 1 => fun x => ∫ t in x0..x, iterInt g x0 j t

theorem continuous_iterInt {g : ℝ → ℝ} (hg : Continuous g) (x0 : ℝ) : ∀ j, Continuous (iterInt g x0 j)
  | 0 => hg
  | j + 1 => by
    have h := continuous_iterInt hg x0 j
    exact continuous_iff_continuousAt.2 fun x => (h.integral_hasStrictDerivAt x0 x).hasDerivAt.continuousAt

theorem hasDerivAt_iterInt {g : ℝ → ℝ} (hg : Continuous g) (x0 : ℝ) (j : ℕ) (x : ℝ) :
    HasDerivAt (iterInt g x0 (j + 1)) (iterInt g x0 j x) x :=
  ((continuous_iterInt hg x0 j).integral_hasStrictDerivAt x0 x).hasDerivAt

theorem rho_sub (F G : ℕ → ℝ → ℝ) (x0 : ℝ) (k : ℕ) (x : ℝ) :
    rho (fun i y => F i y - G i y) x0 k x = rho F x0 k x - rho G x0 k x := by
  unfold rho
  split_ifs
  · ring
  · rw [← sub_div, sub_sub_sub_comm, ← Finset.sum_sub_distrib]
    congr 3
    funext i
    ring

/-- The ratios of a function whose `k`-th derivative is within `η` of a monotone one are monotone up to
`2 η / k!`. -/
theorem rho_nearly_mono {F : ℕ → ℝ → ℝ} {k : ℕ} {a b η : ℝ} (hF : Chain F k (Icc a b)) {g : ℝ → ℝ}
    (hg : Continuous g) (hη : ∀ x ∈ Icc a b, |F k x - g x| ≤ η) (hm : MonotoneOn g (Icc a b)) {x0 : ℝ}
    (h0 : x0 ∈ Icc a b) {x y : ℝ} (hx : x ∈ Icc a b) (hy : y ∈ Icc a b) (hxy : x ≤ y) :
    rho F x0 k x ≤ rho F x0 k y + 2 * η / k.factorial := by
  set G : ℕ → ℝ → ℝ := fun i => iterInt g x0 (k - i) with hG
  have hcG : Chain G k (Icc a b) := by
    intro i hi z hz
    have e : k - i = (k - (i + 1)) + 1 := by omega
    simp only [hG, e]
    exact (hasDerivAt_iterInt hg x0 _ z).hasDerivWithinAt
  have hGk : G k = g := by simp [hG, iterInt]
  have hd : Chain (fun i y => F i y - G i y) k (Icc a b) := fun i hi z hz => (hF i hi z hz).sub (hcG i hi z hz)
  have hcx : Convex ℝ (Icc a b) := convex_Icc a b
  have h1 := rho_mono hcx hcG (by rw [hGk]; exact hm) h0 hx hy hxy
  have h2 := rho_le hcx hd (M := η) (fun z hz => by
    simp only [hGk]; exact (abs_le.1 (hη z hz)).2) h0 hx
  have h3 := le_rho hcx hd (m := -η) (fun z hz => by
    simp only [hGk]; exact (abs_le.1 (hη z hz)).1) h0 hy
  rw [rho_sub] at h2 h3
  have e : 2 * η / (k.factorial : ℝ) = η / k.factorial + η / k.factorial := by ring
  rw [neg_div] at h3
  rw [e]
  linarith

theorem rho_nearly_anti {F : ℕ → ℝ → ℝ} {k : ℕ} {a b η : ℝ} (hF : Chain F k (Icc a b)) {g : ℝ → ℝ}
    (hg : Continuous g) (hη : ∀ x ∈ Icc a b, |F k x - g x| ≤ η) (hm : AntitoneOn g (Icc a b)) {x0 : ℝ}
    (h0 : x0 ∈ Icc a b) {x y : ℝ} (hx : x ∈ Icc a b) (hy : y ∈ Icc a b) (hxy : x ≤ y) :
    rho F x0 k y ≤ rho F x0 k x + 2 * η / k.factorial := by
  have hn : Chain (fun i y => (fun _ _ => (0 : ℝ)) i y - F i y) k (Icc a b) := fun i hi z hz =>
    ((hasDerivAt_const z (0 : ℝ)).hasDerivWithinAt).sub (hF i hi z hz)
  have h := rho_nearly_mono hn hg.neg (η := η) (fun z hz => by
    rw [← abs_neg]
    have e : -((fun _ _ => (0 : ℝ)) k z - F k z - (-g) z) = F k z - g z := by
      simp only [Pi.neg_apply]; ring
    exact e ▸ hη z hz) hm.neg h0 hx hy hxy
  have hz : ∀ x, rho (fun _ _ => (0 : ℝ)) x0 k x = 0 := fun x => by simp [rho]
  rw [rho_sub, rho_sub, hz, hz] at h
  linarith

/-! ### the nearest listed extremum -/

theorem exists_nearest_ge (l : List ℝ) (x : ℝ) :
    (∀ e ∈ l, e < x) ∨ ∃ e ∈ l, x ≤ e ∧ ∀ e' ∈ l, x ≤ e' → e ≤ e' := by
  induction l with
  | nil => left; simp
  | cons c l ih =>
    by_cases hc : x ≤ c
    · rcases ih with h | ⟨e, he, h1, h2⟩
      · right
        refine ⟨c, by simp, hc, ?_⟩
        intro e' he' hx
        rcases List.mem_cons.1 he' with rfl | h'
        · exact le_rfl
        · exact absurd hx (not_le.2 (h e' h'))
      · right
        rcases le_total c e with hce | hce
        · refine ⟨c, by simp, hc, ?_⟩
          intro e' he' hx
          rcases List.mem_cons.1 he' with rfl | h'
          · exact le_rfl
          · exact hce.trans (h2 e' h' hx)
        · refine ⟨e, by simp [he], h1, ?_⟩
          intro e' he' hx
          rcases List.mem_cons.1 he' with rfl | h'
          · exact hce
          · exact h2 e' h' hx
    · rcases ih with h | ⟨e, he, h1, h2⟩
      · left
        intro e he
        rcases List.mem_cons.1 he with rfl | h'
        · exact not_le.1 hc
        · exact h e h'
      · right
        refine ⟨e, by simp [he], h1, ?_⟩
        intro e' he' hx
        rcases List.mem_cons.1 he' with rfl | h'
        · exact absurd hx hc
        · exact h2 e' h' hx

theorem exists_nearest_le (l : List ℝ) (x : ℝ) :
    (∀ e ∈ l, x < e) ∨ ∃ e ∈ l, e ≤ x ∧ ∀ e' ∈ l, e' ≤ x → e' ≤ e := by
  rcases exists_nearest_ge (l.map fun e => -e) (-x) with h | ⟨e, he, h1, h2⟩
  · left
    intro e he
    have := h (-e) (List.mem_map.2 ⟨e, he, rfl⟩)
    linarith
  · right
    obtain ⟨c, hc, rfl⟩ := List.mem_map.1 he
    refine ⟨c, hc, by linarith, fun e' he' hx => ?_⟩
    have := h2 (-e') (List.mem_map.2 ⟨e', he', rfl⟩) (by linarith)
    linarith

/-- Over a region with no listed minimum, the values are at least one of the values at the end points, if all
listed maxima are global. -/
theorem ExtremaOf.min_at_ends {g : ℝ → ℝ} {mi ma : List ℝ} (hE : ExtremaOf g mi ma) (hne : mi ++ ma ≠ [])
    (hmax : ∀ M ∈ ma, ∀ x, g x ≤ g M) {a b : ℝ} (hno : ∀ m ∈ mi, ¬ (a ≤ m ∧ m ≤ b)) {x : ℝ} (hx : x ∈ Icc a b) :
    g a ≤ g x ∨ g b ≤ g x := by
  rcases exists_nearest_ge (mi ++ ma) x with hR | ⟨e, he, e1, e2⟩
  · rcases exists_nearest_le (mi ++ ma) x with hL | ⟨f, hf, f1, f2⟩
    · obtain ⟨c, l, hc⟩ := List.exists_cons_of_ne_nil hne
      have hm : c ∈ mi ++ ma := by rw [hc]; simp
      exact absurd (hR c hm) (not_lt.2 (hL c hm).le)
    · have hno' : ∀ e ∈ mi ++ ma, ¬ (f < e ∧ e < b) := fun e he h =>
        absurd (f2 e he (hR e he).le) (not_le.2 h.1)
      rcases List.mem_append.1 hf with h | h
      · have hfa : f < a := by
          by_contra hc
          exact hno f h ⟨not_lt.1 hc, f1.trans hx.2⟩
        exact Or.inl (hE.after_min f h b hno' ⟨hfa.le, hx.1.trans hx.2⟩ ⟨f1, hx.2⟩ hx.1)
      · exact Or.inr (hE.after_max f h b hno' ⟨f1, hx.2⟩ ⟨f1.trans hx.2, le_rfl⟩ hx.2)
  · rcases List.mem_append.1 he with h | h
    · have hbe : b < e := by
        by_contra hc
        exact hno e h ⟨hx.1.trans e1, not_lt.1 hc⟩
      right
      exact hE.before_min e h x (fun e' he' hh => absurd (e2 e' he' hh.1.le) (not_le.2 hh.2)) ⟨le_rfl, e1⟩
        ⟨hx.2, hbe.le⟩ hx.2
    · have key : (∀ f ∈ mi ++ ma, f ≤ x → f < a) → g a ≤ g x := by
        intro hL
        refine hE.before_max e h a (fun e' he' hh => ?_) ⟨le_rfl, hx.1.trans e1⟩ ⟨hx.1, e1⟩ hx.1
        rcases le_total e' x with h' | h'
        · exact absurd (hL e' he' h') (not_lt.2 hh.1.le)
        · exact absurd (e2 e' he' h') (not_le.2 hh.2)
      rcases exists_nearest_le (mi ++ ma) x with hL | ⟨f, hf, f1, f2⟩
      · exact Or.inl (key fun f hf hh => absurd (hL f hf) (not_lt.2 hh))
      · by_cases hfa : f < a
        · exact Or.inl (key fun f' hf' hh => lt_of_le_of_lt (f2 f' hf' hh) hfa)
        · have hfM : f ∈ ma := by
            rcases List.mem_append.1 hf with h' | h'
            · exact absurd ⟨not_lt.1 hfa, f1.trans hx.2⟩ (hno f h')
            · exact h'
          left
          refine (hmax e h a).trans ?_
          refine hE.after_max f hfM e (fun e' he' hh => ?_) ⟨f1, e1⟩ ⟨f1.trans e1, le_rfl⟩ e1
          rcases le_total e' x with h' | h'
          · exact absurd (f2 e' he' h') (not_le.2 hh.1)
          · exact absurd (e2 e' he' h') (not_le.2 hh.2)

theorem ExtremaOf.neg {g : ℝ → ℝ} {mi ma : List ℝ} (hE : ExtremaOf g mi ma) : ExtremaOf (-g) ma mi where
  before_min m hm u h := (hE.before_max m hm u fun e he => h e (by simp at he ⊢; tauto)).neg
  after_min m hm u h := (hE.after_max m hm u fun e he => h e (by simp at he ⊢; tauto)).neg
  before_max m hm u h := (hE.before_min m hm u fun e he => h e (by simp at he ⊢; tauto)).neg
  after_max m hm u h := (hE.after_min m hm u fun e he => h e (by simp at he ⊢; tauto)).neg

theorem ExtremaOf.max_at_ends {g : ℝ → ℝ} {mi ma : List ℝ} (hE : ExtremaOf g mi ma) (hne : mi ++ ma ≠ [])
    (hmin : ∀ M ∈ mi, ∀ x, g M ≤ g x) {a b : ℝ} (hno : ∀ m ∈ ma, ¬ (a ≤ m ∧ m ≤ b)) {x : ℝ} (hx : x ∈ Icc a b) :
    g x ≤ g a ∨ g x ≤ g b := by
  have hne' : ma ++ mi ≠ [] := by
    intro h
    apply hne
    simp only [List.append_eq_nil_iff] at h ⊢
    tauto
  have := hE.neg.min_at_ends hne' (fun M hM x => by
    simp only [Pi.neg_apply, neg_le_neg_iff]; exact hmin M hM x) hno hx
  simpa using this

/-- the listed extrema after a strictly increasing change of variable -/
theorem ExtremaOf.comp {f φ : ℝ → ℝ} {mi ma : List ℝ} (hφ : StrictMono φ)
    (hE : ExtremaOf f (mi.map φ) (ma.map φ)) : ExtremaOf (fun x => f (φ x)) mi ma := by
  have tr : ∀ {u v : ℝ}, (∀ e ∈ mi ++ ma, ¬ (u < e ∧ e < v)) → ∀ e ∈ mi.map φ ++ ma.map φ, ¬ (φ u < e ∧ e < φ v) := by
    intro u v h e he
    rw [← List.map_append] at he
    obtain ⟨c, hc, rfl⟩ := List.mem_map.1 he
    rw [hφ.lt_iff_lt, hφ.lt_iff_lt]
    exact h c hc
  have sub : ∀ {u v x : ℝ}, x ∈ Icc u v → φ x ∈ Icc (φ u) (φ v) := fun h =>
    ⟨hφ.monotone h.1, hφ.monotone h.2⟩
  constructor
  · intro m hm u h x hx y hy hxy
    exact hE.before_min (φ m) (List.mem_map.2 ⟨m, hm, rfl⟩) (φ u) (tr h) (sub hx) (sub hy) (hφ.monotone hxy)
  · intro m hm u h x hx y hy hxy
    exact hE.after_min (φ m) (List.mem_map.2 ⟨m, hm, rfl⟩) (φ u) (tr h) (sub hx) (sub hy) (hφ.monotone hxy)
  · intro m hm u h x hx y hy hxy
    exact hE.before_max (φ m) (List.mem_map.2 ⟨m, hm, rfl⟩) (φ u) (tr h) (sub hx) (sub hy) (hφ.monotone hxy)
  · intro m hm u h x hx y hy hxy
    exact hE.after_max (φ m) (List.mem_map.2 ⟨m, hm, rfl⟩) (φ u) (tr h) (sub hx) (sub hy) (hφ.monotone hxy)

/-! ### the nearby function -/

/-- If `g` is continuous, within `η` of the `k`-th derivative on the region, has exactly the listed extrema, and
these are global, then the enclosure is right up to `2 η / k!`. -/
theorem builtin_of_nearby {n : FName} {k : ℕ} (hk : supportedOrder n k) {mi ma : List ℝ} {e : Bool}
    (hd : getFunctionData ⟨n, k⟩ = .ok ⟨mi, ma, false, false, e⟩) {x0 a b : ℝ} (hx0 : x0 ∈ Icc a b)
    (hdom : Icc a b ⊆ smoothDomain n) (ha : NotCapped x0 k a) (hb : NotCapped x0 k b)
    (hq : ¬ (k = 2 ∧ e = true)) {g : ℝ → ℝ} (hg : Continuous g) {η : ℝ}
    (hη : ∀ x ∈ Icc a b, |derivFun n k x - g x| ≤ η) (hE : ExtremaOf g mi ma) (hne : mi ++ ma ≠ [])
    (hmin : ∀ m ∈ mi, ∀ x, g m ≤ g x) (hmax : ∀ M ∈ ma, ∀ x, g x ≤ g M) :
    BuiltinApprox n k x0 a b (2 * η / k.factorial) := by
  have hl : ((taylorCoeffs (derivFun n) k x0).take k).length = k := by simp [taylorCoeffs]
  have hab : a ≤ b := hx0.1.trans hx0.2
  have haI : a ∈ Icc a b := left_mem_Icc.2 hab
  have hbI : b ∈ Icc a b := right_mem_Icc.2 hab
  have hcx : Convex ℝ (Icc a b) := convex_Icc a b
  have hch : Chain (derivFun n) k (Icc a b) := fun i hi x hx =>
    (hasDerivAt_derivFun (supportedOrder_mono hk hi) (hdom hx)).hasDerivWithinAt
  have hr := getRange_ok hk hd a b
  obtain ⟨hdec, hinc⟩ := C28_monotone_over (d := ⟨mi, ma, false, false, e⟩) hE (by simp) (by simp) a b
  unfold BuiltinApprox
  rw [elementwise_eq hk hd ha hb hr, ← derivFun_zero]
  simp only [Bool.or_self, Bool.false_eq_true, if_false, if_neg hq]
  refine ⟨_, rfl, hl, fun x h1 h2 => ?_⟩
  have hx : x ∈ Icc a b := ⟨h1, h2⟩
  split_ifs with h3 h4
  · refine has_of_rho (l := rho (derivFun n) x0 k b - _) (u := rho (derivFun n) x0 k a + _) ?_ ?_
    · have := rho_nearly_anti hch hg hη (hdec h3) hx0 hx hbI hx.2
      linarith
    · have := rho_nearly_anti hch hg hη (hdec h3) hx0 haI hx hx.1
      linarith
  · refine has_of_rho (l := rho (derivFun n) x0 k a - _) (u := rho (derivFun n) x0 k b + _) ?_ ?_
    · have := rho_nearly_mono hch hg hη (hinc h4) hx0 haI hx hx.1
      linarith
    · have := rho_nearly_mono hch hg hη (hinc h4) hx0 hx hbI hx.2
      linarith
  · have lo : ∀ y ∈ Icc a b, minimumValue (derivFun n k) a b mi - 2 * η ≤ derivFun n k y := by
      intro y hy
      have hy' := abs_le.1 (hη y hy)
      rcases minimumValue_spec (derivFun n k) a b mi with ⟨m, hm, m1, m2, h, -⟩ | ⟨hno, h⟩
      · have := abs_le.1 (hη m ⟨m1, m2⟩)
        have := hmin m hm y
        rw [h]
        linarith
      · rw [h]
        have hA := abs_le.1 (hη a haI)
        have hB := abs_le.1 (hη b hbI)
        rcases hE.min_at_ends hne hmax hno hy with h' | h'
        · have := min_le_left (derivFun n k a) (derivFun n k b)
          linarith
        · have := min_le_right (derivFun n k a) (derivFun n k b)
          linarith
    have hi : ∀ y ∈ Icc a b, derivFun n k y ≤ maximumValue (derivFun n k) a b ma + 2 * η := by
      intro y hy
      have hy' := abs_le.1 (hη y hy)
      rcases maximumValue_spec (derivFun n k) a b ma with ⟨m, hm, m1, m2, h, -⟩ | ⟨hno, h⟩
      · have := abs_le.1 (hη m ⟨m1, m2⟩)
        have := hmax m hm y
        rw [h]
        linarith
      · rw [h]
        have hA := abs_le.1 (hη a haI)
        have hB := abs_le.1 (hη b hbI)
        rcases hE.max_at_ends hne hmin hno hy with h' | h'
        · have := le_max_left (derivFun n k a) (derivFun n k b)
          linarith
        · have := le_max_right (derivFun n k a) (derivFun n k b)
          linarith
    have r1 := le_rho hcx hch lo hx0 hx
    have r2 := rho_le hcx hch hi hx0 hx
    rw [sub_div] at r1
    rw [add_div] at r2
    exact has_of_rho r1 r2

end AB
