/-
Taylor enclosures of analytic functions near a point, and tables made of them: used in C45 for trust regions of any size.
-/
import Verif.Props.Lead
import Verif.Proofs.Smooth
import Mathlib.Analysis.SpecialFunctions.Complex.Analytic
import Mathlib.Analysis.Calculus.IteratedDeriv.Defs

set_option linter.unusedSectionVars false

namespace AB
open PE EF Set Filter

/-- near `x`, the function `f` is the polynomial with the coefficients `cs`, plus `c * t ^ d`, plus at most
`M * |t| ^ (d + 1)` -/
def NearWith (f : ℝ → ℝ) (cs : ℕ → ℝ) (d : ℕ) (x c M δ : ℝ) : Prop :=
  0 < δ ∧ 0 ≤ M ∧ ∀ y, |y - x| < δ →
    |f y - ∑ i ∈ Finset.range d, cs i * (y - x) ^ i - c * (y - x) ^ d| ≤ M * |y - x| ^ (d + 1)

def Near (f : ℝ → ℝ) (cs : ℕ → ℝ) (d : ℕ) (x : ℝ) : Prop := ∃ c M δ, NearWith f cs d x c M δ

theorem near_of_analytic {f : ℝ → ℝ} {cs : ℕ → ℝ} {d : ℕ} {x : ℝ} (hf : AnalyticAt ℝ f x)
    (hc : ∀ i < d, cs i = iteratedDeriv i f x / i.factorial) : Near f cs d x := by
  have h := (hf.hasFPowerSeriesAt.isBigO_sub_partialSum_pow (d + 1)).exists_nonneg
  obtain ⟨M, hM, h⟩ := h
  rw [Asymptotics.isBigOWith_iff, Metric.eventually_nhds_iff] at h
  obtain ⟨δ, hδ, h⟩ := h
  refine ⟨iteratedDeriv d f x / d.factorial, M, δ, hδ, hM, fun y hy => ?_⟩
  have := h (y := y - x) (by rwa [Real.dist_eq, sub_zero])
  rw [add_sub_cancel, Real.norm_eq_abs, Real.norm_eq_abs, Real.norm_eq_abs,
    abs_of_nonneg (pow_nonneg (abs_nonneg (y - x)) (d + 1))] at this
  refine le_trans (le_of_eq ?_) this
  congr 1
  rw [FormalMultilinearSeries.partialSum, Finset.sum_range_succ, sub_sub]
  congr 1
  congr 1
  · refine Finset.sum_congr rfl fun i hi => ?_
    rw [hc i (Finset.mem_range.1 hi)]
    simp [FormalMultilinearSeries.ofScalars, mul_comm]
  · simp [FormalMultilinearSeries.ofScalars, mul_comm]

theorem analytic_mathFun {n : FName} {x : ℝ} (hx : x ∈ smoothDomain n) : AnalyticAt ℝ (mathFun n) x := by
  have hs : ∀ x : ℝ, AnalyticAt ℝ (fun y : ℝ => 1 + Real.exp y) x := fun x => by fun_prop
  have hs' : ∀ x : ℝ, AnalyticAt ℝ (fun y : ℝ => 1 + Real.exp (-y)) x := fun x => by fun_prop
  have hp : ∀ x : ℝ, 0 < 1 + Real.exp x := fun x => by positivity
  cases n with
  | abs =>
    have hx : x ≠ 0 := hx
    rcases lt_or_gt_of_ne hx with h | h
    · refine (analyticAt_id.neg : AnalyticAt ℝ (-id) x).congr ?_
      filter_upwards [eventually_lt_nhds h] with y hy
      exact (abs_of_neg hy).symm
    · refine (analyticAt_id : AnalyticAt ℝ id x).congr ?_
      filter_upwards [eventually_gt_nhds h] with y hy
      exact (abs_of_pos hy).symm
  | exp => exact analyticAt_rexp
  | log => exact analyticAt_id.log hx
  | sigmoid => exact analyticAt_const.div (hs' x) (hp _).ne'
  | softplus => exact (hs x).log (hp _)
  | swish => exact analyticAt_id.div (hs' x) (hp _).ne'
  | other _ => exact analyticAt_const

theorem coefOf_taylor {D : ℕ → ℝ → ℝ} {d i : ℕ} (hi : i ≤ d) {x : ℝ} :
    coefOf i (.ok (taylorCoeffs D d x)) = D i x / i.factorial := by
  have : i < d + 1 := by omega
  simp [coefOf, taylorCoeffs, List.getD_eq_getElem?_getD, this]

theorem near_congr {f f' : ℝ → ℝ} {cs : ℕ → ℝ} {d : ℕ} {x : ℝ} (h : f' =ᶠ[nhds x] f) (hn : Near f cs d x) : Near f' cs d x := by
  obtain ⟨c, M, δ, hδ, hM, hn⟩ := hn
  obtain ⟨ε, hε, h⟩ := Metric.eventually_nhds_iff.1 h
  refine ⟨c, M, min δ ε, lt_min hδ hε, hM, fun y hy => ?_⟩
  rw [h (by rw [Real.dist_eq]; exact hy.trans_le (min_le_right _ _))]
  exact hn y (hy.trans_le (min_le_left _ _))

theorem near_builtin {n : FName} {d : ℕ} (hd : supportedOrder n d) {x : ℝ} (hx : x ∈ smoothDomain n) :
    Near (mathFun n) (fun i => coefOf i (getTaylorPolynomialCoefficients ⟨n, 0⟩ d x)) d x := by
  refine near_of_analytic (analytic_mathFun hx) fun i hi => ?_
  rw [taylorCoefficients_eq hd, coefOf_taylor hi.le]
  congr 1
  exact (C25_derivative_formulas (n := n) (k := i) (g := derivFun n i) (by
      simpa [FunctionId.derivativeId] using getFunction_eq.2 ⟨supportedOrder_mono hd hi.le, rfl⟩)).1 x hx

theorem analytic_pow {p : Expo ℝ} {x : ℝ} (h : powOk p x) : AnalyticAt ℝ (powFun p) x := by
  cases p with
  | int n =>
    rcases h with h | h
    · exact analyticAt_id.zpow_nonneg h
    · exact analyticAt_id.zpow h
  | frac q =>
    have h : 0 < x := h
    have : AnalyticAt ℝ (fun y : ℝ => Real.exp (Real.log y * q)) x := by
      have := (analyticAt_id (𝕜 := ℝ) (z := x)).log h
      exact (this.mul analyticAt_const).rexp'
    refine this.congr ?_
    filter_upwards [eventually_gt_nhds h] with y hy
    exact (Real.rpow_def_of_pos hy q).symm

theorem near_pow {p : Expo ℝ} {x : ℝ} (h : powOk p x) (d : ℕ) :
    Near (powFun p) (fun i => coefOf i (.ok (powCoeffs (fun x p : ℝ => x ^ p) p d x))) d x := by
  refine near_of_analytic (analytic_pow h) fun i hi => ?_
  rw [powCoeffs_eq, coefOf_taylor hi.le, ← powD_zero]
  congr 1
  have hopen : IsOpen {y | powOk p y} := by
    cases p with
    | int n =>
      by_cases hn : 0 ≤ n
      · have : {y : ℝ | powOk (.int n) y} = univ := by ext y; simp [powOk, hn]
        rw [this]; exact isOpen_univ
      · have : {y : ℝ | powOk (.int n) y} = {0}ᶜ := by ext y; simp [powOk, hn]
        rw [this]; exact isOpen_compl_singleton
    | frac q => exact isOpen_Ioi
  exact (iteratedDeriv_chain hopen (n := i) (fun j _ y hy => hasDerivAt_powD hy j) i le_rfl x h).symm


/-! ### generators -/

section
open Classical
variable (f : ℝ → ℝ) (tc : ℕ → ℝ → Py (List ℝ))

/-- `f` has the expansion with the coefficients `tc` near `x` -/
def NearTc (d : ℕ) (x : ℝ) : Prop := (∃ l, tc d x = .ok l) ∧ Near f (fun i => coefOf i (tc d x)) d x

noncomputable def fixCoef (d : ℕ) (x : ℝ) (i : ℕ) : ℝ :=
  if NearTc f tc d x then coefOf i (tc d x) else if i = 0 then f x else 0

/-- the coefficients `tc` where they are right, and an arbitrary choice elsewhere -/
noncomputable def fixTc (d : ℕ) (x : ℝ) : Py (List ℝ) := .ok ((List.range d).map (fixCoef f tc d x))

/-- the data of the expansion -/
noncomputable def nearC (d : ℕ) (x : ℝ) : ℝ := if h : NearTc f tc d x then h.2.choose else 0
noncomputable def nearM (d : ℕ) (x : ℝ) : ℝ := if h : NearTc f tc d x then h.2.choose_spec.choose else 0
noncomputable def nearD (d : ℕ) (x : ℝ) : ℝ := if h : NearTc f tc d x then h.2.choose_spec.choose_spec.choose else 1

theorem near_spec {d : ℕ} {x : ℝ} (h : NearTc f tc d x) :
    NearWith f (fun i => coefOf i (tc d x)) d x (nearC f tc d x) (nearM f tc d x) (nearD f tc d x) := by
  unfold nearC nearM nearD
  rw [dif_pos h, dif_pos h, dif_pos h]
  exact h.2.choose_spec.choose_spec.choose_spec

theorem nearM_nonneg (d : ℕ) (x : ℝ) : 0 ≤ nearM f tc d x := by
  by_cases h : NearTc f tc d x
  · exact (near_spec f tc h).2.1
  · unfold nearM; rw [dif_neg h]

theorem nearD_pos (d : ℕ) (x : ℝ) : 0 < nearD f tc d x := by
  by_cases h : NearTc f tc d x
  · exact (near_spec f tc h).1
  · unfold nearD; rw [dif_neg h]; exact one_pos

/-- the enclosure: the final interval is `c ± M r`, where `r` is the radius of the region about `x0` -/
noncomputable def fixG (x0 a b : ℝ) (d : ℕ) : Py (SEncl ℝ) :=
  .ok ((List.range d).map (fixCoef f tc d x0),
    (nearC f tc d x0 - nearM f tc d x0 * max (b - x0) (x0 - a), nearC f tc d x0 + nearM f tc d x0 * max (b - x0) (x0 - a)))

/-- the condition under which the enclosure is right -/
def LocalOk (x0 a b : ℝ) (d : ℕ) : Prop :=
  d ≠ 0 ∧ NearTc f tc d x0 ∧ x0 - a < nearD f tc d x0 ∧ b - x0 < nearD f tc d x0

/-- the generator, restricted to points and regions for which the enclosure is right -/
noncomputable def localGen : TEA.Generator ℝ := guardGen (LocalOk f tc) (liftGen tc (fixG f tc))

/-- restrictions on the point only -/
def NearOk (x0 _a _b : ℝ) (d : ℕ) : Prop := d ≠ 0 ∧ NearTc f tc d x0
def FixOk (_x0 _a _b : ℝ) (d : ℕ) : Prop := d ≠ 0

noncomputable def nearGen : TEA.Generator ℝ := guardGen (NearOk f tc) (liftGen tc (fixG f tc))
noncomputable def otherGen : TEA.Generator ℝ := guardGen FixOk (liftGen (fixTc f tc) (fixG f tc))

/-- all entries of the point are fine -/
def AllNear (x0 : ND ℝ) (d : ℕ) : Prop := d ≠ 0 ∧ ∀ I, ValidIdx x0.shape I → NearTc f tc d (x0.get I)

/-- a generator that always returns (in positive degree) -/
noncomputable def fixGen : TEA.Generator ℝ := fun x0 tr d =>
  if AllNear f tc x0 d then nearGen f tc x0 tr d else otherGen f tc x0 tr d

theorem near_zero {d : ℕ} (hd : d ≠ 0) {x : ℝ} (h : NearTc f tc d x) : coefOf 0 (tc d x) = f x := by
  have := (near_spec f tc h).2.2 x (by rw [sub_self, abs_zero]; exact nearD_pos f tc d x)
  obtain ⟨k, rfl⟩ := Nat.exists_eq_succ_of_ne_zero hd
  rw [sub_self, abs_zero, zero_pow (by omega), mul_zero, zero_pow (by omega), mul_zero, sub_zero, Finset.sum_range_succ'] at this
  simp only [pow_succ, mul_zero, Finset.sum_const_zero, zero_add, pow_zero, mul_one] at this
  have := abs_nonpos_iff.1 this
  linarith

theorem fix_zero {d : ℕ} (hd : d ≠ 0) (x : ℝ) : fixCoef f tc d x 0 = f x := by
  unfold fixCoef
  split_ifs with h
  · exact near_zero f tc hd h
  · rfl
  · exact absurd rfl ‹_›

theorem fixG_getD {d i : ℕ} (hi : i < d) (x : ℝ) : ((List.range d).map (fixCoef f tc d x)).getD i 0 = fixCoef f tc d x i := by
  simp [List.getD_eq_getElem?_getD, hi]

theorem fixG_isotone : ScalarIsotone (fixG f tc) FixOk := by
  intro x0' x0 a' b' a b d s' s h1 h2 h3 h4 h5 h6 h7 hd _ h' h
  cases h7 hd
  cases h; cases h'
  have hM := nearM_nonneg f tc d x0'
  have hr : max (b' - x0') (x0' - a') ≤ max (b - x0') (x0' - a) := max_le_max (by linarith) (by linarith)
  have h0 : 0 ≤ max (b' - x0') (x0' - a') := le_max_of_le_left (by linarith)
  have := mul_le_mul_of_nonneg_left hr hM
  have := mul_nonneg hM h0
  exact ⟨by simp only; linarith, by simp only; linarith, by simp only; linarith⟩

theorem fixG_lipschitz : ScalarLipschitz (fixG f tc) FixOk := by
  intro x0 a b d h1 h2 hd
  refine ⟨2 * nearM f tc d x0, by have := nearM_nonneg f tc d x0; linarith, fun x0' a' b' s' _ k2 k3 _ k5 _ h => ?_⟩
  cases k5 hd
  cases h
  have hM := nearM_nonneg f tc d x0
  have hr : max (b' - x0) (x0 - a') ≤ b' - a' := max_le (by linarith) (by linarith)
  have := mul_le_mul_of_nonneg_left hr hM
  simp only
  linarith

theorem fixG_at_ref : ScalarSoundOn (fun d x0 x => d = 0 ∨ x = x0) f (fixTc f tc) (fixG f tc) FixOk := by
  intro x0 a b d s h1 h2 hd h
  cases h
  have hM := nearM_nonneg f tc d x0
  have h0 : 0 ≤ max (b - x0) (x0 - a) := le_max_of_le_left (by linarith)
  have := mul_nonneg hM h0
  refine ⟨by simp, by simp only; linarith, fun x _ _ hP => ?_, ⟨_, rfl, fun i _ => rfl⟩⟩
  rcases hP with h | rfl
  · exact absurd h hd
  · refine ⟨nearC f tc d x, by simp only; linarith, by simp only; linarith, ?_⟩
    obtain ⟨k, rfl⟩ := Nat.exists_eq_succ_of_ne_zero hd
    have e := fixG_getD f tc (show 0 < k + 1 by omega) x
    simp only [List.length_map, List.length_range, Nat.succ_eq_add_one] at e ⊢
    rw [sub_self, Finset.sum_range_succ', e, fix_zero f tc (by omega)]
    simp [pow_succ]

theorem fixG_near : ScalarSoundOn (fun d x0 x => d = 0 ∨ x = x0) f tc (fixG f tc) (NearOk f tc) := by
  intro x0 a b d s h1 h2 ⟨hd, hn⟩ h
  obtain ⟨k1, k2, k3, -⟩ := fixG_at_ref f tc x0 a b d s h1 h2 hd h
  cases h
  obtain ⟨l, hl⟩ := hn.1
  refine ⟨k1, k2, k3, l, hl, fun i hi => ?_⟩
  simp only
  rw [fixG_getD f tc hi, fixCoef, if_pos hn, hl]
  rfl

theorem fixG_local : ScalarSound f tc (fixG f tc) (LocalOk f tc) := by
  intro x0 a b d s h1 h2 ⟨hd, hn, ha, hb⟩ h
  cases h
  have hM := nearM_nonneg f tc d x0
  have h0 : 0 ≤ max (b - x0) (x0 - a) := le_max_of_le_left (by linarith)
  have h00 := mul_nonneg hM h0
  refine ⟨by simp, by simp only; linarith, fun x hx hx' => ?_, ?_⟩
  swap
  · obtain ⟨l, hl⟩ := hn.1
    refine ⟨l, hl, fun i hi => ?_⟩
    simp only
    rw [fixG_getD f tc hi, fixCoef, if_pos hn, hl]
    rfl
  obtain ⟨hδ, -, hs⟩ := near_spec f tc hn
  have hax : |x - x0| ≤ max (b - x0) (x0 - a) := by
    rw [abs_le']
    exact ⟨le_max_of_le_left (by linarith), le_max_of_le_right (by linarith)⟩
  have := hs x (lt_of_le_of_lt hax (max_lt hb ha))
  have hsum : ∑ i ∈ Finset.range d, ((List.range d).map (fixCoef f tc d x0)).getD i 0 * (x - x0) ^ i =
      ∑ i ∈ Finset.range d, coefOf i (tc d x0) * (x - x0) ^ i := by
    refine Finset.sum_congr rfl fun i hi => ?_
    rw [fixG_getD f tc (Finset.mem_range.1 hi), fixCoef, if_pos hn]
  unfold SEncl.Has
  simp only [List.length_map, List.length_range]
  rw [hsum]
  by_cases hz : x - x0 = 0
  · refine ⟨nearC f tc d x0, by linarith, by linarith, ?_⟩
    rw [hz, abs_zero, zero_pow (show d + 1 ≠ 0 by omega), mul_zero, zero_pow hd, mul_zero] at this
    have := abs_nonpos_iff.1 this
    rw [hz, zero_pow hd]
    linarith
  · have hp : 0 < |x - x0| := abs_pos.2 hz
    have hzd : (x - x0) ^ d ≠ 0 := pow_ne_zero _ hz
    set S := ∑ i ∈ Finset.range d, coefOf i (tc d x0) * (x - x0) ^ i
    have hq : |(f x - S) / (x - x0) ^ d - nearC f tc d x0| ≤ nearM f tc d x0 * |x - x0| := by
      have e : (f x - S) / (x - x0) ^ d - nearC f tc d x0 = (f x - S - nearC f tc d x0 * (x - x0) ^ d) / (x - x0) ^ d := by
        field_simp
      rw [e, abs_div, abs_pow, div_le_iff₀ (pow_pos hp d)]
      calc _ ≤ _ := this
        _ = _ := by rw [pow_succ]; ring
    have hm := mul_le_mul_of_nonneg_left hax hM
    have hq := abs_le.1 hq
    refine ⟨(f x - S) / (x - x0) ^ d, by linarith [hq.1], by linarith [hq.2], ?_⟩
    field_simp
    ring

theorem nearOk_isotone : ScalarIsotone (fixG f tc) (NearOk f tc) :=
  fun x0' x0 a' b' a b d s' s h1 h2 h3 h4 h5 h6 h7 k1 k2 => fixG_isotone f tc x0' x0 a' b' a b d s' s h1 h2 h3 h4 h5 h6 h7 k1.1 k2.1

theorem nearOk_lipschitz : ScalarLipschitz (fixG f tc) (NearOk f tc) := by
  intro x0 a b d h1 h2 hd
  obtain ⟨C, h0, h⟩ := fixG_lipschitz f tc x0 a b d h1 h2 hd.1
  exact ⟨C, h0, fun x0' a' b' s' k1 k2 k3 k4 k5 k6 => h x0' a' b' s' k1 k2 k3 k4 k5 k6.1⟩

theorem fixGen_isotone : IsotoneGen (fixGen f tc) := by
  intro x0' x0 lo' hi' lo hi d e' e R h1 h2 h3 h4 h5 h6 h' h
  unfold fixGen at h h'
  by_cases hd : d = 0
  · subst hd
    rw [if_neg fun h => h.1 rfl] at h h'
    exact isotone_lift (fixG_isotone f tc) x0' x0 lo' hi' lo hi 0 e' e R h1 h2 h3 h4 h5 h6 h' h
  · have := h6 hd
    subst this
    by_cases hc : AllNear f tc x0' d
    · rw [if_pos hc] at h h'
      exact isotone_lift (nearOk_isotone f tc) x0' x0' lo' hi' lo hi d e' e R h1 h2 h3 h4 h5 h6 h' h
    · rw [if_neg hc] at h h'
      exact isotone_lift (fixG_isotone f tc) x0' x0' lo' hi' lo hi d e' e R h1 h2 h3 h4 h5 h6 h' h

theorem fixGen_lipschitz : LipschitzGen (fixGen f tc) := by
  intro x0 lo hi d e R h1 h2 h3 h
  unfold fixGen at h ⊢
  by_cases hc : AllNear f tc x0 d
  · rw [if_pos hc] at h
    obtain ⟨C, h0, hC⟩ := lipschitz_lift (nearOk_lipschitz f tc) x0 lo hi d e R h1 h2 h3 h
    refine ⟨C, h0, fun x0' lo' hi' e' w k1 k2 k3 k4 k5 k6 k7 => hC x0' lo' hi' e' w k1 k2 k3 k4 k5 k6 ?_⟩
    rw [k5 hc.1] at k7 ⊢
    rwa [if_pos hc] at k7
  · rw [if_neg hc] at h
    obtain ⟨C, h0, hC⟩ := lipschitz_lift (fixG_lipschitz f tc) x0 lo hi d e R h1 h2 h3 h
    refine ⟨C, h0, fun x0' lo' hi' e' w k1 k2 k3 k4 k5 k6 k7 => hC x0' lo' hi' e' w k1 k2 k3 k4 k5 k6 ?_⟩
    by_cases hd : d = 0
    · subst hd
      rwa [if_neg fun h => h.1 rfl] at k7
    · rw [k5 hd] at k7 ⊢
      rwa [if_neg hc] at k7

theorem fixGen_cases {x0 : ND ℝ} {tr : ND ℝ × ND ℝ} {d : ℕ} {e : Encl ℝ} (h : fixGen f tc x0 tr d = .ok e) :
    nearGen f tc x0 tr d = .ok e ∨ otherGen f tc x0 tr d = .ok e := by
  unfold fixGen at h
  split_ifs at h
  · exact Or.inl h
  · exact Or.inr h

theorem fixGen_arr : ArrGen (fixGen f tc) := by
  intro x0 tr d e h
  rcases fixGen_cases f tc h with h | h
  · exact arrGen_guard (arrGen_lift _ _) x0 tr d e h
  · exact arrGen_guard (arrGen_lift _ _) x0 tr d e h

theorem fixGen_full : JB.GenFull (fixGen f tc) := by
  intro x0 tr d e h
  rcases fixGen_cases f tc h with h | h
  · exact JB.full_guard (JB.full_lift _ _) x0 tr d e h
  · exact JB.full_guard (JB.full_lift _ _) x0 tr d e h

theorem fixGen_keeps : KeepsShape (fixGen f tc) := by
  intro x0 tr d e h
  rcases fixGen_cases f tc h with h | h
  · exact keepsShape_guard (keepsShape_lift _ _) x0 tr d e h
  · exact keepsShape_guard (keepsShape_lift _ _) x0 tr d e h

theorem fixGen_at (xs : List ℕ) : SoundGeneratorAt ⟨xs, fun _ => 0⟩ f (fun _ => True) (fixGen f tc) := by
  intro x0 lo hi d e R h1 h2 h3 h4 h5 h
  rcases fixGen_cases f tc h with h | h
  · exact soundGeneratorAt_lift (fixG_near f tc) xs x0 lo hi d e R h1 h2 h3 h4 h5 h
  · exact soundGeneratorAt_lift (fixG_at_ref f tc) xs x0 lo hi d e R h1 h2 h3 h4 h5 h

theorem fixGen_total {d : ℕ} (hd : d ≠ 0) : JB.GenTotal (fixGen f tc) d := by
  intro x0 lo hi _ hb _
  have hb : bshape x0.shape lo.shape = some x0.shape := bshape_eq_of_ble' (ble_iff_bshape.1 hb)
  have key : ∀ tc', ∃ e, liftGen tc' (fixG f tc) x0 (lo, hi) d = .ok e := by
    intro tc'
    unfold liftGen
    simp only [hb]
    obtain ⟨l, hl⟩ := Poly.mapM_total (f := fun I => fixG f tc (x0.bget I) (lo.bget I) (hi.bget I) d) (l := idx x0.shape)
      (fun I _ => ⟨_, rfl⟩)
    rw [hl]
    exact ⟨_, rfl⟩
  unfold fixGen
  split_ifs with hc
  · unfold nearGen guardGen
    rw [if_pos]
    · exact key _
    · intro R hR I hI
      rw [hb] at hR
      cases hR
      refine ⟨hd, ?_⟩
      rw [ND.bget_valid _ hI]
      exact hc.2 I hI
  · unfold otherGen guardGen
    rw [if_pos]
    · exact key _
    · exact fun _ _ _ _ => hd

/-- on a region close to the point, the restricted generator returns the same -/
theorem fix_call_local {x0 lo hi : ND ℝ} {d : ℕ} (hn : AllNear f tc x0 d) (hb : bshape x0.shape lo.shape = some x0.shape)
    (hd : ∀ I, ValidIdx x0.shape I → x0.get I - lo.bget I < nearD f tc d (x0.get I) ∧
      hi.bget I - x0.get I < nearD f tc d (x0.get I)) :
    fixGen f tc x0 (lo, hi) d = localGen f tc x0 (lo, hi) d := by
  unfold fixGen
  rw [if_pos hn]
  unfold nearGen localGen guardGen
  rw [if_pos, if_pos]
  · intro R hR I hI
    rw [hb] at hR
    cases hR
    rw [ND.bget_valid _ hI]
    exact ⟨hn.1, hn.2 I hI, hd I hI⟩
  · intro R hR I hI
    rw [hb] at hR
    cases hR
    rw [ND.bget_valid _ hI]
    exact ⟨hn.1, hn.2 I hI⟩

end

namespace JB
open TEA

/-- the coefficient functions behind the element-wise primitives -/
noncomputable def tcOf (name : String) : Option (ℕ → ℝ → Py (List ℝ)) :=
  match builtinName name with
  | some n => some fun d x => getTaylorPolynomialCoefficients ⟨n, 0⟩ d x
  | none => (rootExponent name).map fun q d x => .ok (powCoeffs (fun x p : ℝ => x ^ p) (.frac q) d x)

/-- what the element-wise primitive computes -/
noncomputable def fnOf (name : String) : ℝ → ℝ := (realSem.fn name).getD fun _ => 0

noncomputable def tcPow (p : Expo ℝ) : ℕ → ℝ → Py (List ℝ) := fun d x => .ok (powCoeffs (fun x p : ℝ => x ^ p) p d x)

/-- tables whose generators always return in positive degree, isotone and Lipschitz, right at `x0` -/
noncomputable def fixLib : Lib ℝ where
  sem := realLib.sem
  gen name := (tcOf name).map fun tc => fixGen (fnOf name) tc
  powGen p := fixGen (powFun p) (tcPow p)
  expo := realLib.expo

/-- the same tables, restricted to where they are right -/
noncomputable def localLib : Lib ℝ where
  sem := realLib.sem
  gen name := (tcOf name).map fun tc => localGen (fnOf name) tc
  powGen p := localGen (powFun p) (tcPow p)
  expo := realLib.expo

theorem tcOf_realGen (name : String) : (∃ tc g, tcOf name = some tc ∧ realGen name = some (liftGen tc g)) ∨
    (tcOf name = none ∧ realGen name = none) := by
  unfold tcOf realGen
  cases builtinName name with
  | some n => exact Or.inl ⟨_, _, rfl, rfl⟩
  | none =>
    cases rootExponent name with
    | some q => exact Or.inl ⟨_, _, rfl, rfl⟩
    | none => exact Or.inr ⟨rfl, rfl⟩

theorem fnOf_sem {name : String} {tc : ℕ → ℝ → Py (List ℝ)} (h : tcOf name = some tc) :
    realSem.fn name = some (fnOf name) := by
  unfold fnOf
  unfold tcOf at h
  cases hn : builtinName name with
  | some n => rw [realSem_builtin hn]; rfl
  | none =>
    rw [hn] at h
    simp only [Option.map_eq_some_iff] at h
    obtain ⟨q, hq, -⟩ := h
    obtain ⟨f, hf, -⟩ := realSem_root hq
    rw [hf]; rfl

theorem fixLib_soundAt (xs : List ℕ) : LibSoundAt ⟨xs, fun _ => 0⟩ fixLib realSem where
  fn := safeLib_sound.fn
  pow := rfl
  gen n g h := by
    simp only [fixLib, Option.map_eq_some_iff] at h
    obtain ⟨tc, htc, rfl⟩ := h
    exact ⟨_, fnOf_sem htc, fixGen_at _ tc xs, fixGen_keeps _ _⟩
  powInt n hn := ⟨fixGen_at _ _ xs, fixGen_keeps _ _⟩
  expoInt := safeLib_sound.expoInt
  expoFrac p q h := by
    have h : realExpo p = .frac q := h
    have : p = q := by
      unfold realExpo at h
      split_ifs at h
      cases h; rfl
    subst this
    exact ⟨fixGen_at (powFun (.frac p)) _ xs, fixGen_keeps _ _⟩

theorem fixLib_at_ref (x0 : ND ℝ) (z : ND ℝ) (hz : ND.map2 (· - ·) x0 x0 = .ok z) : LibSoundAt z fixLib realSem := by
  rw [ND.map2_same (fun a b : ℝ => a - b) rfl] at hz
  cases hz
  have : (⟨x0.shape, fun I => x0.bget I - x0.bget I⟩ : ND ℝ) = ⟨x0.shape, fun _ => 0⟩ := by simp
  rw [this]
  exact fixLib_soundAt _

theorem localLib_sound : LibSound localLib realSem where
  fn := safeLib_sound.fn
  pow := rfl
  gen n g h := by
    simp only [localLib, Option.map_eq_some_iff] at h
    obtain ⟨tc, htc, rfl⟩ := h
    exact ⟨_, fnOf_sem htc, soundGenerator_lift (fixG_local _ tc), keepsShape_guard (keepsShape_lift _ _)⟩
  powInt n hn := ⟨soundGenerator_lift (fixG_local _ _), keepsShape_guard (keepsShape_lift _ _)⟩
  expoInt := safeLib_sound.expoInt
  expoFrac p q h := by
    have h : realExpo p = .frac q := h
    have : p = q := by
      unfold realExpo at h
      split_ifs at h
      cases h; rfl
    subst this
    exact ⟨soundGenerator_lift (f := powFun (.frac p)) (fixG_local _ _), keepsShape_guard (keepsShape_lift _ _)⟩

theorem fixLib_arr : LibArr fixLib where
  gen n g h := by
    simp only [fixLib, Option.map_eq_some_iff] at h
    obtain ⟨tc, -, rfl⟩ := h
    exact fixGen_arr _ _
  pow p := fixGen_arr _ _

theorem localLib_arr : LibArr localLib where
  gen n g h := by
    simp only [localLib, Option.map_eq_some_iff] at h
    obtain ⟨tc, -, rfl⟩ := h
    exact arrGen_guard (arrGen_lift _ _)
  pow p := arrGen_guard (arrGen_lift _ _)

theorem fixLib_full : LibFull fixLib where
  gen n g h := by
    simp only [fixLib, Option.map_eq_some_iff] at h
    obtain ⟨tc, -, rfl⟩ := h
    exact fixGen_full _ _
  pow p := fixGen_full _ _

theorem fixLib_isotone : LibIsotone fixLib where
  gen n g h := by
    simp only [fixLib, Option.map_eq_some_iff] at h
    obtain ⟨tc, -, rfl⟩ := h
    exact fixGen_isotone _ _
  pow p := fixGen_isotone _ _

theorem fixLib_lipschitz : LibLipschitz fixLib where
  gen n g h := by
    simp only [fixLib, Option.map_eq_some_iff] at h
    obtain ⟨tc, -, rfl⟩ := h
    exact fixGen_lipschitz _ _
  pow p := fixGen_lipschitz _ _

/-- the local tables use the Taylor polynomials of the code -/
theorem localLib_lead (d : ℕ) : LeadLib d localLib realLib where
  sem := rfl
  expo := rfl
  gen := by
    intro name g' g h' h
    simp only [localLib, Option.map_eq_some_iff] at h'
    obtain ⟨tc, htc, rfl⟩ := h'
    change realGen name = some g at h
    rcases tcOf_realGen name with ⟨tc', g1, h1, h2⟩ | ⟨h1, -⟩
    · rw [htc] at h1; cases h1
      rw [h] at h2; cases h2
      exact leadGen_guard_left (leadGen_lift _ _ _ _)
    · rw [htc] at h1; cases h1
  pow := fun p => leadGen_guard_left (leadGen_lift _ _ _ _)

end JB
end AB
