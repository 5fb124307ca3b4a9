/-
C27, C28: ranges and monotonicity computed from tables of extrema
(/repo/autobound/elementwise_functions.py:63-112, 203-259).
-/
import Verif.Props.Functions
import Mathlib.Topology.Order.Compact
import Mathlib.Analysis.Complex.ExponentialBounds

namespace AB
open EF Set

/-! ### maximum_value, minimum_value -/

section
variable {K : Type} [LinearOrder K]

theorem maximumValue_spec (f : K → K) (a b : K) (l : List K) :
    (∃ x ∈ l, a ≤ x ∧ x ≤ b ∧ maximumValue f a b l = f x ∧
      ∀ y ∈ l, a ≤ y → y ≤ b → f y ≤ f x) ∨
    ((∀ x ∈ l, ¬ (a ≤ x ∧ x ≤ b)) ∧ maximumValue f a b l = max (f a) (f b)) := by
  induction hn : l.length using Nat.strong_induction_on generalizing l with
  | _ n ih =>
    subst hn
    have hp : (sortDesc f l).Perm l := List.mergeSort_perm _ _
    have hs : (sortDesc f l).Pairwise (fun a b => decide (f b ≤ f a)) :=
      List.pairwise_mergeSort (fun a b c h1 h2 => by simp at *; exact h2.trans h1)
        (fun a b => by simpa using le_total _ _) _
    rw [maximumValue.eq_def]
    split
    next h =>
      right
      rw [h] at hp
      have : l = [] := hp.symm.eq_nil
      subst this
      simp
    next x rest h =>
      rw [h] at hp hs
      rw [List.pairwise_cons] at hs
      have hlen : rest.length < l.length := by rw [← hp.length_eq]; simp
      split_ifs with hx
      · left
        refine ⟨x, hp.subset (by simp), hx.1, hx.2, rfl, fun y hy _ _ => ?_⟩
        rcases List.mem_cons.1 (hp.symm.subset hy) with rfl | hy
        · exact le_rfl
        · simpa using hs.1 y hy
      · rcases ih _ hlen rest rfl with ⟨z, hz, h1, h2, h3, h4⟩ | ⟨h1, h2⟩
        · left
          refine ⟨z, hp.subset (List.mem_cons_of_mem _ hz), h1, h2, h3, fun y hy k1 k2 => ?_⟩
          rcases List.mem_cons.1 (hp.symm.subset hy) with rfl | hy
          · exact absurd ⟨k1, k2⟩ hx
          · exact h4 y hy k1 k2
        · right
          refine ⟨fun y hy => ?_, h2⟩
          rcases List.mem_cons.1 (hp.symm.subset hy) with rfl | hy
          · exact hx
          · exact h1 y hy

theorem minimumValue_spec (f : K → K) (a b : K) (l : List K) :
    (∃ x ∈ l, a ≤ x ∧ x ≤ b ∧ minimumValue f a b l = f x ∧
      ∀ y ∈ l, a ≤ y → y ≤ b → f x ≤ f y) ∨
    ((∀ x ∈ l, ¬ (a ≤ x ∧ x ≤ b)) ∧ minimumValue f a b l = min (f a) (f b)) := by
  induction hn : l.length using Nat.strong_induction_on generalizing l with
  | _ n ih =>
    subst hn
    have hp : (sortAsc f l).Perm l := List.mergeSort_perm _ _
    have hs : (sortAsc f l).Pairwise (fun a b => decide (f a ≤ f b)) :=
      List.pairwise_mergeSort (fun a b c h1 h2 => by simp at *; exact h1.trans h2)
        (fun a b => by simpa using le_total _ _) _
    rw [minimumValue.eq_def]
    split
    next h =>
      right
      rw [h] at hp
      have : l = [] := hp.symm.eq_nil
      subst this
      simp
    next x rest h =>
      rw [h] at hp hs
      rw [List.pairwise_cons] at hs
      have hlen : rest.length < l.length := by rw [← hp.length_eq]; simp
      split_ifs with hx
      · left
        refine ⟨x, hp.subset (by simp), hx.1, hx.2, rfl, fun y hy _ _ => ?_⟩
        rcases List.mem_cons.1 (hp.symm.subset hy) with rfl | hy
        · exact le_rfl
        · simpa using hs.1 y hy
      · rcases ih _ hlen rest rfl with ⟨z, hz, h1, h2, h3, h4⟩ | ⟨h1, h2⟩
        · left
          refine ⟨z, hp.subset (List.mem_cons_of_mem _ hz), h1, h2, h3, fun y hy k1 k2 => ?_⟩
          rcases List.mem_cons.1 (hp.symm.subset hy) with rfl | hy
          · exact absurd ⟨k1, k2⟩ hx
          · exact h4 y hy k1 k2
        · right
          refine ⟨fun y hy => ?_, h2⟩
          rcases List.mem_cons.1 (hp.symm.subset hy) with rfl | hy
          · exact hx
          · exact h1 y hy
end

/-- **C27 (maximum).** Let every interior local maximum of the continuous `f` on `[a, b]` be listed.
Then `maximum_value(f, (a, b), local_maxima)` is the maximum of `f` over `[a, b]` *if and only if*,
whenever a listed point lies in `[a, b]`, the end point values do not exceed `f` at some listed point in
`[a, b]` (the code never compares with the end points in that case). -/
theorem C27_maximum_value {f : ℝ → ℝ} {a b : ℝ} (hab : a ≤ b) (hf : ContinuousOn f (Icc a b))
    {l : List ℝ} (hl : ∀ x ∈ Ioo a b, IsLocalMax f x → x ∈ l) :
    IsGreatest (f '' Icc a b) (maximumValue f a b l) ↔
      ((∃ x ∈ l, a ≤ x ∧ x ≤ b) → ∃ x ∈ l, a ≤ x ∧ x ≤ b ∧ f a ≤ f x ∧ f b ≤ f x) := by
  have ha := left_mem_Icc.2 hab
  have hb := right_mem_Icc.2 hab
  obtain ⟨m, hm, hmax⟩ := isCompact_Icc.exists_isMaxOn (nonempty_Icc.2 hab) hf
  have hmax' : ∀ y ∈ Icc a b, f y ≤ f m := fun y hy => hmax hy
  have hcase : m = a ∨ m = b ∨ m ∈ l := by
    rcases eq_or_ne m a with h | h
    · exact Or.inl h
    rcases eq_or_ne m b with h' | h'
    · exact Or.inr (Or.inl h')
    · have : m ∈ Ioo a b := ⟨lt_of_le_of_ne hm.1 h.symm, lt_of_le_of_ne hm.2 h'⟩
      exact Or.inr (Or.inr (hl m this
        (Filter.eventually_of_mem (Icc_mem_nhds this.1 this.2) hmax')))
  rcases maximumValue_spec f a b l with ⟨x, hx, h1, h2, h3, h4⟩ | ⟨h1, h2⟩
  · rw [h3]
    constructor
    · intro hg _
      exact ⟨x, hx, h1, h2, hg.2 ⟨a, ha, rfl⟩, hg.2 ⟨b, hb, rfl⟩⟩
    · intro h
      obtain ⟨z, hz, z1, z2, z3, z4⟩ := h ⟨x, hx, h1, h2⟩
      have hzx := h4 z hz z1 z2
      refine ⟨⟨x, ⟨h1, h2⟩, rfl⟩, ?_⟩
      rintro _ ⟨y, hy, rfl⟩
      refine (hmax' y hy).trans ?_
      rcases hcase with h | h | h
      · rw [h]; exact z3.trans hzx
      · rw [h]; exact z4.trans hzx
      · exact h4 m h hm.1 hm.2
  · rw [h2]
    constructor
    · rintro - ⟨x, hx, h⟩
      exact absurd h (h1 x hx)
    · intro _
      refine ⟨?_, ?_⟩
      · rcases le_total (f a) (f b) with h | h
        · rw [max_eq_right h]; exact ⟨b, hb, rfl⟩
        · rw [max_eq_left h]; exact ⟨a, ha, rfl⟩
      · rintro _ ⟨y, hy, rfl⟩
        refine (hmax' y hy).trans ?_
        rcases hcase with h | h | h
        · rw [h]; exact le_max_left _ _
        · rw [h]; exact le_max_right _ _
        · exact absurd ⟨hm.1, hm.2⟩ (h1 m h)

/-- **C27 (minimum).** -/
theorem C27_minimum_value {f : ℝ → ℝ} {a b : ℝ} (hab : a ≤ b) (hf : ContinuousOn f (Icc a b))
    {l : List ℝ} (hl : ∀ x ∈ Ioo a b, IsLocalMin f x → x ∈ l) :
    IsLeast (f '' Icc a b) (minimumValue f a b l) ↔
      ((∃ x ∈ l, a ≤ x ∧ x ≤ b) → ∃ x ∈ l, a ≤ x ∧ x ≤ b ∧ f x ≤ f a ∧ f x ≤ f b) := by
  have ha := left_mem_Icc.2 hab
  have hb := right_mem_Icc.2 hab
  obtain ⟨m, hm, hmin⟩ := isCompact_Icc.exists_isMinOn (nonempty_Icc.2 hab) hf
  have hmin' : ∀ y ∈ Icc a b, f m ≤ f y := fun y hy => hmin hy
  have hcase : m = a ∨ m = b ∨ m ∈ l := by
    rcases eq_or_ne m a with h | h
    · exact Or.inl h
    rcases eq_or_ne m b with h' | h'
    · exact Or.inr (Or.inl h')
    · have : m ∈ Ioo a b := ⟨lt_of_le_of_ne hm.1 h.symm, lt_of_le_of_ne hm.2 h'⟩
      exact Or.inr (Or.inr (hl m this
        (Filter.eventually_of_mem (Icc_mem_nhds this.1 this.2) hmin')))
  rcases minimumValue_spec f a b l with ⟨x, hx, h1, h2, h3, h4⟩ | ⟨h1, h2⟩
  · rw [h3]
    constructor
    · intro hg _
      exact ⟨x, hx, h1, h2, hg.2 ⟨a, ha, rfl⟩, hg.2 ⟨b, hb, rfl⟩⟩
    · intro h
      obtain ⟨z, hz, z1, z2, z3, z4⟩ := h ⟨x, hx, h1, h2⟩
      have hzx := h4 z hz z1 z2
      refine ⟨⟨x, ⟨h1, h2⟩, rfl⟩, ?_⟩
      rintro _ ⟨y, hy, rfl⟩
      refine le_trans ?_ (hmin' y hy)
      rcases hcase with h | h | h
      · rw [h]; exact hzx.trans z3
      · rw [h]; exact hzx.trans z4
      · exact h4 m h hm.1 hm.2
  · rw [h2]
    constructor
    · rintro - ⟨x, hx, h⟩
      exact absurd h (h1 x hx)
    · intro _
      refine ⟨?_, ?_⟩
      · rcases le_total (f a) (f b) with h | h
        · rw [min_eq_left h]; exact ⟨a, ha, rfl⟩
        · rw [min_eq_right h]; exact ⟨b, hb, rfl⟩
      · rintro _ ⟨y, hy, rfl⟩
        refine le_trans ?_ (hmin' y hy)
        rcases hcase with h | h | h
        · rw [h]; exact min_le_left _ _
        · rw [h]; exact min_le_right _ _
        · exact absurd ⟨hm.1, hm.2⟩ (h1 m h)

/-- C27 applies e.g. to `get_range(ABS, (-1, 2))`: the result is exactly `(0, 2)`. -/
theorem C27_abs_range : getRange ABS (-1) 2 = .ok (0, 2) := by
  have h1 : minimumValue (fun x : ℝ => |x|) (-1) 2 [0] = 0 := by
    rcases minimumValue_spec (fun x : ℝ => |x|) (-1) 2 [0] with ⟨x, hx, -, -, h, -⟩ | ⟨h, -⟩
    · rw [h, List.mem_singleton.1 hx]; simp
    · exact absurd ⟨by norm_num, by norm_num⟩ (h 0 (by simp))
  have h2 : maximumValue (fun x : ℝ => |x|) (-1) 2 [] = 2 := by
    rcases maximumValue_spec (fun x : ℝ => |x|) (-1) 2 [] with ⟨x, hx, -⟩ | ⟨-, h⟩
    · cases hx
    · rw [h]; norm_num
  show Except.ok _ = _
  rw [h1, h2]

/-! ### monotone_over -/

/-- `minima` and `maxima` describe `f`: before a listed minimum (up to the previous listed extremum) `f`
decreases, after it (up to the next one) `f` increases; the other way round for maxima. -/
structure ExtremaOf (f : ℝ → ℝ) (minima maxima : List ℝ) : Prop where
  before_min : ∀ m ∈ minima, ∀ u, (∀ e ∈ minima ++ maxima, ¬ (u < e ∧ e < m)) → AntitoneOn f (Icc u m)
  after_min : ∀ m ∈ minima, ∀ v, (∀ e ∈ minima ++ maxima, ¬ (m < e ∧ e < v)) → MonotoneOn f (Icc m v)
  before_max : ∀ m ∈ maxima, ∀ u, (∀ e ∈ minima ++ maxima, ¬ (u < e ∧ e < m)) → MonotoneOn f (Icc u m)
  after_max : ∀ m ∈ maxima, ∀ v, (∀ e ∈ minima ++ maxima, ¬ (m < e ∧ e < v)) → AntitoneOn f (Icc m v)

theorem monotoneLoop_sound {f : ℝ → ℝ} {minima maxima : List ℝ} (hf : ExtremaOf f minima maxima)
    {a b : ℝ} (xs : List ℝ) : ∀ (prev : Option ℝ) (st : Bool × Bool), xs.Pairwise (· ≤ ·) →
    (∀ e, e ∈ minima ++ maxima → e ∈ xs ∨ ∃ p, prev = some p ∧ e ≤ p) →
    (∀ p, prev = some p → ∀ y ∈ xs, p ≤ y) → (∀ x ∈ xs, x ∈ minima ++ maxima) →
    (st.1 = true → AntitoneOn f (Icc a b)) → (st.2 = true → MonotoneOn f (Icc a b)) →
    ((monotoneLoop minima a b prev xs st).1 = true → AntitoneOn f (Icc a b)) ∧
    ((monotoneLoop minima a b prev xs st).2 = true → MonotoneOn f (Icc a b)) := by
  induction xs with
  | nil => intro prev st _ _ _ _ h1 h2; exact ⟨h1, h2⟩
  | cons x xs ih =>
    intro prev st hs hE hpr hx h1 h2
    rw [List.pairwise_cons] at hs
    have hc' : betweenExtrema a b prev x = true →
        b ≤ x ∧ ∀ e ∈ minima ++ maxima, ¬ (a < e ∧ e < x) := by
      intro hc
      unfold betweenExtrema at hc
      cases prev with
      | none =>
        simp only [decide_eq_true_eq] at hc
        refine ⟨hc, fun e he h => ?_⟩
        rcases hE e he with h' | ⟨p, hp, -⟩
        · rcases List.mem_cons.1 h' with rfl | h'
          · exact lt_irrefl _ h.2
          · exact absurd h.2 (not_lt.2 (hs.1 e h'))
        · cases hp
      | some p =>
        simp only [ge_iff_le, Bool.and_eq_true, decide_eq_true_eq] at hc
        refine ⟨hc.2, fun e he h => ?_⟩
        rcases hE e he with h' | ⟨q, hq, h'⟩
        · rcases List.mem_cons.1 h' with rfl | h'
          · exact lt_irrefl _ h.2
          · exact absurd h.2 (not_lt.2 (hs.1 e h'))
        · cases hq
          exact absurd h.1 (not_lt.2 (h'.trans hc.1))
    have hlast : xs = [] → ∀ e ∈ minima ++ maxima, ∀ v, ¬ (x < e ∧ e < v) := by
      rintro rfl e he v h
      rcases hE e he with h' | ⟨q, hq, h'⟩
      · rcases List.mem_cons.1 h' with rfl | h'
        · exact lt_irrefl _ h.1
        · cases h'
      · exact absurd h.1 (not_lt.2 (h'.trans (hpr q hq x (by simp))))
    have hxm := hx x (by simp)
    have hsub1 : b ≤ x → Icc a b ⊆ Icc a x := fun h y hy => ⟨hy.1, hy.2.trans h⟩
    have hsub2 : x ≤ a → Icc a b ⊆ Icc x b := fun h y hy => ⟨h.trans hy.1, hy.2⟩
    refine ih (some x) _ hs.2 (fun e he => ?_) (fun p hp y hy => ?_)
      (fun y hy => hx y (List.mem_cons_of_mem _ hy)) ?_ ?_
    · rcases hE e he with h | ⟨q, hq, h⟩
      · rcases List.mem_cons.1 h with rfl | h
        · exact Or.inr ⟨_, rfl, le_rfl⟩
        · exact Or.inl h
      · exact Or.inr ⟨_, rfl, h.trans (hpr q hq x (by simp))⟩
    · cases hp; exact hs.1 y hy
    · unfold monotoneStep
      by_cases hm : x ∈ minima
      · simp only [hm, decide_true, if_true]
        have key : betweenExtrema a b prev x = true → AntitoneOn f (Icc a b) := fun h =>
          (hf.before_min x hm a (hc' h).2).mono (hsub1 (hc' h).1)
        split_ifs
        · simp only [Bool.or_eq_true]; rintro (h | h); exacts [h1 h, key h]
        · simp only [Bool.or_eq_true]; rintro (h | h); exacts [h1 h, key h]
      · have hM : x ∈ maxima := (List.mem_append.1 hxm).resolve_left hm
        simp only [hm, decide_false, Bool.false_eq_true, if_false]
        split_ifs with hl
        · simp only [Bool.or_eq_true, decide_eq_true_eq]
          rintro (h | h)
          · exact h1 h
          · exact (hf.after_max x hM b (fun e he => hlast (by simpa using hl) e he b)).mono (hsub2 h)
        · exact h1
    · unfold monotoneStep
      by_cases hm : x ∈ minima
      · simp only [hm, decide_true, if_true]
        split_ifs with hl
        · simp only [Bool.or_eq_true, decide_eq_true_eq]
          rintro (h | h)
          · exact h2 h
          · exact (hf.after_min x hm b (fun e he => hlast (by simpa using hl) e he b)).mono (hsub2 h)
        · exact h2
      · have hM : x ∈ maxima := (List.mem_append.1 hxm).resolve_left hm
        have key : betweenExtrema a b prev x = true → MonotoneOn f (Icc a b) := fun h =>
          (hf.before_max x hM a (hc' h).2).mono (hsub1 (hc' h).1)
        simp only [hm, decide_false, Bool.false_eq_true, if_false]
        split_ifs
        · simp only [Bool.or_eq_true]; rintro (h | h); exacts [h2 h, key h]
        · simp only [Bool.or_eq_true]; rintro (h | h); exacts [h2 h, key h]

/-- **C28.** If `monotone_over` reports `decreasing` (`increasing`) over `[a, b]` then `f` is decreasing
(increasing) on `[a, b]`, for every `f` described by the listed extrema and flags. -/
theorem C28_monotone_over {f : ℝ → ℝ} {d : FunctionData ℝ} (hf : ExtremaOf f d.localMinima d.localMaxima)
    (hdec : d.decreasing = true → Antitone f) (hinc : d.increasing = true → Monotone f) (a b : ℝ) :
    ((d.monotoneOver a b).1 = true → AntitoneOn f (Icc a b)) ∧
    ((d.monotoneOver a b).2 = true → MonotoneOn f (Icc a b)) := by
  have hp : (sorted (d.localMinima ++ d.localMaxima)).Perm (d.localMinima ++ d.localMaxima) :=
    List.mergeSort_perm _ _
  have hs : (sorted (d.localMinima ++ d.localMaxima)).Pairwise (fun a b => decide (a ≤ b)) :=
    List.pairwise_mergeSort (fun a b c h1 h2 => by simp at *; exact h1.trans h2)
      (fun a b => by simpa using le_total _ _) _
  refine monotoneLoop_sound hf _ none _ (by simpa using hs) (fun e he => Or.inl (hp.symm.subset he))
    (fun p hp => by cases hp) (fun x hx => hp.subset hx) (fun h => (hdec h).antitoneOn _)
    (fun h => (hinc h).monotoneOn _)

/-- C28 applies e.g. to `abs` with its table entry, which reports "increasing" on `[1, 2]`. -/
example : ExtremaOf (fun x : ℝ => |x|) [0] [] ∧
    (FunctionData.monotoneOver (⟨[0], [], false, false, true⟩ : FunctionData ℝ) 1 2).2 = true := by
  refine ⟨⟨?_, ?_, by simp, by simp⟩, ?_⟩
  · intro m hm u _ x hx y hy h
    rw [List.mem_singleton.1 hm] at hx hy
    simp only
    rw [abs_of_nonpos hx.2, abs_of_nonpos hy.2]
    linarith
  · intro m hm u _ x hx y hy h
    rw [List.mem_singleton.1 hm] at hx hy
    simp only
    rwa [abs_of_nonneg hx.1, abs_of_nonneg hy.1]
  · simp [FunctionData.monotoneOver, sorted, monotoneLoop, monotoneStep]

/-! ### the actual table -/

/-- **C27 (counterexample).** `get_range` of the fifth derivative of softplus over `[-4, log 2]`: the
reported maximum is smaller than the value at the right end point, because a listed local maximum
(`-3.144...`) lies in the region and the end points are then ignored. -/
theorem C27_get_range_counterexample :
    ∃ g r, getFunction (SOFTPLUS.derivativeId 5) = .ok g ∧
      getRange (SOFTPLUS.derivativeId 5) (-4) (Real.log 2) = .ok r ∧ r.2 < 1 / 16 ∧
      1 / 9 < g (Real.log 2) := by
  have hg : getFunction (SOFTPLUS.derivativeId 5) = .ok (sigD 4) :=
    getFunction_eq.2 ⟨by simp [supportedOrder, SOFTPLUS], rfl⟩
  have hlog := Real.log_two_lt_d9
  refine ⟨_, _, hg, rfl, ?_, ?_⟩
  · show maximumValue (sigD 4) (-4) (Real.log 2) [-3.144318406154709, 0.8426329481295388] < 1 / 16
    rcases maximumValue_spec (sigD 4) (-4) (Real.log 2) [-3.144318406154709, 0.8426329481295388] with
      ⟨x, hx, h1, h2, h3, -⟩ | ⟨h, -⟩
    · rw [h3]
      simp only [List.mem_cons, List.not_mem_nil, or_false] at hx
      rcases hx with rfl | rfl
      · set x : ℝ := -3.144318406154709 with hxdef
        have hs0 := sigmoid_pos x
        have hs : sigmoid x < 1 / 16 := by
          rw [sigmoid_eq]
          have h1 : (15 : ℝ) < Real.exp (-x) := by
            have h3 : Real.exp 3 ≤ Real.exp (-x) := Real.exp_le_exp.2 (by rw [hxdef]; norm_num)
            have h4 : Real.exp 3 = Real.exp 1 ^ 3 := by rw [← Real.exp_nat_mul]; norm_num
            have h5 := Real.exp_one_gt_d9
            have h6 : (2.7 : ℝ) ^ 3 < Real.exp 1 ^ 3 := by gcongr; linarith
            rw [h4] at h3
            norm_num at h6
            linarith
          apply one_div_lt_one_div_of_lt <;> linarith
        simp only [sigD, sigmoid_neg]
        generalize sigmoid x = s at hs hs0 ⊢
        have e : s * (1 - s) * (1 - 2 * s) * ((1 - 2 * s) ^ 2 - 2 * s * (1 - s)) +
            s * (1 - s) * (-4 * (1 - 2 * s) * s * (1 - s) - 2 * s * (1 - s) * (1 - 2 * s)) =
            s - s * (15 * s - 50 * s ^ 2 + 60 * s ^ 3 - 24 * s ^ 4) := by ring
        rw [e]
        have : 0 ≤ s * (15 * s - 50 * s ^ 2 + 60 * s ^ 3 - 24 * s ^ 4) := by
          apply mul_nonneg hs0.le
          nlinarith [mul_pos hs0 hs0, pow_pos hs0 3]
        linarith
      · exfalso
        norm_num at h2
        linarith
    · exfalso
      refine h (-3.144318406154709) (by simp) ⟨by norm_num, ?_⟩
      have := Real.log_two_gt_d9
      norm_num
      linarith
  · have hs : sigmoid (Real.log 2) = 2 / 3 := by
      rw [sigmoid_eq, Real.exp_neg, Real.exp_log (by norm_num)]; norm_num
    simp only [sigD, sigmoid_neg, hs]
    norm_num

end AB
