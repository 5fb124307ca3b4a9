/-
C58: the built-in functions and degrees whose tables of extrema are rounded
(/repo/autobound/elementwise_functions.py:324-356): right up to 1e-12 on every region, and exactly right on regions
away from the listed extrema.
-/
import Verif.Proofs.ApproxTables
import Verif.Props.Lift

set_option linter.unusedSectionVars false

namespace AB
open PE EF Set

theorem BuiltinApprox.mono {n : FName} {k : ℕ} {x0 a b ε ε' : ℝ} (h : BuiltinApprox n k x0 a b ε) (he : ε ≤ ε') :
    BuiltinApprox n k x0 a b ε' := by
  obtain ⟨s, h1, h2, h3⟩ := h
  refine ⟨s, h1, h2, fun x hx hx' => ?_⟩
  obtain ⟨r, r1, r2, r3⟩ := h3 x hx hx'
  exact ⟨r, le_trans (sub_le_sub_left he _) r1, r2.trans (add_le_add_right he _), r3⟩

/-- The table lists the extrema of the `k`-th derivative up to `2e-13`, and they are all global. -/
structure NearTable (n : FName) (k : ℕ) (mi ma : List ℝ) (d1 d2 : ℝ) : Prop where
  sup : supportedOrder n k
  smooth : smoothDomain n = univ
  data : getFunctionData ⟨n, k⟩ = .ok ⟨mi, ma, false, false, false⟩
  deriv : ∃ f' : ℝ → ℝ, (∀ x, HasDerivAt (derivFun n k) (f' x) x) ∧ ∀ x, |f' x| ≤ 2
  left : |d1| ≤ 2 / 10 ^ 13
  right : |d2| ≤ 2 / 10 ^ 13
  ext : ExtremaOf (derivFun n k) (mi.map (shift d1 d2)) (ma.map (shift d1 d2))
  ne : mi ++ ma ≠ []
  min : ∀ m ∈ mi, ∀ x, derivFun n k (shift d1 d2 m) ≤ derivFun n k x
  max : ∀ M ∈ ma, ∀ x, derivFun n k x ≤ derivFun n k (shift d1 d2 M)

namespace NearTable
variable {n : FName} {k : ℕ} {mi ma : List ℝ} {d1 d2 : ℝ}

theorem mono (h : NearTable n k mi ma d1 d2) : StrictMono (shift d1 d2) :=
  shift_strictMono (lt_of_le_of_lt h.left (by norm_num)) (lt_of_le_of_lt h.right (by norm_num))

theorem approx (h : NearTable n k mi ma d1 d2) {x0 a b : ℝ} (hx0 : x0 ∈ Icc a b) (ha : NotCapped x0 k a)
    (hb : NotCapped x0 k b) : BuiltinApprox n k x0 a b (1 / 10 ^ 12) := by
  obtain ⟨f', hdf, hL⟩ := h.deriv
  have hc : Continuous (derivFun n k) := continuous_iff_continuousAt.2 fun x => (hdf x).continuousAt
  have key := builtin_of_nearby h.sup h.data hx0 (by rw [h.smooth]; exact subset_univ _) ha hb (by simp)
    (g := fun x => derivFun n k (shift d1 d2 x))
    (hc.comp (shift_continuous d1 d2)) (η := 4 / 10 ^ 13) (fun x _ => by
      refine (near_of_deriv hdf hL _ _).trans ?_
      have := shift_near h.left h.right x
      rw [abs_sub_comm]
      linarith) (h.ext.comp h.mono) h.ne (fun m hm x => h.min m hm _) (fun m hm x => h.max m hm _)
  refine key.mono ?_
  have : (1 : ℝ) ≤ k.factorial := by exact_mod_cast Nat.factorial_pos k
  rw [div_le_iff₀ (by linarith)]
  linarith

end NearTable

/-- `monotone_over` sees the listed extrema only through comparisons with the end points of the region. -/
theorem monotoneLoop_map {φ : ℝ → ℝ} (hφ : StrictMono φ) {mi : List ℝ} {a b : ℝ} :
    ∀ (xs : List ℝ) (prev : Option ℝ) (st : Bool × Bool),
      (∀ e ∈ xs, (b ≤ φ e ↔ b ≤ e) ∧ (φ e ≤ a ↔ e ≤ a)) → (∀ p, prev = some p → (φ p ≤ a ↔ p ≤ a)) →
      monotoneLoop (mi.map φ) a b (prev.map φ) (xs.map φ) st = monotoneLoop mi a b prev xs st := by
  intro xs
  induction xs with
  | nil => intro prev st _ _; rfl
  | cons x xs ih =>
    intro prev st h hp
    have hx := h x (by simp)
    simp only [List.map_cons, monotoneLoop]
    have e1 : (xs.map φ).isEmpty = xs.isEmpty := by cases xs <;> rfl
    have e2 : decide (φ x ∈ mi.map φ) = decide (x ∈ mi) := by
      rw [decide_eq_decide, List.mem_map]
      constructor
      · rintro ⟨y, hy, h⟩
        rwa [← hφ.injective h]
      · exact fun h => ⟨x, h, rfl⟩
    have e3 : betweenExtrema a b (prev.map φ) (φ x) = betweenExtrema a b prev x := by
      cases prev with
      | none => simp [betweenExtrema, hx.1]
      | some p => simp [betweenExtrema, hx.1, hp p rfl]
    have e4 : monotoneStep (mi.map φ) a b (prev.map φ) (xs.map φ).isEmpty (φ x) st =
        monotoneStep mi a b prev xs.isEmpty x st := by
      unfold monotoneStep
      simp only [e1, e2, e3, ge_iff_le, hx.2]
    rw [e4]
    have := ih (some x) (monotoneStep mi a b prev xs.isEmpty x st) (fun e he => h e (by simp [he]))
      (fun p hp => by cases hp; exact hx.2)
    simpa using this

theorem monotoneOver_map {φ : ℝ → ℝ} (hφ : StrictMono φ) {mi ma : List ℝ} {a b : ℝ}
    (h : ∀ e ∈ mi ++ ma, (b ≤ φ e ↔ b ≤ e) ∧ (φ e ≤ a ↔ e ≤ a)) (x y z : Bool) :
    (⟨mi.map φ, ma.map φ, x, y, z⟩ : FunctionData ℝ).monotoneOver a b =
      (⟨mi, ma, x, y, z⟩ : FunctionData ℝ).monotoneOver a b := by
  unfold FunctionData.monotoneOver
  have e : sorted (mi.map φ ++ ma.map φ) = (sorted (mi ++ ma)).map φ := by
    unfold sorted
    rw [← List.map_append]
    refine (List.map_mergeSort ?_).symm
    intro u _ v _
    simp [hφ.le_iff_le]
  simp only [e]
  exact monotoneLoop_map hφ _ none _ (fun e he => h e ((List.mergeSort_perm _ _).subset he)) (fun p hp => by cases hp)

namespace NearTable
variable {n : FName} {k : ℕ} {mi ma : List ℝ} {d1 d2 : ℝ}

theorem exact (h : NearTable n k mi ma d1 d2) {a b : ℝ}
    (haway : ∀ e ∈ mi ++ ma, b ≤ e - 1 / 10 ^ 12 ∨ e + 1 / 10 ^ 12 ≤ a) (hab : a ≤ b) : TableTruthful n k a b := by
  have hnear : ∀ e, |shift d1 d2 e - e| ≤ 2 / 10 ^ 13 := shift_near h.left h.right
  have hcmp : ∀ e ∈ mi ++ ma, (b ≤ shift d1 d2 e ↔ b ≤ e) ∧ (shift d1 d2 e ≤ a ↔ e ≤ a) := by
    intro e he
    obtain ⟨n1, n2⟩ := abs_le.1 (hnear e)
    rcases haway e he with h' | h'
    · exact ⟨⟨fun _ => by linarith, fun _ => by linarith⟩, ⟨fun _ => by linarith, fun _ => by linarith⟩⟩
    · exact ⟨⟨fun _ => by linarith, fun _ => by linarith⟩, ⟨fun _ => by linarith, fun _ => by linarith⟩⟩
  have hiter : iteratedDeriv k (mathFun n) = derivFun n k := by
    funext x
    rw [← derivFun_zero]
    exact iteratedDeriv_chain (isOpen_smoothDomain n) (fun i hi x hx =>
      hasDerivAt_derivFun (supportedOrder_mono h.sup hi) hx) k le_rfl x (by rw [h.smooth]; trivial)
  obtain ⟨hdec, hinc⟩ := C28_monotone_over (d := ⟨mi.map (shift d1 d2), ma.map (shift d1 d2), false, false, false⟩)
    h.ext (by simp) (by simp) a b
  rw [monotoneOver_map h.mono hcmp] at hdec hinc
  have hno : ∀ l : List ℝ, (∀ e ∈ l, e ∈ mi ++ ma) → ∀ m ∈ l.map (shift d1 d2), ¬ (a ≤ m ∧ m ≤ b) := by
    intro l hl m hm hh
    obtain ⟨c, hc, rfl⟩ := List.mem_map.1 hm
    obtain ⟨n1, n2⟩ := abs_le.1 (hnear c)
    rcases haway c (hl c hc) with h' | h' <;> linarith [hh.1, hh.2]
  have hno' : ∀ e ∈ mi ++ ma, ¬ (a ≤ e ∧ e ≤ b) := by
    intro c hc hh
    rcases haway c hc with h' | h' <;> linarith [hh.1, hh.2]
  have hne : mi.map (shift d1 d2) ++ ma.map (shift d1 d2) ≠ [] := by
    rw [← List.map_append]
    simpa using h.ne
  refine ⟨_, _, h.data, getRange_ok h.sup h.data a b, by simp, ?_, ?_, ?_⟩
  · rw [hiter]; exact hdec
  · rw [hiter]; exact hinc
  · rw [hiter]
    intro _ _ x hx
    constructor
    · rcases minimumValue_spec (derivFun n k) a b mi with ⟨m, hm, m1, m2, -, -⟩ | ⟨-, he⟩
      · exact absurd ⟨m1, m2⟩ (hno' m (by simp [hm]))
      · simp only [he]
        rcases h.ext.min_at_ends hne (fun M hM y => by
          obtain ⟨c, hc, rfl⟩ := List.mem_map.1 hM
          exact h.max c hc y) (hno mi (fun e he => by simp [he])) hx with h' | h'
        · exact (min_le_left _ _).trans h'
        · exact (min_le_right _ _).trans h'
    · rcases maximumValue_spec (derivFun n k) a b ma with ⟨m, hm, m1, m2, -, -⟩ | ⟨-, he⟩
      · exact absurd ⟨m1, m2⟩ (hno' m (by simp [hm]))
      · simp only [he]
        rcases h.ext.max_at_ends hne (fun M hM y => by
          obtain ⟨c, hc, rfl⟩ := List.mem_map.1 hM
          exact h.min c hc y) (hno ma (fun e he => by simp [he])) hx with h' | h'
        · exact h'.trans (le_max_left _ _)
        · exact h'.trans (le_max_right _ _)

end NearTable

theorem near_sigmoid2 : ∃ d1 d2, NearTable .sigmoid 2 [1.3169578969249405] [-1.3169578969249423] d1 d2 := by
  obtain ⟨e, he, g1, g2, g3⟩ := sig2_shape
  obtain ⟨b1, b2⟩ := he
  have s1 : shift (-e - -1.3169578969249423) (e - 1.3169578969249405) 1.3169578969249405 = e := by
    rw [shift_right (by norm_num)]; ring
  have s2 : shift (-e - -1.3169578969249423) (e - 1.3169578969249405) (-1.3169578969249423) = -e := by
    rw [shift_left (by norm_num)]; ring
  refine ⟨-e - -1.3169578969249423, e - 1.3169578969249405, by simp [supportedOrder], rfl, rfl, ⟨_, fun x => hasDerivAt_sigD (k := 2) (by norm_num) x, fun x => (abs_sigD3 x).trans (by norm_num)⟩,
    abs_le.2 ⟨by linarith, by linarith⟩, abs_le.2 ⟨by linarith, by linarith⟩, ?_, by simp, ?_, ?_⟩
  · simp only [List.map, s1, s2]; exact g1
  · intro m hm
    simp only [List.mem_cons, List.not_mem_nil, or_false] at hm
    subst hm
    rw [s1]; exact g2
  · intro m hm
    simp only [List.mem_cons, List.not_mem_nil, or_false] at hm
    subst hm
    rw [s2]; exact g3

theorem near_sigmoid3 : ∃ d1 d2, NearTable .sigmoid 3 [0] [-2.292431669561122, 2.2924316695611195] d1 d2 := by
  obtain ⟨e, he, g1, g2, g3⟩ := sig3_shape
  obtain ⟨b1, b2⟩ := he
  have hev : derivFun .sigmoid 3 (-e) = derivFun .sigmoid 3 e := by
    show sigD 3 (-e) = sigD 3 e
    rw [sigD3_eq, sigD3_eq, sigD1_even]
  have s1 : shift (-e - -2.292431669561122) (e - 2.2924316695611195) 2.2924316695611195 = e := by
    rw [shift_right (by norm_num)]; ring
  have s2 : shift (-e - -2.292431669561122) (e - 2.2924316695611195) (-2.292431669561122) = -e := by
    rw [shift_left (by norm_num)]; ring
  refine ⟨-e - -2.292431669561122, e - 2.2924316695611195, by simp [supportedOrder], rfl, rfl, ⟨_, fun x => hasDerivAt_sigD (k := 3) (by norm_num) x, fun x => (abs_sigD4 x).trans (by norm_num)⟩,
    abs_le.2 ⟨by linarith, by linarith⟩, abs_le.2 ⟨by linarith, by linarith⟩, ?_, by simp, ?_, ?_⟩
  · simp only [List.map, s1, s2, shift_zero]; exact g1
  · intro m hm
    simp only [List.mem_cons, List.not_mem_nil, or_false] at hm
    subst hm
    rw [shift_zero]; exact g2
  · intro m hm
    simp only [List.mem_cons, List.not_mem_nil, or_false] at hm
    rcases hm with rfl | rfl
    · rw [s2]; exact hev ▸ g3
    · rw [s1]; exact g3

theorem near_softplus3 : ∃ d1 d2, NearTable .softplus 3 [1.3169578969249405] [-1.3169578969249423] d1 d2 := by
  obtain ⟨e, he, g1, g2, g3⟩ := sig2_shape
  obtain ⟨b1, b2⟩ := he
  have s1 : shift (-e - -1.3169578969249423) (e - 1.3169578969249405) 1.3169578969249405 = e := by
    rw [shift_right (by norm_num)]; ring
  have s2 : shift (-e - -1.3169578969249423) (e - 1.3169578969249405) (-1.3169578969249423) = -e := by
    rw [shift_left (by norm_num)]; ring
  refine ⟨-e - -1.3169578969249423, e - 1.3169578969249405, by simp [supportedOrder], rfl, rfl, ⟨_, fun x => hasDerivAt_sigD (k := 2) (by norm_num) x, fun x => (abs_sigD3 x).trans (by norm_num)⟩,
    abs_le.2 ⟨by linarith, by linarith⟩, abs_le.2 ⟨by linarith, by linarith⟩, ?_, by simp, ?_, ?_⟩
  · simp only [List.map, s1, s2]; exact g1
  · intro m hm
    simp only [List.mem_cons, List.not_mem_nil, or_false] at hm
    subst hm
    rw [s1]; exact g2
  · intro m hm
    simp only [List.mem_cons, List.not_mem_nil, or_false] at hm
    subst hm
    rw [s2]; exact g3

theorem near_softplus4 : ∃ d1 d2, NearTable .softplus 4 [0] [-2.292431669561122, 2.2924316695611195] d1 d2 := by
  obtain ⟨e, he, g1, g2, g3⟩ := sig3_shape
  obtain ⟨b1, b2⟩ := he
  have hev : derivFun .softplus 4 (-e) = derivFun .softplus 4 e := by
    show sigD 3 (-e) = sigD 3 e
    rw [sigD3_eq, sigD3_eq, sigD1_even]
  have s1 : shift (-e - -2.292431669561122) (e - 2.2924316695611195) 2.2924316695611195 = e := by
    rw [shift_right (by norm_num)]; ring
  have s2 : shift (-e - -2.292431669561122) (e - 2.2924316695611195) (-2.292431669561122) = -e := by
    rw [shift_left (by norm_num)]; ring
  refine ⟨-e - -2.292431669561122, e - 2.2924316695611195, by simp [supportedOrder], rfl, rfl, ⟨_, fun x => hasDerivAt_sigD (k := 3) (by norm_num) x, fun x => (abs_sigD4 x).trans (by norm_num)⟩,
    abs_le.2 ⟨by linarith, by linarith⟩, abs_le.2 ⟨by linarith, by linarith⟩, ?_, by simp, ?_, ?_⟩
  · simp only [List.map, s1, s2, shift_zero]; exact g1
  · intro m hm
    simp only [List.mem_cons, List.not_mem_nil, or_false] at hm
    subst hm
    rw [shift_zero]; exact g2
  · intro m hm
    simp only [List.mem_cons, List.not_mem_nil, or_false] at hm
    rcases hm with rfl | rfl
    · rw [s2]; exact hev ▸ g3
    · rw [s1]; exact g3

theorem near_swish0 : ∃ d1 d2, NearTable .swish 0 [-1.278464542761141] [] d1 d2 := by
  obtain ⟨e, he, g1, g2⟩ := sw0_shape
  obtain ⟨b1, b2⟩ := he
  have s2 : shift (-e - -1.278464542761141) (0) (-1.278464542761141) = -e := by
    rw [shift_left (by norm_num)]; ring
  refine ⟨-e - -1.278464542761141, 0, by simp [supportedOrder], rfl, rfl, ⟨_, fun x => hasDerivAt_swishD (k := 0) (by norm_num) x, abs_swishD1⟩,
    abs_le.2 ⟨by linarith, by linarith⟩, by norm_num, ?_, by simp, ?_, ?_⟩
  · simp only [List.map, s2]; exact g1
  · intro m hm
    simp only [List.mem_cons, List.not_mem_nil, or_false] at hm
    subst hm
    rw [s2]; exact g2
  · simp

theorem near_swish1 : ∃ d1 d2, NearTable .swish 1 [-2.399357280515326] [2.399357280515324] d1 d2 := by
  obtain ⟨e, he, g1, g2, g3⟩ := sw1_shape
  obtain ⟨b1, b2⟩ := he
  have s1 : shift (-e - -2.399357280515326) (e - 2.399357280515324) 2.399357280515324 = e := by
    rw [shift_right (by norm_num)]; ring
  have s2 : shift (-e - -2.399357280515326) (e - 2.399357280515324) (-2.399357280515326) = -e := by
    rw [shift_left (by norm_num)]; ring
  refine ⟨-e - -2.399357280515326, e - 2.399357280515324, by simp [supportedOrder], rfl, rfl, ⟨_, fun x => hasDerivAt_swishD (k := 1) (by norm_num) x, abs_swishD2⟩,
    abs_le.2 ⟨by linarith, by linarith⟩, abs_le.2 ⟨by linarith, by linarith⟩, ?_, by simp, ?_, ?_⟩
  · simp only [List.map, s1, s2]; exact g1
  · intro m hm
    simp only [List.mem_cons, List.not_mem_nil, or_false] at hm
    subst hm
    rw [s2]; exact g2
  · intro m hm
    simp only [List.mem_cons, List.not_mem_nil, or_false] at hm
    subst hm
    rw [s1]; exact g3

theorem near_swish2 : ∃ d1 d2, NearTable .swish 2 [-3.4358409935350243, 3.4358409935350225] [0] d1 d2 := by
  obtain ⟨e, he, g1, g2, g3⟩ := sw2_shape
  obtain ⟨b1, b2⟩ := he
  have hev : derivFun .swish 2 (-e) = derivFun .swish 2 e := by
    show swishD 2 (-e) = swishD 2 e
    simp only [swishD2_eq, sigD1_even, sigmoid_neg]; ring
  have s1 : shift (-e - -3.4358409935350243) (e - 3.4358409935350225) 3.4358409935350225 = e := by
    rw [shift_right (by norm_num)]; ring
  have s2 : shift (-e - -3.4358409935350243) (e - 3.4358409935350225) (-3.4358409935350243) = -e := by
    rw [shift_left (by norm_num)]; ring
  refine ⟨-e - -3.4358409935350243, e - 3.4358409935350225, by simp [supportedOrder], rfl, rfl, ⟨_, fun x => hasDerivAt_swishD (k := 2) (by norm_num) x, abs_swishD3⟩,
    abs_le.2 ⟨by linarith, by linarith⟩, abs_le.2 ⟨by linarith, by linarith⟩, ?_, by simp, ?_, ?_⟩
  · simp only [List.map, s1, s2, shift_zero]; exact g1
  · intro m hm
    simp only [List.mem_cons, List.not_mem_nil, or_false] at hm
    rcases hm with rfl | rfl
    · rw [s2]; exact hev ▸ g2
    · rw [s1]; exact g2
  · intro m hm
    simp only [List.mem_cons, List.not_mem_nil, or_false] at hm
    subst hm
    rw [shift_zero]; exact g3

/-- The functions and degrees whose tables list all extrema, rounded, and whose listed extrema are all global. -/
def RoundedTable (n : FName) (k : ℕ) : Prop :=
  (n = .sigmoid ∧ (k = 2 ∨ k = 3)) ∨ (n = .softplus ∧ (k = 3 ∨ k = 4)) ∨ (n = .swish ∧ k ≤ 2)

theorem near_table {n : FName} {k : ℕ} (h : RoundedTable n k) : ∃ mi ma d1 d2, NearTable n k mi ma d1 d2 := by
  rcases h with ⟨rfl, rfl | rfl⟩ | ⟨rfl, rfl | rfl⟩ | ⟨rfl, hk⟩
  · exact ⟨_, _, near_sigmoid2⟩
  · exact ⟨_, _, near_sigmoid3⟩
  · exact ⟨_, _, near_softplus3⟩
  · exact ⟨_, _, near_softplus4⟩
  · have : k = 0 ∨ k = 1 ∨ k = 2 := by omega
    rcases this with rfl | rfl | rfl
    · exact ⟨_, _, near_swish0⟩
    · exact ⟨_, _, near_swish1⟩
    · exact ⟨_, _, near_swish2⟩

/-- **C58 (all regions).** The enclosures of sigmoid of degree 2 and 3, softplus of degree 3 and 4 and swish of degree
0, 1 and 2 are right up to `1e-12` in the final coefficient, on every trust region (cap aside). -/
theorem C58_rounded_tables {n : FName} {k : ℕ} (h : RoundedTable n k) {x0 a b : ℝ} (hx0 : x0 ∈ Icc a b)
    (ha : NotCapped x0 k a) (hb : NotCapped x0 k b) : BuiltinApprox n k x0 a b (1 / 10 ^ 12) := by
  obtain ⟨mi, ma, d1, d2, h⟩ := near_table h
  exact h.approx hx0 ha hb

/-- **C58 (regions away from the listed extrema).** If no listed extremum is within `1e-12` of the region, the
table is right about the region, -/
theorem C58_away_truthful {n : FName} {k : ℕ} (h : RoundedTable n k) {a b : ℝ} (hab : a ≤ b)
    (haway : ∀ d, getFunctionData ⟨n, k⟩ = .ok d → ∀ e ∈ d.localMinima ++ d.localMaxima,
      b ≤ e - 1 / 10 ^ 12 ∨ e + 1 / 10 ^ 12 ≤ a) : TableTruthful n k a b := by
  obtain ⟨mi, ma, d1, d2, h⟩ := near_table h
  exact h.exact (haway _ h.data) hab

/-- and the enclosure encloses the function. -/
theorem C58_away_sound {n : FName} {k : ℕ} (h : RoundedTable n k) {x0 a b : ℝ} (hx0 : x0 ∈ Icc a b)
    (ha : NotCapped x0 k a) (hb : NotCapped x0 k b)
    (haway : ∀ d, getFunctionData ⟨n, k⟩ = .ok d → ∀ e ∈ d.localMinima ++ d.localMaxima,
      b ≤ e - 1 / 10 ^ 12 ∨ e + 1 / 10 ^ 12 ≤ a) : BuiltinSound n k x0 a b := by
  have hs : smoothDomain n = univ := by
    obtain ⟨mi, ma, d1, d2, h⟩ := near_table h
    exact h.smooth
  exact builtin_of_truthful hx0 (by rw [hs]; exact subset_univ _) ha hb (C58_away_truthful h (hx0.1.trans hx0.2) haway)

/-- C58 on the region `[-3, 5]` about 0 with degree 2, which contains two of the three listed extrema -/
example : BuiltinApprox .swish 2 0 (-3) 5 (1 / 10 ^ 12) :=
  C58_rounded_tables (Or.inr (Or.inr ⟨rfl, le_rfl⟩)) (by norm_num) (Or.inr (by norm_num)) (Or.inr (by norm_num))

/-- C58 on the region `[1/2, 3]` about 1, between two listed extrema -/
example : BuiltinSound .swish 2 1 (1 / 2) 3 := by
  refine C58_away_sound (Or.inr (Or.inr ⟨rfl, le_rfl⟩)) (by norm_num) (Or.inr (by norm_num)) (Or.inr (by norm_num)) ?_
  intro d hd e he
  cases hd
  simp only [List.mem_append, List.mem_cons, List.not_mem_nil, or_false] at he
  rcases he with (rfl | rfl) | rfl
  · right; norm_num
  · left; norm_num
  · right; norm_num

end AB
