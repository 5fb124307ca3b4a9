/-
Tables with extrema that are not all global: what a region has to see.
-/
import Verif.Proofs.ApproxTables
import Verif.Proofs.ExpBounds2

set_option linter.unusedSectionVars false

namespace AB
open PE EF Set

/-- Over a region with no listed minimum, the values are at least one of the values at the end points. -/
theorem ExtremaOf.min_at_ends' {g : ℝ → ℝ} {mi ma : List ℝ} (hE : ExtremaOf g mi ma) (hne : mi ++ ma ≠ [])
    {a b : ℝ} (hno : ∀ m ∈ mi, ¬ (a ≤ m ∧ m ≤ b)) {x : ℝ} (hx : x ∈ Icc a b) :
    g a ≤ g x ∨ g b ≤ g x := by
  -- left of a listed maximum, with no listed minimum between
  have before : ∀ (M : ℝ), M ∈ ma → ∀ u, (∀ e ∈ mi, ¬ (u < e ∧ e < M)) →
      MonotoneOn g (Icc u M) := by
    intro M hM u hu
    -- strong induction on the number of maxima in (u, M)
    have key : ∀ (N : ℕ) (M : ℝ), M ∈ ma → (ma.filter fun e => decide (u < e ∧ e < M)).length ≤ N →
        (∀ e ∈ mi, ¬ (u < e ∧ e < M)) → MonotoneOn g (Icc u M) := by
      intro N
      induction N with
      | zero =>
        intro M hM hN hu
        refine hE.before_max M hM u fun e he => ?_
        rcases List.mem_append.1 he with h | h
        · exact hu e h
        · intro hh
          have : e ∈ ma.filter fun e => decide (u < e ∧ e < M) := List.mem_filter.2 ⟨h, by simpa using hh⟩
          rw [List.length_eq_zero_iff.1 (Nat.le_zero.1 hN)] at this
          cases this
      | succ N ih =>
        intro M hM hN hu
        by_cases hsome : ∃ e ∈ ma, u < e ∧ e < M
        · obtain ⟨e0, h0, h1, h2⟩ := hsome
          -- the largest maximum below M
          obtain ⟨e, he, e1, e2⟩ : ∃ e ∈ ma, e < M ∧ ∀ e' ∈ ma, e' < M → e' ≤ e := by
            rcases exists_nearest_le (ma.filter fun e => decide (e < M)) M with h | ⟨e, he, -, e2⟩
            · exact absurd (h e0 (List.mem_filter.2 ⟨h0, by simpa using h2⟩)) (not_lt.2 h2.le)
            · obtain ⟨he, e1⟩ := List.mem_filter.1 he
              have e1 : e < M := by simpa using e1
              exact ⟨e, he, e1, fun e' he' hl => e2 e' (List.mem_filter.2 ⟨he', by simpa using hl⟩) hl.le⟩
          have hue : u < e := lt_of_lt_of_le h1 (e2 e0 h0 h2)
          have m1 : MonotoneOn g (Icc u e) := by
            refine ih e he ?_ fun m hm hh => hu m hm ⟨hh.1, hh.2.trans e1⟩
            have hlt : (ma.filter fun c => decide (u < c ∧ c < e)).length <
                (ma.filter fun c => decide (u < c ∧ c < M)).length := by
              have hs : (ma.filter fun c => decide (u < c ∧ c < e)).Sublist
                  (ma.filter fun c => decide (u < c ∧ c < M)) := by
                refine List.monotone_filter_right _ fun c hc => ?_
                have hc : u < c ∧ c < e := by simpa using hc
                simpa using ⟨hc.1, hc.2.trans e1⟩
              refine lt_of_le_of_ne hs.length_le fun heq => ?_
              have := hs.eq_of_length heq
              have hin : e ∈ ma.filter fun c => decide (u < c ∧ c < M) := List.mem_filter.2 ⟨he, by simpa using ⟨hue, e1⟩⟩
              rw [← this] at hin
              have := (List.mem_filter.1 hin).2
              simp at this
            omega
          have m2 : MonotoneOn g (Icc e M) := by
            refine hE.before_max M hM e fun c hc hh => ?_
            rcases List.mem_append.1 hc with h | h
            · exact hu c h ⟨hue.trans hh.1, hh.2⟩
            · exact absurd (e2 c h hh.2) (not_le.2 hh.1)
          intro p hp q hq hpq
          rcases le_total p e with hpe | hpe
          · rcases le_total q e with hqe | hqe
            · exact m1 ⟨hp.1, hpe⟩ ⟨hq.1, hqe⟩ hpq
            · exact (m1 ⟨hp.1, hpe⟩ ⟨hue.le, le_rfl⟩ hpe).trans (m2 ⟨le_rfl, e1.le⟩ ⟨hqe, hq.2⟩ hqe)
          · exact m2 ⟨hpe, hp.2⟩ ⟨hpe.trans hpq, hq.2⟩ hpq
        · refine hE.before_max M hM u fun c hc hh => ?_
          rcases List.mem_append.1 hc with h | h
          · exact hu c h hh
          · exact hsome ⟨c, h, hh⟩
    exact key _ M hM le_rfl hu
  rcases exists_nearest_ge (mi ++ ma) x with hR | ⟨e, he, e1, e2⟩
  · rcases exists_nearest_le (mi ++ ma) x with hL | ⟨f, hf, f1, f2⟩
    · obtain ⟨c, l, hc⟩ := List.exists_cons_of_ne_nil hne
      have hm : c ∈ mi ++ ma := by rw [hc]; simp
      exact absurd (hR c hm) (not_lt.2 (hL c hm).le)
    · have hno' : ∀ e ∈ mi ++ ma, ¬ (f < e ∧ e < b) := fun e he h =>
        absurd (f2 e he (hR e he).le) (not_le.2 h.1)
      rcases List.mem_append.1 hf with h | h
      · have hfa : f < a := by
          by_contra hc
          exact hno f h ⟨not_lt.1 hc, f1.trans hx.2⟩
        exact Or.inl (hE.after_min f h b hno' ⟨hfa.le, hx.1.trans hx.2⟩ ⟨f1, hx.2⟩ hx.1)
      · exact Or.inr (hE.after_max f h b hno' ⟨f1, hx.2⟩ ⟨f1.trans hx.2, le_rfl⟩ hx.2)
  · rcases List.mem_append.1 he with h | h
    · have hbe : b < e := by
        by_contra hc
        exact hno e h ⟨hx.1.trans e1, not_lt.1 hc⟩
      right
      exact hE.before_min e h x (fun e' he' hh => absurd (e2 e' he' hh.1.le) (not_le.2 hh.2)) ⟨le_rfl, e1⟩
        ⟨hx.2, hbe.le⟩ hx.2
    · left
      refine before e h a (fun m hm hh => ?_) ⟨le_rfl, hx.1.trans e1⟩ ⟨hx.1, e1⟩ hx.1
      rcases le_total m x with h' | h'
      · exact hno m hm ⟨hh.1.le, h'.trans hx.2⟩
      · exact absurd (e2 m (List.mem_append.2 (Or.inl hm)) h') (not_le.2 hh.2)

theorem ExtremaOf.max_at_ends' {g : ℝ → ℝ} {mi ma : List ℝ} (hE : ExtremaOf g mi ma) (hne : mi ++ ma ≠ [])
    {a b : ℝ} (hno : ∀ m ∈ ma, ¬ (a ≤ m ∧ m ≤ b)) {x : ℝ} (hx : x ∈ Icc a b) :
    g x ≤ g a ∨ g x ≤ g b := by
  have hne' : ma ++ mi ≠ [] := by
    intro h
    apply hne
    simp only [List.append_eq_nil_iff] at h ⊢
    tauto
  have := hE.neg.min_at_ends' hne' hno hx
  simpa using this

/-- If `g` is continuous, within `η` of the `k`-th derivative on the region, has exactly the listed extrema, and the region
contains the lowest of the listed minima if it contains any, and the same for maxima, then the enclosure is right up to
`2 η / k!`. -/
theorem builtin_of_nearby' {n : FName} {k : ℕ} (hk : supportedOrder n k) {mi ma : List ℝ} {e : Bool}
    (hd : getFunctionData ⟨n, k⟩ = .ok ⟨mi, ma, false, false, e⟩) {x0 a b : ℝ} (hx0 : x0 ∈ Icc a b)
    (hdom : Icc a b ⊆ smoothDomain n) (ha : NotCapped x0 k a) (hb : NotCapped x0 k b)
    (hq : ¬ (k = 2 ∧ e = true)) {g : ℝ → ℝ} (hg : Continuous g) {η : ℝ}
    (hη : ∀ x ∈ Icc a b, |derivFun n k x - g x| ≤ η) (hE : ExtremaOf g mi ma) (hne : mi ++ ma ≠ [])
    (hmin : ∀ m ∈ mi, a ≤ m → m ≤ b → ∃ m' ∈ mi, a ≤ m' ∧ m' ≤ b ∧ ∀ x ∈ Icc a b, g m' ≤ g x)
    (hmax : ∀ m ∈ ma, a ≤ m → m ≤ b → ∃ m' ∈ ma, a ≤ m' ∧ m' ≤ b ∧ ∀ x ∈ Icc a b, g x ≤ g m') :
    BuiltinApprox n k x0 a b (2 * η / k.factorial) := by
  have hl : ((taylorCoeffs (derivFun n) k x0).take k).length = k := by simp [taylorCoeffs]
  have hab : a ≤ b := hx0.1.trans hx0.2
  have haI : a ∈ Icc a b := left_mem_Icc.2 hab
  have hbI : b ∈ Icc a b := right_mem_Icc.2 hab
  have hcx : Convex ℝ (Icc a b) := convex_Icc a b
  have hch : Chain (derivFun n) k (Icc a b) := fun i hi x hx =>
    (hasDerivAt_derivFun (supportedOrder_mono hk hi) (hdom hx)).hasDerivWithinAt
  have hr := getRange_ok hk hd a b
  obtain ⟨hdec, hinc⟩ := C28_monotone_over (d := ⟨mi, ma, false, false, e⟩) hE (by simp) (by simp) a b
  unfold BuiltinApprox
  rw [elementwise_eq hk hd ha hb hr, ← derivFun_zero]
  simp only [Bool.or_self, Bool.false_eq_true, if_false, if_neg hq]
  refine ⟨_, rfl, hl, fun x h1 h2 => ?_⟩
  have hx : x ∈ Icc a b := ⟨h1, h2⟩
  split_ifs with h3 h4
  · refine has_of_rho (l := rho (derivFun n) x0 k b - _) (u := rho (derivFun n) x0 k a + _) ?_ ?_
    · have := rho_nearly_anti hch hg hη (hdec h3) hx0 hx hbI hx.2
      linarith
    · have := rho_nearly_anti hch hg hη (hdec h3) hx0 haI hx hx.1
      linarith
  · refine has_of_rho (l := rho (derivFun n) x0 k a - _) (u := rho (derivFun n) x0 k b + _) ?_ ?_
    · have := rho_nearly_mono hch hg hη (hinc h4) hx0 haI hx hx.1
      linarith
    · have := rho_nearly_mono hch hg hη (hinc h4) hx0 hx hbI hx.2
      linarith
  · have lo : ∀ y ∈ Icc a b, minimumValue (derivFun n k) a b mi - 2 * η ≤ derivFun n k y := by
      intro y hy
      have hy' := abs_le.1 (hη y hy)
      rcases minimumValue_spec (derivFun n k) a b mi with ⟨m, hm, m1, m2, h, hall⟩ | ⟨hno, h⟩
      · obtain ⟨m', hm', a1, a2, a3⟩ := hmin m hm m1 m2
        have := abs_le.1 (hη m' ⟨a1, a2⟩)
        have := a3 y hy
        have := hall m' hm' a1 a2
        linarith
      · rw [h]
        have hA := abs_le.1 (hη a haI)
        have hB := abs_le.1 (hη b hbI)
        rcases hE.min_at_ends' hne hno hy with h' | h'
        · have := min_le_left (derivFun n k a) (derivFun n k b)
          linarith
        · have := min_le_right (derivFun n k a) (derivFun n k b)
          linarith
    have hi : ∀ y ∈ Icc a b, derivFun n k y ≤ maximumValue (derivFun n k) a b ma + 2 * η := by
      intro y hy
      have hy' := abs_le.1 (hη y hy)
      rcases maximumValue_spec (derivFun n k) a b ma with ⟨m, hm, m1, m2, h, hall⟩ | ⟨hno, h⟩
      · obtain ⟨m', hm', a1, a2, a3⟩ := hmax m hm m1 m2
        have := abs_le.1 (hη m' ⟨a1, a2⟩)
        have := a3 y hy
        have := hall m' hm' a1 a2
        linarith
      · rw [h]
        have hA := abs_le.1 (hη a haI)
        have hB := abs_le.1 (hη b hbI)
        rcases hE.max_at_ends' hne hno hy with h' | h'
        · have := le_max_left (derivFun n k a) (derivFun n k b)
          linarith
        · have := le_max_right (derivFun n k a) (derivFun n k b)
          linarith
    have r1 := le_rho hcx hch lo hx0 hx
    have r2 := rho_le hcx hch hi hx0 hx
    rw [sub_div] at r1
    rw [add_div] at r2
    exact has_of_rho r1 r2

/-! ### moving four points -/

/-- a tent of width 1 about `c` -/
noncomputable def tent (c x : ℝ) : ℝ := max 0 (1 - 2 * |x - c|)

theorem tent_self (c : ℝ) : tent c c = 1 := by simp [tent]
theorem tent_far {c x : ℝ} (h : 1 / 2 ≤ |x - c|) : tent c x = 0 := max_eq_left (by linarith)
theorem tent_nonneg (c x : ℝ) : 0 ≤ tent c x := le_max_left _ _
theorem tent_le (c x : ℝ) : tent c x ≤ 1 := max_le (by norm_num) (by linarith [abs_nonneg (x - c)])
theorem tent_continuous (c : ℝ) : Continuous (tent c) := by unfold tent; fun_prop
theorem tent_lip (c x y : ℝ) : |tent c x - tent c y| ≤ 2 * |x - y| := by
  have h1 := abs_max_sub_max_le_abs (1 - 2 * |x - c|) (1 - 2 * |y - c|) 0
  rw [max_comm, max_comm (1 - 2 * |y - c|)] at h1
  refine h1.trans ?_
  have h2 := abs_abs_sub_abs_le_abs_sub (y - c) (x - c)
  have e1 : 1 - 2 * |x - c| - (1 - 2 * |y - c|) = 2 * (|y - c| - |x - c|) := by ring
  have e2 : y - c - (x - c) = -(x - y) := by ring
  rw [e1, abs_mul, abs_of_pos (by norm_num : (0 : ℝ) < 2)]
  rw [e2, abs_neg] at h2
  linarith

/-- moves the point `c` of every pair `(c, d)` by `d` -/
noncomputable def nudge : List (ℝ × ℝ) → ℝ → ℝ
  | [], x => x
  | (c, d) :: l, x => nudge l x + d * tent c x

theorem nudge_continuous : ∀ l, Continuous (nudge l)
  | [] => continuous_id
  | (c, d) :: l => (nudge_continuous l).add ((tent_continuous c).const_mul d)

theorem nudge_near : ∀ (l : List (ℝ × ℝ)) (x : ℝ), |nudge l x - x| ≤ (l.map fun p => |p.2|).sum
  | [], x => by simp [nudge]
  | (c, d) :: l, x => by
    have h := nudge_near l x
    have h2 : |d * tent c x| ≤ |d| := by
      rw [abs_mul, abs_of_nonneg (tent_nonneg c x)]
      exact mul_le_of_le_one_right (abs_nonneg d) (tent_le c x)
    have e : nudge ((c, d) :: l) x - x = nudge l x - x + d * tent c x := by rw [nudge]; ring
    rw [e, List.map_cons, List.sum_cons]
    exact (abs_add_le _ _).trans (by linarith)

theorem nudge_diff : ∀ (l : List (ℝ × ℝ)) {x y : ℝ}, x < y →
    (1 - 2 * (l.map fun p => |p.2|).sum) * (y - x) ≤ nudge l y - nudge l x
  | [], x, y, _ => by simp [nudge]
  | (c, d) :: l, x, y, h => by
    have h1 := nudge_diff l h
    have h2 : |d * (tent c y - tent c x)| ≤ |d| * (2 * (y - x)) := by
      rw [abs_mul]
      refine mul_le_mul_of_nonneg_left ?_ (abs_nonneg d)
      have := tent_lip c y x
      rwa [abs_of_pos (sub_pos.2 h)] at this
    have h3 := (abs_le.1 h2).1
    have e : nudge ((c, d) :: l) y - nudge ((c, d) :: l) x = nudge l y - nudge l x + d * (tent c y - tent c x) := by
      rw [nudge, nudge]; ring
    rw [e, List.map_cons, List.sum_cons]
    nlinarith

theorem nudge_strictMono {l : List (ℝ × ℝ)} (h : (l.map fun p => |p.2|).sum < 1 / 2) : StrictMono (nudge l) := by
  intro x y hxy
  have := nudge_diff l hxy
  have : 0 < (1 - 2 * (l.map fun p => |p.2|).sum) * (y - x) := mul_pos (by linarith) (sub_pos.2 hxy)
  linarith

/-! ### shapes with four extrema -/

theorem extrema_four {f : ℝ → ℝ} {p1 p2 p3 p4 : ℝ} (h12 : p1 < p2) (h23 : p2 < p3) (h34 : p3 < p4)
    (m1 : AntitoneOn f (Iic p1)) (m2 : MonotoneOn f (Icc p1 p2)) (m3 : AntitoneOn f (Icc p2 p3))
    (m4 : MonotoneOn f (Icc p3 p4)) (m5 : AntitoneOn f (Ici p4)) : ExtremaOf f [p1, p3] [p2, p4] := by
  have nb : ∀ {u v c : ℝ}, ¬ (u < c ∧ c < v) → c < v → c ≤ u := fun h hc => not_lt.1 fun h' => h ⟨h', hc⟩
  have na : ∀ {u v c : ℝ}, ¬ (u < c ∧ c < v) → u < c → v ≤ c := fun h hc => not_lt.1 fun h' => h ⟨hc, h'⟩
  refine ⟨?_, ?_, ?_, ?_⟩
  · intro m hm u hu
    simp only [List.mem_cons, List.not_mem_nil, or_false] at hm
    rcases hm with rfl | rfl
    · exact m1.mono fun x hx => hx.2
    · have := nb (hu p2 (by simp)) h23
      exact m3.mono fun x hx => ⟨this.trans hx.1, hx.2⟩
  · intro m hm v hv
    simp only [List.mem_cons, List.not_mem_nil, or_false] at hm
    rcases hm with rfl | rfl
    · have := na (hv p2 (by simp)) h12
      exact m2.mono fun x hx => ⟨hx.1, hx.2.trans this⟩
    · have := na (hv p4 (by simp)) h34
      exact m4.mono fun x hx => ⟨hx.1, hx.2.trans this⟩
  · intro m hm u hu
    simp only [List.mem_cons, List.not_mem_nil, or_false] at hm
    rcases hm with rfl | rfl
    · have := nb (hu p1 (by simp)) h12
      exact m2.mono fun x hx => ⟨this.trans hx.1, hx.2⟩
    · have := nb (hu p3 (by simp)) h34
      exact m4.mono fun x hx => ⟨this.trans hx.1, hx.2⟩
  · intro m hm v hv
    simp only [List.mem_cons, List.not_mem_nil, or_false] at hm
    rcases hm with rfl | rfl
    · have := na (hv p3 (by simp)) h23
      exact m3.mono fun x hx => ⟨hx.1, hx.2.trans this⟩
    · exact m5.mono fun x hx => hx.1

/-- An odd function that decreases from 0 to `i`, increases to `o`, and decreases after that, with `|f|` largest at `i`. -/
theorem odd_four {f : ℝ → ℝ} {i o : ℝ} (hi : 0 < i) (hio : i < o) (hodd : ∀ x, f (-x) = -f x)
    (h1 : AntitoneOn f (Icc 0 i)) (h2 : MonotoneOn f (Icc i o)) (h3 : AntitoneOn f (Ici o))
    (hlow : ∀ x, o ≤ x → f i ≤ f x) (hbig : f o ≤ -f i) :
    ExtremaOf f [-o, i] [-i, o] ∧ (∀ x, f i ≤ f x) ∧ ∀ x, f x ≤ f (-i) := by
  have f0 : f 0 = 0 := by
    have := hodd 0
    rw [neg_zero] at this
    linarith
  have mem0 : (0 : ℝ) ∈ Icc 0 i := ⟨le_rfl, hi.le⟩
  have memi : i ∈ Icc 0 i := ⟨hi.le, le_rfl⟩
  have fi : f i ≤ 0 := by
    have := h1 mem0 memi hi.le
    linarith
  have pos : ∀ x, 0 ≤ x → f i ≤ f x ∧ f x ≤ -f i := by
    intro x hx
    rcases le_total x i with h | h
    · have a1 := h1 ⟨hx, h⟩ memi h
      have a2 := h1 mem0 ⟨hx, h⟩ hx
      exact ⟨a1, by linarith⟩
    · rcases le_total x o with h' | h'
      · have a1 := h2 ⟨le_rfl, hio.le⟩ ⟨h, h'⟩ h
        have a2 := h2 ⟨h, h'⟩ ⟨hio.le, le_rfl⟩ h'
        exact ⟨a1, by linarith⟩
      · have a2 := h3 (mem_Ici.2 le_rfl) h' h'
        exact ⟨hlow x h', by linarith⟩
  have all : ∀ x, f i ≤ f x ∧ f x ≤ -f i := by
    intro x
    rcases le_total 0 x with h | h
    · exact pos x h
    · have := pos (-x) (by linarith)
      rw [hodd] at this
      exact ⟨by linarith [this.2], by linarith [this.1]⟩
  refine ⟨extrema_four (by linarith) (by linarith) hio ?_ ?_ ?_ h2 h3, fun x => (all x).1, fun x => ?_⟩
  · intro x hx y hy hxy
    have hx' : x ≤ -o := hx
    have hy' : y ≤ -o := hy
    have := h3 (show -y ∈ Ici o from by rw [mem_Ici]; linarith) (show -x ∈ Ici o from by rw [mem_Ici]; linarith)
      (by linarith)
    rw [hodd, hodd] at this
    linarith
  · intro x hx y hy hxy
    have := h2 (show -y ∈ Icc i o from ⟨by linarith [hy.2], by linarith [hy.1]⟩)
      (show -x ∈ Icc i o from ⟨by linarith [hx.2], by linarith [hx.1]⟩) (by linarith)
    rw [hodd, hodd] at this
    linarith
  · have hneg : AntitoneOn f (Icc (-i) 0) := by
      intro x hx y hy hxy
      have := h1 (show -y ∈ Icc 0 i from ⟨by linarith [hy.2], by linarith [hy.1]⟩)
        (show -x ∈ Icc 0 i from ⟨by linarith [hx.2], by linarith [hx.1]⟩) (by linarith)
      rw [hodd, hodd] at this
      linarith
    intro x hx y hy hxy
    rcases le_total y 0 with h | h
    · exact hneg ⟨hx.1, hxy.trans h⟩ ⟨hy.1, h⟩ hxy
    · rcases le_total x 0 with h' | h'
      · exact (h1 mem0 ⟨h, hy.2⟩ h).trans (hneg ⟨hx.1, h'⟩ ⟨by linarith, le_rfl⟩ h')
      · exact h1 ⟨h', hx.2⟩ ⟨h, hy.2⟩ hxy
  · rw [hodd]
    exact (all x).2

end AB
