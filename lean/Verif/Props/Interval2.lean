/-
C06-C08: interval arithmetic (/repo/autobound/interval_arithmetic.py), well-formedness, degenerate
intervals and inclusion isotonicity.
-/
import Verif.Props.Interval

set_option linter.unusedSectionVars false

namespace AB
variable {K : Type} [Field K] [LinearOrder K] [IsStrictOrderedRing K]

/-! ### C06 -/

/-- **C06.** Every interval returned by an interval operation on well-formed arguments is well formed. -/
theorem C06_wellFormed {A B r : Coef K} (hA : A.WellFormed) (hB : B.WellFormed) :
    (IA.add A B = .ok r → r.WellFormed) ∧
    (IA.subtract A B = .ok r → r.WellFormed) ∧
    (IA.negative A).WellFormed ∧
    (IA.multiply A B = .ok r → r.WellFormed) ∧
    (∀ k : ℤ, IA.power A k = .ok r → r.WellFormed) ∧
    (∀ d, IA.outerProduct A B d = .ok r → r.WellFormed) ∧
    (∀ (k : ℤ) d, d ≤ A.shape.length → IA.outerPower A k d = .ok r → r.WellFormed) ∧
    (∀ n, IA.tensordot A B n = .ok r → r.WellFormed) := by
  have wA := hA.wf
  have wB := hB.wf
  refine ⟨fun h => ?_, fun h => ?_, ?_, fun h => ?_, fun k h => ?_, fun d h => ?_,
    fun k d hd h => ?_, fun n h => ?_⟩
  · obtain ⟨r1, r2, -, -⟩ := IA.add_ok wA wB h
    have := bshape_le r2
    exact Coef.wellFormed_of r1 fun L hL =>
      ⟨_, mem_add wA wB h hL.length.le (hA.lo_mem this.1 hL) (hB.lo_mem this.2 hL)⟩
  · obtain ⟨r1, r2, -, -⟩ := IA.sub_ok wA wB h
    have := bshape_le r2
    exact Coef.wellFormed_of r1 fun L hL =>
      ⟨_, mem_sub wA wB h hL.length.le (hA.lo_mem this.1 hL) (hB.lo_mem this.2 hL)⟩
  · obtain ⟨r1, r2, -, -⟩ := IA.neg_ok wA
    exact Coef.wellFormed_of r1 fun L hL => ⟨_, mem_neg wA (hA.lo_mem (r2 ▸ ble_refl _) hL)⟩
  · obtain ⟨r1, r2, -, -⟩ := IA.multiply_ok wA wB h
    have := bshape_le r2
    exact Coef.wellFormed_of r1 fun L hL =>
      ⟨_, IA.multiply_mem wA wB h hL.length.le (hA.lo_mem this.1 hL) (hB.lo_mem this.2 hL)⟩
  · by_cases hk : k < 0
    · cases A with
      | arr a => rw [C03_power_array] at h; cases h; exact ⟨trivial, trivial⟩
      | ivl l u => rw [C03_power_errors _ _ _ hk] at h; cases h
    · obtain ⟨n, rfl⟩ := Int.eq_ofNat_of_zero_le (not_lt.1 hk)
      obtain ⟨r1, r2, -, -, -⟩ := IA.power_ok wA h
      exact Coef.wellFormed_of r1 fun L hL =>
        ⟨_, IA.power_mem wA h (by rw [← r2]; exact hL.length.le)
          (hA.lo_mem (r2 ▸ ble_refl _) hL)⟩
  · obtain ⟨d1, d2, r1, -, Q, q1, q2, -⟩ := IA.outerProduct_ok wA wB h
    have hlenB : Q.length = d := by
      rw [bshape_length q1, List.length_take, List.length_take]
      unfold Coef.ndim at d1 d2; omega
    refine Coef.wellFormed_of r1 fun L hL => ?_
    rw [q2] at hL
    obtain ⟨IJ, J', rfl, hIJ, hJ'⟩ := validIdx_split hL
    obtain ⟨I, J, rfl, hI, hJ⟩ := validIdx_split hIJ
    have hle := bshape_le q1
    have key : ∀ (c : Coef K), c.WellFormed → ble (c.shape.take d) Q → ∀ J,
        ValidIdx (c.shape.drop d) J → c.Mem (I ++ J) (c.lo.bget (I ++ J)) := by
      intro c hc hcQ J hJ
      refine hc.lo_mem (R := Q ++ c.shape.drop d) ?_ (validIdx_append hI hJ)
      conv_lhs => rw [← List.take_append_drop d c.shape]
      exact ble_append hcQ (ble_refl _) rfl
    refine ⟨_, IA.outerProduct_mem wA wB h (by rw [← hI.length, hlenB]) ?_ ?_
      (key A hA hle.1 J hJ) (key B hB hle.2 J' hJ')⟩
    · rw [← hJ.length, List.length_drop]; rfl
    · rw [← hJ'.length, List.length_drop]; rfl
  · by_cases hk : k < 0
    · rw [(C04_errors A A d k).1 hk] at h; cases h
    · obtain ⟨n, rfl⟩ := Int.eq_ofNat_of_zero_le (not_lt.1 hk)
      have hsplit : A.shape = A.shape.take d ++ A.shape.drop d := (List.take_append_drop d _).symm
      have hlen : (A.shape.take d).length = d := by rw [List.length_take]; omega
      have h' : IA.outerPower A (n : ℤ) (A.shape.take d).length = .ok r := by rw [hlen]; exact h
      obtain ⟨r1, r2, r3, r4, r5⟩ := IA.outerPower_mem wA hsplit h'
      by_cases hn : n = 0
      · have := r4 (Or.inr hn)
        cases r with
        | arr a => exact ⟨trivial, trivial⟩
        | ivl _ _ => cases this
      · refine Coef.wellFormed_of r1 fun L hL => ?_
        rw [r2 hn] at hL
        obtain ⟨I, J, rfl, hI, hJ⟩ := validIdx_split hL
        obtain ⟨Js, j1, j2, rfl⟩ := flatten_split hJ
        refine ⟨_, r5 I hI.length.le (fun J => A.lo.bget (I ++ J)) Js j1 fun J hJ => ⟨j2 J hJ, ?_⟩⟩
        exact hA.lo_mem (ble_refl _) (by rw [hsplit]; exact validIdx_append hI (j2 J hJ))
  · obtain ⟨r1, t1, t2, t3, r5, -, r7⟩ := IA.tensordot_mem wA wB h
    refine Coef.wellFormed_of r1 fun L hL => ?_
    rw [r5] at hL
    obtain ⟨L1, L2, rfl, h1, h2⟩ := validIdx_split hL
    have l1 : A.ndim - n ≤ L1.length := by
      rw [← h1.length, List.length_take]; unfold Coef.ndim; omega
    have l2 : L2.length = B.ndim - n := by rw [← h2.length, List.length_drop]; rfl
    refine ⟨_, r7 L1 L2 l1 l2 (fun J => A.lo.bget (L1 ++ J)) (fun J => B.lo.bget (J ++ L2)) ?_ ?_⟩
    · intro J hJ
      refine hA.lo_mem (ble_refl _) ?_
      rw [← List.take_append_drop (A.ndim - n) A.shape, t3]
      exact validIdx_append h1 (mem_idx.1 hJ)
    · intro J hJ
      refine hB.lo_mem (ble_refl _) ?_
      rw [← List.take_append_drop n B.shape]
      exact validIdx_append (mem_idx.1 hJ) h2

example : ∃ (A B : Coef ℚ) (r : Coef ℚ), A.WellFormed ∧ B.WellFormed ∧ ¬ A.IsArr ∧
    IA.tensordot A B 1 = .ok r :=
  ⟨.ivl (ND.mk' [2, 2] [-1, 2, 0, 1]) (ND.mk' [2, 2] [3, 4, 0, 2]),
   .ivl (ND.mk' [2] [0, -1]) (ND.mk' [2] [1, 1]), _, by decide +kernel, by decide +kernel,
   by decide +kernel, rfl⟩

/-! ### C07 -/

/-- `x` returned the plain array `s`, up to numpy equality. -/
def ReturnsArray (x : Py (Coef K)) (s : ND K) : Prop := ∃ t, x = .ok (.arr t) ∧ t.Same s

/-- `x` returned an interval both of whose endpoints are `s`, up to numpy equality. -/
def ReturnsDegenerate (x : Py (Coef K)) (s : ND K) : Prop :=
  ∃ lo hi, x = .ok (.ivl lo hi) ∧ lo.Same s ∧ hi.Same s

theorem ND.Same.refl (s : ND K) : s.Same s := ⟨rfl, fun _ _ => rfl⟩

/-- **C07 (arrays).** On plain arrays each operation returns the plain numpy result. -/
theorem C07_arrays (x y s : ND K) :
    (ND.map2 (· + ·) x y = .ok s → ReturnsArray (IA.add (.arr x) (.arr y)) s) ∧
    (ND.map2 (· - ·) x y = .ok s → ReturnsArray (IA.subtract (.arr x) (.arr y)) s) ∧
    IA.negative (.arr x) = .arr (x.map (- ·)) ∧
    (ND.map2 (· * ·) x y = .ok s → ReturnsArray (IA.multiply (.arr x) (.arr y)) s) ∧
    (∀ k : ℤ, ReturnsArray (IA.power (.arr x) k) (x.map (· ^ k))) ∧
    (∀ n, ND.tensordot x y n = .ok s → ReturnsArray (IA.tensordot (.arr x) (.arr y) n) s) ∧
    (∀ op : ND K → ND K → Py (ND K), op x y = .ok s → ∀ flag,
      ReturnsArray (IA.arbitraryBilinear (.arr x) (.arr y) op flag) s) := by
  refine ⟨fun h => ⟨s, ?_, .refl s⟩, fun h => ⟨s, ?_, .refl s⟩, rfl, fun h => ⟨s, ?_, .refl s⟩,
    fun k => ⟨_, rfl, .refl _⟩, fun n h => ⟨s, ?_, .refl s⟩, fun op h flag => ⟨s, ?_, .refl s⟩⟩
  · simp only [IA.add, h, py_ok_bind]; rfl
  · simp only [IA.subtract, h, py_ok_bind]; rfl
  · simp only [IA.multiply, IA.arbitraryBilinear, h, py_ok_bind]; rfl
  · simp only [IA.tensordot, IA.arbitraryBilinear, h, py_ok_bind]; rfl
  · simp only [IA.arbitraryBilinear, h, py_ok_bind]; rfl

theorem degenerate_of {r : Coef K} (hr : r.WF) (hni : r.isArr = false) {s : ND K}
    (hs : s.shape = r.shape) (h : ∀ I, ValidIdx r.shape I →
      r.lo.bget I = s.bget I ∧ r.hi.bget I = s.bget I) {x : Py (Coef K)} (hx : x = .ok r) :
    ReturnsDegenerate x s := by
  cases r with
  | arr a => cases hni
  | ivl lo hi =>
    have e : lo.shape = hi.shape := hr
    refine ⟨lo, hi, hx, ⟨hs.symm, fun I hI => ?_⟩, ⟨e ▸ hs.symm, fun I hI => ?_⟩⟩
    · have : lo.bget I = s.bget I := (h I hI).1
      rwa [ND.bget_valid lo hI, ND.bget_valid s (hs ▸ hI)] at this
    · have : hi.bget I = s.bget I := (h I (by show ValidIdx lo.shape I; rw [e]; exact hI)).2
      rwa [ND.bget_valid hi hI, ND.bget_valid s (by rw [hs]; show ValidIdx lo.shape I; rw [e]; exact hI)] at this

theorem plo_self (a b : K) : plo a a b b = a * b := by simp [plo]
theorem phi_self (a b : K) : phi a a b b = a * b := by simp [phi]
theorem glo_self2 (a b : K) : glo a a b b = a * b := by rw [glo_self, ← add_mul, posneg]
theorem ghi_self2 (a b : K) : ghi a a b b = a * b := by rw [ghi_self, ← add_mul, posneg]

/-- **C07 (degenerate intervals).** On degenerate intervals `(x, x)` each operation returns the
degenerate interval of the numpy result (`power(·, 0)` returns the plain array of ones). -/
theorem C07_degenerate (x y s : ND K) :
    (ND.map2 (· + ·) x y = .ok s →
      ReturnsDegenerate (IA.add (.degenerate x) (.degenerate y)) s) ∧
    (ND.map2 (· - ·) x y = .ok s →
      ReturnsDegenerate (IA.subtract (.degenerate x) (.degenerate y)) s) ∧
    IA.negative (.degenerate x) = .degenerate (x.map (- ·)) ∧
    (ND.map2 (· * ·) x y = .ok s →
      ReturnsDegenerate (IA.multiply (.degenerate x) (.degenerate y)) s) ∧
    (∀ k : ℕ, k ≠ 0 → ReturnsDegenerate (IA.power (.degenerate x) k) (x.map (· ^ k))) ∧
    ReturnsArray (IA.power (.degenerate x) 0) (x.map (· ^ 0)) ∧
    (∀ n, ND.tensordot x y n = .ok s →
      ReturnsDegenerate (IA.tensordot (.degenerate x) (.degenerate y) n) s) := by
  have wx : (Coef.degenerate x).WF := rfl
  have wy : (Coef.degenerate y).WF := rfl
  refine ⟨fun h => ?_, fun h => ?_, rfl, fun h => ?_, fun k hk => ?_, ?_, fun n h => ?_⟩
  · obtain ⟨s1, s2⟩ := ND.map2_ok h
    have hle := bshape_le s1
    obtain ⟨r, hr⟩ := IA.add_lub wx wy hle.1 hle.2
    obtain ⟨r1, r2, r3, r4⟩ := IA.add_ok wx wy hr
    have e : s.shape = r.shape := Option.some.inj (s1.symm.trans r2)
    refine degenerate_of r1 r3 e (fun I hI => ?_) hr
    rw [s2 I (e ▸ hI.length.le)]
    exact r4 I hI.length.le
  · obtain ⟨s1, s2⟩ := ND.map2_ok h
    have hle := bshape_le s1
    obtain ⟨r, hr⟩ := sub_lub wx wy hle.1 hle.2
    obtain ⟨r1, r2, r3, r4⟩ := IA.sub_ok wx wy hr
    have e : s.shape = r.shape := Option.some.inj (s1.symm.trans r2)
    refine degenerate_of r1 r3 e (fun I hI => ?_) hr
    rw [s2 I (e ▸ hI.length.le)]
    exact r4 I hI.length.le
  · obtain ⟨s1, s2⟩ := ND.map2_ok h
    obtain ⟨r, hr⟩ := IA.multiply_total wx wy s1
    obtain ⟨r1, r2, r3, r4⟩ := IA.multiply_ok wx wy hr
    have e : s.shape = r.shape := Option.some.inj (s1.symm.trans r2)
    refine degenerate_of r1 r3 e (fun I hI => ?_) hr
    rw [s2 I (e ▸ hI.length.le)]
    obtain ⟨e1, e2⟩ := r4 I hI.length.le
    exact ⟨e1.trans (plo_self _ _), e2.trans (phi_self _ _)⟩
  · obtain ⟨r, hr⟩ := IA.power_total wx k
    obtain ⟨r1, r2, -, r4, r5⟩ := IA.power_ok wx hr
    refine degenerate_of (s := x.map (· ^ k)) r1 (r4 rfl hk) r2.symm (fun I hI => ?_) hr
    obtain ⟨e1, e2⟩ := (r5 I (r2 ▸ hI.length.le)).2 rfl hk
    rw [ND.bget_map, e1, e2]
    show IA.powLo k (x.bget I) (x.bget I) = _ ∧ IA.powHi k (x.bget I) (x.bget I) = _
    constructor
    · obtain ⟨v, v1, v2, ev⟩ := IA.powLo_attained hk (le_refl (x.bget I))
      rw [ev, le_antisymm v2 v1]
    · obtain ⟨v, v1, v2, ev⟩ := IA.powHi_attained (k := k) (le_refl (x.bget I))
      rw [ev, le_antisymm v2 v1]
  · refine ⟨x.onesLike, by simp [IA.power, Coef.degenerate], rfl, fun I _ => ?_⟩
    simp [ND.onesLike, ND.map]
  · obtain ⟨s1, s2, s3, s4, s5⟩ := ND.tensordot_ok h
    obtain ⟨r, hr⟩ := IA.tensordot_total wx wy s1 s2 s3
    obtain ⟨r1, -, -, -, r5, r6, r7⟩ := IA.tensordot_mem wx wy hr
    have hle : s.shape = r.shape := by rw [s4, r5]; rfl
    have hsh : ∀ (x' y' t : ND K), x'.shape = (Coef.degenerate x).shape →
        y'.shape = (Coef.degenerate y).shape → (fun x y => ND.tensordot x y n) x' y' = .ok t →
        t.shape = r.shape := by
      intro x' y' t hx hy ht
      have := (ND.tensordot_ok ht).2.2.2.1
      rw [hx, hy, show x'.ndim = x.ndim by unfold ND.ndim; rw [hx]; rfl] at this
      rw [this, r5]; rfl
    have hval : ∀ L1 L2, x.ndim - n ≤ L1.length → L2.length = y.ndim - n → ∀ (x' y' t : ND K),
        x'.shape = (Coef.degenerate x).shape → y'.shape = (Coef.degenerate y).shape →
        ND.tensordot x' y' n = .ok t → t.bget (L1 ++ L2) = ((idx (y.shape.take n)).map fun J =>
          x'.bget (L1 ++ J) * y'.bget (J ++ L2)).sum := by
      intro L1 L2 h1 h2 x' y' t hx hy ht
      have := (ND.tensordot_ok ht).2.2.2.2 L1 L2 (by unfold ND.ndim; rw [hx]; exact h1)
        (by unfold ND.ndim; rw [hy]; exact h2)
      rw [hy] at this; exact this
    refine degenerate_of r1 r6 hle (fun I hI => ?_) hr
    rw [r5] at hI
    obtain ⟨L1, L2, rfl, h1, h2⟩ := validIdx_split hI
    have l1 : x.ndim - n ≤ L1.length := by
      rw [← h1.length, List.length_take]
      exact le_min le_rfl (Nat.sub_le _ _)
    have l2 : L2.length = y.ndim - n := by rw [← h2.length, List.length_drop]; rfl
    have hIl : r.shape.length ≤ (L1 ++ L2).length := by rw [r5]; exact hI.length.le
    rw [s5 L1 L2 l1 l2]
    by_cases hn : n = 0
    · subst hn
      have hr' : IA.arbitraryBilinear (.degenerate x) (.degenerate y)
        (fun x y => ND.tensordot x y 0) true = .ok r := hr
      obtain ⟨-, -, -, ok⟩ := IA.bilinearTrue_ok wx wy hsh hr'
      obtain ⟨e1, e2⟩ := ok (L1 ++ L2) L1 L2 hIl (fun x' y' t hx hy ht => by
        have := hval L1 L2 l1 l2 x' y' t hx hy ht
        simpa [idx] using this)
      rw [e1, e2]
      simp [idx, Coef.degenerate, plo_self, phi_self]
    · have hr' : IA.arbitraryBilinear (.degenerate x) (.degenerate y)
        (fun x y => ND.tensordot x y n) false = .ok r := by
        have : (n == 0) = false := by simpa using hn
        unfold IA.tensordot at hr; rwa [this] at hr
      obtain ⟨-, -, -, ok⟩ := IA.bilinearFalse_ok wx wy hsh hr'
      obtain ⟨-, e1, e2⟩ := ok (L1 ++ L2) ((idx (y.shape.take n)).map fun J =>
        ((1 : K), L1 ++ J, J ++ L2)) hIl (fun x' y' t hx hy ht => by
          rw [hval L1 L2 l1 l2 x' y' t hx hy ht, List.map_map]
          congr 1
          apply List.map_congr_left
          intro J _; simp)
      rw [List.map_map] at e1 e2
      rw [e1, e2]
      constructor
      · congr 1
        apply List.map_congr_left
        intro J _
        simp [Coef.degenerate, glo_self2]
      · congr 1
        apply List.map_congr_left
        intro J _
        simp [Coef.degenerate, ghi_self2]

example : ∃ x y s t : ND ℚ, ND.map2 (· * ·) x y = .ok s ∧ s.shape = [3] ∧
    ND.tensordot x x 1 = .ok t ∧ t.get [] = 30 :=
  ⟨ND.mk' [3] [1, -2, 5], ND.scalar (-3), _, _, rfl, rfl, rfl, by decide +kernel⟩

/-! ### C08 -/

theorem Coef.WellFormed.lower_contains {c : Coef K} (h : c.WellFormed) :
    c.Contains c.lower ∧ c.Contains c.upper := by
  rw [Coef.contains_iff h.wf, Coef.contains_iff h.wf, Coef.lower_eq, Coef.upper_eq]
  refine ⟨⟨Coef.lo_shape c, fun I hI => ?_⟩, ⟨h.wf.hi_shape, fun I hI => ?_⟩⟩
  · rw [← ND.bget_valid c.lo (by rw [Coef.lo_shape]; exact hI)]
    exact h.lo_mem (ble_refl _) hI
  · rw [← ND.bget_valid c.hi (by rw [h.wf.hi_shape]; exact hI)]
    exact h.hi_mem (ble_refl _) hI

theorem inside_mem {A' A : Coef K} (h' : A'.WellFormed) (h : A.SameShape) (hi : A'.Inside A) :
    A'.shape = A.shape ∧ ∀ R L, ble A.shape R → ValidIdx R L →
      A.Mem L (A'.lo.bget L) ∧ A.Mem L (A'.hi.bget L) := by
  obtain ⟨c1, c2⟩ := h'.lower_contains
  have d1 := hi _ c1
  have d2 := hi _ c2
  refine ⟨by rw [← d1.1, Coef.lower_shape], fun R L hR hL => ?_⟩
  rw [← Coef.lower_eq, ← Coef.upper_eq]
  exact ⟨d1.memb h hR hL, d2.memb h hR hL⟩

theorem inside_of {r' r : Coef K} (h' : r'.WF) (h : r.WF) (hs : r'.shape = r.shape)
    (hm : ∀ L, ValidIdx r.shape L → r.Mem L (r'.lo.bget L) ∧ r.Mem L (r'.hi.bget L)) :
    r'.Inside r := by
  intro y hy
  rw [Coef.contains_iff h'] at hy
  rw [Coef.contains_iff h]
  refine ⟨hy.1.trans hs, fun I hI => ?_⟩
  obtain ⟨m1, m2⟩ := hy.2 I (hs ▸ hI)
  obtain ⟨k1, k2⟩ := hm I hI
  exact ⟨k1.1.trans m1, m2.trans k2.2⟩

/-- **C08 (add, subtract).** -/
theorem C08_add_subtract {A A' B B' : Coef K} (hA : A.SameShape) (hB : B.SameShape)
    (hA' : A'.WellFormed) (hB' : B'.WellFormed) (iA : A'.Inside A) (iB : B'.Inside B) {r : Coef K} :
    (IA.add A B = .ok r → ∃ r', IA.add A' B' = .ok r' ∧ r'.Inside r) ∧
    (IA.subtract A B = .ok r → ∃ r', IA.subtract A' B' = .ok r' ∧ r'.Inside r) := by
  have wA := Coef.sameShape_iff.1 hA
  have wB := Coef.sameShape_iff.1 hB
  obtain ⟨sA, mA⟩ := inside_mem hA' hA iA
  obtain ⟨sB, mB⟩ := inside_mem hB' hB iB
  constructor
  · intro h
    obtain ⟨r1, r2, -, -⟩ := IA.add_ok wA wB h
    have hle := bshape_le r2
    obtain ⟨r', hr'⟩ := IA.add_lub hA'.wf hB'.wf (sA ▸ hle.1) (sB ▸ hle.2)
    obtain ⟨q1, q2, -, q4⟩ := IA.add_ok hA'.wf hB'.wf hr'
    have e : r'.shape = r.shape := by rw [sA, sB, r2] at q2; exact (Option.some.inj q2).symm
    refine ⟨r', hr', inside_of q1 r1 e fun L hL => ?_⟩
    obtain ⟨e1, e2⟩ := q4 L (e ▸ hL.length.le)
    obtain ⟨a1, a2⟩ := mA _ L hle.1 hL
    obtain ⟨b1, b2⟩ := mB _ L hle.2 hL
    rw [e1, e2]
    exact ⟨mem_add wA wB h hL.length.le a1 b1, mem_add wA wB h hL.length.le a2 b2⟩
  · intro h
    obtain ⟨r1, r2, -, -⟩ := IA.sub_ok wA wB h
    have hle := bshape_le r2
    obtain ⟨r', hr'⟩ := sub_lub hA'.wf hB'.wf (sA ▸ hle.1) (sB ▸ hle.2)
    obtain ⟨q1, q2, -, q4⟩ := IA.sub_ok hA'.wf hB'.wf hr'
    have e : r'.shape = r.shape := by rw [sA, sB, r2] at q2; exact (Option.some.inj q2).symm
    refine ⟨r', hr', inside_of q1 r1 e fun L hL => ?_⟩
    obtain ⟨e1, e2⟩ := q4 L (e ▸ hL.length.le)
    obtain ⟨a1, a2⟩ := mA _ L hle.1 hL
    obtain ⟨b1, b2⟩ := mB _ L hle.2 hL
    rw [e1, e2]
    exact ⟨mem_sub wA wB h hL.length.le a1 b2, mem_sub wA wB h hL.length.le a2 b1⟩

/-- **C08 (negative).** -/
theorem C08_negative {A A' : Coef K} (hA : A.SameShape) (hA' : A'.WellFormed) (iA : A'.Inside A) :
    (IA.negative A').Inside (IA.negative A) := by
  have wA := Coef.sameShape_iff.1 hA
  obtain ⟨sA, mA⟩ := inside_mem hA' hA iA
  obtain ⟨r1, r2, -, -⟩ := IA.neg_ok wA
  obtain ⟨q1, q2, -, q4⟩ := IA.neg_ok hA'.wf
  refine inside_of q1 r1 (by rw [q2, r2, sA]) fun L hL => ?_
  rw [(q4 L).1, (q4 L).2]
  obtain ⟨a1, a2⟩ := mA _ L (ble_refl _) (r2 ▸ hL)
  exact ⟨mem_neg wA a2, mem_neg wA a1⟩

/-- **C08 (multiply).** -/
theorem C08_multiply {A A' B B' : Coef K} (hA : A.SameShape) (hB : B.SameShape)
    (hA' : A'.WellFormed) (hB' : B'.WellFormed) (iA : A'.Inside A) (iB : B'.Inside B) {r : Coef K}
    (h : IA.multiply A B = .ok r) : ∃ r', IA.multiply A' B' = .ok r' ∧ r'.Inside r := by
  have wA := Coef.sameShape_iff.1 hA
  have wB := Coef.sameShape_iff.1 hB
  obtain ⟨sA, mA⟩ := inside_mem hA' hA iA
  obtain ⟨sB, mB⟩ := inside_mem hB' hB iB
  obtain ⟨r1, r2, -, -⟩ := IA.multiply_ok wA wB h
  have hle := bshape_le r2
  obtain ⟨r', hr'⟩ := IA.multiply_total hA'.wf hB'.wf (R := r.shape) (by rw [sA, sB]; exact r2)
  obtain ⟨q1, q2, -, q4⟩ := IA.multiply_ok hA'.wf hB'.wf hr'
  have e : r'.shape = r.shape := by rw [sA, sB, r2] at q2; exact (Option.some.inj q2).symm
  refine ⟨r', hr', inside_of q1 r1 e fun L hL => ?_⟩
  obtain ⟨e1, e2⟩ := q4 L (e ▸ hL.length.le)
  obtain ⟨a1, a2⟩ := mA _ L hle.1 hL
  obtain ⟨b1, b2⟩ := mB _ L hle.2 hL
  have key : ∀ u ∈ [A'.lo.bget L, A'.hi.bget L], ∀ v ∈ [B'.lo.bget L, B'.hi.bget L],
      r.Mem L (u * v) := by
    intro u hu v hv
    apply IA.multiply_mem wA wB h hL.length.le
    · rcases List.mem_pair.1 hu with rfl | rfl <;> assumption
    · rcases List.mem_pair.1 hv with rfl | rfl <;> assumption
  rw [e1, e2]
  constructor
  · obtain ⟨u, hu, v, hv, e⟩ := plo_mem (A'.lo.bget L) (A'.hi.bget L) (B'.lo.bget L) (B'.hi.bget L)
    rw [e]; exact key u hu v hv
  · obtain ⟨u, hu, v, hv, e⟩ := phi_mem (A'.lo.bget L) (A'.hi.bget L) (B'.lo.bget L) (B'.hi.bget L)
    rw [e]; exact key u hu v hv

/-- **C08 (power).** -/
theorem C08_power {A A' : Coef K} (hA : A.SameShape) (hA' : A'.WellFormed) (iA : A'.Inside A)
    (k : ℕ) {r : Coef K} (h : IA.power A (k : ℤ) = .ok r) :
    ∃ r', IA.power A' (k : ℤ) = .ok r' ∧ r'.Inside r := by
  have wA := Coef.sameShape_iff.1 hA
  obtain ⟨sA, mA⟩ := inside_mem hA' hA iA
  obtain ⟨r1, r2, -, -, -⟩ := IA.power_ok wA h
  obtain ⟨r', hr'⟩ := IA.power_total hA'.wf k
  obtain ⟨q1, q2, -, -, -⟩ := IA.power_ok hA'.wf hr'
  have e : r'.shape = r.shape := by rw [q2, r2, sA]
  refine ⟨r', hr', inside_of q1 r1 e fun L hL => ?_⟩
  have hL' : ValidIdx A'.shape L := by rw [sA, ← r2]; exact hL
  obtain ⟨⟨v, hv, ev⟩, ⟨u, hu, eu⟩⟩ := C03_power_attained hA' hr' hL'
  rw [Coef.lower_eq, ← ND.bget_valid r'.lo (by rw [Coef.lo_shape, e]; exact hL)] at ev
  rw [Coef.upper_eq, ← ND.bget_valid r'.hi (by rw [q1.hi_shape, e]; exact hL)] at eu
  rw [Coef.atIdx_iff hA'.wf hL'] at hv hu
  obtain ⟨a1, a2⟩ := mA _ L (ble_refl _) (r2 ▸ hL)
  have key : ∀ w, A'.Mem L w → A.Mem L w := fun w hw => ⟨a1.1.trans hw.1, hw.2.trans a2.2⟩
  rw [ev, eu]
  exact ⟨IA.power_mem wA h (r2 ▸ hL.length.le) (key v hv),
    IA.power_mem wA h (r2 ▸ hL.length.le) (key u hu)⟩

/-- **C08 (tensordot).** -/
theorem C08_tensordot {A A' B B' : Coef K} (hA : A.SameShape) (hB : B.SameShape)
    (hA' : A'.WellFormed) (hB' : B'.WellFormed) (iA : A'.Inside A) (iB : B'.Inside B) {r : Coef K}
    {n : ℕ} (h : IA.tensordot A B n = .ok r) :
    ∃ r', IA.tensordot A' B' n = .ok r' ∧ r'.Inside r := by
  have wA := Coef.sameShape_iff.1 hA
  have wB := Coef.sameShape_iff.1 hB
  obtain ⟨sA, mA⟩ := inside_mem hA' hA iA
  obtain ⟨sB, mB⟩ := inside_mem hB' hB iB
  have nA : A'.ndim = A.ndim := by unfold Coef.ndim; rw [sA]
  have nB : B'.ndim = B.ndim := by unfold Coef.ndim; rw [sB]
  obtain ⟨r1, t1, t2, t3, r5, -, r7⟩ := IA.tensordot_mem wA wB h
  obtain ⟨r', hr'⟩ := IA.tensordot_total (n := n) hA'.wf hB'.wf (nA ▸ t1) (nB ▸ t2)
    (by rw [sA, sB, nA]; exact t3)
  obtain ⟨q1, -, -, -, q5, -, -⟩ := IA.tensordot_mem hA'.wf hB'.wf hr'
  have e : r'.shape = r.shape := by rw [q5, r5, sA, sB, nA]
  have hsh : ∀ (x' y' t : ND K), x'.shape = A.shape → y'.shape = B.shape →
      (fun x y => ND.tensordot x y n) x' y' = .ok t → t.shape = r.shape := by
    intro x' y' t hx hy ht
    have := (ND.tensordot_ok ht).2.2.2.1
    rw [hx, hy, show x'.ndim = A.ndim by unfold ND.ndim Coef.ndim; rw [hx]] at this
    rw [this, r5]
  have hval : ∀ L1 L2, A.ndim - n ≤ L1.length → L2.length = B.ndim - n → ∀ (x' y' t : ND K),
      x'.shape = A.shape → y'.shape = B.shape →
      ND.tensordot x' y' n = .ok t → t.bget (L1 ++ L2) = ((idx (B.shape.take n)).map fun J =>
        x'.bget (L1 ++ J) * y'.bget (J ++ L2)).sum := by
    intro L1 L2 h1 h2 x' y' t hx hy ht
    have := (ND.tensordot_ok ht).2.2.2.2 L1 L2 (by unfold ND.ndim; rw [hx]; exact h1)
      (by unfold ND.ndim; rw [hy]; exact h2)
    rw [hy] at this; exact this
  refine ⟨r', hr', inside_of q1 r1 e fun I hI => ?_⟩
  have hI0 := hI
  rw [r5] at hI
  obtain ⟨L1, L2, rfl, h1, h2⟩ := validIdx_split hI
  have l1 : A.ndim - n ≤ L1.length := by
    rw [← h1.length, List.length_take]; exact le_min le_rfl (Nat.sub_le _ _)
  have l2 : L2.length = B.ndim - n := by rw [← h2.length, List.length_drop]; rfl
  have pA : ∀ J ∈ idx (B.shape.take n), A.Mem (L1 ++ J) (A'.lo.bget (L1 ++ J)) ∧
      A.Mem (L1 ++ J) (A'.hi.bget (L1 ++ J)) := by
    intro J hJ
    refine mA _ _ (ble_refl _) ?_
    rw [← List.take_append_drop (A.ndim - n) A.shape, t3]
    exact validIdx_append h1 (mem_idx.1 hJ)
  have pB : ∀ J ∈ idx (B.shape.take n), B.Mem (J ++ L2) (B'.lo.bget (J ++ L2)) ∧
      B.Mem (J ++ L2) (B'.hi.bget (J ++ L2)) := by
    intro J hJ
    refine mB _ _ (ble_refl _) ?_
    rw [← List.take_append_drop n B.shape]
    exact validIdx_append (mem_idx.1 hJ) h2
  have hIl : r.shape.length ≤ (L1 ++ L2).length := hI0.length.le
  by_cases hn : n = 0
  · subst hn
    have hq' : IA.arbitraryBilinear A' B' (fun x y => ND.tensordot x y 0) true = .ok r' := hr'
    obtain ⟨-, -, -, ok⟩ := IA.bilinearTrue_ok hA'.wf hB'.wf (R := r.shape)
      (by rw [sA, sB]; exact hsh) hq'
    obtain ⟨e1, e2⟩ := ok (L1 ++ L2) L1 L2 hIl (fun x' y' t hx hy ht => by
      have := hval L1 L2 l1 l2 x' y' t (by rw [← sA]; exact hx) (by rw [← sB]; exact hy) ht
      simpa [idx] using this)
    simp only [List.take_zero, idx, List.mem_singleton, forall_eq, List.append_nil,
      List.nil_append] at pA pB
    have key : ∀ u ∈ [A'.lo.bget L1, A'.hi.bget L1], ∀ v ∈ [B'.lo.bget L2, B'.hi.bget L2],
        r.Mem (L1 ++ L2) (u * v) := by
      intro u hu v hv
      have := r7 L1 L2 l1 l2 (fun _ => u) (fun _ => v)
      simp only [List.take_zero, idx, List.mem_singleton, forall_eq, List.append_nil,
        List.nil_append, List.map_cons, List.map_nil, List.sum_cons, List.sum_nil, add_zero] at this
      apply this
      · rcases List.mem_pair.1 hu with rfl | rfl
        · exact pA.1
        · exact pA.2
      · rcases List.mem_pair.1 hv with rfl | rfl
        · exact pB.1
        · exact pB.2
    rw [e1, e2]
    constructor
    · obtain ⟨u, hu, v, hv, e⟩ := plo_mem (A'.lo.bget L1) (A'.hi.bget L1) (B'.lo.bget L2) (B'.hi.bget L2)
      rw [e]; exact key u hu v hv
    · obtain ⟨u, hu, v, hv, e⟩ := phi_mem (A'.lo.bget L1) (A'.hi.bget L1) (B'.lo.bget L2) (B'.hi.bget L2)
      rw [e]; exact key u hu v hv
  · have fl : (n == 0) = false := by simpa using hn
    have hq' : IA.arbitraryBilinear A' B' (fun x y => ND.tensordot x y n) false = .ok r' := by
      unfold IA.tensordot at hr'; rwa [fl] at hr'
    have hr'' : IA.arbitraryBilinear A B (fun x y => ND.tensordot x y n) false = .ok r := by
      unfold IA.tensordot at h; rwa [fl] at h
    have hform : ∀ (x' y' t : ND K), x'.shape = A.shape → y'.shape = B.shape →
        ND.tensordot x' y' n = .ok t → t.bget (L1 ++ L2) =
        (((idx (B.shape.take n)).map fun J => ((1 : K), L1 ++ J, J ++ L2)).map fun t =>
          t.1 * (x'.bget t.2.1 * y'.bget t.2.2)).sum := by
      intro x' y' t hx hy ht
      rw [hval L1 L2 l1 l2 x' y' t hx hy ht, List.map_map]
      congr 1
      apply List.map_congr_left
      intro J _; simp
    obtain ⟨-, -, -, ok'⟩ := IA.bilinearFalse_ok hA'.wf hB'.wf (R := r.shape)
      (by rw [sA, sB]; exact hsh) hq'
    obtain ⟨-, -, -, ok⟩ := IA.bilinearFalse_ok wA wB hsh hr''
    obtain ⟨-, e1, e2⟩ := ok' (L1 ++ L2) ((idx (B.shape.take n)).map fun J =>
      ((1 : K), L1 ++ J, J ++ L2)) hIl (by rw [sA, sB]; exact hform)
    obtain ⟨-, f1, f2⟩ := ok (L1 ++ L2) ((idx (B.shape.take n)).map fun J =>
      ((1 : K), L1 ++ J, J ++ L2)) hIl hform
    rw [List.map_map] at e1 e2 f1 f2
    have ordA : ∀ J ∈ idx (B.shape.take n), A'.lo.bget (L1 ++ J) ≤ A'.hi.bget (L1 ++ J) := by
      intro J hJ
      refine hA'.le (ble_refl _) ?_
      rw [sA, ← List.take_append_drop (A.ndim - n) A.shape, t3]
      exact validIdx_append h1 (mem_idx.1 hJ)
    have ordB : ∀ J ∈ idx (B.shape.take n), B'.lo.bget (J ++ L2) ≤ B'.hi.bget (J ++ L2) := by
      intro J hJ
      refine hB'.le (ble_refl _) ?_
      rw [sB, ← List.take_append_drop n B.shape]
      exact validIdx_append (mem_idx.1 hJ) h2
    have hlo : r.lo.bget (L1 ++ L2) ≤ r'.lo.bget (L1 ++ L2) := by
      rw [e1, f1]
      apply List.sum_le_sum
      intro J hJ
      simp only [Function.comp, one_mul]
      exact (g_mono (pA J hJ).1.1 (pA J hJ).2.2 (pB J hJ).1.1 (pB J hJ).2.2).1
    have hhi : r'.hi.bget (L1 ++ L2) ≤ r.hi.bget (L1 ++ L2) := by
      rw [e2, f2]
      apply List.sum_le_sum
      intro J hJ
      simp only [Function.comp, one_mul]
      exact (g_mono (pA J hJ).1.1 (pA J hJ).2.2 (pB J hJ).1.1 (pB J hJ).2.2).2
    have hmid : r'.lo.bget (L1 ++ L2) ≤ r'.hi.bget (L1 ++ L2) := by
      rw [e1, e2]
      apply List.sum_le_sum
      intro J hJ
      simp only [Function.comp, one_mul]
      exact (gbounds le_rfl (ordA J hJ) le_rfl (ordB J hJ)).1.trans
        (gbounds le_rfl (ordA J hJ) le_rfl (ordB J hJ)).2
    exact ⟨⟨hlo, hmid.trans hhi⟩, ⟨hlo.trans hmid, hhi⟩⟩

example : ∃ (A A' B : Coef ℚ) (r : Coef ℚ), A.SameShape ∧ A'.WellFormed ∧ B.WellFormed ∧
    A'.Inside A ∧ IA.tensordot A B 1 = .ok r := by
  refine ⟨.ivl (ND.mk' [2] [-1, 2]) (ND.mk' [2] [3, 4]), .ivl (ND.mk' [2] [0, 3]) (ND.mk' [2] [1, 3]),
    .ivl (ND.mk' [2] [0, -1]) (ND.mk' [2] [1, 1]), _, by decide +kernel, by decide +kernel,
    by decide +kernel, ?_, rfl⟩
  refine inside_of (Coef.WF_ivl.2 rfl) (Coef.WF_ivl.2 rfl) rfl ?_
  have : ∀ L, ValidIdx [2] L → (Coef.ivl (ND.mk' [2] [-1, 2]) (ND.mk' [2] [(3:ℚ), 4])).AtIdx L
     ((ND.mk' [2] [(0 : ℚ), 3]).get L) ∧ (Coef.ivl (ND.mk' [2] [-1, 2]) (ND.mk' [2] [(3:ℚ), 4])).AtIdx L
     ((ND.mk' [2] [(1 : ℚ), 3]).get L) := by decide +kernel
  intro L hL
  have hs : (Coef.ivl (ND.mk' [2] [-1, 2]) (ND.mk' [2] [(3:ℚ), 4])).WF := rfl
  have := this L hL
  rw [Coef.atIdx_iff hs hL, Coef.atIdx_iff hs hL] at this
  simp only [Coef.lo_ivl, Coef.hi_ivl]
  rw [ND.bget_valid (ND.mk' [2] [(0 : ℚ), 3]) hL, ND.bget_valid (ND.mk' [2] [(1 : ℚ), 3]) hL]
  exact this

end AB
