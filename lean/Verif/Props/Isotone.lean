/-
C08: inclusion isotonicity of `outer_product` and `outer_power`
(/repo/autobound/interval_arithmetic.py:165-211).
-/
import Verif.Props.EnclTotal
import Verif.Props.Interval2

set_option linter.unusedSectionVars false

namespace AB
variable {K : Type} [Field K] [LinearOrder K] [IsStrictOrderedRing K]
open IA (repS)

/-- **C08 (outer_product).** -/
theorem C08_outer_product {A A' B B' : Coef K} (hA : A.SameShape) (hB : B.SameShape)
    (hA' : A'.WellFormed) (hB' : B'.WellFormed) (iA : A'.Inside A) (iB : B'.Inside B) {d : ℕ} {r : Coef K}
    (h : IA.outerProduct A B d = .ok r) : ∃ r', IA.outerProduct A' B' d = .ok r' ∧ r'.Inside r := by
  have wA := Coef.sameShape_iff.1 hA
  have wB := Coef.sameShape_iff.1 hB
  obtain ⟨sA, mA⟩ := inside_mem hA' hA iA
  obtain ⟨sB, mB⟩ := inside_mem hB' hB iB
  obtain ⟨d1, d2, r1, -, Q, q1, r2, -⟩ := IA.outerProduct_ok wA wB h
  obtain ⟨r', hr'⟩ : ∃ r', IA.outerProduct A' B' d = .ok r' := by
    rw [C57_outer_product (Coef.sameShape_iff.2 hA'.wf) (Coef.sameShape_iff.2 hB'.wf), sA, sB]
    exact (C57_outer_product hA hB d).1 ⟨r, h⟩
  obtain ⟨-, -, p1, -, Q', q1', r2', p4⟩ := IA.outerProduct_ok hA'.wf hB'.wf hr'
  have hQ : Q' = Q := by rw [sA, sB, q1] at q1'; exact (Option.some.inj q1').symm
  subst hQ
  have e : r'.shape = r.shape := by rw [r2', r2, sA, sB]
  refine ⟨r', hr', inside_of p1 r1 e fun L hL => ?_⟩
  rw [r2] at hL
  obtain ⟨L1, J', rfl, h1, hJ'⟩ := validIdx_split hL
  obtain ⟨I, J, rfl, hI, hJ⟩ := validIdx_split h1
  have hle := bshape_le q1
  have lB : (A.shape.take d).length = d := List.length_take_of_le d1
  have lQ : d ≤ I.length := by
    have := ble_length hle.1
    rw [← hI.length]; omega
  have lJ : J.length = A.ndim - d := by rw [← hJ.length, List.length_drop]; rfl
  have lJ' : J'.length = B.ndim - d := by rw [← hJ'.length, List.length_drop]; rfl
  obtain ⟨e1, e2⟩ := p4 I J J' lQ (by rw [lJ, Coef.ndim_def, Coef.ndim_def, sA])
    (by rw [lJ', Coef.ndim_def, Coef.ndim_def, sB])
  obtain ⟨a1, a2⟩ := mA (Q' ++ A.shape.drop d) (I ++ J) (by
    conv_lhs => rw [← List.take_append_drop d A.shape]
    exact ble_append hle.1 (ble_refl _) rfl) h1
  obtain ⟨b1, b2⟩ := mB (Q' ++ B.shape.drop d) (I ++ J') (by
    conv_lhs => rw [← List.take_append_drop d B.shape]
    exact ble_append hle.2 (ble_refl _) rfl) (List.rel_append hI hJ')
  have key : ∀ u ∈ [A'.lo.bget (I ++ J), A'.hi.bget (I ++ J)],
      ∀ v ∈ [B'.lo.bget (I ++ J'), B'.hi.bget (I ++ J')], r.Mem (I ++ J ++ J') (u * v) := by
    intro u hu v hv
    apply IA.outerProduct_mem wA wB h lQ lJ lJ'
    · rcases List.mem_pair.1 hu with rfl | rfl <;> assumption
    · rcases List.mem_pair.1 hv with rfl | rfl <;> assumption
  rw [e1, e2]
  constructor
  · obtain ⟨u, hu, v, hv, e⟩ := plo_mem (A'.lo.bget (I ++ J)) (A'.hi.bget (I ++ J))
      (B'.lo.bget (I ++ J')) (B'.hi.bget (I ++ J'))
    rw [e]; exact key u hu v hv
  · obtain ⟨u, hu, v, hv, e⟩ := phi_mem (A'.lo.bget (I ++ J)) (A'.hi.bget (I ++ J))
      (B'.lo.bget (I ++ J')) (B'.hi.bget (I ++ J'))
    rw [e]; exact key u hu v hv

theorem diag_isotone {A A' : Coef K} (hA : A.WF) (hA' : A'.WellFormed) (iA : A'.Inside A) (k : ℤ) {r : Coef K}
    (h : IA.generalizedDiagInterval A k = .ok r) :
    r.WF ∧ ∃ r', IA.generalizedDiagInterval A' k = .ok r' ∧ r'.WellFormed ∧ r'.Inside r := by
  obtain ⟨sA, mA⟩ := inside_mem hA' (Coef.sameShape_iff.2 hA) iA
  by_cases hk1 : k = 1
  · subst hk1
    have e : ∀ c : Coef K, IA.generalizedDiagInterval c 1 = .ok c := by
      intro c; cases c <;> rfl
    rw [e] at h
    cases h
    exact ⟨hA, A', e A', hA', iA⟩
  by_cases hk2 : k = 2
  · subst hk2
    by_cases hn : A.shape.length = 1
    · have e : ∀ c : Coef K, c.WF → c.shape.length = 1 → ∃ r, IA.generalizedDiagInterval c 2 = .ok r ∧ r.WF ∧
          r.shape = c.shape ++ c.shape ∧ r.lo = c.lo.diag ∧ r.hi = c.hi.diag := by
        intro c hc h1
        cases c with
        | arr x =>
          refine ⟨.arr x.diag, ?_, trivial, rfl, rfl, rfl⟩
          have : x.ndim = 1 := h1
          simp [IA.generalizedDiagInterval, IA.generalizedDiagNdarray, this]
        | ivl x y =>
          have e : x.shape = y.shape := hc
          refine ⟨.ivl x.diag y.diag, ?_, ?_, rfl, rfl, rfl⟩
          · have h1' : x.ndim = 1 := h1
            have h2' : y.ndim = 1 := by unfold ND.ndim; rw [← e]; exact h1
            simp [IA.generalizedDiagInterval, IA.generalizedDiagNdarray, h1', h2']
          · show x.shape ++ x.shape = y.shape ++ y.shape
            rw [e]
      obtain ⟨q, q1, q2, q3, q4, q5⟩ := e A hA hn
      rw [q1] at h
      cases h
      obtain ⟨q', p1, p2, p3, p4, p5⟩ := e A' hA'.wf (by rw [sA]; exact hn)
      obtain ⟨n, hn'⟩ := List.length_eq_one_iff.1 hn
      have hd : ∀ x : ND K, x.shape = [n] → ∀ i j, i < n → j < n → x.diag.bget [i, j] =
          if i = j then x.bget [i] else 0 := by
        intro x hx i j hi hj
        have hsd : x.diag.shape = [n, n] := by show x.shape ++ x.shape = _; rw [hx]; rfl
        rw [ND.bget_valid _ (by rw [hsd]; exact .cons hi (.cons hj .nil)),
          ND.bget_valid x (by rw [hx]; exact .cons hi .nil)]
        simp [ND.diag]
      have hs0 : A.lo.shape = [n] ∧ A.hi.shape = [n] ∧ A'.lo.shape = [n] ∧ A'.hi.shape = [n] := by
        refine ⟨by rw [Coef.lo_shape, hn'], by rw [hA.hi_shape, hn'], by rw [Coef.lo_shape, sA, hn'],
          by rw [hA'.wf.hi_shape, sA, hn']⟩
      have hval : ∀ L, ValidIdx r.shape L → ∃ i j, L = [i, j] ∧ i < n ∧ j < n := by
        intro L hL
        rw [q3, hn'] at hL
        cases hL with
        | cons h1 h2 => cases h2 with
          | cons h2 h3 => cases h3; exact ⟨_, _, rfl, h1, h2⟩
      refine ⟨q2, q', p1, Coef.wellFormed_of p2 fun L hL => ?_, inside_of p2 q2 (by rw [p3, q3, sA]) fun L hL => ?_⟩
      · obtain ⟨i, j, rfl, hi, hj⟩ := hval L (by rw [q3, ← sA, ← p3]; exact hL)
        have := hA'.lo_mem (ble_refl _) (show ValidIdx A'.shape [i] by rw [sA, hn']; exact .cons hi .nil)
        unfold Coef.Mem at this ⊢
        rw [p4, p5, hd _ hs0.2.2.1 _ _ hi hj, hd _ hs0.2.2.2 _ _ hi hj]
        by_cases hij : i = j
        · simp only [if_pos hij]; exact ⟨_, this⟩
        · simp only [if_neg hij]; exact ⟨0, le_rfl, le_rfl⟩
      · obtain ⟨i, j, rfl, hi, hj⟩ := hval L hL
        have := mA _ [i] (ble_refl _) (by rw [hn']; exact .cons hi .nil)
        unfold Coef.Mem at this ⊢
        rw [p4, p5, q4, q5, hd _ hs0.1 _ _ hi hj, hd _ hs0.2.1 _ _ hi hj, hd _ hs0.2.2.1 _ _ hi hj,
          hd _ hs0.2.2.2 _ _ hi hj]
        by_cases hij : i = j
        · simp only [if_pos hij]; exact this
        · simp only [if_neg hij]; exact ⟨⟨le_rfl, le_rfl⟩, ⟨le_rfl, le_rfl⟩⟩
    · exfalso
      cases A with
      | arr x => 
        have : x.ndim ≠ 1 := hn
        simp [IA.generalizedDiagInterval, IA.generalizedDiagNdarray, this] at h
      | ivl x y => 
        have : x.ndim ≠ 1 := hn
        simp [IA.generalizedDiagInterval, IA.generalizedDiagNdarray, this] at h
  · exfalso
    cases A <;> simp [IA.generalizedDiagInterval, IA.generalizedDiagNdarray, hk1, hk2] at h

theorem running_isotone {A A' : Coef K} (hA : A.SameShape) (hA' : A'.WellFormed) (iA : A'.Inside A) (d m : ℕ)
    {r : Coef K} (h : IA.runningOuterProduct A d m = .ok r) :
    r.WF ∧ ∃ r', IA.runningOuterProduct A' d m = .ok r' ∧ r'.WellFormed ∧ r'.Inside r := by
  induction m generalizing r with
  | zero => cases h; exact ⟨Coef.sameShape_iff.1 hA, A', rfl, hA', iA⟩
  | succ m ih =>
    simp only [IA.runningOuterProduct, py_bind_ok] at h
    obtain ⟨s, hs, h⟩ := h
    obtain ⟨s1, s', s2, s3, s4⟩ := ih hs
    obtain ⟨r', h1, h2⟩ := C08_outer_product (Coef.sameShape_iff.2 s1) hA s3 hA' s4 iA h
    obtain ⟨-, -, r1, -⟩ := IA.outerProduct_ok s1 (Coef.sameShape_iff.1 hA) h
    refine ⟨r1, r', ?_, (C06_wellFormed s3 hA').2.2.2.2.2.1 d h1, h2⟩
    simp only [IA.runningOuterProduct]
    rw [s2, py_ok_bind, h1]

/-- **C08 (outer_power).** -/
theorem C08_outer_power {A A' : Coef K} (hA : A.SameShape) (hA' : A'.WellFormed) (iA : A'.Inside A) (k d : ℕ)
    {r : Coef K} (h : IA.outerPower A (k : ℤ) d = .ok r) :
    ∃ r', IA.outerPower A' (k : ℤ) d = .ok r' ∧ r'.Inside r := by
  have wA := Coef.sameShape_iff.1 hA
  obtain ⟨sA, -⟩ := inside_mem hA' hA iA
  have nA : A'.ndim = A.ndim := by rw [Coef.ndim_def, Coef.ndim_def, sA]
  unfold IA.outerPower at h ⊢
  rw [if_neg (by omega : ¬ ((k : ℤ) < 0))] at h ⊢
  by_cases hk : (k : ℤ) = 0
  · rw [if_pos hk] at h ⊢
    cases h
    exact ⟨_, rfl, fun _ hy => hy⟩
  rw [if_neg hk] at h ⊢
  rw [nA]
  by_cases hn : A.ndim = 0
  · rw [if_pos hn] at h ⊢
    exact C08_power hA hA' iA k h
  rw [if_neg hn] at h ⊢
  simp only [py_bind_ok] at h
  obtain ⟨rop, hrop, h⟩ := h
  obtain ⟨w1, rop', h1, h2, h3⟩ := running_isotone hA hA' iA d _ hrop
  rw [h1, py_ok_bind]
  by_cases hd : d = 0
  · rw [if_neg (by simpa using hd)] at h ⊢
    have heye : (IA.firstEndpoint A').onesLike = (IA.firstEndpoint A).onesLike := by
      have e : ∀ c : Coef K, (IA.firstEndpoint c).onesLike = ⟨c.shape, fun _ => 1⟩ := by
        intro c; cases c <;> rfl
      rw [e, e, sA]
    rw [heye]
    cases hg : IA.generalizedDiagNdarray (IA.firstEndpoint A).onesLike (k : ℤ) with
    | error e =>
      rw [hg] at h
      cases e <;> simp at h; cases h
      exact ⟨rop', rfl, h3⟩
    | ok eye =>
      rw [hg] at h
      simp only [py_bind_ok] at h
      obtain ⟨pw, hpw, dg, hdg, pr, hpr, hadd⟩ := h
      obtain ⟨p1, -⟩ := IA.power_ok wA hpw
      obtain ⟨pw', g1, g2⟩ := C08_power hA hA' iA k hpw
      have g3 := (C06_wellFormed hA' hA').2.2.2.2.1 (k : ℤ) g1
      obtain ⟨dw, dg', g4, g5, g6⟩ := diag_isotone p1 g3 g2 (k : ℤ) hdg
      have wE : (Coef.arr (eye.map (1 - ·))).WellFormed := ⟨trivial, trivial⟩
      obtain ⟨pr', g7, g8⟩ := C08_multiply (Coef.sameShape_iff.2 w1) (Coef.sameShape_iff.2 wE.wf) h2 wE h3
        (fun _ hy => hy) hpr
      have g9 := (C06_wellFormed h2 wE).2.2.2.1 g7
      obtain ⟨m1, -⟩ := IA.multiply_ok w1 wE.wf hpr
      obtain ⟨r', g10, g11⟩ := (C08_add_subtract (Coef.sameShape_iff.2 m1) (Coef.sameShape_iff.2 dw) g9 g5 g8 g6).1 hadd
      refine ⟨r', ?_, g11⟩
      exact py_bind_ok.2 ⟨_, g1, py_bind_ok.2 ⟨_, g4, py_bind_ok.2 ⟨_, g7, g10⟩⟩⟩
  · rw [if_pos hd] at h ⊢
    cases h
    exact ⟨rop', rfl, h3⟩

/-- a well-formed interval whose elements all are elements of the plain array `s` is the degenerate interval of `s` -/
theorem only_of_inside_arr {r : Coef K} {s : ND K} (hr : r.WellFormed) (h : r.Inside (.arr s)) :
    r.lower.Same s ∧ r.upper.Same s ∧ ∀ y, r.Contains y ↔ y.Same s := by
  have key : ∀ y, r.Contains y → y.Same s := by
    intro y hy
    have := (Coef.contains_iff (Coef.WF_arr s)).1 (h y hy)
    refine ⟨this.1, fun I hI => ?_⟩
    have hI' : ValidIdx s.shape I := by rw [show s.shape = (Coef.arr s).shape from rfl, ← this.1]; exact hI
    have h1 := this.2 I hI'
    unfold Coef.Mem at h1
    rw [show (Coef.arr s).lo = s from rfl, show (Coef.arr s).hi = s from rfl,
      ND.bget_valid s hI'] at h1
    exact le_antisymm h1.2 h1.1
  obtain ⟨c1, c2⟩ := hr.lower_contains
  have k1 := key _ c1
  have k2 := key _ c2
  refine ⟨k1, k2, fun y => ⟨key y, fun hy => ?_⟩⟩
  rw [Coef.contains_iff hr.wf] at c1 ⊢
  have e : y.shape = r.shape := by rw [hy.1, ← k1.1]; exact c1.1
  refine ⟨e, fun I hI => ?_⟩
  have := c1.2 I hI
  rw [k1.2 I (by rw [c1.1]; exact hI)] at this
  rw [hy.2 I (by rw [e]; exact hI)]
  exact this

theorem degenerate_inside (x : ND K) : (Coef.degenerate x).WellFormed ∧ (Coef.degenerate x).Inside (.arr x) := by
  have w : (Coef.degenerate x).WF := rfl
  refine ⟨Coef.wellFormed_of w fun L hL => ⟨x.bget L, le_rfl, le_rfl⟩,
    inside_of w (Coef.WF_arr x) rfl fun L hL => ⟨⟨le_rfl, le_rfl⟩, ⟨le_rfl, le_rfl⟩⟩⟩

/-- **C07 (outer products and powers of degenerate intervals).** The outer product of `(x, x)` and `(y, y)` is the
degenerate interval of numpy's outer product, and the only element of the outer power of `(x, x)` is numpy's outer
power of `x`. -/
theorem C07_outer_degenerate (x y s : ND K) (d : ℕ) :
    (IA.outerProduct (.arr x) (.arr y) d = .ok (.arr s) →
      ReturnsDegenerate (IA.outerProduct (.degenerate x) (.degenerate y) d) s) ∧
    ∀ k : ℕ, d ≤ x.shape.length → IA.outerPower (.arr x) (k : ℤ) d = .ok (.arr s) →
      ∃ r, IA.outerPower (.degenerate x) (k : ℤ) d = .ok r ∧ ∀ z, r.Contains z ↔ z.Same s := by
  obtain ⟨wx, ix⟩ := degenerate_inside x
  obtain ⟨wy, iy⟩ := degenerate_inside y
  have hx : (Coef.arr x).SameShape := Coef.sameShape_iff.2 (Coef.WF_arr x)
  have hy : (Coef.arr y).SameShape := Coef.sameShape_iff.2 (Coef.WF_arr y)
  constructor
  · intro h
    obtain ⟨r, hr, hi⟩ := C08_outer_product hx hy wx wy ix iy h
    have wr := (C06_wellFormed wx wy).2.2.2.2.2.1 d hr
    obtain ⟨-, -, -, ha, -⟩ := IA.outerProduct_ok wx.wf wy.wf hr
    obtain ⟨h1, h2, -⟩ := only_of_inside_arr wr hi
    cases r with
    | arr a => cases ha
    | ivl lo hi' => exact ⟨lo, hi', hr, h1, h2⟩
  · intro k hd h
    obtain ⟨r, hr, hi⟩ := C08_outer_power hx wx ix k d h
    have wr := (C06_wellFormed wx wx).2.2.2.2.2.2.1 (k : ℤ) d hd hr
    exact ⟨r, hr, (only_of_inside_arr wr hi).2.2⟩

/-- C08: the outer square of a sub-interval of an interval straddling 0 -/
example : ∃ (A A' : Coef ℚ) (r r' : Coef ℚ), A.SameShape ∧ A'.WellFormed ∧ A'.Inside A ∧
    IA.outerPower A (2 : ℕ) 0 = .ok r ∧ IA.outerPower A' (2 : ℕ) 0 = .ok r' ∧ r'.Inside r ∧
    r.lower.get [0, 1] = -2 ∧ r'.lower.get [0, 1] = 1 / 2 := by
  have hA : (Coef.ivl (ND.mk' [2] [-1, 1]) (ND.mk' [2] [1, 2]) : Coef ℚ).SameShape := by decide +kernel
  have w : (Coef.ivl (ND.mk' [2] [1/2, 1]) (ND.mk' [2] [1, 2]) : Coef ℚ).WF := rfl
  have hA' : (Coef.ivl (ND.mk' [2] [1/2, 1]) (ND.mk' [2] [1, 2]) : Coef ℚ).WellFormed := by decide +kernel
  have hi : (Coef.ivl (ND.mk' [2] [1/2, 1]) (ND.mk' [2] [1, 2]) : Coef ℚ).Inside
      (.ivl (ND.mk' [2] [-1, 1]) (ND.mk' [2] [1, 2])) := by
    refine inside_of w (Coef.sameShape_iff.1 hA) rfl fun L hL => ?_
    cases hL with
    | @cons _ i _ _ h1 h2 =>
      cases h2
      replace h1 : i < 2 := h1
      interval_cases i <;> (unfold Coef.Mem; decide +kernel)
  obtain ⟨r', h1, h2⟩ := C08_outer_power hA hA' hi 2 0 (r := _) rfl
  refine ⟨_, _, _, r', hA, hA', hi, rfl, h1, h2, by decide +kernel, ?_⟩
  cases h1
  decide +kernel

end AB
