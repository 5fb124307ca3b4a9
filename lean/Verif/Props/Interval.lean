/-
C01-C08: interval arithmetic (/repo/autobound/interval_arithmetic.py).
-/
import Verif.Proofs.Bridge
import Verif.Spec.Decide
import Mathlib.Algebra.Order.Ring.Rat
import Mathlib.Algebra.Field.Rat

set_option linter.unusedSectionVars false

namespace AB
variable {K : Type} [Field K] [LinearOrder K] [IsStrictOrderedRing K]

/-! ### Helpers -/

theorem Coef.Contains.memb {c : Coef K} {y : ND K} (h : c.Contains y) (hc : c.SameShape)
    {R L : List ℕ} (hR : ble c.shape R) (hL : ValidIdx R L) : c.Mem L (y.bget L) :=
  h.mem (Coef.sameShape_iff.1 hc) hR hL

theorem Coef.contains_of {r : Coef K} (hr : r.WF) {s : ND K} (hs : s.shape = r.shape)
    (h : ∀ L, ValidIdx r.shape L → r.Mem L (s.bget L)) : r.Contains s := by
  rw [Coef.contains_iff hr]
  refine ⟨hs, fun I hI => ?_⟩
  have := h I hI
  rwa [ND.bget_valid s (by rw [hs]; exact hI)] at this

theorem Coef.lower_eq (c : Coef K) : c.lower = c.lo := by cases c <;> rfl
theorem Coef.upper_eq (c : Coef K) : c.upper = c.hi := by cases c <;> rfl

theorem Coef.lower_shape (c : Coef K) : c.lower.shape = c.shape := by cases c <;> rfl

theorem Coef.wellFormed_of {r : Coef K} (hr : r.WF)
    (h : ∀ L, ValidIdx r.shape L → ∃ v, r.Mem L v) : r.WellFormed := by
  refine ⟨Coef.sameShape_iff.2 hr, ?_⟩
  cases r with
  | arr a => trivial
  | ivl l u =>
    intro I hI
    obtain ⟨v, h1, h2⟩ := h I hI
    have e : l.shape = u.shape := hr
    have hl : l.bget I = l.get I := ND.bget_valid l hI
    have hu : u.bget I = u.get I := ND.bget_valid u (e ▸ hI)
    rw [← hl, ← hu]
    exact h1.trans h2

theorem Coef.WellFormed.lo_mem {c : Coef K} (h : c.WellFormed) {R I : List ℕ} (hR : ble c.shape R)
    (hI : ValidIdx R I) : c.Mem I (c.lo.bget I) := ⟨le_rfl, h.le hR hI⟩

theorem Coef.WellFormed.hi_mem {c : Coef K} (h : c.WellFormed) {R I : List ℕ} (hR : ble c.shape R)
    (hI : ValidIdx R I) : c.Mem I (c.hi.bget I) := ⟨h.le hR hI, le_rfl⟩

theorem mem_add {a b r : Coef K} (ha : a.WF) (hb : b.WF) (h : IA.add a b = .ok r) {L : List ℕ}
    (hL : r.shape.length ≤ L.length) {s t : K} (hs : a.Mem L s) (ht : b.Mem L t) :
    r.Mem L (s + t) := by
  obtain ⟨-, -, -, h4⟩ := IA.add_ok ha hb h
  exact ⟨(h4 L hL).1 ▸ add_le_add hs.1 ht.1, (h4 L hL).2 ▸ add_le_add hs.2 ht.2⟩

theorem mem_sub {a b r : Coef K} (ha : a.WF) (hb : b.WF) (h : IA.subtract a b = .ok r) {L : List ℕ}
    (hL : r.shape.length ≤ L.length) {s t : K} (hs : a.Mem L s) (ht : b.Mem L t) :
    r.Mem L (s - t) := by
  obtain ⟨-, -, -, h4⟩ := IA.sub_ok ha hb h
  exact ⟨(h4 L hL).1 ▸ sub_le_sub hs.1 ht.2, (h4 L hL).2 ▸ sub_le_sub hs.2 ht.1⟩

theorem mem_neg {a : Coef K} (ha : a.WF) {L : List ℕ} {s : K} (hs : a.Mem L s) :
    (IA.negative a).Mem L (-s) := by
  obtain ⟨-, -, -, h4⟩ := IA.neg_ok ha
  exact ⟨(h4 L).1 ▸ neg_le_neg hs.2, (h4 L).2 ▸ neg_le_neg hs.1⟩

theorem sub_lub {a b : Coef K} (ha : a.WF) (hb : b.WF) {R : List ℕ} (h : ble a.shape R)
    (h' : ble b.shape R) : ∃ r, IA.subtract a b = .ok r := by
  have key : ∀ x y : ND K, ble x.shape R → ble y.shape R → ∃ s, ND.map2 (· - ·) x y = .ok s :=
    fun x y hx hy => by obtain ⟨s, hs, -⟩ := ND.map2_lub (· - ·) hx hy; exact ⟨s, hs⟩
  cases a with
  | arr a =>
    cases b with
    | arr b => obtain ⟨s, hs⟩ := key a b h h'; exact ⟨_, by simp only [IA.subtract, hs, py_ok_bind]; rfl⟩
    | ivl b0 b1 =>
      have e : b0.shape = b1.shape := hb
      obtain ⟨s, hs⟩ := key a b1 h (e ▸ h')
      obtain ⟨t, ht⟩ := key a b0 h h'
      exact ⟨_, by simp only [IA.subtract, hs, ht, py_ok_bind]; rfl⟩
  | ivl a0 a1 =>
    have e : a0.shape = a1.shape := ha
    cases b with
    | arr b =>
      obtain ⟨s, hs⟩ := key a0 b h h'
      obtain ⟨t, ht⟩ := key a1 b (e ▸ h) h'
      exact ⟨_, by simp only [IA.subtract, hs, ht, py_ok_bind]; rfl⟩
    | ivl b0 b1 =>
      have e' : b0.shape = b1.shape := hb
      obtain ⟨s, hs⟩ := key a0 b1 h (e' ▸ h')
      obtain ⟨t, ht⟩ := key a1 b0 (e ▸ h) h'
      exact ⟨_, by simp only [IA.subtract, hs, ht, py_ok_bind]; rfl⟩

/-! ### C01 -/

/-- **C01 (add).** If `x ∈ A` and `y ∈ B` and numpy can add `x` and `y`, then `add(A, B)` returns an
interval (or array) of the broadcast shape containing `x + y`. -/
theorem C01_add {A B : Coef K} (hA : A.SameShape) (hB : B.SameShape) {x y s : ND K}
    (hx : A.Contains x) (hy : B.Contains y) (hs : ND.map2 (· + ·) x y = .ok s) :
    ∃ r, IA.add A B = .ok r ∧ r.Contains s := by
  have wA := Coef.sameShape_iff.1 hA
  have wB := Coef.sameShape_iff.1 hB
  obtain ⟨s1, s2⟩ := ND.map2_ok hs
  have hle := bshape_le s1
  rw [hx.1, hy.1] at hle s1
  obtain ⟨r, hr⟩ := IA.add_lub wA wB hle.1 hle.2
  obtain ⟨r1, r2, -, -⟩ := IA.add_ok wA wB hr
  have e : s.shape = r.shape := Option.some.inj (s1.symm.trans r2)
  refine ⟨r, hr, Coef.contains_of r1 e fun L hL => ?_⟩
  rw [s2 L (by rw [e]; exact hL.length.le)]
  exact mem_add wA wB hr hL.length.le (hx.memb hA (e ▸ hle.1) hL) (hy.memb hB (e ▸ hle.2) hL)

/-- **C01 (subtract).** -/
theorem C01_subtract {A B : Coef K} (hA : A.SameShape) (hB : B.SameShape) {x y s : ND K}
    (hx : A.Contains x) (hy : B.Contains y) (hs : ND.map2 (· - ·) x y = .ok s) :
    ∃ r, IA.subtract A B = .ok r ∧ r.Contains s := by
  have wA := Coef.sameShape_iff.1 hA
  have wB := Coef.sameShape_iff.1 hB
  obtain ⟨s1, s2⟩ := ND.map2_ok hs
  have hle := bshape_le s1
  rw [hx.1, hy.1] at hle s1
  obtain ⟨r, hr⟩ := sub_lub wA wB hle.1 hle.2
  obtain ⟨r1, r2, -, -⟩ := IA.sub_ok wA wB hr
  have e : s.shape = r.shape := Option.some.inj (s1.symm.trans r2)
  refine ⟨r, hr, Coef.contains_of r1 e fun L hL => ?_⟩
  rw [s2 L (by rw [e]; exact hL.length.le)]
  exact mem_sub wA wB hr hL.length.le (hx.memb hA (e ▸ hle.1) hL) (hy.memb hB (e ▸ hle.2) hL)

/-- **C01 (negative).** -/
theorem C01_negative {A : Coef K} (hA : A.SameShape) {x : ND K} (hx : A.Contains x) :
    (IA.negative A).Contains (x.map (- ·)) := by
  have wA := Coef.sameShape_iff.1 hA
  obtain ⟨r1, r2, -, -⟩ := IA.neg_ok wA
  refine Coef.contains_of r1 (by rw [r2]; exact hx.1) fun L hL => ?_
  rw [ND.bget_map]
  exact mem_neg wA (hx.memb hA (r2 ▸ ble_refl _) hL)

/-- C01: concrete interval `A = ([[1],[2]], [[3],[4]])`, vector interval `B`, members, sum with
broadcasting to shape (2,2). -/
example : ∃ (A B : Coef ℚ) (x y s : ND ℚ), A.SameShape ∧ B.SameShape ∧ A.Contains x ∧
    B.Contains y ∧ ND.map2 (· + ·) x y = .ok s ∧ s.shape = [2, 2] :=
  ⟨.ivl (ND.mk' [2, 1] [1, 2]) (ND.mk' [2, 1] [3, 4]), .ivl (ND.mk' [2] [0, -1]) (ND.mk' [2] [1, 1]),
   ND.mk' [2, 1] [3/2, 4], ND.mk' [2] [1/3, 0], _, by decide +kernel, by decide +kernel,
   by decide +kernel, by decide +kernel, rfl, rfl⟩

/-! ### C02 -/

/-- **C02.** `multiply(A, B)` contains every product, and each endpoint, at each index, is the
product of an endpoint value of `A` and an endpoint value of `B`. -/
theorem C02_multiply {A B : Coef K} (hA : A.SameShape) (hB : B.SameShape) {x y s : ND K}
    (hx : A.Contains x) (hy : B.Contains y) (hs : ND.map2 (· * ·) x y = .ok s) :
    ∃ r, IA.multiply A B = .ok r ∧ r.Contains s ∧ ∀ I, ValidIdx r.shape I →
      (∃ u v, A.IsEndpoint (bidx A.shape I) u ∧ B.IsEndpoint (bidx B.shape I) v ∧
        r.lower.get I = u * v) ∧
      (∃ u v, A.IsEndpoint (bidx A.shape I) u ∧ B.IsEndpoint (bidx B.shape I) v ∧
        r.upper.get I = u * v) := by
  have wA := Coef.sameShape_iff.1 hA
  have wB := Coef.sameShape_iff.1 hB
  obtain ⟨s1, s2⟩ := ND.map2_ok hs
  have hle := bshape_le s1
  rw [hx.1, hy.1] at hle s1
  obtain ⟨r, hr⟩ := IA.multiply_total wA wB s1
  obtain ⟨r1, r2, -, r4⟩ := IA.multiply_ok wA wB hr
  have e : s.shape = r.shape := Option.some.inj (s1.symm.trans r2)
  have endp : ∀ (c : Coef K), c.WF → ∀ I v, v ∈ [c.lo.bget I, c.hi.bget I] →
      c.IsEndpoint (bidx c.shape I) v := by
    intro c hc I v hv
    cases c with
    | arr a =>
      have : v = a.bget I := by simpa using hv
      exact this
    | ivl l h =>
      have e : l.shape = h.shape := hc
      rcases List.mem_pair.1 hv with rfl | rfl
      · exact Or.inl rfl
      · exact Or.inr (by show h.get (bidx h.shape I) = h.get (bidx l.shape I); rw [e])
  refine ⟨r, hr, Coef.contains_of r1 e fun L hL => ?_, fun I hI => ?_⟩
  · rw [s2 L (by rw [e]; exact hL.length.le)]
    exact IA.multiply_mem wA wB hr hL.length.le (hx.memb hA (e ▸ hle.1) hL)
      (hy.memb hB (e ▸ hle.2) hL)
  · obtain ⟨e1, e2⟩ := r4 I hI.length.le
    rw [Coef.lower_eq, Coef.upper_eq, ← ND.bget_valid r.lo (by rw [Coef.lo_shape]; exact hI),
      ← ND.bget_valid r.hi (by rw [r1.hi_shape]; exact hI), e1, e2]
    constructor
    · obtain ⟨u, hu, v, hv, e⟩ := plo_mem (A.lo.bget I) (A.hi.bget I) (B.lo.bget I) (B.hi.bget I)
      exact ⟨u, v, endp A wA I u hu, endp B wB I v hv, e⟩
    · obtain ⟨u, hu, v, hv, e⟩ := phi_mem (A.lo.bget I) (A.hi.bget I) (B.lo.bget I) (B.hi.bget I)
      exact ⟨u, v, endp A wA I u hu, endp B wB I v hv, e⟩

example : ∃ (A B : Coef ℚ) (x y s : ND ℚ), A.SameShape ∧ B.SameShape ∧ A.Contains x ∧
    B.Contains y ∧ ND.map2 (· * ·) x y = .ok s ∧ s.shape = [2, 2] :=
  ⟨.ivl (ND.mk' [2, 1] [-1, 2]) (ND.mk' [2, 1] [3, 4]), .ivl (ND.mk' [2] [0, -1]) (ND.mk' [2] [1, 1]),
   ND.mk' [2, 1] [3/2, 4], ND.mk' [2] [1/3, 0], _, by decide +kernel, by decide +kernel,
   by decide +kernel, by decide +kernel, rfl, rfl⟩

/-! ### C03 -/

/-- **C03 (membership).** `power(A, k)` contains `x ** k` for every member `x` of `A`, `k ≥ 0`. -/
theorem C03_power {A : Coef K} (hA : A.SameShape) (k : ℕ) :
    ∃ r, IA.power A (k : ℤ) = .ok r ∧ ∀ x : ND K, A.Contains x → r.Contains (x.map (· ^ k)) := by
  have wA := Coef.sameShape_iff.1 hA
  obtain ⟨r, hr⟩ := IA.power_total wA k
  obtain ⟨r1, r2, -, -, -⟩ := IA.power_ok wA hr
  refine ⟨r, hr, fun x hx => Coef.contains_of r1 (by rw [r2]; exact hx.1) fun L hL => ?_⟩
  rw [ND.bget_map]
  exact IA.power_mem wA hr (by rw [← r2]; exact hL.length.le) (hx.memb hA (r2 ▸ ble_refl _) hL)

/-- **C03 (exactness).** Both endpoints of `power(A, k)` are attained at a member of `A`. -/
theorem C03_power_attained {A r : Coef K} (hA : A.WellFormed) {k : ℕ}
    (h : IA.power A (k : ℤ) = .ok r) {I : List ℕ} (hI : ValidIdx A.shape I) :
    (∃ v, A.AtIdx I v ∧ r.lower.get I = v ^ k) ∧ (∃ v, A.AtIdx I v ∧ r.upper.get I = v ^ k) := by
  have wA := hA.wf
  obtain ⟨r1, r2, r3, r4, r5⟩ := IA.power_ok wA h
  have hIr : ValidIdx r.shape I := r2 ▸ hI
  rw [Coef.lower_eq, Coef.upper_eq, ← ND.bget_valid r.lo (by rw [Coef.lo_shape]; exact hIr),
      ← ND.bget_valid r.hi (by rw [r1.hi_shape]; exact hIr)]
  obtain ⟨q1, q2⟩ := r5 I hI.length.le
  have hle : A.lo.bget I ≤ A.hi.bget I := hA.le (ble_refl _) hI
  simp only [Coef.atIdx_iff wA hI]
  by_cases hc : A.isArr = true ∨ k = 0
  · obtain ⟨e1, e2⟩ := q1 hc
    exact ⟨⟨_, ⟨le_rfl, hle⟩, e1⟩, ⟨_, ⟨hle, le_rfl⟩, e2⟩⟩
  · rw [not_or] at hc
    obtain ⟨e1, e2⟩ := q2 (by simpa using hc.1) hc.2
    obtain ⟨v, v1, v2, ev⟩ := IA.powLo_attained hc.2 hle
    obtain ⟨u, u1, u2, eu⟩ := IA.powHi_attained (k := k) hle
    exact ⟨⟨v, ⟨v1, v2⟩, e1.trans ev⟩, ⟨u, ⟨u1, u2⟩, e2.trans eu⟩⟩

/-- **C03 (errors and arrays).** -/
theorem C03_power_errors (lo hi : ND K) (k : ℤ) (hk : k < 0) :
    IA.power (.ivl lo hi) k = .error .notImplemented := by
  simp [IA.power, hk]

/-- **C03 (arrays).** -/
theorem C03_power_array (a : ND K) (k : ℤ) : IA.power (.arr a) k = .ok (.arr (a.map (· ^ k))) := rfl

example : (Coef.ivl (ND.mk' [2] [(-2 : ℚ), 1]) (ND.mk' [2] [1, 3])).WellFormed ∧
    (∃ r, IA.power (Coef.ivl (ND.mk' [2] [(-2 : ℚ), 1]) (ND.mk' [2] [1, 3])) 2 = .ok r ∧
      r.lower.get [0] = 0 ∧ r.upper.get [0] = 4 ∧ r.lower.get [1] = 1 ∧ r.upper.get [1] = 9) := by
  decide +kernel

/-! ### C04 -/

/-- Specification: `s` is the outer product of `x` and `y` with `d` batch axes:
`s[I, J, J'] = x[I, J] * y[I, J']` (batch axes broadcast). -/
def IsOuterProduct (d : ℕ) (x y s : ND K) : Prop :=
  ∃ B, bshape (x.shape.take d) (y.shape.take d) = some B ∧
    s.shape = B ++ x.shape.drop d ++ y.shape.drop d ∧
    ∀ I J J', ValidIdx B I → ValidIdx (x.shape.drop d) J → ValidIdx (y.shape.drop d) J' →
      s.get (I ++ J ++ J') = x.bget (I ++ J) * y.bget (I ++ J')

/-- Specification: `s` is the `k`-fold outer power of `x` with `d` batch axes:
`s[I, J1, ..., Jk] = x[I, J1] * ... * x[I, Jk]`; the number 1 for `k = 0`. -/
def IsOuterPower (d k : ℕ) (x s : ND K) : Prop :=
  (k = 0 → s.shape = [] ∧ s.get [] = 1) ∧
  (k ≠ 0 → s.shape = x.shape.take d ++ (List.replicate k (x.shape.drop d)).flatten ∧
    ∀ (I : List ℕ) (Js : List (List ℕ)), ValidIdx (x.shape.take d) I → Js.length = k →
      (∀ J ∈ Js, ValidIdx (x.shape.drop d) J) →
      s.get (I ++ Js.flatten) = (Js.map fun J => x.get (I ++ J)).prod)

theorem flatten_split {C : List ℕ} {k : ℕ} {J : List ℕ} (h : ValidIdx (IA.repS k C) J) :
    ∃ Js : List (List ℕ), Js.length = k ∧ (∀ J ∈ Js, ValidIdx C J) ∧ J = Js.flatten :=
  ⟨chunks C.length k J, chunks_length _ _ _, chunks_valid h,
    (chunks_flatten (by rw [← h.length, IA.repS_length])).symm⟩

theorem validIdx_flatten {C : List ℕ} {Js : List (List ℕ)} (h : ∀ J ∈ Js, ValidIdx C J) :
    ValidIdx (IA.repS Js.length C) Js.flatten := by
  induction Js with
  | nil => exact ValidIdx.nil
  | cons J Js ih =>
    rw [List.length_cons, IA.repS_succ, List.flatten_cons]
    exact validIdx_append (h J (by simp)) (ih fun J hJ => h J (by simp [hJ]))

/-- **C04 (outer_product).** -/
theorem C04_outer_product {A B r : Coef K} (hA : A.SameShape) (hB : B.SameShape) {d : ℕ}
    (h : IA.outerProduct A B d = .ok r) {x y s : ND K} (hx : A.Contains x) (hy : B.Contains y)
    (hs : IsOuterProduct d x y s) : r.Contains s := by
  have wA := Coef.sameShape_iff.1 hA
  have wB := Coef.sameShape_iff.1 hB
  obtain ⟨d1, d2, r1, -, Q, q1, q2, -⟩ := IA.outerProduct_ok wA wB h
  obtain ⟨Q', p1, p2, p3⟩ := hs
  rw [hx.1, hy.1] at p1
  have e : Q' = Q := Option.some.inj (p1.symm.trans q1)
  subst e
  rw [hx.1, hy.1] at p2 p3
  refine Coef.contains_of r1 (by rw [p2, q2]) fun L hL => ?_
  have hLs : ValidIdx s.shape L := by rw [p2, ← q2]; exact hL
  rw [ND.bget_valid s hLs]
  rw [q2] at hL
  obtain ⟨IJ, J', rfl, hIJ, hJ'⟩ := validIdx_split hL
  obtain ⟨I, J, rfl, hI, hJ⟩ := validIdx_split hIJ
  rw [p3 I J J' hI hJ hJ']
  have hle := bshape_le q1
  have hlenB : Q'.length = d := by
    rw [bshape_length q1, List.length_take, List.length_take]
    unfold Coef.ndim at d1 d2; omega
  have key : ∀ (c : Coef K) (w : ND K), c.SameShape → c.Contains w → ble (c.shape.take d) Q' → ∀ J,
      ValidIdx (c.shape.drop d) J → c.Mem (I ++ J) (w.bget (I ++ J)) := by
    intro c w hc hw hcQ J hJ
    refine hw.memb hc (R := Q' ++ c.shape.drop d) ?_ (validIdx_append hI hJ)
    conv_lhs => rw [← List.take_append_drop d c.shape]
    exact ble_append hcQ (ble_refl _) rfl
  refine IA.outerProduct_mem wA wB h (by rw [← hI.length, hlenB]) ?_ ?_ (key A x hA hx hle.1 J hJ)
    (key B y hB hy hle.2 J' hJ')
  · rw [← hJ.length, List.length_drop]; rfl
  · rw [← hJ'.length, List.length_drop]; rfl

/-- **C04 (outer_product of arrays).** On arrays the result is the outer product itself. -/
theorem C04_outer_product_array {x y : ND K} {r : Coef K} {d : ℕ}
    (h : IA.outerProduct (.arr x) (.arr y) d = .ok r) : ∃ s, r = .arr s ∧ IsOuterProduct d x y s := by
  obtain ⟨d1, d2, -, hr, Q, q1, q2, q3⟩ := IA.outerProduct_ok (Coef.WF_arr x) (Coef.WF_arr y) h
  cases r with
  | ivl _ _ => cases hr
  | arr s =>
    refine ⟨s, rfl, Q, q1, q2, fun I J J' hI hJ hJ' => ?_⟩
    have hlenB : Q.length = d := by
      rw [bshape_length q1, List.length_take, List.length_take]
      unfold Coef.ndim at d1 d2; simp only [Coef.shape_arr] at d1 d2 ⊢; omega
    have := (q3 I J J' (by rw [← hI.length, hlenB]) (by rw [← hJ.length, List.length_drop]; rfl)
      (by rw [← hJ'.length, List.length_drop]; rfl)).1
    rw [← ND.bget_valid s (by
      have q2' : s.shape = _ := q2
      rw [q2']; exact validIdx_append (validIdx_append hI hJ) hJ')]
    refine this.trans ?_
    simp [plo]

/-- **C04 (outer_power).** Includes the tightened diagonal. -/
theorem C04_outer_power {A r : Coef K} (hA : A.SameShape) {d k : ℕ} (hd : d ≤ A.shape.length)
    (h : IA.outerPower A (k : ℤ) d = .ok r) {x s : ND K} (hx : A.Contains x)
    (hs : IsOuterPower d k x s) : r.Contains s := by
  have wA := Coef.sameShape_iff.1 hA
  have hsplit : A.shape = A.shape.take d ++ A.shape.drop d := (List.take_append_drop d _).symm
  have hlen : (A.shape.take d).length = d := by rw [List.length_take]; omega
  have h' : IA.outerPower A (k : ℤ) (A.shape.take d).length = .ok r := by rw [hlen]; exact h
  obtain ⟨r1, r2, r3, -, r5⟩ := IA.outerPower_mem wA hsplit h'
  by_cases hk : k = 0
  · obtain ⟨s1, s2⟩ := hs.1 hk
    have e3 := r3 hk
    refine Coef.contains_of r1 (by rw [s1, e3]) fun L hL => ?_
    rw [ND.bget_nil s1, s2]
    have hL' : L = [] := by
      rw [e3] at hL; exact List.length_eq_zero_iff.1 hL.length.symm
    subst hL'
    subst hk
    unfold IA.outerPower at h
    simp at h
    subst h
    rw [Coef.mem_arr]; rfl
  · obtain ⟨s1, s2⟩ := hs.2 hk
    have e2 := r2 hk
    rw [hx.1] at s1 s2
    refine Coef.contains_of r1 (by rw [s1, e2]; rfl) fun L hL => ?_
    rw [ND.bget_valid s (by rw [s1]; rw [e2] at hL; exact hL)]
    rw [e2] at hL
    obtain ⟨I, J, rfl, hI, hJ⟩ := validIdx_split hL
    obtain ⟨Js, j1, j2, rfl⟩ := flatten_split hJ
    rw [s2 I Js hI j1 j2]
    refine r5 I hI.length.le (fun J => x.get (I ++ J)) Js j1 fun J hJ => ⟨j2 J hJ, ?_⟩
    have hv : ValidIdx A.shape (I ++ J) := by rw [hsplit]; exact validIdx_append hI (j2 J hJ)
    have := hx.memb hA (ble_refl _) hv
    rwa [ND.bget_valid x (by rw [hx.1]; exact hv)] at this

/-- **C04 (outer_power of arrays).** On arrays `outer_power` is exactly the repeated outer product. -/
theorem C04_outer_power_array {x : ND K} {r : Coef K} {d k : ℕ} (hd : d ≤ x.shape.length)
    (h : IA.outerPower (.arr x) (k : ℤ) d = .ok r) : ∃ s, r = .arr s ∧ IsOuterPower d k x s := by
  have hsplit : (Coef.arr x).shape = x.shape.take d ++ x.shape.drop d :=
    (List.take_append_drop d _).symm
  have hlen : (x.shape.take d).length = d := by rw [List.length_take]; omega
  have h' : IA.outerPower (.arr x) (k : ℤ) (x.shape.take d).length = .ok r := by rw [hlen]; exact h
  obtain ⟨r1, r2, r3, r4, r5⟩ := IA.outerPower_mem (Coef.WF_arr x) hsplit h'
  have hr := r4 (Or.inl rfl)
  cases r with
  | ivl _ _ => cases hr
  | arr s =>
    refine ⟨s, rfl, fun hk => ⟨r3 hk, ?_⟩, fun hk => ⟨r2 hk, ?_⟩⟩
    · subst hk
      unfold IA.outerPower at h
      simp at h
      subst h; rfl
    · intro I Js hI j1 j2
      have := r5 I hI.length.le (fun J => x.get (I ++ J)) Js j1 fun J hJ => ⟨j2 J hJ, by
        rw [Coef.mem_arr, ND.bget_valid]
        show ValidIdx (Coef.arr x).shape _
        rw [hsplit]; exact validIdx_append hI (j2 J hJ)⟩
      rw [Coef.mem_arr, ND.bget_valid] at this
      · exact this.symm
      · have e : s.shape = _ := r2 hk
        rw [e]
        exact validIdx_append hI (j1 ▸ validIdx_flatten j2)

/-- **C04 (errors).** -/
theorem C04_errors (A B : Coef K) (d : ℕ) (k : ℤ) :
    (k < 0 → IA.outerPower A k d = .error .valueError) ∧
    (d > A.ndim ∨ d > B.ndim → IA.outerProduct A B d = .error .valueError) :=
  ⟨fun h => by simp [IA.outerPower, h], fun h => by unfold IA.outerProduct; rw [if_pos h]⟩

/-- C04: the outer square of a vector interval whose diagonal straddles 0 -/
example : ∃ (A : Coef ℚ) (x s : ND ℚ) (r : Coef ℚ), A.SameShape ∧ IA.outerPower A (2 : ℕ) 0 = .ok r ∧
    A.Contains x ∧ IsOuterPower 0 2 x s ∧ r.lower.get [0, 0] = 0 ∧ r.lower.get [0, 1] = -2 := by
  refine ⟨.ivl (ND.mk' [2] [-1, 1]) (ND.mk' [2] [1, 2]), ND.mk' [2] [1/2, 1],
    ND.mk' [2, 2] [1/4, 1/2, 1/2, 1], _, by decide +kernel, rfl, by decide +kernel, ⟨by simp, fun _ =>
    ⟨rfl, ?_⟩⟩, by decide +kernel, by decide +kernel⟩
  intro I Js hI hl hJ
  obtain ⟨J1, J2, rfl⟩ : ∃ a b, Js = [a, b] := by
    match Js, hl with
    | [a, b], _ => exact ⟨a, b, rfl⟩
  have hI' : I = [] := List.length_eq_zero_iff.1 hI.length.symm
  subst hI'
  have key : ∀ J1, ValidIdx [2] J1 → ∀ J2, ValidIdx [2] J2 →
    (ND.mk' [2, 2] [(1/4 : ℚ), 1/2, 1/2, 1]).get ([] ++ [J1, J2].flatten) =
      ([J1, J2].map fun J => (ND.mk' [2] [(1/2 : ℚ), 1]).get ([] ++ J)).prod := by decide +kernel
  exact key J1 (hJ J1 (by simp)) J2 (hJ J2 (by simp))

/-! ### C05 -/

/-- **C05 (tensordot).** -/
theorem C05_tensordot {A B : Coef K} (hA : A.SameShape) (hB : B.SameShape) {x y s : ND K} {n : ℕ}
    (hx : A.Contains x) (hy : B.Contains y) (hs : ND.tensordot x y n = .ok s) :
    ∃ r, IA.tensordot A B n = .ok r ∧ r.Contains s := by
  have wA := Coef.sameShape_iff.1 hA
  have wB := Coef.sameShape_iff.1 hB
  obtain ⟨s1, s2, s3, s4, s5⟩ := ND.tensordot_ok hs
  have nA : x.ndim = A.ndim := by unfold ND.ndim Coef.ndim; rw [hx.1]
  have nB : y.ndim = B.ndim := by unfold ND.ndim Coef.ndim; rw [hy.1]
  rw [nA] at s1 s3 s4 s5
  rw [nB] at s2 s5
  rw [hx.1, hy.1] at s3 s4
  rw [hy.1] at s5
  obtain ⟨r, hr⟩ := IA.tensordot_total wA wB s1 s2 s3
  obtain ⟨r1, -, -, -, r5, -, r7⟩ := IA.tensordot_mem wA wB hr
  refine ⟨r, hr, Coef.contains_of r1 (by rw [s4, r5]) fun L hL => ?_⟩
  rw [r5] at hL
  obtain ⟨L1, L2, rfl, h1, h2⟩ := validIdx_split hL
  have l1 : A.ndim - n ≤ L1.length := by
    rw [← h1.length, List.length_take]; unfold Coef.ndim; omega
  have l2 : L2.length = B.ndim - n := by rw [← h2.length, List.length_drop]; rfl
  rw [s5 L1 L2 l1 l2]
  refine r7 L1 L2 l1 l2 (fun J => x.bget (L1 ++ J)) (fun J => y.bget (J ++ L2)) ?_ ?_
  · intro J hJ
    refine hx.memb hA (ble_refl _) ?_
    rw [← List.take_append_drop (A.ndim - n) A.shape, s3]
    exact validIdx_append h1 (mem_idx.1 hJ)
  · intro J hJ
    refine hy.memb hB (ble_refl _) ?_
    rw [← List.take_append_drop n B.shape]
    exact validIdx_append (mem_idx.1 hJ) h2

/-- Specification: on arrays of shapes `S` and `T`, `op` returns an array of shape `R` whose entry at
`L` is the sum over `terms L` of `weight * x[i] * y[j]`. -/
def IsBilinear (op : ND K → ND K → Py (ND K)) (S T R : List ℕ)
    (terms : List ℕ → List (K × List ℕ × List ℕ)) : Prop :=
  (∀ L, ValidIdx R L → ∀ t ∈ terms L, ValidIdx S t.2.1 ∧ ValidIdx T t.2.2) ∧
  ∀ x y : ND K, x.shape = S → y.shape = T → ∃ s, op x y = .ok s ∧ s.shape = R ∧
    ∀ L, ValidIdx R L → s.get L = ((terms L).map fun t => t.1 * (x.get t.2.1 * y.get t.2.2)).sum

/-- **C05 (any bilinear operation with non-negative weights).** -/
theorem C05_arbitrary_bilinear {A B : Coef K} (hA : A.SameShape) (hB : B.SameShape)
    {op : ND K → ND K → Py (ND K)} {R : List ℕ} {terms : List ℕ → List (K × List ℕ × List ℕ)}
    (hop : IsBilinear op A.shape B.shape R terms)
    (hw : ∀ L, ValidIdx R L → ∀ t ∈ terms L, 0 ≤ t.1)
    {x y s : ND K} (hx : A.Contains x) (hy : B.Contains y) (hs : op x y = .ok s) :
    ∃ r, IA.arbitraryBilinear A B op = .ok r ∧ r.Contains s := by
  have wA := Coef.sameShape_iff.1 hA
  have wB := Coef.sameShape_iff.1 hB
  obtain ⟨r, hr⟩ := IA.bilinear_total false wA wB (R := R) fun x y hx hy => by
    obtain ⟨s, h1, h2, -⟩ := hop.2 x y hx hy; exact ⟨s, h1, h2⟩
  have hshape : ∀ x y s : ND K, x.shape = A.shape → y.shape = B.shape → op x y = .ok s →
      s.shape = R := by
    intro x y s hx hy hs
    obtain ⟨s', h1, h2, -⟩ := hop.2 x y hx hy
    rw [hs] at h1; cases h1; exact h2
  obtain ⟨r1, r2, -, -⟩ := IA.bilinearFalse_ok wA wB hshape hr
  refine ⟨r, hr, Coef.contains_of r1 (by rw [r2]; exact hshape x y s hx.1 hy.1 hs) fun L hL => ?_⟩
  rw [r2] at hL
  have hval : ∀ x y s : ND K, x.shape = A.shape → y.shape = B.shape → op x y = .ok s →
      s.bget L = ((terms L).map fun t => t.1 * (x.bget t.2.1 * y.bget t.2.2)).sum := by
    intro x y s hx hy hs
    obtain ⟨s', h1, h2, h3⟩ := hop.2 x y hx hy
    rw [hs] at h1; cases h1
    rw [ND.bget_valid s (by rw [h2]; exact hL), h3 L hL]
    congr 1
    apply List.map_congr_left
    intro t ht
    obtain ⟨v1, v2⟩ := hop.1 L hL t ht
    rw [ND.bget_valid x (by rw [hx]; exact v1), ND.bget_valid y (by rw [hy]; exact v2)]
  rw [hval x y s hx.1 hy.1 hs]
  exact IA.bilinearFalse_mem wA wB hshape hr hL.length.le hval (Or.inr (hw L hL))
    (s := x.bget) (t := y.bget)
    (fun t ht => hx.memb hA (ble_refl _) (hop.1 L hL t ht).1)
    (fun t ht => hy.memb hB (ble_refl _) (hop.1 L hL t ht).2)

/-- the bilinear operation `(x, y) ↦ -(x*y)` on numbers -/
def negMul (x y : ND K) : Py (ND K) := do return (← ND.map2 (· * ·) x y).map (- ·)

/-- **C05 (the documented claim is false for negative weights).** `op(x,y) = -(x*y)` is bilinear, yet
`arbitrary_bilinear([0,1], 1, op)` is the "interval" `(0, -1)`, which does not contain
`op(1, 1) = -1`... nor anything else. -/
theorem C05_negative_weight_counterexample :
    IsBilinear (negMul (K := ℚ)) [] [] [] (fun _ => [(-1, [], [])]) ∧
    ∃ (A B : Coef ℚ) (x y s : ND ℚ), A.WellFormed ∧ B.WellFormed ∧ A.shape = [] ∧ B.shape = [] ∧
      A.Contains x ∧ B.Contains y ∧ negMul x y = .ok s ∧
      ∀ r, IA.arbitraryBilinear A B negMul = .ok r → ¬ r.Contains s := by
  constructor
  · refine ⟨fun L hL t ht => ?_, fun x y hx hy => ?_⟩
    · simp at ht; subst ht; exact ⟨ValidIdx.nil, ValidIdx.nil⟩
    · refine ⟨⟨[], fun I => -(x.bget I * y.bget I)⟩, ?_, rfl, fun L hL => ?_⟩
      · unfold negMul ND.map2
        rw [hx, hy]; rfl
      · have : L = [] := List.length_eq_zero_iff.1 hL.length.symm
        subst this
        simp [ND.bget_nil hx, ND.bget_nil hy]
  · refine ⟨.ivl (ND.scalar 0) (ND.scalar 1), .arr (ND.scalar 1), ND.scalar 1, ND.scalar 1, _,
      by decide +kernel, by decide +kernel, rfl, rfl, by decide +kernel, by decide +kernel, rfl, ?_⟩
    intro r hr
    have : ¬ ∃ r, IA.arbitraryBilinear (.ivl (ND.scalar 0) (ND.scalar 1)) (.arr (ND.scalar 1))
      negMul = .ok r ∧ r.Contains ((⟨[], fun I => (ND.scalar (1:ℚ)).bget I * (ND.scalar 1).bget I⟩ : ND ℚ).map (- ·)) := by
      decide +kernel
    exact fun h => this ⟨r, hr, h⟩

/-- C05: matrix times vector interval, a straddling entry -/
example : ∃ (A B : Coef ℚ) (x y s : ND ℚ), A.SameShape ∧ B.SameShape ∧ A.Contains x ∧
    B.Contains y ∧ ND.tensordot x y 1 = .ok s ∧ s.shape = [2] :=
  ⟨.ivl (ND.mk' [2, 2] [-1, 2, 0, 1]) (ND.mk' [2, 2] [3, 4, 0, 2]), .ivl (ND.mk' [2] [0, -1]) (ND.mk' [2] [1, 1]),
   ND.mk' [2, 2] [3/2, 4, 0, 1], ND.mk' [2] [1/3, 0], _, by decide +kernel, by decide +kernel,
   by decide +kernel, by decide +kernel, rfl, rfl⟩

end AB
