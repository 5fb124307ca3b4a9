/-
Inclusion isotonicity of the enclosure arithmetic: nested coefficients and nested trust regions give nested results.
-/
import Verif.Props.Isotone
import Verif.Spec.Isotone

set_option linter.unusedSectionVars false

namespace AB
variable {K : Type} [Field K] [LinearOrder K] [IsStrictOrderedRing K]
open IA (repS)

namespace Nest
variable {c' c : Coef K}

theorem wf' (h : Nest c' c) : c'.WellFormed := by
  cases h with
  | arr a => exact ⟨trivial, trivial⟩
  | ivl h _ _ => exact h

theorem wf (h : Nest c' c) : c.WellFormed := by
  cases h with
  | arr a => exact ⟨trivial, trivial⟩
  | ivl _ h _ => exact h

theorem inside (h : Nest c' c) : c'.Inside c := by
  cases h with
  | arr a => exact fun _ h => h
  | ivl _ _ h => exact h

theorem isArr (h : Nest c' c) : c'.isArr = c.isArr := by cases h <;> rfl

theorem shape (h : Nest c' c) : c'.shape = c.shape :=
  (inside_mem h.wf' h.wf.1 h.inside).1

theorem ndim (h : Nest c' c) : c'.ndim = c.ndim := by rw [Coef.ndim_def, Coef.ndim_def, h.shape]

theorem eq_of_arr (h : Nest c' c) (ha : c.isArr = true) : c' = c := by
  cases h with
  | arr a => rfl
  | ivl _ _ _ => cases ha

theorem refl {c : Coef K} (h : c.WellFormed) : Nest c c := by
  cases c with
  | arr a => exact .arr a
  | ivl l u => exact .ivl h h fun _ h => h

/-- the entries -/
theorem entries (h : Nest c' c) {R L : List ℕ} (hR : ble c.shape R) (hL : ValidIdx R L) :
    c.lo.bget L ≤ c'.lo.bget L ∧ c'.lo.bget L ≤ c'.hi.bget L ∧ c'.hi.bget L ≤ c.hi.bget L := by
  have := (inside_mem h.wf' h.wf.1 h.inside).2 R L hR hL
  exact ⟨this.1.1, h.wf'.le (h.shape ▸ hR) hL, this.2.2⟩

theorem of_inside (hw' : c'.WellFormed) (hw : c.WellFormed) (hi : c'.Inside c)
    (ha : c'.isArr = c.isArr) (he : c.isArr = true → c' = c) : Nest c' c := by
  cases c with
  | arr a =>
    rw [he rfl]; exact .arr a
  | ivl l u =>
    cases c' with
    | arr a => cases ha
    | ivl l' u' => exact .ivl hw' hw hi

theorem of_entries (hw' : c'.WF) (hw : c.WF) (hs : c'.shape = c.shape)
    (hm : ∀ L, ValidIdx c.shape L → c.lo.bget L ≤ c'.lo.bget L ∧ c'.lo.bget L ≤ c'.hi.bget L ∧
      c'.hi.bget L ≤ c.hi.bget L) (ha : c'.isArr = c.isArr) (he : c.isArr = true → c' = c) : Nest c' c := by
  refine of_inside (Coef.wellFormed_of hw' fun L hL => ⟨c'.lo.bget L, le_rfl, (hm L (hs ▸ hL)).2.1⟩)
    (Coef.wellFormed_of hw fun L hL => ⟨c'.lo.bget L, (hm L hL).1, (hm L hL).2.1.trans (hm L hL).2.2⟩)
    (inside_of hw' hw hs fun L hL => ?_) ha he
  obtain ⟨h1, h2, h3⟩ := hm L hL
  exact ⟨⟨h1, h2.trans h3⟩, ⟨h1.trans h2, h3⟩⟩

/-- a binary operation -/
theorem bin {A' A B' B r' r : Coef K} {x y : Py (Coef K)} (hx : x = .ok r') (hy : y = .ok r)
    (w' : r'.WellFormed) (w : r.WellFormed) (hi : ∃ s, x = .ok s ∧ s.Inside r)
    (a' : r'.isArr = (A'.isArr && B'.isArr)) (a : r.isArr = (A.isArr && B.isArr))
    (nA : Nest A' A) (nB : Nest B' B) (he : A' = A → B' = B → x = y) : Nest r' r := by
  obtain ⟨s, hs, hi⟩ := hi
  rw [hx] at hs; cases hs
  refine of_inside w' w hi (by rw [a', a, nA.isArr, nB.isArr]) fun h => ?_
  rw [a, Bool.and_eq_true] at h
  have := he (nA.eq_of_arr h.1) (nB.eq_of_arr h.2)
  rw [hx, hy] at this
  cases this; rfl

end Nest

namespace IA
open Nest
variable {A' A B' B r' r : Coef K}

theorem iso_add (nA : Nest A' A) (nB : Nest B' B) (h' : add A' B' = .ok r') (h : add A B = .ok r) : Nest r' r :=
  Nest.bin h' h ((C06_wellFormed nA.wf' nB.wf').1 h') ((C06_wellFormed nA.wf nB.wf).1 h)
    ((C08_add_subtract nA.wf.1 nB.wf.1 nA.wf' nB.wf' nA.inside nB.inside).1 h)
    (add_ok nA.wf'.wf nB.wf'.wf h').2.2.1 (add_ok nA.wf.wf nB.wf.wf h).2.2.1 nA nB
    (by rintro rfl rfl; rfl)

theorem iso_sub (nA : Nest A' A) (nB : Nest B' B) (h' : subtract A' B' = .ok r') (h : subtract A B = .ok r) :
    Nest r' r :=
  Nest.bin h' h ((C06_wellFormed nA.wf' nB.wf').2.1 h') ((C06_wellFormed nA.wf nB.wf).2.1 h)
    ((C08_add_subtract nA.wf.1 nB.wf.1 nA.wf' nB.wf' nA.inside nB.inside).2 h)
    (sub_ok nA.wf'.wf nB.wf'.wf h').2.2.1 (sub_ok nA.wf.wf nB.wf.wf h).2.2.1 nA nB
    (by rintro rfl rfl; rfl)

theorem iso_multiply (nA : Nest A' A) (nB : Nest B' B) (h' : multiply A' B' = .ok r') (h : multiply A B = .ok r) :
    Nest r' r :=
  Nest.bin h' h ((C06_wellFormed nA.wf' nB.wf').2.2.2.1 h') ((C06_wellFormed nA.wf nB.wf).2.2.2.1 h)
    (C08_multiply nA.wf.1 nB.wf.1 nA.wf' nB.wf' nA.inside nB.inside h)
    (multiply_ok nA.wf'.wf nB.wf'.wf h').2.2.1 (multiply_ok nA.wf.wf nB.wf.wf h).2.2.1 nA nB
    (by rintro rfl rfl; rfl)

theorem iso_outerProduct {d : ℕ} (nA : Nest A' A) (nB : Nest B' B) (h' : outerProduct A' B' d = .ok r')
    (h : outerProduct A B d = .ok r) : Nest r' r :=
  Nest.bin h' h ((C06_wellFormed nA.wf' nB.wf').2.2.2.2.2.1 d h') ((C06_wellFormed nA.wf nB.wf).2.2.2.2.2.1 d h)
    (C08_outer_product nA.wf.1 nB.wf.1 nA.wf' nB.wf' nA.inside nB.inside h)
    (outerProduct_ok nA.wf'.wf nB.wf'.wf h').2.2.2.1 (outerProduct_ok nA.wf.wf nB.wf.wf h).2.2.2.1 nA nB
    (by rintro rfl rfl; rfl)

theorem iso_tensordot {n : ℕ} (nA : Nest A' A) (nB : Nest B' B) (h' : tensordot A' B' n = .ok r')
    (h : tensordot A B n = .ok r) : Nest r' r :=
  Nest.bin h' h ((C06_wellFormed nA.wf' nB.wf').2.2.2.2.2.2.2 n h') ((C06_wellFormed nA.wf nB.wf).2.2.2.2.2.2.2 n h)
    (C08_tensordot nA.wf.1 nB.wf.1 nA.wf' nB.wf' nA.inside nB.inside h)
    (tensordot_mem nA.wf'.wf nB.wf'.wf h').2.2.2.2.2.1 (tensordot_mem nA.wf.wf nB.wf.wf h).2.2.2.2.2.1 nA nB
    (by rintro rfl rfl; rfl)

theorem iso_negative (nA : Nest A' A) : Nest (negative A') (negative A) := by
  refine Nest.of_inside (C06_wellFormed nA.wf' nA.wf' (r := A)).2.2.1 (C06_wellFormed nA.wf nA.wf (r := A)).2.2.1
    (C08_negative nA.wf.1 nA.wf' nA.inside) ?_ fun h => ?_
  · rw [(neg_ok nA.wf'.wf).2.2.1, (neg_ok nA.wf.wf).2.2.1, nA.isArr]
  · rw [(neg_ok nA.wf.wf).2.2.1] at h
    rw [nA.eq_of_arr h]

theorem iso_power {k : ℕ} (nA : Nest A' A) (h' : power A' (k : ℤ) = .ok r') (h : power A (k : ℤ) = .ok r) :
    Nest r' r := by
  cases nA with
  | arr a => rw [h] at h'; cases h'; exact Nest.refl ((C06_wellFormed ⟨trivial, trivial⟩ ⟨trivial, trivial⟩ (A := .arr a) (B := .arr a)).2.2.2.2.1 k h)
  | @ivl l' u' l u w1 w2 hi =>
    have nA : Nest (.ivl l' u') (.ivl l u) := .ivl w1 w2 hi
    by_cases hk : k = 0
    · subst hk
      cases h'; cases h
      have : l'.shape = l.shape := nA.shape
      show Nest (.arr l'.onesLike) (.arr l.onesLike)
      unfold ND.onesLike
      rw [this]
      exact .arr _
    · have p' := power_ok w1.wf h'
      have p := power_ok w2.wf h
      have a' : r'.isArr = false := p'.2.2.2.1 rfl hk
      have a : r.isArr = false := p.2.2.2.1 rfl hk
      obtain ⟨s, hs, hin⟩ := C08_power w2.1 w1 hi k h
      rw [h'] at hs; cases hs
      exact Nest.of_inside ((C06_wellFormed w1 w1).2.2.2.2.1 k h') ((C06_wellFormed w2 w2).2.2.2.2.1 k h) hin
        (by rw [a', a]) (by rw [a]; exact fun h => by cases h)

theorem iso_running {d m : ℕ} (nA : Nest A' A) (h' : runningOuterProduct A' d m = .ok r')
    (h : runningOuterProduct A d m = .ok r) : Nest r' r := by
  induction m generalizing r' r with
  | zero => cases h'; cases h; exact nA
  | succ m ih =>
    simp only [runningOuterProduct, py_bind_ok] at h h'
    obtain ⟨s, hs, h⟩ := h
    obtain ⟨s', hs', h'⟩ := h'
    exact iso_outerProduct (ih hs' hs) nA h' h

theorem iso_diag {k : ℤ} (nA : Nest A' A) (h' : generalizedDiagInterval A' k = .ok r')
    (h : generalizedDiagInterval A k = .ok r) : Nest r' r := by
  obtain ⟨w, s, hs, ws, hin⟩ := diag_isotone nA.wf.wf nA.wf' nA.inside k h
  rw [h'] at hs; cases hs
  obtain ⟨-, s2, hs2, ws2, -⟩ := diag_isotone nA.wf.wf nA.wf (fun _ h => h) k h
  rw [h] at hs2; cases hs2
  cases nA with
  | arr a => rw [h] at h'; cases h'; exact Nest.refl ws
  | ivl =>
    have ar : ∀ {l u : ND K} {r : Coef K}, generalizedDiagInterval (.ivl l u) k = .ok r → r.isArr = false := by
      intro l u r h
      simp only [generalizedDiagInterval, py_bind_ok, py_pure] at h
      obtain ⟨_, _, _, _, rfl⟩ := h
      rfl
    exact Nest.of_inside ws ws2 hin (by rw [ar h, ar h']) (by rw [ar h]; exact fun h => by cases h)

theorem iso_outerPower {k d : ℕ} (nA : Nest A' A) (h' : outerPower A' (k : ℤ) d = .ok r')
    (h : outerPower A (k : ℤ) d = .ok r) : Nest r' r := by
  unfold outerPower at h h'
  rw [if_neg (by omega : ¬ ((k : ℤ) < 0))] at h h'
  by_cases hk : (k : ℤ) = 0
  · rw [if_pos hk] at h h'
    cases h; cases h'; exact .arr _
  rw [if_neg hk] at h h'
  rw [nA.ndim] at h'
  by_cases hn : A.ndim = 0
  · rw [if_pos hn] at h h'
    exact iso_power nA h' h
  rw [if_neg hn] at h h'
  simp only [py_bind_ok] at h h'
  obtain ⟨rop, hrop, h⟩ := h
  obtain ⟨rop', hrop', h'⟩ := h'
  have nR := iso_running nA hrop' hrop
  by_cases hd : d = 0
  · rw [if_neg (by simpa using hd)] at h h'
    have heye : (firstEndpoint A').onesLike = (firstEndpoint A).onesLike := by
      have e : ∀ c : Coef K, (firstEndpoint c).onesLike = ⟨c.shape, fun _ => 1⟩ := by
        intro c; cases c <;> rfl
      rw [e, e, nA.shape]
    rw [heye] at h'
    cases hg : generalizedDiagNdarray (firstEndpoint A).onesLike (k : ℤ) with
    | error e =>
      rw [hg] at h h'
      cases e <;> simp at h; cases h; cases h'
      exact nR
    | ok eye =>
      rw [hg] at h h'
      simp only [py_bind_ok] at h h'
      obtain ⟨pw, hpw, dg, hdg, pr, hpr, hadd⟩ := h
      obtain ⟨pw', hpw', dg', hdg', pr', hpr', hadd'⟩ := h'
      exact iso_add (iso_multiply nR (.arr _) hpr' hpr) (iso_diag (iso_power nA hpw' hpw) hdg' hdg) hadd' hadd
  · rw [if_pos hd] at h h'
    cases h; cases h'
    exact nR

/-- the operation returns arrays of shape `R`, with entries that are sums of products of entries of the operands
with nonnegative weights -/
def Formed (op : ND K → ND K → Py (ND K)) (S T R : List ℕ) : Prop :=
  (∀ x y s, x.shape = S → y.shape = T → op x y = .ok s → s.shape = R) ∧
  ∀ L, ValidIdx R L → ∃ Tm : List (BTerm K),
    (∀ t ∈ Tm, 0 ≤ t.1 ∧ (∃ Q, ble S Q ∧ ValidIdx Q t.2.1) ∧ ∃ Q, ble T Q ∧ ValidIdx Q t.2.2) ∧
    ∀ x y s, x.shape = S → y.shape = T → op x y = .ok s →
      s.bget L = (Tm.map fun t => t.1 * (x.bget t.2.1 * y.bget t.2.2)).sum

/-- the operation returns arrays of shape `R`, with entries that are products of entries of the operands -/
def Formed1 (op : ND K → ND K → Py (ND K)) (S T R : List ℕ) : Prop :=
  (∀ x y s, x.shape = S → y.shape = T → op x y = .ok s → s.shape = R) ∧
  ∀ L, ValidIdx R L → ∃ φ ψ : List ℕ,
    (∃ Q, ble S Q ∧ ValidIdx Q φ) ∧ (∃ Q, ble T Q ∧ ValidIdx Q ψ) ∧
    ∀ x y s, x.shape = S → y.shape = T → op x y = .ok s → s.bget L = x.bget φ * y.bget ψ

theorem iso_bilinear {op : ND K → ND K → Py (ND K)} {R : List ℕ} (nA : Nest A' A) (nB : Nest B' B)
    (hop : Formed op A.shape B.shape R) (h' : arbitraryBilinear A' B' op false = .ok r')
    (h : arbitraryBilinear A B op false = .ok r) : Nest r' r := by
  obtain ⟨q1, q2, q3, q4⟩ := bilinearFalse_ok nA.wf'.wf nB.wf'.wf (by rw [nA.shape, nB.shape]; exact hop.1) h'
  obtain ⟨p1, p2, p3, p4⟩ := bilinearFalse_ok nA.wf.wf nB.wf.wf hop.1 h
  refine Nest.of_entries q1 p1 (by rw [q2, p2]) (fun L hL => ?_) (by rw [q3, p3, nA.isArr, nB.isArr]) fun ha => ?_
  · rw [p2] at hL
    obtain ⟨Tm, t1, t2⟩ := hop.2 L hL
    obtain ⟨-, e1, e2⟩ := q4 L Tm hL.length.le (by rw [nA.shape, nB.shape]; exact t2)
    obtain ⟨-, f1, f2⟩ := p4 L Tm hL.length.le t2
    have key : ∀ t ∈ Tm, glo (A.lo.bget t.2.1) (A.hi.bget t.2.1) (B.lo.bget t.2.2) (B.hi.bget t.2.2) ≤
        glo (A'.lo.bget t.2.1) (A'.hi.bget t.2.1) (B'.lo.bget t.2.2) (B'.hi.bget t.2.2) ∧
        glo (A'.lo.bget t.2.1) (A'.hi.bget t.2.1) (B'.lo.bget t.2.2) (B'.hi.bget t.2.2) ≤
        ghi (A'.lo.bget t.2.1) (A'.hi.bget t.2.1) (B'.lo.bget t.2.2) (B'.hi.bget t.2.2) ∧
        ghi (A'.lo.bget t.2.1) (A'.hi.bget t.2.1) (B'.lo.bget t.2.2) (B'.hi.bget t.2.2) ≤
        ghi (A.lo.bget t.2.1) (A.hi.bget t.2.1) (B.lo.bget t.2.2) (B.hi.bget t.2.2) := by
      intro t ht
      obtain ⟨-, ⟨Q, a1, a2⟩, ⟨Q', b1, b2⟩⟩ := t1 t ht
      obtain ⟨u1, u2, u3⟩ := nA.entries a1 a2
      obtain ⟨v1, v2, v3⟩ := nB.entries b1 b2
      exact ⟨(g_mono u1 u3 v1 v3).1, (gbounds le_rfl u2 le_rfl v2).1.trans (gbounds le_rfl u2 le_rfl v2).2,
        (g_mono u1 u3 v1 v3).2⟩
    rw [e1, e2, f1, f2]
    refine ⟨List.sum_le_sum fun t ht => ?_, List.sum_le_sum fun t ht => ?_, List.sum_le_sum fun t ht => ?_⟩
    · exact mul_le_mul_of_nonneg_left (key t ht).1 (t1 t ht).1
    · exact mul_le_mul_of_nonneg_left (key t ht).2.1 (t1 t ht).1
    · exact mul_le_mul_of_nonneg_left (key t ht).2.2 (t1 t ht).1
  · rw [p3, Bool.and_eq_true] at ha
    rw [nA.eq_of_arr ha.1, nB.eq_of_arr ha.2, h] at h'
    cases h'; rfl

theorem iso_bilinear1 {op : ND K → ND K → Py (ND K)} {R : List ℕ} (nA : Nest A' A) (nB : Nest B' B)
    (hop : Formed1 op A.shape B.shape R) (h' : arbitraryBilinear A' B' op true = .ok r')
    (h : arbitraryBilinear A B op true = .ok r) : Nest r' r := by
  obtain ⟨q1, q2, q3, q4⟩ := bilinearTrue_ok nA.wf'.wf nB.wf'.wf (by rw [nA.shape, nB.shape]; exact hop.1) h'
  obtain ⟨p1, p2, p3, p4⟩ := bilinearTrue_ok nA.wf.wf nB.wf.wf hop.1 h
  refine Nest.of_entries q1 p1 (by rw [q2, p2]) (fun L hL => ?_) (by rw [q3, p3, nA.isArr, nB.isArr]) fun ha => ?_
  · rw [p2] at hL
    obtain ⟨φ, ψ, ⟨Q, a1, a2⟩, ⟨Q', b1, b2⟩, t2⟩ := hop.2 L hL
    obtain ⟨e1, e2⟩ := q4 L φ ψ hL.length.le (by rw [nA.shape, nB.shape]; exact t2)
    obtain ⟨f1, f2⟩ := p4 L φ ψ hL.length.le t2
    obtain ⟨u1, u2, u3⟩ := nA.entries a1 a2
    obtain ⟨v1, v2, v3⟩ := nB.entries b1 b2
    have key : ∀ a ∈ [A'.lo.bget φ, A'.hi.bget φ], ∀ b ∈ [B'.lo.bget ψ, B'.hi.bget ψ],
        plo (A.lo.bget φ) (A.hi.bget φ) (B.lo.bget ψ) (B.hi.bget ψ) ≤ a * b ∧
        a * b ≤ phi (A.lo.bget φ) (A.hi.bget φ) (B.lo.bget ψ) (B.hi.bget ψ) := by
      intro a ha b hb
      have ha' : A.lo.bget φ ≤ a ∧ a ≤ A.hi.bget φ := by
        rcases List.mem_pair.1 ha with rfl | rfl
        · exact ⟨u1, u2.trans u3⟩
        · exact ⟨u1.trans u2, u3⟩
      have hb' : B.lo.bget ψ ≤ b ∧ b ≤ B.hi.bget ψ := by
        rcases List.mem_pair.1 hb with rfl | rfl
        · exact ⟨v1, v2.trans v3⟩
        · exact ⟨v1.trans v2, v3⟩
      exact pbounds ha'.1 ha'.2 hb'.1 hb'.2
    rw [e1, e2, f1, f2]
    refine ⟨?_, (pbounds le_rfl u2 le_rfl v2).1.trans (pbounds le_rfl u2 le_rfl v2).2, ?_⟩
    · obtain ⟨a, ha, b, hb, e⟩ := plo_mem (A'.lo.bget φ) (A'.hi.bget φ) (B'.lo.bget ψ) (B'.hi.bget ψ)
      rw [e]; exact (key a ha b hb).1
    · obtain ⟨a, ha, b, hb, e⟩ := phi_mem (A'.lo.bget φ) (A'.hi.bget φ) (B'.lo.bget ψ) (B'.hi.bget ψ)
      rw [e]; exact (key a ha b hb).2
  · rw [p3, Bool.and_eq_true] at ha
    rw [nA.eq_of_arr ha.1, nB.eq_of_arr ha.2, h] at h'
    cases h'; rfl

end IA
end AB
