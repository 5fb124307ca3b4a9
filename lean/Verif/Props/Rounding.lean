/-
C72: the operations of IntervalArithmetic with floating point rounding
(/repo/autobound/interval_arithmetic.py:35-163, 213-261).
-/
import Verif.Spec.Rounding
import Verif.Spec.Contains
import Verif.Spec.Decide
import Verif.Proofs.Interval
import Mathlib.Algebra.Order.Floor.Ring
import Mathlib.Data.Rat.Floor
import Mathlib.Algebra.Order.Ring.Rat
import Mathlib.Algebra.Field.Rat
import Mathlib.Tactic.Linarith

set_option linter.unusedSectionVars false

namespace AB
open Coef

namespace Rnd
variable {F : Type} [Zero F] [One F] [Add F] [Sub F] [Neg F] [Mul F] [Pow F ℤ] [LinearOrder F]

/-! ### The operations at one index -/

theorem contains_of {r : Coef F} (hr : r.WF) {s : ND F} (hs : s.shape = r.shape)
    (h : ∀ L, ValidIdx r.shape L → r.Mem L (s.bget L)) : r.Contains s := by
  rw [Coef.contains_iff hr]
  refine ⟨hs, fun I hI => ?_⟩
  have := h I hI
  rwa [ND.bget_valid s (by rw [hs]; exact hI)] at this

/-- Two applications of the same elementwise operation to operands of the same shapes. -/
theorem pair_ok {f : F → F → F} {x y x' y' : ND F} (hx : x.shape = x'.shape)
    (hy : y.shape = y'.shape) {R : List ℕ} (h1 : ble x.shape R) (h2 : ble y.shape R) :
    ∃ s s', ND.map2 f x y = .ok s ∧ ND.map2 f x' y' = .ok s' ∧ (Coef.ivl s s').WF ∧
      bshape x.shape y.shape = some s.shape ∧
      ∀ L, s.shape.length ≤ L.length → s.bget L = f (x.bget L) (y.bget L) ∧
        s'.bget L = f (x'.bget L) (y'.bget L) := by
  obtain ⟨s, hs, -⟩ := ND.map2_lub f h1 h2
  obtain ⟨s', hs', -⟩ := ND.map2_lub (a := x') (b := y') f (hx ▸ h1) (hy ▸ h2)
  have e1 := ND.map2_ok hs
  have e2 := ND.map2_ok hs'
  have : s.shape = s'.shape := by
    have := e2.1; rw [← hx, ← hy, e1.1] at this; simpa using this
  exact ⟨s, s', hs, hs', this, e1.1, fun L hL => ⟨e1.2 L hL, e2.2 L (this ▸ hL)⟩⟩

theorem add_spec {a b : Coef F} (ha : a.WF) (hb : b.WF) {R : List ℕ} (h1 : ble a.shape R)
    (h2 : ble b.shape R) : ∃ r, IA.add a b = .ok r ∧ r.WF ∧
      bshape a.shape b.shape = some r.shape ∧
      ∀ L, r.shape.length ≤ L.length → r.lo.bget L = a.lo.bget L + b.lo.bget L ∧
        r.hi.bget L = a.hi.bget L + b.hi.bget L := by
  obtain ⟨s, s', e, e', w, hsh, hg⟩ := pair_ok (f := (· + ·)) (x := a.lo) (x' := a.hi) (y := b.lo)
    (y' := b.hi) (by rw [Coef.lo_shape, ha.hi_shape]) (by rw [Coef.lo_shape, hb.hi_shape])
    (R := R) (by rw [Coef.lo_shape]; exact h1) (by rw [Coef.lo_shape]; exact h2)
  rw [Coef.lo_shape, Coef.lo_shape] at hsh
  cases a with
  | arr a => cases b with
    | arr b =>
      obtain rfl : s = s' := by have := e.symm.trans e'; cases this; rfl
      exact ⟨.arr s, by simp only [IA.add]; rw [show ND.map2 (· + ·) a b = .ok s from e]; rfl,
        trivial, hsh, hg⟩
    | ivl b0 b1 =>
      exact ⟨.ivl s s', by
        simp only [IA.add]
        rw [show ND.map2 (· + ·) a b0 = .ok s from e, show ND.map2 (· + ·) a b1 = .ok s' from e']
        rfl, w, hsh, hg⟩
  | ivl a0 a1 => cases b with
    | arr b =>
      exact ⟨.ivl s s', by
        simp only [IA.add]
        rw [show ND.map2 (· + ·) a0 b = .ok s from e, show ND.map2 (· + ·) a1 b = .ok s' from e']
        rfl, w, hsh, hg⟩
    | ivl b0 b1 =>
      exact ⟨.ivl s s', by
        simp only [IA.add]
        rw [show ND.map2 (· + ·) a0 b0 = .ok s from e, show ND.map2 (· + ·) a1 b1 = .ok s' from e']
        rfl, w, hsh, hg⟩

theorem sub_spec {a b : Coef F} (ha : a.WF) (hb : b.WF) {R : List ℕ} (h1 : ble a.shape R)
    (h2 : ble b.shape R) : ∃ r, IA.subtract a b = .ok r ∧ r.WF ∧
      bshape a.shape b.shape = some r.shape ∧
      ∀ L, r.shape.length ≤ L.length → r.lo.bget L = a.lo.bget L - b.hi.bget L ∧
        r.hi.bget L = a.hi.bget L - b.lo.bget L := by
  obtain ⟨s, s', e, e', w, hsh, hg⟩ := pair_ok (f := (· - ·)) (x := a.lo) (x' := a.hi) (y := b.hi)
    (y' := b.lo) (by rw [Coef.lo_shape, ha.hi_shape]) (by rw [Coef.lo_shape, hb.hi_shape])
    (R := R) (by rw [Coef.lo_shape]; exact h1) (by rw [hb.hi_shape]; exact h2)
  rw [Coef.lo_shape, hb.hi_shape] at hsh
  cases a with
  | arr a => cases b with
    | arr b =>
      obtain rfl : s = s' := by have := e.symm.trans e'; cases this; rfl
      exact ⟨.arr s, by simp only [IA.subtract]; rw [show ND.map2 (· - ·) a b = .ok s from e]; rfl,
        trivial, hsh, hg⟩
    | ivl b0 b1 =>
      exact ⟨.ivl s s', by
        simp only [IA.subtract]
        rw [show ND.map2 (· - ·) a b1 = .ok s from e, show ND.map2 (· - ·) a b0 = .ok s' from e']
        rfl, w, hsh, hg⟩
  | ivl a0 a1 => cases b with
    | arr b =>
      exact ⟨.ivl s s', by
        simp only [IA.subtract]
        rw [show ND.map2 (· - ·) a0 b = .ok s from e, show ND.map2 (· - ·) a1 b = .ok s' from e']
        rfl, w, hsh, hg⟩
    | ivl b0 b1 =>
      exact ⟨.ivl s s', by
        simp only [IA.subtract]
        rw [show ND.map2 (· - ·) a0 b1 = .ok s from e, show ND.map2 (· - ·) a1 b0 = .ok s' from e']
        rfl, w, hsh, hg⟩

theorem shape_of {f : F → F → F} {S x y r : _} {R : List ℕ}
    (_ : S = R) (hx : ND.shape x = R) (hy : ND.shape y = R) (h : ND.map2 f x y = .ok r) :
    r.shape = R ∧ ∀ L, R.length ≤ L.length → r.bget L = f (x.bget L) (y.bget L) := by
  have := ND.map2_ok h
  rw [hx, hy, bshape_self] at this
  have hR : r.shape = R := by simpa using this.1.symm
  exact ⟨hR, fun L hL => this.2 L (hR ▸ hL)⟩

theorem min_spec {x y : ND F} {R : List ℕ} (f : F → F → F) (hx : x.shape = R) (hy : y.shape = R) :
    ∃ m, ND.map2 f x y = .ok m ∧ m.shape = R ∧
      ∀ L, R.length ≤ L.length → m.bget L = f (x.bget L) (y.bget L) := by
  have e := ND.map2_same f (hx.trans hy.symm)
  exact ⟨_, e, shape_of rfl hx hy e⟩

/-- `reduce` of binary minimum/maximum over a non-empty list of arrays of one shape. -/
theorem fold_spec {f : F → F → F} {R : List ℕ} : ∀ (l : List (ND F)) (x : ND F), x.shape = R →
    (∀ y ∈ l, y.shape = R) → ∃ m, l.foldlM (ND.map2 f) x = .ok m ∧ m.shape = R ∧
      ∀ L, R.length ≤ L.length → m.bget L = (l.map (ND.bget · L)).foldl f (x.bget L)
  | [], x, hx, _ => ⟨x, rfl, hx, fun _ _ => rfl⟩
  | y :: l, x, hx, h => by
    obtain ⟨m, e, hm, hg⟩ := min_spec f hx (h y List.mem_cons_self)
    obtain ⟨m', e', hm', hg'⟩ := fold_spec l m hm fun z hz => h z (List.mem_cons_of_mem _ hz)
    refine ⟨m', by rw [List.foldlM_cons, e]; exact e', hm', fun L hL => ?_⟩
    rw [hg' L hL, hg L hL]; rfl

theorem foldl_min_le (l : List F) (x : F) :
    l.foldl min x ≤ x ∧ ∀ y ∈ l, l.foldl min x ≤ y := by
  induction l generalizing x with
  | nil => exact ⟨le_rfl, fun y hy => absurd hy List.not_mem_nil⟩
  | cons z l ih =>
    obtain ⟨h1, h2⟩ := ih (min x z)
    exact ⟨h1.trans (min_le_left _ _), fun y hy => by
      rcases List.mem_cons.1 hy with rfl | hy
      · exact h1.trans (min_le_right _ _)
      · exact h2 y hy⟩

theorem le_foldl_max (l : List F) (x : F) :
    x ≤ l.foldl max x ∧ ∀ y ∈ l, y ≤ l.foldl max x := by
  induction l generalizing x with
  | nil => exact ⟨le_rfl, fun y hy => absurd hy List.not_mem_nil⟩
  | cons z l ih =>
    obtain ⟨h1, h2⟩ := ih (max x z)
    exact ⟨(le_max_left _ _).trans h1, fun y hy => by
      rcases List.mem_cons.1 hy with rfl | hy
      · exact (le_max_right _ _).trans h1
      · exact h2 y hy⟩

/-- The corner products bound the result of `multiply` at each index. -/
theorem mul_spec {a b : Coef F} (ha : a.WF) (hb : b.WF) {R : List ℕ}
    (hR : bshape a.shape b.shape = some R) : ∃ r, IA.multiply a b = .ok r ∧ r.WF ∧ r.shape = R ∧
      ∀ L, R.length ≤ L.length → ∀ x ∈ IA.endpoints a, ∀ y ∈ IA.endpoints b,
        r.lo.bget L ≤ x.bget L * y.bget L ∧ x.bget L * y.bget L ≤ r.hi.bget L := by
  have sha : ∀ x ∈ IA.endpoints a, x.shape = a.shape := by
    intro x hx
    cases a with
    | arr a => rw [List.mem_singleton.1 hx]; rfl
    | ivl a0 a1 =>
      rcases List.mem_pair.1 hx with rfl | rfl
      · rfl
      · exact (WF_ivl.1 ha).symm
  have shb : ∀ x ∈ IA.endpoints b, x.shape = b.shape := by
    intro x hx
    cases b with
    | arr a => rw [List.mem_singleton.1 hx]; rfl
    | ivl a0 a1 =>
      rcases List.mem_pair.1 hx with rfl | rfl
      · rfl
      · exact (WF_ivl.1 hb).symm
  have prod : ∀ x y : ND F, x.shape = a.shape → y.shape = b.shape → ∃ s,
      ND.map2 (· * ·) x y = .ok s ∧ s.shape = R ∧
      ∀ L, R.length ≤ L.length → s.bget L = x.bget L * y.bget L := by
    intro x y hx hy
    have hle := bshape_le hR
    obtain ⟨s, hs, -⟩ := ND.map2_lub (a := x) (b := y) (· * ·) (hx ▸ hle.1) (hy ▸ hle.2)
    have e := ND.map2_ok hs
    rw [hx, hy, hR] at e
    have e1 : s.shape = R := by simpa using e.1.symm
    exact ⟨s, hs, e1, fun L hL => e.2 L (e1 ▸ hL)⟩
  by_cases hab : a.isArr = true ∧ b.isArr = true
  · obtain ⟨h1, h2⟩ := hab
    cases a with
    | ivl => simp [isArr] at h1
    | arr a => cases b with
      | ivl => simp [isArr] at h2
      | arr b =>
        obtain ⟨s, e, hs, hg⟩ := prod a b rfl rfl
        refine ⟨.arr s, by simp only [IA.multiply, IA.arbitraryBilinear]; rw [e]; rfl, trivial, hs,
          fun L hL x hx y hy => ?_⟩
        rw [List.mem_singleton.1 hx, List.mem_singleton.1 hy]
        exact ⟨(hg L hL).le, (hg L hL).ge⟩
  · have hp : IA.multiply a b = IA.bilinearProduct a b (ND.map2 (· * ·)) := by
      cases a <;> cases b <;> first | rfl | exact absurd ⟨rfl, rfl⟩ hab
    set ps := (IA.endpoints a).flatMap fun x => (IA.endpoints b).map fun y => (x, y) with hps
    have mem_ps : ∀ p, p ∈ ps ↔ p.1 ∈ IA.endpoints a ∧ p.2 ∈ IA.endpoints b := by
      intro p
      simp only [hps, List.mem_flatMap, List.mem_map]
      constructor
      · rintro ⟨x, hx, y, hy, rfl⟩; exact ⟨hx, hy⟩
      · rintro ⟨h1, h2⟩; exact ⟨p.1, h1, p.2, h2, rfl⟩
    have run : ∀ l : List (ND F × ND F), (∀ p ∈ l, p ∈ ps) → ∃ qs : List (ND F),
        l.mapM (fun p => ND.map2 (· * ·) p.1 p.2) = .ok qs ∧ (∀ q ∈ qs, q.shape = R) ∧
        qs.length = l.length ∧
        ∀ p ∈ l, ∃ q ∈ qs, ∀ L, R.length ≤ L.length → q.bget L = p.1.bget L * p.2.bget L := by
      intro l
      induction l with
      | nil => intro _; exact ⟨[], rfl, by simp, rfl, by simp⟩
      | cons p l ih =>
        intro hl
        obtain ⟨qs, e, h1, h2, h3⟩ := ih fun q hq => hl q (List.mem_cons_of_mem _ hq)
        have hp := (mem_ps p).1 (hl p List.mem_cons_self)
        obtain ⟨s, es, hs, hg⟩ := prod p.1 p.2 (sha _ hp.1) (shb _ hp.2)
        refine ⟨s :: qs, by rw [List.mapM_cons, es, py_ok_bind, e]; rfl, ?_, by simp [h2], ?_⟩
        · intro q hq
          rcases List.mem_cons.1 hq with rfl | hq
          · exact hs
          · exact h1 q hq
        · intro q hq
          rcases List.mem_cons.1 hq with rfl | hq
          · exact ⟨s, List.mem_cons_self, hg⟩
          · obtain ⟨t, ht, hgt⟩ := h3 q hq
            exact ⟨t, List.mem_cons_of_mem _ ht, hgt⟩
    obtain ⟨qs, e, h1, h2, h3⟩ := run ps fun _ h => h
    have hlen : ps ≠ [] := by
      cases a <;> cases b <;> simp [hps, IA.endpoints]
    cases qs with
    | nil => exact absurd (List.length_eq_zero_iff.1 h2.symm) hlen
    | cons q qs =>
      obtain ⟨m, em, hm, gm⟩ := fold_spec (f := min) qs q (h1 q List.mem_cons_self)
        fun z hz => h1 z (List.mem_cons_of_mem _ hz)
      obtain ⟨M, eM, hM, gM⟩ := fold_spec (f := max) qs q (h1 q List.mem_cons_self)
        fun z hz => h1 z (List.mem_cons_of_mem _ hz)
      refine ⟨.ivl m M, ?_, hm.trans hM.symm, hm, fun L hL x hx y hy => ?_⟩
      · rw [hp]
        simp only [IA.bilinearProduct]
        rw [← hps, e, py_ok_bind]
        simp only [IA.reduce]
        rw [em, py_ok_bind, eM]; rfl
      · obtain ⟨t, ht, hgt⟩ := h3 (x, y) ((mem_ps _).2 ⟨hx, hy⟩)
        rw [← hgt L hL]
        simp only [lo_ivl, hi_ivl]
        rw [gm L hL, gM L hL]
        have k1 := foldl_min_le (qs.map (ND.bget · L)) (q.bget L)
        have k2 := le_foldl_max (qs.map (ND.bget · L)) (q.bget L)
        rcases List.mem_cons.1 ht with rfl | ht
        · exact ⟨k1.1, k2.1⟩
        · exact ⟨k1.2 _ (List.mem_map_of_mem ht), k2.2 _ (List.mem_map_of_mem ht)⟩

theorem lo_endpoint (a : Coef F) : a.lo ∈ IA.endpoints a := by cases a <;> simp [IA.endpoints]
theorem hi_endpoint (a : Coef F) : a.hi ∈ IA.endpoints a := by cases a <;> simp [IA.endpoints]

/-- One rounded multiplication, from its four corners. -/
theorem mul_between (A : RoundedArith F) {u v w x s t lo hi : F} (h1 : u ≤ s) (h2 : s ≤ v)
    (h3 : w ≤ t) (h4 : t ≤ x) (uw : lo ≤ u * w ∧ u * w ≤ hi) (ux : lo ≤ u * x ∧ u * x ≤ hi)
    (vw : lo ≤ v * w ∧ v * w ≤ hi) (vx : lo ≤ v * x ∧ v * x ≤ hi) :
    lo ≤ s * t ∧ s * t ≤ hi := by
  have col : ∀ c : F, lo ≤ c * w ∧ c * w ≤ hi → lo ≤ c * x ∧ c * x ≤ hi →
      lo ≤ c * t ∧ c * t ≤ hi := by
    intro c cw cx
    rcases le_total 0 c with hc | hc
    · exact ⟨cw.1.trans (A.mul_le_left h3 hc), (A.mul_le_left h4 hc).trans cx.2⟩
    · exact ⟨cx.1.trans (A.mul_ge_left h4 hc), (A.mul_ge_left h3 hc).trans cw.2⟩
  have ut := col u uw ux
  have vt := col v vw vx
  rcases le_total 0 t with ht | ht
  · exact ⟨ut.1.trans (A.mul_le_right h1 ht), (A.mul_le_right h2 ht).trans vt.2⟩
  · exact ⟨vt.1.trans (A.mul_ge_right h2 ht), (A.mul_ge_right h1 ht).trans ut.2⟩

/-- One rounded power, from the values computed for the endpoints. -/
theorem pow_between (A : RoundedArith F) {k : ℤ} (hk : 0 < k) {u v x : F} (h1 : u ≤ x)
    (h2 : x ≤ v) : min (min (u ^ k) (v ^ k)) (IA.zeroedPow k u v) ≤ x ^ k ∧
      x ^ k ≤ max (u ^ k) (v ^ k) := by
  rcases Int.even_or_odd k with he | ho
  · have nn : 0 ≤ x ^ k := by
      rw [← A.zero_pow hk]
      rcases le_total 0 x with hx | hx
      · exact A.pow_even hk he le_rfl hx
      · exact A.pow_even_neg hk he le_rfl hx
    constructor
    · by_cases hc : u < 0 ∧ v > 0
      · refine (min_le_right _ _).trans ?_
        unfold IA.zeroedPow
        rw [if_pos hc, A.one_sub_one, A.zero_mul]
        exact nn
      · refine (min_le_left _ _).trans ?_
        rw [not_and_or] at hc; push Not at hc
        rcases hc with hc | hc
        · exact (min_le_left _ _).trans (A.pow_even hk he hc h1)
        · exact (min_le_right _ _).trans (A.pow_even_neg hk he hc h2)
    · rcases le_total 0 x with hx | hx
      · exact (A.pow_even hk he hx h2).trans (le_max_right _ _)
      · exact (A.pow_even_neg hk he hx h1).trans (le_max_left _ _)
  · exact ⟨(min_le_left _ _).trans ((min_le_left _ _).trans (A.pow_odd hk ho h1)),
      (A.pow_odd hk ho h2).trans (le_max_right _ _)⟩

end Rnd

/-! ### C72 -/

section
variable {F : Type} [Zero F] [One F] [Add F] [Sub F] [Neg F] [Mul F] [Pow F ℤ] [LinearOrder F]

/-- **C72 (add).** In rounded arithmetic: if `x ∈ A`, `y ∈ B` and `s` is the *rounded* sum numpy
computes for `x + y`, then `add(A, B)`, computed with the same rounded operations, contains `s`. -/
theorem C72_add (hF : RoundedArith F) {A B : Coef F} (hA : A.SameShape) (hB : B.SameShape)
    {x y s : ND F} (hx : A.Contains x) (hy : B.Contains y) (hs : ND.map2 (· + ·) x y = .ok s) :
    ∃ r, IA.add A B = .ok r ∧ r.Contains s := by
  have wA := Coef.sameShape_iff.1 hA
  have wB := Coef.sameShape_iff.1 hB
  obtain ⟨s1, s2⟩ := ND.map2_ok hs
  have hle := bshape_le s1
  rw [hx.1, hy.1] at hle s1
  obtain ⟨r, hr, r1, r2, r3⟩ := Rnd.add_spec wA wB hle.1 hle.2
  have e : s.shape = r.shape := Option.some.inj (s1.symm.trans r2)
  refine ⟨r, hr, Rnd.contains_of r1 e fun L hL => ?_⟩
  rw [s2 L (by rw [e]; exact hL.length.le)]
  have mx := hx.mem wA (e ▸ hle.1) hL
  have my := hy.mem wB (e ▸ hle.2) hL
  unfold Coef.Mem
  rw [(r3 L hL.length.le).1, (r3 L hL.length.le).2]
  exact ⟨hF.add_le mx.1 my.1, hF.add_le mx.2 my.2⟩

/-- **C72 (subtract).** -/
theorem C72_subtract (hF : RoundedArith F) {A B : Coef F} (hA : A.SameShape) (hB : B.SameShape)
    {x y s : ND F} (hx : A.Contains x) (hy : B.Contains y) (hs : ND.map2 (· - ·) x y = .ok s) :
    ∃ r, IA.subtract A B = .ok r ∧ r.Contains s := by
  have wA := Coef.sameShape_iff.1 hA
  have wB := Coef.sameShape_iff.1 hB
  obtain ⟨s1, s2⟩ := ND.map2_ok hs
  have hle := bshape_le s1
  rw [hx.1, hy.1] at hle s1
  obtain ⟨r, hr, r1, r2, r3⟩ := Rnd.sub_spec wA wB hle.1 hle.2
  have e : s.shape = r.shape := Option.some.inj (s1.symm.trans r2)
  refine ⟨r, hr, Rnd.contains_of r1 e fun L hL => ?_⟩
  rw [s2 L (by rw [e]; exact hL.length.le)]
  have mx := hx.mem wA (e ▸ hle.1) hL
  have my := hy.mem wB (e ▸ hle.2) hL
  unfold Coef.Mem
  rw [(r3 L hL.length.le).1, (r3 L hL.length.le).2]
  exact ⟨hF.sub_le mx.1 my.2, hF.sub_le mx.2 my.1⟩

/-- **C72 (negative).** -/
theorem C72_negative (hF : RoundedArith F) {A : Coef F} (hA : A.SameShape) {x : ND F}
    (hx : A.Contains x) : (IA.negative A).Contains (x.map (- ·)) := by
  cases A with
  | arr a =>
    refine ⟨hx.1, fun I hI => ?_⟩
    show -(x.get I) = -(a.get I)
    rw [show x.get I = a.get I from hx.2 I hI]
  | ivl a0 a1 =>
    have e : a0.shape = a1.shape := hA
    refine ⟨hx.1.trans e, fun I hI => ?_⟩
    have := hx.2 I (by show ValidIdx a0.shape I; rw [e]; exact hI)
    exact ⟨hF.neg_le this.2, hF.neg_le this.1⟩

/-- **C72 (multiply).** -/
theorem C72_multiply (hF : RoundedArith F) {A B : Coef F} (hA : A.SameShape) (hB : B.SameShape)
    {x y s : ND F} (hx : A.Contains x) (hy : B.Contains y) (hs : ND.map2 (· * ·) x y = .ok s) :
    ∃ r, IA.multiply A B = .ok r ∧ r.Contains s := by
  have wA := Coef.sameShape_iff.1 hA
  have wB := Coef.sameShape_iff.1 hB
  obtain ⟨s1, s2⟩ := ND.map2_ok hs
  have hle := bshape_le s1
  rw [hx.1, hy.1] at hle s1
  obtain ⟨r, hr, r1, r2, r3⟩ := Rnd.mul_spec wA wB s1
  have e : s.shape = r.shape := r2.symm
  refine ⟨r, hr, Rnd.contains_of r1 e fun L hL => ?_⟩
  have hL' : s.shape.length ≤ L.length := by rw [e]; exact hL.length.le
  rw [s2 L hL']
  have mx := hx.mem wA (e ▸ hle.1) hL
  have my := hy.mem wB (e ▸ hle.2) hL
  have k := r3 L hL'
  exact Rnd.mul_between hF mx.1 mx.2 my.1 my.2
    (k _ (Rnd.lo_endpoint A) _ (Rnd.lo_endpoint B)) (k _ (Rnd.lo_endpoint A) _ (Rnd.hi_endpoint B))
    (k _ (Rnd.hi_endpoint A) _ (Rnd.lo_endpoint B)) (k _ (Rnd.hi_endpoint A) _ (Rnd.hi_endpoint B))

/-- **C72 (power).** For an integer exponent `k ≥ 0`, `x ** k` being a rounded power that is
monotone (for odd `k`) resp. decreasing and then increasing (for even `k`). -/
theorem C72_power (hF : RoundedArith F) {A : Coef F} (hA : A.SameShape) {k : ℤ} (hk : 0 ≤ k) :
    ∃ r, IA.power A k = .ok r ∧ ∀ x : ND F, A.Contains x → r.Contains (x.map (· ^ k)) := by
  cases A with
  | arr a =>
    refine ⟨_, rfl, fun x hx => ⟨hx.1, fun I hI => ?_⟩⟩
    show x.get I ^ k = a.get I ^ k
    rw [show x.get I = a.get I from hx.2 I hI]
  | ivl a0 a1 =>
    have hs : a0.shape = a1.shape := hA
    have wA : (Coef.ivl a0 a1).WF := hA
    have h1 : ¬ (k < 0) := by omega
    by_cases h2 : k = 0
    · refine ⟨.arr a0.onesLike, by simp only [IA.power]; rw [if_neg h1, if_pos h2],
        fun x hx => ⟨hx.1, fun I hI => ?_⟩⟩
      show x.get I ^ k = 1
      rw [h2, hF.pow_zero]
    · obtain ⟨z, ez, hz, gz⟩ := Rnd.min_spec (IA.zeroedPow k) (rfl : a0.shape = _) hs.symm
      obtain ⟨M, eM, hM, gM⟩ := Rnd.min_spec (R := a0.shape) (x := a0.map (· ^ k))
        (y := a1.map (· ^ k)) max rfl hs.symm
      obtain ⟨m, em, hm, gm⟩ := Rnd.fold_spec (f := min) (R := a0.shape) [a1.map (· ^ k), z]
        (a0.map (· ^ k)) rfl (by
          intro y hy
          rcases List.mem_pair.1 hy with rfl | rfl
          · exact hs.symm
          · exact hz)
      refine ⟨.ivl m M, ?_, fun x hx => Rnd.contains_of (r := .ivl m M) (hm.trans hM.symm) (hx.1.trans hm.symm)
        fun L hL => ?_⟩
      · simp only [IA.power]
        rw [if_neg h1, if_neg h2, ez, py_ok_bind]
        simp only [IA.reduce]
        rw [em, py_ok_bind, eM]; rfl
      · have hL0 : ValidIdx a0.shape L := hm ▸ hL
        have mx := hx.mem wA (ble_refl _) hL0
        have := Rnd.pow_between hF (k := k) (by omega) mx.1 mx.2
        rw [ND.bget_map]
        unfold Coef.Mem
        simp only [lo_ivl, hi_ivl] at this ⊢
        rw [gm L hL0.length.le, gM L hL0.length.le]
        simp only [List.map_cons, List.map_nil, List.foldl_cons, List.foldl_nil]
        rw [gz L hL0.length.le]
        exact this

end

/-! ### The standard model of rounding satisfies the hypotheses -/

/-- **C72 (instance).** The representable numbers of a monotone rounding, with correctly rounded
operations, are a rounded arithmetic. -/
theorem C72_rounding {K : Type} [Field K] [LinearOrder K] [IsStrictOrderedRing K] {rd : K → K}
    (h : IsRounding rd) : RoundedArith (Rounded h) where
  add_le h1 h2 := h.mono (add_le_add h1 h2)
  sub_le h1 h2 := h.mono (sub_le_sub h1 h2)
  neg_le h1 := h.mono (neg_le_neg h1)
  mul_le_right h1 h2 := h.mono (mul_le_mul_of_nonneg_right h1 h2)
  mul_ge_right h1 h2 := h.mono (mul_le_mul_of_nonpos_right h1 h2)
  mul_le_left h1 h2 := h.mono (mul_le_mul_of_nonneg_left h1 h2)
  mul_ge_left h1 h2 := h.mono (mul_le_mul_of_nonpos_left h1 h2)
  pow_odd {a b k} hk ho h1 := by
    obtain ⟨n, rfl⟩ := Int.eq_ofNat_of_zero_le hk.le
    refine h.mono ?_
    simp only [zpow_natCast]
    exact ((Int.odd_coe_nat n).1 ho).strictMono_pow.monotone h1
  pow_even {a b k} hk he h0 h1 := by
    obtain ⟨n, rfl⟩ := Int.eq_ofNat_of_zero_le hk.le
    refine h.mono ?_
    simp only [zpow_natCast]
    exact pow_le_pow_left₀ h0 h1 n
  pow_even_neg {a b k} hk he h0 h1 := by
    obtain ⟨n, rfl⟩ := Int.eq_ofNat_of_zero_le hk.le
    have he' := (Int.even_coe_nat n).1 he
    refine h.mono ?_
    have h0' : b.1 ≤ 0 := h0
    have h1' : a.1 ≤ b.1 := h1
    simp only [zpow_natCast]
    rw [← he'.neg_pow b.1, ← he'.neg_pow a.1]
    exact pow_le_pow_left₀ (by linarith) (by linarith) n
  zero_pow {k} hk := Subtype.ext (by
    show rd ((0 : K) ^ k) = 0
    rw [zero_zpow _ hk.ne', h.zero])
  pow_zero a := Subtype.ext (by show rd (a.1 ^ (0 : ℤ)) = 1; rw [zpow_zero, h.one])
  zero_mul a := Subtype.ext (by show rd (0 * a.1) = 0; rw [zero_mul, h.zero])
  one_mul a := Subtype.ext (by show rd (1 * a.1) = a.1; rw [one_mul, a.2])
  one_sub_zero := Subtype.ext (by show rd ((1 : K) - 0) = 1; rw [sub_zero, h.one])
  one_sub_one := Subtype.ext (by show rd ((1 : K) - 1) = 0; rw [sub_self, h.zero])

/-- A small floating point format: steps of 1/4 below 4 in absolute value, steps of 2 above;
rounding downwards. -/
def rd4 (x : ℚ) : ℚ := if -4 < x ∧ x < 4 then (⌊4 * x⌋ : ℚ) / 4 else 2 * (⌊x / 2⌋ : ℚ)

theorem rd4_rounding : IsRounding rd4 where
  mono := by
    intro x y hxy
    have f4 : ∀ z : ℚ, (⌊4 * z⌋ : ℚ) / 4 ≤ z := fun z => by
      have := Int.floor_le (4 * z); linarith
    have f2 : ∀ z : ℚ, 2 * (⌊z / 2⌋ : ℚ) ≤ z := fun z => by
      have := Int.floor_le (z / 2); linarith
    unfold rd4
    by_cases hx : -4 < x ∧ x < 4 <;> by_cases hy : -4 < y ∧ y < 4
    · rw [if_pos hx, if_pos hy]
      have : ⌊4 * x⌋ ≤ ⌊4 * y⌋ := Int.floor_le_floor (by linarith)
      have : (⌊4 * x⌋ : ℚ) ≤ ⌊4 * y⌋ := by exact_mod_cast this
      linarith
    · rw [if_pos hx, if_neg hy]
      have hy4 : 4 ≤ y := by
        by_contra hc
        exact hy ⟨by linarith [hx.1], by linarith⟩
      have : (2 : ℤ) ≤ ⌊y / 2⌋ := Int.le_floor.2 (by push_cast; linarith)
      have : (2 : ℚ) ≤ ⌊y / 2⌋ := by exact_mod_cast this
      linarith [f4 x, hx.2]
    · rw [if_neg hx, if_pos hy]
      have hx4 : x ≤ -4 := by
        by_contra hc
        exact hx ⟨by linarith, by linarith [hy.2]⟩
      have : (-16 : ℤ) ≤ ⌊4 * y⌋ := Int.le_floor.2 (by push_cast; linarith [hy.1])
      have : (-16 : ℚ) ≤ ⌊4 * y⌋ := by exact_mod_cast this
      linarith [f2 x]
    · rw [if_neg hx, if_neg hy]
      have : ⌊x / 2⌋ ≤ ⌊y / 2⌋ := Int.floor_le_floor (by linarith)
      have : (⌊x / 2⌋ : ℚ) ≤ ⌊y / 2⌋ := by exact_mod_cast this
      linarith
  idem := by
    intro x
    have key : ∀ n : ℤ, rd4 (2 * (n : ℚ)) = 2 * n := by
      intro n
      unfold rd4
      have e1 : ⌊4 * (2 * (n : ℚ))⌋ = 8 * n := by
        rw [show 4 * (2 * (n : ℚ)) = ((8 * n : ℤ) : ℚ) by push_cast; ring, Int.floor_intCast]
      have e2 : ⌊2 * (n : ℚ) / 2⌋ = n := by
        rw [show 2 * (n : ℚ) / 2 = (n : ℚ) by ring, Int.floor_intCast]
      rw [e1, e2]; push_cast
      split_ifs <;> ring
    by_cases hx : -4 < x ∧ x < 4
    · have e : rd4 x = (⌊4 * x⌋ : ℚ) / 4 := by unfold rd4; rw [if_pos hx]
      rw [e]
      by_cases hy : -4 < (⌊4 * x⌋ : ℚ) / 4 ∧ (⌊4 * x⌋ : ℚ) / 4 < 4
      · unfold rd4
        rw [if_pos hy, show 4 * ((⌊4 * x⌋ : ℚ) / 4) = (⌊4 * x⌋ : ℚ) by ring, Int.floor_intCast]
      · have h1 : (⌊4 * x⌋ : ℚ) / 4 < 4 := by
          have := Int.floor_le (4 * x); linarith [hx.2]
        have h2 : (-16 : ℤ) ≤ ⌊4 * x⌋ := Int.le_floor.2 (by push_cast; linarith [hx.1])
        have h3 : (-16 : ℚ) ≤ ⌊4 * x⌋ := by exact_mod_cast h2
        have h4 : (⌊4 * x⌋ : ℚ) / 4 = 2 * ((-2 : ℤ) : ℚ) := by
          have : ¬ (-4 < (⌊4 * x⌋ : ℚ) / 4) := fun h => hy ⟨h, h1⟩
          push_cast; linarith
        rw [h4]; exact key (-2)
    · have e : rd4 x = 2 * (⌊x / 2⌋ : ℚ) := by unfold rd4; rw [if_neg hx]
      rw [e]; exact key _
  zero := by decide +kernel
  one := by decide +kernel

/-- The numbers of that format. -/
abbrev F4 : Type := Rounded rd4_rounding

/-- C72: the hypotheses are met by a rounded product with a genuine rounding error:
`5/4 * 5/4 = 25/16` is rounded to `3/2`. -/
example : RoundedArith F4 ∧ ∃ (A B : Coef F4) (x y s : ND F4), A.SameShape ∧ B.SameShape ∧
    A.Contains x ∧ B.Contains y ∧ ND.map2 (· * ·) x y = .ok s ∧ (s.get []).1 = 3 / 2 :=
  ⟨C72_rounding _, .ivl (ND.scalar (Rounded.round _ (-1))) (ND.scalar (Rounded.round _ 3)),
    .ivl (ND.scalar (Rounded.round _ 1)) (ND.scalar (Rounded.round _ 2)),
    ND.scalar (Rounded.round _ (5 / 4)), ND.scalar (Rounded.round _ (5 / 4)), _, rfl, rfl,
    ⟨rfl, fun _ _ => ⟨show rd4 (-1) ≤ rd4 (5 / 4) by decide +kernel, show rd4 (5 / 4) ≤ rd4 3 by decide +kernel⟩⟩,
    ⟨rfl, fun _ _ => ⟨show rd4 (1) ≤ rd4 (5 / 4) by decide +kernel, show rd4 (5 / 4) ≤ rd4 2 by decide +kernel⟩⟩, rfl, by decide +kernel⟩

/-- An exact number `v` lies in the set `c` has at index `I`, up to `err`. -/
def Coef.NearAt {K : Type} [Field K] [LinearOrder K] {rd : K → K} {h : IsRounding rd}
    (c : Coef (Rounded h)) (I : List ℕ) (v err : K) : Prop :=
  (c.lower.get I).1 - err ≤ v ∧ v ≤ (c.upper.get I).1 + err

/-- **C72 (roundoff).** "The intervals returned by methods in this class are only correct up to
floating point roundoff error" (interval_arithmetic.py:28-29), quantified: if a rounding errs by at
most `err v` on the number `v`, the exact sum, difference and product of members lie within one such
error of the interval computed with rounded operations. -/
theorem C72_roundoff {K : Type} [Field K] [LinearOrder K] [IsStrictOrderedRing K] {rd : K → K}
    (h : IsRounding rd) {err : K → K} (herr : ∀ v, |rd v - v| ≤ err v)
    {A B : Coef (Rounded h)} (hA : A.SameShape) (hB : B.SameShape) {x y : ND (Rounded h)}
    (hx : A.Contains x) (hy : B.Contains y) {R : List ℕ} (hR : bshape x.shape y.shape = some R) :
    ∃ ra rs rm, IA.add A B = .ok ra ∧ IA.subtract A B = .ok rs ∧ IA.multiply A B = .ok rm ∧
      ra.shape = R ∧ rs.shape = R ∧ rm.shape = R ∧
      ∀ I, ValidIdx R I →
        ra.NearAt I ((x.bget I).1 + (y.bget I).1) (err ((x.bget I).1 + (y.bget I).1)) ∧
        rs.NearAt I ((x.bget I).1 - (y.bget I).1) (err ((x.bget I).1 - (y.bget I).1)) ∧
        rm.NearAt I ((x.bget I).1 * (y.bget I).1) (err ((x.bget I).1 * (y.bget I).1)) := by
  have near : ∀ (op : Rounded h → Rounded h → Rounded h) (ex : K → K → K),
      (∀ a b, op a b = Rounded.round h (ex a.1 b.1)) → ∀ (r : Coef (Rounded h)),
      (∀ s, ND.map2 op x y = .ok s → r.Contains s) →
      r.shape = R ∧ ∀ I, ValidIdx R I →
        r.NearAt I (ex (x.bget I).1 (y.bget I).1) (err (ex (x.bget I).1 (y.bget I).1)) := by
    intro op ex hop r hr
    have hle := bshape_le hR
    obtain ⟨s, hs, -⟩ := ND.map2_lub op hle.1 hle.2
    have e := ND.map2_ok hs
    have eR : s.shape = R := by have := e.1; rw [hR] at this; simpa using this.symm
    have hc := hr s hs
    have eR' : r.shape = R := hc.1.symm.trans eR
    refine ⟨eR', fun I hI => ?_⟩
    have k := hc.2 I (eR' ▸ hI)
    rw [← ND.bget_valid s (by rw [eR]; exact hI), e.2 I (by rw [eR]; exact hI.length.le), hop] at k
    have k1 := herr (ex (x.bget I).1 (y.bget I).1)
    rw [abs_le] at k1
    have bounds : (r.lower.get I).1 ≤ rd (ex (x.bget I).1 (y.bget I).1) ∧
        rd (ex (x.bget I).1 (y.bget I).1) ≤ (r.upper.get I).1 := by
      cases r with
      | arr a => exact ⟨(congrArg Subtype.val k).ge, (congrArg Subtype.val k).le⟩
      | ivl lo hi => exact ⟨k.1, k.2⟩
    exact ⟨by linarith [bounds.1], by linarith [bounds.2]⟩
  have hle := bshape_le hR
  have ex : ∀ op : Rounded h → Rounded h → Rounded h, ∃ s, ND.map2 op x y = .ok s := fun op => by
    obtain ⟨s, hs, -⟩ := ND.map2_lub op hle.1 hle.2
    exact ⟨s, hs⟩
  obtain ⟨s1, e1⟩ := ex (· + ·)
  obtain ⟨s2, e2⟩ := ex (· - ·)
  obtain ⟨s3, e3⟩ := ex (· * ·)
  obtain ⟨ra, ha, ca⟩ := C72_add (C72_rounding h) hA hB hx hy e1
  obtain ⟨rs, hs, cs⟩ := C72_subtract (C72_rounding h) hA hB hx hy e2
  obtain ⟨rm, hm, cm⟩ := C72_multiply (C72_rounding h) hA hB hx hy e3
  have na := near (· + ·) (· + ·) (fun _ _ => rfl) ra fun s hs => by
    have := e1.symm.trans hs; cases this; exact ca
  have ns := near (· - ·) (· - ·) (fun _ _ => rfl) rs fun s hs => by
    have := e2.symm.trans hs; cases this; exact cs
  have nm := near (· * ·) (· * ·) (fun _ _ => rfl) rm fun s hs => by
    have := e3.symm.trans hs; cases this; exact cm
  exact ⟨ra, rs, rm, ha, hs, hm, na.1, ns.1, nm.1, fun I hI =>
    ⟨na.2 I hI, ns.2 I hI, nm.2 I hI⟩⟩

/-- C72: for the format above the rounding error is at most `1/2 |v| + 1/4`. -/
example (v : ℚ) : |rd4 v - v| ≤ 1 / 2 * |v| + 1 / 4 := by
  unfold rd4
  split_ifs with hv
  · have h1 := Int.floor_le (4 * v)
    have h2 := Int.lt_floor_add_one (4 * v)
    rw [abs_le]
    constructor <;> linarith [abs_nonneg v]
  · have h1 := Int.floor_le (v / 2)
    have h2 := Int.lt_floor_add_one (v / 2)
    have h4 : 4 ≤ |v| := by
      by_contra hc
      push Not at hc
      exact hv (abs_lt.1 hc)
    rw [abs_le]
    constructor <;> linarith

/-! ### What does not survive rounding -/

/-- A dot product summed from left to right. -/
def dotSum {F : Type} [Zero F] [Add F] [Mul F] (a b : ND F) : Py (ND F) :=
  .ok (ND.scalar (((List.range 3).map fun i => a.get [i] * b.get [i]).foldl (· + ·) 0))

/-- **C72 (counterexample).** The general bilinear rule (`assume_product=False`, used by `tensordot`
and by the `dot_general` and convolution enclosures) does not have the property: it splits the
arguments into positive and negative parts and sums those separately, so its endpoints are rounded
differently from the result.  In a format with monotone rounding, `A = [4, -4, 1/2]` and the
interval `B = ([1,1,1], [1,1,1])`, the computed enclosure of the dot product is `(0, 0)`, while the
dot product itself, computed in the same arithmetic, is `1/2`. -/
theorem C72_dot_counterexample : ∃ (A B : Coef F4) (x y s r0 r1 : ND F4), RoundedArith F4 ∧
    A.SameShape ∧ B.SameShape ∧ A.Contains x ∧ B.Contains y ∧ dotSum x y = .ok s ∧
    IA.arbitraryBilinear A B dotSum false = .ok (.ivl r0 r1) ∧
    (s.get []).1 = 1 / 2 ∧ (r0.get []).1 = 0 ∧ (r1.get []).1 = 0 ∧
    ¬ (Coef.ivl r0 r1).Contains s := by
  let a : ND F4 := ⟨[3], fun I => match I with
    | [0] => Rounded.round _ 4 | [1] => Rounded.round _ (-4) | _ => Rounded.round _ (1 / 2)⟩
  let b : ND F4 := ⟨[3], fun _ => Rounded.round _ 1⟩
  refine ⟨.arr a, .ivl b b, a, b, _, _, _, C72_rounding _, trivial, rfl, ⟨rfl, fun _ _ => rfl⟩,
    ⟨rfl, fun _ _ => ⟨le_rfl, le_rfl⟩⟩, rfl, rfl, ?_, ?_, ?_, ?_⟩
  · decide +kernel
  · decide +kernel
  · decide +kernel
  · intro hc
    have := (hc.2 [] List.Forall₂.nil).2
    revert this
    decide +kernel

end AB
