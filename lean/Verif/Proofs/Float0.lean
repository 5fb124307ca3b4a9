/-
Proof of C84: at degree 0 every intermediate enclosure contains the computed value.
-/
import Verif.Spec.Float0
import Verif.Proofs.FloatRef3
import Verif.Props.Rounding

set_option linter.unusedSectionVars false

namespace AB
variable {F : Type} [Zero F] [One F] [Add F] [Sub F] [Mul F] [Pow F ℤ] [Neg F] [Div F] [NatCast F] [LinearOrder F]
open ND (scalar)

/-- a well-formed coefficient that contains an array -/
def Coef.Holds (c : Coef F) (y : ND F) : Prop := c.WF ∧ c.Contains y

namespace Coef

theorem Holds.congr {c : Coef F} {y y' : ND F} (h : c.Holds y) (hs : y.Same y') : c.Holds y' := by
  refine ⟨h.1, hs.1.symm.trans h.2.1, fun I hI => ?_⟩
  rw [← hs.2 I (h.2.1 ▸ hI)]
  exact h.2.2 I hI

theorem holds_arr {a y : ND F} (h : a.Same y) : (Coef.arr a).Holds y :=
  ⟨trivial, h.1.symm, fun I hI => (h.2 I hI).symm⟩

theorem holds_arr_iff {a y : ND F} : (Coef.arr a).Holds y ↔ a.Same y :=
  ⟨fun h => ⟨h.2.1.symm, fun I hI => (h.2.2 I hI).symm⟩, holds_arr⟩

end Coef

theorem map2_scalar_ok (f : F → F → F) (z : F) (y : ND F) : ∃ s, ND.map2 f (scalar z) y = .ok s := by
  unfold ND.map2
  rw [ND.shape_scalar, bshape_nil_left]
  exact ⟨_, rfl⟩

namespace Rnd
variable (hR : RoundedArith F) (hF : UnitLaws F)

include hR in
theorem add_holds {A B r : Coef F} {x y s : ND F} (hA : A.Holds x) (hB : B.Holds y)
    (hs : ND.map2 (· + ·) x y = .ok s) (h : IA.add A B = .ok r) : r.Holds s := by
  obtain ⟨r', h1, h2⟩ := C72_add hR (Coef.sameShape_iff.2 hA.1) (Coef.sameShape_iff.2 hB.1) hA.2 hB.2 hs
  rw [h] at h1
  cases h1
  refine ⟨?_, h2⟩
  have hle := bshape_le (ND.map2_ok hs).1
  rw [hA.2.1, hB.2.1] at hle
  obtain ⟨r', k1, k2, -⟩ := Rnd.add_spec hA.1 hB.1 hle.1 hle.2
  rw [h] at k1
  cases k1
  exact k2

include hR in
theorem mul_holds {A B r : Coef F} {x y s : ND F} (hA : A.Holds x) (hB : B.Holds y)
    (hs : ND.map2 (· * ·) x y = .ok s) (h : IA.multiply A B = .ok r) : r.Holds s := by
  obtain ⟨r', h1, h2⟩ := C72_multiply hR (Coef.sameShape_iff.2 hA.1) (Coef.sameShape_iff.2 hB.1) hA.2 hB.2 hs
  rw [h] at h1
  cases h1
  refine ⟨?_, h2⟩
  have hb := (ND.map2_ok hs).1
  rw [hA.2.1, hB.2.1] at hb
  obtain ⟨r', k1, k2, -⟩ := Rnd.mul_spec hA.1 hB.1 hb
  rw [h] at k1
  cases k1
  exact k2

include hR in
theorem neg_holds {A : Coef F} {x : ND F} (hA : A.Holds x) : (IA.negative A).Holds (x.map (- ·)) := by
  refine ⟨?_, C72_negative hR (Coef.sameShape_iff.2 hA.1) hA.2⟩
  cases A with
  | arr a => trivial
  | ivl a b => exact hA.1.symm

include hR in
theorem power_holds {A r : Coef F} {x : ND F} (hA : A.Holds x) {k : ℤ} (hk : 0 < k) (h : IA.power A k = .ok r) :
    r.Holds (x.map (· ^ k)) := by
  obtain ⟨r', h1, h2⟩ := C72_power hR (Coef.sameShape_iff.2 hA.1) hk.le
  rw [h] at h1
  cases h1
  refine ⟨?_, h2 x hA.2⟩
  cases A with
  | arr a => cases h; trivial
  | ivl a0 a1 =>
    have hs : a0.shape = a1.shape := hA.1
    simp only [IA.power] at h
    rw [if_neg (by omega), if_neg (by omega)] at h
    simp only [py_bind_ok, py_pure, IA.reduce, List.foldlM_cons, List.foldlM_nil] at h
    obtain ⟨z, hz, m, ⟨u, hu, v, hv, rfl⟩, w, hw, rfl⟩ := h
    rw [ND.map2_same _ hs] at hz
    cases hz
    rw [ND.map2_same _ (show (a0.map (· ^ k)).shape = (a1.map (· ^ k)).shape from hs)] at hu hw
    cases hu
    cases hw
    have hv := (ND.map2_ok hv).1
    replace hv : bshape a0.shape a0.shape = some v.shape := hv
    rw [bshape_self] at hv
    exact (Option.some.inj hv).symm

include hR hF in
theorem zero_add_holds {c r : Coef F} {y : ND F} (hc : c.Holds y) (h : IA.add (.arr (scalar 0)) c = .ok r) : r.Holds y := by
  obtain ⟨s, hs⟩ := map2_scalar_ok (· + ·) (0 : F) y
  exact (add_holds hR (Coef.holds_arr (ND.Same.rfl_ _)) hc hs h).congr (ND.map2_scalar_left hF.zero_add hs)

include hR hF in
theorem one_mul_holds {c r : Coef F} {y : ND F} (hc : c.Holds y) (h : IA.multiply (.arr (scalar 1)) c = .ok r) :
    r.Holds y := by
  obtain ⟨s, hs⟩ := map2_scalar_ok (· * ·) (1 : F) y
  exact (mul_holds hR (Coef.holds_arr (ND.Same.rfl_ _)) hc hs h).congr (ND.map2_scalar_left hF.one_mul hs)

/-- an operation that multiplies element by element -/
theorem product_holds {A B r : Coef F} {x y s : ND F} {op : ND F → ND F → Py (ND F)} {S : List ℕ}
    (hR : RoundedArith F) (hop : ∀ a b c, a.shape = S → b.shape = S → op a b = .ok c → c.shape = S ∧
      ∀ I, ValidIdx S I → c.get I = a.get I * b.get I) (hA : A.Holds x) (hB : B.Holds y) (hAS : A.shape = S)
    (hBS : B.shape = S) (hs : s.shape = S ∧ ∀ I, ValidIdx S I → s.get I = x.get I * y.get I)
    (hAB : A.isArr = B.isArr) (h : IA.arbitraryBilinear A B op true = .ok r) : r.Holds s ∧ r.isArr = A.isArr := by
  have hmm : ∀ {f : F → F → F} {a b c : ND F}, a.shape = S → b.shape = S → ND.map2 f a b = .ok c →
      c.shape = S ∧ ∀ I, ValidIdx S I → c.get I = f (a.get I) (b.get I) := by
    intro f a b c ha hb hc
    rw [ND.map2_same _ (ha.trans hb.symm)] at hc
    cases hc
    refine ⟨ha, fun I hI => ?_⟩
    show f _ _ = _
    rw [ND.bget_valid _ (ha ▸ hI), ND.bget_valid _ (hb ▸ hI)]
  cases A with
  | arr a =>
    cases B with
    | ivl => cases hAB
    | arr b =>
      obtain ⟨c, rfl, hc⟩ := IA.bilinear_arr_ok h
      obtain ⟨h1, h2⟩ := hop _ _ _ hAS hBS hc
      have ha := Coef.holds_arr_iff.1 hA
      have hb := Coef.holds_arr_iff.1 hB
      refine ⟨Coef.holds_arr ⟨h1.trans hs.1.symm, fun I hI => ?_⟩, rfl⟩
      have hI' : ValidIdx S I := h1 ▸ hI
      rw [h2 I hI', hs.2 I hI', ha.2 I ((show a.shape = S from hAS) ▸ hI'), hb.2 I ((show b.shape = S from hBS) ▸ hI')]
  | ivl a0 a1 =>
    cases B with
    | arr => cases hAB
    | ivl b0 b1 =>
      have ea0 : a0.shape = S := hAS
      have ea1 : a1.shape = S := (show a0.shape = a1.shape from hA.1).symm.trans ea0
      have eb0 : b0.shape = S := hBS
      have eb1 : b1.shape = S := (show b0.shape = b1.shape from hB.1).symm.trans eb0
      simp only [IA.arbitraryBilinear, if_true, IA.bilinearProduct, IA.endpoints, List.flatMap_cons, List.flatMap_nil,
        List.map_cons, List.map_nil, List.append_nil, List.cons_append, List.nil_append, List.mapM_cons, List.mapM_nil,
        py_bind_ok, py_pure] at h
      obtain ⟨ps, ⟨p, hp, _, ⟨q, hq, _, ⟨t, ht, _, ⟨v, hv, _, rfl, rfl⟩, rfl⟩, rfl⟩, rfl⟩, lo, hlo, hi, hhi, rfl⟩ := h
      simp only [IA.reduce, List.foldlM_cons, List.foldlM_nil, py_bind_ok, py_pure] at hlo hhi
      obtain ⟨l1, hl1, l2, hl2, l3, hl3, rfl⟩ := hlo
      obtain ⟨u1, hu1, u2, hu2, u3, hu3, rfl⟩ := hhi
      obtain ⟨p1, p2⟩ := hop _ _ _ ea0 eb0 hp
      obtain ⟨q1, q2⟩ := hop _ _ _ ea0 eb1 hq
      obtain ⟨t1, t2⟩ := hop _ _ _ ea1 eb0 ht
      obtain ⟨v1, v2⟩ := hop _ _ _ ea1 eb1 hv
      obtain ⟨l11, l12⟩ := hmm p1 q1 hl1
      obtain ⟨l21, l22⟩ := hmm l11 t1 hl2
      obtain ⟨l31, l32⟩ := hmm l21 v1 hl3
      obtain ⟨u11, u12⟩ := hmm p1 q1 hu1
      obtain ⟨u21, u22⟩ := hmm u11 t1 hu2
      obtain ⟨u31, u32⟩ := hmm u21 v1 hu3
      refine ⟨⟨l31.trans u31.symm, hs.1.trans l31.symm, fun I hI => ?_⟩, rfl⟩
      have hI' : ValidIdx S I := (show l3.shape = S from l31) ▸ hI
      have mx := hA.2.2 I (hAS ▸ hI')
      have my := hB.2.2 I (hBS ▸ hI')
      have el : l3.get I = min (min (min (a0.get I * b0.get I) (a0.get I * b1.get I)) (a1.get I * b0.get I))
          (a1.get I * b1.get I) := by
        rw [l32 I hI', l22 I hI', l12 I hI', p2 I hI', q2 I hI', t2 I hI', v2 I hI']
      have eu : u3.get I = max (max (max (a0.get I * b0.get I) (a0.get I * b1.get I)) (a1.get I * b0.get I))
          (a1.get I * b1.get I) := by
        rw [u32 I hI', u22 I hI', u12 I hI', p2 I hI', q2 I hI', t2 I hI', v2 I hI']
      show l3.get I ≤ s.get I ∧ s.get I ≤ u3.get I
      rw [hs.2 I hI']
      refine Rnd.mul_between hR mx.1 mx.2 my.1 my.2 ?_ ?_ ?_ ?_ <;> rw [el, eu] <;> constructor <;>
        simp only [min_le_iff, le_max_iff, le_refl, true_or, or_true]

end Rnd

namespace TEA
variable (hR : RoundedArith F) (hF : UnitLaws F) {T : TEA F}

/-- the only coefficient of an enclosure contains `y` -/
def Holds0 (y : ND F) (e : Encl F) : Prop := ∃ c, e = [c] ∧ c.Holds y

theorem truncate0 {c : Coef F} {r : Encl F} (h : T.truncateIfNecessary [c] = .ok r) : r = [c] := by
  unfold truncateIfNecessary encloseEnclosure at h
  rw [if_pos (by simp)] at h
  cases h; rfl

theorem add0 {a b : Coef F} {r : Encl F} (h : T.add [a] [b] = .ok r) : ∃ c, r = [c] ∧ IA.add a b = .ok c := by
  unfold add at h
  simp only [py_bind_ok] at h
  obtain ⟨e, he, h⟩ := h
  unfold addCoeffs addCoeffs at he
  simp only [py_bind_ok, py_pure] at he
  obtain ⟨x, hx, y, hy, rfl⟩ := he
  cases hy
  exact ⟨x, truncate0 h, hx⟩

include hR in
theorem holds_add {a b r : Encl F} {y1 y2 y : ND F} (ha : Holds0 y1 a) (hb : Holds0 y2 b)
    (hy : ND.map2 (· + ·) y1 y2 = .ok y) (h : T.add a b = .ok r) : Holds0 y r := by
  obtain ⟨a, rfl, ha⟩ := ha
  obtain ⟨b, rfl, hb⟩ := hb
  obtain ⟨c, rfl, hc⟩ := add0 h
  exact ⟨c, rfl, Rnd.add_holds hR ha hb hy hc⟩

include hR in
theorem holds_negative {a r : Encl F} {y : ND F} (ha : Holds0 y a) (h : T.negative a = .ok r) :
    Holds0 (y.map (- ·)) r := by
  obtain ⟨a, rfl, ha⟩ := ha
  unfold negative at h
  have := truncate0 h
  exact ⟨_, this, Rnd.neg_holds hR ha⟩

include hR hF in
theorem holds_subtract {a b r : Encl F} {y1 y2 y : ND F} (ha : Holds0 y1 a) (hb : Holds0 y2 b)
    (hy : ND.map2 (· - ·) y1 y2 = .ok y) (h : T.subtract a b = .ok r) : Holds0 y r := by
  unfold subtract at h
  simp only [py_bind_ok] at h
  obtain ⟨e, he, h⟩ := h
  refine holds_add hR ha (holds_negative hR hb he) ?_ h
  unfold ND.map2 at hy ⊢
  rw [ND.shape_map]
  cases hR : bshape y1.shape y2.shape with
  | none => rw [hR] at hy; cases hy
  | some R =>
    rw [hR] at hy
    cases hy
    refine congrArg Except.ok ?_
    rw [ND.mk.injEq]
    exact ⟨rfl, funext fun I => (hF.sub_eq _ _).symm⟩

theorem tpc0 (n : ℕ) (a b : Coef F) : elementwiseTermProductCoefficient n a b 0 0 = IA.multiply a b := by
  unfold elementwiseTermProductCoefficient IA.multiply pairwiseBatchedMultiply
  simp only [Nat.zero_mul, ND.expandDims_zero]

include hR hF in
theorem holds_multiply {a b r : Encl F} {y1 y2 y : ND F} (ha : Holds0 y1 a) (hb : Holds0 y2 b)
    (hy : ND.map2 (· * ·) y1 y2 = .ok y) (h : T.multiply a b = .ok r) : Holds0 y r := by
  obtain ⟨a, rfl, ha⟩ := ha
  obtain ⟨b, rfl, hb⟩ := hb
  unfold multiply at h
  simp only [py_bind_ok] at h
  obtain ⟨-, -, -, -, p, hp, h⟩ := h
  replace hp : [((0, a), (0, b))].foldlM (Poly.bilinearStep IA.add (elementwiseTermProductCoefficient T.xNdim))
    [Coef.arr (scalar 0)] = .ok p := hp
  simp only [List.foldlM_cons, List.foldlM_nil, py_bind_ok, py_pure] at hp
  obtain ⟨p, hp, rfl⟩ := hp
  simp only [Poly.bilinearStep, py_bind_ok, Nat.add_zero, List.getElem?_cons_zero, py_pure, List.set_cons_zero] at hp
  obtain ⟨c, hc, o, ho, rfl⟩ := hp
  rw [tpc0] at hc
  exact ⟨o, truncate0 h, Rnd.zero_add_holds hR hF (Rnd.mul_holds hR ha hb hy hc) ho⟩

theorem running_holds (hR : RoundedArith F) {c : Coef F} {y : ND F} (hc : c.Holds y) (hd : 0 < c.ndim) (m : ℕ)
    {r : Coef F} (h : IA.runningOuterProduct c c.ndim m = .ok r) :
    r.Holds (y.map (timesSelf · (m + 1))) ∧ r.shape = c.shape ∧ r.isArr = c.isArr := by
  induction m generalizing r with
  | zero => cases h; exact ⟨hc, rfl, rfl⟩
  | succ m ih =>
    unfold IA.runningOuterProduct at h
    simp only [py_bind_ok] at h
    obtain ⟨x, hx, h⟩ := h
    obtain ⟨h1, h2, h3⟩ := ih hx
    unfold IA.outerProduct at h
    split_ifs at h
    have hn : c.ndim = c.shape.length := rfl
    have hop : ∀ a b w : ND F, a.shape = c.shape → b.shape = c.shape → IA.ndarrayOuterProduct c.ndim a b = .ok w →
        w.shape = c.shape ∧ ∀ I, ValidIdx c.shape I → w.get I = a.get I * b.get I := by
      intro a b w ha hb hw
      unfold IA.ndarrayOuterProduct at hw
      rw [if_neg (by omega)] at hw
      have hbn : b.ndim = c.ndim := congrArg List.length hb
      rw [← hbn] at hw
      obtain ⟨k1, k2⟩ := einsum_full (ha.trans hb.symm) (by omega) hw
      rw [hb] at k1 k2
      exact ⟨k1, k2⟩
    obtain ⟨k1, k2⟩ := Rnd.product_holds hR hop h1 hc h2 rfl (s := y.map (timesSelf · (m + 1 + 1)))
      ⟨hc.2.1, fun I _ => rfl⟩ h3 h
    exact ⟨k1, k1.2.1.symm.trans hc.2.1, k2.trans h3⟩

include hR in
theorem tpow_holds {n : ℕ} {c : Coef F} {y : ND F} (hc : c.Holds y) {p : ℕ} (hp : 0 < p) {r : Coef F}
    (h : elementwiseTermPowerCoefficient n c 0 p = .ok r) :
    r.Holds (y.map fun v => if y.shape = [] then v ^ (p : ℤ) else timesSelf v p) := by
  unfold elementwiseTermPowerCoefficient at h
  split_ifs at h
  unfold IA.outerPower at h
  rw [if_neg (by omega), if_neg (by omega)] at h
  by_cases h0 : c.ndim = 0
  · rw [if_pos h0] at h
    have : y.shape = [] := hc.2.1.trans (List.eq_nil_of_length_eq_zero h0)
    simp only [if_pos this]
    exact Rnd.power_holds hR hc (by omega) h
  · rw [if_neg h0] at h
    simp only [py_bind_ok] at h
    obtain ⟨rop, hrop, h⟩ := h
    rw [Nat.zero_mul, Nat.sub_zero] at hrop h
    rw [if_pos h0] at h
    cases h
    have : y.shape ≠ [] := fun h => h0 (by rw [Coef.ndim, ← hc.2.1, h]; rfl)
    simp only [if_neg this]
    have := (running_holds hR hc (Nat.pos_of_ne_zero h0) _ hrop).1
    rwa [show ((p : ℤ).toNat - 1 + 1) = p by omega] at this

include hR hF in
theorem holds_powerNat {p : ℕ} {a r : Encl F} {y : ND F} (hp : PowOk y p) (ha : Holds0 y a)
    (h : T.powerNat a p = .ok r) : Holds0 (y.map (· ^ (p : ℤ))) r := by
  obtain ⟨a, rfl, ha⟩ := ha
  unfold powerNat at h
  simp only [py_bind_ok] at h
  obtain ⟨-, -, e, he, h⟩ := h
  unfold Poly.integerPower at he
  rw [if_neg (by omega)] at he
  have hfs : (IA.firstEndpoint a).shape = y.shape := by
    rw [ha.2.1]; cases a <;> rfl
  by_cases h0 : (p : ℤ) = 0
  · rw [if_pos h0] at he
    cases he
    refine ⟨_, truncate0 h, Coef.holds_arr ⟨hfs, fun I hI => ?_⟩⟩
    show (1 : F) = y.get I ^ (p : ℤ)
    rw [h0, hF.pow_zero]
  rw [if_neg h0] at he
  have hN : (1 + ((([a] : Encl F).length : ℤ) - 1) * p).toNat = 1 := by simp
  rw [hN, Int.toNat_natCast] at he
  simp only [List.range_one, List.mapM_cons, List.mapM_nil, py_bind_ok, py_pure] at he
  obtain ⟨o, ho, _, rfl, rfl⟩ := he
  have he := truncate0 h
  subst he
  refine ⟨o, rfl, ?_⟩
  unfold Poly.getCoeff at ho
  have hps : Poly.iterPartitions ((0 : ℕ) : ℤ) (p : ℤ) ((([a] : Encl F).length : ℕ) : ℤ) = .ok [[p]] := by
    unfold Poly.iterPartitions
    rw [if_neg (by omega), if_neg (by omega), if_neg (by simp)]
    rw [Int.toNat_natCast, Int.toNat_natCast, Int.toNat_natCast, List.length_cons, partitions_zero]
    rfl
  rw [hps, py_ok_bind, List.foldlM_cons] at ho
  simp only [py_bind_ok] at ho
  obtain ⟨t, ht, ho⟩ := ho
  cases ho
  unfold Poly.coeffStep at ht
  split_ifs at ht with h1 h2
  simp only [py_bind_ok] at ht
  obtain ⟨rp, hrp, ht⟩ := ht
  split_ifs at ht with h3
  simp only [py_bind_ok] at ht
  obtain ⟨mc, hmc, term, hterm, ht⟩ := ht
  rw [show ([p] : List ℕ) = p :: List.replicate 0 0 from rfl, multinomial_zero] at hmc
  cases hmc
  replace hrp : [((0, a), p)].foldlM (Poly.productStep (elementwiseTermProductCoefficient T.xNdim)
    (elementwiseTermPowerCoefficient T.xNdim)) (.arr (IA.firstEndpoint a).onesLike, 0) = .ok rp := hrp
  simp only [List.foldlM_cons, List.foldlM_nil, Poly.productStep, py_bind_ok, py_pure, Nat.zero_mul] at hrp
  obtain ⟨_, ⟨w, hw, u, hu, rfl⟩, rfl⟩ := hrp
  rw [tpc0] at hu
  have hwh := tpow_holds hR ha (by omega) hw
  have hones : (IA.firstEndpoint a).onesLike.shape =
      (y.map fun v => if y.shape = [] then v ^ (p : ℤ) else timesSelf v p).shape := hfs
  have huh := Rnd.mul_holds hR (Coef.holds_arr (ND.Same.rfl_ _)) hwh (ND.map2_same _ hones) hu
  rw [hF.natCast_one] at hterm
  refine (Rnd.zero_add_holds hR hF (Rnd.one_mul_holds hR hF huh hterm) ht).congr ⟨hfs, fun I hI => ?_⟩
  have hI : ValidIdx y.shape I := hfs ▸ hI
  show 1 * _ = y.get I ^ (p : ℤ)
  rw [hF.one_mul, ND.bget_valid _ (show ValidIdx (y.map _).shape I from hI)]
  show (if y.shape = [] then y.get I ^ (p : ℤ) else timesSelf (y.get I) p) = y.get I ^ (p : ℤ)
  split_ifs with hsh
  · rfl
  · rcases hp with hp | hp | hp
    · obtain rfl | rfl : p = 1 ∨ p = 2 := by omega
      · exact (hF.pow_one _).symm
      · exact (hF.pow_two _).symm
    · exact absurd hp hsh
    · exact (hp _).symm

include hR hF in
theorem holds_compose {e arg r : Encl F} {y : ND F} (he : Holds0 y e) (h : T.composeEnclosures e arg = .ok r) :
    Holds0 y r := by
  obtain ⟨c, rfl, hc⟩ := he
  unfold composeEnclosures at h
  rw [if_neg (by simp)] at h
  replace h : [(0, c)].foldlM (T.composeStep (.arr (scalar 0) :: arg.drop 1)) [Coef.arr (scalar 0)] = .ok r := h
  simp only [List.foldlM_cons, List.foldlM_nil, py_bind_ok, py_pure] at h
  obtain ⟨r, h, rfl⟩ := h
  unfold composeStep composeTerm at h
  rw [if_pos rfl] at h
  simp only [py_pure_eq, py_ok_bind] at h
  obtain ⟨o, rfl, ho⟩ := add0 h
  exact ⟨o, rfl, Rnd.zero_add_holds hR hF hc ho⟩

/-- the trust region attached to an intermediate: none, or (constants) the value itself -/
def TrOk (e : Encl F) (tr : Option (Coef F)) : Prop := tr = none ∨ ∃ v, e = [.arr v] ∧ tr = some (.ivl v v)

include hR hF in
theorem holds_elementwise (hd : T.maxDegree = 0) {g : Generator F} {f : F → F} (hg : JB.GenHolds0 g f) {a r : Encl F}
    {tr : Option (Coef F)} {y : ND F} (ha : Holds0 y a) (htr : TrOk a tr) (h : T.elementwiseFun g a tr = .ok r) :
    Holds0 (y.map f) r := by
  obtain ⟨c, rfl, hc⟩ := ha
  unfold elementwiseFun at h
  simp only [py_bind_ok] at h
  obtain ⟨reg, hreg, x, hx, e, he, h⟩ := h
  have hreg : toInterval reg = toInterval c := by
    rcases htr with rfl | ⟨v, hv, rfl⟩
    · unfold argRegion encloseEnclosure at hreg
      rw [if_pos (by simp)] at hreg
      cases hreg
      rfl
    · cases hv
      cases hreg
      rfl
  rw [hd, hreg] at he
  have hcon : ∀ y, c.Contains y → (Coef.ivl (toInterval c).1 (toInterval c).2).Contains y := by
    intro y hy
    cases c with
    | arr a => exact ⟨hy.1, fun I hI => by rw [show y.get I = a.get I from hy.2 I hI]; exact ⟨le_rfl, le_rfl⟩⟩
    | ivl a b => exact hy
  have hsh : (toInterval c).1.shape = (toInterval c).2.shape := by
    cases c with
    | arr a => rfl
    | ivl a b => exact hc.1
  have hx0 : c.Contains x := by
    cases c with
    | arr a => cases hx; exact ⟨rfl, fun _ _ => rfl⟩
    | ivl a b =>
      unfold expansionPoint at hx
      simp only at hx
      rw [if_pos hd] at hx
      cases hx
      exact ⟨rfl, fun I hI => ⟨le_rfl, (hc.2.2 I hI).1.trans (hc.2.2 I hI).2⟩⟩
  obtain ⟨c', rfl, h1, h2⟩ := hg _ _ _ _ hsh (hcon _ hx0) he
  exact holds_compose hR hF ⟨c', rfl, Coef.sameShape_iff.1 h1, h2 _ (hcon _ hc.2)⟩ h

include hR hF in
theorem holds_powerOther (hd : T.maxDegree = 0) {g : Generator F} {f : F → F} (hg : JB.GenHolds0 g f) {a r : Encl F}
    {y : ND F} (ha : Holds0 y a) (h : T.powerOther g a = .ok r) : Holds0 (y.map f) r := by
  unfold powerOther at h
  simp only [py_bind_ok] at h
  obtain ⟨-, -, h⟩ := h
  exact holds_elementwise hR hF hd hg ha (Or.inl rfl) h

end TEA
end AB
