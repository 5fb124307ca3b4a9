/-
Proof of C83: the first coefficient of every intermediate enclosure is the value the program computes at `x0`, in any
arithmetic with `UnitLaws`.
-/
import Verif.Spec.FloatRef
import Verif.Proofs.Lax
import Verif.Proofs.PolyAlg
import Verif.Proofs.Interval

set_option linter.unusedSectionVars false

namespace AB
variable {F : Type} [Zero F] [One F] [Add F] [Sub F] [Mul F] [Pow F ℤ] [Neg F] [Div F] [NatCast F] [LinearOrder F]

namespace ND
theorem Same.rfl_ (a : ND F) : a.Same a := ⟨rfl, fun _ _ => rfl⟩
theorem Same.symm {a b : ND F} (h : a.Same b) : b.Same a := ⟨h.1.symm, fun I hI => (h.2 I (h.1 ▸ hI)).symm⟩
theorem Same.trans {a b c : ND F} (h : a.Same b) (h' : b.Same c) : a.Same c :=
  ⟨h.1.trans h'.1, fun I hI => (h.2 I hI).trans (h'.2 I (h.1 ▸ hI))⟩

theorem Same.bget {a b : ND F} (h : a.Same b) {R I : List ℕ} (hS : ble a.shape R) (hI : ValidIdx R I) :
    a.bget I = b.bget I := by
  rw [bget_def, bget_def, ← h.1, h.2 _ (validIdx_bidx hS hI)]

theorem Same.map {a b : ND F} (h : a.Same b) (f : F → F) : (a.map f).Same (b.map f) :=
  ⟨h.1, fun I hI => congrArg f (h.2 I hI)⟩

theorem Same.map2 {f : F → F → F} {a a' b b' r : ND F} (ha : a.Same a') (hb : b.Same b') (h : ND.map2 f a b = .ok r) :
    ∃ r', ND.map2 f a' b' = .ok r' ∧ r.Same r' := by
  unfold ND.map2 at h ⊢
  rw [← ha.1, ← hb.1]
  cases hR : bshape a.shape b.shape with
  | none => rw [hR] at h; cases h
  | some R =>
    rw [hR] at h
    cases h
    refine ⟨_, rfl, rfl, fun I hI => ?_⟩
    have := bshape_le hR
    show f _ _ = f _ _
    rw [ha.bget this.1 hI, hb.bget this.2 hI]

theorem map2_scalar_left {f : F → F → F} {z : F} (hf : ∀ x, f z x = x) {a r : ND F}
    (h : ND.map2 f (scalar z) a = .ok r) : r.Same a := by
  unfold ND.map2 at h
  rw [shape_scalar, bshape_nil_left] at h
  cases h
  refine ⟨rfl, fun I hI => ?_⟩
  show f _ _ = _
  rw [bget_scalar, hf]
  exact bget_valid a hI

theorem map2_scalar_right {f : F → F → F} {z : F} (hf : ∀ x, f x z = x) {a r : ND F}
    (h : ND.map2 f a (scalar z) = .ok r) : r.Same a := by
  unfold ND.map2 at h
  rw [shape_scalar, bshape_nil_right] at h
  cases h
  refine ⟨rfl, fun I hI => ?_⟩
  show f _ _ = _
  rw [bget_scalar, hf]
  exact bget_valid a hI

theorem expandDims_zero (a : ND F) (n : ℕ) : a.expandDims 0 n = a := by
  unfold expandDims
  rw [show a = ⟨a.shape, a.get⟩ from rfl]
  simp
end ND

open ND (scalar)

namespace IA
theorem add_arr_ok {a b : ND F} {r : Coef F} (h : add (.arr a) (.arr b) = .ok r) :
    ∃ c, r = .arr c ∧ ND.map2 (· + ·) a b = .ok c := by
  simp only [add, py_bind_ok, py_pure] at h
  obtain ⟨c, hc, rfl⟩ := h
  exact ⟨c, rfl, hc⟩

theorem bilinear_arr_ok {a b : ND F} {op : ND F → ND F → Py (ND F)} {p : Bool} {r : Coef F}
    (h : arbitraryBilinear (.arr a) (.arr b) op p = .ok r) : ∃ c, r = .arr c ∧ op a b = .ok c := by
  simp only [arbitraryBilinear, py_bind_ok, py_pure] at h
  obtain ⟨c, hc, rfl⟩ := h
  exact ⟨c, rfl, hc⟩
end IA

/-! ### the product of two polynomials -/

theorem foldl_keep {A B : Type} {f : List B → A → Py (List B)} {l : List A}
    (hf : ∀ s x t, x ∈ l → f s x = .ok t → t[0]? = s[0]?) {s t : List B} (h : l.foldlM f s = .ok t) : t[0]? = s[0]? := by
  induction l generalizing s with
  | nil => cases h; rfl
  | cons x l ih =>
    rw [List.foldlM_cons] at h
    simp only [py_bind_ok] at h
    obtain ⟨u, hu, h⟩ := h
    rw [ih (fun s x t hx => hf s x t (List.mem_cons_of_mem _ hx)) h, hf s x u List.mem_cons_self hu]

theorem enum_split {B : Type} (a : B) (l : List B) :
    ∃ m : List (ℕ × B), Poly.enum (a :: l) = (0, a) :: m ∧ ∀ x ∈ m, 1 ≤ x.1 := by
  refine ⟨((List.range l.length).map Nat.succ).zip l, ?_, ?_⟩
  · simp [Poly.enum, List.range_succ_eq_map]
  · rintro ⟨i, x⟩ hx
    have := (List.of_mem_zip hx).1
    simp at this
    obtain ⟨j, -, rfl⟩ := this
    simp

theorem pairs_cons {B : Type} (a : B) (l : List B) (b : B) (m : List B) :
    ∃ r : List ((ℕ × B) × (ℕ × B)), ((Poly.enum (a :: l)).flatMap fun x => (Poly.enum (b :: m)).map fun y => (x, y)) =
      ((0, a), (0, b)) :: r ∧ ∀ x ∈ r, 1 ≤ x.1.1 + x.2.1 := by
  obtain ⟨u, hu, hu'⟩ := enum_split a l
  obtain ⟨v, hv, hv'⟩ := enum_split b m
  rw [hu, hv]
  refine ⟨v.map (fun y => ((0, a), y)) ++ u.flatMap fun x => ((0, b) :: v).map fun y => (x, y), by simp, ?_⟩
  intro x hx
  rw [List.mem_append] at hx
  rcases hx with hx | hx
  · obtain ⟨y, hy, rfl⟩ := List.mem_map.1 hx
    have := hv' y hy
    simp only; omega
  · obtain ⟨w, hw, hx⟩ := List.mem_flatMap.1 hx
    obtain ⟨y, hy, rfl⟩ := List.mem_map.1 hx
    have := hu' w hw
    simp only; omega

theorem cons_of_zero {B : Type} {l : List B} {x : B} (h : l[0]? = some x) : ∃ m, l = x :: m := by
  cases l with
  | nil => simp at h
  | cons y m => simp at h; exact ⟨m, by rw [h]⟩

theorem polyBilinear_head {B : Type} {a b zero : B} {l m r : List B} {add : B → B → Py B} {tpc : B → B → ℕ → ℕ → Py B}
    (h : Poly.arbitraryBilinear (a :: l) (b :: m) add zero tpc = .ok r) :
    ∃ c o s, tpc a b 0 0 = .ok c ∧ add zero c = .ok o ∧ r = o :: s := by
  unfold Poly.arbitraryBilinear at h
  obtain ⟨q, hq, hq'⟩ := pairs_cons a l b m
  rw [hq, List.foldlM_cons] at h
  simp only [py_bind_ok] at h
  obtain ⟨t, ht, h⟩ := h
  have hk := foldl_keep (fun s x t hx hs => ?_) h
  · unfold Poly.bilinearStep at ht
    simp only [py_bind_ok] at ht
    obtain ⟨c, hc, ht⟩ := ht
    have : (List.replicate ((a :: l).length + (b :: m).length - 1) zero)[0 + 0]? = some zero := by
      simp
    rw [this] at ht
    simp only [py_bind_ok, py_pure] at ht
    obtain ⟨o, ho, rfl⟩ := ht
    refine ⟨c, o, ?_⟩
    rw [List.getElem?_set_self (by simp)] at hk
    obtain ⟨s, hs⟩ := cons_of_zero hk
    exact ⟨s, hc, ho, hs⟩
  · unfold Poly.bilinearStep at hs
    simp only [py_bind_ok] at hs
    obtain ⟨c, hc, hs⟩ := hs
    have h1 := hq' x hx
    split at hs
    · cases hs
    · simp only [py_bind_ok, py_pure] at hs
      obtain ⟨o, ho, rfl⟩ := hs
      rw [List.getElem?_set_ne (by omega)]

/-! ### integer powers -/

theorem partitions_zero (m k : ℕ) : Poly.iterPartitionsNat 0 m (k + 1) = [m :: List.replicate k 0] := by
  induction k generalizing m with
  | zero => simp [Poly.iterPartitionsNat]
  | succ k ih =>
    rw [Poly.iterPartitionsNat]
    have : min (m + 1) (0 / (k + 1) + 1) = 1 := by simp
    rw [this]
    simp only [List.range_one, List.flatMap_cons, List.flatMap_nil, List.append_nil, Nat.mul_zero, Nat.sub_zero]
    rw [ih]
    simp [List.replicate_succ']

theorem multinomial_zero (m k : ℕ) : Poly.multinomialCoefficient (m :: List.replicate k 0) = .ok 1 := by
  induction k generalizing m with
  | zero => rfl
  | succ k ih =>
    rw [List.replicate_succ, Poly.multinomialCoefficient]
    · rw [ih]
      simp [py_pure_eq]
    · simp

namespace TEA
variable (hF : UnitLaws F) {T : TEA F}
open JB (HeadIs)

theorem head_truncate (hd : 1 ≤ T.maxDegree) {c : Coef F} {l r : Encl F}
    (h : T.truncateIfNecessary (c :: l) = .ok r) : ∃ m, r = c :: m := by
  unfold truncateIfNecessary encloseEnclosure at h
  split_ifs at h with hl
  · cases h; exact ⟨l, rfl⟩
  · simp only [py_bind_ok, py_pure] at h
    obtain ⟨x, -, rfl⟩ := h
    obtain ⟨n, hn⟩ : ∃ n, T.maxDegree = n + 1 := ⟨T.maxDegree - 1, by omega⟩
    rw [hn, List.take_succ_cons]
    exact ⟨_, rfl⟩

theorem head_add_ok (hd : 1 ≤ T.maxDegree) {a b : ND F} {l m r : Encl F}
    (h : T.add (.arr a :: l) (.arr b :: m) = .ok r) : ∃ c s, r = .arr c :: s ∧ ND.map2 (· + ·) a b = .ok c := by
  unfold add at h
  simp only [py_bind_ok] at h
  obtain ⟨e, he, h⟩ := h
  unfold addCoeffs at he
  simp only [py_bind_ok, py_pure] at he
  obtain ⟨x, hx, y, hy, rfl⟩ := he
  obtain ⟨c, rfl, hc⟩ := IA.add_arr_ok hx
  obtain ⟨s, rfl⟩ := head_truncate hd h
  exact ⟨c, s, rfl, hc⟩

theorem head_add (hd : 1 ≤ T.maxDegree) {a b r : Encl F} {y1 y2 y : ND F} (ha : HeadIs y1 a) (hb : HeadIs y2 b)
    (hy : ND.map2 (· + ·) y1 y2 = .ok y) (h : T.add a b = .ok r) : HeadIs y r := by
  obtain ⟨a, l, rfl, ha⟩ := ha
  obtain ⟨b, m, rfl, hb⟩ := hb
  obtain ⟨c, s, rfl, hc⟩ := head_add_ok hd h
  obtain ⟨y', hy', hs⟩ := ha.map2 hb hc
  rw [hy] at hy'; cases hy'
  exact ⟨c, s, rfl, hs⟩

theorem head_negative (hd : 1 ≤ T.maxDegree) {a r : Encl F} {y : ND F} (ha : HeadIs y a)
    (h : T.negative a = .ok r) : HeadIs (y.map (- ·)) r := by
  obtain ⟨a, l, rfl, ha⟩ := ha
  unfold negative at h
  obtain ⟨s, rfl⟩ := head_truncate hd h
  exact ⟨_, s, rfl, ha.map _⟩

include hF in
theorem head_subtract (hd : 1 ≤ T.maxDegree) {a b r : Encl F} {y1 y2 y : ND F} (ha : HeadIs y1 a) (hb : HeadIs y2 b)
    (hy : ND.map2 (· - ·) y1 y2 = .ok y) (h : T.subtract a b = .ok r) : HeadIs y r := by
  unfold subtract at h
  simp only [py_bind_ok] at h
  obtain ⟨e, he, h⟩ := h
  refine head_add hd ha (head_negative hd hb he) ?_ h
  unfold ND.map2 at hy ⊢
  rw [ND.shape_map]
  cases hR : bshape y1.shape y2.shape with
  | none => rw [hR] at hy; cases hy
  | some R =>
    rw [hR] at hy
    cases hy
    refine congrArg Except.ok ?_
    rw [ND.mk.injEq]
    refine ⟨rfl, funext fun I => ?_⟩
    exact (hF.sub_eq _ _).symm

theorem tpc_zero {n : ℕ} {a b : ND F} {r : Coef F}
    (h : elementwiseTermProductCoefficient n (.arr a) (.arr b) 0 0 = .ok r) :
    ∃ c, r = .arr c ∧ ND.map2 (· * ·) a b = .ok c := by
  unfold elementwiseTermProductCoefficient at h
  obtain ⟨c, rfl, hc⟩ := IA.bilinear_arr_ok h
  refine ⟨c, rfl, ?_⟩
  unfold pairwiseBatchedMultiply at hc
  rw [Nat.zero_mul, ND.expandDims_zero, ND.expandDims_zero] at hc
  exact hc

include hF in
theorem head_multiply (hd : 1 ≤ T.maxDegree) {a b r : Encl F} {y1 y2 y : ND F} (ha : HeadIs y1 a) (hb : HeadIs y2 b)
    (hy : ND.map2 (· * ·) y1 y2 = .ok y) (h : T.multiply a b = .ok r) : HeadIs y r := by
  obtain ⟨a, l, rfl, ha⟩ := ha
  obtain ⟨b, m, rfl, hb⟩ := hb
  unfold multiply at h
  simp only [py_bind_ok] at h
  obtain ⟨-, -, -, -, p, hp, h⟩ := h
  obtain ⟨c', o', s, hc', ho', rfl⟩ := polyBilinear_head hp
  obtain ⟨c, rfl, hc⟩ := tpc_zero hc'
  obtain ⟨o, rfl, ho⟩ := IA.add_arr_ok ho'
  obtain ⟨s, rfl⟩ := head_truncate hd h
  obtain ⟨y', hy', hs⟩ := ha.map2 hb hc
  rw [hy] at hy'; cases hy'
  exact ⟨o, s, rfl, (ND.map2_scalar_left hF.zero_add ho).trans hs⟩

/-! #### powerNat -/

theorem einsum_full {a b c : ND F} (hs : a.shape = b.shape) (hd : 0 < b.ndim)
    (h : ND.einsumOuter a b b.ndim = .ok c) : c.shape = b.shape ∧
      ∀ I, ValidIdx b.shape I → c.get I = a.get I * b.get I := by
  have hn : a.ndim = b.ndim := congrArg List.length hs
  unfold ND.einsumOuter at h
  split_ifs at h
  have e1 : a.shape.take b.ndim = b.shape := by rw [hs]; exact List.take_length
  have e2 : b.shape.take b.ndim = b.shape := List.take_length
  have e3 : a.shape.drop b.ndim = [] := by rw [hs]; exact List.drop_length
  have e4 : b.shape.drop b.ndim = [] := List.drop_length
  rw [e1, e2, bshape_self, e3, e4, hn] at h
  cases h
  refine ⟨by simp, fun I hI => ?_⟩
  have hl : I.length = b.ndim := hI.length.symm
  show a.get (bidx b.shape (I.take b.ndim) ++ (I.drop b.ndim).take _) *
    b.get (bidx b.shape (I.take b.ndim) ++ I.drop b.ndim) = _
  rw [← hl, List.take_length, List.drop_length, bidx_valid hI]
  simp

theorem running_full {a : ND F} (hd : 0 < a.ndim) (m : ℕ) {r : Coef F}
    (h : IA.runningOuterProduct (.arr a) a.ndim m = .ok r) :
    ∃ c, r = .arr c ∧ c.shape = a.shape ∧ ∀ I, ValidIdx a.shape I → c.get I = timesSelf (a.get I) (m + 1) := by
  induction m generalizing r with
  | zero => cases h; exact ⟨a, rfl, rfl, fun _ _ => rfl⟩
  | succ m ih =>
    unfold IA.runningOuterProduct at h
    simp only [py_bind_ok] at h
    obtain ⟨x, hx, h⟩ := h
    obtain ⟨c, rfl, hc, hv⟩ := ih hx
    unfold IA.outerProduct at h
    split_ifs at h
    obtain ⟨w, rfl, hw⟩ := IA.bilinear_arr_ok h
    unfold IA.ndarrayOuterProduct at hw
    rw [if_neg (by omega)] at hw
    obtain ⟨k1, k2⟩ := einsum_full hc hd hw
    refine ⟨w, rfl, k1, fun I hI => ?_⟩
    rw [k2 I hI, hv I hI]
    rfl

/-- the first factor: `a0 ** p` -/
theorem tpow_head {n : ℕ} {a : ND F} {p : ℕ} (hp : 0 < p) {r : Coef F}
    (h : elementwiseTermPowerCoefficient n (.arr a) 0 p = .ok r) :
    ∃ c, r = .arr c ∧ c.shape = a.shape ∧ ∀ I, ValidIdx a.shape I →
      c.get I = if a.shape = [] then a.get I ^ (p : ℤ) else timesSelf (a.get I) p := by
  unfold elementwiseTermPowerCoefficient at h
  split_ifs at h
  unfold IA.outerPower at h
  rw [if_neg (by omega), if_neg (by omega)] at h
  by_cases h0 : (Coef.arr a).ndim = 0
  · rw [if_pos h0] at h
    unfold IA.power at h
    cases h
    have : a.shape = [] := List.eq_nil_of_length_eq_zero h0
    exact ⟨_, rfl, rfl, fun I _ => by rw [if_pos this]; rfl⟩
  · rw [if_neg h0] at h
    simp only [py_bind_ok] at h
    obtain ⟨rop, hrop, h⟩ := h
    have hnd : (Coef.arr a).ndim = a.ndim := rfl
    rw [Nat.zero_mul, Nat.sub_zero, hnd] at hrop h
    rw [if_pos (by rw [← hnd]; exact h0)] at h
    cases h
    obtain ⟨c, rfl, hc, hv⟩ := running_full (Nat.pos_of_ne_zero h0) _ hrop
    have : a.shape ≠ [] := fun h => h0 (by rw [hnd, ND.ndim, h]; rfl)
    refine ⟨c, rfl, hc, fun I hI => ?_⟩
    rw [if_neg this, hv I hI]
    congr 1
    omega

theorem tpow_zero {n i : ℕ} {c r : Coef F} (h : elementwiseTermPowerCoefficient n c i 0 = .ok r) :
    r = .arr (scalar 1) := by
  unfold elementwiseTermPowerCoefficient at h
  split_ifs at h
  unfold IA.outerPower at h
  simp at h
  exact h.symm

include hF in
theorem product_tail {n : ℕ} {c0 : ND F} {l : List ((ℕ × Coef F) × ℕ)} (hl : ∀ x ∈ l, x.2 = 0) :
    ∀ {c : ND F} {r : Coef F × ℕ}, c.Same c0 →
    l.foldlM (Poly.productStep (elementwiseTermProductCoefficient n) (elementwiseTermPowerCoefficient n)) (.arr c, 0) =
      .ok r → ∃ c', r = (.arr c', 0) ∧ c'.Same c0 := by
  induction l with
  | nil => intro c r hc h; cases h; exact ⟨c, rfl, hc⟩
  | cons x l ih =>
    intro c r hc h
    rw [List.foldlM_cons] at h
    simp only [py_bind_ok] at h
    obtain ⟨st, hst, h⟩ := h
    obtain ⟨⟨j, cj⟩, pj⟩ := x
    have : pj = 0 := hl _ List.mem_cons_self
    subst this
    unfold Poly.productStep at hst
    simp only [py_bind_ok, py_pure] at hst
    obtain ⟨w, hw, u', hu', rfl⟩ := hst
    rw [tpow_zero hw, Nat.mul_zero] at hu'
    obtain ⟨u, rfl, hu⟩ := tpc_zero hu'
    exact ih (fun x hx => hl x (List.mem_cons_of_mem _ hx)) ((ND.map2_scalar_right hF.mul_one hu).trans hc) h

include hF in
theorem head_power_coeff {n p : ℕ} (hp : 0 < p) {a : ND F} {l : Encl F} {o : Coef F}
    (h : Poly.getCoeff IA.add (.arr a.onesLike) (elementwiseTermProductCoefficient n) (elementwiseTermPowerCoefficient n)
      (fun n c => IA.multiply (.arr (scalar (n : F))) c) (.arr (scalar 0)) (.arr a :: l) p 0 = .ok o) :
    ∃ c, o = .arr c ∧ c.shape = a.shape ∧ ∀ I, ValidIdx a.shape I →
      c.get I = if a.shape = [] then a.get I ^ (p : ℤ) else timesSelf (a.get I) p := by
  unfold Poly.getCoeff at h
  have hps : Poly.iterPartitions ((0 : ℕ) : ℤ) (p : ℤ) (((Coef.arr a :: l).length : ℕ) : ℤ) =
      .ok [p :: List.replicate l.length 0] := by
    unfold Poly.iterPartitions
    rw [if_neg (by omega), if_neg (by omega), if_neg (by simp)]
    rw [Int.toNat_natCast, Int.toNat_natCast, Int.toNat_natCast, List.length_cons, partitions_zero]
  rw [hps, py_ok_bind, List.foldlM_cons] at h
  simp only [py_bind_ok] at h
  obtain ⟨t, ht, h⟩ := h
  cases h
  unfold Poly.coeffStep at ht
  split_ifs at ht with h1 h2
  simp only [py_bind_ok] at ht
  obtain ⟨rp, hrp, ht⟩ := ht
  split_ifs at ht with h3
  simp only [py_bind_ok] at ht
  obtain ⟨mc, hmc, term, hterm, ht⟩ := ht
  rw [multinomial_zero] at hmc
  cases hmc
  unfold Poly.partitionProduct at hrp
  obtain ⟨m, hm, -⟩ := enum_split (Coef.arr a) l
  rw [hm, List.zip_cons_cons, List.foldlM_cons] at hrp
  simp only [py_bind_ok] at hrp
  obtain ⟨st, hst, hrp⟩ := hrp
  unfold Poly.productStep at hst
  simp only [py_bind_ok, py_pure] at hst
  obtain ⟨w, hw, u', hu', rfl⟩ := hst
  obtain ⟨c, rfl, hc, hv⟩ := tpow_head hp hw
  rw [Nat.zero_mul] at hu'
  obtain ⟨u, rfl, hu⟩ := tpc_zero hu'
  have hus : u.Same c := by
    rw [ND.map2_same _ (by rw [ND.shape_onesLike, hc])] at hu
    cases hu
    refine ⟨hc.symm, fun I hI => ?_⟩
    have hI' : ValidIdx c.shape I := by rw [hc]; exact hI
    show 1 * _ = _
    rw [hF.one_mul, ND.bget_valid _ hI']
  simp only [Nat.zero_mul, Nat.add_zero] at hrp
  obtain ⟨c', rfl, hc'⟩ := product_tail hF (fun x hx => List.eq_of_mem_replicate (List.of_mem_zip hx).2) hus hrp
  simp only [IA.multiply] at hterm
  obtain ⟨q, rfl, hq⟩ := IA.bilinear_arr_ok hterm
  obtain ⟨o', rfl, ho⟩ := IA.add_arr_ok ht
  rw [hF.natCast_one] at hq
  have hs := ((ND.map2_scalar_left hF.zero_add ho).trans (ND.map2_scalar_left hF.one_mul hq)).trans hc'
  have hsh : o'.shape = a.shape := hs.1.trans hc
  refine ⟨o', rfl, hsh, fun I hI => ?_⟩
  rw [hs.2 I (hsh ▸ hI), hv I hI]

/-- what `TaylorEnclosureArithmetic.power` with a natural exponent needs -/
def PowOk (y : ND F) (p : ℕ) : Prop := p ≤ 2 ∨ y.shape = [] ∨ ∀ x : F, x ^ (p : ℤ) = timesSelf x p

include hF in
theorem head_powerNat (hd : 1 ≤ T.maxDegree) {p : ℕ} {a r : Encl F} {y : ND F} (hp : PowOk y p) (ha : HeadIs y a)
    (h : T.powerNat a p = .ok r) : HeadIs (y.map (· ^ (p : ℤ))) r := by
  obtain ⟨a, l, rfl, ha⟩ := ha
  unfold powerNat at h
  simp only [py_bind_ok] at h
  obtain ⟨-, -, e, he, h⟩ := h
  unfold Poly.integerPower at he
  rw [if_neg (by omega)] at he
  by_cases h0 : (p : ℤ) = 0
  · rw [if_pos h0] at he
    cases he
    obtain ⟨s, rfl⟩ := head_truncate hd h
    refine ⟨_, s, rfl, ha.1, fun I hI => ?_⟩
    show (1 : F) = y.get I ^ (p : ℤ)
    rw [h0, hF.pow_zero]
  rw [if_neg h0] at he
  have hN : 0 < (1 + (((Coef.arr a :: l).length : ℤ) - 1) * p).toNat := by
    have : (0 : ℤ) ≤ (((Coef.arr a :: l).length : ℤ) - 1) * p := by
      refine mul_nonneg ?_ (by omega)
      simp
    omega
  obtain ⟨c, k1, k2⟩ := (Poly.forall₂_getElem? (Poly.mapM_ok he) 0).2 0 (by rw [List.getElem?_range hN])
  obtain ⟨m, rfl⟩ := cons_of_zero k1
  rw [Int.toNat_natCast] at k2
  obtain ⟨c, rfl, hc, hv⟩ := head_power_coeff hF (by omega) k2
  obtain ⟨s, rfl⟩ := head_truncate hd h
  refine ⟨c, s, rfl, hc.trans ha.1, fun I hI => ?_⟩
  have hI : ValidIdx a.shape I := hc ▸ hI
  show _ = y.get I ^ (p : ℤ)
  rw [hv I hI, ← ha.2 I hI]
  split_ifs with hsh
  · rfl
  · rcases hp with hp | hp | hp
    · obtain rfl | rfl : p = 1 ∨ p = 2 := by omega
      · exact (hF.pow_one _).symm
      · exact (hF.pow_two _).symm
    · exact absurd (ha.1.trans hp) hsh
    · exact (hp _).symm

end TEA
end AB
