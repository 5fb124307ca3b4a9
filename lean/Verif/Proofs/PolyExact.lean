/-
Enclosures of polynomials: arithmetic without truncation, independent of the trust region (for C63).
-/
import Verif.Spec.Poly
import Verif.Proofs.ArrBelow
import Verif.Props.Form
import Verif.Proofs.Counts

set_option linter.unusedSectionVars false

namespace AB
variable {K : Type} [Field K] [LinearOrder K] [IsStrictOrderedRing K]

/-- non-empty, all coefficients arrays, degree at most `k` -/
structure PolyEncl (k : ℕ) (E : Encl K) : Prop where
  ne : E ≠ []
  arr : ∀ n, ArrBelow n E
  len : E.length ≤ k + 1

theorem PolyEncl.mono {k l : ℕ} (h : k ≤ l) {E : Encl K} (hE : PolyEncl k E) : PolyEncl l E :=
  ⟨hE.ne, hE.arr, by have := hE.len; omega⟩

/-- two arithmetics with the same degree and the same shape of the region -/
structure SameTEA (T T' : TEA K) : Prop where
  deg : T'.maxDegree = T.maxDegree
  shape : T'.trLo.shape = T.trLo.shape

namespace TEA
variable {T T' : TEA K}

theorem encloseEnclosure_short {E : Encl K} {Z : Coef K} {d : ℕ} (h : E.length ≤ d + 1) :
    encloseEnclosure E Z d = .ok E := by
  unfold encloseEnclosure
  rw [if_pos h]

theorem poly_add (hT : SameTEA T T') {a b c : Encl K} {i j k : ℕ} (ha : PolyEncl i a) (hb : PolyEncl j b)
    (hk : max i j ≤ k) (hd : k ≤ T.maxDegree) (h : T.add a b = .ok c) : PolyEncl k c ∧ T'.add a b = .ok c := by
  have h1 := ha.len
  have h2 := hb.len
  simp only [add, py_bind_ok, truncateIfNecessary] at h
  obtain ⟨s, hs, h⟩ := h
  have hl := addCoeffs_length hs
  rw [encloseEnclosure_short (by omega)] at h
  cases h
  refine ⟨⟨JB.addCoeffs_ne ha.ne hs, fun n => arr_addCoeffs hs (ha.arr n) (hb.arr n), by omega⟩, ?_⟩
  simp only [add, hs, py_ok_bind, truncateIfNecessary]
  exact encloseEnclosure_short (by rw [hT.deg]; omega)

theorem poly_negative (hT : SameTEA T T') {a c : Encl K} {i k : ℕ} (ha : PolyEncl i a)
    (hk : i ≤ k) (hd : k ≤ T.maxDegree) (h : T.negative a = .ok c) : PolyEncl k c ∧ T'.negative a = .ok c := by
  have h1 := ha.len
  unfold negative truncateIfNecessary at h ⊢
  rw [encloseEnclosure_short (by rw [List.length_map]; omega)] at h
  cases h
  refine ⟨⟨by simpa using ha.ne, ?_, by rw [List.length_map]; omega⟩,
    encloseEnclosure_short (by rw [hT.deg, List.length_map]; omega)⟩
  intro n i x hx hi
  rw [List.getElem?_map, Option.map_eq_some_iff] at hx
  obtain ⟨y, hy, rfl⟩ := hx
  have := ha.arr n i y hy hi
  cases y <;> simp only [Coef.IsArr] at this
  trivial

theorem poly_subtract (hT : SameTEA T T') {a b c : Encl K} {i j k : ℕ} (ha : PolyEncl i a) (hb : PolyEncl j b)
    (hk : max i j ≤ k) (hd : k ≤ T.maxDegree) (h : T.subtract a b = .ok c) :
    PolyEncl k c ∧ T'.subtract a b = .ok c := by
  simp only [subtract, py_bind_ok] at h
  obtain ⟨s, hs, h⟩ := h
  obtain ⟨h1, h2⟩ := poly_negative hT hb le_rfl (by omega) hs
  obtain ⟨h3, h4⟩ := poly_add hT ha h1 hk hd h
  refine ⟨h3, ?_⟩
  simp only [subtract, h2, py_ok_bind]
  exact h4

theorem same_validate (hT : SameTEA T T') (a : Encl K) : T'.validate a = T.validate a := by
  unfold validate xShape
  rw [hT.shape]

theorem same_ndim (hT : SameTEA T T') : T'.xNdim = T.xNdim := by
  unfold xNdim ND.ndim
  rw [hT.shape]

theorem poly_multiply (hT : SameTEA T T') {a b c : Encl K} {i j k : ℕ} (ha : PolyEncl i a) (hb : PolyEncl j b)
    (hk : i + j ≤ k) (hd : k ≤ T.maxDegree) (h : T.multiply a b = .ok c) :
    PolyEncl k c ∧ T'.multiply a b = .ok c := by
  have h1 := ha.len
  have h2 := hb.len
  have h3 := List.length_pos_iff.2 ha.ne
  have h4 := List.length_pos_iff.2 hb.ne
  simp only [multiply, py_bind_ok, truncateIfNecessary] at h
  obtain ⟨u1, hv1, u2, hv2, p, hp, h⟩ := h
  have hl := JB.polyBilinear_length hp
  rw [List.length_replicate] at hl
  rw [encloseEnclosure_short (by omega)] at h
  cases h
  refine ⟨⟨?_, ?_, by omega⟩, ?_⟩
  · intro h0; rw [h0] at hl; simp at hl; omega
  · intro n
    obtain ⟨-, u, hu, -⟩ := Poly.arbitraryBilinear_rel (arr_laws n T.xNdim) ha.ne hb.ne
      (w := fun _ => 0) (w' := fun _ => 0) (fun i c hc => ha.arr n i c hc) (fun i c hc => hb.arr n i c hc) hp
    exact fun i c hc => hu i c hc
  · simp only [multiply, same_validate hT, same_ndim hT, hv1, hv2, hp, py_ok_bind, truncateIfNecessary]
    exact encloseEnclosure_short (by rw [hT.deg]; omega)

theorem poly_powerNat (hT : SameTEA T T') {a c : Encl K} {i k p : ℕ} (ha : PolyEncl i a)
    (hk : p * i ≤ k) (hd : k ≤ T.maxDegree) (h : T.powerNat a p = .ok c) :
    PolyEncl k c ∧ T'.powerNat a p = .ok c := by
  have h1 := ha.len
  have hne := JB.powerNat_ne h
  simp only [powerNat, py_bind_ok, truncateIfNecessary] at h ⊢
  obtain ⟨u1, hv1, h⟩ := h
  rcases a with _ | ⟨a0, l⟩
  · cases h
  simp only [py_bind_ok] at h
  obtain ⟨r, hr, h⟩ := h
  have hl : r.length ≤ k + 1 := by
    have hr' := hr
    unfold Poly.integerPower at hr'
    split_ifs at hr' with g1 g2
    · cases hr'; simp
    · have := (Poly.mapM_ok hr').length_eq
      rw [List.length_range, Poly.powRange (by simp) (by omega)] at this
      have hle : (List.length (a0 :: l) - 1) * p ≤ i * p := Nat.mul_le_mul_right _ (by omega)
      rw [Nat.mul_comm] at hk
      rw [Int.toNat_natCast] at this
      omega
  rw [encloseEnclosure_short (by omega)] at h
  cases h
  refine ⟨⟨hne, ?_, hl⟩, ?_⟩
  · intro n
    obtain ⟨-, u, hu, -⟩ := Poly.integerPower_rel (arr_laws n T.xNdim)
      (arr_powLaws n T.xNdim _) (a := a0 :: l) (by simp) (w := fun _ => 0) (fun i c hc => ha.arr n i c hc) hr
    exact fun i c hc => hu i c hc
  · refine ⟨u1, by rw [same_validate hT]; exact hv1, ?_⟩
    simp only [same_ndim hT, hr, py_ok_bind]
    exact encloseEnclosure_short (by rw [hT.deg]; omega)

theorem poly_bilinear (hT : SameTEA T T') {a b c : Encl K} {i j k : ℕ} (ha : PolyEncl i a) (hb : PolyEncl j b)
    (hk : i + j ≤ k) (hd : k ≤ T.maxDegree) {pbb : ND K → ND K → ℕ → ℕ → Py (ND K)}
    (h : T.arbitraryBilinear a b pbb = .ok c) :
    PolyEncl k c ∧ T'.arbitraryBilinear a b pbb = .ok c := by
  have h1 := ha.len
  have h2 := hb.len
  have h3 := List.length_pos_iff.2 ha.ne
  have h4 := List.length_pos_iff.2 hb.ne
  have hl := setFold_length T h
  rw [List.length_replicate] at hl
  unfold arbitraryBilinear at h ⊢
  have hm : ∀ x ∈ ((Poly.enum a).flatMap fun x => (Poly.enum b).map fun y => (x, y)),
      x.1.2.IsArr ∧ x.2.2.IsArr ∧ x.1.1 + x.2.1 ≤ T.maxDegree := by
    intro x hx
    simp only [List.mem_flatMap, List.mem_map] at hx
    obtain ⟨u, hu, v, hv, rfl⟩ := hx
    have hu := Poly.mem_enum.1 hu
    have hv := Poly.mem_enum.1 hv
    obtain ⟨q1, -⟩ := List.getElem?_eq_some_iff.1 hu
    obtain ⟨q2, -⟩ := List.getElem?_eq_some_iff.1 hv
    exact ⟨ha.arr (u.1 + 1) _ _ hu (by omega), hb.arr (v.1 + 1) _ _ hv (by omega), by dsimp only; omega⟩
  have h0 : ∀ n, ArrBelow n
      (List.replicate (min (T.maxDegree + 1) (a.length + b.length - 1)) (.arr (ND.scalar 0)) : Encl K) := by
    intro n i c hc _
    have := List.eq_of_mem_replicate (List.mem_of_getElem? hc)
    subst this
    trivial
  rw [hT.deg]
  have key : (∀ n, ArrBelow n c) ∧ ((Poly.enum a).flatMap fun x => (Poly.enum b).map fun y => (x, y)).foldlM
      (T'.bilinearStep pbb)
      (List.replicate (min (T.maxDegree + 1) (a.length + b.length - 1)) (.arr (ND.scalar 0)) : Encl K) = .ok c := by
    revert h h0
    generalize (List.replicate (min (T.maxDegree + 1) (a.length + b.length - 1)) (.arr (ND.scalar 0)) : Encl K) = o
    revert hm
    generalize ((Poly.enum a).flatMap fun x => (Poly.enum b).map fun y => (x, y)) = l
    intro hm h ho
    induction l generalizing o with
    | nil => cases h; exact ⟨ho, rfl⟩
    | cons x l ih =>
      rw [List.foldlM_cons, py_bind_ok] at h
      obtain ⟨o', ho', h⟩ := h
      obtain ⟨k1, k2, k3⟩ := hm x (by simp)
      simp only [bilinearStep, py_bind_ok] at ho'
      obtain ⟨t, ht, ho'⟩ := ho'
      have ht' : T'.termEnclosureCoefficient pbb x.1.2 x.2.2 x.1.1 x.2.1 = .ok t := by
        unfold termEnclosureCoefficient at ht ⊢
        rw [if_pos k3] at ht
        rw [if_pos (by rw [hT.deg]; exact k3), same_ndim hT]
        exact ht
      have hta : t.IsArr := by
        unfold termEnclosureCoefficient at ht
        rw [if_pos k3] at ht
        exact IA.isArr_bilinear ht k1 k2
      cases hdd : o[min (x.1.1 + x.2.1) T.maxDegree]? with
      | none => rw [hdd] at ho'; cases ho'
      | some w =>
        rw [hdd] at ho'
        simp only [py_bind_ok, py_pure] at ho'
        obtain ⟨s, hs, rfl⟩ := ho'
        have hw : w.IsArr := ho _ _ _ hdd (Nat.lt_succ_self _)
        have hsa := IA.isArr_add hs hw hta
        obtain ⟨g1, g2⟩ := ih _ (fun y hy => hm y (by simp [hy])) h (by
          intro n i c hc hi
          rw [List.getElem?_set] at hc
          split_ifs at hc with q1 q2
          · cases hc; exact hsa
          · exact ho n i c hc hi)
        refine ⟨g1, ?_⟩
        rw [List.foldlM_cons, py_bind_ok]
        refine ⟨_, ?_, g2⟩
        simp only [bilinearStep, ht', py_ok_bind, hT.deg, hdd, hs]
        rfl
  refine ⟨⟨?_, key.1, ?_⟩, key.2⟩
  · intro h0
    rw [h0] at hl
    simp at hl
    omega
  · omega

theorem poly_mapOver {a c : Encl K} {i k : ℕ} {f : ND K → Py (ND K)} (ha : PolyEncl i a) (hk : i ≤ k)
    (h : mapOverEnclosure a f = .ok c) : PolyEncl k c := by
  have h1 := ha.len
  have hl := (mapOver_get h).1
  refine ⟨?_, fun n => arr_mapOver h (ha.arr n), by omega⟩
  intro h0
  rw [h0] at hl
  exact ha.ne (List.length_eq_zero_iff.1 hl.symm)

end TEA

namespace JB
open TEA

theorem poly_bid {a c : Encl K} {i k : ℕ} {shape dims : List ℕ} (ha : PolyEncl i a) (hk : i ≤ k)
    (h : broadcastInDimPush shape dims a = .ok c) : PolyEncl k c := by
  have h1 := ha.len
  have h' := h
  simp only [broadcastInDimPush, py_bind_ok] at h'
  obtain ⟨_, -, hg⟩ := h'
  have hl := (Poly.mapM_ok hg).length_eq
  rw [Poly.enum_length] at hl
  refine ⟨?_, fun n => arr_bid h (ha.arr n), by omega⟩
  intro h0
  rw [h0] at hl
  exact ha.ne (List.length_eq_zero_iff.1 (by simpa using hl))


variable {lib : Lib K} {T T' T0 T0' : TEA K}

/-- one polynomial operation: the result is a polynomial enclosure that does not depend on the trust region -/
theorem poly_push (hT : SameTEA T T') {deg : ℤ → ℕ} {p : Prim K} {atoms : List (Atom K)} {outvars : List ℤ}
    (hop : PolyOp deg p atoms outvars) (hdeg : ∀ v, deg v ≤ T.maxDegree) {ins : List (Inter K)}
    (hins : List.Forall₂ (fun a i => PolyEncl (Atom.degree deg a) i.encl) atoms ins)
    {f : List (Inter K) → Py (Encl K)} (hf : pushforward lib T p = some f) {e : Encl K} (he : f ins = .ok e) :
    ∃ o f', outvars = [o] ∧ PolyEncl (deg o) e ∧ pushforward lib T' p = some f' ∧
      ∀ ins' : List (Inter K), ins'.map Inter.encl = ins.map Inter.encl → f' ins' = .ok e := by
  have two : ∀ {a b : Atom K}, atoms = [a, b] → ∃ i j, ins = [i, j] ∧ PolyEncl (a.degree deg) i.encl ∧
      PolyEncl (b.degree deg) j.encl ∧ ∀ ins' : List (Inter K), ins'.map Inter.encl = ins.map Inter.encl →
        ∃ i' j' : Inter K, ins' = [i', j'] ∧ i'.encl = i.encl ∧ j'.encl = j.encl := by
    rintro a b rfl
    cases hins with
    | cons h1 h2 =>
      cases h2 with
      | cons h2 h3 =>
        cases h3
        refine ⟨_, _, rfl, h1, h2, fun ins' h => ?_⟩
        rcases ins' with _ | ⟨i', _ | ⟨j', _ | ⟨k, l⟩⟩⟩ <;> simp at h
        exact ⟨i', j', rfl, h.1, h.2⟩
  have one : ∀ {a : Atom K}, atoms = [a] → ∃ i, ins = [i] ∧ PolyEncl (a.degree deg) i.encl ∧
      ∀ ins' : List (Inter K), ins'.map Inter.encl = ins.map Inter.encl →
        ∃ i' : Inter K, ins' = [i'] ∧ i'.encl = i.encl := by
    rintro a rfl
    cases hins with
    | cons h1 h2 =>
      cases h2
      refine ⟨_, rfl, h1, fun ins' h => ?_⟩
      rcases ins' with _ | ⟨i', _ | ⟨j', l⟩⟩ <;> simp at h
      exact ⟨i', rfl, h⟩
  have lin : ∀ (g : List (Inter K) → Py (Encl K)) {a : Atom K} {o : ℤ}, atoms = [a] → a.degree deg ≤ deg o →
      (∀ i, g [i] = mapOverEnclosure i.encl (p.bind1 lib.sem)) → g ins = .ok e →
      PolyEncl (deg o) e ∧ ∀ ins' : List (Inter K), ins'.map Inter.encl = ins.map Inter.encl → g ins' = .ok e := by
    intro g a o ha hd hg he
    obtain ⟨i, rfl, h1, h3⟩ := one ha
    rw [hg] at he
    refine ⟨poly_mapOver h1 hd he, fun ins' h => ?_⟩
    obtain ⟨i', rfl, e1⟩ := h3 ins' h
    rw [hg, e1]
    exact he
  cases p with
  | add =>
    rcases atoms with _ | ⟨a, _ | ⟨b, _ | ⟨c, l⟩⟩⟩ <;> rcases outvars with _ | ⟨o, _ | ⟨o', lo⟩⟩ <;> try exact absurd hop id
    cases hf
    obtain ⟨i, j, rfl, h1, h2, h3⟩ := two rfl
    obtain ⟨g1, g2⟩ := poly_add hT h1 h2 hop (hdeg o) he
    refine ⟨o, _, rfl, g1, rfl, fun ins' h => ?_⟩
    obtain ⟨i', j', rfl, e1, e2⟩ := h3 ins' h
    show T'.add i'.encl j'.encl = _
    rw [e1, e2]; exact g2
  | sub =>
    rcases atoms with _ | ⟨a, _ | ⟨b, _ | ⟨c, l⟩⟩⟩ <;> rcases outvars with _ | ⟨o, _ | ⟨o', lo⟩⟩ <;> try exact absurd hop id
    cases hf
    obtain ⟨i, j, rfl, h1, h2, h3⟩ := two rfl
    obtain ⟨g1, g2⟩ := poly_subtract hT h1 h2 hop (hdeg o) he
    refine ⟨o, _, rfl, g1, rfl, fun ins' h => ?_⟩
    obtain ⟨i', j', rfl, e1, e2⟩ := h3 ins' h
    show T'.subtract i'.encl j'.encl = _
    rw [e1, e2]; exact g2
  | mul =>
    rcases atoms with _ | ⟨a, _ | ⟨b, _ | ⟨c, l⟩⟩⟩ <;> rcases outvars with _ | ⟨o, _ | ⟨o', lo⟩⟩ <;> try exact absurd hop id
    cases hf
    obtain ⟨i, j, rfl, h1, h2, h3⟩ := two rfl
    obtain ⟨g1, g2⟩ := poly_multiply hT h1 h2 hop (hdeg o) he
    refine ⟨o, _, rfl, g1, rfl, fun ins' h => ?_⟩
    obtain ⟨i', j', rfl, e1, e2⟩ := h3 ins' h
    show T'.multiply i'.encl j'.encl = _
    rw [e1, e2]; exact g2
  | dotGeneral lc rc lb rb =>
    rcases atoms with _ | ⟨a, _ | ⟨b, _ | ⟨c, l⟩⟩⟩ <;> rcases outvars with _ | ⟨o, _ | ⟨o', lo⟩⟩ <;> try exact absurd hop id
    cases hf
    obtain ⟨i, j, rfl, h1, h2, h3⟩ := two rfl
    obtain ⟨g1, g2⟩ := poly_bilinear hT h1 h2 hop (hdeg o) he
    refine ⟨o, _, rfl, g1, rfl, fun ins' h => ?_⟩
    obtain ⟨i', j', rfl, e1, e2⟩ := h3 ins' h
    show T'.arbitraryBilinear i'.encl j'.encl _ = _
    rw [e1, e2]; exact g2
  | conv op =>
    rcases atoms with _ | ⟨a, _ | ⟨b, _ | ⟨c, l⟩⟩⟩ <;> rcases outvars with _ | ⟨o, _ | ⟨o', lo⟩⟩ <;> try exact absurd hop id
    cases hf
    obtain ⟨i, j, rfl, h1, h2, h3⟩ := two rfl
    obtain ⟨g1, g2⟩ := poly_bilinear hT h1 h2 hop (hdeg o) he
    refine ⟨o, _, rfl, g1, rfl, fun ins' h => ?_⟩
    obtain ⟨i', j', rfl, e1, e2⟩ := h3 ins' h
    show T'.arbitraryBilinear i'.encl j'.encl _ = _
    rw [e1, e2]; exact g2
  | integerPow n =>
    rcases atoms with _ | ⟨a, _ | ⟨b, l⟩⟩ <;> rcases outvars with _ | ⟨o, _ | ⟨o', lo⟩⟩ <;> try exact absurd hop id
    cases hf
    obtain ⟨i, rfl, h1, h3⟩ := one rfl
    obtain ⟨hn, hle⟩ := hop
    obtain ⟨n, rfl⟩ := Int.eq_ofNat_of_zero_le hn
    replace he : (if 0 ≤ (n : ℤ) then T.powerNat i.encl (n : ℤ).toNat else _) = .ok e := he
    rw [if_pos hn] at he
    have hle' : n * a.degree deg ≤ deg o := by exact_mod_cast hle
    obtain ⟨g1, g2⟩ := poly_powerNat hT h1 hle' (hdeg o) he
    refine ⟨o, _, rfl, g1, rfl, fun ins' h => ?_⟩
    obtain ⟨i', rfl, e1⟩ := h3 ins' h
    show (if 0 ≤ (n : ℤ) then T'.powerNat i'.encl (n : ℤ).toNat else _) = .ok e
    rw [if_pos hn, e1]; exact g2
  | neg =>
    rcases atoms with _ | ⟨a, _ | ⟨b, l⟩⟩ <;> rcases outvars with _ | ⟨o, _ | ⟨o', lo⟩⟩ <;> try exact absurd hop id
    cases hf
    obtain ⟨i, rfl, h1, h3⟩ := one rfl
    obtain ⟨g1, g2⟩ := poly_negative hT h1 hop (hdeg o) he
    refine ⟨o, _, rfl, g1, rfl, fun ins' h => ?_⟩
    obtain ⟨i', rfl, e1⟩ := h3 ins' h
    show T'.negative i'.encl = _
    rw [e1]; exact g2
  | broadcastInDim shape dims =>
    rcases atoms with _ | ⟨a, _ | ⟨b, l⟩⟩ <;> rcases outvars with _ | ⟨o, _ | ⟨o', lo⟩⟩ <;> try exact absurd hop id
    cases hf
    obtain ⟨i, rfl, h1, h3⟩ := one rfl
    refine ⟨o, _, rfl, poly_bid h1 hop he, rfl, fun ins' h => ?_⟩
    obtain ⟨i', rfl, e1⟩ := h3 ins' h
    show broadcastInDimPush shape dims i'.encl = _
    rw [e1]; exact he
  | div => exact absurd hop (by simp [PolyOp])
  | pow => exact absurd hop (by simp [PolyOp])
  | elementwise _ => exact absurd hop (by simp [PolyOp])
  | other _ _ => exact absurd hop (by simp [PolyOp])
  | _ =>
    rcases atoms with _ | ⟨a, _ | ⟨b, l⟩⟩ <;> rcases outvars with _ | ⟨o, _ | ⟨o', lo⟩⟩ <;> try exact absurd hop id
    obtain ⟨h1, h2⟩ := lin f rfl hop (by cases hf; intro i; rfl) he
    exact ⟨o, f, rfl, h1, hf, h2⟩

/-- the enclosures of all variables are those of polynomials -/
def EnvPoly (deg : ℤ → ℕ) (env : Env K) : Prop := ∀ v i, env.lookup v = some i → PolyEncl (deg v) i.encl

/-- the same enclosures -/
def EnvSame (env env' : Env K) : Prop := List.Forall₂ (fun p q => p.1 = q.1 ∧ p.2.encl = q.2.encl) env env'

theorem EnvSame.lookup {env env' : Env K} (h : EnvSame env env') (v : ℤ) :
    (env.lookup v = none ∧ env'.lookup v = none) ∨
    ∃ i i', env.lookup v = some i ∧ env'.lookup v = some i' ∧ i.encl = i'.encl := by
  induction h with
  | nil => exact Or.inl ⟨rfl, rfl⟩
  | @cons p q l l' hpq _ ih =>
    obtain ⟨w, i⟩ := p
    obtain ⟨w', i'⟩ := q
    obtain ⟨rfl, he⟩ := hpq
    simp only [List.lookup_cons]
    by_cases hv : (v == w) = true
    · rw [hv]; exact Or.inr ⟨i, i', rfl, rfl, he⟩
    · have hv : (v == w) = false := by simpa using hv
      rw [hv]; exact ih

theorem same_getInter {env env' : Env K} (h : EnvSame env env') {a : Atom K} {i : Inter K}
    (hi : getInter env a = .ok i) : ∃ i', getInter env' a = .ok i' ∧ i'.encl = i.encl := by
  cases a with
  | lit a => exact ⟨i, hi, rfl⟩
  | var v =>
    rcases h.lookup v with ⟨h1, h2⟩ | ⟨j, j', h1, h2, h3⟩
    · unfold getInter at hi; simp only [h1] at hi; cases hi
    · unfold getInter at hi; simp only [h1] at hi; cases hi
      exact ⟨j', by unfold getInter; simp only [h2], h3.symm⟩

theorem same_getInters {env env' : Env K} (h : EnvSame env env') {as : List (Atom K)} {ins : List (Inter K)}
    (hi : as.mapM (getInter env) = .ok ins) :
    ∃ ins', as.mapM (getInter env') = .ok ins' ∧ ins'.map Inter.encl = ins.map Inter.encl := by
  induction as generalizing ins with
  | nil => cases hi; exact ⟨[], rfl, rfl⟩
  | cons a as ih =>
    rw [List.mapM_cons] at hi
    simp only [py_bind_ok, py_pure] at hi
    obtain ⟨i, h1, l, h2, rfl⟩ := hi
    obtain ⟨i', g1, g2⟩ := same_getInter h h1
    obtain ⟨l', g3, g4⟩ := ih h2
    refine ⟨i' :: l', ?_, by simp [g2, g4]⟩
    rw [List.mapM_cons, g1, py_ok_bind, g3, py_ok_bind]
    rfl

theorem constantValue_congr {i j : Inter K} (h : i.encl = j.encl) : i.constantValue = j.constantValue := by
  unfold Inter.constantValue
  rw [h]

theorem constantValues_congr {l l' : List (Inter K)} (h : l.map Inter.encl = l'.map Inter.encl) :
    l.mapM Inter.constantValue = l'.mapM Inter.constantValue := by
  induction l generalizing l' with
  | nil => cases l' with | nil => rfl | cons a b => simp at h
  | cons a l ih =>
    cases l' with
    | nil => simp at h
    | cons b l' =>
      simp only [List.map_cons, List.cons.injEq] at h
      rw [List.mapM_cons, List.mapM_cons, constantValue_congr h.1, ih h.2]

theorem poly_const (k : ℕ) (v : ND K) : PolyEncl k (constantInter v).encl :=
  ⟨by simp [constantInter], fun n => arr_const n v, by simp [constantInter]⟩

theorem constant_of_zero {i : Inter K} (h : PolyEncl 0 i.encl) : ∃ v, i.constantValue = some v := by
  obtain ⟨e, tr⟩ := i
  rcases e with _ | ⟨c, _ | ⟨d, l⟩⟩
  · exact absurd rfl h.ne
  · have := h.arr 1 0 c rfl (by omega)
    cases c with
    | arr a => exact ⟨a, rfl⟩
    | ivl l u => exact absurd this id
  · have := h.len; simp at this

theorem poly_getInter {deg : ℤ → ℕ} {env : Env K} (h : EnvPoly deg env) {a : Atom K} {i : Inter K}
    (hi : getInter env a = .ok i) : PolyEncl (a.degree deg) i.encl := by
  cases a with
  | lit a => cases hi; exact poly_const _ a
  | var v =>
    unfold getInter at hi
    cases hl : env.lookup v with
    | none => simp only [hl] at hi; cases hi
    | some i' => simp only [hl] at hi; cases hi; exact h v _ hl

theorem poly_store {deg : ℤ → ℕ} {xs : List ℕ} {env env' out : Env K} (hE : EnvPoly deg env) (hS : EnvSame env env')
    {l l' : List (ℤ × Inter K)} (hl : ∀ p ∈ l, PolyEncl (deg p.1) p.2.encl)
    (hll : List.Forall₂ (fun p q => p.1 = q.1 ∧ p.2.encl = q.2.encl) l l')
    (hs : l.foldlM (storeOne xs) env = .ok out) :
    ∃ out', l'.foldlM (storeOne xs) env' = .ok out' ∧ EnvPoly deg out ∧ EnvSame out out' := by
  induction hll generalizing env env' with
  | nil => cases hs; exact ⟨env', rfl, hE, hS⟩
  | @cons p q l l' hpq _ ih =>
    rw [List.foldlM_cons, py_bind_ok] at hs
    obtain ⟨env1, h1, h2⟩ := hs
    obtain ⟨v, i⟩ := p
    obtain ⟨v', i'⟩ := q
    obtain ⟨rfl, he⟩ := hpq
    simp only at he
    have : ∃ env1', storeOne xs env' (v, i') = .ok env1' ∧ EnvPoly deg env1 ∧ EnvSame env1 env1' := by
      unfold storeOne at h1 ⊢
      by_cases hv : v = -1
      · rw [if_pos hv] at h1 ⊢
        cases h1
        exact ⟨env', rfl, hE, hS⟩
      rw [if_neg hv] at h1 ⊢
      by_cases hd : (env.lookup v).isSome = true
      · rw [if_pos hd] at h1; cases h1
      rw [if_neg hd] at h1
      have hd' : ¬ (env'.lookup v).isSome = true := by
        rcases hS.lookup v with ⟨g1, g2⟩ | ⟨j, j', g1, g2, -⟩
        · rw [g2]; simp
        · rw [g1] at hd; simp at hd
      rw [if_neg hd']
      simp only [py_bind_ok, py_pure] at h1
      obtain ⟨u, hval, rfl⟩ := h1
      simp only [← he, hval, py_ok_bind]
      refine ⟨_, rfl, ?_, List.Forall₂.cons ⟨rfl, he⟩ hS⟩
      intro w j hj
      rw [List.lookup_cons] at hj
      by_cases hw : (w == v) = true
      · rw [hw] at hj
        cases hj
        have : w = v := by simpa using hw
        subst this
        exact hl (w, i) (by simp)
      · have hw : (w == v) = false := by simpa using hw
        rw [hw] at hj
        exact hE w j hj
    obtain ⟨env1', g1, g2, g3⟩ := this
    obtain ⟨out', g4, g5⟩ := ih g2 g3 (fun p hp => hl p (by simp [hp])) h2
    refine ⟨out', ?_, g5⟩
    rw [List.foldlM_cons, g1, py_ok_bind]
    exact g4

/-- one step of the interpreter on a polynomial program: the enclosures are polynomials, and a run over another
trust region (without propagation) computes the same ones -/
theorem poly_step (hT : SameTEA T T') {deg : ℤ → ℕ} (hdeg : ∀ v, deg v ≤ T.maxDegree) {propagate : Bool}
    {xs : List ℕ} {env env' out : Env K} {eqn : Eqn K}
    (hop : (∀ a ∈ eqn.invars, a.degree deg = 0) ∨ PolyOp deg eqn.prim eqn.invars eqn.outvars)
    (hE : EnvPoly deg env) (hS : EnvSame env env') (hs : step lib T T0 propagate xs env eqn = .ok out) :
    ∃ out', step lib T' T0' false xs env' eqn = .ok out' ∧ EnvPoly deg out ∧ EnvSame out out' := by
  simp only [step, py_bind_ok] at hs
  obtain ⟨ins, hins, outs, houts, hs⟩ := hs
  by_cases hlen : outs.length ≠ eqn.outvars.length
  · rw [if_pos hlen] at hs; cases hs
  rw [if_neg hlen] at hs
  obtain ⟨ins', hins', he⟩ := same_getInters hS hins
  have hI : List.Forall₂ (fun a i => PolyEncl (Atom.degree deg a) i.encl) eqn.invars ins :=
    (Poly.mapM_ok hins).imp fun a i h => poly_getInter hE h
  have hcv := constantValues_congr he
  have key : ∃ outs', eqnOutputs lib T' T0' false eqn ins' = .ok outs' ∧
      outs'.map Inter.encl = outs.map Inter.encl ∧
      ∀ p ∈ eqn.outvars.zip outs, PolyEncl (deg p.1) p.2.encl := by
    unfold eqnOutputs at houts ⊢
    rw [hcv]
    cases hc : ins.mapM Inter.constantValue with
    | some cs =>
      rw [hc] at houts
      simp only [py_bind_ok, py_pure] at houts
      obtain ⟨rs, hrs, rfl⟩ := houts
      refine ⟨rs.map constantInter, by simp only [hrs, py_ok_bind]; rfl, rfl, ?_⟩
      intro p hp
      obtain ⟨v, -, hv⟩ := List.mem_map.1 (List.of_mem_zip hp).2
      rw [← hv]
      exact poly_const _ _
    | none =>
      rw [hc] at houts
      have hop' : PolyOp deg eqn.prim eqn.invars eqn.outvars := by
        refine hop.resolve_left fun h0 => ?_
        have : ∃ vs, ins.mapM Inter.constantValue = some vs := by
          clear hc hcv he houts hins hs hop hins' hlen
          revert h0 hI
          generalize eqn.invars = as
          intro hI h0
          revert h0
          induction hI with
          | nil => intro _; exact ⟨[], rfl⟩
          | @cons a i l l' h1 _ ih =>
            intro h0
            rw [h0 a (by simp)] at h1
            obtain ⟨v, hv⟩ := constant_of_zero h1
            obtain ⟨vs, hvs⟩ := ih fun b hb => h0 b (by simp [hb])
            exact ⟨v :: vs, by rw [List.mapM_cons, hv, hvs]; rfl⟩
        obtain ⟨vs, hvs⟩ := this
        rw [hvs] at hc
        cases hc
      cases hf : pushforward lib T eqn.prim with
      | none => simp only [hf] at houts; cases houts
      | some f =>
        simp only [hf, py_bind_ok] at houts
        obtain ⟨e, hfe, houts⟩ := houts
        obtain ⟨o, f', ho, hP, hf', hall⟩ := poly_push hT hop' hdeg hI hf hfe
        rw [ho] at houts ⊢
        rw [if_neg (by simp)] at houts
        simp only [hf', hall ins' he, py_ok_bind]
        rw [if_neg (by simp)]
        have hout : ∃ t, outs = [⟨e, t⟩] := by
          cases propagate with
          | false =>
            simp only [Bool.false_eq_true, if_false, py_pure] at houts
            exact ⟨_, houts.symm⟩
          | true =>
            simp only [if_true, py_bind_ok, py_pure] at houts
            obtain ⟨r, -, h⟩ := houts
            exact ⟨_, h.symm⟩
        obtain ⟨t, rfl⟩ := hout
        refine ⟨[⟨e, none⟩], rfl, rfl, ?_⟩
        intro p hp
        simp only [List.zip_cons_cons, List.zip_nil_right, List.mem_singleton] at hp
        subst hp
        exact hP
  obtain ⟨outs', g1, g2, g3⟩ := key
  have hll : List.Forall₂ (fun p q : ℤ × Inter K => p.1 = q.1 ∧ p.2.encl = q.2.encl) (eqn.outvars.zip outs)
      (eqn.outvars.zip outs') := by
    clear g1 g3 hs hop houts hlen
    generalize eqn.outvars = vs
    induction vs generalizing outs outs' with
    | nil => simp
    | cons v vs ih =>
      cases outs with
      | nil => cases outs' with | nil => simp | cons a b => simp at g2
      | cons a l =>
        cases outs' with
        | nil => simp at g2
        | cons b l' =>
          simp only [List.map_cons, List.cons.injEq] at g2
          exact List.Forall₂.cons ⟨rfl, g2.1.symm⟩ (ih _ _ g2.2)
  obtain ⟨out', h1, h2, h3⟩ := poly_store hE hS g3 hll hs
  refine ⟨out', ?_, h2, h3⟩
  have hlen' : ¬ outs'.length ≠ eqn.outvars.length := by
    have := congrArg List.length g2
    simp only [List.length_map] at this
    rw [this]; exact hlen
  simp only [step, hins', g1, py_ok_bind]
  rw [if_neg hlen']
  exact h1

theorem poly_run (hT : SameTEA T T') {deg : ℤ → ℕ} (hdeg : ∀ v, deg v ≤ T.maxDegree) {propagate : Bool}
    {xs : List ℕ} {env env' out : Env K} {eqns : List (Eqn K)}
    (hop : ∀ eqn ∈ eqns, (∀ a ∈ eqn.invars, a.degree deg = 0) ∨ PolyOp deg eqn.prim eqn.invars eqn.outvars)
    (hE : EnvPoly deg env) (hS : EnvSame env env')
    (hs : eqns.foldlM (step lib T T0 propagate xs) env = .ok out) :
    ∃ out', eqns.foldlM (step lib T' T0' false xs) env' = .ok out' ∧ EnvPoly deg out ∧ EnvSame out out' := by
  induction eqns generalizing env env' with
  | nil => cases hs; exact ⟨env', rfl, hE, hS⟩
  | cons q l ih =>
    rw [List.foldlM_cons, py_bind_ok] at hs
    obtain ⟨env1, h1, h2⟩ := hs
    obtain ⟨env1', g1, g2, g3⟩ := poly_step (T0' := T0') hT hdeg (hop q (by simp)) hE hS h1
    obtain ⟨out', g4, g5⟩ := ih (fun e he => hop e (by simp [he])) g2 g3 h2
    refine ⟨out', ?_, g5⟩
    rw [List.foldlM_cons, g1, py_ok_bind]
    exact g4

end JB
end AB
