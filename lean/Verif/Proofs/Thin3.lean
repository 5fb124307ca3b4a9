/-
Widths of the results of `TaylorEnclosureArithmetic` (/repo/autobound/enclosure_arithmetic.py).
-/
import Verif.Proofs.Thin2

set_option linter.unusedSectionVars false

namespace AB
variable {K : Type} [Field K] [LinearOrder K] [IsStrictOrderedRing K]
open IA (repS)

/-- a family of enclosures with thin coefficients -/
abbrev ThinE {ι : Type} (w : ι → K) (i0 : ι) (E : ι → Encl K) : Prop := FamList (Thin w i0) E

section
variable {ι : Type} {w : ι → K} {i0 : ι} (hw : ∀ i, 0 ≤ w i)
include hw

namespace Poly

theorem thin_evalPolynomial {ip : Coef K → Coef K → Py (Coef K)} {op : Coef K → ℤ → Py (Coef K)}
    (hip : ∀ A B r : ι → Coef K, Thin w i0 A → Thin w i0 B → (∀ i, ip (A i) (B i) = .ok (r i)) → Thin w i0 r)
    (hop : ∀ (A r : ι → Coef K) (k : ℕ), Thin w i0 A → (∀ i, op (A i) (k : ℤ) = .ok (r i)) → Thin w i0 r)
    {E : ι → Encl K} (hE : ThinE w i0 E) {z : ι → Coef K} (hz : Thin w i0 z) {o zr : Coef K} (ho : o.isArr = true)
    (hzr : zr.isArr = true) {r : ι → Coef K} (h : ∀ i, evalPolynomial (E i) (z i) ip op IA.add zr o = .ok (r i)) :
    Thin w i0 r := by
  simp only [evalPolynomial, py_bind_ok, py_pure] at h
  choose t ht h using h
  have key : ∃ n : ℕ, ∃ c, Thin w i0 c ∧ t = fun i => (n, c i) := by
    refine fam_foldlM (Q := fun t : ι → ℕ × Coef K => ∃ n : ℕ, ∃ c, Thin w i0 c ∧ t = fun i => (n, c i)) ?_ hE
      (s := fun _ => (0, zr)) ⟨0, fun _ => zr, .const hw hzr, rfl⟩ ht
    rintro s x t ⟨n, c, hc, rfl⟩ hx h
    unfold evalStep at h
    have hrest : ∀ zi : ι → Coef K, Thin w i0 zi →
        (∀ i, (do let term ← ip (x i) (zi i); return (n + 1, ← IA.add (c i) term) : Py (ℕ × Coef K)) = .ok (t i)) →
        ∃ n : ℕ, ∃ c, Thin w i0 c ∧ t = fun i => (n, c i) := by
      intro zi hzi h
      simp only [py_bind_ok, py_pure] at h
      choose term h2 u h3 h4 using h
      exact ⟨n + 1, u, IA.thin_add hc (hip _ _ _ hx hzi h2) h3, funext fun i => (h4 i).symm⟩
    by_cases hn : n > 0
    · simp only [if_pos hn] at h
      simp only [py_bind_ok] at h
      choose zi h1 h using h
      refine hrest zi (hop _ _ _ hz h1) fun i => ?_
      simp only [py_bind_ok]
      exact h i
    · simp only [if_neg hn, py_ok_bind] at h
      exact hrest _ (.const hw ho) h
  obtain ⟨n, c, hc, rfl⟩ := key
  have : r = c := funext fun i => (h i).symm
  rw [this]; exact hc

theorem thin_evalTaylor {E : ι → Encl K} (hE : ThinE w i0 E) {z : ι → Coef K} (hz : Thin w i0 z) {r : ι → Coef K}
    (h : ∀ i, evalTaylorEnclosure (E i) (z i) = .ok (r i)) : Thin w i0 r := by
  refine thin_evalPolynomial hw ?_ ?_ hE hz rfl rfl h
  · intro A B r hA hB h
    simp only [hB.ndim] at h
    exact IA.thin_tensordot hw hA hB h
  · intro A r k hA h
    exact IA.thin_outerPower hw hA h

omit hw in
/-- the result of `add` stored in the list -/
theorem thin_store {s t : ι → Encl K} (hs : ThinE w i0 s) {c : ι → Coef K} (hc : Thin w i0 c) {n : ℕ}
    (h : ∀ i, (match (s i)[n]? with
      | some o => do let u ← IA.add o (c i); return (s i).set n u
      | none => (.error .indexError : Py (Encl K))) = .ok (t i)) : ThinE w i0 t := by
  rcases fam_getElem? hs n with hn | ⟨o, ho, hn⟩
  · have := h i0
    rw [hn] at this; cases this
  · simp only [hn, py_bind_ok, py_pure] at h
    choose u hu h using h
    have : t = fun i => (s i).set n (u i) := funext fun i => (h i).symm
    rw [this]
    exact fam_set hs (IA.thin_add ho hc hu) n

theorem thin_arbitraryBilinear {tpc : Coef K → Coef K → ℕ → ℕ → Py (Coef K)}
    (htpc : ∀ (A B r : ι → Coef K) p q, Thin w i0 A → Thin w i0 B → (∀ i, tpc (A i) (B i) p q = .ok (r i)) → Thin w i0 r)
    {a b : ι → Encl K} (ha : ThinE w i0 a) (hb : ThinE w i0 b) {z : Coef K} (hz : z.isArr = true) {r : ι → Encl K}
    (h : ∀ i, arbitraryBilinear (a i) (b i) IA.add z tpc = .ok (r i)) : ThinE w i0 r := by
  unfold arbitraryBilinear at h
  simp only [ha.length _ i0, hb.length _ i0] at h
  refine fam_foldlM (Q := ThinE w i0) ?_ (fam_pairs (fam_enum ha) (fam_enum hb)) ?_ h
  · rintro s x t hs ⟨_, _, ⟨p, A, hA, rfl⟩, ⟨q, B, hB, rfl⟩, rfl⟩ h
    simp only [bilinearStep, py_bind_ok] at h
    choose c hc h using h
    refine thin_store hs (htpc _ _ _ _ _ hA hB hc) (n := p + q) fun i => ?_
    rw [← h i]
    cases (s i)[p + q]? <;> rfl
  · exact .const _ fun x hx => by rw [List.eq_of_mem_replicate hx]; exact .const hw hz

theorem thin_integerPower {tpc : Coef K → Coef K → ℕ → ℕ → Py (Coef K)} {tpow : Coef K → ℕ → ℕ → Py (Coef K)}
    {smul : ℕ → Coef K → Py (Coef K)}
    (htpc : ∀ (A B r : ι → Coef K) p q, Thin w i0 A → Thin w i0 B → (∀ i, tpc (A i) (B i) p q = .ok (r i)) → Thin w i0 r)
    (htpow : ∀ (A r : ι → Coef K) p q, Thin w i0 A → (∀ i, tpow (A i) p q = .ok (r i)) → Thin w i0 r)
    (hsmul : ∀ (A r : ι → Coef K) n, Thin w i0 A → (∀ i, smul n (A i) = .ok (r i)) → Thin w i0 r)
    {a : ι → Encl K} (ha : ThinE w i0 a) {z o : Coef K} (hz : z.isArr = true) (ho : o.isArr = true) {p : ℤ} {r : ι → Encl K}
    (h : ∀ i, integerPower IA.add o tpc tpow smul z (a i) p = .ok (r i)) : ThinE w i0 r := by
  unfold integerPower at h
  by_cases hp : p < 0
  · have := h i0
    rw [if_pos hp] at this; cases this
  simp only [if_neg hp] at h
  by_cases hp0 : p = 0
  · simp only [if_pos hp0] at h
    rw [okEq h]
    exact .const _ fun x hx => by rw [List.mem_singleton.1 hx]; exact .const hw ho
  simp only [if_neg hp0, ha.length _ i0] at h
  refine fam_mapM (P := fun x : ι → ℕ => ∃ n, x = fun _ => n) ?_ (.const _ fun x _ => ⟨x, rfl⟩) h
  rintro _ c ⟨m, rfl⟩ h
  simp only [getCoeff, py_bind_ok, ha.length _ i0] at h
  choose ps hps h using h
  have e : ∀ i, ps i = ps i0 := by
    intro i
    have h1 := hps i
    rw [hps i0] at h1
    exact (Except.ok.inj h1).symm
  simp only [e] at h
  refine fam_foldlM (Q := Thin w i0) (P := fun x : ι → List ℕ => ∃ n, x = fun _ => n) ?_ (.const _ fun x _ => ⟨x, rfl⟩)
    (s := fun _ => z) (.const hw hz) h
  rintro s _ t hs ⟨q, rfl⟩ h
  unfold coeffStep at h
  by_cases g1 : q.sum ≠ p.toNat
  · have := h i0
    rw [if_pos g1] at this; cases this
  simp only [if_neg g1] at h
  by_cases g2 : (((List.range q.length).zip q).map fun t => t.1 * t.2).sum ≠ m
  · have := h i0
    rw [if_pos g2] at this; cases this
  simp only [if_neg g2, py_bind_ok] at h
  choose rp hrp h using h
  have hr : ∃ (c : ι → Coef K) (n : ℕ), Thin w i0 c ∧ rp = fun i => (c i, n) := by
    unfold partitionProduct at hrp
    refine fam_foldlM (Q := fun t : ι → Coef K × ℕ => ∃ (c : ι → Coef K) (n : ℕ), Thin w i0 c ∧ t = fun i => (c i, n)) ?_
      (fam_zip (fam_enum ha) q) (s := fun _ => (o, 0)) ⟨fun _ => o, 0, .const hw ho, rfl⟩ hrp
    rintro _ _ t ⟨c, n, hc, rfl⟩ ⟨_, m', ⟨j, x, hx, rfl⟩, rfl⟩ h
    simp only [productStep, py_bind_ok, py_pure] at h
    choose d hd e he h using h
    exact ⟨e, _, htpc _ _ _ _ _ hc (htpow _ _ _ _ hx hd) he, funext fun i => (h i).symm⟩
  obtain ⟨c', n', hc', rfl⟩ := hr
  by_cases g3 : n' ≠ m
  · have := h i0
    rw [if_pos g3] at this; cases this
  simp only [if_neg g3, py_bind_ok] at h
  choose mc hmc term hterm h using h
  have e2 : ∀ i, mc i = mc i0 := by
    intro i
    have h1 := hmc i
    rw [hmc i0] at h1
    exact (Except.ok.inj h1).symm
  simp only [e2] at hterm
  exact IA.thin_add hs (hsmul _ _ _ hc' hterm) h

end Poly

omit hw in
theorem thin_termProduct {d p q : ℕ} {A B r : ι → Coef K} (hA : Thin w i0 A) (hB : Thin w i0 B)
    (h : ∀ i, elementwiseTermProductCoefficient d (A i) (B i) p q = .ok (r i)) : Thin w i0 r := by
  obtain ⟨R, hR⟩ := formed_expand (K := K) (S := (A i0).shape) (T := (B i0).shape) (n := q * d) (ax := (A i0).shape.length)
    (m := p * d) (ay := (B i0).shape.length - q * d) le_rfl (Nat.sub_le _ _)
    (op := fun u v => pairwiseBatchedMultiply u v (p * d) (q * d)) (by
      intro x y s hx hy hs
      unfold pairwiseBatchedMultiply at hs
      rw [← hx, ← hy]; exact hs)
  exact IA.thin_bilinear1 hA hB hR h

omit hw in
theorem thin_leftBroadcast {A B r : ι → Coef K} (hA : Thin w i0 A) (hB : Thin w i0 B)
    (h : ∀ i, IA.arbitraryBilinear (A i) (B i) leftBroadcastingMultiply true = .ok (r i)) : Thin w i0 r := by
  obtain ⟨R, hR⟩ := formed_expand (K := K) (S := (A i0).shape) (T := (B i0).shape)
    (n := (B i0).shape.length - (A i0).shape.length)
    (ax := (A i0).shape.length) (m := 0) (ay := (B i0).shape.length) le_rfl le_rfl
    (op := leftBroadcastingMultiply) (by
      intro x y s hx hy hs
      unfold leftBroadcastingMultiply at hs
      split_ifs at hs with hc
      have : y.expandDims 0 (B i0).shape.length = y := by
        unfold ND.expandDims
        have e : y.shape.take (B i0).shape.length ++ List.replicate 0 1 ++ y.shape.drop (B i0).shape.length = y.shape := by simp
        rw [e]
        cases y with
        | mk sh g => simp
      rw [this, ← hx, ← hy]; exact hs)
  exact IA.thin_bilinear1 hA hB hR h

theorem thin_termPower {d p q : ℕ} {A r : ι → Coef K} (hA : Thin w i0 A)
    (h : ∀ i, elementwiseTermPowerCoefficient d (A i) p q = .ok (r i)) : Thin w i0 r := by
  unfold elementwiseTermPowerCoefficient at h
  simp only [hA.ndim] at h
  split_ifs at h with hc
  · exact (by have := h i0; cases this)
  · exact IA.thin_outerPower hw hA h

theorem thin_enclose {E : ι → Encl K} (hE : ThinE w i0 E) {z : ι → Coef K} (hz : Thin w i0 z) {n : ℕ} {r : ι → Encl K}
    (h : ∀ i, encloseEnclosure (E i) (z i) n = .ok (r i)) : ThinE w i0 r := by
  unfold encloseEnclosure at h
  simp only [hE.length _ i0] at h
  by_cases hl : (E i0).length ≤ n + 1
  · simp only [if_pos hl] at h
    rw [okEq h]; exact hE
  · simp only [if_neg hl, py_bind_ok, py_pure] at h
    choose c hc h using h
    have : r = fun i => (E i).take n ++ [c i] := funext fun i => (h i).symm
    rw [this]
    exact (hE.take n).append (.cons (Poly.thin_evalTaylor hw (hE.drop n) hz hc) .nil)

namespace TEA

/-- a family of arithmetics of one degree, with thin trust regions -/
structure ThinT (w : ι → K) (i0 : ι) (T : ι → TEA K) : Prop where
  deg : ∀ i, (T i).maxDegree = (T i0).maxDegree
  region : Thin w i0 fun i => (T i).trustRegion

variable {T : ι → TEA K}

omit hw in
theorem ThinT.xNdim (h : ThinT w i0 T) (i : ι) : (T i).xNdim = (T i0).xNdim := h.region.ndim i

omit hw in
theorem ThinT.nest (h : ThinT w i0 T) (i : ι) : NestT (T i) (T i0) := ⟨h.deg i, h.region.nest i⟩

variable (hT : ThinT w i0 T) {a b r : ι → Encl K} (ha : ThinE w i0 a) (hb : ThinE w i0 b)
include hT ha

theorem thin_truncate (h : ∀ i, (T i).truncateIfNecessary (a i) = .ok (r i)) : ThinE w i0 r := by
  unfold truncateIfNecessary at h
  simp only [hT.deg] at h
  exact thin_enclose hw ha hT.region h

omit hT hw in
include hb in
theorem thin_addCoeffs (h : ∀ i, addCoeffs (a i) (b i) = .ok (r i)) : ThinE w i0 r := by
  obtain ⟨L, h1, h2⟩ := ha
  simp only [h2] at h
  clear h2
  induction L generalizing b r with
  | nil =>
    have e : ∀ {b r : Encl K}, addCoeffs [] b = .ok r → r = b := by
      intro b r h
      cases b <;> cases h <;> rfl
    have : r = b := funext fun i => e (h i)
    rw [this]; exact hb
  | cons x L ih =>
    rcases hb.cases with hb | ⟨y, F, hy, hF, he⟩
    · simp only [hb, List.map_cons, addCoeffs] at h
      rw [okEq h]
      exact .cons (h1 x (by simp)) ⟨L, fun y hy => h1 y (List.mem_cons_of_mem _ hy), fun _ => rfl⟩
    · simp only [he, List.map_cons, addCoeffs, py_bind_ok, py_pure] at h
      choose c hc cs hcs h using h
      have : r = fun i => c i :: cs i := funext fun i => (h i).symm
      rw [this]
      exact .cons (IA.thin_add (h1 x (by simp)) hy hc) (ih hF (fun y hy => h1 y (List.mem_cons_of_mem _ hy)) hcs)

include hb in
theorem thin_add (h : ∀ i, (T i).add (a i) (b i) = .ok (r i)) : ThinE w i0 r := by
  simp only [add, py_bind_ok] at h
  choose c hc h using h
  exact thin_truncate hw hT (thin_addCoeffs ha hb hc) h

theorem thin_negative (h : ∀ i, (T i).negative (a i) = .ok (r i)) : ThinE w i0 r := by
  refine thin_truncate hw hT ?_ h
  exact ha.map fun x hx => IA.thin_negative hx

include hb in
theorem thin_subtract (h : ∀ i, (T i).subtract (a i) (b i) = .ok (r i)) : ThinE w i0 r := by
  simp only [subtract, py_bind_ok] at h
  choose c hc h using h
  exact thin_add hw hT ha (thin_negative hw hT hb hc) h

include hb in
theorem thin_multiply (h : ∀ i, (T i).multiply (a i) (b i) = .ok (r i)) : ThinE w i0 r := by
  simp only [multiply, py_bind_ok] at h
  choose _ _ _ _ c hc h using h
  simp only [hT.xNdim] at hc
  exact thin_truncate hw hT (Poly.thin_arbitraryBilinear hw (tpc := elementwiseTermProductCoefficient (T i0).xNdim)
    (fun _ _ _ _ _ h1 h2 h3 => thin_termProduct h1 h2 h3) ha hb rfl hc) h

theorem thin_powerNat {p : ℕ} (h : ∀ i, (T i).powerNat (a i) p = .ok (r i)) : ThinE w i0 r := by
  simp only [powerNat, py_bind_ok] at h
  choose _ _ h using h
  rcases ha.cases with ha0 | ⟨x, as, hx, has, e⟩
  · have := h i0
    rw [ha0] at this; cases this
  · have h2 : ∀ i, ∃ c, Poly.integerPower IA.add (.arr (IA.firstEndpoint (x i0)).onesLike)
        (elementwiseTermProductCoefficient (T i0).xNdim) (elementwiseTermPowerCoefficient (T i0).xNdim)
        (fun n c => IA.multiply (.arr (ND.scalar (n : K))) c) (.arr (ND.scalar 0)) (a i) p = .ok c ∧
        (T i).truncateIfNecessary c = .ok (r i) := by
      intro i
      have := h i
      rw [e i] at this ⊢
      simp only [py_bind_ok] at this
      obtain ⟨c, hc, h⟩ := this
      rw [hT.xNdim, IA.firstEndpoint_ones hx] at hc
      exact ⟨c, hc, h⟩
    choose c hc h using h2
    exact thin_truncate hw hT (Poly.thin_integerPower hw (tpc := elementwiseTermProductCoefficient (T i0).xNdim)
      (tpow := elementwiseTermPowerCoefficient (T i0).xNdim) (smul := fun n c => IA.multiply (.arr (ND.scalar (n : K))) c)
      (fun _ _ _ _ _ h1 h2 h3 => thin_termProduct h1 h2 h3)
      (fun _ _ _ _ h1 h2 => thin_termPower hw h1 h2)
      (fun _ _ _ h1 h2 => IA.thin_multiply (.arr hw _) h1 h2) ha rfl rfl hc) h

theorem thin_composeTerm {p : ℕ} {c : ι → Coef K} (hc : Thin w i0 c) (h : ∀ i, (T i).composeTerm (a i) p (c i) = .ok (r i)) :
    ThinE w i0 r := by
  unfold composeTerm at h
  by_cases hp : p = 0
  · simp only [if_pos hp] at h
    rw [okEq h]
    exact .cons hc .nil
  · simp only [if_neg hp, py_bind_ok] at h
    choose q hq h using h
    refine fam_mapM ?_ (fam_enum (thin_powerNat hw hT ha hq)) h
    rintro _ t ⟨n, x, hx, rfl⟩ h
    simp only at h
    by_cases hip : n < p
    · simp only [if_pos hip] at h
      rw [okEq h]; exact .arr hw _
    · simp only [if_neg hip] at h
      exact thin_leftBroadcast hc hx h

include hb in
theorem thin_compose (h : ∀ i, (T i).composeEnclosures (a i) (b i) = .ok (r i)) : ThinE w i0 r := by
  unfold composeEnclosures at h
  rcases ha.cases with ha0 | ⟨x, as, hx, has, e⟩
  · have := h i0
    rw [ha0] at this; cases this
  · have hne : ∀ i, ¬ (a i).isEmpty = true := fun i => by rw [e i]; simp
    simp only [if_neg (hne _)] at h
    refine fam_foldlM (Q := ThinE w i0) ?_ (fam_enum ha) (.const _ fun x hx => by
      rw [List.mem_singleton.1 hx]; exact .arr hw _) h
    rintro s _ t hs ⟨n, y, hy, rfl⟩ h
    simp only [composeStep, py_bind_ok] at h
    choose q hq h using h
    exact thin_add hw hT hs (thin_composeTerm hw hT (.cons (.arr hw _) (hb.drop 1)) hy hq) h

end TEA
end
end AB
