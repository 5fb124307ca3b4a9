import Verif.Proofs.EncOps
import Verif.Spec.Enclosure

set_option linter.unusedSectionVars false

namespace AB
variable {K : Type}

open IA (repS repS_succ repS_succ' repS_zero repS_length repS_add repS_one BTerm)

namespace Poly
variable {F W V τ : Type} [AddCommMonoid W] [CommSemiring V]
variable {Rel0 Rel : ℕ → F → W → Prop} {add : F → F → Py F}

/-- accumulation of terms into the coefficients of an output list -/
theorem setFold_rel (val : ℕ → W →+ V)
    (hsub : ∀ {i x u}, Rel i x u → Rel0 i x u)
    (hadd : ∀ {i x y r u v}, Rel0 i x u → Rel i y v → add x y = .ok r → Rel i r (u + v))
    (deg : τ → ℕ) (tc : τ → Py F) (q : τ → V) (l : List τ)
    (hl : ∀ t ∈ l, ∀ c, tc t = .ok c → ∃ m, Rel (deg t) c m ∧ val (deg t) m = q t)
    {o out : List F} {u : ℕ → W} (ho : ∀ d c, o[d]? = some c → Rel0 d c (u d))
    (hu : ∀ d, o[d]? = none → u d = 0)
    {step : List F → τ → Py (List F)}
    (hstep : ∀ o t o', step o t = .ok o' → ∃ c x s, tc t = .ok c ∧ o[deg t]? = some x ∧
      add x c = .ok s ∧ o' = o.set (deg t) s)
    (h : l.foldlM step o = .ok out) :
    out.length = o.length ∧ ∃ u' : ℕ → W,
      (∀ d c, out[d]? = some c → Rel0 d c (u' d)) ∧
      (∀ d, out[d]? = none → u' d = 0) ∧
      (∀ d, ((∀ c, o[d]? = some c → Rel d c (u d)) ∨ ∃ t ∈ l, deg t = d) →
        ∀ c, out[d]? = some c → Rel d c (u' d)) ∧
      (∑ d ∈ Finset.range out.length, val d (u' d)) =
        (∑ d ∈ Finset.range o.length, val d (u d)) + (l.map q).sum := by
  induction l generalizing o u with
  | nil =>
    simp at h; subst h
    exact ⟨rfl, u, ho, hu, by simp, by simp⟩
  | cons t l ih =>
    rw [List.foldlM_cons] at h
    simp only [py_bind_ok] at h
    obtain ⟨o1, h1, h⟩ := h
    obtain ⟨c, oc, s, hc, hoc, hs, rfl⟩ := hstep _ _ _ h1
    obtain ⟨m, r1, hm⟩ := hl t (by simp) c hc
    have hd := (List.getElem?_eq_some_iff.1 hoc).1
    set d := deg t with hdd
    have r2 := hadd (ho d oc hoc) r1 hs
    let u1 : ℕ → W := Function.update u d (u d + m)
    obtain ⟨i1, u', i2, i2', i3, i4⟩ := ih (fun t ht => hl t (by simp [ht])) (o := o.set d s)
      (u := u1) (by
        intro e ce he
        rw [List.getElem?_set] at he
        split_ifs at he with e1
        · subst e1; cases he; simp only [u1, Function.update_self]; exact hsub r2
        · simp only [u1]; rw [Function.update_of_ne (Ne.symm e1)]; exact ho e ce he)
      (by
        intro e he
        rw [List.getElem?_set] at he
        split_ifs at he with e1
        · simp only [u1]; rw [Function.update_of_ne (Ne.symm e1)]; exact hu e he) h
    refine ⟨by rw [i1, List.length_set], u', i2, i2', ?_, ?_⟩
    · intro e he
      apply i3
      by_cases e1 : d = e
      · left
        subst e1
        intro ce hce
        rw [List.getElem?_set_self hd] at hce; cases hce
        simp only [u1, Function.update_self]; exact r2
      · rcases he with he | ⟨t', ht', e2⟩
        · left
          intro ce hce
          rw [List.getElem?_set_ne e1] at hce
          simp only [u1]; rw [Function.update_of_ne (Ne.symm e1)]; exact he ce hce
        · rcases List.mem_cons.1 ht' with rfl | ht'
          · exact absurd e2 e1
          · exact Or.inr ⟨t', ht', e2⟩
    · rw [i4, List.map_cons, List.sum_cons, ← add_assoc, List.length_set]
      congr 1
      rw [← Finset.add_sum_erase _ _ (Finset.mem_range.2 hd)]
      rw [← Finset.add_sum_erase (Finset.range o.length) (fun d => val d (u d))
        (Finset.mem_range.2 hd)]
      simp only [u1, Function.update_self]
      rw [map_add, hm]
      rw [Finset.sum_congr rfl (g := fun e => val e (u e)) (by
        intro e he
        rw [Function.update_of_ne (Finset.ne_of_mem_erase he)])]
      ring
end Poly

section
variable [Field K] [LinearOrder K] [IsStrictOrderedRing K]

/-- all coefficients have batch shape exactly `R` -/
def VX (xs R : List ℕ) (E : Encl K) : Prop :=
  ∀ i c, E[i]? = some c → c.WF ∧ c.shape = R ++ repS i xs

theorem VX.veu {xs R : List ℕ} {E : Encl K} (h : VX xs R E) {U : Mode} (hU : ∀ i, U i R) : VEU U xs R E :=
  fun i c hc => ⟨(h i c hc).1, R, (h i c hc).2, ble_refl _, hU i⟩

/-- contracting the last `e` degrees of a coefficient with the trust region -/
theorem contract_ok {Z : Coef K} (hZ : Z.WF) {z : List ℕ → K} (hz : ZMem Z z) {R : List ℕ}
    {d e : ℕ} {c r zp : Coef K} (hc : c.WF) (hs : c.shape = R ++ repS (d + e) Z.shape)
    (hzp : IA.outerPower Z e = .ok zp) (h : IA.tensordot c zp (e * Z.shape.length) = .ok r) :
    r.WF ∧ r.shape = R ++ repS d Z.shape ∧
    ∀ I, R.length ≤ I.length → ∀ u : List ℕ → K,
      (∀ J, ValidIdx (repS (d + e) Z.shape) J → c.Mem (I ++ J) (u J)) →
      ∀ A, ValidIdx (repS d Z.shape) A →
        r.Mem (I ++ A) (pair Z.shape z e (fun B => u (A ++ B))) := by
  obtain ⟨z1, z2, -, z4⟩ := outerPower_point hZ hzp hz
  obtain ⟨t1, t2, t3, t4, t5, -, t7⟩ := IA.tensordot_mem hc z1 h
  have zn : zp.ndim = e * Z.shape.length := by rw [Coef.ndim_def, z2]; simp
  have cn : c.ndim - e * Z.shape.length = (R ++ repS d Z.shape).length := by
    rw [Coef.ndim_def, hs]; simp [Nat.add_mul]; omega
  have hs' : c.shape = (R ++ repS d Z.shape) ++ repS e Z.shape := by
    rw [hs, repS_add, List.append_assoc]
  have htake : zp.shape.take (e * Z.shape.length) = repS e Z.shape := by
    rw [z2]; apply List.take_of_length_le; simp
  refine ⟨t1, ?_, ?_⟩
  · rw [t5, cn, hs', List.take_left, z2, List.drop_of_length_le (by simp), List.append_nil]
  · intro I hI u hu A hA
    have := t7 (I ++ A) [] (by rw [cn]; have := hA.length; simp at this ⊢; omega)
      (by rw [zn]; simp) (fun B => u (A ++ B)) (fun J => AB.zp Z.shape.length z e J)
      (fun J hJ => by
        rw [htake] at hJ
        rw [List.append_assoc]
        exact hu _ (by rw [repS_add]; exact validIdx_append hA (mem_idx.1 hJ)))
      (fun J hJ => by
        rw [htake] at hJ
        simpa using z4 J (mem_idx.1 hJ))
    rw [htake] at this
    simpa [pair] using this

variable {Ra Rb Rc : List ℕ} {terms : List ℕ → List (K × List ℕ × List ℕ)}
  {pbb : ND K → ND K → ℕ → ℕ → Py (ND K)}

theorem pairwise_term {xs : List ℕ} (hP : PairwiseContract xs Ra Rb Rc terms pbb)
    (hw : ∀ L, ValidIdx Rc L → ∀ t ∈ terms L, 0 ≤ t.1) {i j : ℕ} {x y r : Coef K} (hx : x.WF)
    (hy : y.WF) (sx : x.shape = Ra ++ repS i xs) (sy : y.shape = Rb ++ repS j xs)
    (h : IA.arbitraryBilinear x y (fun a b => pbb a b (i * xs.length) (j * xs.length)) = .ok r) :
    r.WF ∧ r.shape = Rc ++ repS (i + j) xs ∧
    ∀ L, ValidIdx Rc L → ∀ f g : List ℕ → List ℕ → K,
      (∀ α, ValidIdx Ra α → ∀ J, ValidIdx (repS i xs) J → x.Mem (α ++ J) (f α J)) →
      (∀ β, ValidIdx Rb β → ∀ J, ValidIdx (repS j xs) J → y.Mem (β ++ J) (g β J)) →
      ∀ J, ValidIdx (repS (i + j) xs) J → r.Mem (L ++ J)
        ((terms L).map fun t => t.1 * selMul (i * xs.length) (f t.2.1) (g t.2.2) J).sum := by
  have key := fun (a b s : ND K) (ha : a.shape = x.shape) (hb : b.shape = y.shape)
      (hs : pbb a b (i * xs.length) (j * xs.length) = .ok s) =>
    hP.2 i j (repS i xs) (repS j xs) a b s rfl rfl (ha.trans sx) (hb.trans sy) hs
  have hR : ∀ a b s : ND K, a.shape = x.shape → b.shape = y.shape →
      pbb a b (i * xs.length) (j * xs.length) = .ok s → s.shape = Rc ++ repS (i + j) xs := by
    intro a b s ha hb hs
    rw [(key a b s ha hb hs).1, List.append_assoc, repS_add]
  obtain ⟨r1, r2, -, -⟩ := IA.bilinearFalse_ok hx hy hR h
  refine ⟨r1, r2, ?_⟩
  intro L hL f g hf hg J hJ
  have hJ' := hJ
  rw [repS_add] at hJ'
  obtain ⟨J0, J1, rfl, hJ0, hJ1⟩ := validIdx_split hJ'
  have l0 : J0.length = i * xs.length := by simpa using hJ0.length.symm
  have l1 : J1.length = j * xs.length := by simpa using hJ1.length.symm
  have := IA.bilinearFalse_mem hx hy hR h (L := L ++ (J0 ++ J1))
    (T := (terms L).map fun t => (t.1, t.2.1 ++ J0, t.2.2 ++ J1))
    (by have := hL.length; have := hJ.length; simp only [List.length_append] at *; omega)
    (by
      intro a b s ha hb hs
      have hk := key a b s ha hb hs
      have hv : ValidIdx s.shape (L ++ (J0 ++ J1)) := by
        rw [hR a b s ha hb hs]; exact validIdx_append hL hJ
      rw [ND.bget_valid _ hv, ← List.append_assoc, hk.2 L J0 J1 hL hJ0 hJ1, List.map_map]
      congr 1
      apply List.map_congr_left
      intro t ht
      obtain ⟨va, vb⟩ := hP.1 L hL t ht
      simp only [Function.comp]
      rw [ND.bget_valid _ (by rw [ha, sx]; exact validIdx_append va hJ0),
        ND.bget_valid _ (by rw [hb, sy]; exact validIdx_append vb hJ1)])
    (Or.inr (by
      intro t ht
      obtain ⟨t', ht', rfl⟩ := List.mem_map.1 ht
      exact hw L hL t' ht'))
    (s := fun X => f (X.take Ra.length) (X.drop Ra.length))
    (t := fun X => g (X.take Rb.length) (X.drop Rb.length))
    (by
      intro t ht
      obtain ⟨t', ht', rfl⟩ := List.mem_map.1 ht
      obtain ⟨va, vb⟩ := hP.1 L hL t' ht'
      simp only
      rw [List.take_left' va.length.symm, List.drop_left' va.length.symm]
      exact hf _ va J0 hJ0)
    (by
      intro t ht
      obtain ⟨t', ht', rfl⟩ := List.mem_map.1 ht
      obtain ⟨va, vb⟩ := hP.1 L hL t' ht'
      simp only
      rw [List.take_left' vb.length.symm, List.drop_left' vb.length.symm]
      exact hg _ vb J1 hJ1)
  rw [List.map_map] at this
  convert this using 2
  apply List.map_congr_left
  intro t ht
  obtain ⟨va, vb⟩ := hP.1 L hL t ht
  simp only [Function.comp]
  rw [List.take_left' vb.length.symm, List.drop_left' vb.length.symm,
    List.take_left' va.length.symm, List.drop_left' va.length.symm]
  unfold selMul
  rw [List.take_left' l0, List.drop_left' l0]

theorem pair_list_sum {τ : Type} (xs : List ℕ) (z : List ℕ → K) (i : ℕ) (l : List τ)
    (f : τ → List ℕ → K) :
    pair xs z i (fun J => (l.map fun t => f t J).sum) = (l.map fun t => pair xs z i (f t)).sum := by
  induction l with
  | nil => simp
  | cons t l ih =>
    simp only [List.map_cons, List.sum_cons]
    rw [pair_add, ih]

namespace TEA

theorem bilinearStep_inv (T : TEA K) {pbb : ND K → ND K → ℕ → ℕ → Py (ND K)} (o : Encl K)
    (t : (ℕ × Coef K) × (ℕ × Coef K)) (o' : Encl K) (h : T.bilinearStep pbb o t = .ok o') :
    ∃ c x s, T.termEnclosureCoefficient pbb t.1.2 t.2.2 t.1.1 t.2.1 = .ok c ∧
      o[min (t.1.1 + t.2.1) T.maxDegree]? = some x ∧ IA.add x c = .ok s ∧
      o' = o.set (min (t.1.1 + t.2.1) T.maxDegree) s := by
  simp only [bilinearStep, py_bind_ok] at h
  obtain ⟨c, hc, h1⟩ := h
  split at h1
  · cases h1
  rename_i oc hoc
  simp only [py_bind_ok, py_pure] at h1
  obtain ⟨s, hs, rfl⟩ := h1
  exact ⟨c, oc, s, hc, hoc, hs, rfl⟩

variable {T : TEA K} (hT : T.trLo.shape = T.trHi.shape) {z : List ℕ → K}
  (hz : ZMem T.trustRegion z)

include hT hz

theorem termEnclosure_ok (hP : PairwiseContract T.xShape Ra Rb Rc terms pbb)
    (hw : ∀ L, ValidIdx Rc L → ∀ t ∈ terms L, 0 ≤ t.1) {i j : ℕ} {x y r : Coef K} (hx : x.WF)
    (hy : y.WF) (sx : x.shape = Ra ++ repS i T.xShape) (sy : y.shape = Rb ++ repS j T.xShape)
    (h : T.termEnclosureCoefficient pbb x y i j = .ok r) :
    r.WF ∧ r.shape = Rc ++ repS (min (i + j) T.maxDegree) T.xShape ∧
    ∀ L, ValidIdx Rc L → ∀ f g : List ℕ → List ℕ → K,
      (∀ α, ValidIdx Ra α → ∀ J, ValidIdx (repS i T.xShape) J → x.Mem (α ++ J) (f α J)) →
      (∀ β, ValidIdx Rb β → ∀ J, ValidIdx (repS j T.xShape) J → y.Mem (β ++ J) (g β J)) →
      ∃ m : List ℕ → K,
        (∀ J, ValidIdx (repS (min (i + j) T.maxDegree) T.xShape) J → r.Mem (L ++ J) (m J)) ∧
        pair T.xShape z (min (i + j) T.maxDegree) m = ((terms L).map fun t =>
          t.1 * (pair T.xShape z i (f t.2.1) * pair T.xShape z j (g t.2.2))).sum := by
  unfold termEnclosureCoefficient at h
  by_cases hd : i + j ≤ T.maxDegree
  · rw [if_pos hd] at h
    have hmin : min (i + j) T.maxDegree = i + j := by omega
    rw [hmin]
    obtain ⟨r1, r2, r3⟩ := pairwise_term (xs := T.xShape) hP hw hx hy sx sy h
    refine ⟨r1, r2, fun L hL f g hf hg => ⟨_, r3 L hL f g hf hg, ?_⟩⟩
    rw [pair_list_sum]
    congr 1
    apply List.map_congr_left
    intro t _
    rw [pair_smul, pair_mul]
  · rw [if_neg hd] at h
    simp only at h
    set ei := min i (i + j - T.maxDegree) with hei
    set ej := i + j - T.maxDegree - ei with hej
    rw [if_neg (by omega)] at h
    have h : ∃ zi, IA.outerPower T.trustRegion ei = .ok zi ∧ ∃ c0,
        IA.tensordot x zi (ei * T.xNdim) = .ok c0 ∧ ∃ c1,
        (if ej > 0 then do IA.tensordot y (← IA.outerPower T.trustRegion ej) (ej * T.xNdim)
          else .ok y) = .ok c1 ∧ IA.arbitraryBilinear c0 c1 (fun y z =>
            pbb y z ((i - ei) * T.xNdim) ((j - ej) * T.xNdim)) = .ok r := by
      simp only [py_bind_ok] at h
      obtain ⟨zi, hzi, c0, hc0, h⟩ := h
      refine ⟨zi, hzi, c0, hc0, ?_⟩
      split_ifs at h ⊢ with h0
      · simp only [py_bind_ok] at h ⊢
        obtain ⟨zj, hzj, c1, hc1, h⟩ := h
        exact ⟨c1, ⟨zj, hzj, hc1⟩, h⟩
      · simp only [py_ok_bind] at h
        exact ⟨y, rfl, h⟩
    obtain ⟨zi, hzi, c0, hc0, c1, hc1, h⟩ := h
    have hmin : min (i + j) T.maxDegree = (i - ei) + (j - ej) := by omega
    rw [hmin]
    have hi : i = (i - ei) + ei := by omega
    have hj : j = (j - ej) + ej := by omega
    obtain ⟨a1, a2, a3⟩ := contract_ok (trWF T hT) hz (R := Ra) (d := i - ei) (e := ei) hx
      (by rw [← hi]; exact sx) hzi hc0
    have hc1' : c1.WF ∧ c1.shape = Rb ++ repS (j - ej) T.xShape ∧
        ∀ I, Rb.length ≤ I.length → ∀ u : List ℕ → K,
        (∀ J, ValidIdx (repS j T.xShape) J → y.Mem (I ++ J) (u J)) →
        ∀ A, ValidIdx (repS (j - ej) T.xShape) A →
          c1.Mem (I ++ A) (pair T.xShape z ej (fun B => u (A ++ B))) := by
      split_ifs at hc1 with hpos
      · simp only [py_bind_ok] at hc1
        obtain ⟨zj, hzj, hc1⟩ := hc1
        have := contract_ok (trWF T hT) hz (R := Rb) (d := j - ej) (e := ej) hy
          (by rw [← hj]; exact sy) hzj hc1
        rw [← hj] at this
        exact this
      · cases hc1
        have h0 : ej = 0 := by omega
        rw [h0]
        refine ⟨hy, sy, fun I hI u hu A hA => ?_⟩
        rw [pair_zero_deg, List.append_nil]
        exact hu A hA
    obtain ⟨b1, b2, b3⟩ := hc1'
    obtain ⟨r1, r2, r3⟩ := pairwise_term (xs := T.xShape) hP hw a1 b1 a2 b2 h
    refine ⟨r1, r2, fun L hL f g hf hg => ?_⟩
    refine ⟨_, r3 L hL (fun α A => pair T.xShape z ei (fun B => f α (A ++ B)))
      (fun β A => pair T.xShape z ej (fun B => g β (A ++ B))) ?_ ?_, ?_⟩
    · intro α hα J hJ
      exact a3 α (by rw [hα.length]) (f α) (by rw [← hi]; exact hf α hα) J hJ
    · intro β hβ J hJ
      exact b3 β (by rw [hβ.length]) (g β) (hg β hβ) J hJ
    · rw [pair_list_sum]
      congr 1
      apply List.map_congr_left
      intro t _
      rw [pair_smul]
      congr 1
      have e1 : pair T.xShape z i (f t.2.1) = pair T.xShape z (i - ei) (fun A =>
          pair T.xShape z ei (fun B => f t.2.1 (A ++ B))) := by
        conv_lhs => rw [hi]
        rw [pair_split]
      have e2 : pair T.xShape z j (g t.2.2) = pair T.xShape z (j - ej) (fun A =>
          pair T.xShape z ej (fun B => g t.2.2 (A ++ B))) := by
        conv_lhs => rw [hj]
        rw [pair_split]
      rw [e1, e2, pair_mul]

/-- `TaylorEnclosureArithmetic.arbitrary_bilinear` -/
theorem arbitraryBilinear_SR (hP : PairwiseContract T.xShape Ra Rb Rc terms pbb)
    (hw : ∀ L, ValidIdx Rc L → ∀ t ∈ terms L, 0 ≤ t.1) {a b c : Encl K} (ha : a ≠ [])
    (hb : b ≠ []) (va : VX T.xShape Ra a) (vb : VX T.xShape Rb b)
    (h : T.arbitraryBilinear a b pbb = .ok c) :
    c.length = min (T.maxDegree + 1) (a.length + b.length - 1) ∧
    ∀ L, ValidIdx Rc L → ∀ f g : List ℕ → ℕ → List ℕ → K,
      (∀ α, ValidIdx Ra α → Sel T.xShape a α (f α)) →
      (∀ β, ValidIdx Rb β → Sel T.xShape b β (g β)) →
      ∃ W, SR (exactM Rc) T.xShape Rc L c W ∧ selVal T.xShape z c.length W = ((terms L).map fun t =>
        t.1 * (selVal T.xShape z a.length (f t.2.1) * selVal T.xShape z b.length (g t.2.2))).sum := by
  have hal : a.length ≠ 0 := fun h => ha (List.length_eq_zero_iff.1 h)
  have hbl : b.length ≠ 0 := fun h => hb (List.length_eq_zero_iff.1 h)
  unfold arbitraryBilinear at h
  have main : ∀ L, ValidIdx Rc L → ∀ f g : List ℕ → ℕ → List ℕ → K,
      (∀ α, ValidIdx Ra α → Sel T.xShape a α (f α)) →
      (∀ β, ValidIdx Rb β → Sel T.xShape b β (g β)) → _ := fun L hL f g hf hg =>
    Poly.setFold_rel (Rel0 := SRel0 (exactM Rc) T.xShape Rc L) (Rel := SRel (exactM Rc) T.xShape Rc L)
      (fun i => pairHom T.xShape z i) Or.inl (add := IA.add) (add0_rel (exactM_cl Rc) hL.length.le)
      (fun x : (ℕ × Coef K) × (ℕ × Coef K) => min (x.1.1 + x.2.1) T.maxDegree)
      (fun x => T.termEnclosureCoefficient pbb x.1.2 x.2.2 x.1.1 x.2.1)
      (fun x => ((terms L).map fun t => t.1 * (pair T.xShape z x.1.1 (f t.2.1 x.1.1) *
        pair T.xShape z x.2.1 (g t.2.2 x.2.1))).sum)
      ((Poly.enum a).flatMap fun x => (Poly.enum b).map fun y => (x, y)) (by
        intro t ht c hc
        simp only [List.mem_flatMap, List.mem_map] at ht
        obtain ⟨⟨i, x⟩, hx, ⟨j, y⟩, hy, rfl⟩ := ht
        have hx := Poly.mem_enum.1 hx
        have hy := Poly.mem_enum.1 hy
        obtain ⟨r1, r2, r3⟩ := termEnclosure_ok hT hz hP hw (va i x hx).1 (vb j y hy).1
          (va i x hx).2 (vb j y hy).2 hc
        obtain ⟨m, m1, m2⟩ := r3 L hL (fun α => f α i) (fun β => g β j)
          (fun α hα J hJ => (hf α hα i).1 x hx J hJ) (fun β hβ J hJ => (hg β hβ j).1 y hy J hJ)
        exact ⟨m, ⟨⟨r1, Rc, r2, ble_refl _, rfl⟩, m1⟩, m2⟩)
      (o := List.replicate (min (T.maxDegree + 1) (a.length + b.length - 1)) (.arr (ND.scalar 0)))
      (u := fun _ => 0) (by
        intro d c hd
        rw [List.getElem?_replicate] at hd
        split_ifs at hd
        cases hd
        exact Or.inr ⟨⟨_, rfl, rfl, rfl⟩, rfl⟩) (fun _ _ => rfl) T.bilinearStep_inv h
  have hlen : c.length = min (T.maxDegree + 1) (a.length + b.length - 1) := by
    have : ∀ (l : List ((ℕ × Coef K) × (ℕ × Coef K))) (o c : Encl K),
        l.foldlM (T.bilinearStep pbb) o = .ok c → c.length = o.length := by
      intro l
      induction l with
      | nil => intro o c h; simp at h; rw [h]
      | cons t l ih =>
        intro o c h
        rw [List.foldlM_cons] at h
        simp only [py_bind_ok] at h
        obtain ⟨o1, h1, h⟩ := h
        obtain ⟨_, _, s, -, -, -, rfl⟩ := T.bilinearStep_inv _ _ _ h1
        rw [ih _ _ h, List.length_set]
    rw [this _ _ _ h, List.length_replicate]
  refine ⟨hlen, ?_⟩
  intro L hL f g hf hg
  obtain ⟨-, u, -, h2, h3, h4⟩ := main L hL f g hf hg
  refine ⟨u, ⟨?_, h2⟩, ?_⟩
  · intro i x hx
    apply h3 i _ x hx
    right
    have hi := (List.getElem?_eq_some_iff.1 hx).1
    rw [hlen] at hi
    have e1 : min i (a.length - 1) < a.length := by omega
    have e2 : i - min i (a.length - 1) < b.length := by omega
    refine ⟨((min i (a.length - 1), a[min i (a.length - 1)]),
      (i - min i (a.length - 1), b[i - min i (a.length - 1)])), ?_, by
        show min (min i (a.length - 1) + (i - min i (a.length - 1))) T.maxDegree = i; omega⟩
    simp only [List.mem_flatMap, List.mem_map]
    exact ⟨_, Poly.mem_enum.2 (List.getElem?_eq_getElem e1), _,
      Poly.mem_enum.2 (List.getElem?_eq_getElem e2), rfl⟩
  · have h5 : selVal T.xShape z c.length u = _ := h4
    rw [h5]
    simp only [map_zero, Finset.sum_const_zero, zero_add]
    -- exchange the sums
    generalize terms L = ts
    induction ts with
    | nil => simp
    | cons t ts ih =>
      simp only [List.map_cons, List.sum_cons] at ih ⊢
      rw [List.sum_map_add, ih]
      congr 1
      rw [List.map_flatMap, List.flatMap_def, List.sum_flatten, List.map_map]
      unfold selVal
      rw [← Poly.enum_sum a (fun j => pair T.xShape z j (f t.2.1 j)), ← List.sum_map_mul_right,
        ← List.sum_map_mul_left]
      congr 1
      apply List.map_congr_left
      intro x _
      rw [← Poly.enum_sum b (fun j => pair T.xShape z j (g t.2.2 j))]
      simp only [Function.comp, List.map_map]
      rw [← List.sum_map_mul_left, ← List.sum_map_mul_left]
      rfl

end TEA
end
end AB
