/-
Inclusion isotonicity of `TaylorEnclosureArithmetic` (/repo/autobound/enclosure_arithmetic.py).
-/
import Verif.Proofs.Iso

set_option linter.unusedSectionVars false

namespace AB
variable {K : Type} [Field K] [LinearOrder K] [IsStrictOrderedRing K]

section lists
variable {α α' β β' : Type}

theorem foldlM_rel {Rs : β' → β → Prop} {Rx : α' → α → Prop} {f' : β' → α' → Py β'} {f : β → α → Py β}
    (hf : ∀ s' s x' x t' t, Rs s' s → Rx x' x → f' s' x' = .ok t' → f s x = .ok t → Rs t' t)
    {l' : List α'} {l : List α} (hl : List.Forall₂ Rx l' l) {s' : β'} {s : β} (hs : Rs s' s) {t' : β'} {t : β}
    (h' : l'.foldlM f' s' = .ok t') (h : l.foldlM f s = .ok t) : Rs t' t := by
  induction hl generalizing s' s with
  | nil => cases h; cases h'; exact hs
  | cons hx _ ih =>
    rw [List.foldlM_cons, py_bind_ok] at h h'
    obtain ⟨u, hu, h⟩ := h
    obtain ⟨u', hu', h'⟩ := h'
    exact ih (hf _ _ _ _ _ _ hs hx hu' hu) h' h

theorem mapM_rel {Ry : β' → β → Prop} {Rx : α' → α → Prop} {f' : α' → Py β'} {f : α → Py β}
    (hf : ∀ x' x t' t, Rx x' x → f' x' = .ok t' → f x = .ok t → Ry t' t)
    {l' : List α'} {l : List α} (hl : List.Forall₂ Rx l' l) {t' : List β'} {t : List β}
    (h' : l'.mapM f' = .ok t') (h : l.mapM f = .ok t) : List.Forall₂ Ry t' t := by
  induction hl generalizing t' t with
  | nil => 
    rw [List.mapM_nil] at h h'
    cases h; cases h'; exact .nil
  | cons hx _ ih =>
    rw [List.mapM_cons, py_bind_ok] at h h'
    obtain ⟨u, hu, h⟩ := h
    obtain ⟨u', hu', h'⟩ := h'
    rw [py_bind_ok] at h h'
    obtain ⟨v, hv, h⟩ := h
    obtain ⟨v', hv', h'⟩ := h'
    cases h; cases h'
    exact .cons (hf _ _ _ _ hx hu' hu) (ih hv' hv)

theorem enum_rel {R : α' → α → Prop} {l' : List α'} {l : List α} (h : List.Forall₂ R l' l) :
    List.Forall₂ (fun x' x => x'.1 = x.1 ∧ R x'.2 x.2) (Poly.enum l') (Poly.enum l) := by
  unfold Poly.enum
  rw [h.length_eq]
  generalize hr : List.range l.length = rs
  have : l.length = rs.length := by rw [← hr, List.length_range]
  clear hr
  induction h generalizing rs with
  | nil => simp
  | cons hx _ ih =>
    cases rs with
    | nil => simp at this
    | cons r rs => 
      rw [List.zip_cons_cons, List.zip_cons_cons]
      exact .cons ⟨rfl, hx⟩ (ih rs (by simpa using this))

theorem pairs_rel {R : α' → α → Prop} {S : β' → β → Prop} {l' : List α'} {l : List α} {m' : List β'} {m : List β}
    (h : List.Forall₂ R l' l) (h2 : List.Forall₂ S m' m) :
    List.Forall₂ (fun x' x => R x'.1 x.1 ∧ S x'.2 x.2) (l'.flatMap fun x => m'.map fun y => (x, y))
      (l.flatMap fun x => m.map fun y => (x, y)) := by
  induction h with
  | nil => simp
  | cons hx _ ih =>
    rw [List.flatMap_cons, List.flatMap_cons]
    refine List.rel_append ?_ ih
    rw [List.forall₂_map_left_iff, List.forall₂_map_right_iff]
    exact h2.imp fun a b hab => ⟨hx, hab⟩

theorem set_rel {R : α' → α → Prop} {l' : List α'} {l : List α} (h : List.Forall₂ R l' l) {x' : α'} {x : α}
    (hx : R x' x) (n : ℕ) : List.Forall₂ R (l'.set n x') (l.set n x) := by
  induction h generalizing n with
  | nil => simp
  | cons ha hb ih =>
    cases n with
    | zero => exact .cons hx hb
    | succ n => exact .cons ha (ih n)

theorem getElem?_rel {R : α' → α → Prop} {l' : List α'} {l : List α} (h : List.Forall₂ R l' l) {n : ℕ} {x' : α'}
    {x : α} (h1 : l'[n]? = some x') (h2 : l[n]? = some x) : R x' x := by
  induction h generalizing n with
  | nil => simp at h1
  | cons ha hb ih =>
    cases n with
    | zero => simp at h1 h2; subst h1; subst h2; exact ha
    | succ n => exact ih (by simpa using h1) (by simpa using h2)

theorem getElem?_none_rel {R : α' → α → Prop} {l' : List α'} {l : List α} (h : List.Forall₂ R l' l) (n : ℕ) :
    l'[n]? = none ↔ l[n]? = none := by
  rw [List.getElem?_eq_none_iff, List.getElem?_eq_none_iff, h.length_eq]
end lists



namespace Poly

/-- evaluation with isotone operations -/
theorem iso_evalPolynomial {ip : Coef K → Coef K → Py (Coef K)} {op : Coef K → ℤ → Py (Coef K)}
    (hip : ∀ A' A B' B r' r, Nest A' A → Nest B' B → ip A' B' = .ok r' → ip A B = .ok r → Nest r' r)
    (hop : ∀ A' A (k : ℕ) r' r, Nest A' A → op A' (k : ℤ) = .ok r' → op A (k : ℤ) = .ok r → Nest r' r)
    {e' e : Encl K} (he : NestE e' e) {z' z : Coef K} (hz : Nest z' z) {o zr : Coef K} (ho : Nest o o)
    (hzr : Nest zr zr) {r' r : Coef K} (h' : evalPolynomial e' z' ip op IA.add zr o = .ok r')
    (h : evalPolynomial e z ip op IA.add zr o = .ok r) : Nest r' r := by
  simp only [evalPolynomial, py_bind_ok, py_pure] at h h'
  obtain ⟨t, ht, rfl⟩ := h
  obtain ⟨t', ht', rfl⟩ := h'
  refine (foldlM_rel (Rs := fun s' s => s'.1 = s.1 ∧ Nest s'.2 s.2) ?_ he (s' := (0, zr)) (s := (0, zr))
    ⟨rfl, hzr⟩ ht' ht).2
  rintro ⟨i', s'⟩ ⟨i, s⟩ x' x t' t ⟨hi, hs⟩ hx h' h
  obtain rfl : i' = i := hi
  unfold evalStep at h h'
  have hrest : ∀ zi' zi, Nest zi' zi → ∀ t' t : ℕ × Coef K,
      (do let term ← ip x' zi'; return (i' + 1, ← IA.add s' term) : Py (ℕ × Coef K)) = .ok t' →
      (do let term ← ip x zi; return (i' + 1, ← IA.add s term) : Py (ℕ × Coef K)) = .ok t →
      t'.1 = t.1 ∧ Nest t'.2 t.2 := by
    intro zi' zi hzi t' t h' h
    simp only [py_bind_ok, py_pure] at h h'
    obtain ⟨term, h2, u, h3, rfl⟩ := h
    obtain ⟨term', h2', u', h3', rfl⟩ := h'
    exact ⟨rfl, IA.iso_add hs (hip _ _ _ _ _ _ hx hzi h2' h2) h3' h3⟩
  by_cases hi : i' > 0
  · simp only [if_pos hi] at h h'
    rw [py_bind_ok] at h h'
    obtain ⟨zi, h1, h⟩ := h
    obtain ⟨zi', h1', h'⟩ := h'
    exact hrest _ _ (hop _ _ _ _ _ hz h1' h1) _ _ h' h
  · simp only [if_neg hi, py_ok_bind] at h h'
    exact hrest _ _ ho _ _ h' h

theorem iso_evalTaylor {e' e : Encl K} (he : NestE e' e) {z' z : Coef K} (hz : Nest z' z) {r' r : Coef K}
    (h' : evalTaylorEnclosure e' z' = .ok r') (h : evalTaylorEnclosure e z = .ok r) : Nest r' r := by
  refine iso_evalPolynomial ?_ ?_ he hz (.arr _) (.arr _) h' h
  · intro A' A B' B r' r hA hB h' h
    rw [hB.ndim] at h'
    exact IA.iso_tensordot hA hB h' h
  · intro A' A k r' r hA h' h
    exact IA.iso_outerPower hA h' h

theorem iso_arbitraryBilinear {tpc : Coef K → Coef K → ℕ → ℕ → Py (Coef K)}
    (htpc : ∀ A' A B' B i j r' r, Nest A' A → Nest B' B → tpc A' B' i j = .ok r' → tpc A B i j = .ok r → Nest r' r)
    {a' a b' b : Encl K} (ha : NestE a' a) (hb : NestE b' b) {z : Coef K} (hz : Nest z z) {r' r : Encl K}
    (h' : arbitraryBilinear a' b' IA.add z tpc = .ok r') (h : arbitraryBilinear a b IA.add z tpc = .ok r) :
    NestE r' r := by
  unfold arbitraryBilinear at h h'
  rw [ha.length_eq, hb.length_eq] at h'
  refine foldlM_rel (Rs := NestE) ?_ (pairs_rel (enum_rel ha) (enum_rel hb)) ?_ h' h
  · rintro s' s ⟨⟨i', x'⟩, ⟨j', y'⟩⟩ ⟨⟨i, x⟩, ⟨j, y⟩⟩ t' t hs ⟨⟨hi, hx⟩, ⟨hj, hy⟩⟩ h' h
    obtain rfl : i' = i := hi
    obtain rfl : j' = j := hj
    simp only [bilinearStep, py_bind_ok] at h h'
    obtain ⟨c, hc, h⟩ := h
    obtain ⟨c', hc', h'⟩ := h'
    cases ho : s[i' + j']? with
    | none => rw [ho] at h; cases h
    | some o =>
      cases ho' : s'[i' + j']? with
      | none => rw [ho'] at h'; cases h'
      | some o' =>
        rw [ho] at h; rw [ho'] at h'
        simp only [py_bind_ok, py_pure] at h h'
        obtain ⟨u, hu, rfl⟩ := h
        obtain ⟨u', hu', rfl⟩ := h'
        exact set_rel hs (IA.iso_add (getElem?_rel hs ho' ho) (htpc _ _ _ _ _ _ _ _ hx hy hc' hc) hu' hu) _
  · exact List.forall₂_same.2 fun x hx => by rw [List.eq_of_mem_replicate hx]; exact hz

theorem iso_integerPower {tpc : Coef K → Coef K → ℕ → ℕ → Py (Coef K)} {tpow : Coef K → ℕ → ℕ → Py (Coef K)}
    {smul : ℕ → Coef K → Py (Coef K)}
    (htpc : ∀ A' A B' B i j r' r, Nest A' A → Nest B' B → tpc A' B' i j = .ok r' → tpc A B i j = .ok r → Nest r' r)
    (htpow : ∀ A' A i j r' r, Nest A' A → tpow A' i j = .ok r' → tpow A i j = .ok r → Nest r' r)
    (hsmul : ∀ A' A n r' r, Nest A' A → smul n A' = .ok r' → smul n A = .ok r → Nest r' r)
    {a' a : Encl K} (ha : NestE a' a) {z o : Coef K} (hz : Nest z z) (ho : Nest o o) {p : ℤ} {r' r : Encl K}
    (h' : integerPower IA.add o tpc tpow smul z a' p = .ok r')
    (h : integerPower IA.add o tpc tpow smul z a p = .ok r) : NestE r' r := by
  unfold integerPower at h h'
  by_cases hp : p < 0
  · rw [if_pos hp] at h; cases h
  rw [if_neg hp] at h h'
  by_cases hp0 : p = 0
  · rw [if_pos hp0] at h h'
    cases h; cases h'; exact .cons ho .nil
  rw [if_neg hp0] at h h'
  rw [ha.length_eq] at h'
  refine mapM_rel (Rx := fun x' x => x' = x) ?_ (List.forall₂_same.2 fun _ _ => rfl) h' h
  rintro i' i c' c rfl h' h
  simp only [getCoeff, py_bind_ok] at h h'
  obtain ⟨ps, hps, h⟩ := h
  obtain ⟨ps', hps', h'⟩ := h'
  rw [ha.length_eq, hps] at hps'
  cases hps'
  refine foldlM_rel (Rs := Nest) (Rx := fun x' x => x' = x) ?_ (List.forall₂_same.2 fun _ _ => rfl) hz h' h
  rintro s' s q' q t' t hs rfl h' h
  unfold coeffStep at h h'
  by_cases g1 : q'.sum ≠ p.toNat
  · rw [if_pos g1] at h; cases h
  rw [if_neg g1] at h h'
  by_cases g2 : (((List.range q'.length).zip q').map fun t => t.1 * t.2).sum ≠ i'
  · rw [if_pos g2] at h; cases h
  rw [if_neg g2] at h h'
  simp only [py_bind_ok] at h h'
  obtain ⟨rp, hrp, h⟩ := h
  obtain ⟨rp', hrp', h'⟩ := h'
  have hr : Nest rp'.1 rp.1 ∧ rp'.2 = rp.2 := by
    unfold partitionProduct at hrp hrp'
    refine foldlM_rel (Rs := fun s' s => Nest s'.1 s.1 ∧ s'.2 = s.2)
      (Rx := fun x' x => x'.2 = x.2 ∧ x'.1.1 = x.1.1 ∧ Nest x'.1.2 x.1.2) ?_ ?_ (s' := (o, 0)) (s := (o, 0)) ⟨ho, rfl⟩ hrp' hrp
    · rintro ⟨s', n'⟩ ⟨s, n⟩ ⟨⟨j', x'⟩, m'⟩ ⟨⟨j, x⟩, m⟩ t' t ⟨hs, hn⟩ ⟨hm, hj, hx⟩ h' h
      obtain rfl : n' = n := hn
      obtain rfl : m' = m := hm
      obtain rfl : j' = j := hj
      simp only [productStep, py_bind_ok, py_pure] at h h'
      obtain ⟨c, hc, d, hd, rfl⟩ := h
      obtain ⟨c', hc', d', hd', rfl⟩ := h'
      exact ⟨htpc _ _ _ _ _ _ _ _ hs (htpow _ _ _ _ _ _ hx hc' hc) hd' hd, rfl⟩
    · have := enum_rel ha
      generalize Poly.enum a' = l' at this
      generalize Poly.enum a = l at this
      clear hrp hrp' h h' g1 g2 hps
      induction this generalizing q' with
      | nil => simp
      | cons hx _ ih =>
        cases q' with
        | nil => simp
        | cons m q => 
          rw [List.zip_cons_cons, List.zip_cons_cons]
          exact .cons ⟨rfl, hx⟩ (ih q)
  by_cases g3 : rp.2 ≠ i'
  · rw [if_pos g3] at h; cases h
  rw [if_neg g3] at h
  rw [if_neg (by rw [hr.2]; exact g3)] at h'
  simp only [py_bind_ok] at h h'
  obtain ⟨mc, hmc, term, hterm, h⟩ := h
  obtain ⟨mc', hmc', term', hterm', h'⟩ := h'
  rw [hmc] at hmc'; cases hmc'
  exact IA.iso_add hs (hsmul _ _ _ _ _ hr.1 hterm' hterm) h' h

end Poly

/-! ### element-wise products -/

theorem expand_entry {S : List ℕ} {n ax : ℕ} (hax : ax ≤ S.length) {R L : List ℕ}
    (hR : ble (S.take ax ++ List.replicate n 1 ++ S.drop ax) R) (hL : ValidIdx R L) :
    ∃ φ, ValidIdx S φ ∧ ∀ x : ND K, x.shape = S → (x.expandDims n ax).bget L = x.bget φ := by
  have hv := validIdx_bidx hR hL
  obtain ⟨M12, M3, e, h12, h3⟩ := validIdx_split hv
  obtain ⟨M1, M2, rfl, h1, h2⟩ := validIdx_split h12
  have l1 : M1.length = ax := by rw [← h1.length, List.length_take]; omega
  have l2 : M2.length = n := by rw [← h2.length, List.length_replicate]
  refine ⟨M1 ++ M3, by rw [← List.take_append_drop ax S]; exact validIdx_append h1 h3, fun x hx => ?_⟩
  have hφ : ValidIdx x.shape (M1 ++ M3) := by
    rw [hx, ← List.take_append_drop ax S]; exact validIdx_append h1 h3
  rw [ND.bget_valid x hφ, ND.bget_def]
  simp only [ND.expandDims]
  rw [hx, e, List.append_assoc, List.take_left' l1, ← List.append_assoc, List.drop_left' (by simp [l1, l2])]

theorem formed_expand {S T : List ℕ} {n ax m ay : ℕ} (hax : ax ≤ S.length) (hay : ay ≤ T.length)
    {op : ND K → ND K → Py (ND K)}
    (hop : ∀ x y s, x.shape = S → y.shape = T → op x y = .ok s →
      ND.map2 (· * ·) (x.expandDims n ax) (y.expandDims m ay) = .ok s) : ∃ R, IA.Formed1 op S T R := by
  cases hb : bshape (S.take ax ++ List.replicate n 1 ++ S.drop ax) (T.take ay ++ List.replicate m 1 ++ T.drop ay) with
  | none =>
    have hno : ∀ x y s, x.shape = S → y.shape = T → op x y ≠ .ok s := by
      intro x y s hx hy hs
      have := hop x y s hx hy hs
      unfold ND.map2 at this
      have e1 : (x.expandDims n ax).shape = S.take ax ++ List.replicate n 1 ++ S.drop ax := by rw [← hx]; rfl
      have e2 : (y.expandDims m ay).shape = T.take ay ++ List.replicate m 1 ++ T.drop ay := by rw [← hy]; rfl
      rw [e1, e2, hb] at this
      cases this
    refine ⟨[0], fun x y s hx hy hs => absurd hs (hno x y s hx hy), fun L hL => ?_⟩
    cases hL with
    | cons h _ => exact absurd h (Nat.not_lt_zero _)
  | some R =>
    have hle := bshape_le hb
    refine ⟨R, fun x y s hx hy hs => ?_, fun L hL => ?_⟩
    · have := hop x y s hx hy hs
      have e1 : (x.expandDims n ax).shape = S.take ax ++ List.replicate n 1 ++ S.drop ax := by rw [← hx]; rfl
      have e2 : (y.expandDims m ay).shape = T.take ay ++ List.replicate m 1 ++ T.drop ay := by rw [← hy]; rfl
      have := (ND.map2_ok this).1
      rw [e1, e2, hb] at this
      exact (Option.some.inj this).symm
    · obtain ⟨φ, f1, f2⟩ := expand_entry (K := K) hax hle.1 hL
      obtain ⟨ψ, g1, g2⟩ := expand_entry (K := K) hay hle.2 hL
      refine ⟨φ, ψ, ⟨S, ble_refl _, f1⟩, ⟨T, ble_refl _, g1⟩, fun x y s hx hy hs => ?_⟩
      have := hop x y s hx hy hs
      have e1 : (x.expandDims n ax).shape = S.take ax ++ List.replicate n 1 ++ S.drop ax := by rw [← hx]; rfl
      have e2 : (y.expandDims m ay).shape = T.take ay ++ List.replicate m 1 ++ T.drop ay := by rw [← hy]; rfl
      obtain ⟨m1, m2⟩ := ND.map2_ok this
      rw [e1, e2, hb] at m1
      rw [m2 L (by rw [← Option.some.inj m1]; exact hL.length.le), f2 x hx, g2 y hy]

theorem iso_termProduct {d i j : ℕ} {A' A B' B r' r : Coef K} (nA : Nest A' A) (nB : Nest B' B)
    (h' : elementwiseTermProductCoefficient d A' B' i j = .ok r')
    (h : elementwiseTermProductCoefficient d A B i j = .ok r) : Nest r' r := by
  obtain ⟨R, hR⟩ := formed_expand (K := K) (S := A.shape) (T := B.shape) (n := j * d) (ax := A.shape.length)
    (m := i * d) (ay := B.shape.length - j * d) le_rfl (Nat.sub_le _ _)
    (op := fun u v => pairwiseBatchedMultiply u v (i * d) (j * d)) (by
      intro x y s hx hy hs
      unfold pairwiseBatchedMultiply at hs
      rw [← hx, ← hy]; exact hs)
  exact IA.iso_bilinear1 nA nB hR h' h

theorem iso_leftBroadcast {A' A B' B r' r : Coef K} (nA : Nest A' A) (nB : Nest B' B)
    (h' : IA.arbitraryBilinear A' B' leftBroadcastingMultiply true = .ok r')
    (h : IA.arbitraryBilinear A B leftBroadcastingMultiply true = .ok r) : Nest r' r := by
  obtain ⟨R, hR⟩ := formed_expand (K := K) (S := A.shape) (T := B.shape) (n := B.shape.length - A.shape.length)
    (ax := A.shape.length) (m := 0) (ay := B.shape.length) le_rfl le_rfl
    (op := leftBroadcastingMultiply) (by
      intro x y s hx hy hs
      unfold leftBroadcastingMultiply at hs
      split_ifs at hs with hc
      have : y.expandDims 0 B.shape.length = y := by
        unfold ND.expandDims
        have e : y.shape.take B.shape.length ++ List.replicate 0 1 ++ y.shape.drop B.shape.length = y.shape := by simp
        rw [e]
        cases y with
        | mk sh g => simp
      rw [this, ← hx, ← hy]; exact hs)
  exact IA.iso_bilinear1 nA nB hR h' h

theorem iso_termPower {d i p : ℕ} {A' A r' r : Coef K} (nA : Nest A' A)
    (h' : elementwiseTermPowerCoefficient d A' i p = .ok r')
    (h : elementwiseTermPowerCoefficient d A i p = .ok r) : Nest r' r := by
  unfold elementwiseTermPowerCoefficient at h h'
  rw [nA.ndim] at h'
  split_ifs at h h' with hc
  exact IA.iso_outerPower nA h' h

theorem iso_enclose {e' e : Encl K} (he : NestE e' e) {z' z : Coef K} (hz : Nest z' z) {n : ℕ} {r' r : Encl K}
    (h' : encloseEnclosure e' z' n = .ok r') (h : encloseEnclosure e z n = .ok r) : NestE r' r := by
  unfold encloseEnclosure at h h'
  rw [he.length_eq] at h'
  by_cases hl : e.length ≤ n + 1
  · rw [if_pos hl] at h h'
    cases h; cases h'; exact he
  · rw [if_neg hl] at h h'
    simp only [py_bind_ok, py_pure] at h h'
    obtain ⟨c, hc, rfl⟩ := h
    obtain ⟨c', hc', rfl⟩ := h'
    exact List.rel_append (List.forall₂_take n he) (.cons (Poly.iso_evalTaylor (List.forall₂_drop n he) hz hc' hc) .nil)

namespace TEA

/-- the same degree, nested trust regions -/
structure NestT (T' T : TEA K) : Prop where
  deg : T'.maxDegree = T.maxDegree
  region : Nest T'.trustRegion T.trustRegion

variable {T' T : TEA K}

theorem NestT.xShape (h : NestT T' T) : T'.xShape = T.xShape := h.region.shape
theorem NestT.xNdim (h : NestT T' T) : T'.xNdim = T.xNdim := h.region.ndim

section
variable (hT : NestT T' T) {a' a b' b r' r : Encl K} (ha : NestE a' a) (hb : NestE b' b)
include hT ha

theorem iso_truncate (h' : T'.truncateIfNecessary a' = .ok r') (h : T.truncateIfNecessary a = .ok r) :
    NestE r' r := by
  unfold truncateIfNecessary at h h'
  rw [hT.deg] at h'
  exact iso_enclose ha hT.region h' h

omit hT in
include hb in
theorem iso_addCoeffs (h' : addCoeffs a' b' = .ok r') (h : addCoeffs a b = .ok r) : NestE r' r := by
  induction ha generalizing b' b r' r with
  | nil =>
    have e : ∀ {b r : Encl K}, addCoeffs [] b = .ok r → r = b := by
      intro b r h
      cases b <;> cases h <;> rfl
    rw [e h, e h']; exact hb
  | @cons x' x as' as hx has ih =>
    cases hb with
    | nil => cases h; cases h'; exact .cons hx has
    | cons hy hbs =>
      simp only [addCoeffs, py_bind_ok, py_pure] at h h'
      obtain ⟨c, hc, cs, hcs, rfl⟩ := h
      obtain ⟨c', hc', cs', hcs', rfl⟩ := h'
      exact .cons (IA.iso_add hx hy hc' hc) (ih hbs hcs' hcs)

include hb in
theorem iso_add (h' : T'.add a' b' = .ok r') (h : T.add a b = .ok r) : NestE r' r := by
  simp only [add, py_bind_ok] at h h'
  obtain ⟨c, hc, h⟩ := h
  obtain ⟨c', hc', h'⟩ := h'
  exact iso_truncate hT (iso_addCoeffs ha hb hc' hc) h' h

theorem iso_negative (h' : T'.negative a' = .ok r') (h : T.negative a = .ok r) : NestE r' r := by
  refine iso_truncate hT ?_ h' h
  show List.Forall₂ Nest _ _
  rw [List.forall₂_map_left_iff, List.forall₂_map_right_iff]
  exact ha.imp fun _ _ h => IA.iso_negative h

include hb in
theorem iso_subtract (h' : T'.subtract a' b' = .ok r') (h : T.subtract a b = .ok r) : NestE r' r := by
  simp only [subtract, py_bind_ok] at h h'
  obtain ⟨c, hc, h⟩ := h
  obtain ⟨c', hc', h'⟩ := h'
  exact iso_add hT ha (iso_negative hT hb hc' hc) h' h

include hb in
theorem iso_multiply (h' : T'.multiply a' b' = .ok r') (h : T.multiply a b = .ok r) : NestE r' r := by
  simp only [multiply, py_bind_ok] at h h'
  obtain ⟨_, _, _, _, c, hc, h⟩ := h
  obtain ⟨_, _, _, _, c', hc', h'⟩ := h'
  rw [hT.xNdim] at hc'
  exact iso_truncate hT (Poly.iso_arbitraryBilinear (tpc := elementwiseTermProductCoefficient T.xNdim) (fun _ _ _ _ _ _ _ _ h1 h2 h3 h4 => iso_termProduct h1 h2 h3 h4)
    ha hb (.arr _) hc' hc) h' h

theorem iso_powerNat {p : ℕ} (h' : T'.powerNat a' p = .ok r') (h : T.powerNat a p = .ok r) : NestE r' r := by
  simp only [powerNat, py_bind_ok] at h h'
  obtain ⟨_, _, h⟩ := h
  obtain ⟨_, _, h'⟩ := h'
  cases ha with
  | nil => cases h
  | @cons x' x as' as hx has =>
    simp only [py_bind_ok] at h h'
    obtain ⟨c, hc, h⟩ := h
    obtain ⟨c', hc', h'⟩ := h'
    have e : (IA.firstEndpoint x').onesLike = (IA.firstEndpoint x).onesLike := by
      have e : ∀ c : Coef K, (IA.firstEndpoint c).onesLike = ⟨c.shape, fun _ => 1⟩ := by
        intro c; cases c <;> rfl
      rw [e, e, hx.shape]
    rw [hT.xNdim, e] at hc'
    exact iso_truncate hT (Poly.iso_integerPower (tpc := elementwiseTermProductCoefficient T.xNdim)
      (tpow := elementwiseTermPowerCoefficient T.xNdim) (smul := fun n c => IA.multiply (.arr (ND.scalar (n : K))) c) (fun _ _ _ _ _ _ _ _ h1 h2 h3 h4 => iso_termProduct h1 h2 h3 h4)
      (fun _ _ _ _ _ _ h1 h2 h3 => iso_termPower h1 h2 h3)
      (fun _ _ _ _ _ h1 h2 h3 => IA.iso_multiply (.arr _) h1 h2 h3) (.cons hx has) (.arr _) (.arr _) hc' hc) h' h

theorem iso_composeTerm {p : ℕ} {c' c : Coef K} (hc : Nest c' c) (h' : T'.composeTerm a' p c' = .ok r')
    (h : T.composeTerm a p c = .ok r) : NestE r' r := by
  unfold composeTerm at h h'
  by_cases hp : p = 0
  · rw [if_pos hp] at h h'
    cases h; cases h'; exact .cons hc .nil
  · rw [if_neg hp] at h h'
    simp only [py_bind_ok] at h h'
    obtain ⟨q, hq, h⟩ := h
    obtain ⟨q', hq', h'⟩ := h'
    refine mapM_rel ?_ (enum_rel (iso_powerNat hT ha hq' hq)) h' h
    rintro ⟨i', x'⟩ ⟨i, x⟩ t' t ⟨hi, hx⟩ h' h
    obtain rfl : i' = i := hi
    simp only at h h'
    by_cases hip : i' < p
    · rw [if_pos hip] at h h'
      cases h; cases h'; exact .arr _
    · rw [if_neg hip] at h h'
      exact iso_leftBroadcast hc hx h' h

include hb in
theorem iso_compose (h' : T'.composeEnclosures a' b' = .ok r') (h : T.composeEnclosures a b = .ok r) :
    NestE r' r := by
  unfold composeEnclosures at h h'
  cases ha with
  | nil => cases h
  | @cons x' x as' as hx has =>
    rw [if_neg (by simp)] at h h'
    refine foldlM_rel (Rs := NestE) ?_ (enum_rel (.cons hx has)) (.cons (.arr _) .nil) h' h
    rintro s' s ⟨i', y'⟩ ⟨i, y⟩ t' t hs ⟨hi, hy⟩ h' h
    obtain rfl : i' = i := hi
    simp only [composeStep, py_bind_ok] at h h'
    obtain ⟨q, hq, h⟩ := h
    obtain ⟨q', hq', h'⟩ := h'
    exact iso_add hT hs (iso_composeTerm hT (.cons (.arr _) (List.forall₂_drop 1 hb)) hy hq' hq) h' h
end

end TEA
end AB
