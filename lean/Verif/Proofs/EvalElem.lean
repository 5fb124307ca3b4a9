import Verif.Proofs.EvalConv

set_option linter.unusedSectionVars false

/-! `eval_elementwise_taylor_enclosure`: membership, totality, and the converse at a point. -/

namespace AB
variable {K : Type}

section
variable [Field K] [LinearOrder K] [IsStrictOrderedRing K]

theorem IA.multiply_ok {a b r : Coef K} (ha : a.WF) (hb : b.WF) (h : IA.multiply a b = .ok r) :
    r.WF ∧ bshape a.shape b.shape = some r.shape ∧ r.isArr = (a.isArr && b.isArr) ∧
    ∀ L, r.shape.length ≤ L.length →
      r.lo.bget L = plo (a.lo.bget L) (a.hi.bget L) (b.lo.bget L) (b.hi.bget L) ∧
      r.hi.bget L = phi (a.lo.bget L) (a.hi.bget L) (b.lo.bget L) (b.hi.bget L) := by
  have hex : ∃ R, bshape a.shape b.shape = some R := by
    by_contra hne
    have hn : bshape a.shape b.shape = none := by
      cases hb' : bshape a.shape b.shape with
      | none => rfl
      | some R => exact absurd ⟨R, hb'⟩ hne
    have herr : ∀ x y : ND K, x.shape = a.shape → y.shape = b.shape →
        ND.map2 (· * ·) x y = .error .valueError := by
      intro x y hx hy; unfold ND.map2; rw [hx, hy, hn]
    unfold IA.multiply IA.arbitraryBilinear at h
    cases a <;> cases b
    · simp only at h; rw [herr _ _ rfl rfl] at h; cases h
    · simp only [if_true, IA.bilinearProduct, IA.endpoints, List.flatMap_cons, List.map_cons,
        List.mapM_cons, List.cons_append, List.map_nil] at h
      rw [herr _ _ rfl rfl] at h; cases h
    · simp only [if_true, IA.bilinearProduct, IA.endpoints, List.flatMap_cons, List.map_cons,
        List.mapM_cons, List.cons_append, List.map_nil] at h
      rw [herr _ _ rfl rfl] at h; cases h
    · simp only [if_true, IA.bilinearProduct, IA.endpoints, List.flatMap_cons, List.map_cons,
        List.mapM_cons, List.cons_append, List.map_nil] at h
      rw [herr _ _ rfl rfl] at h; cases h
  obtain ⟨R, hR⟩ := hex
  have hsh : ∀ x y s : ND K, x.shape = a.shape → y.shape = b.shape →
      ND.map2 (· * ·) x y = .ok s → s.shape = R := by
    intro x y s hx hy hs
    have := (ND.map2_ok hs).1
    rw [hx, hy, hR] at this
    exact (Option.some.inj this).symm
  obtain ⟨h1, h2, h3, h4⟩ := IA.bilinearTrue_ok ha hb hsh h
  refine ⟨h1, by rw [h2]; exact hR, h3, fun L hL => h4 L L L (h2 ▸ hL) ?_⟩
  intro x y s hx hy hs
  exact (ND.map2_ok hs).2 L (by rw [hsh x y s hx hy hs, ← h2]; exact hL)

theorem IA.multiply_total {a b : Coef K} (ha : a.WF) (hb : b.WF) {R : List ℕ}
    (h : bshape a.shape b.shape = some R) : ∃ r, IA.multiply a b = .ok r :=
  IA.bilinear_total true ha hb fun x y hx hy =>
    ⟨⟨R, fun I => x.bget I * y.bget I⟩, by unfold ND.map2; rw [hx, hy, h], rfl⟩

theorem IA.multiply_mem {a b r : Coef K} (ha : a.WF) (hb : b.WF) (h : IA.multiply a b = .ok r)
    {L : List ℕ} (hL : r.shape.length ≤ L.length) {s t : K} (hs : a.Mem L s) (ht : b.Mem L t) :
    r.Mem L (s * t) := by
  obtain ⟨-, -, -, h4⟩ := IA.multiply_ok ha hb h
  have := pbounds hs.1 hs.2 ht.1 ht.2
  exact ⟨(h4 L hL).1 ▸ this.1, (h4 L hL).2 ▸ this.2⟩

/-- one iteration of `eval_elementwise_taylor_enclosure`, with `x**0` made uniform -/
theorem elemStep_inv {Z c s : Coef K} {i : ℕ} {st : ℕ × Coef K}
    (h : Poly.evalStep Z IA.multiply IA.power IA.add (.arr (ND.scalar 1)) (i, s) c = .ok st) :
    ∃ zi term r, (if i > 0 then IA.power Z i else .ok (.arr (ND.scalar 1))) = .ok zi ∧
      IA.multiply c zi = .ok term ∧ IA.add s term = .ok r ∧ st = (i + 1, r) := by
  unfold Poly.evalStep at h
  by_cases hi : i > 0
  · simp only [if_pos hi, py_bind_ok, py_pure] at h ⊢
    obtain ⟨zi, hzi, term, ht, r, hr, rfl⟩ := h
    exact ⟨zi, term, r, hzi, ht, hr, rfl⟩
  · simp only [if_neg hi, py_bind_ok, py_pure, Except.ok.injEq] at h ⊢
    obtain ⟨zi, hzi, term, ht, r, hr, rfl⟩ := h
    exact ⟨zi, term, r, hzi, ht, hr, rfl⟩

theorem elemPow {Z zi : Coef K} (hZ : Z.WF) {i : ℕ}
    (h : (if i > 0 then IA.power Z (i : ℤ) else .ok (.arr (ND.scalar 1))) = .ok zi) :
    zi.WF ∧ (i = 0 → zi.shape = []) ∧ (i ≠ 0 → zi.shape = Z.shape) ∧
    (Z.isArr = true → zi.isArr = true) ∧
    ∀ L, Z.shape.length ≤ L.length → ∀ t, Z.Mem L t → zi.Mem L (t ^ i) := by
  by_cases hi : i = 0
  · subst hi
    simp at h; subst h
    exact ⟨Coef.WF_arr _, fun _ => rfl, fun h => absurd rfl h, fun _ => rfl, fun L _ t _ => by
      rw [Coef.mem_arr]; simp⟩
  · rw [if_pos (Nat.pos_of_ne_zero hi)] at h
    obtain ⟨a1, a2, a3, -, -⟩ := IA.power_ok hZ h
    exact ⟨a1, fun h => absurd h hi, fun _ => a2, fun h => a3 (Or.inl h), fun L hL t ht =>
      IA.power_mem hZ h hL ht⟩

theorem elem_fold {Z : Coef K} (hZ : Z.WF) {E : Encl K} (hE : WFE E) {i0 : ℕ} {s0 : Coef K}
    (hs0 : s0.WF) {n : ℕ} {r : Coef K}
    (h : E.foldlM (Poly.evalStep Z IA.multiply IA.power IA.add (.arr (ND.scalar 1))) (i0, s0)
      = .ok (n, r)) :
    r.WF ∧ ble s0.shape r.shape ∧ (∀ c ∈ E, ble c.shape r.shape) ∧
    ((i0 ≠ 0 ∧ E ≠ [] ∨ 2 ≤ E.length) → ble Z.shape r.shape) ∧
    (∀ R, ble s0.shape R → (∀ c ∈ E, ble c.shape R) → ble Z.shape R → ble r.shape R) ∧
    ∀ L, r.shape.length ≤ L.length → Z.shape.length ≤ L.length → ∀ t, Z.Mem L t → ∀ v0,
      s0.Mem L v0 → ∀ k : ℕ → K, (∀ (j : ℕ) (c : Coef K), E[j]? = some c → c.Mem L (k j)) →
      r.Mem L (v0 + ∑ j ∈ Finset.range E.length, k j * t ^ (i0 + j)) := by
  induction E generalizing i0 s0 with
  | nil =>
    simp only [List.foldlM_nil, py_pure, Prod.mk.injEq] at h
    obtain ⟨-, rfl⟩ := h
    exact ⟨hs0, ble_refl _, by simp, by simp, fun R h _ _ => h, fun L _ _ t _ v0 hv k _ => by
      simpa using hv⟩
  | cons c E ih =>
    rw [List.foldlM_cons, py_bind_ok] at h
    obtain ⟨st, hst, h⟩ := h
    obtain ⟨zi, term, s1, hzi, hterm, hs1, rfl⟩ := elemStep_inv hst
    have hc : c.WF := hE c (by simp)
    obtain ⟨p1, p2, p3, -, p5⟩ := elemPow hZ hzi
    obtain ⟨m1, m2, -, -⟩ := IA.multiply_ok hc p1 hterm
    obtain ⟨a1, a2, -, a4⟩ := IA.add_ok hs0 m1 hs1
    obtain ⟨r1, r2, r3, r4, r5, r6⟩ := ih (fun c hc => hE c (by simp [hc])) a1 h
    have la := bshape_le a2
    have lm := bshape_le m2
    have hle : ble term.shape r.shape := ble_trans la.2 r2
    refine ⟨r1, ble_trans la.1 r2, ?_, ?_, ?_, ?_⟩
    · intro c' hc'
      rcases List.mem_cons.1 hc' with rfl | hc'
      · exact ble_trans lm.1 hle
      · exact r3 c' hc'
    · intro hh
      by_cases hi : i0 = 0
      · apply r4
        left
        refine ⟨by omega, ?_⟩
        rcases hh with ⟨h0, -⟩ | h2
        · exact absurd hi h0
        · rintro rfl; simp at h2
      · rw [← p3 hi]; exact ble_trans lm.2 hle
    · intro R hR hcR hZR
      apply r5 R _ (fun c' hc' => hcR c' (by simp [hc'])) hZR
      apply ble_lub_of_bshape a2 hR
      apply ble_lub_of_bshape m2 (hcR c (by simp))
      by_cases hi : i0 = 0
      · rw [p2 hi]; exact ble_nil _
      · rw [p3 hi]; exact hZR
    · intro L hL hZL t ht v0 hv k hk
      have hs1L : s1.shape.length ≤ L.length := (ble_length r2).trans hL
      have htL : term.shape.length ≤ L.length := (ble_length la.2).trans hs1L
      have hm := IA.multiply_mem hc p1 hterm htL (hk 0 c (by simp)) (p5 L hZL t ht)
      have := a4 L hs1L
      have hadd : s1.Mem L (v0 + k 0 * t ^ i0) := by
        constructor
        · rw [this.1]; exact add_le_add hv.1 hm.1
        · rw [this.2]; exact add_le_add hv.2 hm.2
      have := r6 L hL hZL t ht _ hadd (fun j => k (j + 1)) (fun j c hj => hk (j + 1) c (by simpa using hj))
      rw [List.length_cons, Finset.sum_range_succ']
      have e : v0 + k 0 * t ^ i0 + ∑ j ∈ Finset.range E.length, k (j + 1) * t ^ (i0 + 1 + j) =
          v0 + (∑ j ∈ Finset.range E.length, k (j + 1) * t ^ (i0 + (j + 1)) + k 0 * t ^ (i0 + 0)) := by
        simp only [show ∀ j, i0 + 1 + j = i0 + (j + 1) by intro j; ring]
        ring
      rwa [e] at this

theorem elem_fold_total {Z : Coef K} (hZ : Z.WF) {E : Encl K} (hE : WFE E) {i0 : ℕ} {s0 : Coef K}
    (hs0 : s0.WF) {R : List ℕ} (hsR : ble s0.shape R) (hER : ∀ c ∈ E, ble c.shape R)
    (hZR : ble Z.shape R) :
    ∃ nr, E.foldlM (Poly.evalStep Z IA.multiply IA.power IA.add (.arr (ND.scalar 1))) (i0, s0)
      = .ok nr := by
  induction E generalizing i0 s0 with
  | nil => exact ⟨_, rfl⟩
  | cons c E ih =>
    have hc : c.WF := hE c (by simp)
    have hcR := hER c (by simp)
    obtain ⟨zi, hzi⟩ : ∃ zi, (if i0 > 0 then IA.power Z (i0 : ℤ) else .ok (.arr (ND.scalar 1))) =
        Except.ok (ε := PyErr) zi := by
      by_cases hi : i0 > 0
      · rw [if_pos hi]; exact IA.power_total hZ i0
      · rw [if_neg hi]; exact ⟨_, rfl⟩
    obtain ⟨p1, p2, p3, -, -⟩ := elemPow hZ hzi
    have hziR : ble zi.shape R := by
      by_cases hi : i0 = 0
      · rw [p2 hi]; exact ble_nil _
      · rw [p3 hi]; exact hZR
    obtain ⟨Q, hQ, hQR⟩ := bshape_lub hcR hziR
    obtain ⟨term, hterm⟩ := IA.multiply_total hc p1 hQ
    obtain ⟨m1, m2, -, -⟩ := IA.multiply_ok hc p1 hterm
    have hmR : ble term.shape R := ble_lub_of_bshape m2 hcR hziR
    obtain ⟨s1, hs1⟩ := IA.add_lub hs0 m1 hsR hmR
    obtain ⟨a1, a2, -, -⟩ := IA.add_ok hs0 m1 hs1
    obtain ⟨nr, hnr⟩ := ih (i0 := i0 + 1) (fun c hc => hE c (by simp [hc])) a1
      (ble_lub_of_bshape a2 hsR hmR) (fun c hc => hER c (by simp [hc]))
    refine ⟨nr, ?_⟩
    rw [List.foldlM_cons, py_bind_ok]
    refine ⟨(i0 + 1, s1), ?_, hnr⟩
    unfold Poly.evalStep
    by_cases hi : i0 > 0
    · simp only [if_pos hi, py_bind_ok, py_pure] at hzi ⊢
      exact ⟨zi, hzi, term, hterm, s1, hs1, rfl⟩
    · simp only [if_neg hi, py_bind_ok, py_pure] at hzi ⊢
      exact ⟨zi, hzi, term, hterm, s1, hs1, rfl⟩

theorem elem_fold_attain {Z : ND K} {E : Encl K} (hE : WFE E) {i0 : ℕ} {s0 : Coef K}
    (hs0 : s0.WF) {n : ℕ} {r : Coef K}
    (h : E.foldlM (Poly.evalStep (.arr Z) IA.multiply IA.power IA.add (.arr (ND.scalar 1))) (i0, s0)
      = .ok (n, r)) {L : List ℕ} (hL : r.shape.length ≤ L.length) (hZL : Z.shape.length ≤ L.length)
    (hord : ∀ c ∈ E, c.lo.bget L ≤ c.hi.bget L) :
    (∃ k : ℕ → K, (∀ (j : ℕ) (c : Coef K), E[j]? = some c → c.Mem L (k j)) ∧
      r.lo.bget L = s0.lo.bget L + ∑ j ∈ Finset.range E.length, k j * Z.bget L ^ (i0 + j)) ∧
    (∃ k : ℕ → K, (∀ (j : ℕ) (c : Coef K), E[j]? = some c → c.Mem L (k j)) ∧
      r.hi.bget L = s0.hi.bget L + ∑ j ∈ Finset.range E.length, k j * Z.bget L ^ (i0 + j)) := by
  induction E generalizing i0 s0 with
  | nil =>
    simp only [List.foldlM_nil, py_pure, Prod.mk.injEq] at h
    obtain ⟨-, rfl⟩ := h
    exact ⟨⟨fun _ => 0, by simp, by simp⟩, ⟨fun _ => 0, by simp, by simp⟩⟩
  | cons c E ih =>
    rw [List.foldlM_cons, py_bind_ok] at h
    obtain ⟨st, hst, h⟩ := h
    obtain ⟨zi, term, s1, hzi, hterm, hs1, rfl⟩ := elemStep_inv hst
    have hc : c.WF := hE c (by simp)
    obtain ⟨p1, -, -, p4, p5⟩ := elemPow (Coef.WF_arr _) hzi
    obtain ⟨m1, m2, -, m4⟩ := IA.multiply_ok hc p1 hterm
    obtain ⟨a1, a2, -, a4⟩ := IA.add_ok hs0 m1 hs1
    obtain ⟨-, r2, -, -, -, -⟩ := elem_fold (Coef.WF_arr _) (fun c hc => hE c (by simp [hc])) a1 h
    have la := bshape_le a2
    have hs1L : s1.shape.length ≤ L.length := (ble_length r2).trans hL
    have htL : term.shape.length ≤ L.length := (ble_length la.2).trans hs1L
    obtain ⟨⟨k1, hk1, e1⟩, ⟨k2, hk2, e2⟩⟩ := ih (fun c hc => hE c (by simp [hc])) a1 h
      (fun c hc => hord c (by simp [hc]))
    have hz := p5 L hZL (Z.bget L) (Coef.mem_arr.2 rfl)
    have hziarr := p4 rfl
    cases zi with
    | ivl _ _ => cases hziarr
    | arr y =>
    rw [Coef.mem_arr] at hz
    obtain ⟨t1, t2⟩ := m4 L htL
    simp only [Coef.lo_arr, Coef.hi_arr, ← hz] at t1 t2
    have hco := hord c (by simp)
    have mem : ∀ b ∈ [c.lo.bget L, c.hi.bget L], c.Mem L b := by
      intro b hb
      rcases List.mem_pair.1 hb with rfl | rfl
      · exact ⟨le_rfl, hco⟩
      · exact ⟨hco, le_rfl⟩
    have fin : ∀ (b : K) (k : ℕ → K), c.Mem L b → (∀ (j : ℕ) (c : Coef K), E[j]? = some c → c.Mem L (k j)) →
        ∃ k' : ℕ → K, (∀ (j : ℕ) (c' : Coef K), (c :: E)[j]? = some c' → c'.Mem L (k' j)) ∧
          ∑ j ∈ Finset.range (c :: E).length, k' j * Z.bget L ^ (i0 + j) = b * Z.bget L ^ i0 +
            ∑ j ∈ Finset.range E.length, k j * Z.bget L ^ (i0 + 1 + j) := by
      intro b k hb hk
      refine ⟨fun j => if j = 0 then b else k (j - 1), ?_, ?_⟩
      · intro j c' hj
        cases j with
        | zero => simp at hj; subst hj; simpa using hb
        | succ j => simpa using hk j c' (by simpa using hj)
      · rw [List.length_cons, Finset.sum_range_succ']
        simp only [Nat.add_eq_zero_iff, one_ne_zero, and_false, if_false, if_true,
          Nat.add_sub_cancel, add_zero,
          show ∀ j, i0 + 1 + j = i0 + (j + 1) by intro j; ring]
        ring
    have ha := a4 L hs1L
    constructor
    · obtain ⟨b, hb, d, hd, e⟩ := plo_mem (c.lo.bget L) (c.hi.bget L) (Z.bget L ^ i0) (Z.bget L ^ i0)
      have hd' : d = Z.bget L ^ i0 := by simpa using hd
      obtain ⟨k, hk, ek⟩ := fin b k1 (mem b hb) hk1
      exact ⟨k, hk, by rw [ek, e1, ha.1, t1, e, hd']; ring⟩
    · obtain ⟨b, hb, d, hd, e⟩ := phi_mem (c.lo.bget L) (c.hi.bget L) (Z.bget L ^ i0) (Z.bget L ^ i0)
      have hd' : d = Z.bget L ^ i0 := by simpa using hd
      obtain ⟨k, hk, ek⟩ := fin b k2 (mem b hb) hk2
      exact ⟨k, hk, by rw [ek, e2, ha.2, t2, e, hd']; ring⟩

theorem elemEval_inv {E : Encl K} {Z r : Coef K}
    (h : Poly.evalElementwiseTaylorEnclosure E Z = .ok r) : ∃ n,
    E.foldlM (Poly.evalStep Z IA.multiply IA.power IA.add (.arr (ND.scalar 1)))
      (0, .arr (ND.scalar 0)) = .ok (n, r) := by
  unfold Poly.evalElementwiseTaylorEnclosure Poly.evalPolynomial at h
  simp only [py_bind_ok, py_pure] at h
  obtain ⟨⟨n, r'⟩, h, rfl⟩ := h
  exact ⟨n, h⟩

theorem elemEval_ok {E : Encl K} {Z r : Coef K} (hE : WFE E) (hZ : Z.WF)
    (h : Poly.evalElementwiseTaylorEnclosure E Z = .ok r) :
    r.WF ∧ (∀ c ∈ E, ble c.shape r.shape) ∧ (2 ≤ E.length → ble Z.shape r.shape) ∧
    (∀ R, (∀ c ∈ E, ble c.shape R) → ble Z.shape R → ble r.shape R) ∧
    ∀ L, r.shape.length ≤ L.length → Z.shape.length ≤ L.length → ∀ t, Z.Mem L t →
      ∀ k : ℕ → K, (∀ (j : ℕ) (c : Coef K), E[j]? = some c → c.Mem L (k j)) →
      r.Mem L (∑ j ∈ Finset.range E.length, k j * t ^ j) := by
  obtain ⟨n, h⟩ := elemEval_inv h
  obtain ⟨h1, -, h3, h4, h5, h6⟩ := elem_fold hZ hE (Coef.WF_arr _) h
  refine ⟨h1, h3, fun h2 => h4 (Or.inr h2), fun R => h5 R (ble_nil _), ?_⟩
  intro L hL hZL t ht k hk
  have := h6 L hL hZL t ht 0 (by rw [Coef.mem_arr]; rfl) k hk
  simpa using this

theorem elemEval_total {E : Encl K} {Z : Coef K} (hE : WFE E) (hZ : Z.WF) {R : List ℕ}
    (hER : ∀ c ∈ E, ble c.shape R) (hZR : ble Z.shape R) :
    ∃ r, Poly.evalElementwiseTaylorEnclosure E Z = .ok r := by
  obtain ⟨⟨n, r⟩, h⟩ := elem_fold_total hZ hE (i0 := 0) (Coef.WF_arr (ND.scalar 0)) (ble_nil _) hER hZR
  refine ⟨r, ?_⟩
  unfold Poly.evalElementwiseTaylorEnclosure Poly.evalPolynomial
  simp only [py_bind_ok, py_pure]
  exact ⟨(n, r), h, rfl⟩

/-- at a point, every value between the endpoints comes from a choice of coefficients -/
theorem elemEval_conv {E : Encl K} {Z : ND K} {r : Coef K} (hE : WFE E)
    (h : Poly.evalElementwiseTaylorEnclosure E (.arr Z) = .ok r) {L : List ℕ}
    (hL : r.shape.length ≤ L.length) (hZL : Z.shape.length ≤ L.length)
    (hord : ∀ c ∈ E, c.lo.bget L ≤ c.hi.bget L) {v : K} (hv : r.Mem L v) :
    ∃ k : ℕ → K, (∀ (j : ℕ) (c : Coef K), E[j]? = some c → c.Mem L (k j)) ∧
      v = ∑ j ∈ Finset.range E.length, k j * Z.bget L ^ j := by
  obtain ⟨n, h⟩ := elemEval_inv h
  obtain ⟨⟨k1, m1, e1⟩, ⟨k2, m2, e2⟩⟩ := elem_fold_attain hE (Coef.WF_arr _) h hL hZL hord
  have z0 : (Coef.arr (ND.scalar (0 : K))).lo.bget L = 0 := rfl
  have z1 : (Coef.arr (ND.scalar (0 : K))).hi.bget L = 0 := rfl
  rw [z0, zero_add] at e1
  rw [z1, zero_add] at e2
  simp only [zero_add] at e1 e2
  obtain ⟨θ, t0, t1, e⟩ := exists_convex hv.1 hv.2
  refine ⟨fun j => (1 - θ) * k1 j + θ * k2 j, fun j c hc =>
    Coef.Mem.convex (m1 j c hc) (m2 j c hc) t0 t1, ?_⟩
  rw [e, e1, e2, Finset.mul_sum, Finset.mul_sum, ← Finset.sum_add_distrib]
  apply Finset.sum_congr rfl
  intro i _
  ring

end
end AB
