/-
The coefficients below `max_degree` do not depend on the trust region: `TaylorEnclosureArithmetic`
(/repo/autobound/enclosure_arithmetic.py) and `polynomials.py`.
-/
import Verif.Proofs.Iso2
import Verif.Spec.Lead

set_option linter.unusedSectionVars false

namespace AB
variable {F : Type}

theorem Lead.refl (d : ℕ) (a : List F) : Lead d a a := ⟨rfl, fun _ _ => rfl⟩
theorem Lead.symm {d : ℕ} {a b : List F} (h : Lead d a b) : Lead d b a := ⟨h.1.symm, fun i hi => (h.2 i hi).symm⟩
theorem Lead.trans {d : ℕ} {a b c : List F} (h : Lead d a b) (h' : Lead d b c) : Lead d a c :=
  ⟨h.1.trans h'.1, fun i hi => (h.2 i hi).trans (h'.2 i hi)⟩
theorem Lead.mono {d e : ℕ} {a b : List F} (h : Lead d a b) (hed : e ≤ d) : Lead e a b :=
  ⟨h.1, fun i hi => h.2 i (by omega)⟩

theorem Lead.cons_iff {d : ℕ} {x' x : F} {a' a : List F} :
    Lead d (x' :: a') (x :: a) ↔ (0 < d → x' = x) ∧ Lead (d - 1) a' a := by
  constructor
  · rintro ⟨h1, h2⟩
    refine ⟨fun hd => ?_, by simpa using h1, fun i hi => ?_⟩
    · have := h2 0 hd; simpa using this
    · have := h2 (i + 1) (by omega); simpa using this
  · rintro ⟨h0, h1, h2⟩
    refine ⟨by simpa using h1, fun i hi => ?_⟩
    cases i with
    | zero => simp [h0 hi]
    | succ i => simpa using h2 i (by omega)

theorem Lead.set {d : ℕ} {a' a : List F} (h : Lead d a' a) (i : ℕ) {x' x : F} (hx : i < d → x' = x) :
    Lead d (a'.set i x') (a.set i x) := by
  refine ⟨by simpa using h.1, fun j hj => ?_⟩
  rw [List.getElem?_set, List.getElem?_set, h.1, h.2 j hj]
  split_ifs with h1 h2
  · subst h1; rw [hx hj]
  · rfl
  · rfl

theorem Lead.map {G : Type} {d : ℕ} {a' a : List F} (h : Lead d a' a) (f : F → G) : Lead d (a'.map f) (a.map f) := by
  refine ⟨by simpa using h.1, fun i hi => ?_⟩
  rw [List.getElem?_map, List.getElem?_map, h.2 i hi]

/-- paired with its index -/
def LeadAt (d : ℕ) (x' x : ℕ × F) : Prop := x'.1 = x.1 ∧ (x.1 < d → x'.2 = x.2)

theorem Lead.enum {d : ℕ} {a' a : List F} (h : Lead d a' a) :
    List.Forall₂ (LeadAt d) (Poly.enum a') (Poly.enum a) := by
  rw [List.forall₂_iff_get]
  have hl : (Poly.enum a').length = (Poly.enum a).length := by simp [Poly.enum, h.1]
  refine ⟨hl, fun i h1 h2 => ?_⟩
  have h1' : i < a'.length := by simpa [Poly.enum] using h1
  have h2' : i < a.length := by simpa [Poly.enum] using h2
  simp only [Poly.enum, List.get_eq_getElem, List.getElem_zip, List.getElem_range]
  refine ⟨rfl, fun hd => ?_⟩
  have := h.2 i hd
  rw [List.getElem?_eq_getElem h1', List.getElem?_eq_getElem h2'] at this
  exact Option.some.inj this

theorem mapM_length {α β : Type} {f : α → Py β} {l : List α} {t : List β} (h : l.mapM f = .ok t) : t.length = l.length :=
  (Poly.mapM_ok h).length_eq.symm

theorem Lead.mapM_enum {G : Type} {d : ℕ} {a' a : List F} (h : Lead d a' a) {f' f : ℕ × F → Py G}
    (hf : ∀ i c r' r, i < d → f' (i, c) = .ok r' → f (i, c) = .ok r → r' = r) {t' t : List G}
    (h' : (Poly.enum a').mapM f' = .ok t') (h0 : (Poly.enum a).mapM f = .ok t) : Lead d t' t := by
  have hl : (Poly.enum a').length = (Poly.enum a).length := by simp [Poly.enum, h.1]
  refine ⟨by rw [mapM_length h', mapM_length h0, hl], fun i hi => ?_⟩
  have m' := Poly.mapM_ok h'
  have m := Poly.mapM_ok h0
  have e := h.2 i hi
  cases ha : a[i]? with
  | none =>
    rw [ha] at e
    rw [List.getElem?_eq_none_iff] at ha e
    rw [List.getElem?_eq_none_iff.2 (by rw [mapM_length h']; simpa [Poly.enum] using e),
      List.getElem?_eq_none_iff.2 (by rw [mapM_length h0]; simpa [Poly.enum] using ha)]
  | some c =>
    rw [ha] at e
    obtain ⟨r', k1', k2'⟩ := (Poly.forall₂_getElem? m' i).2 (i, c) (by rw [Poly.enum_getElem?, e]; rfl)
    obtain ⟨r, k1, k2⟩ := (Poly.forall₂_getElem? m i).2 (i, c) (by rw [Poly.enum_getElem?, ha]; rfl)
    rw [k1', k1, hf i c r' r hi k2' k2]

theorem Lead.mapM {G : Type} {d : ℕ} {a' a : List F} (h : Lead d a' a) {f : F → Py G} {t' t : List G}
    (h' : a'.mapM f = .ok t') (h0 : a.mapM f = .ok t) : Lead d t' t := by
  refine ⟨by rw [mapM_length h', mapM_length h0, h.1], fun i hi => ?_⟩
  have m' := Poly.mapM_ok h'
  have m := Poly.mapM_ok h0
  have e := h.2 i hi
  cases ha : a[i]? with
  | none =>
    rw [ha] at e
    rw [List.getElem?_eq_none_iff] at ha e
    rw [List.getElem?_eq_none_iff.2 (by rw [mapM_length h']; exact e),
      List.getElem?_eq_none_iff.2 (by rw [mapM_length h0]; exact ha)]
  | some c =>
    rw [ha] at e
    obtain ⟨r', k1', k2'⟩ := (Poly.forall₂_getElem? m' i).2 c e
    obtain ⟨r, k1, k2⟩ := (Poly.forall₂_getElem? m i).2 c ha
    rw [k2] at k2'
    cases k2'
    rw [k1', k1]

/-! ### polynomials.py -/

theorem flatMap_rel {α α' : Type} {R : α' → α → Prop} {a' b' : List α'} {a b : List α} (ha : List.Forall₂ R a' a)
    (hb : List.Forall₂ R b' b) :
    List.Forall₂ (fun x' x => R x'.1 x.1 ∧ R x'.2 x.2) (a'.flatMap fun x => b'.map fun y => (x, y))
      (a.flatMap fun x => b.map fun y => (x, y)) := by
  induction ha with
  | nil => simp
  | cons h _ ih =>
    rw [List.flatMap_cons, List.flatMap_cons]
    refine List.rel_append ?_ ih
    rw [List.forall₂_map_left_iff, List.forall₂_map_right_iff]
    exact hb.imp fun _ _ hxy => ⟨h, hxy⟩

theorem lead_polyBilinear {d : ℕ} {add : F → F → Py F} {zero : F} {tpc : F → F → ℕ → ℕ → Py F} {a' a b' b : List F}
    (ha : Lead d a' a) (hb : Lead d b' b) {r' r : List F} (h' : Poly.arbitraryBilinear a' b' add zero tpc = .ok r')
    (h : Poly.arbitraryBilinear a b add zero tpc = .ok r) : Lead d r' r := by
  unfold Poly.arbitraryBilinear at h h'
  rw [ha.1, hb.1] at h'
  refine foldlM_rel (Rs := Lead d) ?_ (flatMap_rel ha.enum hb.enum) (Lead.refl _ _) h' h
  rintro s' s ⟨⟨i', u'⟩, ⟨j', v'⟩⟩ ⟨⟨i, u⟩, ⟨j, v⟩⟩ t' t hs ⟨⟨e1, e2⟩, ⟨e3, e4⟩⟩ k' k
  simp only at e1 e2 e3 e4
  subst e1 e3
  unfold Poly.bilinearStep at k k'
  simp only [py_bind_ok] at k k'
  obtain ⟨c, hc, k⟩ := k
  obtain ⟨c', hc', k'⟩ := k'
  cases ho : s[i' + j']? with
  | none => rw [ho] at k; cases k
  | some o =>
    cases ho' : s'[i' + j']? with
    | none => rw [ho'] at k'; cases k'
    | some o' =>
      rw [ho] at k
      rw [ho'] at k'
      simp only [py_bind_ok, py_pure] at k k'
      obtain ⟨y, hy, rfl⟩ := k
      obtain ⟨y', hy', rfl⟩ := k'
      refine hs.set _ fun hd => ?_
      have := hs.2 _ hd
      rw [ho, ho'] at this
      cases this
      rw [e2 (by omega), e4 (by omega), hc] at hc'
      cases hc'
      rw [hy] at hy'
      cases hy'
      rfl

theorem lead_integerPower {d : ℕ} {add : F → F → Py F} {one zero : F} {tpc : F → F → ℕ → ℕ → Py F}
    {tpow : F → ℕ → ℕ → Py F} {smul : ℕ → F → Py F}
    (h0 : ∀ c' c j r' r, tpow c' j 0 = .ok r' → tpow c j 0 = .ok r → r' = r)
    {a' a : List F} (ha : Lead d a' a) {p : ℤ} {r' r : List F}
    (h' : Poly.integerPower add one tpc tpow smul zero a' p = .ok r')
    (h : Poly.integerPower add one tpc tpow smul zero a p = .ok r) : Lead d r' r := by
  unfold Poly.integerPower at h h'
  by_cases hp : p < 0
  · rw [if_pos hp] at h; cases h
  rw [if_neg hp] at h h'
  by_cases hp0 : p = 0
  · rw [if_pos hp0] at h h'
    cases h; cases h'; exact Lead.refl _ _
  rw [if_neg hp0] at h h'
  rw [ha.1] at h'
  refine ⟨by rw [mapM_length h', mapM_length h], fun i hi => ?_⟩
  have m' := Poly.mapM_ok h'
  have m := Poly.mapM_ok h
  generalize hN : (1 + ((a.length : ℤ) - 1) * p).toNat = N at *
  by_cases hiN : i < N
  · obtain ⟨c', k1', k2'⟩ := (Poly.forall₂_getElem? m' i).2 i (by simp [hiN])
    obtain ⟨c, k1, k2⟩ := (Poly.forall₂_getElem? m i).2 i (by simp [hiN])
    rw [k1, k1']
    congr 1
    unfold Poly.getCoeff at k2 k2'
    rw [ha.1] at k2'
    simp only [py_bind_ok] at k2 k2'
    obtain ⟨ps, hps, k2⟩ := k2
    obtain ⟨ps', hps', k2'⟩ := k2'
    rw [hps] at hps'; cases hps'
    refine foldlM_rel (Rs := Eq) (Rx := Eq) ?_ (List.forall₂_same.2 fun _ _ => rfl) rfl k2' k2
    rintro s _ q _ t' t rfl rfl f' f
    unfold Poly.coeffStep at f f'
    by_cases hq1 : q.sum ≠ p.toNat
    · rw [if_pos hq1] at f; cases f
    rw [if_neg hq1] at f f'
    by_cases hq2 : (((List.range q.length).zip q).map fun t => t.1 * t.2).sum ≠ i
    · rw [if_pos hq2] at f; cases f
    rw [if_neg hq2] at f f'
    simp only [py_bind_ok] at f f'
    obtain ⟨rp, hrp, f⟩ := f
    obtain ⟨rp', hrp', f'⟩ := f'
    have hrr : rp' = rp := by
      unfold Poly.partitionProduct at hrp hrp'
      have hz : List.Forall₂ (fun x' x : (ℕ × F) × ℕ => x'.1.1 = x.1.1 ∧ x'.2 = x.2 ∧ (x'.1.2 = x.1.2 ∨ x.2 = 0))
          ((Poly.enum a').zip q) ((Poly.enum a).zip q) := by
        rw [List.forall₂_iff_get]
        have hl : (Poly.enum a').length = (Poly.enum a).length := by simp [Poly.enum, ha.1]
        refine ⟨by simp [hl], fun j j1 j2 => ?_⟩
        have hja : j < a.length := by
          simp [Poly.enum] at j2; omega
        have hja' : j < a'.length := by rw [ha.1]; exact hja
        have hjq : j < q.length := by
          simp [Poly.enum] at j2; omega
        simp only [Poly.enum, List.get_eq_getElem, List.getElem_zip, List.getElem_range]
        refine ⟨trivial, trivial, ?_⟩
        by_cases hjd : j < d
        · left
          have := ha.2 j hjd
          rw [List.getElem?_eq_getElem hja', List.getElem?_eq_getElem hja] at this
          exact Option.some.inj this
        · right
          by_contra hne
          have hmem : j * q[j] ∈ (((List.range q.length).zip q).map fun t => t.1 * t.2) := by
            refine List.mem_map.2 ⟨(j, q[j]), ?_, rfl⟩
            refine List.mem_iff_getElem.2 ⟨j, by simpa using hjq, by simp⟩
          have hle := List.single_le_sum (by simp) _ hmem
          have : j * 1 ≤ j * q[j] := Nat.mul_le_mul_left _ (Nat.pos_of_ne_zero hne)
          push Not at hq2
          omega
      refine foldlM_rel (Rs := Eq) ?_ hz rfl hrp' hrp
      rintro ⟨s1, s2⟩ _ ⟨⟨j', c'⟩, q'⟩ ⟨⟨j, c⟩, q⟩ t' t rfl ⟨e1, e2, e3⟩ g' g
      simp only at e1 e2 e3
      subst e1 e2
      unfold Poly.productStep at g g'
      simp only [py_bind_ok, py_pure] at g g'
      obtain ⟨w, hw, x, hx, rfl⟩ := g
      obtain ⟨w', hw', x', hx', rfl⟩ := g'
      have hww : w' = w := by
        rcases e3 with rfl | rfl
        · rw [hw] at hw'; cases hw'; rfl
        · exact h0 _ _ _ _ _ hw' hw
      subst hww
      rw [hx] at hx'; cases hx'
      rfl
    subst hrr
    rw [f] at f'
    cases f'; rfl
  · rw [List.getElem?_eq_none_iff.2 (by rw [mapM_length h']; simpa using hiN),
      List.getElem?_eq_none_iff.2 (by rw [mapM_length h]; simpa using hiN)]

/-! ### enclosure_arithmetic.py -/

variable {K : Type} [Field K] [LinearOrder K]

theorem lead_enclose {d : ℕ} {a' a : Encl K} (ha : Lead d a' a) {t' t : Coef K} {r' r : Encl K}
    (h' : encloseEnclosure a' t' d = .ok r') (h : encloseEnclosure a t d = .ok r) : Lead d r' r := by
  unfold encloseEnclosure at h h'
  rw [ha.1] at h'
  by_cases hl : a.length ≤ d + 1
  · rw [if_pos hl] at h h'
    cases h; cases h'; exact ha
  rw [if_neg hl] at h h'
  simp only [py_bind_ok, py_pure] at h h'
  obtain ⟨c, -, rfl⟩ := h
  obtain ⟨c', -, rfl⟩ := h'
  have h1 := ha.1
  refine ⟨by simp [ha.1], fun i hi => ?_⟩
  rw [List.getElem?_append_left (by simp; omega), List.getElem?_append_left (by simp; omega), List.getElem?_take,
    List.getElem?_take, if_pos hi, if_pos hi, ha.2 i hi]

/-- two arithmetics that differ in the trust region only -/
structure LeadT (T' T : TEA K) : Prop where
  deg : T'.maxDegree = T.maxDegree
  shape : T'.trLo.shape = T.trLo.shape

namespace TEA
variable {T' T : TEA K}

theorem lead_xNdim (hT : LeadT T' T) : T'.xNdim = T.xNdim := by
  unfold xNdim ND.ndim; rw [hT.shape]

theorem lead_truncate (hT : LeadT T' T) {a' a : Encl K} (ha : Lead T.maxDegree a' a) {r' r : Encl K}
    (h' : T'.truncateIfNecessary a' = .ok r') (h : T.truncateIfNecessary a = .ok r) : Lead T.maxDegree r' r := by
  unfold truncateIfNecessary at h h'
  rw [hT.deg] at h'
  exact lead_enclose ha h' h

theorem lead_addCoeffs {d : ℕ} {a' a b' b : Encl K} (ha : Lead d a' a) (hb : Lead d b' b) {r' r : Encl K}
    (h' : addCoeffs a' b' = .ok r') (h : addCoeffs a b = .ok r) : Lead d r' r := by
  induction a generalizing a' b' b d r' r with
  | nil =>
    obtain rfl : a' = [] := List.length_eq_zero_iff.1 ha.1
    have e : ∀ b : Encl K, addCoeffs [] b = .ok b := by intro b; cases b <;> simp [addCoeffs]
    rw [e] at h h'
    cases h; cases h'; exact hb
  | cons x as ih =>
    rcases a' with _ | ⟨x', as'⟩
    · simp [Lead] at ha
    rcases b with _ | ⟨y, bs⟩
    · obtain rfl : b' = [] := List.length_eq_zero_iff.1 hb.1
      simp only [addCoeffs] at h h'
      cases h; cases h'; exact ha
    rcases b' with _ | ⟨y', bs'⟩
    · simp [Lead] at hb
    obtain ⟨a1, a2⟩ := Lead.cons_iff.1 ha
    obtain ⟨b1, b2⟩ := Lead.cons_iff.1 hb
    simp only [addCoeffs, py_bind_ok, py_pure] at h h'
    obtain ⟨z, hz, zs, hzs, rfl⟩ := h
    obtain ⟨z', hz', zs', hzs', rfl⟩ := h'
    refine Lead.cons_iff.2 ⟨fun hd => ?_, ih a2 b2 hzs' hzs⟩
    rw [a1 hd, b1 hd, hz] at hz'
    cases hz'; rfl

theorem lead_add (hT : LeadT T' T) {a' a b' b : Encl K} (ha : Lead T.maxDegree a' a) (hb : Lead T.maxDegree b' b)
    {r' r : Encl K} (h' : T'.add a' b' = .ok r') (h : T.add a b = .ok r) : Lead T.maxDegree r' r := by
  simp only [add, py_bind_ok] at h h'
  obtain ⟨c, hc, h⟩ := h
  obtain ⟨c', hc', h'⟩ := h'
  exact lead_truncate hT (lead_addCoeffs ha hb hc' hc) h' h

theorem lead_negative (hT : LeadT T' T) {a' a : Encl K} (ha : Lead T.maxDegree a' a)
    {r' r : Encl K} (h' : T'.negative a' = .ok r') (h : T.negative a = .ok r) : Lead T.maxDegree r' r :=
  lead_truncate hT (ha.map _) h' h

theorem lead_subtract (hT : LeadT T' T) {a' a b' b : Encl K} (ha : Lead T.maxDegree a' a) (hb : Lead T.maxDegree b' b)
    {r' r : Encl K} (h' : T'.subtract a' b' = .ok r') (h : T.subtract a b = .ok r) : Lead T.maxDegree r' r := by
  simp only [subtract, py_bind_ok] at h h'
  obtain ⟨c, hc, h⟩ := h
  obtain ⟨c', hc', h'⟩ := h'
  exact lead_add hT ha (lead_negative hT hb hc' hc) h' h

theorem lead_multiply (hT : LeadT T' T) {a' a b' b : Encl K} (ha : Lead T.maxDegree a' a) (hb : Lead T.maxDegree b' b)
    {r' r : Encl K} (h' : T'.multiply a' b' = .ok r') (h : T.multiply a b = .ok r) : Lead T.maxDegree r' r := by
  simp only [multiply, py_bind_ok] at h h'
  obtain ⟨_, -, _, -, c, hc, h⟩ := h
  obtain ⟨_, -, _, -, c', hc', h'⟩ := h'
  rw [lead_xNdim hT] at hc'
  exact lead_truncate hT (lead_polyBilinear ha hb hc' hc) h' h

theorem lead_head {d : ℕ} (hd : 0 < d) {x' x : F} {a' a : List F} (h : Lead d (x' :: a') (x :: a)) : x' = x :=
  (Lead.cons_iff.1 h).1 hd

theorem lead_powerNat (hT : LeadT T' T) (hd : 0 < T.maxDegree) {a' a : Encl K} (ha : Lead T.maxDegree a' a) {p : ℕ}
    {r' r : Encl K} (h' : T'.powerNat a' p = .ok r') (h : T.powerNat a p = .ok r) : Lead T.maxDegree r' r := by
  simp only [powerNat, py_bind_ok] at h h'
  obtain ⟨_, -, h⟩ := h
  obtain ⟨_, -, h'⟩ := h'
  rcases a with _ | ⟨x, as⟩
  · cases h
  rcases a' with _ | ⟨x', as'⟩
  · cases h'
  simp only [py_bind_ok] at h h'
  obtain ⟨c, hc, h⟩ := h
  obtain ⟨c', hc', h'⟩ := h'
  obtain rfl := lead_head hd ha
  rw [lead_xNdim hT] at hc'
  refine lead_truncate hT (lead_integerPower ?_ ha hc' hc) h' h
  intro c' c j r' r h' h
  unfold elementwiseTermPowerCoefficient at h h'
  split_ifs at h h'
  unfold IA.outerPower at h h'
  simp at h h'
  rw [← h, ← h']

theorem lead_bilinear (hT : LeadT T' T) {pbb : ND K → ND K → ℕ → ℕ → Py (ND K)} {a' a b' b : Encl K}
    (ha : Lead T.maxDegree a' a) (hb : Lead T.maxDegree b' b)
    {r' r : Encl K} (h' : T'.arbitraryBilinear a' b' pbb = .ok r') (h : T.arbitraryBilinear a b pbb = .ok r) :
    Lead T.maxDegree r' r := by
  unfold arbitraryBilinear at h h'
  rw [ha.1, hb.1, hT.deg] at h'
  refine foldlM_rel (Rs := Lead T.maxDegree) ?_ (flatMap_rel ha.enum hb.enum) (Lead.refl _ _) h' h
  rintro s' s ⟨⟨i', u'⟩, ⟨j', v'⟩⟩ ⟨⟨i, u⟩, ⟨j, v⟩⟩ t' t hs ⟨⟨e1, e2⟩, ⟨e3, e4⟩⟩ k' k
  simp only at e1 e2 e3 e4
  subst e1 e3
  simp only [bilinearStep, py_bind_ok] at k k'
  obtain ⟨c, hc, k⟩ := k
  obtain ⟨c', hc', k'⟩ := k'
  rw [hT.deg] at k'
  generalize hm : min (i' + j') T.maxDegree = m at k k'
  cases ho : s[m]? with
  | none => rw [ho] at k; cases k
  | some o =>
    cases ho' : s'[m]? with
    | none => rw [ho'] at k'; cases k'
    | some o' =>
      rw [ho] at k
      rw [ho'] at k'
      simp only [py_bind_ok, py_pure] at k k'
      obtain ⟨y, hy, rfl⟩ := k
      obtain ⟨y', hy', rfl⟩ := k'
      refine hs.set _ fun hd => ?_
      have := hs.2 _ hd
      rw [ho, ho'] at this
      cases this
      have hij : i' + j' < T.maxDegree := by omega
      unfold termEnclosureCoefficient at hc hc'
      rw [if_pos hij.le] at hc
      rw [if_pos (by rw [hT.deg]; exact hij.le), lead_xNdim hT, e2 (by omega), e4 (by omega), hc] at hc'
      cases hc'
      rw [hy] at hy'
      cases hy'
      rfl

theorem lead_composeTerm (hT : LeadT T' T) (hd : 0 < T.maxDegree) {a' a : Encl K} (ha : Lead T.maxDegree a' a) {p : ℕ}
    {c' c : Coef K} (hc : p < T.maxDegree → c' = c)
    {r' r : Encl K} (h' : T'.composeTerm a' p c' = .ok r') (h : T.composeTerm a p c = .ok r) :
    Lead T.maxDegree r' r := by
  unfold composeTerm at h h'
  by_cases hp : p = 0
  · subst hp
    simp only [if_true, py_pure] at h h'
    subst h h'
    rw [hc hd]
    exact Lead.refl _ _
  · rw [if_neg hp] at h h'
    simp only [py_bind_ok] at h h'
    obtain ⟨q, hq, h⟩ := h
    obtain ⟨q', hq', h'⟩ := h'
    refine (lead_powerNat hT hd ha hq' hq).mapM_enum ?_ h' h
    intro i x s' s hi k' k
    simp only at k k'
    by_cases hip : i < p
    · rw [if_pos hip] at k k'
      rw [← Except.ok.inj k, ← Except.ok.inj k']
    · rw [if_neg hip] at k k'
      rw [hc (by omega), k] at k'
      exact (Except.ok.inj k').symm

theorem lead_compose (hT : LeadT T' T) (hd : 0 < T.maxDegree) {e' e a' a : Encl K} (he : Lead T.maxDegree e' e)
    (ha : Lead T.maxDegree a' a) {r' r : Encl K} (h' : T'.composeEnclosures e' a' = .ok r')
    (h : T.composeEnclosures e a = .ok r) : Lead T.maxDegree r' r := by
  unfold composeEnclosures at h h'
  by_cases hn : e.isEmpty
  · rw [if_pos hn] at h; cases h
  by_cases hn' : e'.isEmpty
  · rw [if_pos hn'] at h'; cases h'
  rw [if_neg hn] at h
  rw [if_neg hn'] at h'
  have hz : Lead T.maxDegree ((.arr (ND.scalar 0) : Coef K) :: a'.drop 1) (.arr (ND.scalar 0) :: a.drop 1) := by
    refine ⟨by simp [ha.1], fun i hi => ?_⟩
    cases i with
    | zero => rfl
    | succ i =>
      simp only [List.getElem?_cons_succ, List.getElem?_drop]
      exact ha.2 _ (by omega)
  refine foldlM_rel (Rs := Lead T.maxDegree) ?_ he.enum (Lead.refl _ _) h' h
  rintro s' s ⟨p', c'⟩ ⟨p, c⟩ t' t hs ⟨e1, e2⟩ k' k
  simp only at e1 e2
  subst e1
  simp only [composeStep, py_bind_ok] at k k'
  obtain ⟨q, hq, k⟩ := k
  obtain ⟨q', hq', k'⟩ := k'
  exact lead_add hT hs (lead_composeTerm hT hd hz e2 hq' hq) k' k

theorem lead_elementwise (hT : LeadT T' T) (hd : 0 < T.maxDegree) {g' g : Generator K}
    (hg : JB.LeadGen T.maxDegree g' g) {a' a : Encl K} (ha : Lead T.maxDegree a' a) {o' o : Option (Coef K)}
    {r' r : Encl K} (h' : T'.elementwiseFun g' a' o' = .ok r') (h : T.elementwiseFun g a o = .ok r) :
    Lead T.maxDegree r' r := by
  simp only [elementwiseFun, py_bind_ok] at h h'
  obtain ⟨q, -, h⟩ := h
  obtain ⟨q', -, h'⟩ := h'
  rcases a with _ | ⟨x, as⟩
  · cases h
  rcases a' with _ | ⟨x', as'⟩
  · cases h'
  simp only [py_bind_ok] at h h'
  obtain ⟨x0, hx, e, he, h⟩ := h
  obtain ⟨x0', hx', e', he', h'⟩ := h'
  obtain rfl := lead_head hd ha
  have hxx : x0' = x0 := by
    unfold expansionPoint at hx hx'
    cases x' with
    | arr z => cases hx; cases hx'; rfl
    | ivl l u => simp only [Nat.pos_iff_ne_zero.1 hd, if_false] at hx; cases hx
  subst hxx
  rw [hT.deg] at he'
  exact lead_compose hT hd (hg _ _ _ _ _ he' he) ha h' h

theorem lead_powerOther (hT : LeadT T' T) (hd : 0 < T.maxDegree) {g' g : Generator K}
    (hg : JB.LeadGen T.maxDegree g' g) {a' a : Encl K} (ha : Lead T.maxDegree a' a)
    {r' r : Encl K} (h' : T'.powerOther g' a' = .ok r') (h : T.powerOther g a = .ok r) : Lead T.maxDegree r' r := by
  simp only [powerOther, py_bind_ok] at h h'
  obtain ⟨_, -, h⟩ := h
  obtain ⟨_, -, h'⟩ := h'
  exact lead_elementwise hT hd hg ha h' h

theorem lead_divide (hT : LeadT T' T) (hd : 0 < T.maxDegree) {g' g : Generator K}
    (hg : JB.LeadGen T.maxDegree g' g) {a' a b' b : Encl K} (ha : Lead T.maxDegree a' a) (hb : Lead T.maxDegree b' b)
    {r' r : Encl K} (h' : T'.divide g' a' b' = .ok r') (h : T.divide g a b = .ok r) : Lead T.maxDegree r' r := by
  simp only [divide, py_bind_ok] at h h'
  obtain ⟨c, hc, h⟩ := h
  obtain ⟨c', hc', h'⟩ := h'
  exact lead_multiply hT ha (lead_powerOther hT hd hg hb hc' hc) h' h

end TEA
end AB
