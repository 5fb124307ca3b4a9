/-
Inclusion isotonicity: bilinear and linear primitives.
-/
import Verif.Proofs.Iso2
import Verif.Proofs.JaxBound

set_option linter.unusedSectionVars false

namespace AB
variable {K : Type} [Field K] [LinearOrder K] [IsStrictOrderedRing K]
open IA (repS BTerm)

namespace TEA
variable {T' T : TEA K}

/-- for all operand shapes and ranks of the additional axes, the operation is a sum of products with nonnegative weights -/
def FormedAll (pbb : ND K → ND K → ℕ → ℕ → Py (ND K)) : Prop :=
  ∀ p q S U, ∃ R, IA.Formed (fun y z => pbb y z p q) S U R

theorem iso_termCoef (hT : NestT T' T) {pbb : ND K → ND K → ℕ → ℕ → Py (ND K)} (hp : FormedAll pbb)
    {A' A B' B r' r : Coef K} (nA : Nest A' A) (nB : Nest B' B) {i j : ℕ}
    (h' : T'.termEnclosureCoefficient pbb A' B' i j = .ok r')
    (h : T.termEnclosureCoefficient pbb A B i j = .ok r) : Nest r' r := by
  unfold termEnclosureCoefficient at h h'
  rw [hT.deg, hT.xNdim] at h'
  by_cases hd : i + j ≤ T.maxDegree
  · rw [if_pos hd] at h h'
    obtain ⟨R, hR⟩ := hp (i * T.xNdim) (j * T.xNdim) A.shape B.shape
    exact IA.iso_bilinear nA nB hR h' h
  · rw [if_neg hd] at h h'
    simp only at h h'
    by_cases hne : (i - min i (i + j - T.maxDegree)) + (j - (i + j - T.maxDegree - min i (i + j - T.maxDegree))) ≠ T.maxDegree
    · rw [if_pos hne] at h; cases h
    rw [if_neg hne] at h h'
    by_cases hj : i + j - T.maxDegree - min i (i + j - T.maxDegree) > 0
    · simp only [if_pos hj, py_bind_ok] at h h'
      obtain ⟨pw, hpw, c0, hc0, q, hq, c1, hc1, h⟩ := h
      obtain ⟨pw', hpw', c0', hc0', q', hq', c1', hc1', h'⟩ := h'
      have n0 := IA.iso_tensordot nA (IA.iso_outerPower hT.region hpw' hpw) hc0' hc0
      have n1 := IA.iso_tensordot nB (IA.iso_outerPower hT.region hq' hq) hc1' hc1
      obtain ⟨R, hR⟩ := hp ((i - min i (i + j - T.maxDegree)) * T.xNdim)
        ((j - (i + j - T.maxDegree - min i (i + j - T.maxDegree))) * T.xNdim) c0.shape c1.shape
      exact IA.iso_bilinear n0 n1 hR h' h
    · simp only [if_neg hj, py_bind_ok] at h h'
      obtain ⟨pw, hpw, c0, hc0, c1, hc1, h⟩ := h
      obtain ⟨pw', hpw', c0', hc0', c1', hc1', h'⟩ := h'
      cases hc1; cases hc1'
      have n0 := IA.iso_tensordot nA (IA.iso_outerPower hT.region hpw' hpw) hc0' hc0
      obtain ⟨R, hR⟩ := hp ((i - min i (i + j - T.maxDegree)) * T.xNdim)
        ((j - (i + j - T.maxDegree - min i (i + j - T.maxDegree))) * T.xNdim) c0.shape B.shape
      exact IA.iso_bilinear n0 nB hR h' h

theorem iso_arbitraryBilinear (hT : NestT T' T) {pbb : ND K → ND K → ℕ → ℕ → Py (ND K)} (hp : FormedAll pbb)
    {a' a b' b r' r : Encl K} (ha : NestE a' a) (hb : NestE b' b)
    (h' : T'.arbitraryBilinear a' b' pbb = .ok r') (h : T.arbitraryBilinear a b pbb = .ok r) : NestE r' r := by
  unfold arbitraryBilinear at h h'
  rw [hT.deg, ha.length_eq, hb.length_eq] at h'
  refine foldlM_rel (Rs := NestE) ?_ (pairs_rel (enum_rel ha) (enum_rel hb)) ?_ h' h
  · rintro s' s ⟨⟨i', x'⟩, ⟨j', y'⟩⟩ ⟨⟨i, x⟩, ⟨j, y⟩⟩ t' t hs ⟨⟨hi, hx⟩, ⟨hj, hy⟩⟩ h' h
    obtain rfl : i' = i := hi
    obtain rfl : j' = j := hj
    simp only [bilinearStep, py_bind_ok] at h h'
    obtain ⟨c, hc, h⟩ := h
    obtain ⟨c', hc', h'⟩ := h'
    rw [hT.deg] at h'
    have hn := iso_termCoef hT hp hx hy hc' hc
    cases ho : s[min (i' + j') T.maxDegree]? with
    | none => rw [ho] at h; cases h
    | some o =>
      cases ho' : s'[min (i' + j') T.maxDegree]? with
      | none => rw [ho'] at h'; cases h'
      | some o' =>
        rw [ho] at h
        rw [ho'] at h'
        simp only [py_bind_ok, py_pure] at h h'
        obtain ⟨d, hd, rfl⟩ := h
        obtain ⟨d', hd', rfl⟩ := h'
        have hno := getElem?_rel hs ho' ho
        exact set_rel hs (IA.iso_add hno hn hd' hd) _
  · show List.Forall₂ Nest _ _
    generalize min (T.maxDegree + 1) (a.length + b.length - 1) = n
    induction n with
    | zero => exact .nil
    | succ n ih => exact .cons (.arr _) ih

end TEA

/-! ### sums of products -/

/-- the shape of the result and its entries are determined by the shapes of the operands -/
theorem formed_of {op : ND K → ND K → Py (ND K)} {S T R : List ℕ} {terms : List ℕ → List (BTerm K)}
    (hw : ∀ L, ValidIdx R L → ∀ t ∈ terms L, 0 ≤ t.1)
    (h : ∀ x y s, x.shape = S → y.shape = T → op x y = .ok s → s.shape = R ∧ ∀ L, ValidIdx R L →
      s.get L = ((terms L).map fun t => t.1 * (x.canon.get t.2.1 * y.canon.get t.2.2)).sum) :
    IA.Formed op S T R := by
  refine ⟨fun x y s hx hy hs => (h x y s hx hy hs).1, fun L hL => ?_⟩
  refine ⟨(terms L).filter fun t => t.2.1 ∈ idx S ∧ t.2.2 ∈ idx T, ?_, fun x y s hx hy hs => ?_⟩
  · intro t ht
    rw [List.mem_filter] at ht
    have := of_decide_eq_true ht.2
    exact ⟨hw L hL t ht.1, ⟨S, ble_refl _, mem_idx.1 this.1⟩, ⟨T, ble_refl _, mem_idx.1 this.2⟩⟩
  · obtain ⟨h1, h2⟩ := h x y s hx hy hs
    rw [ND.bget_valid s (h1.symm ▸ hL), h2 L hL]
    generalize terms L = l
    induction l with
    | nil => rfl
    | cons t l ih =>
      rw [List.map_cons, List.sum_cons, ih, List.filter_cons]
      by_cases hv : t.2.1 ∈ idx S ∧ t.2.2 ∈ idx T
      · rw [if_pos (by simpa using hv), List.map_cons, List.sum_cons, ND.canon_get x (hx ▸ mem_idx.1 hv.1),
          ND.canon_get y (hy ▸ mem_idx.1 hv.2), ND.bget_valid x (hx ▸ mem_idx.1 hv.1),
          ND.bget_valid y (hy ▸ mem_idx.1 hv.2)]
      · rw [if_neg (by simpa using hv)]
        have : x.canon.get t.2.1 * y.canon.get t.2.2 = 0 := by
          rw [not_and_or] at hv
          rcases hv with hv | hv
          · simp only [ND.canon, hx, if_neg hv, zero_mul]
          · simp only [ND.canon, hy, if_neg hv, mul_zero]
        rw [this, mul_zero, zero_add]

/-- an operation that returns for no operands of the given shapes -/
theorem formed_never {op : ND K → ND K → Py (ND K)} {S T : List ℕ}
    (h : ∀ x y s, x.shape = S → y.shape = T → op x y ≠ .ok s) : ∃ R, IA.Formed op S T R :=
  ⟨[0], fun x y s hx hy hs => absurd hs (h x y s hx hy), fun L hL => by
    cases hL with | cons h _ => exact absurd h (Nat.not_lt_zero _)⟩

open Lax in
theorem formed_dot (sem : Sem K) (lc rc lb rb : List ℕ) : TEA.FormedAll (JB.dotPairwise sem lc rc lb rb) := by
  intro p q S U
  by_cases hex : ∃ x y s, x.shape = S ∧ y.shape = U ∧ JB.dotPairwise sem lc rc lb rb x y p q = .ok s
  swap
  · exact formed_never fun x y s hx hy hs => hex ⟨x, y, s, hx, hy, hs⟩
  let D := lb.map (fun d => S.getD d 0) ++ dropAxes (lb ++ lc) S ++ dropAxes (rb ++ rc) U
  let ps := S.length - (p + (lc ++ lb).dedup.length)
  let n := D.length
  let perm := List.range ps ++ List.range' (ps + p) (n - q - (ps + p)) ++ List.range' ps p ++ List.range' (n - q) q
  let nb := lb.length
  let nl := (dropAxes (lb ++ lc) S).length
  refine ⟨perm.map fun k => D.getD k 0, formed_of (terms := fun L0 =>
    let L := (List.range n).map fun k => L0.getD (perm.idxOf k) 0
    (idx (lc.map fun d => S.getD d 0)).map fun J => (1, assemble S.length (lb ++ lc) ((L.drop nb).take nl) (L.take nb ++ J),
      assemble U.length (rb ++ rc) (L.drop (nb + nl)) (L.take nb ++ J))) ?_ ?_⟩
  · intro L _ t ht
    obtain ⟨J, _, rfl⟩ := List.mem_map.1 ht
    exact zero_le_one
  · intro x y s hx hy hs
    unfold JB.dotPairwise at hs
    simp only [py_bind_ok] at hs
    obtain ⟨t, ht, hs⟩ := hs
    rw [bind2_dotGeneral] at ht
    unfold dotGeneral at ht
    split_ifs at ht with h1
    cases ht
    split_ifs at hs with h2 h3
    unfold transpose at hs
    split_ifs at hs with h4
    cases hs
    have e1 : x.canon.shape = S := hx
    have e2 : y.canon.shape = U := hy
    have e3 : x.canon.ndim = S.length := by rw [← hx]; rfl
    have e4 : y.canon.ndim = U.length := by rw [← hy]; rfl
    have e5 : x.ndim = S.length := by rw [← hx]; rfl
    simp only [ND.ndim] at *
    simp only [e1, e2, hx, List.map_map]
    refine ⟨?_, fun L hL => ?_⟩
    · rfl
    · congr 1
      apply List.map_congr_left
      intro J _
      simp only [Function.comp, one_mul]
      rfl

/-- `conv_general_dilated` as called here: a bilinear operation with nonnegative weights -/
theorem formed_conv {op : ND K → ND K → Py (ND K)} (h : NonnegBilinear op) :
    TEA.FormedAll (fun u v p q => if p = 0 ∧ q = 0 then op u.canon v.canon else .error .notImplemented) := by
  intro p q S U
  obtain ⟨R, terms, h1, h2⟩ := h S U
  refine ⟨R, formed_of (fun L hL t ht => (h1 L hL t ht).1) fun x y s hx hy hs => ?_⟩
  simp only at hs
  split_ifs at hs with hc
  obtain ⟨k1, k2⟩ := h2 x.canon y.canon s hx hy hs
  exact ⟨k1, fun L hL => k2 L hL⟩

open TEA in
theorem conv_reduce (sem : Sem K) {op : ND K → ND K → Py (ND K)} {T : TEA K} {a b c : Encl K}
    (hc : T.arbitraryBilinear a b (JB.convPairwise sem op) = .ok c) :
    T.arbitraryBilinear a b (fun u v p q => if p = 0 ∧ q = 0 then op u.canon v.canon
        else .error .notImplemented) = .ok c := by
  have one : ∀ (u v : ND K) (p q : ℕ) (s : ND K), (p = 0 ∨ q = 0) → JB.convPairwise sem op u v p q = .ok s →
      p = 0 ∧ q = 0 ∧ op u.canon v.canon = .ok s := by
    intro u v p q s hpq hs
    unfold JB.convPairwise at hs
    simp only [py_bind_ok] at hs
    obtain ⟨a', ha', b', hb', c', hc', hs⟩ := hs
    split_ifs at hs with h1
    · obtain ⟨rfl, rfl⟩ := h1
      simp only [JB.moveLastToFront, if_true, Except.ok.injEq] at ha' hb'
      subst ha' hb'
      rw [bind2_conv] at hc'
      cases hs
      exact ⟨rfl, rfl, hc'⟩
  have hle : OkLe (T.arbitraryBilinear a b (JB.convPairwise sem op))
      (T.arbitraryBilinear a b (fun u v p q => if p = 0 ∧ q = 0 then op u.canon v.canon
        else .error .notImplemented)) := by
    apply okLe_bilinear
    intro i hi j hj i' hi' j' hj' hd u v s hs
    have hpq : i' * T.xNdim = 0 ∨ j' * T.xNdim = 0 := by
      by_contra hcon
      push Not at hcon
      have hx : T.xNdim ≠ 0 := fun h => hcon.1 (by rw [h, Nat.mul_zero])
      have hi0 : i' ≠ 0 := fun h => hcon.1 (by rw [h, Nat.zero_mul])
      have hj0 : j' ≠ 0 := fun h => hcon.2 (by rw [h, Nat.zero_mul])
      obtain ⟨u', v', s', hs'⟩ := bilinear_call T hc (i := 1) (j := 0) (by omega) (by omega) (by omega)
      have := (one _ _ _ _ _ (Or.inr (Nat.zero_mul _)) hs').1
      omega
    obtain ⟨e1, e2, e3⟩ := one u v _ _ s hpq hs
    rw [if_pos ⟨e1, e2⟩]
    exact e3
  exact hle c hc


/-! ### operations on one array -/

theorem mono_ivl {f : ND K → Py (ND K)} (hf : MonotoneOp f) {l' u' l u sl' su' sl su : ND K}
    (w' : (Coef.ivl l' u').WellFormed) (w : (Coef.ivl l u).WellFormed) (hin : (Coef.ivl l' u').Inside (.ivl l u))
    (hsl' : f l' = .ok sl') (hsu' : f u' = .ok su') (hsl : f l = .ok sl) (hsu : f u = .ok su) :
    Nest (.ivl sl' su') (.ivl sl su) := by
  have hn : Nest (.ivl l' u') (.ivl l u) := .ivl w' w hin
  have e1 : l'.shape = l.shape := hn.shape
  have e2 : l'.shape = u'.shape := w'.1
  have e3 : l.shape = u.shape := w.1
  have hent : ∀ I, ValidIdx l.shape I → l.get I ≤ l'.get I ∧ l'.get I ≤ u'.get I ∧ u'.get I ≤ u.get I := by
    intro I hI
    have := hn.entries (ble_refl _) hI
    simp only [Coef.lo, Coef.hi] at this
    rwa [ND.bget_valid _ hI, ND.bget_valid _ (e1 ▸ hI), ND.bget_valid _ (by rw [← e2, e1]; exact hI),
      ND.bget_valid _ (by rw [← e3]; exact hI)] at this
  obtain ⟨a1, a2⟩ := hf l l' sl sl' e1.symm (fun I hI => (hent I (e1 ▸ hI)).1) hsl hsl'
  obtain ⟨b1, b2⟩ := hf l' u' sl' su' e2 (fun I hI => (hent I (by rw [← e1, e2]; exact hI)).2.1) hsl' hsu'
  obtain ⟨c1, c2⟩ := hf u' u su' su (by rw [← e2, e1, e3]) (fun I hI => (hent I (e3 ▸ hI)).2.2) hsu' hsu
  refine Nest.of_entries (c' := .ivl sl' su') (c := .ivl sl su) b1 (by show sl.shape = su.shape; rw [a1, b1, c1])
    a1.symm (fun L hL => ?_) rfl (fun h => by cases h)
  have v1 : ValidIdx sl.shape L := hL
  have v2 : ValidIdx sl'.shape L := a1 ▸ v1
  have v3 : ValidIdx su'.shape L := b1 ▸ v2
  have v4 : ValidIdx su.shape L := c1 ▸ v3
  simp only [Coef.lo, Coef.hi]
  rw [ND.bget_valid _ v1, ND.bget_valid _ v2, ND.bget_valid _ v3, ND.bget_valid _ v4]
  exact ⟨a2 L v2, b2 L v3, c2 L v4⟩

theorem canon_le {x' x : ND K} (hs : x'.shape = x.shape) (h : ∀ I, ValidIdx x.shape I → x'.get I ≤ x.get I)
    (I : List ℕ) : x'.canon.get I ≤ x.canon.get I := by
  simp only [ND.canon, hs]
  by_cases hI : I ∈ idx x.shape
  · rw [if_pos hI, if_pos hI]; exact h I (mem_idx.1 hI)
  · rw [if_neg hI, if_neg hI]

theorem iso_mapOver {f : ND K → Py (ND K)} (hf : MonotoneOp f)
    {e' e : Encl K} (he : NestE e' e) {r' r : Encl K}
    (h' : mapOverEnclosure e' f = .ok r') (h : mapOverEnclosure e f = .ok r) : NestE r' r := by
  unfold mapOverEnclosure at h h'
  refine mapM_rel (fun c' c r' r hc h' h => ?_) he h' h
  cases hc with
  | arr a =>
    simp only [py_bind_ok, py_pure] at h h'
    obtain ⟨s, hs, rfl⟩ := h
    obtain ⟨s', hs', rfl⟩ := h'
    rw [hs] at hs'; cases hs'
    exact .arr _
  | ivl w' w hin =>
    simp only [py_bind_ok, py_pure] at h h'
    obtain ⟨sl, hsl, su, hsu, rfl⟩ := h
    obtain ⟨sl', hsl', su', hsu', rfl⟩ := h'
    exact mono_ivl hf w' w hin hsl' hsu' hsl hsu

open Lax in
/-- the pass-through primitives are order preserving -/
theorem monotone_bind1 (sem : Sem K) {p : Prim K}
    (hp : match p with
      | .reshape _ | .reduceSum _ | .reduceWindowSum _ | .squeeze _ | .transpose _ => True
      | .jit body => MonotoneOp body
      | .convertElementType round => Monotone round
      | _ => False) : MonotoneOp (p.bind1 sem) := by
  intro x' x s' s hs hle h' h
  have hc := canon_le hs hle
  cases p with
  | convertElementType round =>
    rw [bind1_convert'] at h h'
    cases h; cases h'
    exact ⟨hs, fun I _ => hp (hc I)⟩
  | reshape n =>
    rw [bind1_reshape] at h h'
    unfold Lax.reshape at h h'
    split_ifs at h h'
    cases h; cases h'
    refine ⟨rfl, fun I _ => ?_⟩
    simp only [ND.canon_shape, hs]
    exact hc _
  | reduceSum axes =>
    rw [bind1_reduceSum] at h h'
    unfold Lax.reduceSum at h h'
    split_ifs at h h'
    cases h; cases h'
    refine ⟨by simp only [ND.canon_shape, hs], fun I _ => ?_⟩
    simp only [ND.canon_shape, ND.ndim, hs]
    exact List.sum_le_sum fun J _ => hc _
  | reduceWindowSum ws =>
    rw [bind1_reduceWindowSum] at h h'
    unfold Lax.reduceWindowSum at h h'
    split_ifs at h h'
    cases h; cases h'
    refine ⟨by simp only [ND.canon_shape, hs], fun I _ => ?_⟩
    simp only [ND.canon_shape, hs]
    refine List.sum_le_sum fun J _ => ?_
    cases winIdx ws x.shape I J with
    | none => exact le_rfl
    | some α => exact hc _
  | squeeze dims =>
    rw [bind1_squeeze] at h h'
    unfold Lax.squeeze at h h'
    split_ifs at h h'
    cases h; cases h'
    refine ⟨by simp only [ND.canon_shape, hs], fun I _ => ?_⟩
    simp only [ND.canon_shape, ND.ndim, hs]
    exact hc _
  | transpose perm =>
    rw [bind1_transpose] at h h'
    unfold Lax.transpose at h h'
    split_ifs at h h'
    cases h; cases h'
    refine ⟨by simp only [ND.canon_shape, hs], fun I _ => ?_⟩
    simp only [ND.canon_shape, ND.ndim, hs]
    exact hc _
  | jit body =>
    rw [bind1_jit] at h h'
    exact hp x'.canon x.canon _ _ hs (fun I _ => hc I) h' h
  | _ => exact hp.elim

theorem monotone_broadcastInDim (shape dims : List ℕ) : MonotoneOp (fun a : ND K => Lax.broadcastInDim shape dims a) := by
  intro x' x s' s hs hle h' h
  have en : x'.ndim = x.ndim := by unfold ND.ndim; rw [hs]
  simp only [Lax.broadcastInDim, Lax.broadcastInDimP] at h h'
  by_cases h1 : x.ndim = shape.length ∧ dims = []
  · rw [if_pos h1] at h
    rw [if_pos (by rw [en]; exact h1)] at h'
    cases h; cases h'
    exact ⟨hs, hle⟩
  · rw [if_neg h1] at h
    rw [if_neg (by rw [en]; exact h1)] at h'
    by_cases h2 : dims.length = x.ndim ∧ dims.Pairwise (· < ·) ∧ (∀ d ∈ dims, d < shape.length) ∧
      ∀ k < x.ndim, x.shape.getD k 0 = 1 ∨ x.shape.getD k 0 = shape.getD (dims.getD k 0) 0
    · rw [if_pos h2] at h
      rw [if_pos (by rw [en, hs]; exact h2)] at h'
      cases h; cases h'
      refine ⟨rfl, fun I hI => ?_⟩
      obtain ⟨q1, q2, q3, q4⟩ := h2
      simp only [en, hs]
      exact hle _ (bidIdx_valid q3 q1 q4 hI)
    · rw [if_neg h2] at h; cases h

theorem iso_broadcastInDim {shape dims : List ℕ} {e' e : Encl K} (he : NestE e' e) {r' r : Encl K}
    (h' : JB.broadcastInDimPush shape dims e' = .ok r') (h : JB.broadcastInDimPush shape dims e = .ok r) : NestE r' r := by
  simp only [JB.broadcastInDimPush, py_bind_ok] at h h'
  obtain ⟨xs, hx, h⟩ := h
  obtain ⟨xs', hx', h'⟩ := h'
  have e1 : xs' = xs := by
    cases he with
    | nil => cases hx
    | cons h0 ht =>
      cases ht with
      | nil => cases hx; cases hx'; rfl
      | cons h1 _ =>
        cases h1 with
        | arr a =>
          unfold JB.bidXShape at hx hx'
          cases hx; cases hx'
          rw [h0.ndim]
        | ivl _ _ _ => cases hx
  subst e1
  refine mapM_rel ?_ (enum_rel he) h' h
  rintro ⟨i', c'⟩ ⟨i, c⟩ t' t ⟨hi, hc⟩ h' h
  obtain rfl : i' = i := hi
  have hm := monotone_broadcastInDim (K := K) (shape ++ TEA.rep i' xs') dims
  unfold JB.bidCoef at h h'
  cases hc with
  | arr a =>
    simp only [py_bind_ok, py_pure] at h h'
    obtain ⟨s, hs, rfl⟩ := h
    obtain ⟨s', hs', rfl⟩ := h'
    rw [hs] at hs'; cases hs'
    exact .arr _
  | ivl w' w hin =>
    simp only [py_bind_ok, py_pure] at h h'
    obtain ⟨sl, hsl, su, hsu, rfl⟩ := h
    obtain ⟨sl', hsl', su', hsu', rfl⟩ := h'
    exact mono_ivl hm w' w hin hsl' hsu' hsl hsu

end AB
