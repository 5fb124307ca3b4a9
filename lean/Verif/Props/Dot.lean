/-
C49: the bilinear operation that /repo/autobound/jax/jax_bound.py:396-430 builds for `dot_general`.
-/
import Verif.Props.Contracts
import Verif.Proofs.BilinMono

set_option linter.unusedSectionVars false

namespace AB
variable {K : Type} [Field K]
open Lax JB

namespace Lax

theorem cnt_add_length {D : List ℕ} {n : ℕ} (h : AxesOk n D) : cnt D n + D.length = n := by
  unfold cnt
  have h1 : ((List.range n).filter fun k => k ∈ D).Perm D := by
    rw [List.perm_ext_iff_of_nodup (List.nodup_range.filter _) h.1]
    intro a
    simp only [List.mem_filter, List.mem_range, decide_eq_true_eq]
    exact ⟨fun h => h.2, fun ha => ⟨h.2 a ha, ha⟩⟩
  have h2 := List.length_eq_length_filter_add (l := List.range n) (fun k => decide (k ∈ D))
  rw [h1.length_eq, List.length_range] at h2
  have h3 : ((List.range n).filter fun k => !decide (k ∈ D)) = (List.range n).filter fun k => decide (k ∉ D) := by
    apply List.filter_congr; intro x _; simp
  rw [h3] at h2
  omega

theorem transpose_block' {S1 S2 S3 S4 perm : List ℕ} {a s : ND K} (hs : a.shape = S1 ++ S2 ++ S3 ++ S4)
    (hp : perm = blockPerm S1.length S2.length S3.length S4.length) (h : transpose perm a = .ok s) :
    s.shape = S1 ++ S3 ++ S2 ++ S4 ∧ ∀ I1 I2 I3 I4 : List ℕ, I1.length = S1.length →
      I2.length = S2.length → I3.length = S3.length → I4.length = S4.length →
      s.get (I1 ++ I3 ++ I2 ++ I4) = a.get (I1 ++ I2 ++ I3 ++ I4) := by
  subst hp
  exact transpose_block hs h
end Lax

variable (sem : Sem K)

/-- The shape of `dot_general` applied to arrays of shapes `Ra`, `Rb`. -/
def dotShape (lc rc lb rb Ra Rb : List ℕ) : List ℕ :=
  lb.map (fun d => Ra.getD d 0) ++ dropAxes (lb ++ lc) Ra ++ dropAxes (rb ++ rc) Rb

/-- The products that `dot_general` sums at index `L`: one for every index `J` of the contracted axes. -/
def dotTerms (lc rc lb rb Ra Rb L : List ℕ) : List (K × List ℕ × List ℕ) :=
  let nb := lb.length
  let nl := (dropAxes (lb ++ lc) Ra).length
  (idx (lc.map fun d => Ra.getD d 0)).map fun J =>
    (1, assemble Ra.length (lb ++ lc) ((L.drop nb).take nl) (L.take nb ++ J),
        assemble Rb.length (rb ++ rc) (L.drop (nb + nl)) (L.take nb ++ J))

/-- The dimension numbers are acceptable for arrays of shapes `Ra` and `Rb`. -/
def DotOk (lc rc lb rb Ra Rb : List ℕ) : Prop :=
  AxesOk Ra.length (lb ++ lc) ∧ AxesOk Rb.length (rb ++ rc) ∧ lb.length = rb.length ∧
    (lb ++ lc).map (fun d => Ra.getD d 0) = (rb ++ rc).map (fun d => Rb.getD d 0)

theorem dotTerms_valid {lc rc lb rb Ra Rb L : List ℕ} (h : DotOk lc rc lb rb Ra Rb)
    (hL : ValidIdx (dotShape lc rc lb rb Ra Rb) L) :
    ∀ t ∈ dotTerms (K := K) lc rc lb rb Ra Rb L, ValidIdx Ra t.2.1 ∧ ValidIdx Rb t.2.2 := by
  intro t ht
  unfold dotTerms at ht
  obtain ⟨J, hJ, rfl⟩ := List.mem_map.1 ht
  unfold dotShape at hL
  obtain ⟨L', L2, rfl, hL', h2⟩ := validIdx_split hL
  obtain ⟨L0, L1, rfl, h0, h1⟩ := validIdx_split hL'
  have l0 := h0.length; rw [List.length_map] at l0
  have l1 := h1.length
  have hJv : ValidIdx ((lb ++ lc).map fun d => Ra.getD d 0) (L0 ++ J) := by
    rw [List.map_append]; exact validIdx_append h0 (mem_idx.1 hJ)
  have e0 : (L0 ++ L1 ++ L2).take lb.length = L0 := by
    rw [List.append_assoc, l0, List.take_left']; rfl
  have e1 : ((L0 ++ L1 ++ L2).drop lb.length).take (dropAxes (lb ++ lc) Ra).length = L1 := by
    rw [List.append_assoc, l0, List.drop_left' rfl, l1, List.take_left' rfl]
  have e2 : (L0 ++ L1 ++ L2).drop (lb.length + (dropAxes (lb ++ lc) Ra).length) = L2 := by
    rw [List.drop_left']; rw [List.length_append, l0, l1]
  refine ⟨?_, ?_⟩
  · show ValidIdx Ra (assemble _ _ _ _)
    rw [e0, e1]
    exact assemble_valid h1 hJv
  · show ValidIdx Rb (assemble _ _ _ _)
    rw [e0, e2]
    exact assemble_valid h2 (h.2.2.2 ▸ hJv)

/-- **C49.** For dimension numbers that are right for the values, what `dot_general` followed by the
transposition computes for two coefficients is, for every pair of indices of the trailing axes, the
`dot_general` of the leading axes — if there are no batch dimensions, or the left coefficient has no
trailing axes. -/
theorem C49_contract (xs : List ℕ) {lc rc lb rb Ra Rb : List ℕ} (h0 : DotOk lc rc lb rb Ra Rb) :
    PairwiseContract xs Ra Rb (dotShape lc rc lb rb Ra Rb) (dotTerms (K := K) lc rc lb rb Ra Rb)
      (fun u v p q => if lb = [] ∨ p = 0 then dotPairwise sem lc rc lb rb u v p q
        else .error .notImplemented) := by
  refine ⟨fun L hL => dotTerms_valid h0 hL, ?_⟩
  intro i j P Q u v s hP hQ hu hv h
  have hPl : P.length = i * xs.length := by subst hP; simp
  have hQl : Q.length = j * xs.length := by subst hQ; simp
  clear hP hQ
  rw [← hPl, ← hQl] at h
  simp only at h
  split_ifs at h with hcase
  obtain ⟨hA, hB, hlen, hdims⟩ := h0
  unfold dotPairwise at h
  simp only [py_bind_ok, bind2_dotGeneral] at h
  obtain ⟨t, ht, h⟩ := h
  unfold dotGeneral at ht
  split_ifs at ht with hok
  simp only [Except.ok.injEq] at ht
  have hus : u.canon.shape = Ra ++ P := hu
  have hvs : v.canon.shape = Rb ++ Q := hv
  have hun : u.canon.ndim = Ra.length + P.length := by show u.canon.shape.length = _; rw [hus]; simp
  have hvn : v.canon.ndim = Rb.length + Q.length := by show v.canon.shape.length = _; rw [hvs]; simp
  have hAl : ∀ d ∈ lb, d < Ra.length := fun d hd => hA.2 d (by simp [hd])
  have hAc : ∀ d ∈ lc, d < Ra.length := fun d hd => hA.2 d (by simp [hd])
  have c1 := cnt_add_length hA
  have c2 := cnt_add_length hB
  rw [List.length_append] at c1 c2
  have nl := dropAxes_length (lb ++ lc) Ra
  have nr := dropAxes_length (rb ++ rc) Rb
  rw [hus, hvs, hun, hvn, dropAxes_append hA.2, dropAxes_append hB.2, dims_append hAl, dims_append hAc,
    List.length_append] at ht
  set B := lb.map (fun d => Ra.getD d 0) with hBdef
  set FL := dropAxes (lb ++ lc) Ra with hFL
  set FR := dropAxes (rb ++ rc) Rb with hFR
  have hBl : B.length = lb.length := by simp [hBdef]
  have hded : (lc ++ lb).dedup.length = lc.length + lb.length := by
    rw [List.dedup_eq_self.2, List.length_append]
    exact (List.perm_append_comm.nodup_iff).1 hA.1
  have htn : t.ndim = B.length + FL.length + P.length + FR.length + Q.length := by
    rw [← ht]; simp [ND.ndim]; omega
  have hund : u.ndim = Ra.length + P.length := hun
  simp only [hund, hded, htn] at h
  split_ifs at h with g1 g2
  have hps : Ra.length + P.length - (P.length + (lc.length + lb.length)) = FL.length := by omega
  rw [hps] at h g2
  have hts : t.shape = B ++ FL ++ P ++ FR ++ Q := by rw [← ht]; simp
  have hget : ∀ L0 L1 I L2 J : List ℕ, ValidIdx B L0 → ValidIdx FL L1 → ValidIdx P I → ValidIdx FR L2 →
      ValidIdx Q J → t.get (L0 ++ L1 ++ I ++ L2 ++ J) =
        ((dotTerms lc rc lb rb Ra Rb (L0 ++ L1 ++ L2)).map fun t =>
          t.1 * (u.get (t.2.1 ++ I) * v.get (t.2.2 ++ J))).sum := by
    intro L0 L1 I L2 J v0 v1 vI v2 vJ
    have l0 := v0.length; rw [hBl] at l0
    have l1 := v1.length
    rw [← ht]
    show ((idx _).map _).sum = _
    unfold dotTerms
    rw [List.map_map]
    congr 1
    apply List.map_congr_left
    intro J' hJ'
    have hJv : ValidIdx ((lb ++ lc).map fun d => Ra.getD d 0) (L0 ++ J') := by
      rw [List.map_append]; exact validIdx_append v0 (mem_idx.1 hJ')
    have e0 : (L0 ++ L1 ++ I ++ L2 ++ J).take lb.length = L0 := by
      rw [show L0 ++ L1 ++ I ++ L2 ++ J = L0 ++ (L1 ++ I ++ L2 ++ J) by simp, l0, List.take_left' rfl]
    have e1 : ((L0 ++ L1 ++ I ++ L2 ++ J).drop lb.length).take (FL.length + P.length) = L1 ++ I := by
      rw [show L0 ++ L1 ++ I ++ L2 ++ J = L0 ++ ((L1 ++ I) ++ (L2 ++ J)) by simp, l0, List.drop_left' rfl,
        List.take_left']
      rw [List.length_append, l1, vI.length]
    have e2 : (L0 ++ L1 ++ I ++ L2 ++ J).drop (lb.length + (FL.length + P.length)) = L2 ++ J := by
      rw [show L0 ++ L1 ++ I ++ L2 ++ J = (L0 ++ L1 ++ I) ++ (L2 ++ J) by simp, List.drop_left']
      simp only [List.length_append]
      rw [l0, l1, vI.length]; omega
    have f0 : (L0 ++ L1 ++ L2).take lb.length = L0 := by
      rw [List.append_assoc, l0, List.take_left' rfl]
    have f1 : ((L0 ++ L1 ++ L2).drop lb.length).take FL.length = L1 := by
      rw [List.append_assoc, l0, List.drop_left' rfl, l1, List.take_left' rfl]
    have f2 : (L0 ++ L1 ++ L2).drop (lb.length + FL.length) = L2 := by
      rw [List.drop_left']; rw [List.length_append, l0, l1]
    have a1 := assemble_append (J := L0 ++ J') (J' := I) hA.2 (show L1.length = cnt (lb ++ lc) Ra.length by
      rw [← nl, ← l1])
    have a2 := assemble_append (J := L0 ++ J') (J' := J) hB.2 (show L2.length = cnt (rb ++ rc) Rb.length by
      rw [← nr, ← v2.length])
    rw [← vI.length] at a1
    rw [← vJ.length] at a2
    show u.canon.get (assemble _ _ _ _) * v.canon.get (assemble _ _ _ _) =
      1 * (u.get (assemble _ _ _ _ ++ I) * v.get (assemble _ _ _ _ ++ J))
    rw [e0, e1, e2, f0, f1, f2, a1, a2, one_mul, ND.canon_get, ND.canon_get]
    · rw [hv]
      exact validIdx_append (assemble_valid v2 (hdims ▸ hJv)) vJ
    · rw [hu]
      exact validIdx_append (assemble_valid v1 hJv) vI
  have hRc : dotShape lc rc lb rb Ra Rb = B ++ FL ++ FR := rfl
  rw [hRc]
  -- the permutation exchanges the trailing axes of the left operand and the free axes of the right one
  rcases hcase with hlb | hp0
  · have hB0 : B = [] := by rw [hBdef, hlb]; rfl
    rw [hB0] at hts hget h g2 ⊢
    simp only [List.nil_append, List.length_nil, zero_add] at hts h g2 ⊢
    obtain ⟨k1, k2⟩ := transpose_block' (S1 := FL) (S2 := P) (S3 := FR) (S4 := Q) hts (by
      unfold blockPerm
      rw [show FL.length + P.length + FR.length + Q.length - Q.length - (FL.length + P.length) = FR.length by
        omega, show FL.length + P.length + FR.length + Q.length - Q.length = FL.length + P.length + FR.length by
        omega]) h
    refine ⟨k1, fun L I J hL hI hJ => ?_⟩
    obtain ⟨L1, L2, rfl, h1, h2⟩ := validIdx_split hL
    rw [k2 L1 I L2 J h1.length.symm hI.length.symm h2.length.symm hJ.length.symm]
    have := hget [] L1 I L2 J ValidIdx.nil h1 hI h2 hJ
    simpa using this
  · have hP0 : P = [] := List.eq_nil_of_length_eq_zero hp0
    subst hP0
    simp only [List.append_nil, List.length_nil, add_zero] at hts h g2 ⊢
    have hsplit : (B ++ FL ++ FR).length = B.length + FL.length + FR.length := by simp; omega
    obtain ⟨k1, k2⟩ := transpose_block' (S1 := (B ++ FL ++ FR).take FL.length) (S2 := [])
      (S3 := (B ++ FL ++ FR).drop FL.length) (S4 := Q) (by
        rw [List.append_nil, List.take_append_drop]; exact hts) (by
      unfold blockPerm
      rw [List.length_take, List.length_drop, hsplit,
        show B.length + FL.length + FR.length + Q.length - Q.length - FL.length =
          B.length + FL.length + FR.length - FL.length by omega,
        show B.length + FL.length + FR.length + Q.length - Q.length = B.length + FL.length + FR.length by omega,
        show min FL.length (B.length + FL.length + FR.length) = FL.length by omega]
      simp only [List.length_nil, add_zero]
      rw [show FL.length + (B.length + FL.length + FR.length - FL.length) = B.length + FL.length + FR.length by
        omega]) h
    rw [List.append_nil, List.take_append_drop] at k1
    refine ⟨k1, fun L I J hL hI hJ => ?_⟩
    cases hI
    have hL' := hL
    obtain ⟨L', L2, rfl, hL'', h2⟩ := validIdx_split hL
    obtain ⟨L0, L1, rfl, h0, h1⟩ := validIdx_split hL''
    have hll := hL'.length
    have := k2 ((L0 ++ L1 ++ L2).take FL.length) [] ((L0 ++ L1 ++ L2).drop FL.length) J
      (by rw [List.length_take, List.length_take, hll]) rfl
      (by rw [List.length_drop, List.length_drop, hll]) hJ.length.symm
    simp only [List.append_nil, List.take_append_drop] at this ⊢
    rw [this]
    have := hget L0 L1 [] L2 J h0 h1 ValidIdx.nil h2 hJ
    simpa using this


/-! ### enclosures -/

section
variable {K : Type} [Field K] [LinearOrder K] [IsStrictOrderedRing K] (sem : Sem K)
open TEA

theorem dotGeneral_ok {lc rc lb rb : List ℕ} {a b s : ND K} (h : dotGeneral lc rc lb rb a b = .ok s) :
    DotOk lc rc lb rb a.shape b.shape ∧ s.shape = dotShape lc rc lb rb a.shape b.shape := by
  unfold dotGeneral at h
  split_ifs at h with hc
  cases h
  exact ⟨hc, rfl⟩

theorem dotPairwise_zero {lc rc lb rb : List ℕ} {a b s : ND K}
    (h : (Prim.dotGeneral lc rc lb rb).bind2 sem a b = .ok s) :
    ∃ s', dotPairwise sem lc rc lb rb a b 0 0 = .ok s' ∧ s.Same s' := by
  have h1 := h
  rw [bind2_dotGeneral] at h1
  obtain ⟨⟨hA, hB, hlen, hdims⟩, hs⟩ := dotGeneral_ok h1
  have hded : (lc ++ lb).dedup.length = lc.length + lb.length := by
    rw [List.dedup_eq_self.2, List.length_append]
    exact (List.perm_append_comm.nodup_iff).1 hA.1
  have c1 := cnt_add_length hA
  have c2 := cnt_add_length hB
  have nl := dropAxes_length (lb ++ lc) a.shape
  rw [List.length_append] at c1 c2
  have hA' : a.canon.shape = a.shape := rfl
  rw [hA'] at c1 hs
  have hn : s.ndim = lb.length + (dropAxes (lb ++ lc) a.shape).length +
      (dropAxes (rb ++ rc) b.canon.shape).length := by
    show s.shape.length = _
    rw [hs]; simp [dotShape]; omega
  have ha : a.ndim = a.shape.length := rfl
  unfold dotPairwise
  rw [h]
  simp only [py_ok_bind, hded, zero_add, add_zero, tsub_zero]
  rw [if_neg (by omega), if_neg (by omega)]
  have hperm : List.range (a.ndim - (lc.length + lb.length)) ++
      List.range' (a.ndim - (lc.length + lb.length)) (s.ndim - (a.ndim - (lc.length + lb.length))) ++
      List.range' (a.ndim - (lc.length + lb.length)) 0 ++ List.range' s.ndim 0 = List.range s.ndim := by
    simp only [List.range'_zero, List.append_nil]
    rw [List.range_eq_range', List.range_eq_range']
    have := List.range'_append (s := 0) (m := a.ndim - (lc.length + lb.length))
      (n := s.ndim - (a.ndim - (lc.length + lb.length))) (step := 1)
    rw [Nat.zero_add, Nat.one_mul] at this
    rw [this]
    congr 1
    omega
  rw [hperm]
  unfold transpose
  rw [if_pos ⟨by simp, List.nodup_range, fun p hp => List.mem_range.1 hp⟩]
  refine ⟨_, rfl, ?_, ?_⟩
  · show s.shape = (List.range s.shape.length).map _
    exact (map_getD_range _).symm
  · intro I hI
    show s.get I = s.get _
    congr 1
    have hl : s.ndim = I.length := hI.length
    rw [hl]
    symm
    apply map_range_getD
    intro k hk
    rw [idxOf_of_getElem List.nodup_range (List.getElem?_range hk)]

section
variable {T : TEA K} {md : ℕ} {lo hi : ND K} (hinit : TEA.init md lo hi = .ok T) {z : ND K}
  (hz : (Coef.ivl lo hi).Contains z)
include hinit hz

/-- **C49.** The `dot_general` of two enclosures encloses the `dot_general` of the values, for every
choice of dimension numbers without batch dimensions; with batch dimensions if `x` is a scalar or the left
operand does not depend on `x`. -/
theorem C49_dot_general {lc rc lb rb : List ℕ} {a b c : Encl K} {y1 y2 y : ND K}
    (ha : GoodEncl a z y1) (hb : GoodEncl b z y2)
    (hcond : lb = [] ∨ z.shape = [] ∨ a.length = 1)
    (hy : (Prim.dotGeneral lc rc lb rb).bind2 sem y1 y2 = .ok y) (hne : ∃ I, ValidIdx y.shape I)
    (hc : T.arbitraryBilinear a b (dotPairwise sem lc rc lb rb) = .ok c) : GoodEncl c z y := by
  obtain ⟨-, -, -, hzs⟩ := unpack hinit hz
  obtain ⟨y', hy', hsame⟩ := dotPairwise_zero sem hy
  have hy1 := hy
  rw [bind2_dotGeneral] at hy1
  obtain ⟨hok, -⟩ := dotGeneral_ok hy1
  have hP := C49_contract sem z.shape hok
  have hle : OkLe (T.arbitraryBilinear a b (dotPairwise sem lc rc lb rb))
      (T.arbitraryBilinear a b (fun u v p q => if lb = [] ∨ p = 0 then dotPairwise sem lc rc lb rb u v p q
        else .error .notImplemented)) := by
    apply okLe_bilinear
    intro i hi j hj i' hi' j' hj' _ u v s hs
    have : lb = [] ∨ i' * T.xNdim = 0 := by
      rcases hcond with h | h | h
      · exact Or.inl h
      · right
        have : T.xNdim = 0 := by
          show T.trLo.shape.length = 0
          rw [show T.trLo.shape = z.shape from hzs.symm, h]; rfl
        rw [this, Nat.mul_zero]
      · right
        have : i' = 0 := by omega
        rw [this, Nat.zero_mul]
    simp only [if_pos this]
    exact hs
  refine GoodEncl.congr (good_bilinear hinit hz ha hb hP ?_ (y := y') ?_ ?_ (hle c hc)) ⟨hsame.1.symm, fun I hI => ?_⟩
  · intro L _ t ht
    unfold dotTerms at ht
    obtain ⟨J, _, rfl⟩ := List.mem_map.1 ht
    exact zero_le_one
  · simp only [or_true, if_true]; exact hy'
  · rw [← hsame.1]; exact hne
  · exact (hsame.2 I (hsame.1 ▸ hI)).symm

omit hinit hz in
theorem conv_contract (xs : List ℕ) {op : ND K → ND K → Py (ND K)} {Ra Rb Rc : List ℕ}
    {terms : List ℕ → List (K × List ℕ × List ℕ)}
    (h : PairwiseContract [] Ra Rb Rc terms (fun u v _ _ => op u v)) :
    PairwiseContract xs Ra Rb Rc terms (fun u v p q => if p = 0 ∧ q = 0 then op u.canon v.canon
      else .error .notImplemented) := by
  refine ⟨h.1, ?_⟩
  intro i j P Q u v s hP hQ hu hv hs
  simp only at hs
  split_ifs at hs with hc
  have hP0 : P = [] := List.eq_nil_of_length_eq_zero (by rw [hP]; simpa using hc.1)
  have hQ0 : Q = [] := List.eq_nil_of_length_eq_zero (by rw [hQ]; simpa using hc.2)
  subst hP0 hQ0
  obtain ⟨k1, k2⟩ := h.2 0 0 [] [] u.canon v.canon s (by simp) (by simp) hu hv hs
  refine ⟨k1, fun L I J hL hI hJ => ?_⟩
  rw [k2 L I J hL hI hJ]
  cases hI; cases hJ
  congr 1
  apply List.map_congr_left
  intro t ht
  obtain ⟨v1, v2⟩ := h.1 L hL t ht
  simp only [List.append_nil] at hu hv ⊢
  rw [ND.canon_get _ (by rw [hu]; exact v1), ND.canon_get _ (by rw [hv]; exact v2)]

/-- **C49 (convolution).** The pushforward function of `conv_general_dilated`, for a convolution that is a
bilinear operation with nonnegative weights (as every convolution is). -/
theorem C49_conv {op : ND K → ND K → Py (ND K)} {Rc : List ℕ}
    {terms : List ℕ → List (K × List ℕ × List ℕ)} {a b c : Encl K} {y1 y2 y : ND K}
    (ha : GoodEncl a z y1) (hb : GoodEncl b z y2)
    (hop : PairwiseContract [] y1.shape y2.shape Rc terms (fun u v _ _ => op u v))
    (hw : ∀ L, ValidIdx Rc L → ∀ t ∈ terms L, 0 ≤ t.1)
    (hy : (Prim.conv op).bind2 sem y1 y2 = .ok y) (hne : ∃ I, ValidIdx y.shape I)
    (hc : T.arbitraryBilinear a b (convPairwise sem op) = .ok c) : GoodEncl c z y := by
  obtain ⟨hmd, -, -, hzs⟩ := unpack hinit hz
  have one : ∀ (u v : ND K) (p q : ℕ) (s : ND K), (p = 0 ∨ q = 0) → convPairwise sem op u v p q = .ok s →
      p = 0 ∧ q = 0 ∧ op u.canon v.canon = .ok s := by
    intro u v p q s hpq hs
    unfold convPairwise at hs
    simp only [py_bind_ok] at hs
    obtain ⟨a', ha', b', hb', c', hc', hs⟩ := hs
    split_ifs at hs with h1
    · obtain ⟨rfl, rfl⟩ := h1
      simp only [moveLastToFront, if_true, Except.ok.injEq] at ha' hb'
      subst ha' hb'
      rw [bind2_conv] at hc'
      cases hs
      exact ⟨rfl, rfl, hc'⟩
  have hle : OkLe (T.arbitraryBilinear a b (convPairwise sem op))
      (T.arbitraryBilinear a b (fun u v p q => if p = 0 ∧ q = 0 then op u.canon v.canon
        else .error .notImplemented)) := by
    apply okLe_bilinear
    intro i hi j hj i' hi' j' hj' hd u v s hs
    have hpq : i' * T.xNdim = 0 ∨ j' * T.xNdim = 0 := by
      by_contra hcon
      push Not at hcon
      have hx : T.xNdim ≠ 0 := fun h => hcon.1 (by rw [h, Nat.mul_zero])
      have hi0 : i' ≠ 0 := fun h => hcon.1 (by rw [h, Nat.zero_mul])
      have hj0 : j' ≠ 0 := fun h => hcon.2 (by rw [h, Nat.zero_mul])
      obtain ⟨u', v', s', hs'⟩ := bilinear_call T hc (i := 1) (j := 0) (by omega) (by omega) (by omega)
      have := (one _ _ _ _ _ (Or.inr (Nat.zero_mul _)) hs').1
      omega
    obtain ⟨e1, e2, e3⟩ := one u v _ _ s hpq hs
    rw [if_pos ⟨e1, e2⟩]
    exact e3
  rw [bind2_conv] at hy
  exact good_bilinear hinit hz ha hb (conv_contract z.shape hop) hw (by simpa using hy) hne (hle c hc)

end
end
end AB
