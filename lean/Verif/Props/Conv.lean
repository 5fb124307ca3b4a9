/-
C49 for the concrete convolution: `conv_general_dilated` is a bilinear operation with weights 0 and 1, so that every
program with convolutions meets the conditions of C42, C53, C60.
-/
import Verif.Model.Conv
import Verif.Props.Dot
import Verif.Spec.Isotone
import Verif.Spec.TotalStatic
import Mathlib.Data.List.GetD
import Mathlib.Algebra.Order.Ring.Rat
import Mathlib.Algebra.Field.Rat

set_option linter.unusedSectionVars false

namespace AB
variable {K : Type} [Field K]
namespace Lax

theorem getD_idxOf {n : ℕ} {spec : List ℕ} (hl : spec.length = n) (h : AxesOk n spec) {k : ℕ} (hk : k < n) :
    spec.idxOf (spec.getD k 0) = k := by
  rw [List.getD_eq_getElem _ _ (by omega)]
  exact List.Nodup.idxOf_getElem h.1 k (by omega)

theorem mem_perm {n : ℕ} {spec : List ℕ} (hl : spec.length = n) (h : AxesOk n spec) {j : ℕ} (hj : j < n) : j ∈ spec := by
  have : spec.Perm (List.range n) := by
    apply List.Subperm.perm_of_length_le
    · exact List.subperm_of_subset h.1 fun d hd => List.mem_range.2 (h.2 d hd)
    · simp [hl]
  exact this.mem_iff.2 (List.mem_range.2 hj)

theorem canonical_place {n : ℕ} {spec L : List ℕ} (hl : spec.length = n) (h : AxesOk n spec) (hL : L.length = n) :
    canonical spec (place spec L) = L := by
  apply List.ext_getElem
  · simp [canonical, hl, hL]
  · intro k h1 h2
    simp only [canonical, place, List.getElem_map]
    have hk : k < n := by omega
    have hb : spec[k] < n := h.2 _ (List.getElem_mem _)
    rw [List.getD_eq_getElem _ _ (by simpa [hl] using hb)]
    simp only [List.getElem_map, List.getElem_range]
    rw [List.Nodup.idxOf_getElem h.1 k (by omega), List.getD_eq_getElem _ _ h2]

theorem place_valid {n : ℕ} {spec S L : List ℕ} (hl : spec.length = n) (h : AxesOk n spec) (hS : S.length = n)
    (hL : ValidIdx (canonical spec S) L) : ValidIdx S (place spec L) := by
  have hlen := hL.length
  simp only [canonical, List.length_map] at hlen
  rw [ValidIdx, List.forall₂_iff_get]
  refine ⟨by simp [place, hl, hS], fun j h1 h2 => ?_⟩
  have hj : j < n := by omega
  have hm := mem_perm hl h hj
  have hi := List.idxOf_lt_length_of_mem hm
  simp only [place, List.get_eq_getElem, List.getElem_map, List.getElem_range]
  rw [List.getD_eq_getElem _ _ (by omega)]
  have := (List.forall₂_iff_get.1 hL).2 (spec.idxOf j) (by simpa [canonical] using hi) (by omega)
  simp only [canonical, List.get_eq_getElem, List.getElem_map, List.getElem_idxOf] at this
  rwa [List.getD_eq_getElem _ _ h1] at this

theorem canonical_valid {n : ℕ} {spec C L : List ℕ} (hl : spec.length = n) (h : AxesOk n spec) (hC : C.length = n)
    (hL : ValidIdx (place spec C) L) : ValidIdx C (canonical spec L) := by
  have hlen := hL.length
  simp only [place, List.length_map, List.length_range] at hlen
  rw [ValidIdx, List.forall₂_iff_get]
  refine ⟨by simp [canonical, hl, hC], fun k h1 h2 => ?_⟩
  have hb : spec[k]'(by omega) < n := h.2 _ (List.getElem_mem _)
  simp only [canonical, List.get_eq_getElem, List.getElem_map]
  rw [List.getD_eq_getElem _ _ (by omega)]
  have := (List.forall₂_iff_get.1 hL).2 (spec[k]'(by omega)) (by simpa [place] using (by omega)) (by omega)
  simp only [place, List.get_eq_getElem, List.getElem_map, List.getElem_range] at this
  rw [List.Nodup.idxOf_getElem h.1 k (by omega)] at this
  rwa [List.getD_eq_getElem _ _ h1] at this

theorem group_lt {o O g : ℕ} (hg : 0 < g) (ho : o < O) (hO : O % g = 0) : o / (O / g) < g := by
  obtain ⟨m, rfl⟩ := Nat.dvd_of_mod_eq_zero hO
  rw [Nat.mul_div_cancel_left _ hg]
  have hm : 0 < m := by
    rcases Nat.eq_zero_or_pos m with rfl | h
    · simp at ho
    · exact h
  exact (Nat.div_lt_iff_lt_mul hm).2 ho

theorem offset_lt {q g m i : ℕ} (hq : q < g) (hi : i < m) : q * m + i < g * m := by
  calc q * m + i < q * m + m := by omega
    _ = (q + 1) * m := by ring
    _ ≤ g * m := Nat.mul_le_mul_right _ hq

theorem two_of_length {α : Type} {l : List α} (h : 2 ≤ l.length) : ∃ x y r, l = x :: y :: r := by
  match l, h with
  | x :: y :: r, _ => exact ⟨x, y, r, rfl⟩

/-- the entries that are multiplied exist -/
theorem convPair_valid {c : ConvParams} {Sa Sb L J : List ℕ} (h : ConvOk c Sa Sb) (hL : ValidIdx (convShape c Sa Sb) L)
    (hJ : ValidIdx ((canonical c.rhsSpec Sb).drop 1) J) {p : List ℕ × List ℕ} (hp : convPair c Sa Sb L J = some p) :
    ValidIdx Sa p.1 ∧ ValidIdx Sb p.2 := by
  obtain ⟨hlen, h2, ⟨l1, a1⟩, ⟨l2, a2⟩, ⟨l3, a3⟩, -, -, -, -, fg, bg, -, hC, hO1, hO2, hN⟩ := h
  have hA : (canonical c.lhsSpec Sa).length = Sa.length := by simp [canonical, l1]
  have hB : (canonical c.rhsSpec Sb).length = Sa.length := by simp [canonical, l2]
  obtain ⟨N, C, sa, eA⟩ := two_of_length (hA ▸ h2)
  obtain ⟨O, F, sb, eB⟩ := two_of_length (hB ▸ h2)
  unfold convShape at hL
  unfold convPair at hp
  rw [eA, eB] at hL hp
  rw [eB] at hJ
  rw [eA, eB] at hC
  rw [eB] at hO1 hO2
  rw [eA] at hN
  simp only [List.getD_cons_zero, List.getD_cons_succ, List.drop_succ_cons, List.drop_zero] at hL hp hJ hC hO1 hO2 hN
  have hspl : (List.zipWith WinAxis.outSize (c.windows sb) sa).length + 2 = Sa.length := by
    rw [eA] at hA
    rw [eB] at hB
    simp only [List.length_cons] at hA hB
    simp [ConvParams.windows]
    omega
  have hV := canonical_valid l3 a3 (by simp only [List.length_cons]; omega) hL
  obtain ⟨n, R1, hn, hV1, hLe⟩ := List.forall₂_cons_left_iff.1 hV
  obtain ⟨o, s, ho, hV2, rfl⟩ := List.forall₂_cons_left_iff.1 hV1
  obtain ⟨i, k, hi, hk, rfl⟩ := List.forall₂_cons_left_iff.1 hJ
  rw [hLe] at hp
  simp only [List.getD_cons_zero, List.getD_cons_succ, List.drop_succ_cons, List.drop_zero, Option.map_eq_some_iff] at hp
  obtain ⟨α, hα, rfl⟩ := hp
  constructor
  · refine place_valid l1 a1 rfl ?_
    rw [eA]
    refine List.Forall₂.cons ?_ (List.Forall₂.cons ?_ (winIdx_valid hα))
    · have := offset_lt (group_lt bg ho hO2) hn
      rwa [Nat.mul_div_cancel' (Nat.dvd_of_mod_eq_zero hN)] at this
    · rw [hC]
      exact offset_lt (group_lt fg ho hO1) hi
  · refine place_valid l2 a2 hlen ?_
    rw [eB]
    exact List.Forall₂.cons ho (List.Forall₂.cons hi hk)

/-- The products that the convolution sums at index `L`, all with weight 1. -/
def convTerms (c : ConvParams) (Sa Sb L : List ℕ) : List (K × List ℕ × List ℕ) :=
  (idx ((canonical c.rhsSpec Sb).drop 1)).filterMap fun J => (convPair c Sa Sb L J).map fun p => (1, p.1, p.2)

theorem sum_filterMap {α β : Type} (l : List α) (f : α → Option β) (g : β → K) :
    ((l.filterMap f).map g).sum = (l.map fun x => match f x with | some y => g y | none => 0).sum := by
  induction l with
  | nil => rfl
  | cons x l ih =>
    cases h : f x with
    | none =>
      rw [List.filterMap_cons_none h, ih, List.map_cons, List.sum_cons]
      simp only [h, zero_add]
    | some y =>
      rw [List.filterMap_cons_some h, List.map_cons, List.sum_cons, ih, List.map_cons, List.sum_cons]
      simp only [h]

/-- **C49 (concrete convolution).** `conv_general_dilated` with any strides, padding, dilations, dimension numbers and
group counts is a bilinear operation whose weights are all 1. -/
theorem C49_conv_contract {c : ConvParams} {Sa Sb : List ℕ} (h : ConvOk c Sa Sb) :
    PairwiseContract [] Sa Sb (convShape c Sa Sb) (convTerms (K := K) c Sa Sb) (fun u v _ _ => convGeneral c u v) := by
  refine ⟨fun L hL t ht => ?_, ?_⟩
  · unfold convTerms at ht
    simp only [List.mem_filterMap, Option.map_eq_some_iff] at ht
    obtain ⟨J, hJ, p, hp, rfl⟩ := ht
    exact convPair_valid h hL (mem_idx.1 hJ) hp
  · intro i j P Q u v s hP hQ hu hv hs
    obtain rfl : P = [] := by rw [hP]; simp
    obtain rfl : Q = [] := by rw [hQ]; simp
    rw [List.append_nil] at hu hv
    simp only at hs
    unfold convGeneral at hs
    rw [hu, hv, if_pos h] at hs
    cases hs
    refine ⟨by simp, fun L I J hL hI hJ => ?_⟩
    cases hI
    cases hJ
    simp only [List.append_nil]
    unfold convTerms
    rw [sum_filterMap]
    refine congrArg List.sum (List.map_congr_left fun J _ => ?_)
    cases convPair c Sa Sb L J <;> simp

theorem convTerms_nonneg [LinearOrder K] [IsStrictOrderedRing K] {c : ConvParams} {Sa Sb L : List ℕ} :
    ∀ t ∈ convTerms (K := K) c Sa Sb L, 0 ≤ t.1 := by
  intro t ht
  unfold convTerms at ht
  simp only [List.mem_filterMap, Option.map_eq_some_iff] at ht
  obtain ⟨J, -, p, -, rfl⟩ := ht
  exact zero_le_one

end Lax

namespace JB
open Lax
variable [LinearOrder K] [IsStrictOrderedRing K]

/-- **C49 (convolutions fit).** Every equation with a convolution meets the condition of C42. -/
theorem C49_conv_fits {c : ConvParams} {ct : Counts} {xs : List ℕ} {cs : List ℤ} {as : List (Atom K)} {u v : ND K} {outs : List (ND K)}
    {sem : Sem K} (h : (Prim.conv (convGeneral c)).bind sem [u, v] = .ok outs) :
    EqnFits ct xs cs (.conv (convGeneral c)) as [u, v] outs := by
  refine ⟨convShape c u.shape v.shape, convTerms c u.shape v.shape, C49_conv_contract ?_, fun L _ => convTerms_nonneg⟩
  by_contra hc
  have : (Prim.conv (convGeneral c)).bind sem [u, v] = .error .typeError := by
    show (convGeneral c u.canon v.canon).one = _
    unfold convGeneral
    rw [if_neg (show ¬ ConvOk c u.canon.shape v.canon.shape from hc)]
    rfl
  rw [this] at h
  cases h

/-- **C60 (convolutions are isotone).** -/
theorem C60_conv (c : ConvParams) : NonnegBilinear (K := K) (convGeneral c) := by
  intro S U
  by_cases h : ConvOk c S U
  · obtain ⟨h1, h2⟩ := C49_conv_contract (K := K) h
    refine ⟨convShape c S U, convTerms c S U, fun L hL t ht => ⟨convTerms_nonneg t ht, h1 L hL t ht⟩, ?_⟩
    intro x y s hx hy hs
    obtain ⟨k1, k2⟩ := h2 0 0 [] [] x y s (by simp) (by simp) (by simpa using hx) (by simpa using hy) hs
    simp only [List.append_nil] at k1
    refine ⟨k1, fun L hL => ?_⟩
    have := k2 L [] [] hL .nil .nil
    simpa using this
  · refine ⟨[], fun _ => [], fun _ _ t ht => absurd ht List.not_mem_nil, ?_⟩
    intro x y s hx hy hs
    unfold convGeneral at hs
    rw [hx, hy, if_neg h] at hs
    cases hs

/-- **C53 (convolutions return).** With a scalar input, an equation with a convolution that accepts its arguments meets
the condition of C53. -/
theorem C53_conv_returns {c : ConvParams} {lib : Lib K} {md : ℕ} {propagate : Bool} {cs : List ℤ} {as : List (Atom K)}
    {u v : ND K} (h : ConvOk c u.shape v.shape) :
    EqnReturns lib [] md propagate cs (.conv (convGeneral c)) as [u, v] := by
  refine ⟨rfl, fun u' v' hu hv => ?_⟩
  unfold convGeneral
  rw [if_pos (by rw [hu, hv]; exact h)]
  exact ⟨_, rfl⟩

end JB

/-! ### Sanity checks of the model of convolution -/

section
open Lax

/-- the shape and the entries of the result -/
def convOf (c : ConvParams) (a b : ND ℚ) : Option (List ℕ × List ℚ) :=
  (convGeneral c a b).toOption.map fun r => (r.shape, (idx r.shape).map r.get)

/-- layout NCW/OIW, stride 2, padding (1, 1): kernel (1, 10, 100) on 1, 2, 3, 4, 5 -/
example : convOf ⟨[2], [(1, 1)], [1], [1], [0, 1, 2], [0, 1, 2], [0, 1, 2], 1, 1⟩
    (ND.mk' [1, 1, 5] [1, 2, 3, 4, 5]) (ND.mk' [1, 1, 3] [1, 10, 100]) =
    some ([1, 1, 3], [210, 432, 54]) := by decide +kernel

/-- kernel dilation 2: 1*x[i] + 10*x[i+2] -/
example : convOf ⟨[1], [(0, 0)], [1], [2], [0, 1, 2], [0, 1, 2], [0, 1, 2], 1, 1⟩
    (ND.mk' [1, 1, 5] [1, 2, 3, 4, 5]) (ND.mk' [1, 1, 2] [1, 10]) =
    some ([1, 1, 3], [31, 42, 53]) := by decide +kernel

/-- operand dilation 2 (as in a transposed convolution): the operand is 1, 0, 2 -/
example : convOf ⟨[1], [(0, 0)], [2], [1], [0, 1, 2], [0, 1, 2], [0, 1, 2], 1, 1⟩
    (ND.mk' [1, 1, 2] [1, 2]) (ND.mk' [1, 1, 2] [1, 10]) =
    some ([1, 1, 2], [1, 20]) := by decide +kernel

/-- layout NWC/WIO/NWC, two input features, two output features -/
example : convOf ⟨[1], [(0, 0)], [1], [1], [0, 2, 1], [2, 1, 0], [0, 2, 1], 1, 1⟩
    (ND.mk' [1, 2, 2] [1, 2, 3, 4]) (ND.mk' [1, 2, 2] [1, 100, 10, 1000]) =
    some ([1, 2, 2], [21, 2100, 43, 4300]) := by decide +kernel

/-- depthwise: two feature groups -/
example : convOf ⟨[1], [(0, 0)], [1], [1], [0, 1, 2], [0, 1, 2], [0, 1, 2], 2, 1⟩
    (ND.mk' [1, 2, 2] [1, 2, 3, 4]) (ND.mk' [2, 1, 1] [10, 100]) =
    some ([1, 2, 2], [10, 20, 300, 400]) := by decide +kernel

/-- two batch groups -/
example : convOf ⟨[1], [(0, 0)], [1], [1], [0, 1, 2], [0, 1, 2], [0, 1, 2], 1, 2⟩
    (ND.mk' [2, 1, 2] [1, 2, 3, 4]) (ND.mk' [2, 1, 1] [10, 100]) =
    some ([1, 2, 2], [10, 20, 300, 400]) := by decide +kernel

/-- the number of input features must match -/
example : convOf ⟨[1], [(0, 0)], [1], [1], [0, 1, 2], [0, 1, 2], [0, 1, 2], 1, 1⟩
    (ND.mk' [1, 2, 2] [1, 2, 3, 4]) (ND.mk' [2, 1, 1] [10, 100]) = none := by decide +kernel

end
end AB
