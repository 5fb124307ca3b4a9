/-
C70: the array primitives of the model compute what `jax.lax` documents (`Spec/LaxSpec.lean`).
-/
import Verif.Spec.LaxSpec
import Verif.Props.Conv
import Mathlib.Algebra.BigOperators.Ring.Finset
import Mathlib.Data.Finset.Card
import Mathlib.Data.List.Nodup
import Mathlib.Algebra.BigOperators.Group.Finset.Piecewise

set_option linter.unusedSectionVars false

namespace AB
variable {K : Type}
namespace LaxSpec
open Lax

/-! ### sums over multi-indices -/

theorem idx_nodup (S : List ℕ) : (idx S).Nodup := by
  induction S with
  | nil => simp [idx]
  | cons n S ih =>
    rw [idx, List.nodup_flatMap]
    refine ⟨fun i _ => ih.map fun a b h => (List.cons.inj h).2, ?_⟩
    refine List.Pairwise.imp ?_ (List.nodup_range (n := n))
    intro i j hij
    simp only [Function.onFun, List.disjoint_left, List.mem_map]
    rintro _ ⟨a, -, rfl⟩ ⟨b, -, h⟩
    exact hij (List.cons.inj h).1.symm

section
variable [AddCommMonoid K]

theorem sumOver_eq (S : List ℕ) (f : List ℕ → K) : sumOver S f = ∑ I ∈ (idx S).toFinset, f I :=
  (List.sum_toFinset f (idx_nodup S)).symm

theorem sumOver_congr {S : List ℕ} {f g : List ℕ → K} (h : ∀ I, ValidIdx S I → f I = g I) : sumOver S f = sumOver S g :=
  congrArg List.sum (List.map_congr_left fun I hI => h I (mem_idx.1 hI))

theorem sumOver_select {S T : List ℕ} {P : List ℕ → Prop} [DecidablePred P] (mk : List ℕ → List ℕ) (f : List ℕ → K)
    (h1 : ∀ J, ValidIdx T J → ValidIdx S (mk J) ∧ P (mk J))
    (h2 : ∀ I, ValidIdx S I → P I → ∃ J, ValidIdx T J ∧ mk J = I)
    (inj : ∀ J J', ValidIdx T J → ValidIdx T J' → mk J = mk J' → J = J') :
    sumOver S (fun I => if P I then f I else 0) = sumOver T fun J => f (mk J) := by
  rw [sumOver_eq, sumOver_eq, ← Finset.sum_filter]
  symm
  refine Finset.sum_bij (fun J _ => mk J) (fun J hJ => ?_) (fun J hJ J' hJ' h => ?_) (fun I hI => ?_) fun _ _ => rfl
  · rw [List.mem_toFinset, mem_idx] at hJ
    rw [Finset.mem_filter, List.mem_toFinset, mem_idx]
    exact h1 J hJ
  · rw [List.mem_toFinset, mem_idx] at hJ hJ'
    exact inj J J' hJ hJ' h
  · rw [Finset.mem_filter, List.mem_toFinset, mem_idx] at hI
    obtain ⟨J, hJ, h⟩ := h2 I hI.1 hI.2
    exact ⟨J, List.mem_toFinset.2 (mem_idx.2 hJ), h⟩

theorem sumOver_option {S : List ℕ} {P : List ℕ → Prop} [DecidablePred P] (o : Option (List ℕ)) (f : List ℕ → K)
    (h : ∀ I, ValidIdx S I → (P I ↔ o = some I)) (hv : ∀ I, o = some I → ValidIdx S I) :
    sumOver S (fun I => if P I then f I else 0) = o.elim 0 f := by
  cases o with
  | none =>
    rw [sumOver_congr (g := fun _ => (0 : K)) fun I hI => if_neg fun hp => (by cases (h I hI).1 hp), sumOver_eq]
    exact Finset.sum_const_zero
  | some I0 =>
    rw [sumOver_congr (g := fun I => if I = I0 then f I else 0), sumOver_eq, Finset.sum_ite_eq']
    · rw [if_pos (List.mem_toFinset.2 (mem_idx.2 (hv I0 rfl)))]
      rfl
    · intro I hI
      by_cases e : I = I0
      · rw [if_pos e, if_pos ((h I hI).2 (by rw [e]))]
      · rw [if_neg e, if_neg fun hp => e (Option.some.inj ((h I hI).1 hp)).symm]

theorem sumOver_comm (S T : List ℕ) (f : List ℕ → List ℕ → K) :
    sumOver S (fun I => sumOver T fun J => f I J) = sumOver T fun J => sumOver S fun I => f I J := by
  simp only [sumOver_eq]
  exact Finset.sum_comm
end

/-! ### coordinates -/

theorem keep_eq (D I : List ℕ) : keep D I = dropAxes D I := by
  have hz : I.zipIdx = (List.range I.length).map fun j => (I.getD j 0, j) := by
    apply List.ext_getElem
    · simp
    · intro i h1 h2
      simp at h1
      simp [List.getD_eq_getElem?_getD, h1]
  rw [keep, hz, List.filter_map, List.map_map]
  rfl

theorem pick_length (D I : List ℕ) : (pick D I).length = D.length := by simp [pick]

theorem pick_append (D E I : List ℕ) : pick (D ++ E) I = pick D I ++ pick E I := List.map_append

theorem getD_map_range {n j : ℕ} (f : ℕ → ℕ) (h : j < n) : ((List.range n).map f).getD j 0 = f j := by
  rw [List.getD_eq_getElem _ _ (by simpa using h)]
  simp

theorem pick_valid {D S I : List ℕ} (hD : ∀ d ∈ D, d < S.length) (h : ValidIdx S I) : ValidIdx (pick D S) (pick D I) := by
  rw [ValidIdx, pick, pick, List.forall₂_map_left_iff, List.forall₂_map_right_iff, List.forall₂_same]
  exact fun d hd => (validIdx_iff_getD.1 h).2 d (hD d hd)

theorem keep_valid {D S I : List ℕ} (h : ValidIdx S I) : ValidIdx (keep D S) (keep D I) := by
  rw [keep_eq, keep_eq, dropAxes, dropAxes, h.length.symm, ValidIdx, List.forall₂_map_left_iff, List.forall₂_map_right_iff,
    List.forall₂_same]
  intro j hj
  exact (validIdx_iff_getD.1 h).2 j (List.mem_range.1 (List.mem_filter.1 hj).1)

theorem assemble_getD {n j : ℕ} (D I J : List ℕ) (h : j < n) : (assemble n D I J).getD j 0 =
    if j ∈ D then J.getD (D.idxOf j) 0 else I.getD (cnt D j) 0 := getD_map_range _ h

theorem pick_assemble {n : ℕ} {D I J : List ℕ} (hD : AxesOk n D) (hJ : J.length = D.length) :
    pick D (assemble n D I J) = J := by
  apply List.ext_getElem
  · rw [pick_length, hJ]
  · intro k h1 h2
    simp only [pick, List.getElem_map]
    have hk : k < D.length := by rwa [pick_length] at h1
    have hb : D[k] < n := hD.2 _ (List.getElem_mem _)
    rw [assemble_getD _ _ _ hb, if_pos (List.getElem_mem _), List.Nodup.idxOf_getElem hD.1 k hk,
      List.getD_eq_getElem _ _ h2]

theorem filter_cnt {n : ℕ} {D : List ℕ} {i : ℕ} (h : i < ((List.range n).filter fun k => k ∉ D).length) :
    cnt D (((List.range n).filter fun k => k ∉ D)[i]) = i := by
  have hm := List.getElem_mem h
  have hj := List.mem_filter.1 hm
  have hlt := List.mem_range.1 hj.1
  have hnd : ((List.range n).filter fun k => k ∉ D)[i] ∉ D := by simpa using hj.2
  have hg := filter_getElem hlt hnd
  obtain ⟨h1, h2⟩ := List.getElem?_eq_some_iff.1 hg
  exact (List.Nodup.getElem_inj_iff (List.nodup_range.filter _)).1 h2

theorem keep_assemble {n : ℕ} {D I J : List ℕ} (hI : I.length = cnt D n) : keep D (assemble n D I J) = I := by
  rw [keep_eq, dropAxes, assemble_length]
  apply List.ext_getElem
  · simpa [cnt] using hI.symm
  · intro i h1 h2
    simp only [List.getElem_map]
    have hi : i < ((List.range n).filter fun k => k ∉ D).length := by simpa using h1
    have hj := List.mem_filter.1 (List.getElem_mem hi)
    have hnd : ((List.range n).filter fun k => k ∉ D)[i] ∉ D := by simpa using hj.2
    rw [assemble_getD _ _ _ (List.mem_range.1 hj.1), if_neg hnd]
    rw [filter_cnt hi, List.getD_eq_getElem _ _ h2]

theorem assemble_keep_pick {D I : List ℕ} : assemble I.length D (keep D I) (pick D I) = I := by
  refine map_range_getD fun j hj => ?_
  by_cases h : j ∈ D
  · rw [if_pos h]
    have hi := List.idxOf_lt_length_of_mem h
    rw [pick, List.getD_eq_getElem _ _ (by simpa using hi)]
    simp [List.getElem_idxOf]
  · rw [if_neg h, keep_eq]
    show (dropAxes D I).getD (cnt D j) 0 = _
    obtain ⟨h1, h2⟩ := List.getElem?_eq_some_iff.1 (filter_getElem hj h)
    rw [dropAxes, List.getD_eq_getElem _ _ (by simpa using h1)]
    rw [List.getElem_map, h2]

theorem keep_length {D I : List ℕ} : (keep D I).length = cnt D I.length := by rw [keep_eq, dropAxes_length]

/-! ### row-major order -/

theorem range_mul (n m : ℕ) : ((List.range n).flatMap fun i => (List.range m).map fun t => i * m + t) = List.range (n * m) := by
  induction n with
  | zero => simp
  | succ n ih =>
    rw [List.range_succ, List.flatMap_append, ih, Nat.succ_mul, List.range_add]
    simp

theorem map_ravel_idx (S : List ℕ) : (idx S).map (ravel S) = List.range S.prod := by
  induction S with
  | nil => rfl
  | cons n S ih =>
    rw [idx, List.map_flatMap, List.prod_cons, ← range_mul]
    congr 1
    funext i
    rw [List.map_map, ← ih, List.map_map]
    rfl

theorem unravel_ravel {S I : List ℕ} (h : ValidIdx S I) : unravel S (ravel S I) = I := by
  induction h with
  | nil => rfl
  | @cons n i S I hi hv ih =>
    have hr := ravel_lt' hv
    have hp : 0 < S.prod := by omega
    simp only [ravel, unravel]
    rw [Nat.mul_comm i, Nat.mul_add_div hp, Nat.div_eq_of_lt hr, Nat.mul_add_mod, Nat.mod_eq_of_lt hr, ih, Nat.add_zero]

theorem entries_reshape {S T : List ℕ} (f : List ℕ → K) (h : T.prod = S.prod) :
    ((idx T).map fun I => f (unravel S (ravel T I))) = (idx S).map f := by
  have e1 : ((idx T).map fun I => f (unravel S (ravel T I))) = ((idx T).map (ravel T)).map fun k => f (unravel S k) := by
    rw [List.map_map]; rfl
  rw [e1, map_ravel_idx, h, ← map_ravel_idx, List.map_map]
  exact List.map_congr_left fun I hI => congrArg f (unravel_ravel (mem_idx.1 hI))

/-- `keep` for a list whose first entry is on axis `k` -/
def keepFrom (D : List ℕ) (k : ℕ) (I : List ℕ) : List ℕ := ((I.zipIdx k).filter fun p => p.2 ∉ D).map Prod.fst

theorem map_keep_idx {D : List ℕ} : ∀ (S : List ℕ) (k : ℕ), (∀ j (h : j < S.length), k + j ∈ D → S[j] = 1) →
    (idx S).map (keepFrom D k) = idx (keepFrom D k S)
  | [], k, _ => rfl
  | n :: S, k, h => by
    have ih := map_keep_idx (D := D) S (k + 1) fun j hj hd => h (j + 1) (by simpa using hj)
      (by rwa [show k + (j + 1) = k + 1 + j by omega])
    by_cases hk : k ∈ D
    · obtain rfl : n = 1 := h 0 (by simp) hk
      have e : ∀ i I, keepFrom D k (i :: I) = keepFrom D (k + 1) I := fun i I => by
        simp [keepFrom, List.zipIdx_cons, hk]
      rw [e, ← ih, idx]
      simp [List.map_map, Function.comp_def, e]
    · have e : ∀ i I, keepFrom D k (i :: I) = i :: keepFrom D (k + 1) I := fun i I => by
        simp [keepFrom, List.zipIdx_cons, hk]
      rw [e, idx, idx, ← ih, List.map_flatMap]
      congr 1
      funext i
      rw [List.map_map, List.map_map]
      exact List.map_congr_left fun I _ => e i I

/-! ### windows -/

theorem pos_iff {w : WinAxis} (hb : 0 < w.baseDil) {n o k α : ℕ} (hα : α < n) : w.pos n o k = some α ↔ Over w o k α := by
  unfold WinAxis.pos Over
  simp only
  have hb' : (0 : ℤ) < w.baseDil := by exact_mod_cast hb
  constructor
  · intro h
    split_ifs at h with hc
    have h1 := Option.some.inj h
    have h2 := Int.ediv_nonneg hc.1 hb'.le
    have h3 := Int.mul_ediv_add_emod ((o * w.stride + k * w.winDil : ℤ) - w.padLo) w.baseDil
    have h4 : ((o * w.stride + k * w.winDil : ℤ) - w.padLo) / w.baseDil = α := by omega
    rw [hc.2.1, h4] at h3
    linarith [mul_comm (α : ℤ) w.baseDil]
  · intro h
    have e : (o * w.stride + k * w.winDil : ℤ) - w.padLo = α * w.baseDil := by linarith
    rw [e, Int.mul_emod_left, Int.mul_ediv_cancel _ hb'.ne', if_pos ⟨by positivity, rfl, by exact_mod_cast hα⟩]
    simp

theorem overAll_cons {w : WinAxis} {ws : List WinAxis} {o k x : ℕ} {O J α : List ℕ} :
    OverAll (w :: ws) (o :: O) (k :: J) (x :: α) ↔ Over w o k x ∧ OverAll ws O J α := by
  constructor
  · intro h
    exact ⟨h 0 (by simp), fun i hi => h (i + 1) (by simpa using hi)⟩
  · rintro ⟨h0, h1⟩ i hi
    cases i with
    | zero => exact h0
    | succ i => exact h1 i (by simpa using hi)

theorem winIdx_iff : ∀ {ws : List WinAxis} {S O J α : List ℕ}, (∀ w ∈ ws, 0 < w.baseDil) → ws.length = S.length →
    O.length = S.length → J.length = S.length → ValidIdx S α → (winIdx ws S O J = some α ↔ OverAll ws O J α)
  | [], [], [], [], [], _, _, _, _, _ => by
    refine ⟨fun _ k h => absurd h (by simp), fun _ => rfl⟩
  | w :: ws, n :: S, o :: O, k :: J, x :: α, hb, h1, h2, h3, hv => by
    cases hv with
    | cons hx hv =>
      have ih := winIdx_iff (ws := ws) (S := S) (O := O) (J := J) (α := α) (fun w hw => hb w (List.mem_cons_of_mem _ hw))
        (by simpa using h1) (by simpa using h2) (by simpa using h3) hv
      rw [overAll_cons, ← ih, ← pos_iff (hb w List.mem_cons_self) hx]
      simp only [winIdx, Option.bind_eq_bind, Option.bind_eq_some_iff, Option.pure_def, Option.some.injEq,
        List.cons.injEq]
      constructor
      · rintro ⟨p, hp, q, hq, rfl, rfl⟩
        exact ⟨hp, hq⟩
      · rintro ⟨hp, hq⟩
        exact ⟨x, hp, α, hq, rfl, rfl⟩
  | _ :: _, [], _, _, _, _, h, _, _, _ => by simp at h
  | [], _ :: _, _, _, _, _, h, _, _, _ => by simp at h
  | _, [], _ :: _, _, _, _, _, h, _, _ => by simp at h
  | _, _ :: _, [], _, _, _, _, h, _, _ => by simp at h
  | _, [], _, _ :: _, _, _, _, _, h, _ => by simp at h
  | _, _ :: _, _, [], _, _, _, _, h, _ => by simp at h
  | _, [], _, _, _ :: _, _, _, _, _, h => by cases h
  | _, _ :: _, _, _, [], _, _, _, _, h => by cases h

theorem outSize_iff {w : WinAxis} (hs : 0 < w.stride) (n o : ℕ) : o < w.outSize n ↔ WindowFits w n o := by
  unfold WinAxis.outSize WindowFits paddedLength
  simp only
  have hs' : (0 : ℤ) < w.stride := by exact_mod_cast hs
  generalize (if n = 0 then (0 : ℤ) else ((n : ℤ) - 1) * w.baseDil + 1) = d
  generalize ((w.size : ℤ) - 1) * w.winDil = e
  by_cases h : d + w.padLo + w.padHi < e + 1
  · rw [if_pos h]
    have : (0 : ℤ) ≤ o * w.stride := by positivity
    constructor
    · intro h'; omega
    · intro h'; linarith
  · rw [if_neg h]
    have h0 : (0 : ℤ) ≤ d + w.padLo + w.padHi - (e + 1) := by omega
    have h1 : (0 : ℤ) ≤ (d + w.padLo + w.padHi - (e + 1)) / w.stride := Int.ediv_nonneg h0 hs'.le
    have h2 : o < ((d + w.padLo + w.padHi - (e + 1)) / w.stride + 1).toNat ↔
        (o : ℤ) ≤ (d + w.padLo + w.padHi - (e + 1)) / w.stride := by omega
    rw [h2, Int.le_ediv_iff_mul_le hs']
    constructor <;> intro h' <;> linarith

theorem windowShape {ws : List WinAxis} {S : List ℕ} (hl : ws.length = S.length) (hs : ∀ w ∈ ws, 0 < w.stride) :
    IsWindowShape ws S (List.zipWith WinAxis.outSize ws S) := by
  refine ⟨by simp [hl], fun k h o => ?_⟩
  rw [List.getD_eq_getElem _ _ (by simp; omega), List.getElem_zipWith, List.getD_eq_getElem _ _ (by omega)]
  exact outSize_iff (hs _ (List.getElem_mem _)) _ _

/-! ### the primitives -/

theorem one_ok {α : Type} {x : Py α} {r : α} (h : x.one = .ok [r]) : x = .ok r := by
  cases x with
  | error e => cases h
  | ok y => cases h; rfl

section
variable [Field K] {sem : Sem K} {a b r : ND K}

theorem entries_canon (a : ND K) : entries a.canon = entries a :=
  List.map_congr_left fun _ hI => ND.canon_get a (mem_idx.1 hI)

theorem bshapeR_getD : ∀ {S T R : List ℕ}, bshapeR S T = some R → ∀ k, (S.getD k 1 = T.getD k 1 ∨ S.getD k 1 = 1 ∨
    T.getD k 1 = 1) ∧ R.getD k 1 = if S.getD k 1 = 1 then T.getD k 1 else S.getD k 1
  | [], T, R, h, k => by
    cases h
    simp
  | s :: S, [], R, h, k => by
    cases h
    simp only [List.getD_nil]
    refine ⟨Or.inr (Or.inr trivial), ?_⟩
    split_ifs with h
    · exact h
    · rfl
  | s :: S, t :: T, R, h, k => by
    rw [bshapeR] at h
    cases hd : bdim s t with
    | none => rw [hd] at h; cases h
    | some d =>
      cases hR : bshapeR S T with
      | none => rw [hd, hR] at h; cases h
      | some R' =>
        rw [hd, hR] at h
        cases h
        cases k with
        | zero =>
          simp only [List.getD_cons_zero]
          unfold bdim at hd
          split_ifs at hd with h1 h2 h3
          · cases hd
            refine ⟨Or.inl h1, ?_⟩
            split_ifs <;> omega
          · cases hd
            exact ⟨Or.inr (Or.inl h2), (if_pos h2).symm⟩
          · cases hd
            exact ⟨Or.inr (Or.inr h3), (if_neg h2).symm⟩
        | succ k =>
          simp only [List.getD_cons_succ]
          exact bshapeR_getD hR k

theorem isBroadcastShape {S T R : List ℕ} (h : bshape S T = some R) : IsBroadcastShape S T R := by
  refine ⟨bshape_length h, fun k _ => ?_⟩
  unfold bshape at h
  obtain ⟨R', h', rfl⟩ := Option.map_eq_some_iff.1 h
  rw [List.reverse_reverse]
  exact bshapeR_getD h' k

theorem bidx_readAt {S J I : List ℕ} (hl : S.length ≤ I.length) (h : ReadAt S J I) : bidx S I = J := by
  obtain ⟨hv, hk⟩ := h
  have hl' := hv.length
  unfold bidx
  rw [← List.reverse_reverse J]
  congr 1
  apply List.ext_getElem
  · simp; omega
  · intro k h1 h2
    rw [List.length_reverse] at h2
    have hS : k < S.reverse.length := by rw [List.length_reverse]; omega
    have hJ : k < J.reverse.length := by rw [List.length_reverse]; omega
    have hI : k < I.reverse.length := by rw [List.length_reverse]; omega
    rw [List.getElem_zipWith]
    have hr := (List.forall₂_iff_get.1 (List.forall₂_reverse_iff.2 hv)).2 k hS hJ
    simp only [List.get_eq_getElem] at hr
    have := hk k (by omega)
    rw [List.getD_eq_getElem _ _ hS, List.getD_eq_getElem _ _ hJ, List.getD_eq_getElem _ _ hI] at this
    split_ifs with h1
    · omega
    · exact (this.resolve_left h1).symm

theorem isBinary {f : K → K → K} (h : Lax.nary f a.canon b.canon = .ok r) : IsBinary f a b r := by
  unfold Lax.nary at h
  split_ifs at h
  unfold ND.map2 at h
  cases hb : bshape a.canon.shape b.canon.shape with
  | none => rw [hb] at h; cases h
  | some R =>
    rw [hb] at h
    cases h
    have hbr := isBroadcastShape hb
    refine ⟨hbr, fun I J J' hI hJ hJ' => ?_⟩
    have hl : I.length = max a.shape.length b.shape.length := by rw [← hI.length]; exact hbr.1
    show f (a.canon.get (bidx a.shape I)) (b.canon.get (bidx b.shape I)) = _
    rw [bidx_readAt (by omega) hJ, bidx_readAt (by omega) hJ', ND.canon_get a hJ.1, ND.canon_get b hJ'.1]

/-- **C70 (binary element-wise primitives).** -/
theorem C70_binary :
    ((Prim.add : Prim K).bind sem [a, b] = .ok [r] → IsBinary (· + ·) a b r) ∧
    ((Prim.sub : Prim K).bind sem [a, b] = .ok [r] → IsBinary (· - ·) a b r) ∧
    ((Prim.mul : Prim K).bind sem [a, b] = .ok [r] → IsBinary (· * ·) a b r) ∧
    ((Prim.div : Prim K).bind sem [a, b] = .ok [r] → IsBinary (· / ·) a b r) ∧
    ((Prim.pow : Prim K).bind sem [a, b] = .ok [r] → IsBinary sem.pow a b r) :=
  ⟨fun h => isBinary (one_ok h), fun h => isBinary (one_ok h), fun h => isBinary (one_ok h), fun h => isBinary (one_ok h),
    fun h => isBinary (one_ok h)⟩

theorem isUnary (f : K → K) : IsUnary f a (a.canon.map f) :=
  ⟨rfl, fun _ hI => congrArg f (ND.canon_get a hI)⟩

/-- **C70 (unary element-wise primitives).** -/
theorem C70_unary :
    ((Prim.neg : Prim K).bind sem [a] = .ok [r] → IsUnary (- ·) a r) ∧
    (∀ y, (Prim.integerPow y : Prim K).bind sem [a] = .ok [r] → IsUnary (· ^ y) a r) ∧
    (∀ round, (Prim.convertElementType round : Prim K).bind sem [a] = .ok [r] → IsUnary round a r) ∧
    (∀ name f, sem.fn name = some f → (Prim.elementwise name : Prim K).bind sem [a] = .ok [r] → IsUnary f a r) := by
  refine ⟨fun h => ?_, fun y h => ?_, fun round h => ?_, fun name f hf h => ?_⟩
  · cases h; exact isUnary _
  · cases h; exact isUnary _
  · cases h; exact isUnary round
  · replace h : (match sem.fn name with | some f => .ok [a.canon.map f] | none => .error .notImplemented : Py _) = .ok [r] := h
    rw [hf] at h
    cases h
    exact isUnary f

/-- **C70 (transpose).** -/
theorem C70_transpose {perm : List ℕ} (h : (Prim.transpose perm).bind sem [a] = .ok [r]) : IsTranspose perm a r := by
  replace h : Lax.transpose perm a.canon = .ok r := one_ok h
  unfold Lax.transpose at h
  split_ifs at h with hc
  obtain ⟨hl, hn, hlt⟩ := hc
  cases h
  refine ⟨rfl, fun I hI => ?_⟩
  have e : ((List.range a.canon.ndim).map fun k => (pick perm I).getD (perm.idxOf k) 0) = I := by
    show ((List.range a.shape.length).map _) = I
    rw [hI.length]
    refine map_range_getD fun k hk => ?_
    have hm := mem_of_perm hl hn hlt (k := k) (by show k < a.shape.length; rw [hI.length]; exact hk)
    have hi := List.idxOf_lt_length_of_mem hm
    rw [pick, List.getD_eq_getElem _ _ (by simpa using hi)]
    simp [List.getElem_idxOf]
  show a.canon.get _ = _
  rw [e, ND.canon_get a hI]

/-- **C70 (reshape).** -/
theorem C70_reshape {s : List ℕ} (h : (Prim.reshape s).bind sem [a] = .ok [r]) : IsReshape s a r := by
  replace h : Lax.reshape s a.canon = .ok r := one_ok h
  unfold Lax.reshape at h
  split_ifs at h with hc
  cases h
  refine ⟨rfl, ?_⟩
  rw [← entries_canon a]
  exact entries_reshape a.canon.get hc

/-- **C70 (squeeze).** -/
theorem C70_squeeze {dims : List ℕ} (h : (Prim.squeeze dims).bind sem [a] = .ok [r]) : IsSqueeze dims a r := by
  replace h : Lax.squeeze dims a.canon = .ok r := one_ok h
  unfold Lax.squeeze at h
  split_ifs at h with hc
  obtain ⟨hax, h1⟩ := hc
  cases h
  refine ⟨(keep_eq _ _).symm, ?_⟩
  have hk : ∀ I : List ℕ, keepFrom dims 0 I = keep dims I := fun _ => rfl
  have hone : ∀ j (h : j < a.shape.length), 0 + j ∈ dims → a.shape[j] = 1 := fun j hj hd => by
    have : a.shape.getD j 0 = 1 := h1 j (by rwa [Nat.zero_add] at hd)
    rwa [List.getD_eq_getElem _ _ hj] at this
  show (idx (dropAxes dims a.shape)).map (fun I => a.canon.get (assemble a.shape.length dims I [])) = _
  rw [← keep_eq, ← hk, ← map_keep_idx a.shape 0 hone, List.map_map, ← entries_canon a]
  refine List.map_congr_left fun I hI => ?_
  have hv := mem_idx.1 hI
  show a.canon.get (assemble a.shape.length dims (keep dims I) []) = a.canon.get I
  congr 1
  rw [hv.length]
  conv_rhs => rw [← assemble_keep_pick (D := dims) (I := I)]
  refine List.map_congr_left fun j hj => ?_
  by_cases hd : j ∈ dims
  · rw [if_pos hd, if_pos hd]
    have hjl : j < a.shape.length := by rw [hv.length]; exact List.mem_range.1 hj
    have h2 := (validIdx_iff_getD.1 hv).2 j hjl
    rw [List.getD_eq_getElem _ _ hjl, hone j hjl (by rwa [Nat.zero_add])] at h2
    have hi := List.idxOf_lt_length_of_mem hd
    rw [pick, List.getD_eq_getElem (List.map _ _) _ (by simpa using hi)]
    simp only [List.getD_nil, List.getElem_map, List.getElem_idxOf]
    omega
  · rw [if_neg hd, if_neg hd]

/-- **C70 (reduce_sum).** -/
theorem C70_reduce_sum {axes : List ℕ} (h : (Prim.reduceSum axes).bind sem [a] = .ok [r]) : IsReduceSum axes a r := by
  replace h : Lax.reduceSum axes a.canon = .ok r := one_ok h
  unfold Lax.reduceSum at h
  split_ifs at h with hax
  cases h
  refine ⟨(keep_eq _ _).symm, fun L hL => ?_⟩
  replace hL : ValidIdx (dropAxes axes a.shape) L := hL
  replace hax : AxesOk a.shape.length axes := hax
  have hLl : L.length = cnt axes a.shape.length := by rw [← dropAxes_length]; exact hL.length.symm
  have hJl : ∀ {J}, ValidIdx (pick axes a.shape) J → J.length = axes.length := fun h => by
    rw [← h.length, pick_length]
  rw [sumOver_select (T := pick axes a.shape) (assemble a.shape.length axes L) a.get]
  · exact sumOver_congr fun J hJ => ND.canon_get a (assemble_valid hL hJ)
  · exact fun J hJ => ⟨assemble_valid hL hJ, keep_assemble hLl⟩
  · intro I hI hk
    refine ⟨pick axes I, pick_valid hax.2 hI, ?_⟩
    rw [← hk, hI.length]
    exact assemble_keep_pick
  · intro J J' hJ hJ' e
    have := congrArg (pick axes) e
    rwa [pick_assemble hax (hJl hJ), pick_assemble hax (hJl hJ')] at this

/-- **C70 (broadcast_in_dim).** -/
theorem C70_broadcast_in_dim {shape dims : List ℕ} (h : (Prim.broadcastInDim shape dims).bind sem [a] = .ok [r]) :
    IsBroadcastInDim shape dims a r := by
  replace h : Lax.broadcastInDimP shape dims a.canon = .ok r := one_ok h
  unfold Lax.broadcastInDimP at h
  split_ifs at h with hc
  cases h
  refine ⟨rfl, fun I J _ hJ hIJ => ?_⟩
  show a.canon.get _ = _
  have e : ((List.range a.shape.length).map fun k => if a.shape.getD k 0 = 1 then 0 else I.getD (dims.getD k 0) 0) = J := by
    rw [hJ.length]
    refine map_range_getD fun k hk => ?_
    have hk' : k < a.shape.length := by rw [hJ.length]; exact hk
    have hlt := (validIdx_iff_getD.1 hJ).2 k hk'
    by_cases h1 : a.shape.getD k 0 = 1
    · rw [if_pos h1]; omega
    · rw [if_neg h1]
      exact ((hIJ k hk').resolve_left h1).symm
  rw [← ND.canon_get a hJ]
  exact congrArg a.canon.get e

/-- **C70 (reduce_window_sum).** Windows have positive strides and dilations, as `jax.lax` requires. -/
theorem C70_reduce_window_sum {ws : List WinAxis} (hpos : ∀ w ∈ ws, 0 < w.stride ∧ 0 < w.baseDil)
    (h : (Prim.reduceWindowSum ws).bind sem [a] = .ok [r]) : IsReduceWindowSum ws a r := by
  replace h : Lax.reduceWindowSum ws a.canon = .ok r := one_ok h
  unfold Lax.reduceWindowSum at h
  split_ifs at h with hl
  replace hl : ws.length = a.shape.length := hl
  cases h
  refine ⟨windowShape hl fun w hw => (hpos w hw).1, fun O hO => ?_⟩
  have hOl : O.length = a.shape.length := by
    rw [← hO.length]
    show (List.zipWith _ _ a.shape).length = _
    simp [hl]
  refine sumOver_congr fun J hJ => ?_
  have hJl : J.length = a.shape.length := by rw [← hJ.length]; simpa using hl
  rw [sumOver_option (winIdx ws a.shape O J) a.get
    (fun α hα => (winIdx_iff (fun w hw => (hpos w hw).2) hl hOl hJl hα).symm) fun α => winIdx_valid]
  show (match winIdx ws a.shape O J with | some α => a.canon.get α | none => 0) = _
  cases hw : winIdx ws a.shape O J with
  | none => rfl
  | some α => exact ND.canon_get a (winIdx_valid hw)

theorem append3_inj {A B C A' B' C' : List ℕ} (hA : A.length = A'.length) (hB : B.length = B'.length)
    (h : A ++ B ++ C = A' ++ B' ++ C') : A = A' ∧ B = B' ∧ C = C' := by
  obtain ⟨h1, h2⟩ := List.append_inj h (by simp [hA, hB])
  obtain ⟨h3, h4⟩ := List.append_inj h1 hA
  exact ⟨h3, h4, h2⟩

/-- **C70 (dot_general).** -/
theorem C70_dot_general {lc rc lb rb : List ℕ} (h : (Prim.dotGeneral lc rc lb rb).bind sem [a, b] = .ok [r]) :
    IsDotGeneral lc rc lb rb a b r := by
  replace h : Lax.dotGeneral lc rc lb rb a.canon b.canon = .ok r := one_ok h
  unfold Lax.dotGeneral at h
  split_ifs at h with hc
  obtain ⟨hax, hbx, hlb, hsz⟩ := hc
  replace hax : AxesOk a.shape.length (lb ++ lc) := hax
  replace hbx : AxesOk b.shape.length (rb ++ rc) := hbx
  replace hsz : pick (lb ++ lc) a.shape = pick (rb ++ rc) b.shape := hsz
  cases h
  refine ⟨?_, fun L hL => ?_⟩
  · rw [keep_eq, keep_eq]
    rfl
  replace hL : ValidIdx (pick lb a.shape ++ dropAxes (lb ++ lc) a.shape ++ dropAxes (rb ++ rc) b.shape) L := hL
  obtain ⟨L12, L3, rfl, h12, h3⟩ := validIdx_split hL
  obtain ⟨L1, L2, rfl, h1, h2⟩ := validIdx_split h12
  have l1 : L1.length = lb.length := by rw [← h1.length, pick_length]
  have l2 : L2.length = (dropAxes (lb ++ lc) a.shape).length := h2.length.symm
  have l2' : L2.length = cnt (lb ++ lc) a.shape.length := by rw [l2, dropAxes_length]
  have l3' : L3.length = cnt (rb ++ rc) b.shape.length := by rw [← h3.length, dropAxes_length]
  have hv : ∀ {J}, ValidIdx (pick lc a.shape) J → ValidIdx (pick (lb ++ lc) a.shape) (L1 ++ J) := fun hJ => by
    rw [pick_append]; exact validIdx_append h1 hJ
  have hJl : ∀ {J}, ValidIdx (pick lc a.shape) J → J.length = lc.length := fun h => by
    rw [← h.length, pick_length]
  have hcl : rc.length = lc.length := by
    have := congrArg List.length hsz
    simp only [pick_length, List.length_append] at this
    omega
  have e1 : (L1 ++ L2 ++ L3).take lb.length = L1 := by
    rw [List.append_assoc, ← l1, List.take_left']; rfl
  have e2 : ((L1 ++ L2 ++ L3).drop lb.length).take (dropAxes (lb ++ lc) a.shape).length = L2 := by
    rw [List.append_assoc, ← l1, List.drop_left' rfl, ← l2, List.take_left' rfl]
  have e3 : (L1 ++ L2 ++ L3).drop (lb.length + (dropAxes (lb ++ lc) a.shape).length) = L3 := by
    rw [← l1, ← l2, List.drop_left' (by simp)]
  show sumOver (pick lc a.shape) (fun J =>
    a.canon.get (assemble a.shape.length (lb ++ lc)
      (((L1 ++ L2 ++ L3).drop lb.length).take (dropAxes (lb ++ lc) a.shape).length) ((L1 ++ L2 ++ L3).take lb.length ++ J)) *
    b.canon.get (assemble b.shape.length (rb ++ rc)
      ((L1 ++ L2 ++ L3).drop (lb.length + (dropAxes (lb ++ lc) a.shape).length)) ((L1 ++ L2 ++ L3).take lb.length ++ J))) = _
  rw [e1, e2, e3]
  -- first the sum over the multi-indices of `b`
  have hb : ∀ I, ValidIdx a.shape I → sumOver b.shape (fun J =>
      if pick lc I = pick rc J ∧ pick lb I = pick rb J ∧
        L1 ++ L2 ++ L3 = pick lb I ++ keep (lb ++ lc) I ++ keep (rb ++ rc) J then a.get I * b.get J else 0) =
      if pick lb I = L1 ∧ keep (lb ++ lc) I = L2 then
        a.get I * b.get (assemble b.shape.length (rb ++ rc) L3 (L1 ++ pick lc I)) else 0 := by
    intro I hI
    have hkl : (keep (lb ++ lc) I).length = L2.length := by rw [keep_length, l2', hI.length]
    by_cases hc : pick lb I = L1 ∧ keep (lb ++ lc) I = L2
    · rw [if_pos hc]
      have hvJ : ValidIdx (pick (rb ++ rc) b.shape) (L1 ++ pick lc I) := by
        rw [← hsz]; exact hv (pick_valid (fun d hd => hax.2 d (List.mem_append_right _ hd)) hI)
      have hl : (L1 ++ pick lc I).length = (rb ++ rc).length := by rw [← hvJ.length, pick_length]
      have hpk := pick_assemble (I := L3) hbx hl
      rw [pick_append] at hpk
      obtain ⟨hp1, hp2⟩ := List.append_inj hpk (by rw [pick_length, l1, hlb])
      rw [sumOver_option (some (assemble b.shape.length (rb ++ rc) L3 (L1 ++ pick lc I))) (fun J => a.get I * b.get J)]
      · rfl
      · intro J hJ
        rw [Option.some.injEq]
        constructor
        · rintro ⟨c1, c2, c3⟩
          obtain ⟨-, -, c4⟩ := append3_inj (by rw [pick_length, l1]) hkl.symm c3
          rw [c4, ← hc.1, c1, c2, ← pick_append, hJ.length]
          exact assemble_keep_pick
        · rintro rfl
          refine ⟨hp2.symm, hc.1.trans hp1.symm, ?_⟩
          rw [hc.1, hc.2, keep_assemble l3']
      · rintro J ⟨⟩
        exact assemble_valid h3 hvJ
    · rw [if_neg hc, sumOver_congr (g := fun _ => (0 : K)), sumOver_eq, Finset.sum_const_zero]
      intro J hJ
      refine if_neg fun ⟨c1, c2, c3⟩ => hc ?_
      obtain ⟨c4, c5, -⟩ := append3_inj (by rw [pick_length, l1]) hkl.symm c3
      exact ⟨c4.symm, c5.symm⟩
  rw [sumOver_congr hb]
  rw [sumOver_select (T := pick lc a.shape) (fun J => assemble a.shape.length (lb ++ lc) L2 (L1 ++ J))
    (fun I => a.get I * b.get (assemble b.shape.length (rb ++ rc) L3 (L1 ++ pick lc I)))]
  · refine sumOver_congr fun J hJ => ?_
    have hl : (L1 ++ J).length = (lb ++ lc).length := by rw [List.length_append, List.length_append, l1, hJl hJ]
    have hpk := pick_assemble (I := L2) hax hl
    rw [pick_append] at hpk
    rw [(List.append_inj hpk (by rw [pick_length, l1])).2, ND.canon_get a (assemble_valid h2 (hv hJ)),
      ND.canon_get b (assemble_valid h3 (by have := hv hJ; rw [hsz] at this; exact this))]
  · intro J hJ
    have hl : (L1 ++ J).length = (lb ++ lc).length := by rw [List.length_append, List.length_append, l1, hJl hJ]
    have hpk := pick_assemble (I := L2) hax hl
    rw [pick_append] at hpk
    exact ⟨assemble_valid h2 (hv hJ), (List.append_inj hpk (by rw [pick_length, l1])).1, keep_assemble l2'⟩
  · rintro I hI ⟨c1, c2⟩
    refine ⟨pick lc I, pick_valid (fun d hd => hax.2 d (List.mem_append_right _ hd)) hI, ?_⟩
    rw [← c1, ← c2, ← pick_append, hI.length]
    exact assemble_keep_pick
  · intro J J' hJ hJ' e
    have hl : ∀ {J}, ValidIdx (pick lc a.shape) J → (L1 ++ J).length = (lb ++ lc).length := fun hJ => by
      rw [List.length_append, List.length_append, l1, hJl hJ]
    have := congrArg (pick (lb ++ lc)) e
    rw [pick_assemble hax (hl hJ), pick_assemble hax (hl hJ')] at this
    exact List.append_cancel_left this

theorem place_pick {n : ℕ} {spec I : List ℕ} (hl : spec.length = n) (h : AxesOk n spec) (hI : I.length = n) :
    place spec (pick spec I) = I := by
  unfold place
  rw [hl, ← hI]
  refine map_range_getD fun j hj => ?_
  have hi := List.idxOf_lt_length_of_mem (mem_perm hl h (j := j) (by omega))
  rw [pick, List.getD_eq_getElem _ _ (by simpa using hi)]
  simp [List.getElem_idxOf]

theorem windows_pos {c : ConvParams} {kernel : List ℕ} (h1 : c.strides.length = kernel.length) (h2 : ∀ s ∈ c.strides, 0 < s)
    (h3 : c.lhsDilation.length = kernel.length) (h4 : ∀ s ∈ c.lhsDilation, 0 < s) :
    ∀ w ∈ c.windows kernel, 0 < w.stride ∧ 0 < w.baseDil := by
  intro w hw
  obtain ⟨k, hk, rfl⟩ := List.mem_map.1 hw
  rw [List.mem_range] at hk
  constructor
  · show 0 < c.strides.getD k 1
    rw [List.getD_eq_getElem _ _ (by omega)]
    exact h2 _ (List.getElem_mem _)
  · show 0 < c.lhsDilation.getD k 1
    rw [List.getD_eq_getElem _ _ (by omega)]
    exact h4 _ (List.getElem_mem _)

/-- **C70 (conv_general_dilated).** -/
theorem C70_conv {c : ConvParams} (h : (Prim.conv (convGeneral c)).bind sem [a, b] = .ok [r]) : IsConv c a b r := by
  classical
  replace h : convGeneral c a.canon b.canon = .ok r := one_ok h
  unfold convGeneral at h
  split_ifs at h with hc
  replace hc : ConvOk c a.shape b.shape := hc
  have hok := hc
  obtain ⟨hlen, hr2, ⟨l1, a1⟩, ⟨l2, a2⟩, ⟨l3, a3⟩, ⟨s1, s2⟩, -, ⟨d1, d2⟩, -, -⟩ := hc
  cases h
  have hA : (pick c.lhsSpec a.shape).length = a.shape.length := by rw [pick_length, l1]
  have hB : (pick c.rhsSpec b.shape).length = a.shape.length := by rw [pick_length, l2]
  have hwl : (c.windows ((pick c.rhsSpec b.shape).drop 2)).length = ((pick c.lhsSpec a.shape).drop 2).length := by
    simp [ConvParams.windows, hA, hB]
  have hwp : ∀ w ∈ c.windows ((pick c.rhsSpec b.shape).drop 2), 0 < w.stride ∧ 0 < w.baseDil :=
    windows_pos (by rw [List.length_drop, hB]; omega) s2 (by rw [List.length_drop, hB]; omega) d2
  have hCl : ((pick c.lhsSpec a.shape).getD 0 0 / c.batchGroups :: (pick c.rhsSpec b.shape).getD 0 0 ::
      List.zipWith WinAxis.outSize (c.windows ((pick c.rhsSpec b.shape).drop 2)) ((pick c.lhsSpec a.shape).drop 2)).length =
      a.shape.length := by
    rw [List.length_cons, List.length_cons, List.length_zipWith, hwl, min_self, List.length_drop, hA]
    omega
  refine ⟨⟨List.zipWith WinAxis.outSize (c.windows ((pick c.rhsSpec b.shape).drop 2)) ((pick c.lhsSpec a.shape).drop 2),
    canonical_place l3 a3 hCl, windowShape hwl fun w hw => (hwp w hw).1⟩, fun L hL => ?_⟩
  replace hL : ValidIdx (convShape c a.shape b.shape) L := hL
  have hLl : L.length = a.shape.length := by
    rw [← hL.length]
    simp [convShape, place, l3]
  have hL'l : (pick c.outSpec L).length = a.shape.length := by rw [pick_length, l3]
  -- the sum over the multi-indices of the left operand
  have hI : ∀ J, ValidIdx b.shape J → sumOver a.shape (fun I =>
      if Contributes c a.shape b.shape L I J then a.get I * b.get J else 0) =
      if (pick c.rhsSpec J).getD 0 0 = (pick c.outSpec L).getD 1 0 then
        (convPair c a.shape b.shape L ((pick c.rhsSpec J).drop 1)).elim 0 (fun p => a.get p.1 * b.get J)
      else 0 := by
    intro J hJ
    have hJl : (pick c.rhsSpec J).length = a.shape.length := by rw [pick_length, l2]
    by_cases ho : (pick c.rhsSpec J).getD 0 0 = (pick c.outSpec L).getD 1 0
    · rw [if_pos ho]
      have hvJ : ValidIdx ((canonical c.rhsSpec b.shape).drop 1) ((pick c.rhsSpec J).drop 1) := by
        have := pick_valid (D := c.rhsSpec) (fun d hd => by rw [hlen]; exact a2.2 d hd) hJ
        obtain ⟨x, y, t, e⟩ := two_of_length (l := canonical c.rhsSpec b.shape) (by rw [← hB] at hr2; exact hr2)
        replace this : ValidIdx (canonical c.rhsSpec b.shape) (pick c.rhsSpec J) := this
        rw [e] at this ⊢
        obtain ⟨_, _, _, hv, e'⟩ := List.forall₂_cons_left_iff.1 this
        rw [e']
        exact hv
      rw [sumOver_option ((convPair c a.shape b.shape L ((pick c.rhsSpec J).drop 1)).map Prod.fst)
        (fun I => a.get I * b.get J)]
      · cases convPair c a.shape b.shape L ((pick c.rhsSpec J).drop 1) <;> rfl
      · intro I hI
        have hIl : (pick c.lhsSpec I).length = a.shape.length := by rw [pick_length, l1]
        have hIv := pick_valid (D := c.lhsSpec) a1.2 hI
        obtain ⟨n, f, α, eI⟩ := two_of_length (l := pick c.lhsSpec I) (by rw [hIl]; exact hr2)
        obtain ⟨N, F, S, eS⟩ := two_of_length (l := pick c.lhsSpec a.shape) (by rw [hA]; exact hr2)
        obtain ⟨o, i, j, eJ⟩ := two_of_length (l := pick c.rhsSpec J) (by rw [hJl]; exact hr2)
        obtain ⟨m, q, t, eL⟩ := two_of_length (l := pick c.outSpec L) (by rw [hL'l]; exact hr2)
        have hαv : ValidIdx S α := by
          rw [eI, eS] at hIv
          obtain ⟨_, _, _, hv1, e1⟩ := List.forall₂_cons_left_iff.1 hIv
          obtain ⟨_, _, _, hv2, e2⟩ := List.forall₂_cons_left_iff.1 hv1
          rw [e2] at e1
          cases e1
          exact hv2
        have hwin := winIdx_iff (ws := c.windows ((pick c.rhsSpec b.shape).drop 2)) (S := S) (O := t) (J := j) (α := α)
          (fun w hw => (hwp w hw).2) (by rw [hwl, eS]; rfl)
          (by rw [eL] at hL'l; rw [eS] at hA; simp only [List.length_cons] at hL'l hA; omega)
          (by rw [eJ] at hJl; rw [eS] at hA; simp only [List.length_cons] at hJl hA; omega) hαv
        have hpl : place c.lhsSpec (n :: f :: α) = I := by rw [← eI]; exact place_pick l1 a1 hI.length.symm
        have hpair : convPair c a.shape b.shape L ((pick c.rhsSpec J).drop 1) =
            (winIdx (c.windows ((pick c.rhsSpec b.shape).drop 2)) S t j).map fun β =>
              (place c.lhsSpec ((q / ((pick c.rhsSpec b.shape).getD 0 0 / c.batchGroups) *
                  ((pick c.lhsSpec a.shape).getD 0 0 / c.batchGroups) + m) ::
                (q / ((pick c.rhsSpec b.shape).getD 0 0 / c.featureGroups) * (pick c.rhsSpec b.shape).getD 1 0 + i) :: β),
               place c.rhsSpec (q :: i :: j)) := by
          unfold convPair
          show Option.map _ (winIdx (c.windows ((pick c.rhsSpec b.shape).drop 2)) ((pick c.lhsSpec a.shape).drop 2)
            ((pick c.outSpec L).drop 2) (((pick c.rhsSpec J).drop 1).drop 1)) = _
          rw [eJ, eS]
          show Option.map (fun α => (place c.lhsSpec
            (((pick c.outSpec L).getD 1 0 / ((pick c.rhsSpec b.shape).getD 0 0 / c.batchGroups) *
              ((pick c.lhsSpec a.shape).getD 0 0 / c.batchGroups) + (pick c.outSpec L).getD 0 0) ::
             ((pick c.outSpec L).getD 1 0 / ((pick c.rhsSpec b.shape).getD 0 0 / c.featureGroups) *
               (pick c.rhsSpec b.shape).getD 1 0 + i) :: α), place c.rhsSpec ((pick c.outSpec L).getD 1 0 :: i :: j)))
            (winIdx (c.windows ((pick c.rhsSpec b.shape).drop 2)) S ((pick c.outSpec L).drop 2) j) = _
          rw [eL, eS]
          rfl
        have hplace : ∀ {x y : List ℕ}, x.length = a.shape.length → y.length = a.shape.length →
            place c.lhsSpec x = place c.lhsSpec y → x = y := fun hx hy e => by
          have := congrArg (canonical c.lhsSpec) e
          rwa [canonical_place l1 a1 hx, canonical_place l1 a1 hy] at this
        rw [hpair, Option.map_map]
        constructor
        · rintro ⟨-, c2, c3, c4⟩
          rw [eI, eL, eJ] at c2 c4
          rw [eI, eL] at c3
          simp only [List.getD_cons_succ, List.getD_cons_zero, List.drop_succ_cons, List.drop_zero] at c2 c3 c4
          rw [(hwin.2 c4)]
          simp only [Option.map_some, Function.comp_apply]
          rw [← c2, ← c3, hpl]
        · intro e
          simp only [Option.map_eq_some_iff, Function.comp_apply] at e
          obtain ⟨β, hβ, e⟩ := e
          rw [← hpl] at e
          have hβl : β.length = S.length := (winIdx_valid hβ).length.symm
          have := hplace (by rw [eS] at hA; simp only [List.length_cons] at hA ⊢; omega)
            (by rw [← eI]; exact hIl) e
          simp only [List.cons.injEq] at this
          obtain ⟨c3, c2, rfl⟩ := this
          refine ⟨ho, ?_, ?_, ?_⟩
          · rw [eI, eL, eJ]; exact c2.symm
          · rw [eI, eL]; exact c3.symm
          · rw [eI, eL, eJ]; exact hwin.1 hβ
      · intro I e
        simp only [Option.map_eq_some_iff] at e
        obtain ⟨p, hp, rfl⟩ := e
        exact (convPair_valid hok hL hvJ hp).1
    · rw [if_neg ho, sumOver_congr (g := fun _ => (0 : K)), sumOver_eq, Finset.sum_const_zero]
      exact fun I _ => if_neg fun hcn : Contributes c a.shape b.shape L I J => ho hcn.out
  rw [sumOver_comm, sumOver_congr hI]
  obtain ⟨O, F, T, eB⟩ := two_of_length (l := pick c.rhsSpec b.shape) (by rw [hB]; exact hr2)
  have hoL : (pick c.outSpec L).getD 1 0 < (pick c.rhsSpec b.shape).getD 0 0 := by
    have hV := canonical_valid l3 a3 hCl hL
    have := (validIdx_iff_getD.1 hV).2 1 (by rw [hCl]; omega)
    exact this
  have hdrop : ∀ {J}, ValidIdx ((canonical c.rhsSpec b.shape).drop 1) J →
      ValidIdx (canonical c.rhsSpec b.shape) ((pick c.outSpec L).getD 1 0 :: J) := by
    intro J hJ
    replace eB : canonical c.rhsSpec b.shape = O :: F :: T := eB
    rw [eB] at hJ ⊢
    refine List.Forall₂.cons ?_ hJ
    rw [show pick c.rhsSpec b.shape = O :: F :: T from eB] at hoL
    exact hoL
  have hcp : ∀ {J}, ValidIdx ((canonical c.rhsSpec b.shape).drop 1) J →
      pick c.rhsSpec (place c.rhsSpec ((pick c.outSpec L).getD 1 0 :: J)) = (pick c.outSpec L).getD 1 0 :: J := fun hJ =>
    canonical_place l2 a2 (by rw [← (hdrop hJ).length]; exact hB)
  rw [sumOver_select (T := (canonical c.rhsSpec b.shape).drop 1)
    (fun J => place c.rhsSpec ((pick c.outSpec L).getD 1 0 :: J))
    (fun J => (convPair c a.shape b.shape L ((pick c.rhsSpec J).drop 1)).elim 0 (fun p => a.get p.1 * b.get J))]
  · refine sumOver_congr fun J hJ => ?_
    show (match convPair c a.shape b.shape L J with | some p => a.canon.get p.1 * b.canon.get p.2 | none => 0) = _
    rw [hcp hJ, List.drop_one, List.tail_cons]
    cases hp : convPair c a.shape b.shape L J with
    | none => rfl
    | some p =>
      obtain ⟨v1, v2⟩ := convPair_valid hok hL hJ hp
      have e2 : p.2 = place c.rhsSpec ((pick c.outSpec L).getD 1 0 :: J) := by
        unfold convPair at hp
        simp only [Option.map_eq_some_iff] at hp
        obtain ⟨_, _, rfl⟩ := hp
        rfl
      show a.canon.get p.1 * b.canon.get p.2 = a.get p.1 * b.get _
      rw [ND.canon_get a v1, ND.canon_get b v2, e2]
  · intro J hJ
    refine ⟨place_valid l2 a2 hlen (hdrop hJ), ?_⟩
    rw [hcp hJ]
    rfl
  · intro J hJ ho
    have hJl : (pick c.rhsSpec J).length = a.shape.length := by rw [pick_length, l2]
    have hv := pick_valid (D := c.rhsSpec) (fun d hd => by rw [hlen]; exact a2.2 d hd) hJ
    obtain ⟨o, i, j, eJ⟩ := two_of_length (l := pick c.rhsSpec J) (by rw [hJl]; exact hr2)
    refine ⟨i :: j, ?_, ?_⟩
    · rw [eJ, eB] at hv
      show ValidIdx ((pick c.rhsSpec b.shape).drop 1) _
      rw [eB]
      obtain ⟨_, _, _, hv1, e1⟩ := List.forall₂_cons_left_iff.1 hv
      cases e1
      exact hv1
    · rw [← ho, eJ]
      show place c.rhsSpec (o :: i :: j) = J
      rw [← eJ]
      exact place_pick l2 a2 (by rw [← hJ.length, hlen])
  · intro J J' hJ hJ' e
    have := congrArg (pick c.rhsSpec) e
    rw [hcp hJ, hcp hJ'] at this
    exact (List.cons.inj this).2

/-! ### the hypotheses are met -/

/-- A 2x3 array. -/
def exM : ND ℚ := ⟨[2, 3], fun I => match I with | [i, j] => 10 * i + j | _ => 0⟩

/-- A 3x3 image with one channel, and a kernel of size 2x2 with two output features. -/
def exImg : ND ℚ := ⟨[1, 3, 3, 1], fun I => match I with | [_, i, j, _] => 3 * i + j + 1 | _ => 0⟩
def exKer : ND ℚ := ⟨[2, 2, 1, 2], fun I => match I with | [i, j, _, o] => if i = j then 1 else o | _ => 0⟩
/-- NHWC images and HWIO kernels, strides 1 and 2, padding on one side, dilated kernel on one axis. -/
def exConv : ConvParams := ⟨[1, 2], [(0, 0), (1, 0)], [1, 1], [1, 2], [0, 3, 1, 2], [3, 2, 0, 1], [0, 3, 1, 2], 1, 1⟩

/-- **C70: the hypotheses are met.** Every primitive returns on arrays of suitable shapes, with the expected entries. -/
theorem C70_instance (sem : Sem ℚ) :
    (∃ r, (Prim.transpose [1, 0]).bind sem [exM] = .ok [r] ∧ entries r = [0, 10, 1, 11, 2, 12]) ∧
    (∃ r, (Prim.reshape [3, 2]).bind sem [exM] = .ok [r] ∧ entries r = [0, 1, 2, 10, 11, 12]) ∧
    (∃ r, (Prim.squeeze [0, 3]).bind sem [exImg] = .ok [r] ∧ r.shape = [3, 3]) ∧
    (∃ r, (Prim.reduceSum [1]).bind sem [exM] = .ok [r] ∧ entries r = [3, 33]) ∧
    (∃ r, (Prim.broadcastInDim [2, 2, 3] [1, 2]).bind sem [exM] = .ok [r] ∧ r.shape = [2, 2, 3]) ∧
    (∃ r, (Prim.dotGeneral [1] [1] [] []).bind sem [exM, exM] = .ok [r] ∧ entries r = [5, 35, 35, 365]) ∧
    (∃ r, (Prim.reduceWindowSum [⟨1, 1, 0, 0, 1, 1⟩, ⟨2, 1, 1, 0, 1, 1⟩]).bind sem [exM] = .ok [r] ∧
      entries r = [0, 1, 3, 10, 21, 23]) ∧
    (∃ r, (Prim.conv (convGeneral exConv)).bind sem [exImg, exKer] = .ok [r] ∧ r.shape = [1, 2, 1, 2] ∧
      entries r = [5, 7, 8, 13]) ∧
    (∃ r, (Prim.add : Prim ℚ).bind sem [exM, ND.mk' [1, 3] [1, 2, 3]] = .ok [r] ∧ entries r = [1, 3, 5, 11, 13, 15]) := by
  refine ⟨⟨_, rfl, ?_⟩, ⟨_, rfl, ?_⟩, ⟨_, rfl, ?_⟩, ⟨_, rfl, ?_⟩, ⟨_, rfl, ?_⟩, ⟨_, rfl, ?_⟩, ⟨_, rfl, ?_⟩, ⟨_, rfl, ?_, ?_⟩,
    ⟨_, rfl, ?_⟩⟩ <;> decide +kernel

end
end LaxSpec
end AB
