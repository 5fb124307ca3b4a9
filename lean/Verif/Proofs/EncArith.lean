import Verif.Proofs.Select
import Verif.Proofs.PolyAlg
import Mathlib.Algebra.BigOperators.Pi

set_option linter.unusedSectionVars false

namespace AB
variable {K : Type}

open IA (repS repS_succ repS_succ' repS_zero repS_length repS_add repS_one)

section
variable [Field K]

/-- `pair` as an additive map -/
def pairHom (xs : List ℕ) (z : List ℕ → K) (i : ℕ) : (List ℕ → K) →+ K where
  toFun w := pair xs z i w
  map_zero' := pair_zero xs z i
  map_add' w w' := pair_add xs z i w w'

@[simp] theorem pairHom_apply (xs : List ℕ) (z : List ℕ → K) (i : ℕ) (w : List ℕ → K) :
    pairHom xs z i w = pair xs z i w := rfl

theorem selPow_zero_fun (n p : ℕ) (hp : p ≠ 0) : selPow n p (0 : List ℕ → K) = 0 := by
  obtain ⟨p, rfl⟩ := Nat.exists_eq_succ_of_ne_zero hp
  funext J; simp [selPow, chunks]

/-- coefficient selections form a graded family over the scalars, by pairing with `z^i` -/
def selG (xs : List ℕ) (z : List ℕ → K) : Poly.Graded (List ℕ → K) K where
  mul i _ u v := selMul (i * xs.length) u v
  pow i p u := selPow (i * xs.length) p u
  one := fun _ => 1
  val i := pairHom xs z i
  val_mul i j u v := (pair_mul xs z i j u v).symm
  val_pow i p u := (pair_pow xs z i p u).symm
  val_one := by simp [pair_zero_deg]
  mul_zero i j u := by funext J; simp [selMul]
  zero_mul i j u := by funext J; simp [selMul]
  zero_pow i p hp := selPow_zero_fun _ _ hp
end

/-! ### batch shapes -/

/-- A condition on the batch shapes `B` of degree-`d` coefficients. -/
abbrev Mode := ℕ → List ℕ → Prop

/-- no condition -/
def anyM : Mode := fun _ _ => True
/-- rank `n`, or scalar in degree 0 -/
def rankM (n : ℕ) : Mode := fun d B => B.length = n ∨ (d = 0 ∧ B = [])
/-- exactly `R`, or scalar in degree 0 -/
def exactWM (R : List ℕ) : Mode := fun d B => B = R ∨ (d = 0 ∧ B = [])
/-- exactly `R` -/
def exactM (R : List ℕ) : Mode := fun _ B => B = R

/-- closed under sums, also with coefficients of higher degree -/
def Mode.Cl (U : Mode) : Prop :=
  ∀ {d d' B B' Q}, d ≤ d' → U d B → U d' B' → bshape B B' = some Q → U d Q

/-- products of `UA` and `UB` are in `U` -/
def Mode.Pr (UA UB U : Mode) : Prop :=
  ∀ {i j B B' Q}, UA i B → UB j B' → bshape B B' = some Q → U (i + j) Q

theorem anyM_cl : Mode.Cl anyM := fun _ _ _ _ => trivial
theorem anyM_pr {A B : Mode} : Mode.Pr A B anyM := fun _ _ _ => trivial

theorem rankM_cl (n : ℕ) : Mode.Cl (rankM n) := by
  intro d d' B B' Q hd h h' e
  have hl := bshape_length e
  rcases h with h | ⟨h, rfl⟩
  · left
    rcases h' with h' | ⟨h', rfl⟩
    · omega
    · simp at hl; omega
  · rw [bshape_nil_left] at e; cases e
    rcases h' with h' | ⟨h', rfl⟩
    · exact Or.inl h'
    · exact Or.inr ⟨h, rfl⟩

theorem rankM_pr (n : ℕ) : Mode.Pr (rankM n) (rankM n) (rankM n) := by
  intro d d' B B' Q h h' e
  have hl := bshape_length e
  rcases h with h | ⟨h, rfl⟩
  · left
    rcases h' with h' | ⟨h', rfl⟩
    · omega
    · simp at hl; omega
  · rw [bshape_nil_left] at e; cases e
    rcases h' with h' | ⟨h', rfl⟩
    · exact Or.inl h'
    · exact Or.inr ⟨by omega, rfl⟩

theorem exactWM_cl (R : List ℕ) : Mode.Cl (exactWM R) := by
  intro d d' B B' Q hd h h' e
  rcases h with rfl | ⟨h, rfl⟩
  · left
    rcases h' with rfl | ⟨h', rfl⟩
    · rw [bshape_self] at e; cases e; rfl
    · rw [bshape_nil_right] at e; cases e; rfl
  · rw [bshape_nil_left] at e; cases e
    rcases h' with h' | ⟨h', rfl⟩
    · exact Or.inl h'
    · exact Or.inr ⟨h, rfl⟩

theorem exactWM_pr (R : List ℕ) : Mode.Pr (exactWM R) (exactWM R) (exactWM R) := by
  intro d d' B B' Q h h' e
  rcases h with rfl | ⟨h, rfl⟩
  · left
    rcases h' with rfl | ⟨h', rfl⟩
    · rw [bshape_self] at e; cases e; rfl
    · rw [bshape_nil_right] at e; cases e; rfl
  · rw [bshape_nil_left] at e; cases e
    rcases h' with h' | ⟨h', rfl⟩
    · exact Or.inl h'
    · exact Or.inr ⟨by omega, rfl⟩

theorem exactM_cl (R : List ℕ) : Mode.Cl (exactM R) := by
  intro d d' B B' Q hd h h' e
  cases h; cases h'
  rw [bshape_self] at e; cases e; rfl

theorem exactM_prW (R : List ℕ) : Mode.Pr (exactM R) (exactWM R) (exactM R) := by
  intro d d' B B' Q h h' e
  cases h
  rcases h' with rfl | ⟨h', rfl⟩
  · rw [bshape_self] at e; cases e; rfl
  · rw [bshape_nil_right] at e; cases e; rfl

theorem exactM_pr {R1 R2 R : List ℕ} (h : bshape R1 R2 = some R) :
    Mode.Pr (exactM R1) (exactM R2) (exactM R) := by
  intro d d' B B' Q h1 h2 e
  cases h1; cases h2
  rw [h] at e; cases e; rfl

/-- The batch shape `B` of a degree-`d` coefficient broadcasts to `R` and satisfies `U`. -/
def Uni (U : Mode) (R : List ℕ) (d : ℕ) (B : List ℕ) : Prop := ble B R ∧ U d B

theorem ble_lub_of_bshape {S T R Q : List ℕ} (h : bshape S T = some Q) (h1 : ble S R)
    (h2 : ble T R) : ble Q R := by
  obtain ⟨R', e, h'⟩ := bshape_lub h1 h2
  rw [h] at e; cases e; exact h'

theorem Uni.bcast {U U' V : Mode} {R B B' Q : List ℕ} {i j d : ℕ} (h : Uni U R i B)
    (h' : Uni U' R j B') (hV : U i B → U' j B' → bshape B B' = some Q → V d Q)
    (e : bshape B B' = some Q) : Uni V R d Q :=
  ⟨ble_lub_of_bshape e h.1 h'.1, hV h.2 h'.2 e⟩

/-- least upper bounds of finitely many shapes -/
theorem lub_mode {U : Mode} (hU : U.Cl) {R : List ℕ} {d : ℕ} {Bs : ℕ → List ℕ} (n : ℕ)
    (h : ∀ j ≤ n, U (d + j) (Bs j) ∧ ble (Bs j) R) :
    ∃ Q, U d Q ∧ ble Q R ∧ (∀ j ≤ n, ble (Bs j) Q) ∧
      ∀ R', (∀ j ≤ n, ble (Bs j) R') → ble Q R' := by
  induction n with
  | zero =>
    refine ⟨Bs 0, (h 0 le_rfl).1, (h 0 le_rfl).2, ?_, fun R' h' => h' 0 le_rfl⟩
    intro j hj
    obtain rfl : j = 0 := by omega
    exact ble_refl _
  | succ n ih =>
    obtain ⟨Q, q1, q2, q3, q4⟩ := ih (fun j hj => h j (by omega))
    obtain ⟨Q', e, q'⟩ := bshape_lub q2 (h (n + 1) le_rfl).2
    have l := bshape_le e
    refine ⟨Q', hU (by omega) q1 (h (n + 1) le_rfl).1 e, q', ?_, ?_⟩
    · intro j hj
      by_cases hj' : j = n + 1
      · rw [hj']; exact l.2
      · exact ble_trans (q3 j (by omega)) l.1
    · intro R' h'
      exact ble_lub_of_bshape e (q4 R' fun j hj => h' j (by omega)) (h' (n + 1) le_rfl)

theorem bshape_append {A B C D R S : List ℕ} (hl : C.length = D.length)
    (h1 : bshape A B = some R) (h2 : bshape C D = some S) :
    bshape (A ++ C) (B ++ D) = some (R ++ S) := by
  have a := bshape_le h1
  have c := bshape_le h2
  have lS := bshape_length h2
  obtain ⟨Q, e, hq⟩ := bshape_lub (R := R ++ S) (ble_append a.1 c.1 (by omega))
    (ble_append a.2 c.2 (by omega))
  rw [e]; congr 1
  apply ble_antisymm hq
  have q := bshape_le e
  have lq : C.length ≤ Q.length := by
    have := ble_length q.1; simp at this; omega
  obtain ⟨Q1, Q2, rfl, l2⟩ : ∃ Q1 Q2, Q = Q1 ++ Q2 ∧ Q2.length = C.length :=
    ⟨Q.take (Q.length - C.length), Q.drop (Q.length - C.length),
      (List.take_append_drop _ _).symm, by simp; omega⟩
  obtain ⟨x1, x2⟩ := ble_append_inv (by omega) q.1
  obtain ⟨y1, y2⟩ := ble_append_inv (by omega) q.2
  exact ble_append (ble_lub_of_bshape h1 x1 y1) (ble_lub_of_bshape h2 x2 y2) (by omega)

theorem bshape_append_inv {A B C D Q : List ℕ} (hl : C.length = D.length)
    (h : bshape (A ++ C) (B ++ D) = some Q) :
    ∃ R S, bshape A B = some R ∧ bshape C D = some S ∧ Q = R ++ S := by
  have q := bshape_le h
  have lq : C.length ≤ Q.length := by
    have := ble_length q.1; simp at this; omega
  obtain ⟨Q1, Q2, rfl, l2⟩ : ∃ Q1 Q2, Q = Q1 ++ Q2 ∧ Q2.length = C.length :=
    ⟨Q.take (Q.length - C.length), Q.drop (Q.length - C.length),
      (List.take_append_drop _ _).symm, by simp; omega⟩
  obtain ⟨x1, x2⟩ := ble_append_inv (by omega) q.1
  obtain ⟨y1, y2⟩ := ble_append_inv (by omega) q.2
  obtain ⟨R, hR, -⟩ := bshape_lub x1 y1
  obtain ⟨S, hS, -⟩ := bshape_lub x2 y2
  have := bshape_append hl hR hS
  rw [h] at this
  exact ⟨R, S, hR, hS, by simpa using this⟩

/-- `c` is a legal degree-`d` coefficient with batch shape as in `Uni` -/
def VCU (U : Mode) (xs R : List ℕ) (d : ℕ) (c : Coef K) : Prop :=
  c.WF ∧ ∃ B, c.shape = B ++ repS d xs ∧ Uni U R d B

theorem VCU.vc {U : Mode} {xs R : List ℕ} {d : ℕ} {c : Coef K} (h : VCU U xs R d c) :
    VC xs R d c := by
  obtain ⟨h1, B, h2, h3⟩ := h
  exact ⟨h1, B, h2, h3.1⟩

theorem VC.vcu {xs R : List ℕ} {d : ℕ} {c : Coef K} (h : VC xs R d c) : VCU anyM xs R d c := by
  obtain ⟨h1, B, h2, h3⟩ := h
  exact ⟨h1, B, h2, h3, trivial⟩

/-- all coefficients legal -/
def VEU (U : Mode) (xs R : List ℕ) (E : Encl K) : Prop := ∀ i c, E[i]? = some c → VCU U xs R i c

theorem VEU.ve {U : Mode} {xs R : List ℕ} {E : Encl K} (h : VEU U xs R E) : VE xs R E :=
  fun i c hc => (h i c hc).vc

theorem VE.veu {xs R : List ℕ} {E : Encl K} (h : VE xs R E) : VEU anyM xs R E :=
  fun i c hc => (h i c hc).vcu

theorem VCU.length_le {U : Mode} {xs R I J : List ℕ} {d : ℕ} {c : Coef K} (h : VCU U xs R d c)
    (hI : R.length ≤ I.length) (hJ : J.length = d * xs.length) :
    c.shape.length ≤ (I ++ J).length := by
  obtain ⟨_, B, h2, h3⟩ := h
  have := ble_length h3.1
  rw [h2]; simp; omega

section
variable [Field K] [LinearOrder K] [IsStrictOrderedRing K]

/-! ### truncation -/

theorem trunc_sel {Z : Coef K} (hZ : Z.WF) {z : List ℕ → K} (hz : ZMem Z z) {U : Mode}
    (hU : U.Cl) {R : List ℕ} {E out : Encl K} (hE : VEU U Z.shape R E) {md : ℕ}
    (h : encloseEnclosure E Z md = .ok out) :
    VEU U Z.shape R out ∧ out.length = min E.length (md + 1) ∧
    (E.length ≤ md + 1 → out = E) ∧ (∀ i < md, out[i]? = E[i]?) ∧
    ∀ I, R.length ≤ I.length → ∀ w, Sel Z.shape E I w →
      ∃ W, Sel Z.shape out I W ∧
        selVal Z.shape z out.length W = selVal Z.shape z E.length w ∧ ∀ i < md, W i = w i := by
  unfold encloseEnclosure at h
  split_ifs at h with hlen
  · cases h
    exact ⟨hE, by omega, fun _ => rfl, fun _ _ => rfl, fun I _ w hw => ⟨w, hw, rfl, fun _ _ => rfl⟩⟩
  simp only [py_bind_ok, py_pure] at h
  obtain ⟨r, hr, rfl⟩ := h
  push Not at hlen
  set D := E.drop md with hD
  have hDl : D.length = E.length - md := by simp [hD]
  have hDget : ∀ j, D[j]? = E[md + j]? := by intro j; simp [hD]
  have hDwf : WFE D := fun c hc => hE.ve.wfe c (List.mem_of_mem_drop hc)
  obtain ⟨r1, r2, r3, -, r5⟩ := eval_ok hZ hz hDwf hr
  -- shape of the new coefficient
  have hDve : VE Z.shape (R ++ repS md Z.shape) D := by
    intro j c hc
    rw [hDget] at hc
    obtain ⟨cw, B, hB, hu⟩ := hE _ c hc
    exact ⟨cw, B ++ repS md Z.shape, by rw [hB, repS_add, List.append_assoc],
      ble_append hu.1 (ble_refl _) rfl⟩
  have hup := r3 _ hDve
  have hB0 : ∃ c0 B0, E[md]? = some c0 ∧ c0.shape = B0 ++ repS md Z.shape ∧ Uni U R md B0 := by
    have : md < E.length := by omega
    obtain ⟨_, B, hB, hu⟩ := hE md E[md] (List.getElem?_eq_getElem this)
    exact ⟨_, B, List.getElem?_eq_getElem this, hB, hu⟩
  have hlow : ∀ j c B, E[md + j]? = some c → c.shape = B ++ repS (md + j) Z.shape →
      ble (B ++ repS md Z.shape) r.shape := by
    intro j c B hc hB
    obtain ⟨_, B', hB', hle⟩ := r2 j c (by rw [hDget]; exact hc)
    rw [hB, repS_add, ← List.append_assoc] at hB'
    rwa [List.append_cancel_right hB']
  obtain ⟨c0, B0, hc0, hB0, hu0⟩ := hB0
  have hl0 := hlow 0 c0 B0 hc0 hB0
  have hrl : (repS md Z.shape).length ≤ r.shape.length := by
    have := ble_length hl0; simp only [List.length_append] at this; omega
  obtain ⟨Q, S, hQS, hS⟩ : ∃ Q S, r.shape = Q ++ S ∧ S.length = (repS md Z.shape).length :=
    ⟨r.shape.take (r.shape.length - (repS md Z.shape).length),
      r.shape.drop (r.shape.length - (repS md Z.shape).length),
      (List.take_append_drop _ _).symm, by rw [List.length_drop]; omega⟩
  rw [hQS] at hl0 hup
  obtain ⟨q1, s1⟩ := ble_append_inv hS.symm hl0
  obtain ⟨q2, s2⟩ := ble_append_inv hS hup
  have hSeq : S = repS md Z.shape := ble_antisymm s2 s1
  subst hSeq
  have hrVC : VCU U Z.shape R md r := by
    have hex : ∀ j, ∃ B, j ≤ E.length - md - 1 → ∃ c, E[md + j]? = some c ∧
        c.shape = B ++ repS (md + j) Z.shape ∧ Uni U R (md + j) B := by
      intro j
      by_cases hj : j ≤ E.length - md - 1
      · have hlt : md + j < E.length := by omega
        obtain ⟨_, B, hB, hu⟩ := hE (md + j) E[md + j] (List.getElem?_eq_getElem hlt)
        exact ⟨B, fun _ => ⟨_, List.getElem?_eq_getElem hlt, hB, hu⟩⟩
      · exact ⟨[], fun h => absurd h hj⟩
    choose Bs hBs using hex
    obtain ⟨Q', u1, u2, u3, u4⟩ := lub_mode hU (d := md) (R := R) (Bs := Bs) (E.length - md - 1)
      (fun j hj => by obtain ⟨_, _, _, h⟩ := hBs j hj; exact ⟨h.2, h.1⟩)
    have e1 : ble Q Q' := by
      have := r3 (Q' ++ repS md Z.shape) (by
        intro j c hc
        rw [hDget] at hc
        have hj : j ≤ E.length - md - 1 := by
          have := (List.getElem?_eq_some_iff.1 hc).1; omega
        obtain ⟨c', h1, h2, h3⟩ := hBs j hj
        rw [hc] at h1; cases h1
        exact ⟨(hE _ c hc).1, Bs j ++ repS md Z.shape, by rw [h2, repS_add, List.append_assoc],
          ble_append (u3 j hj) (ble_refl _) rfl⟩)
      rw [hQS] at this
      exact (ble_append_inv rfl this).1
    have e2 : ble Q' Q := u4 Q (by
      intro j hj
      obtain ⟨c', h1, h2, h3⟩ := hBs j hj
      have := hlow j c' _ h1 h2
      rw [hQS] at this
      exact (ble_append_inv rfl this).1)
    have e3 : Q = Q' := ble_antisymm e1 e2
    exact ⟨r1, Q, hQS, q2, e3 ▸ u1⟩
  have htl : (E.take md).length = md := by simp; omega
  have hout : ∀ i, (E.take md ++ [r])[i]? = if i < md then E[i]? else if i = md then some r
      else none := by
    intro i
    by_cases hi : i < md
    · rw [if_pos hi, List.getElem?_append_left (by omega), List.getElem?_take_of_lt hi]
    · rw [if_neg hi, List.getElem?_append_right (by omega), htl]
      by_cases hi' : i = md
      · subst hi'; simp
      · rw [if_neg hi', List.getElem?_eq_none]; simp; omega
  refine ⟨?_, by simp; omega, fun h => absurd h (by omega), fun i hi => by rw [hout, if_pos hi], ?_⟩
  · intro i c hc
    rw [hout] at hc
    split_ifs at hc with h1 h2
    · exact hE i c hc
    · subst h2; cases hc; exact hrVC
  intro I hI w hw
  let W : ℕ → List ℕ → K := fun i => if i < md then w i else if i = md then
    fun A => ∑ j ∈ Finset.range D.length, pair Z.shape z j (fun B => w (md + j) (A ++ B)) else 0
  refine ⟨W, ?_, ?_, ?_⟩
  · intro i
    constructor
    · intro c hc J hJ
      rw [hout] at hc
      split_ifs at hc with h1 h2
      · simp only [W, if_pos h1]; exact (hw i).1 c hc J hJ
      · subst h2; cases hc
        simp only [W, lt_irrefl, if_false, if_true]
        refine r5 (I ++ J) (hrVC.length_le hI (by simpa using hJ.length.symm)) z hz
          (fun j B => w (i + j) (J ++ B)) ?_
        intro j c hc J' hJ'
        rw [hDget] at hc
        rw [List.append_assoc]
        refine (hw (i + j)).1 c hc _ ?_
        rw [repS_add]; exact validIdx_append hJ hJ'
    · intro hn J
      rw [hout] at hn
      split_ifs at hn with h1 h2
      · simp only [W, if_pos h1]; exact (hw i).2 hn J
      · simp only [W, if_neg h1, if_neg h2]; rfl
  · unfold selVal
    have e1 : (E.take md ++ [r]).length = md + 1 := by simp; omega
    rw [e1, Finset.sum_range_succ]
    have e2 : E.length = md + D.length := by omega
    rw [e2, Finset.sum_range_add]
    congr 1
    · apply Finset.sum_congr rfl
      intro i hi
      simp only [W, if_pos (Finset.mem_range.1 hi)]
    · simp only [W, lt_irrefl, if_false, if_true]
      have : (fun A => ∑ j ∈ Finset.range D.length, pair Z.shape z j (fun B => w (md + j) (A ++ B)))
          = ∑ j ∈ Finset.range D.length, fun A => pair Z.shape z j (fun B => w (md + j) (A ++ B)) := by
        funext A; rw [Finset.sum_apply]
      rw [this, ← pairHom_apply, map_sum]
      apply Finset.sum_congr rfl
      intro j _
      rw [pairHom_apply, pair_split]
  · intro i hi
    simp only [W, if_pos hi]

/-! ### the relation between coefficients and selections -/

/-- `c` is a legal degree-`i` coefficient and `u` an admissible choice at batch index `I` -/
def SRel (U : Mode) (xs R I : List ℕ) (i : ℕ) (c : Coef K) (u : List ℕ → K) : Prop :=
  VCU U xs R i c ∧ ∀ J, ValidIdx (repS i xs) J → c.Mem (I ++ J) (u J)

/-- as `SRel`, or a scalar zero standing for a zero coefficient of any degree -/
def SRel0 (U : Mode) (xs R I : List ℕ) (i : ℕ) (c : Coef K) (u : List ℕ → K) : Prop :=
  SRel U xs R I i c u ∨ (∃ a : ND K, c = .arr a ∧ a.shape = [] ∧ a.get [] = 0) ∧ u = 0

theorem ND.bget_nil {a : ND K} (h : a.shape = []) (L : List ℕ) : a.bget L = a.get [] := by
  rw [ND.bget_def, h, bidx_nil]

theorem ble_ones {T : List ℕ} {n : ℕ} (h : n ≤ T.length) : ble (List.replicate n 1) T := by
  unfold ble
  rw [List.reverse_replicate]
  have : n ≤ T.reverse.length := by simpa using h
  clear h
  generalize T.reverse = T' at *
  induction n generalizing T' with
  | zero => trivial
  | succ n ih =>
    cases T' with
    | nil => simp at this
    | cons t T' => exact ⟨Or.inl rfl, ih T' (by simpa using this)⟩

theorem ND.expandDims_bget {a : ND K} {A C I X J : List ℕ} {n : ℕ} (hs : a.shape = A ++ C)
    (hI : A.length ≤ I.length) (hX : X.length = n) (hJ : J.length = C.length) :
    (a.expandDims n A.length).bget (I ++ X ++ J) = a.bget (I ++ J) := by
  rw [ND.bget_def, ND.bget_def]
  simp only [ND.expandDims]
  rw [hs, List.take_left, List.drop_left, bidx_append hJ.symm, bidx_append (by simp [hX]),
    bidx_append hJ.symm]
  have h1 : (bidx A I).length = A.length := by simp; omega
  have h2 : (bidx (List.replicate n 1) X).length = n := by simp [hX]
  rw [List.append_assoc, List.take_left' h1, ← List.append_assoc,
    List.drop_left' (by rw [List.length_append, h1, h2])]

theorem pairwise_ok {xs : List ℕ} {i j : ℕ} {Bu Bv : List ℕ} {u v s : ND K}
    (hu : u.shape = Bu ++ repS i xs) (hv : v.shape = Bv ++ repS j xs)
    (h : pairwiseBatchedMultiply u v (i * xs.length) (j * xs.length) = .ok s) :
    ∃ Q, bshape Bu Bv = some Q ∧ s.shape = Q ++ repS (i + j) xs ∧
    ∀ I J J', Q.length ≤ I.length → J.length = i * xs.length → J'.length = j * xs.length →
      s.bget (I ++ (J ++ J')) = u.bget (I ++ J) * v.bget (I ++ J') := by
  unfold pairwiseBatchedMultiply at h
  obtain ⟨h1, h2⟩ := ND.map2_ok h
  have un : u.ndim = Bu.length + i * xs.length := by simp [ND.ndim, hu]
  have vn : v.ndim - j * xs.length = Bv.length := by simp [ND.ndim, hv]
  have su : (u.expandDims (j * xs.length) u.ndim).shape =
      Bu ++ (repS i xs ++ List.replicate (j * xs.length) 1) := by
    simp only [ND.expandDims, ND.ndim]
    rw [List.take_length, List.drop_length, hu, List.append_nil, List.append_assoc]
  have sv : (v.expandDims (i * xs.length) (v.ndim - j * xs.length)).shape =
      Bv ++ (List.replicate (i * xs.length) 1 ++ repS j xs) := by
    rw [vn]; simp [ND.expandDims, hv]
  rw [su, sv] at h1
  obtain ⟨Q, S, hQ, hS, e⟩ := bshape_append_inv (by simp) h1
  have hS' : bshape (repS i xs ++ List.replicate (j * xs.length) 1)
      (List.replicate (i * xs.length) 1 ++ repS j xs) = some (repS i xs ++ repS j xs) :=
    bshape_append (by simp) (bshape_eq_of_ble' (ble_ones (by simp)))
      (bshape_eq_of_ble (ble_ones (by simp)))
  rw [hS] at hS'; cases hS'
  refine ⟨Q, hQ, by rw [e, repS_add], ?_⟩
  intro I J J' hI hJ hJ'
  have hb := bshape_le hQ
  have l1 := ble_length hb.1
  have l2 := ble_length hb.2
  rw [h2 _ (by rw [e]; simp [hJ, hJ']; omega)]
  congr 1
  · have := ND.expandDims_bget (a := u) (A := u.shape) (C := []) (I := I ++ J) (X := J') (J := [])
      (n := j * xs.length) (by simp) (by rw [hu]; simp; omega) hJ' rfl
    simpa [ND.ndim, List.append_assoc] using this
  · rw [vn, ← List.append_assoc]
    exact ND.expandDims_bget hv (by omega) hJ (by simp [hJ'])

theorem termProduct_rel {UA UB U : Mode} (hU : Mode.Pr UA UB U) {xs R I : List ℕ}
    (hI : R.length ≤ I.length) {i j : ℕ}
    {x y r : Coef K} {u v : List ℕ → K} (hx : SRel UA xs R I i x u) (hy : SRel UB xs R I j y v)
    (h : elementwiseTermProductCoefficient xs.length x y i j = .ok r) :
    SRel U xs R I (i + j) r (selMul (i * xs.length) u v) := by
  obtain ⟨⟨xw, Bx, hBx, ux⟩, mx⟩ := hx
  obtain ⟨⟨yw, By, hBy, uy⟩, my⟩ := hy
  unfold elementwiseTermProductCoefficient at h
  obtain ⟨Q, hQ, -⟩ := bshape_lub ux.1 uy.1
  have hR : ∀ a b s : ND K, a.shape = x.shape → b.shape = y.shape →
      pairwiseBatchedMultiply a b (i * xs.length) (j * xs.length) = .ok s →
      s.shape = Q ++ repS (i + j) xs := by
    intro a b s ha hb hs
    obtain ⟨Q', hQ', e, -⟩ := pairwise_ok (ha.trans hBx) (hb.trans hBy) hs
    rw [hQ] at hQ'; cases hQ'; exact e
  have hQle := ble_length (ble_lub_of_bshape hQ ux.1 uy.1)
  obtain ⟨rw', rs, -, -⟩ := IA.bilinearTrue_ok xw yw hR h
  refine ⟨⟨rw', Q, rs, ux.bcast uy hU hQ⟩, ?_⟩
  intro J hJ
  rw [repS_add] at hJ
  obtain ⟨J0, J1, rfl, hJ0, hJ1⟩ := validIdx_split hJ
  have l0 : J0.length = i * xs.length := by simpa using hJ0.length.symm
  have l1 : J1.length = j * xs.length := by simpa using hJ1.length.symm
  have := IA.bilinearTrue_mem xw yw hR h (L := I ++ (J0 ++ J1)) (φ := I ++ J0) (ψ := I ++ J1)
    (by simp [l0, l1, Nat.add_mul]; omega) (by
      intro a b s ha hb hs
      obtain ⟨Q', hQ', e, hm⟩ := pairwise_ok (ha.trans hBx) (hb.trans hBy) hs
      rw [hQ] at hQ'; cases hQ'
      exact hm I J0 J1 (by omega) l0 l1) (mx J0 hJ0) (my J1 hJ1)
  unfold selMul
  rwa [List.take_left' l0, List.drop_left' l0]

theorem repS_mul (i p : ℕ) (xs : List ℕ) : repS p (repS i xs) = repS (i * p) xs := by
  induction p with
  | zero => simp
  | succ p ih => rw [repS_succ, ih, Nat.mul_succ, add_comm, repS_add]

theorem termPower_rel {U UP : Mode} (hU0 : UP 0 []) (hU : ∀ {i p B}, p ≠ 0 → U i B → UP (i * p) B)
    {xs R I : List ℕ} (hI : R.length ≤ I.length) {i p : ℕ}
    {x r : Coef K} {u : List ℕ → K} (hx : SRel U xs R I i x u)
    (h : elementwiseTermPowerCoefficient xs.length x i p = .ok r) :
    SRel UP xs R I (i * p) r (selPow (i * xs.length) p u) := by
  obtain ⟨⟨xw, B, hB, ux⟩, mx⟩ := hx
  unfold elementwiseTermPowerCoefficient at h
  have hn : x.ndim - i * xs.length = B.length := by rw [Coef.ndim_def, hB]; simp
  split_ifs at h with h0
  rw [hn] at h
  obtain ⟨r1, r2, r3, -, r5⟩ := IA.outerPower_mem xw hB h
  have hl := ble_length ux.1
  constructor
  · refine ⟨r1, ?_⟩
    by_cases hp : p = 0
    · subst hp; exact ⟨[], by rw [r3 rfl]; simp, ble_nil _, by rw [Nat.mul_zero]; exact hU0⟩
    · exact ⟨B, by rw [r2 hp, repS_mul], ux.1, hU hp ux.2⟩
  · intro J hJ
    rw [← repS_mul] at hJ
    have hc := chunks_valid hJ
    have := r5 I (by omega) u (chunks (repS i xs).length p J) (by simp) fun c hc' =>
      ⟨hc c hc', mx c (hc c hc')⟩
    rw [chunks_flatten (by have := hJ.length; simp only [repS_length] at this ⊢; omega)] at this
    simpa [selPow] using this

theorem smul_rel {U : Mode} {xs R I : List ℕ} (hI : R.length ≤ I.length) {i n : ℕ}
    {x r : Coef K} {u : List ℕ → K} (hx : SRel U xs R I i x u)
    (h : IA.multiply (.arr (ND.scalar (n : K))) x = .ok r) :
    SRel U xs R I i r (n • u) := by
  obtain ⟨⟨xw, B, hB, ux⟩, mx⟩ := hx
  unfold IA.multiply at h
  have hR : ∀ a b s : ND K, a.shape = (Coef.arr (ND.scalar (n : K))).shape → b.shape = x.shape →
      ND.map2 (· * ·) a b = .ok s → s.shape = B ++ repS i xs := by
    intro a b s ha hb hs
    have := (ND.map2_ok hs).1
    rw [ha, hb] at this
    simp only [Coef.shape_arr, ND.shape_scalar, bshape_nil_left, Option.some.injEq] at this
    rw [← this, hB]
  obtain ⟨r1, r2, -, -⟩ := IA.bilinearTrue_ok (Coef.WF_arr _) xw hR h
  refine ⟨⟨r1, B, r2, ux⟩, ?_⟩
  intro J hJ
  have hl := ble_length ux.1
  have hlen : (B ++ repS i xs).length ≤ (I ++ J).length := by
    have := hJ.length; simp at this; simp; omega
  have := IA.bilinearTrue_mem (Coef.WF_arr _) xw hR h (L := I ++ J) (φ := I ++ J) (ψ := I ++ J)
    hlen (by
      intro a b s ha hb hs
      exact (ND.map2_ok hs).2 _ (by rw [hR a b s ha hb hs]; exact hlen))
    (s := (n : K)) (by rw [Coef.mem_arr]; rfl) (mx J hJ)
  simpa [nsmul_eq_mul] using this

theorem add_rel {UA UB U : Mode} {i : ℕ}
    (hU : ∀ {B B' Q}, UA i B → UB i B' → bshape B B' = some Q → U i Q)
    {xs R I : List ℕ} (hI : R.length ≤ I.length)
    {x y r : Coef K} {u v : List ℕ → K} (hx : SRel UA xs R I i x u) (hy : SRel UB xs R I i y v)
    (h : IA.add x y = .ok r) : SRel U xs R I i r (u + v) := by
  obtain ⟨⟨xw, B, hB, ux⟩, mx⟩ := hx
  obtain ⟨⟨yw, B', hB', uy⟩, my⟩ := hy
  obtain ⟨r1, r2, -, r4⟩ := IA.add_ok xw yw h
  rw [hB, hB'] at r2
  obtain ⟨Q, S, hQ, hS, e⟩ := bshape_append_inv rfl r2
  rw [bshape_self] at hS; cases hS
  have hl := ble_length (ble_lub_of_bshape hQ ux.1 uy.1)
  refine ⟨⟨r1, Q, e, ux.bcast uy hU hQ⟩, ?_⟩
  intro J hJ
  have := r4 (I ++ J) (by rw [e]; have := hJ.length; simp at this; simp; omega)
  unfold Coef.Mem
  rw [this.1, this.2]
  exact ⟨add_le_add (mx J hJ).1 (my J hJ).1, add_le_add (mx J hJ).2 (my J hJ).2⟩

theorem add0_rel {U : Mode} (hU : U.Cl) {xs R I : List ℕ} (hI : R.length ≤ I.length) {i : ℕ}
    {x y r : Coef K} {u v : List ℕ → K} (hx : SRel0 U xs R I i x u) (hy : SRel U xs R I i y v)
    (h : IA.add x y = .ok r) : SRel U xs R I i r (u + v) := by
  rcases hx with hx | ⟨⟨a, rfl, ha, ha0⟩, rfl⟩
  · exact add_rel (hU le_rfl) hI hx hy h
  · obtain ⟨⟨yw, B', hB', uy⟩, my⟩ := hy
    obtain ⟨r1, r2, -, r4⟩ := IA.add_ok (Coef.WF_arr _) yw h
    rw [Coef.shape_arr, ha, bshape_nil_left] at r2
    have r2' : y.shape = r.shape := by simpa using r2
    refine ⟨⟨r1, B', by rw [← r2', hB'], uy⟩, ?_⟩
    intro J hJ
    have hl := ble_length uy.1
    have := r4 (I ++ J) (by rw [← r2', hB']; have := hJ.length; simp at this; simp; omega)
    unfold Coef.Mem
    rw [this.1, this.2]
    simp only [Coef.lo, Coef.hi]
    rw [ND.bget_nil ha, ha0, zero_add, zero_add, zero_add]
    exact my J hJ

theorem add0'_rel {U : Mode} (hU : U.Cl) {xs R I : List ℕ} (hI : R.length ≤ I.length) {i : ℕ}
    {x y r : Coef K} {u v : List ℕ → K} (hx : SRel U xs R I i x u) (hy : SRel0 U xs R I i y v)
    (h : IA.add x y = .ok r) : SRel U xs R I i r (u + v) := by
  rcases hy with hy | ⟨⟨a, rfl, ha, ha0⟩, rfl⟩
  · exact add_rel (hU le_rfl) hI hx hy h
  · obtain ⟨⟨yw, B', hB', uy⟩, my⟩ := hx
    obtain ⟨r1, r2, -, r4⟩ := IA.add_ok yw (Coef.WF_arr _) h
    rw [Coef.shape_arr, ha, bshape_nil_right] at r2
    have r2' : x.shape = r.shape := by simpa using r2
    refine ⟨⟨r1, B', by rw [← r2', hB'], uy⟩, ?_⟩
    intro J hJ
    have hl := ble_length uy.1
    have := r4 (I ++ J) (by rw [← r2', hB']; have := hJ.length; simp at this; simp; omega)
    unfold Coef.Mem
    rw [this.1, this.2]
    simp only [Coef.lo, Coef.hi]
    rw [ND.bget_nil ha, ha0, add_zero, add_zero, add_zero]
    exact my J hJ

theorem sel_laws {UA UB U : Mode} (hU : U.Cl) (hP : Mode.Pr UA UB U) (xs R I : List ℕ)
    (z : List ℕ → K) (hI : R.length ≤ I.length) :
    Poly.Laws (selG xs z) (SRel0 U xs R I) (SRel UA xs R I) (SRel UB xs R I) (SRel U xs R I) IA.add
      (.arr (ND.scalar 0)) (elementwiseTermProductCoefficient xs.length) where
  hzero _ := Or.inr ⟨⟨_, rfl, rfl, rfl⟩, rfl⟩
  hsub := Or.inl
  hadd := add0_rel hU hI
  htpc := termProduct_rel hP hI

theorem sel_powLaws {UI UP U : Mode} (hU0 : UP 0 []) (hU : ∀ {i p B}, p ≠ 0 → UI i B → UP (i * p) B)
    (xs R I : List ℕ) (z : List ℕ → K) (hI : R.length ≤ I.length)
    {one : ND K} (h1 : Uni U R 0 one.shape) (h2 : ∀ L, one.bget L = 1) :
    Poly.PowLaws (selG xs z) (SRel UI xs R I) (SRel UP xs R I) (SRel U xs R I) (.arr one)
      (elementwiseTermPowerCoefficient xs.length)
      (fun n c => IA.multiply (.arr (ND.scalar (n : K))) c) where
  hone := ⟨⟨Coef.WF_arr _, one.shape, by simp, h1⟩, fun J _ => by
    rw [Coef.mem_arr, h2]; rfl⟩
  htpow := termPower_rel hU0 hU hI
  hsmul := smul_rel hI

/-- a mode in which powers can be computed -/
structure Mode.Pw (U UP : Mode) : Prop where
  cl : U.Cl
  nil : UP 0 []
  pow : ∀ {i p B}, p ≠ 0 → U i B → UP (i * p) B
  pr : Mode.Pr U UP U

theorem anyM_pw : Mode.Pw anyM anyM := ⟨anyM_cl, trivial, fun _ _ => trivial, anyM_pr⟩
theorem rankM_pw (n : ℕ) : Mode.Pw (rankM n) (rankM n) :=
  ⟨rankM_cl n, Or.inr ⟨rfl, rfl⟩, fun _ h => h.imp id (fun ⟨h, h'⟩ => ⟨by rw [h]; simp, h'⟩), rankM_pr n⟩
theorem exactWM_pw (R : List ℕ) : Mode.Pw (exactWM R) (exactWM R) :=
  ⟨exactWM_cl R, Or.inr ⟨rfl, rfl⟩, fun _ h => h.imp id (fun ⟨h, h'⟩ => ⟨by rw [h]; simp, h'⟩), exactWM_pr R⟩
theorem exactM_pw (R : List ℕ) : Mode.Pw (exactM R) (exactWM R) :=
  ⟨exactM_cl R, Or.inr ⟨rfl, rfl⟩, fun _ h => Or.inl h, exactM_prW R⟩

end
end AB
