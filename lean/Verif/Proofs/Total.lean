/-
The operations return (raise nothing) on legal arguments.
-/
import Verif.Props.Encl2
import Verif.Proofs.EncCompose
import Verif.Proofs.EncBilinear
import Verif.Props.Poly
import Mathlib.Algebra.Ring.PUnit

set_option linter.unusedSectionVars false

namespace AB
namespace Poly
variable {F : Type}

/-- the callables return on legal arguments, with legal results -/
structure TLaws (Q0 QA QB Q : ℕ → F → Prop) (add : F → F → Py F) (zero : F)
    (tpc : F → F → ℕ → ℕ → Py F) : Prop where
  hzero : ∀ i, Q0 i zero
  hsub : ∀ {i x}, Q i x → Q0 i x
  hadd : ∀ {i x y}, Q0 i x → Q i y → ∃ r, add x y = .ok r ∧ Q i r
  htpc : ∀ {i j x y}, QA i x → QB j y → ∃ r, tpc x y i j = .ok r ∧ Q (i + j) r

/-- the same, for `integer_power` up to degree `N` -/
structure PowTLaws (N : ℕ) (QI QP Q : ℕ → F → Prop) (one : F) (tpow : F → ℕ → ℕ → Py F)
    (smul : ℕ → F → Py F) : Prop where
  hone : Q 0 one
  htpow : ∀ {i p x}, QI i x → i * p ≤ N → ∃ r, tpow x i p = .ok r
  hpres : ∀ {i p x r}, QI i x → tpow x i p = .ok r → QP (i * p) r
  hsmul : ∀ {i n x}, Q i x → ∃ r, smul n x = .ok r ∧ Q i r

/-- nothing -/
def trivG : Graded PUnit PUnit.{1} where
  val _ := 0
  mul _ _ _ _ := 0
  one := 0
  pow _ _ _ := 0
  val_mul _ _ _ _ := rfl
  val_one := rfl
  val_pow _ _ _ := rfl
  zero_mul _ _ _ := rfl
  mul_zero _ _ _ := rfl
  zero_pow _ _ _ := rfl

variable {Q0 QA QB QI QP Q : ℕ → F → Prop} {add : F → F → Py F} {zero one : F}
  {tpc : F → F → ℕ → ℕ → Py F} {tpow : F → ℕ → ℕ → Py F} {smul : ℕ → F → Py F}

theorem TLaws.laws (h : TLaws Q0 QA QB Q add zero tpc) :
    Laws trivG (fun i x _ => Q0 i x) (fun i x _ => QA i x) (fun i x _ => QB i x) (fun i x _ => Q i x)
      add zero tpc where
  hzero := h.hzero
  hsub := h.hsub
  hadd := by
    intro i x y r u v h0 h1 e
    obtain ⟨r', e', q⟩ := h.hadd h0 h1
    rw [e] at e'; cases e'; exact q
  htpc := by
    intro i j x y r u v h0 h1 e
    obtain ⟨r', e', q⟩ := h.htpc h0 h1
    rw [e] at e'; cases e'; exact q

theorem PowTLaws.laws {N : ℕ} (h : PowTLaws N QI QP Q one tpow smul) :
    PowLaws trivG (fun i x _ => QI i x) (fun i x _ => QP i x) (fun i x _ => Q i x) one tpow smul where
  hone := h.hone
  htpow := fun h1 h2 => h.hpres h1 h2
  hsmul := by
    intro i n x r u h1 e
    obtain ⟨r', e', q⟩ := h.hsmul h1
    rw [e] at e'; cases e'; exact q

theorem bilinearFold_total (hL : TLaws Q0 QA QB Q add zero tpc) (l : List ((ℕ × F) × (ℕ × F)))
    (o : List F) (ho : ∀ i c, o[i]? = some c → Q0 i c)
    (hl : ∀ t ∈ l, QA t.1.1 t.1.2 ∧ QB t.2.1 t.2.2 ∧ t.1.1 + t.2.1 < o.length) :
    ∃ out, l.foldlM (bilinearStep add tpc) o = .ok out := by
  induction l generalizing o with
  | nil => exact ⟨o, rfl⟩
  | cons t l ih =>
    obtain ⟨ha, hb, ht⟩ := hl t (by simp)
    obtain ⟨c, hc, qc⟩ := hL.htpc ha hb
    obtain ⟨r, hr, qr⟩ := hL.hadd (ho _ _ (List.getElem?_eq_getElem ht)) qc
    have hs : bilinearStep add tpc o t = .ok (o.set (t.1.1 + t.2.1) r) := by
      unfold bilinearStep
      rw [hc, py_ok_bind, List.getElem?_eq_getElem ht]
      simp only [hr, py_ok_bind]
      rfl
    obtain ⟨out, ho'⟩ := ih (o.set (t.1.1 + t.2.1) r)
      (by
        intro i c hc
        rw [List.getElem?_set] at hc
        split_ifs at hc with h1
        · cases hc; subst h1; exact hL.hsub qr
        · exact ho i c hc)
      (by intro t' ht'; rw [List.length_set]; exact hl t' (by simp [ht']))
    exact ⟨out, by rw [List.foldlM_cons, hs, py_ok_bind]; exact ho'⟩

/-- `polynomials.arbitrary_bilinear` returns legal coefficients -/
theorem arbitraryBilinear_total (hL : TLaws Q0 QA QB Q add zero tpc) {a b : List F} (ha : a ≠ [])
    (hb : b ≠ []) (qa : ∀ i c, a[i]? = some c → QA i c) (qb : ∀ i c, b[i]? = some c → QB i c) :
    ∃ out, arbitraryBilinear a b add zero tpc = .ok out ∧ out.length = a.length + b.length - 1 ∧
      ∀ i c, out[i]? = some c → Q i c := by
  have hal : a.length ≠ 0 := fun h => ha (List.length_eq_zero_iff.1 h)
  have hbl : b.length ≠ 0 := fun h => hb (List.length_eq_zero_iff.1 h)
  obtain ⟨out, h⟩ : ∃ out, arbitraryBilinear a b add zero tpc = .ok out := by
    refine bilinearFold_total hL _ _ ?_ ?_
    · intro i c hc
      rw [List.getElem?_replicate] at hc
      split_ifs at hc
      cases hc; exact hL.hzero i
    · intro t ht
      simp only [List.mem_flatMap, List.mem_map] at ht
      obtain ⟨⟨i, x⟩, hx, ⟨j, y⟩, hy, rfl⟩ := ht
      have h1 := mem_enum.1 hx
      have h2 := mem_enum.1 hy
      refine ⟨qa _ _ h1, qb _ _ h2, ?_⟩
      have h1 := (List.getElem?_eq_some_iff.1 h1).1
      have h2 := (List.getElem?_eq_some_iff.1 h2).1
      simp only [List.length_replicate]
      omega
  obtain ⟨l, u, hu, -⟩ := arbitraryBilinear_rel hL.laws ha hb (w := fun _ => 0) (w' := fun _ => 0) qa qb h
  exact ⟨out, h, l, hu⟩

theorem partition_total {N : ℕ} (hL : TLaws Q0 Q QP Q add zero tpc) (hP : PowTLaws N QI QP Q one tpow smul)
    (l : List ((ℕ × F) × ℕ)) (st : F × ℕ) (hst : Q st.2 st.1) (hl : ∀ t ∈ l, QI t.1.1 t.1.2)
    (hN : (l.map fun t => t.1.1 * t.2).sum ≤ N) :
    ∃ st', l.foldlM (productStep tpc tpow) st = .ok st' ∧ Q st'.2 st'.1 ∧
      st'.2 = st.2 + (l.map fun t => t.1.1 * t.2).sum := by
  induction l generalizing st with
  | nil => exact ⟨st, rfl, hst, by simp⟩
  | cons t l ih =>
    simp only [List.map_cons, List.sum_cons] at hN ⊢
    obtain ⟨c, hc⟩ := hP.htpow (p := t.2) (hl t (by simp)) (by omega)
    have qc := hP.hpres (hl t (by simp)) hc
    obtain ⟨r, hr, qr⟩ := hL.htpc hst qc
    obtain ⟨st', h1, h2, h3⟩ := ih (r, st.2 + t.1.1 * t.2) qr (fun t ht => hl t (by simp [ht])) (by omega)
    refine ⟨st', ?_, h2, by rw [h3]; ring⟩
    rw [List.foldlM_cons]
    simp only [productStep, hc, hr, py_ok_bind]
    exact h1

theorem coeff_total {N : ℕ} (hL : TLaws Q0 Q QP Q add zero tpc) (hP : PowTLaws N QI QP Q one tpow smul)
    {a : List F} (qa : ∀ i c, a[i]? = some c → QI i c) {i m : ℕ} (hi : i ≤ N) (ps : List (List ℕ))
    (hps : ∀ p ∈ ps, p.length = a.length ∧ p.sum = m ∧ wsum p = i) (ha : a ≠ []) (c : F) (hc : Q0 i c) :
    ∃ r, ps.foldlM (coeffStep add one tpc tpow smul a i m) c = .ok r := by
  induction ps generalizing c with
  | nil => exact ⟨c, rfl⟩
  | cons p ps ih =>
    obtain ⟨h1, h2, h3⟩ := hps p (by simp)
    have hw : (((enum a).zip p).map fun t => t.1.1 * t.2).sum = i := by
      rw [← h3]
      unfold wsum
      rw [← enum_zip_map a p h1, List.map_map]
      rfl
    obtain ⟨st, hst, q, e⟩ := partition_total hL hP ((enum a).zip p) (one, 0) hP.hone
      (fun t ht => qa _ _ (mem_enum.1 (List.of_mem_zip ht).1)) (by rw [hw]; exact hi)
    have e' : st.2 = i := by rw [e, hw, zero_add]
    have hp : p ≠ [] := by
      rintro rfl
      exact ha (List.length_eq_zero_iff.1 h1.symm)
    rw [e'] at q
    obtain ⟨t, ht, qt⟩ := hP.hsmul (n := mcoef p) q
    obtain ⟨r, hr, qr⟩ := hL.hadd hc qt
    have hs : coeffStep add one tpc tpow smul a i m c p = .ok r := by
      unfold coeffStep partitionProduct
      have h3' : (((List.range p.length).zip p).map fun t => t.1 * t.2).sum = i := h3
      rw [if_neg (by rw [h2]; simp), if_neg (by rw [h3']; simp), hst, py_ok_bind,
        if_neg (by rw [e']; simp), multinomial_eq hp]
      simp only [py_ok_bind, ht]
      exact hr
    obtain ⟨r', hr'⟩ := ih (fun p hp => hps p (by simp [hp])) r (hL.hsub qr)
    exact ⟨r', by rw [List.foldlM_cons, hs, py_ok_bind]; exact hr'⟩

/-- `integer_power` returns legal coefficients -/
theorem integerPower_total {a : List F} {m : ℕ} (hL : TLaws Q0 Q QP Q add zero tpc)
    (hP : PowTLaws ((a.length - 1) * m) QI QP Q one tpow smul) (ha : a ≠ [])
    (qa : ∀ i c, a[i]? = some c → QI i c) :
    ∃ out, integerPower add one tpc tpow smul zero a (m : ℤ) = .ok out ∧
      out.length = 1 + (a.length - 1) * m ∧ ∀ i c, out[i]? = some c → Q i c := by
  suffices h : ∃ out, integerPower add one tpc tpow smul zero a (m : ℤ) = .ok out by
    obtain ⟨out, h⟩ := h
    obtain ⟨l, u, hu, -⟩ := integerPower_rel hL.laws hP.laws ha (w := fun _ => 0) qa h
    exact ⟨out, h, l, hu⟩
  have hl : 0 < a.length := List.length_pos_iff.2 ha
  unfold integerPower
  rw [if_neg (by omega)]
  by_cases hk : (m : ℤ) = 0
  · rw [if_pos hk]; exact ⟨_, rfl⟩
  · rw [if_neg hk]
    apply mapM_total
    intro i hi
    rw [List.mem_range, powRange (by omega) (by omega), Int.toNat_natCast] at hi
    unfold getCoeff iterPartitions
    rw [if_neg (by omega), if_neg (by omega), if_neg (by omega), py_ok_bind]
    simp only [Int.toNat_natCast]
    refine coeff_total hL hP qa (by omega) _ ?_ ha _ (hL.hzero i)
    intro p hp
    exact (mem_iterPartitionsNat (by omega) _ _ _).1 hp

end Poly

variable {K : Type} [Field K] [LinearOrder K] [IsStrictOrderedRing K]
open IA (repS repS_succ repS_succ' repS_zero repS_length repS_add repS_one)

/-! ### coefficients -/

/-- a legal coefficient, or a number -/
def VCU0 (U : Mode) (xs R : List ℕ) (i : ℕ) (c : Coef K) : Prop :=
  VCU U xs R i c ∨ ∃ a, c = .arr a ∧ a.shape = []

theorem VCU.shape_le {U : Mode} {xs R : List ℕ} {i : ℕ} {c : Coef K} (h : VCU U xs R i c) :
    ble c.shape (R ++ repS i xs) := by
  obtain ⟨-, B, hB, lB⟩ := h
  rw [hB]; exact ble_append lB.1 (ble_refl _) rfl

theorem VCU0.wf {U : Mode} {xs R : List ℕ} {i : ℕ} {c : Coef K} (h : VCU0 U xs R i c) : c.WF := by
  rcases h with h | ⟨a, rfl, -⟩
  · exact h.1
  · trivial

theorem VCU0.shape_le {U : Mode} {xs R : List ℕ} {i : ℕ} {c : Coef K} (h : VCU0 U xs R i c) :
    ble c.shape (R ++ repS i xs) := by
  rcases h with h | ⟨a, rfl, ha⟩
  · exact h.shape_le
  · rw [Coef.shape_arr, ha]; exact ble_nil _

theorem vcu0_add {U : Mode} (hU : U.Cl) {xs R : List ℕ} {i : ℕ} {x y r : Coef K} (hx : VCU0 U xs R i x)
    (hy : VCU0 U xs R i y) (h : IA.add x y = .ok r) :
    VCU0 U xs R i r ∧ (VCU U xs R i x ∨ VCU U xs R i y → VCU U xs R i r) := by
  rcases hx with hx | ⟨a, rfl, ha⟩
  · have : VCU U xs R i r := by
      rcases hy with hy | ⟨b, rfl, hb⟩
      · obtain ⟨wx, B, hB, lB⟩ := hx
        obtain ⟨wy, B', hB', lB'⟩ := hy
        obtain ⟨r1, r2, -, -⟩ := IA.add_ok wx wy h
        rw [hB, hB'] at r2
        obtain ⟨Q, S, q1, q2, q3⟩ := bshape_append_inv rfl r2
        rw [bshape_self] at q2
        cases q2
        exact ⟨r1, Q, q3, lB.bcast lB' (hU le_rfl) q1⟩
      · obtain ⟨wx, B, hB, lB⟩ := hx
        obtain ⟨r1, r2, -, -⟩ := IA.add_ok wx (Coef.WF_arr _) h
        rw [Coef.shape_arr, hb, bshape_nil_right] at r2
        exact ⟨r1, B, by rw [← hB]; exact (Option.some.inj r2).symm, lB⟩
    exact ⟨Or.inl this, fun _ => this⟩
  · rcases hy with hy | ⟨b, rfl, hb⟩
    · have : VCU U xs R i r := by
        obtain ⟨wx, B, hB, lB⟩ := hy
        obtain ⟨r1, r2, -, -⟩ := IA.add_ok (Coef.WF_arr _) wx h
        rw [Coef.shape_arr, ha, bshape_nil_left] at r2
        exact ⟨r1, B, by rw [← hB]; exact (Option.some.inj r2).symm, lB⟩
      exact ⟨Or.inl this, fun _ => this⟩
    · obtain ⟨r1, r2, r3, -⟩ := IA.add_ok (Coef.WF_arr a) (Coef.WF_arr b) h
      rw [Coef.shape_arr, Coef.shape_arr, ha, hb, bshape_nil_left] at r2
      have r2 := (Option.some.inj r2).symm
      refine ⟨Or.inr ?_, ?_⟩
      · cases r with
        | arr c => exact ⟨c, rfl, r2⟩
        | ivl c d => simp [Coef.isArr] at r3
      · intro hv
        have hr : ∀ c : ND K, c.shape = [] → VCU U xs R i (.arr c) → VCU U xs R i r := by
          intro c hc hv
          obtain ⟨-, B, hB, lB⟩ := hv
          exact ⟨r1, B, by rw [r2, ← hc]; exact hB, lB⟩
        rcases hv with hv | hv
        · exact hr a ha hv
        · exact hr b hb hv

theorem pairwise_total {xs : List ℕ} {i j : ℕ} {Bu Bv Q : List ℕ} {u v : ND K}
    (hu : u.shape = Bu ++ repS i xs) (hv : v.shape = Bv ++ repS j xs) (hQ : bshape Bu Bv = some Q) :
    ∃ s, pairwiseBatchedMultiply u v (i * xs.length) (j * xs.length) = .ok s ∧
      s.shape = Q ++ repS (i + j) xs := by
  have vn : v.ndim - j * xs.length = Bv.length := by simp [ND.ndim, hv]
  have su : (u.expandDims (j * xs.length) u.ndim).shape =
      Bu ++ (repS i xs ++ List.replicate (j * xs.length) 1) := by
    simp only [ND.expandDims, ND.ndim]
    rw [List.take_length, List.drop_length, hu, List.append_nil, List.append_assoc]
  have sv : (v.expandDims (i * xs.length) (v.ndim - j * xs.length)).shape =
      Bv ++ (List.replicate (i * xs.length) 1 ++ repS j xs) := by
    rw [vn]; simp [ND.expandDims, hv]
  have hS' : bshape (repS i xs ++ List.replicate (j * xs.length) 1)
      (List.replicate (i * xs.length) 1 ++ repS j xs) = some (repS i xs ++ repS j xs) :=
    bshape_append (by simp) (bshape_eq_of_ble' (ble_ones (by simp)))
      (bshape_eq_of_ble (ble_ones (by simp)))
  have hall := bshape_append (by simp) hQ hS'
  unfold pairwiseBatchedMultiply ND.map2
  rw [su, sv, hall]
  exact ⟨_, rfl, by rw [repS_add]⟩

theorem termProduct_total {UA UB U : Mode} (hU : Mode.Pr UA UB U) {xs R : List ℕ} {i j : ℕ} {x y : Coef K}
    (hx : VCU UA xs R i x) (hy : VCU UB xs R j y) :
    ∃ r, elementwiseTermProductCoefficient xs.length x y i j = .ok r ∧ VCU U xs R (i + j) r := by
  obtain ⟨xw, Bx, hBx, lx⟩ := hx
  obtain ⟨yw, By, hBy, ly⟩ := hy
  obtain ⟨Q, hQ, -⟩ := bshape_lub lx.1 ly.1
  obtain ⟨r, hr⟩ := IA.bilinear_total (op := fun u v => pairwiseBatchedMultiply u v (i * xs.length) (j * xs.length))
    (R := Q ++ repS (i + j) xs) true xw yw fun a b ha hb => pairwise_total (ha.trans hBx) (hb.trans hBy) hQ
  obtain ⟨r1, r2, -⟩ := IA.bilinearTrue_ok (R := Q ++ repS (i + j) xs) xw yw (by
    intro a b s ha hb hs
    obtain ⟨s', hs', e⟩ := pairwise_total (ha.trans hBx) (hb.trans hBy) hQ
    rw [hs] at hs'; cases hs'; exact e) hr
  exact ⟨r, hr, r1, Q, r2, lx.bcast ly hU hQ⟩

/-- the loop of `outer_power` with batch dimensions returns if the axes can be labelled -/
theorem running_total_batch {a : Coef K} {B C : List ℕ} (ha : a.WF) (hs : a.shape = B ++ C) (m : ℕ)
    (hm : B = [] ∨ B.length + (m + 1) * C.length ≤ 26) :
    ∃ r, IA.runningOuterProduct a B.length m = .ok r := by
  by_cases hB : B = []
  · subst hB; exact running_total ha m
  have hm := hm.resolve_left hB
  have hB0 : B.length ≠ 0 := fun h => hB (List.length_eq_zero_iff.1 h)
  induction m with
  | zero => exact ⟨a, rfl⟩
  | succ m ih =>
    obtain ⟨r, hr⟩ := ih (Or.inr (by nlinarith)) (by nlinarith)
    obtain ⟨rw', rs, -⟩ := IA.running_ok ha hs hr
    have n1 : ¬ (B.length > r.ndim ∨ B.length > a.ndim) := by
      rw [Coef.ndim_def, Coef.ndim_def, rs, hs]; simp
    simp only [IA.runningOuterProduct, hr, py_ok_bind, IA.outerProduct, if_neg n1]
    refine IA.bilinear_total (R := B ++ repS (m + 1) C ++ C) _ rw' ha ?_
    intro x y hx hy
    rw [rs] at hx
    rw [hs] at hy
    simp only [IA.ndarrayOuterProduct, if_neg hB0, ND.einsumOuter]
    rw [if_neg (by
      simp only [ND.ndim, hx, hy, List.length_append, repS_length]
      have : (m + 1 + 1) * C.length = (m + 1) * C.length + C.length := by ring
      omega)]
    rw [hx, hy, List.append_assoc, List.take_left, List.take_left, bshape_self]
    exact ⟨_, rfl, by simp⟩

theorem termPower_total {xs R : List ℕ} {i p N : ℕ} {x : Coef K} (hx : VC xs R i x) (hp : i * p ≤ N)
    (hN : R = [] ∨ R.length + N * xs.length ≤ 26) :
    ∃ r, elementwiseTermPowerCoefficient xs.length x i p = .ok r := by
  obtain ⟨xw, B, hB, lB⟩ := hx
  unfold elementwiseTermPowerCoefficient
  have hn : x.ndim - i * xs.length = B.length := by rw [Coef.ndim_def, hB]; simp
  rw [if_neg (by rw [Coef.ndim_def, hB]; simp), hn]
  by_cases hB0 : B = []
  · subst hB0; exact outerPower_total xw p
  unfold IA.outerPower
  rw [if_neg (by omega : ¬ ((p : ℤ) < 0))]
  by_cases hp0 : p = 0
  · subst hp0; exact ⟨_, if_pos rfl⟩
  rw [if_neg (by omega : ¬ ((p : ℤ) = 0))]
  have hR : R ≠ [] := by
    rintro rfl
    have := ble_length lB
    exact hB0 (List.length_eq_zero_iff.1 (by simpa using this))
  have hN := hN.resolve_left hR
  have hB1 : B.length ≠ 0 := fun h => hB0 (List.length_eq_zero_iff.1 h)
  rw [if_neg (by rw [Coef.ndim_def, hB]; simp [hB0])]
  have hl := ble_length lB
  obtain ⟨r, hr⟩ := running_total_batch xw hB ((p : ℤ).toNat - 1) (Or.inr (by
    rw [show (p : ℤ).toNat - 1 + 1 = p by omega, repS_length]
    have : p * (i * xs.length) = i * p * xs.length := by ring
    rw [this]
    have : i * p * xs.length ≤ N * xs.length := Nat.mul_le_mul_right _ hp
    omega))
  rw [hr]
  exact ⟨r, by rw [py_ok_bind, if_pos hB1]; rfl⟩

theorem termPower_pres {U UP : Mode} (hU0 : UP 0 []) (hU : ∀ {i p B}, p ≠ 0 → U i B → UP (i * p) B)
    {xs R : List ℕ} {i p : ℕ} {x r : Coef K} (hx : VCU U xs R i x)
    (h : elementwiseTermPowerCoefficient xs.length x i p = .ok r) : VCU UP xs R (i * p) r := by
  obtain ⟨xw, B, hB, lB⟩ := hx
  unfold elementwiseTermPowerCoefficient at h
  have hn : x.ndim - i * xs.length = B.length := by rw [Coef.ndim_def, hB]; simp
  split_ifs at h with h0
  rw [hn] at h
  obtain ⟨r1, r2, r3, -, -⟩ := IA.outerPower_mem xw hB h
  refine ⟨r1, ?_⟩
  by_cases hp : p = 0
  · subst hp; exact ⟨[], by rw [r3 rfl]; simp, ble_nil _, by rw [Nat.mul_zero]; exact hU0⟩
  · exact ⟨B, by rw [r2 hp, repS_mul], lB.1, hU hp lB.2⟩

theorem smul_total {U : Mode} {xs R : List ℕ} {i n : ℕ} {x : Coef K} (hx : VCU U xs R i x) :
    ∃ r, IA.multiply (.arr (ND.scalar (n : K))) x = .ok r ∧ VCU U xs R i r := by
  obtain ⟨xw, B, hB, lB⟩ := hx
  have e : bshape (Coef.arr (ND.scalar (n : K))).shape x.shape = some x.shape := by
    rw [Coef.shape_arr, ND.shape_scalar, bshape_nil_left]
  obtain ⟨r, hr⟩ := IA.multiply_total (Coef.WF_arr _) xw e
  obtain ⟨r1, r2, -⟩ := IA.multiply_ok (Coef.WF_arr _) xw hr
  rw [e] at r2
  exact ⟨r, hr, r1, B, by rw [← hB]; exact (Option.some.inj r2).symm, lB⟩

theorem vcu_tlaws {UA UB U : Mode} (hU : U.Cl) (hP : Mode.Pr UA UB U) (xs R : List ℕ) :
    Poly.TLaws (VCU0 U xs R) (VCU UA xs R) (VCU UB xs R) (VCU U xs R) IA.add
      (.arr (ND.scalar (0 : K))) (elementwiseTermProductCoefficient xs.length) where
  hzero _ := Or.inr ⟨_, rfl, rfl⟩
  hsub := Or.inl
  hadd := by
    intro i x y hx hy
    obtain ⟨r, hr⟩ := IA.add_lub hx.wf hy.1 hx.shape_le hy.shape_le
    exact ⟨r, hr, (vcu0_add hU hx (Or.inl hy) hr).2 (Or.inr hy)⟩
  htpc := termProduct_total hP

theorem vcu_powTLaws {U UP : Mode} (hW : Mode.Pw U UP) (xs R : List ℕ) {N : ℕ}
    (hN : R = [] ∨ R.length + N * xs.length ≤ 26) {one : ND K}
    (h1 : Uni U R 0 one.shape) : Poly.PowTLaws N (VCU U xs R) (VCU UP xs R) (VCU U xs R) (.arr one)
      (elementwiseTermPowerCoefficient xs.length)
      (fun n c => IA.multiply (.arr (ND.scalar (n : K))) c) where
  hone := ⟨Coef.WF_arr _, one.shape, by simp, h1⟩
  htpow := fun hx hp => termPower_total hx.vc hp hN
  hpres := termPower_pres hW.nil hW.pow
  hsmul := smul_total

/-! ### enclosures -/
namespace TEA
variable {T : TEA K} (hT : T.trLo.shape = T.trHi.shape) {z : List ℕ → K} (hz : ZMem T.trustRegion z)
  {R : List ℕ}

theorem validate_total {a : Encl K} (ha : VE T.xShape R a) : T.validate a = .ok () := by
  unfold validate
  rw [if_pos]
  rw [List.all_eq_true]
  rintro ⟨i, c⟩ hic
  obtain ⟨-, B, hB, -⟩ := ha i c (Poly.mem_enum.1 hic)
  unfold coeffShapeOk
  rw [beq_iff_eq]
  show c.shape.drop (c.ndim - i * T.xShape.length) = rep i T.xShape
  rw [Coef.ndim_def, hB]
  have : (B ++ repS i T.xShape).length - i * T.xShape.length = B.length := by simp
  rw [this, List.drop_left]
  rfl

include hT hz

theorem truncate_total {U : Mode} (hU : U.Cl) {a : Encl K} (ha : VEU U T.xShape R a) :
    ∃ c, T.truncateIfNecessary a = .ok c ∧ VEU U T.xShape R c ∧ c.length = min a.length (T.maxDegree + 1) := by
  obtain ⟨c, hc⟩ := enclose_total (trWF T hT) hz ha.ve T.maxDegree
  obtain ⟨h1, h2, -⟩ := trunc_sel (trWF T hT) hz hU ha hc
  exact ⟨c, hc, h1, h2⟩

/-- `multiply` returns -/
theorem multiply_total {UA UB U : Mode} (hU : U.Cl) (hP : Mode.Pr UA UB U) {a b : Encl K} (ha : a ≠ [])
    (hb : b ≠ []) (va : VEU UA T.xShape R a) (vb : VEU UB T.xShape R b) :
    ∃ c, T.multiply a b = .ok c ∧ VEU U T.xShape R c ∧ c.length = min (a.length + b.length - 1) (T.maxDegree + 1) := by
  obtain ⟨p, hp, lp, vp⟩ := Poly.arbitraryBilinear_total (vcu_tlaws hU hP T.xShape R) ha hb va vb
  obtain ⟨c, hc, vc, lc⟩ := truncate_total hT hz hU (a := p) vp
  refine ⟨c, ?_, vc, by rw [lc, lp]⟩
  simp only [multiply, validate_total va.ve, validate_total vb.ve, py_ok_bind]
  rw [show T.xNdim = T.xShape.length from rfl, hp, py_ok_bind]
  exact hc

/-- `power` with a nonnegative integer exponent returns, if the axes of the result can be labelled -/
theorem power_total {U UP : Mode} (hW : Mode.Pw U UP) {a : Encl K} (ha : a ≠ []) (va : VEU U T.xShape R a) {p : ℕ}
    (hN : R = [] ∨ R.length + (a.length - 1) * p * T.xShape.length ≤ 26) :
    ∃ c, T.powerNat a p = .ok c ∧ VEU U T.xShape R c ∧ c.length = min (1 + (a.length - 1) * p) (T.maxDegree + 1) := by
  cases a with
  | nil => exact absurd rfl ha
  | cons a0 as =>
    have hone : Uni U R 0 (IA.firstEndpoint a0).onesLike.shape := by
      obtain ⟨-, B, hB, lB⟩ := va 0 a0 (by simp)
      have h1 : (IA.firstEndpoint a0).shape = a0.shape := by cases a0 <;> rfl
      have : (IA.firstEndpoint a0).onesLike.shape = B := by simpa [h1] using hB
      rw [this]; exact lB
    obtain ⟨r, hr, lr, vr⟩ := Poly.integerPower_total (vcu_tlaws hW.cl hW.pr T.xShape R)
      (vcu_powTLaws hW T.xShape R hN hone) ha va
    obtain ⟨c, hc, vc, lc⟩ := truncate_total hT hz hW.cl (a := r) vr
    refine ⟨c, ?_, vc, by rw [lc, lr]⟩
    simp only [powerNat, validate_total va.ve, py_ok_bind]
    rw [show T.xNdim = T.xShape.length from rfl, hr, py_ok_bind]
    exact hc

end TEA

theorem leftMul_total_nd {xs R B Q : List ℕ} {i : ℕ} {x y : ND K}
    (hx' : x.shape.length = R.length ∨ x.shape = []) (hBl : B.length = R.length)
    (hy : y.shape = B ++ repS i xs) (hQ : bshape x.shape B = some Q) :
    ∃ s, leftBroadcastingMultiply x y = .ok s ∧ s.shape = Q ++ repS i xs := by
  unfold leftBroadcastingMultiply
  have yn : y.ndim = R.length + i * xs.length := by simp [ND.ndim, hy, hBl]
  have hxn : x.ndim = x.shape.length := rfl
  rcases hx' with hxl | hxl
  · rw [if_neg (by omega)]
    have e0 : y.ndim - x.ndim = i * xs.length := by omega
    rw [e0]
    have sx : (x.expandDims (i * xs.length) x.ndim).shape =
        x.shape ++ List.replicate (i * xs.length) 1 := by
      simp [ND.expandDims, ND.ndim]
    have := bshape_append (C := List.replicate (i * xs.length) 1) (D := repS i xs) (by simp) hQ
      (bshape_eq_of_ble (ble_ones (by simp)))
    unfold ND.map2
    rw [sx, hy, this]
    exact ⟨_, rfl, rfl⟩
  · have hx0 : x.ndim = 0 := by rw [hxn, hxl]; rfl
    rw [if_neg (by omega)]
    have sx : (x.expandDims (y.ndim - x.ndim) x.ndim).shape = List.replicate (y.ndim - x.ndim) 1 := by
      simp [ND.expandDims, hxl]
    rw [hxl, bshape_nil_left] at hQ
    cases hQ
    unfold ND.map2
    rw [sx, bshape_eq_of_ble (ble_ones (by rw [hx0]; exact Nat.sub_le _ _))]
    exact ⟨_, rfl, hy⟩

theorem leftMul_total {U : Mode} {xs R : List ℕ} (hC : U.Cm R.length) {i : ℕ} (hi : i ≠ 0)
    {c y : Coef K} (hc : EC U R c) (hy : VCU U xs R i y) :
    ∃ r, IA.arbitraryBilinear c y leftBroadcastingMultiply true = .ok r ∧ VCU U xs R i r := by
  obtain ⟨yw, B, hB, uy⟩ := hy
  obtain ⟨cw, cle, cl'⟩ := hc
  have hBl : B.length = R.length := by
    rcases hC.rk uy.2 with h | h
    · exact h
    · exact absurd h.1 hi
  have cl : c.shape.length = R.length ∨ c.shape = [] := (hC.rk cl').imp id (fun h => h.2)
  obtain ⟨Q, hQ, hQR⟩ := bshape_lub cle uy.1
  have key : ∀ a b : ND K, a.shape = c.shape → b.shape = y.shape →
      ∃ s, leftBroadcastingMultiply a b = .ok s ∧ s.shape = Q ++ repS i xs := by
    intro a b ha hb
    exact leftMul_total_nd (R := R) (by rw [ha]; exact cl) hBl (hb.trans hB) (by rw [ha]; exact hQ)
  obtain ⟨r, hr⟩ := IA.bilinear_total true cw yw key
  obtain ⟨r1, r2, -⟩ := IA.bilinearTrue_ok (R := Q ++ repS i xs) cw yw (by
    intro a b s ha hb hs
    obtain ⟨s', hs', e⟩ := key a b ha hb
    rw [hs] at hs'; cases hs'; exact e) hr
  exact ⟨r, hr, r1, Q, r2, hQR, by have := hC.pw.pr cl' uy.2 hQ; rwa [Nat.zero_add] at this⟩

namespace TEA
variable {T : TEA K} (hT : T.trLo.shape = T.trHi.shape) {z : List ℕ → K} (hz : ZMem T.trustRegion z)
  {R : List ℕ}

theorem addCoeffs_ok {a b : Encl K}
    (h : ∀ (i : ℕ) (x y : Coef K), a[i]? = some x → b[i]? = some y → ∃ r, IA.add x y = .ok r) :
    ∃ c, addCoeffs a b = .ok c := by
  induction a generalizing b with
  | nil => cases b <;> exact ⟨_, rfl⟩
  | cons x a ih =>
    cases b with
    | nil => exact ⟨_, rfl⟩
    | cons y b =>
      obtain ⟨r, hr⟩ := h 0 x y (by simp) (by simp)
      obtain ⟨c, hc⟩ := ih (b := b) (fun i x y hx hy => h (i + 1) x y (by simpa using hx) (by simpa using hy))
      exact ⟨r :: c, by simp only [addCoeffs, hr, hc]; rfl⟩

include hT hz

/-- `add` returns; the second operand may contain zeros of shape `()` where the first has a coefficient -/
theorem add_total0 {U : Mode} (hU : U.Cl) {a b : Encl K} (va : VEU U T.xShape R a)
    (vb : ∀ i y, b[i]? = some y → VCU0 U T.xShape R i y)
    (vb' : ∀ i y, a[i]? = none → b[i]? = some y → VCU U T.xShape R i y) :
    ∃ c, T.add a b = .ok c ∧ VEU U T.xShape R c ∧
      c.length = min (max a.length b.length) (T.maxDegree + 1) := by
  obtain ⟨s, hs⟩ := addCoeffs_ok (a := a) (b := b) fun i x y hx hy =>
    IA.add_lub (va i x hx).1 (vb i y hy).wf (va i x hx).shape_le (vb i y hy).shape_le
  obtain ⟨ls, hg⟩ := addCoeffs_get hs
  have vs : VEU U T.xShape R s := by
    intro i c hc
    obtain ⟨g1, g2, g3⟩ := hg i
    cases hx : a[i]? with
    | none => exact vb' i c hx ((g2 hx) ▸ hc)
    | some x =>
      cases hy : b[i]? with
      | none => exact va i c ((g3 hy) ▸ hc)
      | some y =>
        obtain ⟨r, hr, e⟩ := g1 x y hx hy
        rw [hc] at hr; cases hr
        exact (vcu0_add hU (Or.inl (va i x hx)) (vb i y hy) e).2 (Or.inl (va i x hx))
  obtain ⟨c, hc, vc, lc⟩ := truncate_total hT hz hU vs
  exact ⟨c, by unfold add; rw [hs, py_ok_bind]; exact hc, vc, by rw [lc, ls]⟩

theorem composeTerm_total {U : Mode} (hC : U.Cm R.length) {A : Encl K} (hA : A ≠ []) (vA : VEU U T.xShape R A)
    {p : ℕ} (hp0 : p ≠ 0) (hN : R = [] ∨ R.length + (A.length - 1) * p * T.xShape.length ≤ 26) {c : Coef K}
    (hc : EC U R c) :
    ∃ term, T.composeTerm A p c = .ok term ∧ term.length = min (1 + (A.length - 1) * p) (T.maxDegree + 1) ∧
      (∀ i y, term[i]? = some y → VCU0 U T.xShape R i y) ∧
      ∀ i y, p ≤ i → term[i]? = some y → VCU U T.xShape R i y := by
  obtain ⟨poly, hpoly, vp, lp⟩ := power_total hT hz hC.pw hA vA hN
  obtain ⟨term, hterm⟩ := Poly.mapM_total (f := fun it : ℕ × Coef K =>
      if it.1 < p then (.ok (.arr (ND.scalar 0)) : Py (Coef K))
      else IA.arbitraryBilinear c it.2 leftBroadcastingMultiply true) (Poly.enum poly) (by
    rintro ⟨i, y⟩ hy
    by_cases hi : i < p
    · exact ⟨_, if_pos hi⟩
    · obtain ⟨r, hr, -⟩ := leftMul_total hC (by omega : i ≠ 0) hc (vp i y (Poly.mem_enum.1 hy))
      exact ⟨r, by simp only [if_neg hi]; exact hr⟩)
  have hm := Poly.mapM_ok hterm
  have hlen : term.length = poly.length := by have := hm.length_eq; simpa using this.symm
  have hget : ∀ i y, term[i]? = some y → ∃ x, poly[i]? = some x ∧
      (if i < p then .ok (.arr (ND.scalar 0))
        else IA.arbitraryBilinear c x leftBroadcastingMultiply true) = .ok y := by
    intro i y hy
    obtain ⟨⟨j, x⟩, hx, hf⟩ := (Poly.forall₂_getElem? hm i).1 y hy
    rw [Poly.enum_getElem?, Option.map_eq_some_iff] at hx
    obtain ⟨x', hx', e⟩ := hx
    cases e
    exact ⟨x, hx', hf⟩
  have hstrong : ∀ i y, p ≤ i → term[i]? = some y → VCU U T.xShape R i y := by
    intro i y hi hy
    obtain ⟨x, hx, hf⟩ := hget i y hy
    rw [if_neg (by omega)] at hf
    obtain ⟨r, hr, vr⟩ := leftMul_total hC (by omega : i ≠ 0) hc (vp i x hx)
    rw [hf] at hr; cases hr; exact vr
  refine ⟨term, ?_, by rw [hlen, lp], ?_, hstrong⟩
  · simp only [composeTerm, if_neg hp0, hpoly, py_ok_bind]
    exact hterm
  · intro i y hy
    by_cases hi : i < p
    · obtain ⟨x, hx, hf⟩ := hget i y hy
      rw [if_pos hi] at hf
      cases hf
      exact Or.inr ⟨_, rfl, rfl⟩
    · exact Or.inl (hstrong i y (by omega) hy)

theorem compose_fold_total {U : Mode} (hC : U.Cm R.length) {A : Encl K} (hA : A ≠ []) (vA : VEU U T.xShape R A)
    (e : Encl K) (he : e.length ≤ T.maxDegree + 1)
    (hN : R = [] ∨ R.length + (A.length - 1) * (e.length - 1) * T.xShape.length ≤ 26)
    (hc : ∀ (p : ℕ) (c : Coef K), e[p]? = some c → EC U R c) :
    ∃ out, (Poly.enum e).foldlM (T.composeStep A) [.arr (ND.scalar 0)] = .ok out ∧ VEU U T.xShape R out ∧
      out.length = min (1 + (A.length - 1) * (e.length - 1)) (T.maxDegree + 1) := by
  have hAl : A.length ≠ 0 := fun h => hA (List.length_eq_zero_iff.1 h)
  induction e using List.reverseRecOn with
  | nil =>
    refine ⟨[.arr (ND.scalar 0)], by simp [Poly.enum], ?_, by simp⟩
    intro i c hc
    cases i with
    | succ i => simp at hc
    | zero =>
      simp at hc; subst hc
      exact ⟨Coef.WF_arr _, [], rfl, ble_nil _, hC.pw.nil⟩
  | append_singleton e c ih =>
    have henum : Poly.enum (e ++ [c]) = Poly.enum e ++ [(e.length, c)] := by
      unfold Poly.enum
      simp only [List.length_append, List.length_cons, List.length_nil, zero_add, List.range_succ]
      rw [List.zip_append (by simp)]; rfl
    simp only [List.length_append, List.length_cons, List.length_nil, zero_add, Nat.add_sub_cancel] at he hN ⊢
    obtain ⟨o, ho, vo, i1⟩ := ih (by omega) (hN.imp id (fun h => by
      have : (A.length - 1) * (e.length - 1) * T.xShape.length ≤ (A.length - 1) * e.length * T.xShape.length :=
        Nat.mul_le_mul_right _ (Nat.mul_le_mul_left _ (Nat.sub_le _ _))
      omega)) (by
      intro p c' hc'
      exact hc p c' (by rw [List.getElem?_append_left (List.getElem?_eq_some_iff.1 hc').1]; exact hc'))
    have cE := hc e.length c (by simp)
    suffices h : ∃ o', T.composeStep A o (e.length, c) = .ok o' ∧ VEU U T.xShape R o' ∧
        o'.length = min (1 + (A.length - 1) * e.length) (T.maxDegree + 1) by
      obtain ⟨o', ho', h⟩ := h
      exact ⟨o', by rw [henum, List.foldlM_append, ho, py_ok_bind, List.foldlM_cons, ho', py_ok_bind]; rfl, h⟩
    by_cases hp0 : e.length = 0
    · have hst : VEU U T.xShape R [c] := by
        intro i c' hc'
        cases i with
        | succ i => simp at hc'
        | zero =>
          simp at hc'; subst hc'
          exact ⟨cE.1, c.shape, by simp, cE.2.1, cE.2.2⟩
      obtain ⟨o', ho', vo', lo'⟩ := add_total0 hT hz hC.pw.cl vo (b := [c]) (fun i y hy => Or.inl (hst i y hy))
        (fun i y _ hy => hst i y hy)
      refine ⟨o', ?_, vo', ?_⟩
      · simp only [composeStep, composeTerm, if_pos hp0]
        exact ho'
      · rw [lo', i1, hp0]; simp
    · obtain ⟨term, hterm, tl, v1, v3⟩ := composeTerm_total hT hz hC hA vA hp0 hN cE
      obtain ⟨o', ho', vo', lo'⟩ := add_total0 hT hz hC.pw.cl vo (b := term) v1 (by
        intro i y hoi hy
        apply v3 i y _ hy
        have h1 := List.getElem?_eq_none_iff.1 hoi
        have h2 := (List.getElem?_eq_some_iff.1 hy).1
        by_cases hA2 : 2 ≤ A.length
        · have : e.length - 1 ≤ (A.length - 1) * (e.length - 1) := Nat.le_mul_of_pos_left _ (by omega)
          omega
        · have : A.length - 1 = 0 := by omega
          rw [tl, this] at h2; simp at h2; omega)
      refine ⟨o', ?_, vo', ?_⟩
      · simp only [composeStep, hterm, py_ok_bind]
        exact ho'
      · have : (A.length - 1) * (e.length - 1) ≤ (A.length - 1) * e.length :=
          Nat.mul_le_mul_left _ (Nat.sub_le _ _)
        rw [lo', tl, i1]; omega

/-- `compose_enclosures` returns -/
theorem compose_total {U : Mode} (hC : U.Cm R.length) {arg : Encl K} (vA : VEU U T.xShape R arg)
    {e : Encl K} (hne : e ≠ []) (he : e.length ≤ T.maxDegree + 1)
    (hN : R = [] ∨ R.length + (arg.length - 1) * (e.length - 1) * T.xShape.length ≤ 26)
    (hc : ∀ (p : ℕ) (c : Coef K), e[p]? = some c → EC U R c) :
    ∃ out, T.composeEnclosures e arg = .ok out ∧
      out.length = min (1 + (arg.length - 1) * (e.length - 1)) (T.maxDegree + 1) := by
  unfold composeEnclosures
  rw [if_neg (by simpa using hne)]
  have hA : VEU U T.xShape R (.arr (ND.scalar 0) :: arg.drop 1) := by
    intro i x hx
    cases i with
    | zero =>
      simp at hx; subst hx
      exact ⟨Coef.WF_arr _, [], rfl, ble_nil _, hC.pw.nil⟩
    | succ i =>
      simp at hx
      exact vA (i + 1) x hx
  obtain ⟨out, h, -, hl⟩ := compose_fold_total hT hz hC (by simp) hA e he (by simpa using hN) hc
  exact ⟨out, h, by rw [hl]; simp⟩

/-! ### `arbitrary_bilinear` -/

/-- contracting the last `e` degrees of a coefficient with the trust region returns -/
theorem contract_total {R : List ℕ} {d e : ℕ} {c : Coef K} (hc : c.WF) (hs : c.shape = R ++ repS (d + e) T.xShape) :
    ∃ r, (do IA.tensordot c (← IA.outerPower T.trustRegion e) (e * T.xNdim)) = .ok r ∧ r.WF ∧
      r.shape = R ++ repS d T.xShape := by
  obtain ⟨zp, hzp⟩ := outerPower_total (a := T.trustRegion) (trWF T hT) e
  obtain ⟨z1, z2, -, -⟩ := outerPower_point (trWF T hT) hzp hz
  rw [trShape T] at z2
  have hs' : c.shape = (R ++ repS d T.xShape) ++ repS e T.xShape := by
    rw [hs, repS_add, List.append_assoc]
  have cn : c.ndim - e * T.xShape.length = (R ++ repS d T.xShape).length := by
    rw [Coef.ndim_def, hs]; simp [Nat.add_mul]; omega
  obtain ⟨r, hr⟩ := IA.tensordot_total (n := e * T.xShape.length) hc z1
    (by rw [Coef.ndim_def, hs]; simp [Nat.add_mul]; omega) (by rw [Coef.ndim_def, z2]; simp)
    (by rw [cn, hs', List.drop_left, z2, List.take_of_length_le (by simp)])
  obtain ⟨r1, r2, -⟩ := contract_ok (Z := T.trustRegion) (trWF T hT) hz hc hs hzp hr
  exact ⟨r, by rw [hzp, py_ok_bind]; exact hr, r1, r2⟩

variable {Ra Rb Rc : List ℕ} {pbb : ND K → ND K → ℕ → ℕ → Py (ND K)}

theorem termEnclosure_total {i j : ℕ} {x y : Coef K} (hx : x.WF)
    (hy : y.WF) (sx : x.shape = Ra ++ repS i T.xShape) (sy : y.shape = Rb ++ repS j T.xShape)
    (hp : ∀ i' j' (u v : ND K), i' ≤ i → j' ≤ j → i' + j' ≤ T.maxDegree → u.shape = Ra ++ repS i' T.xShape →
      v.shape = Rb ++ repS j' T.xShape → ∃ s, pbb u v (i' * T.xNdim) (j' * T.xNdim) = .ok s ∧
        s.shape = Rc ++ repS (i' + j') T.xShape) :
    ∃ r, T.termEnclosureCoefficient pbb x y i j = .ok r ∧ r.WF ∧
      r.shape = Rc ++ repS (min (i + j) T.maxDegree) T.xShape := by
  have fin : ∀ {i' j' : ℕ} {c0 c1 : Coef K}, i' ≤ i → j' ≤ j → i' + j' ≤ T.maxDegree → c0.WF → c1.WF →
      c0.shape = Ra ++ repS i' T.xShape → c1.shape = Rb ++ repS j' T.xShape →
      ∃ r, IA.arbitraryBilinear c0 c1 (fun y z => pbb y z (i' * T.xNdim) (j' * T.xNdim)) = .ok r ∧ r.WF ∧
        r.shape = Rc ++ repS (i' + j') T.xShape := by
    intro i' j' c0 c1 hi hj hm w0 w1 s0 s1
    have key : ∀ a b : ND K, a.shape = c0.shape → b.shape = c1.shape →
        ∃ s, pbb a b (i' * T.xNdim) (j' * T.xNdim) = .ok s ∧ s.shape = Rc ++ repS (i' + j') T.xShape :=
      fun a b ha hb => hp i' j' a b hi hj hm (ha.trans s0) (hb.trans s1)
    obtain ⟨r, hr⟩ := IA.bilinear_total false w0 w1 key
    obtain ⟨r1, r2, -, -⟩ := IA.bilinearFalse_ok (R := Rc ++ repS (i' + j') T.xShape) w0 w1 (by
      intro a b s ha hb hs
      obtain ⟨s', hs', e⟩ := key a b ha hb
      rw [hs] at hs'; cases hs'; exact e) hr
    exact ⟨r, hr, r1, r2⟩
  unfold termEnclosureCoefficient
  by_cases hd : i + j ≤ T.maxDegree
  · rw [if_pos hd, show min (i + j) T.maxDegree = i + j by omega]
    exact fin le_rfl le_rfl hd hx hy sx sy
  · rw [if_neg hd]
    simp only
    set ei := min i (i + j - T.maxDegree) with hei
    set ej := i + j - T.maxDegree - ei with hej
    rw [if_neg (by omega)]
    have hmin : min (i + j) T.maxDegree = (i - ei) + (j - ej) := by omega
    rw [hmin]
    have hi : i = (i - ei) + ei := by omega
    have hj : j = (j - ej) + ej := by omega
    obtain ⟨c0, hc0, w0, s0⟩ := contract_total hT hz (R := Ra) (d := i - ei) (e := ei) hx (by rw [← hi]; exact sx)
    have hc1 : ∃ c1, (if ej > 0 then do IA.tensordot y (← IA.outerPower T.trustRegion ej) (ej * T.xNdim)
          else .ok y) = .ok c1 ∧ c1.WF ∧ c1.shape = Rb ++ repS (j - ej) T.xShape := by
      by_cases hpos : ej > 0
      · rw [if_pos hpos]
        exact contract_total hT hz (R := Rb) (d := j - ej) (e := ej) hy (by rw [← hj]; exact sy)
      · rw [if_neg hpos]
        have h0 : ej = 0 := by omega
        exact ⟨y, rfl, hy, by rw [h0]; exact sy⟩
    obtain ⟨c1, hc1, w1, s1⟩ := hc1
    obtain ⟨r, hr, h⟩ := fin (i' := i - ei) (j' := j - ej) (by omega) (by omega) (by omega) w0 w1 s0 s1
    refine ⟨r, ?_, h⟩
    simp only [py_bind_ok] at hc0
    obtain ⟨zi, hzi, hc0⟩ := hc0
    rw [hzi, py_ok_bind, hc0, py_ok_bind]
    by_cases hpos : ej > 0
    · rw [if_pos hpos] at hc1 ⊢
      simp only [py_bind_ok] at hc1
      obtain ⟨zj, hzj, hc1⟩ := hc1
      rw [hzj, py_ok_bind, hc1, py_ok_bind]
      exact hr
    · rw [if_neg hpos] at hc1 ⊢
      cases hc1
      rw [py_ok_bind]
      exact hr

/-- `TaylorEnclosureArithmetic.arbitrary_bilinear` returns -/
theorem arbitraryBilinear_total {a b : Encl K} (ha : a ≠ []) (hb : b ≠ []) (va : VX T.xShape Ra a)
    (vb : VX T.xShape Rb b)
    (hp : ∀ i j (u v : ND K), i < a.length → j < b.length → i + j ≤ T.maxDegree → u.shape = Ra ++ repS i T.xShape →
      v.shape = Rb ++ repS j T.xShape → ∃ s, pbb u v (i * T.xNdim) (j * T.xNdim) = .ok s ∧
        s.shape = Rc ++ repS (i + j) T.xShape) :
    ∃ c, T.arbitraryBilinear a b pbb = .ok c := by
  have hal : a.length ≠ 0 := fun h => ha (List.length_eq_zero_iff.1 h)
  have hbl : b.length ≠ 0 := fun h => hb (List.length_eq_zero_iff.1 h)
  unfold arbitraryBilinear
  have main : ∀ (l : List ((ℕ × Coef K) × (ℕ × Coef K))) (o : Encl K),
      (∀ t ∈ l, a[t.1.1]? = some t.1.2 ∧ b[t.2.1]? = some t.2.2) →
      o.length = min (T.maxDegree + 1) (a.length + b.length - 1) →
      (∀ i c, o[i]? = some c → VCU0 anyM T.xShape Rc i c) → ∃ c, l.foldlM (T.bilinearStep pbb) o = .ok c := by
    intro l
    induction l with
    | nil => intro o _ _ _; exact ⟨o, rfl⟩
    | cons t l ih =>
      intro o hl hlen ho
      obtain ⟨h1, h2⟩ := hl t (by simp)
      have l1 := (List.getElem?_eq_some_iff.1 h1).1
      have l2 := (List.getElem?_eq_some_iff.1 h2).1
      obtain ⟨w1, s1⟩ := va _ _ h1
      obtain ⟨w2, s2⟩ := vb _ _ h2
      obtain ⟨c, hc, wc, sc⟩ := termEnclosure_total hT hz (Rc := Rc) (pbb := pbb) w1 w2 s1 s2
        fun i' j' u v hi hj hm hu hv => hp i' j' u v (by omega) (by omega) hm hu hv
      have hd : min (t.1.1 + t.2.1) T.maxDegree < o.length := by omega
      have vc : VCU anyM T.xShape Rc (min (t.1.1 + t.2.1) T.maxDegree) c := ⟨wc, Rc, sc, ble_refl _, trivial⟩
      have ho0 := ho _ _ (List.getElem?_eq_getElem hd)
      obtain ⟨r, hr⟩ := IA.add_lub ho0.wf wc ho0.shape_le vc.shape_le
      have vr := (vcu0_add anyM_cl ho0 (Or.inl vc) hr).1
      have hs : T.bilinearStep pbb o t = .ok (o.set (min (t.1.1 + t.2.1) T.maxDegree) r) := by
        unfold bilinearStep
        rw [hc, py_ok_bind]
        simp only [List.getElem?_eq_getElem hd, hr, py_ok_bind]
        rfl
      obtain ⟨out, hout⟩ := ih (o.set (min (t.1.1 + t.2.1) T.maxDegree) r) (fun t ht => hl t (by simp [ht]))
        (by rw [List.length_set]; exact hlen) (by
          intro i c hc
          rw [List.getElem?_set] at hc
          split_ifs at hc with h1
          · cases hc; rw [← h1]; exact vr
          · exact ho i c hc)
      exact ⟨out, by rw [List.foldlM_cons, hs, py_ok_bind]; exact hout⟩
  refine main _ _ ?_ (by simp) ?_
  · intro t ht
    simp only [List.mem_flatMap, List.mem_map] at ht
    obtain ⟨⟨i, x⟩, hx, ⟨j, y⟩, hy, rfl⟩ := ht
    exact ⟨Poly.mem_enum.1 hx, Poly.mem_enum.1 hy⟩
  · intro i c hc
    rw [List.getElem?_replicate] at hc
    split_ifs at hc
    cases hc
    exact Or.inr ⟨_, rfl, rfl⟩

end TEA
end AB
