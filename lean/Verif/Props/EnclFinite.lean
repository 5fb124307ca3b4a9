/-
C75, continued: on finite values of rank 0 the float model (`Model/EnclFloat.lean`) and the array model (`Model/Interval.lean`,
`Model/Polynomials.lean`) compute the same numbers, so the float model adds infinities and NaN to the model that the other claims are
about and changes nothing else.
-/
import Verif.Props.EnclFloat
import Verif.Proofs.Sim

set_option linter.unusedSectionVars false

namespace AB
open Flt FC
variable {K : Type} [Field K] [LinearOrder K] [IsStrictOrderedRing K]

/-- The array model returned a coefficient of rank 0, and it is the float model's result. -/
def Agrees (r : Py (Coef K)) (c : FC K) : Prop := ∃ d, r = .ok d ∧ d.Rank0 ∧ d.toFC = c

theorem rank0_arr {a : ND K} (h : (Coef.arr a).Rank0) : ∃ g, a = ⟨[], g⟩ := by
  obtain ⟨S, g⟩ := a; obtain rfl : S = [] := h; exact ⟨g, rfl⟩
theorem rank0_ivl {lo hi : ND K} (h : (Coef.ivl lo hi).Rank0) : ∃ g g', lo = ⟨[], g⟩ ∧ hi = ⟨[], g'⟩ := by
  obtain ⟨S, g⟩ := lo; obtain ⟨T, g'⟩ := hi
  obtain ⟨h1, h2⟩ := h
  obtain rfl : S = [] := h1
  obtain rfl : T = [] := h2
  exact ⟨g, g', rfl, rfl⟩

theorem reduce_min_fin (x y : K) : (fin x).minimum (fin y) = fin (min x y) := rfl

theorem agrees_product {A B : Coef K} (hA : A.Rank0) (hB : B.Rank0) {op : ND K → ND K → Py (ND K)}
    (hop : ∀ g g', ∃ w, op ⟨[], g⟩ ⟨[], g'⟩ = .ok ⟨[], w⟩ ∧ w [] = g [] * g' []) :
    Agrees (IA.arbitraryBilinear A B op true) (A.toFC.multiply B.toFC) := by
  cases A with
  | arr a =>
    obtain ⟨g, rfl⟩ := rank0_arr hA
    cases B with
    | arr b =>
      obtain ⟨g', rfl⟩ := rank0_arr hB
      obtain ⟨w, hw, hv⟩ := hop g g'
      refine ⟨.arr ⟨[], w⟩, ?_, rfl, ?_⟩
      · show (op ⟨[], g⟩ ⟨[], g'⟩ >>= fun x => _) = _
        rw [hw]; rfl
      · show pt (fin (w [])) = pt (fin (g [] * g' [])); rw [hv]
    | ivl lo hi =>
      obtain ⟨l, h, rfl, rfl⟩ := rank0_ivl hB
      obtain ⟨w1, hw1, hv1⟩ := hop g l
      obtain ⟨w2, hw2, hv2⟩ := hop g h
      refine ⟨.ivl ⟨[], fun _ => min (w1 []) (w2 [])⟩ ⟨[], fun _ => max (w1 []) (w2 [])⟩, ?_, ⟨rfl, rfl⟩, ?_⟩
      · show IA.bilinearProduct (.arr _) (.ivl _ _) op = _
        simp only [IA.bilinearProduct, IA.endpoints, List.flatMap_cons, List.flatMap_nil, List.map_cons, List.map_nil, List.append_nil,
          List.mapM_cons, List.mapM_nil, hw1, hw2, py_ok_bind, pure_bind, IA.reduce]
        rfl
      · show iv (fin (min (w1 []) (w2 []))) (fin (max (w1 []) (w2 []))) = _
        rw [hv1, hv2]; rfl
  | ivl alo ahi =>
    obtain ⟨gl, gh, rfl, rfl⟩ := rank0_ivl hA
    cases B with
    | arr b =>
      obtain ⟨g', rfl⟩ := rank0_arr hB
      obtain ⟨w1, hw1, hv1⟩ := hop gl g'
      obtain ⟨w2, hw2, hv2⟩ := hop gh g'
      refine ⟨.ivl ⟨[], fun _ => min (w1 []) (w2 [])⟩ ⟨[], fun _ => max (w1 []) (w2 [])⟩, ?_, ⟨rfl, rfl⟩, ?_⟩
      · show IA.bilinearProduct (.ivl _ _) (.arr _) op = _
        simp only [IA.bilinearProduct, IA.endpoints, List.flatMap_cons, List.flatMap_nil, List.map_cons, List.map_nil, List.append_nil,
          List.cons_append, List.nil_append, List.mapM_cons, List.mapM_nil, hw1, hw2, py_ok_bind, pure_bind, IA.reduce]
        rfl
      · show iv (fin (min (w1 []) (w2 []))) (fin (max (w1 []) (w2 []))) = _
        rw [hv1, hv2]; rfl
    | ivl lo hi =>
      obtain ⟨l, h, rfl, rfl⟩ := rank0_ivl hB
      obtain ⟨w1, hw1, hv1⟩ := hop gl l
      obtain ⟨w2, hw2, hv2⟩ := hop gl h
      obtain ⟨w3, hw3, hv3⟩ := hop gh l
      obtain ⟨w4, hw4, hv4⟩ := hop gh h
      refine ⟨.ivl ⟨[], fun _ => min (min (min (w1 []) (w2 [])) (w3 [])) (w4 [])⟩
        ⟨[], fun _ => max (max (max (w1 []) (w2 [])) (w3 [])) (w4 [])⟩, ?_, ⟨rfl, rfl⟩, ?_⟩
      · show IA.bilinearProduct (.ivl _ _) (.ivl _ _) op = _
        simp only [IA.bilinearProduct, IA.endpoints, List.flatMap_cons, List.flatMap_nil, List.map_cons, List.map_nil, List.append_nil,
          List.cons_append, List.nil_append, List.mapM_cons, List.mapM_nil, hw1, hw2, hw3, hw4, py_ok_bind, pure_bind, IA.reduce]
        rfl
      · show iv (fin (min (min (min (w1 []) (w2 [])) (w3 [])) (w4 []))) (fin (max (max (max (w1 []) (w2 [])) (w3 [])) (w4 []))) = _
        rw [hv1, hv2, hv3, hv4]; rfl

theorem agrees_add {A B : Coef K} (hA : A.Rank0) (hB : B.Rank0) : Agrees (IA.add A B) (A.toFC.add B.toFC) := by
  cases A with
  | arr a =>
    obtain ⟨g, rfl⟩ := rank0_arr hA
    cases B with
    | arr b => obtain ⟨g', rfl⟩ := rank0_arr hB; exact ⟨_, rfl, rfl, rfl⟩
    | ivl lo hi => obtain ⟨l, h, rfl, rfl⟩ := rank0_ivl hB; exact ⟨_, rfl, ⟨rfl, rfl⟩, rfl⟩
  | ivl lo hi =>
    obtain ⟨l, h, rfl, rfl⟩ := rank0_ivl hA
    cases B with
    | arr b => obtain ⟨g', rfl⟩ := rank0_arr hB; exact ⟨_, rfl, ⟨rfl, rfl⟩, rfl⟩
    | ivl lo hi => obtain ⟨l', h', rfl, rfl⟩ := rank0_ivl hB; exact ⟨_, rfl, ⟨rfl, rfl⟩, rfl⟩

theorem agrees_subtract {A B : Coef K} (hA : A.Rank0) (hB : B.Rank0) : Agrees (IA.subtract A B) (A.toFC.subtract B.toFC) := by
  have key : ∀ x y : K, (fin x).sub (fin y) = fin (x - y) := sub_fin
  cases A with
  | arr a =>
    obtain ⟨g, rfl⟩ := rank0_arr hA
    cases B with
    | arr b => obtain ⟨g', rfl⟩ := rank0_arr hB; exact ⟨_, rfl, rfl, congrArg pt (key _ _).symm⟩
    | ivl lo hi =>
      obtain ⟨l, h, rfl, rfl⟩ := rank0_ivl hB
      exact ⟨_, rfl, ⟨rfl, rfl⟩, congrArg₂ iv (key _ _).symm (key _ _).symm⟩
  | ivl lo hi =>
    obtain ⟨l, h, rfl, rfl⟩ := rank0_ivl hA
    cases B with
    | arr b => obtain ⟨g', rfl⟩ := rank0_arr hB; exact ⟨_, rfl, ⟨rfl, rfl⟩, congrArg₂ iv (key _ _).symm (key _ _).symm⟩
    | ivl lo hi =>
      obtain ⟨l', h', rfl, rfl⟩ := rank0_ivl hB
      exact ⟨_, rfl, ⟨rfl, rfl⟩, congrArg₂ iv (key _ _).symm (key _ _).symm⟩

theorem agrees_negative {A : Coef K} (hA : A.Rank0) : (IA.negative A).Rank0 ∧ (IA.negative A).toFC = A.toFC.negative := by
  cases A with
  | arr a => obtain ⟨g, rfl⟩ := rank0_arr hA; exact ⟨rfl, rfl⟩
  | ivl lo hi => obtain ⟨l, h, rfl, rfl⟩ := rank0_ivl hA; exact ⟨⟨rfl, rfl⟩, rfl⟩

theorem agrees_multiply {A B : Coef K} (hA : A.Rank0) (hB : B.Rank0) : Agrees (IA.multiply A B) (A.toFC.multiply B.toFC) :=
  agrees_product hA hB fun g g' => ⟨_, rfl, rfl⟩

theorem agrees_tensordot {A B : Coef K} (hA : A.Rank0) (hB : B.Rank0) :
    Agrees (IA.tensordot A B 0) (A.toFC.multiply B.toFC) :=
  agrees_product hA hB fun g g' => ⟨_, rfl, by simp [idx]⟩

theorem agrees_power {A : Coef K} (hA : A.Rank0) (k : ℕ) : Agrees (IA.power A k) (A.toFC.power k) := by
  cases A with
  | arr a =>
    obtain ⟨g, rfl⟩ := rank0_arr hA
    refine ⟨.arr ((⟨[], g⟩ : ND K).map (· ^ (k : ℤ))), rfl, rfl, ?_⟩
    show pt (fin (g [] ^ (k : ℤ))) = pt ((fin (g [])).npow k)
    by_cases h : k = 0
    · subst h; simp [npow]
    · simp [npow, h]
  | ivl lo hi =>
    obtain ⟨l, h, rfl, rfl⟩ := rank0_ivl hA
    by_cases hk : k = 0
    · subst hk
      exact ⟨.arr ⟨[], fun _ => 1⟩, rfl, rfl, rfl⟩
    · refine ⟨.ivl ⟨[], fun _ => min (min (l [] ^ (k : ℤ)) (h [] ^ (k : ℤ))) (IA.zeroedPow k (l []) (h []))⟩
        ⟨[], fun _ => max (l [] ^ (k : ℤ)) (h [] ^ (k : ℤ))⟩, ?_, ⟨rfl, rfl⟩, ?_⟩
      · unfold IA.power
        dsimp only
        rw [if_neg (by omega), if_neg (by omega)]
        rfl
      · show iv (fin (min (min (l [] ^ (k : ℤ)) (h [] ^ (k : ℤ))) (IA.zeroedPow k (l []) (h [])))) (fin (max (l [] ^ (k : ℤ)) (h [] ^ (k : ℤ)))) =
          FC.power (iv (fin (l [])) (fin (h []))) k
        unfold FC.power
        dsimp only
        rw [if_neg hk]
        unfold npow
        simp only [if_neg hk, zpow_natCast]
        show _ = iv (fin (min (min (l [] ^ k) (h [] ^ k)) ((if (decide (l [] < 0) && decide (0 < h [])) then 0 else 1) * l [] ^ k))) (fin (max (l [] ^ k) (h [] ^ k)))
        congr 3
        unfold IA.zeroedPow
        by_cases hc : l [] < 0 ∧ 0 < h []
        · simp [hc.1, hc.2]
        · rw [if_neg hc, if_neg (by simpa using hc)]; simp

theorem agrees_outerPower {A : Coef K} (hA : A.Rank0) (k : ℕ) :
    ∃ d c, IA.outerPower A k = .ok d ∧ A.toFC.outerPower k = .ok c ∧ d.Rank0 ∧ d.toFC = c := by
  have hn : A.ndim = 0 := by
    cases A with
    | arr a => exact congrArg List.length hA
    | ivl lo hi => exact congrArg List.length hA.1
  by_cases hk : k = 0
  · subst hk
    exact ⟨.arr (ND.scalar 1), pt (fin 1), rfl, rfl, rfl, rfl⟩
  · obtain ⟨d, h1, h2, h3⟩ := agrees_power hA k
    refine ⟨d, A.toFC.power k, ?_, ?_, h2, h3⟩
    · unfold IA.outerPower
      rw [if_neg (by omega), if_neg (by omega), if_pos hn, h1]
    · unfold FC.outerPower
      rw [if_neg (by omega), if_neg (by omega)]; rfl

/-- **C75 (finite values: intervals).** On rank-0 coefficients with finite numbers, every interval operation of the float model
agrees with the array model. -/
theorem C75_finite {A B : Coef K} (hA : A.Rank0) (hB : B.Rank0) (k : ℕ) :
    Agrees (IA.add A B) (A.toFC.add B.toFC) ∧ Agrees (IA.subtract A B) (A.toFC.subtract B.toFC) ∧
    Agrees (.ok (IA.negative A)) A.toFC.negative ∧ Agrees (IA.multiply A B) (A.toFC.multiply B.toFC) ∧
    Agrees (IA.tensordot A B 0) (A.toFC.multiply B.toFC) ∧ Agrees (IA.power A k) (A.toFC.power k) :=
  ⟨agrees_add hA hB, agrees_subtract hA hB, ⟨_, rfl, agrees_negative hA⟩, agrees_multiply hA hB, agrees_tensordot hA hB,
    agrees_power hA k⟩

theorem agrees_evalFold {E : List (Coef K)} (hE : ∀ c ∈ E, c.Rank0) {Z : Coef K} (hZ : Z.Rank0) (n : ℕ) {A : Coef K} (hA : A.Rank0) :
    ∃ d m, E.foldlM (Poly.evalStep Z (fun a b => IA.tensordot a b b.ndim) (fun a k => IA.outerPower a k) IA.add (.arr (ND.scalar 1)))
        (n, A) = .ok (m, d) ∧
      (E.map Coef.toFC).foldlM (Poly.evalStep Z.toFC (fun a b => .ok (FC.multiply a b)) FC.outerPower (fun a b => .ok (FC.add a b))
        (pt (fin 1))) (n, A.toFC) = .ok (m, d.toFC) ∧ d.Rank0 := by
  induction E generalizing n A with
  | nil => exact ⟨A, n, rfl, rfl, hA⟩
  | cons c E ih =>
    have hc := hE c (by simp)
    have hnd : ∀ P : Coef K, P.Rank0 → P.ndim = 0 := fun P hP => by
      cases P with
      | arr a => exact congrArg List.length hP
      | ivl lo hi => exact congrArg List.length hP.1
    obtain ⟨A', h1, h2, h3⟩ : ∃ A' : Coef K, Poly.evalStep Z (fun a b => IA.tensordot a b b.ndim) (fun a k => IA.outerPower a k) IA.add
        (.arr (ND.scalar 1)) (n, A) c = .ok (n + 1, A') ∧ Poly.evalStep Z.toFC (fun a b => .ok (FC.multiply a b)) FC.outerPower
          (fun a b => .ok (FC.add a b)) (pt (fin 1)) (n, A.toFC) c.toFC = .ok (n + 1, A'.toFC) ∧ A'.Rank0 := by
      unfold Poly.evalStep
      dsimp only
      split_ifs with hn
      · obtain ⟨P, q, p1, p2, p3, p4⟩ := agrees_outerPower hZ n
        obtain ⟨Q, q1, q2, q3⟩ := agrees_tensordot hc p3
        obtain ⟨R, r1, r2, r3⟩ := agrees_add hA q2
        rw [p1, p2, py_ok_bind, py_ok_bind, hnd P p3, q1, py_ok_bind, r1, py_ok_bind]
        refine ⟨R, rfl, ?_, r2⟩
        rw [r3, q3, p4]; rfl
      · have h1 : (Coef.arr (ND.scalar (1 : K))).Rank0 := rfl
        obtain ⟨Q, q1, q2, q3⟩ := agrees_tensordot hc h1
        obtain ⟨R, r1, r2, r3⟩ := agrees_add hA q2
        refine ⟨R, ?_, ?_, r2⟩
        · show (IA.tensordot c (.arr (ND.scalar 1)) (Coef.ndim (.arr (ND.scalar (1 : K)))) >>= fun x => _) = _
          rw [hnd _ h1, q1, py_ok_bind, r1]; rfl
        · rw [r3, q3]; rfl
    obtain ⟨d, m, g1, g2, g3⟩ := ih (fun x hx => hE x (by simp [hx])) (n + 1) h3
    refine ⟨d, m, ?_, ?_, g3⟩
    · rw [List.foldlM_cons, h1, py_ok_bind]; exact g1
    · rw [List.map_cons, List.foldlM_cons, h2, py_ok_bind]; exact g2

/-- **C75 (finite values: evaluation).** Evaluating a Taylor enclosure with finite rank-0 coefficients gives the same number or interval in
both models. -/
theorem C75_finite_eval {E : List (Coef K)} (hE : ∀ c ∈ E, c.Rank0) {Z : Coef K} (hZ : Z.Rank0) :
    ∃ d, Poly.evalTaylorEnclosure E Z = .ok d ∧ evalTaylor (E.map Coef.toFC) Z.toFC = .ok d.toFC ∧ d.Rank0 := by
  obtain ⟨d, m, h1, h2, h3⟩ := agrees_evalFold hE hZ 0 (A := .arr (ND.scalar 0)) rfl
  refine ⟨d, ?_, ?_, h3⟩
  · unfold Poly.evalTaylorEnclosure Poly.evalPolynomial; rw [h1]; rfl
  · unfold evalTaylor Poly.evalPolynomial
    rw [show (pt (fin (0 : K)) : FC K) = Coef.toFC (.arr (ND.scalar 0)) from rfl, h2]; rfl

/-- The hypotheses are met by [1, 2] + [3, 5] x at x = 1/2, whose value is [5/2, 9/2]. -/
example : ∃ d, Poly.evalTaylorEnclosure [Coef.ivl (ND.scalar (1 : ℚ)) (ND.scalar 2), .ivl (ND.scalar 3) (ND.scalar 5)]
      (.arr (ND.scalar (1 / 2))) = .ok d ∧
    evalTaylor [iv (fin (1 : ℚ)) (fin 2), iv (fin 3) (fin 5)] (pt (fin (1 / 2))) = .ok d.toFC ∧ d.Rank0 :=
  C75_finite_eval (E := [Coef.ivl (ND.scalar (1 : ℚ)) (ND.scalar 2), .ivl (ND.scalar 3) (ND.scalar 5)]) (by
    intro c hc; simp at hc; rcases hc with rfl | rfl <;> exact ⟨rfl, rfl⟩) (Z := .arr (ND.scalar (1 / 2))) rfl

end AB

namespace AB
open Flt FC
variable {K : Type} [Field K] [LinearOrder K] [IsStrictOrderedRing K]

/-! ### Taylor enclosures -/

/-- the float version of a finite rank-0 coefficient -/
def FRel (c : Coef K) (f : FC K) : Prop := c.Rank0 ∧ c.toFC = f

theorem Agrees.rel {r : Py (Coef K)} {c : FC K} (h : Agrees r c) : PyRel FRel r (.ok c) := by
  obtain ⟨d, rfl, h1, h2⟩ := h; exact PyRel.ok ⟨h1, h2⟩

theorem rel_add (x : Coef K) (x' : FC K) (y : Coef K) (y' : FC K) (hx : FRel x x') (hy : FRel y y') :
    PyRel FRel (IA.add x y) (.ok (x'.add y')) := by
  obtain ⟨h1, rfl⟩ := hx; obtain ⟨h2, rfl⟩ := hy
  exact (agrees_add h1 h2).rel

theorem rel_tpc (x : Coef K) (x' : FC K) (y : Coef K) (y' : FC K) (i j : ℕ) (hx : FRel x x') (hy : FRel y y') :
    PyRel FRel (elementwiseTermProductCoefficient 0 x y i j) (.ok (x'.multiply y')) := by
  obtain ⟨h1, rfl⟩ := hx; obtain ⟨h2, rfl⟩ := hy
  exact (agrees_product h1 h2 fun g g' => ⟨_, rfl, rfl⟩).rel

theorem rel_lbm (x : Coef K) (x' : FC K) (y : Coef K) (y' : FC K) (hx : FRel x x') (hy : FRel y y') :
    PyRel FRel (IA.arbitraryBilinear x y leftBroadcastingMultiply true) (.ok (x'.multiply y')) := by
  obtain ⟨h1, rfl⟩ := hx; obtain ⟨h2, rfl⟩ := hy
  exact (agrees_product h1 h2 fun g g' => ⟨_, rfl, rfl⟩).rel

theorem rank0_ndim {P : Coef K} (hP : P.Rank0) : P.ndim = 0 := by
  cases P with
  | arr a => exact congrArg List.length hP
  | ivl lo hi => exact congrArg List.length hP.1

theorem rel_tpow (x : Coef K) (x' : FC K) (i j : ℕ) (hx : FRel x x') :
    PyRel FRel (elementwiseTermPowerCoefficient 0 x i j) (x'.outerPower j) := by
  obtain ⟨h1, rfl⟩ := hx
  obtain ⟨d, c, g1, g2, g3, g4⟩ := agrees_outerPower h1 j
  unfold elementwiseTermPowerCoefficient
  rw [if_neg (by simp), rank0_ndim h1, g2]
  show PyRel FRel (IA.outerPower x j 0) _
  rw [g1]
  exact PyRel.ok ⟨g3, g4⟩

theorem rel_smul (n : ℕ) (x : Coef K) (x' : FC K) (hx : FRel x x') :
    PyRel FRel (IA.multiply (.arr (ND.scalar (n : K))) x) (.ok ((pt (fin (n : K))).multiply x')) := by
  obtain ⟨h1, rfl⟩ := hx
  exact (agrees_multiply (A := .arr (ND.scalar (n : K))) rfl h1).rel

theorem rel_scalar (x : K) : FRel (.arr (ND.scalar x)) (pt (fin x)) := ⟨rfl, rfl⟩

theorem rel_zero : FRel (.arr (ND.scalar (0 : K))) (pt (fin 0)) := ⟨rfl, rfl⟩

theorem rel_map {E : List (Coef K)} {E' : List (FC K)} (h : List.Forall₂ FRel E E') : (∀ c ∈ E, c.Rank0) ∧ E.map Coef.toFC = E' := by
  induction h with
  | nil => exact ⟨by simp, rfl⟩
  | cons h1 _ ih => exact ⟨by simpa using ⟨h1.1, ih.1⟩, by rw [List.map_cons, ih.2, h1.2]⟩

/-- The float version of a Taylor-enclosure arithmetic for a scalar `x`. -/
structure TRel (t : TEA K) (t' : FT K) : Prop where
  deg : t.maxDegree = t'.maxDegree
  lo : t.trLo.shape = [] ∧ t'.trLo = fin (t.trLo.get [])
  hi : t.trHi.shape = [] ∧ t'.trHi = fin (t.trHi.get [])

theorem TRel.xNdim {t : TEA K} {t' : FT K} (ht : TRel t t') : t.xNdim = 0 := congrArg List.length ht.lo.1

theorem rel_enclose {t : TEA K} {t' : FT K} (ht : TRel t t') {a : Encl K} {a' : List (FC K)} (ha : List.Forall₂ FRel a a') (m : ℕ) :
    PyRel (List.Forall₂ FRel) (encloseEnclosure a t.trustRegion m) (t'.enclose a' m) := by
  unfold encloseEnclosure FT.enclose
  rw [ha.length_eq]
  split_ifs
  · exact PyRel.ok ha
  · obtain ⟨h1, h2⟩ := rel_map (List.forall₂_drop m ha)
    obtain ⟨d, d1, d2, d3⟩ := C75_finite_eval h1 (Z := t.trustRegion) ⟨ht.lo.1, ht.hi.1⟩
    have e : t.trustRegion.toFC = iv t'.trLo t'.trHi := by rw [ht.lo.2, ht.hi.2]; rfl
    rw [e, h2] at d2
    rw [d1, d2, py_ok_bind, py_ok_bind]
    exact PyRel.ok (List.rel_append (List.forall₂_take m ha) (.cons ⟨d3, rfl⟩ .nil))

theorem rel_addCoeffs {a b : Encl K} {a' b' : List (FC K)} (ha : List.Forall₂ FRel a a') (hb : List.Forall₂ FRel b b') :
    PyRel (List.Forall₂ FRel) (TEA.addCoeffs a b) (.ok (FT.addCoeffs a' b')) := by
  induction ha generalizing b b' with
  | nil => cases hb with
    | nil => exact PyRel.ok .nil
    | cons h1 h2 => exact PyRel.ok (.cons h1 h2)
  | @cons x x' as as' h1 h2 ih => cases hb with
    | nil => exact PyRel.ok (.cons h1 h2)
    | @cons y y' bs bs' h3 h4 =>
      obtain ⟨d, g1, g2, g3⟩ := agrees_add h1.1 h3.1
      obtain ⟨u, v, u1, u2, u3⟩ | ⟨e, -, u2⟩ := ih h4
      · cases u2
        unfold TEA.addCoeffs
        rw [g1, u1]
        refine PyRel.ok (.cons ⟨g2, ?_⟩ u3)
        rw [g3, h1.2, h3.2]
      · cases u2

theorem rel_teaAdd {t : TEA K} {t' : FT K} (ht : TRel t t') {a b : Encl K} {a' b' : List (FC K)} (ha : List.Forall₂ FRel a a')
    (hb : List.Forall₂ FRel b b') : PyRel (List.Forall₂ FRel) (t.add a b) (t'.add a' b') := by
  obtain ⟨u, v, u1, u2, u3⟩ | ⟨e, -, u2⟩ := rel_addCoeffs ha hb
  · cases u2
    unfold TEA.add FT.add TEA.truncateIfNecessary
    rw [u1, py_ok_bind, ht.deg]
    exact rel_enclose ht u3 _
  · cases u2

theorem rel_teaNegative {t : TEA K} {t' : FT K} (ht : TRel t t') {a : Encl K} {a' : List (FC K)} (ha : List.Forall₂ FRel a a') :
    PyRel (List.Forall₂ FRel) (t.negative a) (t'.negative a') := by
  unfold TEA.negative FT.negative TEA.truncateIfNecessary
  rw [ht.deg]
  refine rel_enclose ht ?_ _
  rw [List.forall₂_map_left_iff, List.forall₂_map_right_iff]
  exact ha.imp fun x y h => by obtain ⟨h1, rfl⟩ := h; exact agrees_negative h1

theorem validate_rank0 {t : TEA K} {t' : FT K} (ht : TRel t t') {a : Encl K} (ha : ∀ c ∈ a, c.Rank0) : t.validate a = .ok () := by
  unfold TEA.validate
  rw [if_pos]
  rw [List.all_eq_true]
  rintro ⟨i, c⟩ hc
  have hx : t.xShape = [] := ht.lo.1
  have hs : c.shape = [] := by
    have := ha c (by rw [Poly.enum] at hc; exact (List.of_mem_zip hc).2)
    exact List.length_eq_zero_iff.1 (rank0_ndim this)
  have hr : ∀ n, TEA.rep n ([] : List ℕ) = [] := by
    intro n
    unfold TEA.rep; induction n with
    | zero => rfl
    | succ n ih => rw [List.replicate_succ, List.flatten_cons, ih]; rfl
  simp [TEA.coeffShapeOk, hx, hs, hr]

theorem rel_teaMultiply {t : TEA K} {t' : FT K} (ht : TRel t t') {a b : Encl K} {a' b' : List (FC K)} (ha : List.Forall₂ FRel a a')
    (hb : List.Forall₂ FRel b b') : PyRel (List.Forall₂ FRel) (t.multiply a b) (t'.multiply a' b') := by
  unfold TEA.multiply FT.multiply TEA.truncateIfNecessary
  rw [validate_rank0 ht (rel_map ha).1, validate_rank0 ht (rel_map hb).1, py_ok_bind, py_ok_bind, ht.xNdim, ht.deg]
  exact PyRel.bind (Poly.arbitraryBilinear_sim rel_zero rel_add rel_tpc ha hb) fun _ _ h => rel_enclose ht h _

theorem rel_teaPower {t : TEA K} {t' : FT K} (ht : TRel t t') {a : Encl K} {a' : List (FC K)} (ha : List.Forall₂ FRel a a') (p : ℕ) :
    PyRel (List.Forall₂ FRel) (t.powerNat a p) (t'.powerNat a' p) := by
  unfold TEA.powerNat FT.powerNat TEA.truncateIfNecessary
  rw [validate_rank0 ht (rel_map ha).1, py_ok_bind, ht.xNdim, ht.deg]
  cases ha with
  | nil => exact PyRel.err _
  | @cons x x' as as' h1 h2 =>
    refine PyRel.bind (Poly.integerPower_sim rel_zero ?_ rel_add rel_tpc rel_tpow rel_smul (.cons h1 h2) p) fun _ _ h =>
      rel_enclose ht h _
    obtain ⟨h1, -⟩ := h1
    refine ⟨?_, rfl⟩
    cases x with
    | arr a => exact h1
    | ivl lo hi => exact h1.1

theorem rel_compose {t : TEA K} {t' : FT K} (ht : TRel t t') {e a : Encl K} {e' a' : List (FC K)} (he : List.Forall₂ FRel e e')
    (ha : List.Forall₂ FRel a a') : PyRel (List.Forall₂ FRel) (t.composeEnclosures e a) (t'.compose e' a') := by
  unfold TEA.composeEnclosures FT.compose
  have hem : e.isEmpty = e'.isEmpty := by cases he <;> rfl
  rw [hem]
  split_ifs
  · exact PyRel.err _
  · refine PyRel.foldlM (Poly.enum_rel he) ?_ (.cons rel_zero .nil)
    rintro o o' ⟨p, c⟩ ⟨p', c'⟩ ho ⟨hp, hc⟩
    simp only at hp hc
    subst hp
    unfold TEA.composeStep FT.composeStep
    refine PyRel.bind (R := List.Forall₂ FRel) ?_ fun _ _ h => rel_teaAdd ht ho h
    unfold TEA.composeTerm FT.composeTerm
    dsimp only
    split_ifs
    · exact PyRel.ok (.cons hc .nil)
    · refine PyRel.bind (rel_teaPower ht (.cons rel_zero (List.forall₂_drop 1 ha)) p) fun q q' hq => ?_
      have : (pure ((Poly.enum q').map fun it => if it.1 < p then pt (fin 0) else c'.multiply it.2) : Py (List (FC K))) =
          (Poly.enum q').mapM fun it => .ok (if it.1 < p then pt (fin 0) else c'.multiply it.2) := by
        generalize Poly.enum q' = l
        induction l with
        | nil => rfl
        | cons x l ih => rw [List.mapM_cons, ← ih]; rfl
      rw [this]
      refine PyRel.mapM (Poly.enum_rel hq) ?_
      rintro ⟨i, x⟩ ⟨i', x'⟩ ⟨hi, hx⟩
      simp only at hi hx
      subst hi
      dsimp only
      split_ifs
      · exact PyRel.ok rel_zero
      · exact rel_lbm _ _ _ _ hc hx

/-- **C75 (finite values: Taylor enclosures).** On enclosures with finite rank-0 coefficients, every operation of the Taylor-enclosure
arithmetic returns the same enclosure in both models, or raises the same exception in both. -/
theorem C75_finite_operations {t : TEA K} {t' : FT K} (ht : TRel t t') {a b : Encl K} {a' b' : List (FC K)}
    (ha : List.Forall₂ FRel a a') (hb : List.Forall₂ FRel b b') :
    (∀ m, PyRel (List.Forall₂ FRel) (encloseEnclosure a t.trustRegion m) (t'.enclose a' m)) ∧
    PyRel (List.Forall₂ FRel) (t.add a b) (t'.add a' b') ∧
    PyRel (List.Forall₂ FRel) (t.negative a) (t'.negative a') ∧
    PyRel (List.Forall₂ FRel) (t.subtract a b) (t'.subtract a' b') ∧
    PyRel (List.Forall₂ FRel) (t.multiply a b) (t'.multiply a' b') ∧
    (∀ p, PyRel (List.Forall₂ FRel) (t.powerNat a p) (t'.powerNat a' p)) ∧
    PyRel (List.Forall₂ FRel) (t.composeEnclosures b a) (t'.compose b' a') :=
  ⟨rel_enclose ht ha, rel_teaAdd ht ha hb, rel_teaNegative ht ha,
    PyRel.bind (rel_teaNegative ht hb) fun _ _ h => rel_teaAdd ht ha h,
    rel_teaMultiply ht ha hb, rel_teaPower ht ha, rel_compose ht hb ha⟩

/-- **C75 (finite values: element-wise functions).** The same for `get_elementwise_fun`, if the generators agree. -/
theorem C75_finite_elementwise {t : TEA K} {t' : FT K} (ht : TRel t t') {gen : TEA.Generator K}
    {gen' : Flt K → Flt K × Flt K → ℕ → Py (List (FC K))} (hgen : ∀ (x lo hi : ND K) (k : ℕ), x.shape = [] → lo.shape = [] →
      hi.shape = [] → PyRel (List.Forall₂ FRel) (gen x (lo, hi) k)
        (gen' (fin (x.get [])) (fin (lo.get []), fin (hi.get [])) k))
    {a : Encl K} {a' : List (FC K)} (ha : List.Forall₂ FRel a a') :
    PyRel (List.Forall₂ FRel) (t.elementwiseFun gen a none) (t'.elementwiseFun gen' a') := by
  unfold TEA.elementwiseFun FT.elementwiseFun
  refine PyRel.bind (R := fun (c : Coef K) r => c.Rank0 ∧ r = (fin ((TEA.toInterval c).1.get []), fin ((TEA.toInterval c).2.get []))) ?_ ?_
  · unfold TEA.argRegion FT.argRegion
    refine PyRel.bind (rel_enclose ht ha 0) fun E E' hE => ?_
    cases hE with
    | nil => exact PyRel.err _
    | @cons x x' _ _ h1 _ =>
      obtain ⟨h1, rfl⟩ := h1
      cases x with
      | arr a => exact PyRel.ok ⟨h1, rfl⟩
      | ivl lo hi => exact PyRel.ok ⟨h1, rfl⟩
  · rintro c _ ⟨hc, rfl⟩
    have hsh : (TEA.toInterval c).1.shape = [] ∧ (TEA.toInterval c).2.shape = [] := by
      cases c with
      | arr a => exact ⟨hc, hc⟩
      | ivl lo hi => exact hc
    cases ha with
    | nil => exact PyRel.err _
    | @cons x x' as as' h1 h2 =>
      dsimp only
      refine PyRel.bind (R := fun (x : ND K) z => x.shape = [] ∧ z = fin (x.get [])) ?_ ?_
      · obtain ⟨h1, rfl⟩ := h1
        unfold TEA.expansionPoint FT.expansionPoint
        cases x with
        | arr a => exact PyRel.ok ⟨h1, rfl⟩
        | ivl lo hi =>
          simp only [Coef.toFC]
          rw [ht.deg]
          split_ifs
          · exact PyRel.ok ⟨h1.1, rfl⟩
          · exact PyRel.err _
      · rintro z _ ⟨hz, rfl⟩
        rw [ht.deg]
        exact PyRel.bind (hgen z _ _ _ hz hsh.1 hsh.2) fun _ _ h => rel_compose ht h (.cons h1 h2)

/-- The hypotheses are met: x about 1 over [0, 3] in degree 2, squared. -/
example : PyRel (List.Forall₂ FRel)
    ((TEA.mk 2 (ND.scalar (-1 : ℚ)) (ND.scalar 2)).powerNat [.arr (ND.scalar 1), .arr (ND.scalar 1)] 2)
    ((FT.mk 2 (fin (-1 : ℚ)) (fin 2)).powerNat [pt (fin 1), pt (fin 1)] 2) :=
  rel_teaPower ⟨rfl, ⟨rfl, rfl⟩, ⟨rfl, rfl⟩⟩ (.cons (rel_scalar 1) (.cons (rel_scalar 1) .nil)) 2

end AB
