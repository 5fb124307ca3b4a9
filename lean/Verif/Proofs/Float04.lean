/-
Proof of C86, continued: contractions at degree 0, in exact arithmetic.
-/
import Verif.Proofs.Float03
import Verif.Props.Interval
import Verif.Props.Dot
import Verif.Spec.Isotone

set_option linter.unusedSectionVars false

namespace AB
open ND (scalar)
variable {K : Type} [Field K] [LinearOrder K] [IsStrictOrderedRing K]

/-- a bilinear operation with nonnegative weights, where it succeeds -/
theorem bilin_holds {A B r : Coef K} {op : ND K → ND K → Py (ND K)} {R : List ℕ}
    {terms : List ℕ → List (K × List ℕ × List ℕ)}
    (hv : ∀ L, ValidIdx R L → ∀ t ∈ terms L, 0 ≤ t.1 ∧ ValidIdx A.shape t.2.1 ∧ ValidIdx B.shape t.2.2)
    (hop : ∀ x y s : ND K, x.shape = A.shape → y.shape = B.shape → op x y = .ok s → s.shape = R ∧
      ∀ L, ValidIdx R L → s.get L = ((terms L).map fun t => t.1 * (x.get t.2.1 * y.get t.2.2)).sum)
    {x y s : ND K} (hx : A.Holds x) (hy : B.Holds y) (hs : op x y = .ok s)
    (hr : IA.arbitraryBilinear A B op = .ok r) : r.Holds s := by
  have wA := hx.1
  have wB := hy.1
  have hshape : ∀ x y s : ND K, x.shape = A.shape → y.shape = B.shape → op x y = .ok s → s.shape = R :=
    fun x y s h1 h2 h3 => (hop x y s h1 h2 h3).1
  obtain ⟨r1, r2, -, -⟩ := IA.bilinearFalse_ok wA wB hshape hr
  refine ⟨r1, Coef.contains_of r1 (by rw [r2]; exact hshape x y s hx.2.1 hy.2.1 hs) fun L hL => ?_⟩
  rw [r2] at hL
  have hval : ∀ x y s : ND K, x.shape = A.shape → y.shape = B.shape → op x y = .ok s →
      s.bget L = ((terms L).map fun t => t.1 * (x.bget t.2.1 * y.bget t.2.2)).sum := by
    intro x y s hx hy hs
    obtain ⟨h2, h3⟩ := hop x y s hx hy hs
    rw [ND.bget_valid s (by rw [h2]; exact hL), h3 L hL]
    congr 1
    apply List.map_congr_left
    intro t ht
    obtain ⟨-, v1, v2⟩ := hv L hL t ht
    rw [ND.bget_valid x (by rw [hx]; exact v1), ND.bget_valid y (by rw [hy]; exact v2)]
  rw [hval x y s hx.2.1 hy.2.1 hs]
  exact IA.bilinearFalse_mem wA wB hshape hr hL.length.le hval (Or.inr fun t ht => (hv L hL t ht).1)
    (s := x.bget) (t := y.bget)
    (fun t ht => hx.2.memb (Coef.sameShape_iff.2 wA) (ble_refl _) (hv L hL t ht).2.1)
    (fun t ht => hy.2.memb (Coef.sameShape_iff.2 wB) (ble_refl _) (hv L hL t ht).2.2)

namespace JB
open TEA Lax

theorem arbitraryBilinear0 (hR : RoundedArith K) (hF : UnitLaws K) {T : TEA K} (hd : T.maxDegree = 0) {a b e : Encl K}
    {pbb : ND K → ND K → ℕ → ℕ → Py (ND K)} {R : List ℕ} {terms : List ℕ → List (K × List ℕ × List ℕ)}
    {y1 y2 y : ND K} (ha : Holds0 y1 a) (hb : Holds0 y2 b)
    (hv : ∀ L, ValidIdx R L → ∀ t ∈ terms L, 0 ≤ t.1 ∧ ValidIdx y1.shape t.2.1 ∧ ValidIdx y2.shape t.2.2)
    (hop : ∀ x y s : ND K, x.shape = y1.shape → y.shape = y2.shape → pbb x y 0 0 = .ok s → s.shape = R ∧
      ∀ L, ValidIdx R L → s.get L = ((terms L).map fun t => t.1 * (x.get t.2.1 * y.get t.2.2)).sum)
    (hy : pbb y1 y2 0 0 = .ok y) (h : T.arbitraryBilinear a b pbb = .ok e) : Holds0 y e := by
  obtain ⟨a, rfl, ha⟩ := ha
  obtain ⟨b, rfl, hb⟩ := hb
  unfold TEA.arbitraryBilinear at h
  rw [hd] at h
  replace h : [((0, a), (0, b))].foldlM (T.bilinearStep pbb) [Coef.arr (scalar 0)] = .ok e := h
  simp only [List.foldlM_cons, List.foldlM_nil, py_bind_ok, py_pure] at h
  obtain ⟨p, hp, rfl⟩ := h
  simp only [TEA.bilinearStep, py_bind_ok, Nat.add_zero, Nat.zero_min, List.getElem?_cons_zero, py_pure,
    List.set_cons_zero] at hp
  obtain ⟨c, hc, o, ho, rfl⟩ := hp
  unfold termEnclosureCoefficient at hc
  rw [if_pos (by omega)] at hc
  simp only [Nat.zero_mul] at hc
  rw [ha.2.1, hb.2.1] at hop hv
  exact ⟨o, rfl, Rnd.zero_add_holds hR hF (bilin_holds hv hop ha hb hy hc) ho⟩

/-- A `dot_general` step is right at degree 0. -/
theorem stepHolds_dot (hR : RoundedArith K) (hF : UnitLaws K) {lib : Lib K} {sem : Sem K} {T : TEA K}
    (hd : T.maxDegree = 0) (lc rc lb rb : List ℕ) : StepHolds lib sem T (.dotGeneral lc rc lb rb) := by
  intro f ins vals outs e hf hins hy h
  simp only [pushforward, Option.some.injEq] at hf
  subst hf
  cases hins with
  | nil => cases h
  | cons ha hins =>
    cases hins with
    | nil => cases h
    | cons hb hins =>
      cases hins with
      | cons _ _ => cases h
      | nil =>
        rename_i i1 v1 i2 v2
        obtain ⟨y, rfl, hz⟩ := oneF_ok (show (Lax.dotGeneral lc rc lb rb v1.canon v2.canon).one = .ok outs from hy)
        refine ⟨y, rfl, ?_⟩
        rw [← bind2_dotGeneral lib.sem] at hz
        obtain ⟨y', hy', hs⟩ := dotPairwise_zero lib.sem hz
        rw [bind2_dotGeneral] at hz
        obtain ⟨hok, -⟩ := dotGeneral_ok hz
        obtain ⟨k1, k2⟩ := C49_contract (K := K) lib.sem [] (show DotOk lc rc lb rb v1.shape v2.shape from hok)
        refine holds_congr (arbitraryBilinear0 hR hF hd ha.1 hb.1 (fun L hL t ht => ⟨?_, k1 L hL t ht⟩)
          (fun x y s hx hy hs => ?_) hy' h) hs.symm
        · unfold dotTerms at ht
          obtain ⟨J, _, rfl⟩ := List.mem_map.1 ht
          exact zero_le_one
        · obtain ⟨q1, q2⟩ := k2 0 0 [] [] x y s (by simp) (by simp) (by simpa using hx) (by simpa using hy)
            (by simpa using hs)
          refine ⟨by simpa using q1, fun L hL => ?_⟩
          have := q2 L [] [] hL .nil .nil
          simpa using this

/-- A convolution step is right at degree 0. -/
theorem stepHolds_conv (hR : RoundedArith K) (hF : UnitLaws K) {lib : Lib K} {sem : Sem K} {T : TEA K}
    (hd : T.maxDegree = 0) {op : ND K → ND K → Py (ND K)} (hop : NonnegBilinear op) :
    StepHolds lib sem T (.conv op) := by
  intro f ins vals outs e hf hins hy h
  simp only [pushforward, Option.some.injEq] at hf
  subst hf
  cases hins with
  | nil => cases h
  | cons ha hins =>
    cases hins with
    | nil => cases h
    | cons hb hins =>
      cases hins with
      | cons _ _ => cases h
      | nil =>
        rename_i i1 v1 i2 v2
        obtain ⟨y, rfl, hz⟩ := oneF_ok (show (op v1.canon v2.canon).one = .ok outs from hy)
        refine ⟨y, rfl, ?_⟩
        have key : ∀ u v s, convPairwise lib.sem op u v 0 0 = .ok s ↔ op u.canon v.canon = .ok s := by
          intro u v s
          unfold convPairwise
          simp only [py_bind_ok, moveLastToFront, if_true, Except.ok.injEq, exists_eq_left', bind2_conv, and_self,
            py_pure, exists_eq_right]
        obtain ⟨R, terms, k1, k2⟩ := hop v1.shape v2.shape
        refine arbitraryBilinear0 hR hF hd ha.1 hb.1 k1 (fun x y s hx hy hs => ?_) ((key _ _ _).2 hz) h
        rw [key] at hs
        obtain ⟨q1, q2⟩ := k2 x.canon y.canon s hx hy hs
        refine ⟨q1, fun L hL => ?_⟩
        rw [q2 L hL]
        congr 1
        apply List.map_congr_left
        intro t ht
        obtain ⟨-, w1, w2⟩ := k1 L hL t ht
        rw [ND.canon_get _ (by rw [hx]; exact w1), ND.canon_get _ (by rw [hy]; exact w2)]

end JB
end AB
