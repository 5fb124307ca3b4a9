import Verif.Proofs.EnclFloat
import Mathlib.Algebra.BigOperators.Ring.Finset

set_option linter.unusedSectionVars false

namespace AB
open Flt FC
variable {K : Type} [Field K] [LinearOrder K] [IsStrictOrderedRing K]

namespace FC

/-- a choice of a number in every coefficient, 0 beyond the end -/
def Sel (E : List (FC K)) (u : ℕ → K) : Prop :=
  (∀ (i : ℕ) (c : FC K), E[i]? = some c → c.Has (u i)) ∧ ∀ i, E.length ≤ i → u i = 0

theorem sel_of {E : List (FC K)} {z y : K} (h : EnclHas E z y) :
    ∃ u, Sel E u ∧ y = ∑ i ∈ Finset.range E.length, u i * z ^ i := by
  obtain ⟨u, h1, h2⟩ := h
  refine ⟨fun i => if i < E.length then u i else 0, ⟨fun i c hc => ?_, fun i hi => if_neg (by omega)⟩, ?_⟩
  · beta_reduce; rw [if_pos (List.getElem?_eq_some_iff.1 hc).1]; exact h1 i c hc
  · rw [h2]; refine Finset.sum_congr rfl fun i hi => ?_
    beta_reduce; rw [if_pos (Finset.mem_range.1 hi)]

theorem Sel.enclHas {E : List (FC K)} {u : ℕ → K} (h : Sel E u) (z : K) :
    EnclHas E z (∑ i ∈ Finset.range E.length, u i * z ^ i) := ⟨u, h.1, rfl⟩

theorem Sel.sum {E : List (FC K)} {u : ℕ → K} (h : Sel E u) (z : K) {N : ℕ} (hN : E.length ≤ N) :
    ∑ i ∈ Finset.range E.length, u i * z ^ i = ∑ i ∈ Finset.range N, u i * z ^ i := by
  refine Finset.sum_subset (fun i hi => ?_) fun i _ hi => ?_
  · simp only [Finset.mem_range] at hi ⊢; omega
  · rw [h.2 i (by simpa using hi), zero_mul]

theorem evalFold {z : K} {Z : FC K} (hZ : Z.Has z) (l : List (FC K)) (u : ℕ → K) (n : ℕ) (acc : FC K) (v : K)
    (hl : ∀ (i : ℕ) (c : FC K), l[i]? = some c → c.Has (u (n + i))) (ha : acc.Has v) :
    ∃ r, l.foldlM (Poly.evalStep Z (fun a b => .ok (FC.multiply a b)) outerPower (fun a b => .ok (FC.add a b))
      (pt (fin 1))) (n, acc) = .ok r ∧ r.2.Has (v + ∑ i ∈ Finset.range l.length, u (n + i) * z ^ (n + i)) := by
  induction l generalizing n acc v with
  | nil => exact ⟨_, rfl, by simpa using ha⟩
  | cons c l ih =>
    rw [List.foldlM_cons]
    obtain ⟨zi, h1, h2⟩ : ∃ zi, (if n > 0 then outerPower Z (n : ℤ) else .ok (pt (fin 1))) = .ok zi ∧ zi.Has (z ^ n) := by
      by_cases hn : n = 0
      · subst hn; exact ⟨_, rfl, by simp [Has]⟩
      · rw [if_pos (by omega)]
        obtain ⟨zi, h⟩ : ∃ zi, outerPower Z (n : ℤ) = .ok zi := by
          unfold FC.outerPower; rw [if_neg (by omega)]; split_ifs <;> exact ⟨_, rfl⟩
        exact ⟨zi, h, hZ.outerPower h⟩
    have hc := hl 0 c rfl
    have hs : Poly.evalStep Z (fun a b => .ok (FC.multiply a b)) outerPower (fun a b => .ok (FC.add a b)) (pt (fin 1)) (n, acc) c
        = .ok (n + 1, acc.add (c.multiply zi)) := by
      unfold Poly.evalStep
      dsimp only
      split_ifs at h1 ⊢ with e
      · rw [h1]; rfl
      · cases h1; rfl
    rw [hs, py_ok_bind]
    obtain ⟨r, r1, r2⟩ := ih (n + 1) (acc.add (c.multiply zi)) (v + u n * z ^ n) (fun i c' hc' => by
      have := hl (i + 1) c' (by simpa using hc')
      rwa [show n + (i + 1) = n + 1 + i by omega] at this) (ha.add (hc.multiply h2))
    refine ⟨r, r1, ?_⟩
    rw [List.length_cons, Finset.sum_range_succ']
    convert r2 using 1
    simp only [add_zero]
    rw [add_comm (∑ i ∈ Finset.range l.length, _) (u n * z ^ n), ← add_assoc]
    congr 1
    refine Finset.sum_congr rfl fun i _ => ?_
    rw [show n + (i + 1) = n + 1 + i by omega]

/-- evaluation returns, and the result contains what the enclosure contains -/
theorem evalTaylor_has {E : List (FC K)} {u : ℕ → K} (hE : ∀ (i : ℕ) (c : FC K), E[i]? = some c → c.Has (u i)) {Z : FC K} {z : K}
    (hZ : Z.Has z) : ∃ r, evalTaylor E Z = .ok r ∧ r.Has (∑ i ∈ Finset.range E.length, u i * z ^ i) := by
  obtain ⟨r, r1, r2⟩ := evalFold hZ E u 0 (pt (fin 0)) 0 (by simpa using hE) rfl
  refine ⟨r.2, ?_, by simpa using r2⟩
  unfold evalTaylor Poly.evalPolynomial
  rw [r1]; rfl

end FC

namespace FT
variable {t : FT K} {z : K} (hz : (iv t.trLo t.trHi).Has z)
include hz

theorem enclose_sel {E : List (FC K)} {u : ℕ → K} (hE : Sel E u) (m : ℕ) :
    ∃ E' u', t.enclose E m = .ok E' ∧ Sel E' u' ∧ E'.length = min E.length (m + 1) ∧ (∀ i < m, u' i = u i) ∧
      ∑ i ∈ Finset.range E'.length, u' i * z ^ i = ∑ i ∈ Finset.range E.length, u i * z ^ i := by
  unfold FT.enclose
  by_cases h : E.length ≤ m + 1
  · rw [if_pos h]
    exact ⟨E, u, rfl, hE, by omega, fun _ _ => rfl, rfl⟩
  · rw [if_neg h]
    obtain ⟨c, c1, c2⟩ := evalTaylor_has (E := E.drop m) (u := fun i => u (m + i)) (fun i c hc => by
      rw [List.getElem?_drop] at hc
      exact hE.1 _ c hc) hz
    rw [c1]
    have hl : (E.take m).length = m := by simp; omega
    refine ⟨E.take m ++ [c], fun i => if i < m then u i else if i = m then ∑ i ∈ Finset.range (E.drop m).length, u (m + i) * z ^ i else 0,
      rfl, ⟨fun i d hd => ?_, fun i hi => ?_⟩, ?_, fun i hi => if_pos hi, ?_⟩
    · beta_reduce
      rcases lt_trichotomy i m with h' | rfl | h'
      · rw [if_pos h']
        rw [List.getElem?_append_left (by omega), List.getElem?_take_of_lt h'] at hd
        exact hE.1 i d hd
      · rw [if_neg (lt_irrefl _), if_pos rfl]
        rw [List.getElem?_append_right (by omega), hl] at hd
        simp at hd; subst hd; exact c2
      · rw [List.getElem?_eq_none (by simp; omega)] at hd; cases hd
    · rw [List.length_append, hl] at hi
      simp at hi
      beta_reduce
      rw [if_neg (by omega), if_neg (by omega)]
    · simp; omega
    · rw [List.length_append, hl, List.length_singleton, Finset.sum_range_succ]
      beta_reduce
      rw [if_neg (lt_irrefl _), if_pos rfl]
      have h1 : ∑ i ∈ Finset.range m, (if i < m then u i else if i = m then ∑ i ∈ Finset.range (E.drop m).length, u (m + i) * z ^ i else 0) * z ^ i
          = ∑ i ∈ Finset.range m, u i * z ^ i :=
        Finset.sum_congr rfl fun i hi => by rw [if_pos (Finset.mem_range.1 hi)]
      rw [h1, Finset.sum_mul, List.length_drop]
      have e : E.length = m + (E.length - m) := by omega
      conv_rhs => rw [e, Finset.sum_range_add]
      congr 1
      refine Finset.sum_congr rfl fun i _ => ?_
      rw [pow_add]; ring

omit hz in
theorem addCoeffs_sel {a b : List (FC K)} {u v : ℕ → K} (ha : Sel a u) (hb : Sel b v) :
    Sel (addCoeffs a b) (u + v) ∧ (addCoeffs a b).length = max a.length b.length := by
  induction a generalizing b u v with
  | nil =>
    have hu : u = 0 := funext fun i => ha.2 i (by simp)
    subst hu
    rw [zero_add]
    cases b with
    | nil => exact ⟨hb, by simp [addCoeffs]⟩
    | cons b bs => exact ⟨hb, by simp [addCoeffs]⟩
  | cons a as ih =>
    cases b with
    | nil =>
      have hv : v = 0 := funext fun i => hb.2 i (by simp)
      subst hv
      rw [add_zero]
      exact ⟨ha, by simp [addCoeffs]⟩
    | cons b bs =>
      obtain ⟨i1, i2⟩ := ih (b := bs) (u := fun i => u (i + 1)) (v := fun i => v (i + 1))
        ⟨fun i c hc => ha.1 (i + 1) c (by simpa using hc), fun i hi => ha.2 (i + 1) (by simpa using hi)⟩
        ⟨fun i c hc => hb.1 (i + 1) c (by simpa using hc), fun i hi => hb.2 (i + 1) (by simpa using hi)⟩
      refine ⟨⟨fun i c hc => ?_, fun i hi => ?_⟩, ?_⟩
      · cases i with
        | zero =>
          simp [addCoeffs] at hc; subst hc
          exact (ha.1 0 a rfl).add (hb.1 0 b rfl)
        | succ i => exact i1.1 i c (by simpa [addCoeffs] using hc)
      · cases i with
        | zero => simp [addCoeffs] at hi
        | succ i => exact i1.2 i (by simpa [addCoeffs] using hi)
      · simp [addCoeffs, i2]

theorem add_sel {a b : List (FC K)} {u v : ℕ → K} (ha : Sel a u) (hb : Sel b v) :
    ∃ c w, t.add a b = .ok c ∧ Sel c w ∧ c.length = min (max a.length b.length) (t.maxDegree + 1) ∧
      ∑ i ∈ Finset.range c.length, w i * z ^ i =
        ∑ i ∈ Finset.range a.length, u i * z ^ i + ∑ i ∈ Finset.range b.length, v i * z ^ i := by
  obtain ⟨s1, s2⟩ := addCoeffs_sel ha hb
  obtain ⟨c, w, h1, h2, h3, -, h4⟩ := enclose_sel hz s1 t.maxDegree
  refine ⟨c, w, h1, h2, by rw [h3, s2], ?_⟩
  rw [h4, s2, ha.sum z (le_max_left _ b.length), hb.sum z (le_max_right a.length _), ← Finset.sum_add_distrib]
  exact Finset.sum_congr rfl fun i _ => by simp [add_mul]

theorem negative_sel {a : List (FC K)} {u : ℕ → K} (ha : Sel a u) :
    ∃ c w, t.negative a = .ok c ∧ Sel c w ∧ ∑ i ∈ Finset.range c.length, w i * z ^ i =
      - ∑ i ∈ Finset.range a.length, u i * z ^ i := by
  have s1 : Sel (a.map FC.negative) (-u) := by
    refine ⟨fun i c hc => ?_, fun i hi => by simp [ha.2 i (by simpa using hi)]⟩
    rw [List.getElem?_map, Option.map_eq_some_iff] at hc
    obtain ⟨d, hd, rfl⟩ := hc
    exact (ha.1 i d hd).negative
  obtain ⟨c, w, h1, h2, -, -, h4⟩ := enclose_sel hz s1 t.maxDegree
  refine ⟨c, w, h1, h2, ?_⟩
  rw [h4, List.length_map, ← Finset.sum_neg_distrib]
  exact Finset.sum_congr rfl fun i _ => by simp

omit hz in
/-- scalar values: degree `i` counts `z ^ i` times -/
def scalG (z : K) : Poly.Graded K K where
  mul _ _ u v := u * v
  pow _ p u := u ^ p
  one := 1
  val i := (AddMonoidHom.mulRight (z ^ i))
  val_mul i j u v := by simp [pow_add]; ring
  val_pow i p u := by simp [mul_pow, pow_mul]
  val_one := by simp
  mul_zero := by simp
  zero_mul := by simp
  zero_pow := by simp

omit hz in
theorem scal_laws (z : K) : Poly.Laws (scalG z) (fun _ c u => FC.Has c u) (fun _ c u => FC.Has c u) (fun _ c u => FC.Has c u)
    (fun _ c u => FC.Has c u) (fun x y => .ok (x.add y)) (pt (fin 0)) fun x y _ _ => .ok (x.multiply y) where
  hzero _ := rfl
  hsub h := h
  hadd h1 h2 h3 := by cases h3; exact h1.add h2
  htpc h1 h2 h3 := by cases h3; exact h1.multiply h2

omit hz in
theorem scal_powLaws (z : K) : Poly.PowLaws (scalG z) (fun _ c u => FC.Has c u) (fun _ c u => FC.Has c u)
    (fun _ c u => FC.Has c u) (pt (fin 1)) (fun c _ k => c.outerPower k)
    (fun n c => .ok ((pt (fin (n : K))).multiply c)) where
  hone := rfl
  htpow h1 h2 := h1.outerPower h2
  hsmul {i n x r u} h1 h2 := by
    cases h2
    rw [nsmul_eq_mul]
    exact Has.multiply (A := pt (fin (n : K))) rfl h1

theorem multiply_sel {a b c : List (FC K)} {u v : ℕ → K} (ha : Sel a u) (hb : Sel b v) (hne : a ≠ []) (hne' : b ≠ [])
    (h : t.multiply a b = .ok c) : ∃ w, Sel c w ∧ ∑ i ∈ Finset.range c.length, w i * z ^ i =
      (∑ i ∈ Finset.range a.length, u i * z ^ i) * ∑ i ∈ Finset.range b.length, v i * z ^ i := by
  simp only [FT.multiply, py_bind_ok] at h
  obtain ⟨p, hp, h⟩ := h
  obtain ⟨-, w, w1, w2, w3⟩ := Poly.arbitraryBilinear_rel (scal_laws z) hne hne' ha.1 hb.1 hp
  obtain ⟨c', w', h1, h2, -, -, h4⟩ := enclose_sel hz (E := p) (u := w)
    ⟨w1, fun i hi => w2 i (List.getElem?_eq_none hi)⟩ t.maxDegree
  obtain rfl : c' = c := Except.ok.inj (h1.symm.trans h)
  exact ⟨w', h2, h4.trans w3⟩

theorem powerNat_sel {a c : List (FC K)} {u : ℕ → K} (ha : Sel a u) {p : ℕ} (h : t.powerNat a p = .ok c) :
    ∃ w, Sel c w ∧ ∑ i ∈ Finset.range c.length, w i * z ^ i = (∑ i ∈ Finset.range a.length, u i * z ^ i) ^ p ∧
      (u 0 = 0 → ∀ i < p, i < t.maxDegree → w i = 0) := by
  cases a with
  | nil => cases h
  | cons a0 a =>
    simp only [FT.powerNat, py_bind_ok] at h
    obtain ⟨q, hq, h⟩ := h
    obtain ⟨-, w, w1, w2, w3, w4⟩ := Poly.integerPower_rel (scal_laws z) (scal_powLaws z) (by simp) ha.1 hq
    obtain ⟨c', w', h1, h2, -, h3, h4⟩ := enclose_sel hz (E := q) (u := w)
      ⟨w1, fun i hi => w2 i (List.getElem?_eq_none hi)⟩ t.maxDegree
    obtain rfl : c' = c := Except.ok.inj (h1.symm.trans h)
    exact ⟨w', h2, h4.trans w3, fun h0 i hi hi' => by rw [h3 i hi', w4 h0 i hi]⟩

theorem composeTerm_sel {d r : List (FC K)} {u : ℕ → K} (hd : Sel d u) (h0 : u 0 = 0) {p : ℕ} (hp : p ≤ t.maxDegree)
    {c : FC K} {w : K} (hc : c.Has w) (h : t.composeTerm d p c = .ok r) :
    ∃ v, Sel r v ∧ ∑ i ∈ Finset.range r.length, v i * z ^ i = w * (∑ i ∈ Finset.range d.length, u i * z ^ i) ^ p := by
  unfold composeTerm at h
  split_ifs at h with e
  · cases h; subst e
    refine ⟨fun i => if i = 0 then w else 0, ⟨fun i c' h' => ?_, fun i hi => if_neg (by simp at hi; omega)⟩, by simp⟩
    cases i with
    | zero => simp at h'; subst h'; simpa using hc
    | succ i => simp at h'
  · simp only [py_bind_ok, py_pure] at h
    obtain ⟨q, hq, rfl⟩ := h
    obtain ⟨v, v1, v2, v3⟩ := powerNat_sel hz hd hq
    have hv : ∀ i < p, v i = 0 := fun i hi => v3 h0 i hi (by omega)
    have hlen : ((Poly.enum q).map fun it : ℕ × FC K => if it.1 < p then pt (fin 0) else c.multiply it.2).length = q.length := by
      simp [Poly.enum]
    refine ⟨fun i => w * v i, ⟨fun i c' h' => ?_, fun i hi => ?_⟩, ?_⟩
    · rw [List.getElem?_map, Poly.enum_getElem?, Option.map_map, Option.map_eq_some_iff] at h'
      obtain ⟨x, hx, rfl⟩ := h'
      simp only [Function.comp]
      split_ifs with hi
      · show (0 : K) = w * v i
        rw [hv i hi, mul_zero]
      · exact hc.multiply (v1.1 i x hx)
    · rw [hlen] at hi
      beta_reduce
      rw [v1.2 i hi, mul_zero]
    · rw [hlen, ← v2, Finset.mul_sum]
      exact Finset.sum_congr rfl fun i _ => by ring

theorem composeFold_sel {d : List (FC K)} {u : ℕ → K} (hd : Sel d u) (h0 : u 0 = 0) (l : List (ℕ × FC K)) {w : ℕ → K}
    (hl : ∀ x ∈ l, x.1 ≤ t.maxDegree ∧ x.2.Has (w x.1)) {o r : List (FC K)} {v : ℕ → K} (ho : Sel o v)
    (h : l.foldlM (t.composeStep d) o = .ok r) :
    ∃ v', Sel r v' ∧ ∑ i ∈ Finset.range r.length, v' i * z ^ i = ∑ i ∈ Finset.range o.length, v i * z ^ i +
      (l.map fun x => w x.1 * (∑ i ∈ Finset.range d.length, u i * z ^ i) ^ x.1).sum := by
  induction l generalizing o v with
  | nil => simp at h; subst h; exact ⟨v, ho, by simp⟩
  | cons x l ih =>
    rw [List.foldlM_cons] at h
    simp only [composeStep, py_bind_ok] at h
    obtain ⟨o', ⟨q, hq, h1⟩, h⟩ := h
    obtain ⟨hx1, hx2⟩ := hl x (by simp)
    obtain ⟨s, s1, s2⟩ := composeTerm_sel hz hd h0 hx1 hx2 hq
    obtain ⟨c, s', e1, e2, -, e4⟩ := add_sel hz ho s1
    obtain rfl : c = o' := Except.ok.inj (e1.symm.trans h1)
    obtain ⟨v', f1, f2⟩ := ih (fun y hy => hl y (by simp [hy])) e2 h
    refine ⟨v', f1, ?_⟩
    rw [f2, e4, s2, List.map_cons, List.sum_cons]; ring

theorem compose_sel {e arg r : List (FC K)} {u w : ℕ → K} (hu : Sel arg u) (hw : Sel e w) (hdeg : e.length ≤ t.maxDegree + 1)
    (hne : arg ≠ []) (h : t.compose e arg = .ok r) :
    ∃ v, Sel r v ∧ ∑ i ∈ Finset.range r.length, v i * z ^ i =
      ∑ p ∈ Finset.range e.length, w p * (∑ i ∈ Finset.range arg.length, u i * z ^ i - u 0) ^ p := by
  unfold FT.compose at h
  split_ifs at h with he
  obtain ⟨a0, as, rfl⟩ := List.exists_cons_of_ne_nil hne
  have hd : Sel (pt (fin 0) :: (a0 :: as).drop 1) (fun i => if i = 0 then 0 else u i) := by
    refine ⟨fun i c hc => ?_, fun i hi => ?_⟩
    · cases i with
      | zero => simp at hc; subst hc; simp [Has]
      | succ i => simpa using hu.1 (i + 1) c (by simpa using hc)
    · cases i with
      | zero => simp at hi
      | succ i => simpa using hu.2 (i + 1) (by simpa using hi)
  obtain ⟨v, v1, v2⟩ := composeFold_sel hz hd (by simp) (Poly.enum e) (w := w) (fun x hx => by
    obtain ⟨i, c⟩ := x
    have := Poly.mem_enum.1 hx
    have hi := (List.getElem?_eq_some_iff.1 this).1
    exact ⟨by show i ≤ t.maxDegree; omega, hw.1 i c this⟩) (o := [pt (fin 0)]) (v := fun _ => 0)
    ⟨fun i c hc => by
      cases i with
      | zero => simp at hc; subst hc; simp [Has]
      | succ i => simp at hc, fun _ _ => rfl⟩ h
  refine ⟨v, v1, ?_⟩
  rw [v2]
  have e1 : ∑ i ∈ Finset.range (pt (fin 0) :: (a0 :: as).drop 1).length, (if i = 0 then 0 else u i) * z ^ i =
      ∑ i ∈ Finset.range (a0 :: as).length, u i * z ^ i - u 0 := by
    simp only [List.drop_succ_cons, List.drop_zero, List.length_cons]
    rw [Finset.sum_range_succ', Finset.sum_range_succ' (fun i => u i * z ^ i)]
    simp
  rw [e1]
  simp only [zero_mul, Finset.sum_const_zero, zero_add]
  exact Poly.enum_sum e fun p => w p * (∑ i ∈ Finset.range (a0 :: as).length, u i * z ^ i - u 0) ^ p

end FT
end AB
