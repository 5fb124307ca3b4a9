import Verif.Proofs.Interval2

set_option linter.unusedSectionVars false

namespace AB
variable {K : Type} [Field K] [LinearOrder K] [IsStrictOrderedRing K]

namespace IA
open Coef

theorem map2_total_R (f : K → K → K) {x y : ND K} {R : List ℕ} (hx : x.shape = R) (hy : y.shape = R) :
    ∃ r, ND.map2 f x y = .ok r ∧ r.shape = R := by
  refine ⟨_, ND.map2_same f (hx.trans hy.symm), hx⟩

/-- bilinear operations do not raise when the underlying operation does not -/
theorem bilinear_total {op : ND K → ND K → Py (ND K)} {a b : Coef K} {R : List ℕ} (flag : Bool)
    (ha : a.WF) (hb : b.WF)
    (hR : ∀ x y, x.shape = a.shape → y.shape = b.shape → ∃ s, op x y = .ok s ∧ s.shape = R) :
    ∃ r, arbitraryBilinear a b op flag = .ok r := by
  cases a with
  | arr a => cases b with
    | arr b =>
      obtain ⟨s, hs, -⟩ := hR a b rfl rfl
      exact ⟨.arr s, by simp [arbitraryBilinear, hs]⟩
    | ivl b0 b1 =>
      have hb' : b1.shape = (Coef.ivl b0 b1).shape := (WF_ivl.1 hb).symm
      cases flag with
      | true =>
        obtain ⟨s, hs, hs'⟩ := hR a b0 rfl rfl
        obtain ⟨t, ht, ht'⟩ := hR a b1 rfl hb'
        obtain ⟨m, hm, -⟩ := map2_total_R min hs' ht'
        obtain ⟨M, hM, -⟩ := map2_total_R max hs' ht'
        exact ⟨.ivl m M, by simp [arbitraryBilinear, bilinearProduct, endpoints, reduce, *]⟩
      | false =>
        obtain ⟨s1, hs1, hs1'⟩ := hR (posPart a) b0 rfl rfl
        obtain ⟨s2, hs2, hs2'⟩ := hR (negPart a) b1 rfl hb'
        obtain ⟨s3, hs3, hs3'⟩ := hR (posPart a) b1 rfl hb'
        obtain ⟨s4, hs4, hs4'⟩ := hR (negPart a) b0 rfl rfl
        obtain ⟨m, hm, -⟩ := map2_total_R (· + ·) hs1' hs2'
        obtain ⟨M, hM, -⟩ := map2_total_R (· + ·) hs3' hs4'
        exact ⟨.ivl m M, by simp [arbitraryBilinear, bilinearGeneral, *]⟩
  | ivl a0 a1 =>
    have ha' : a1.shape = (Coef.ivl a0 a1).shape := (WF_ivl.1 ha).symm
    cases b with
    | arr b =>
      cases flag with
      | true =>
        obtain ⟨s, hs, hs'⟩ := hR a0 b rfl rfl
        obtain ⟨t, ht, ht'⟩ := hR a1 b ha' rfl
        obtain ⟨m, hm, -⟩ := map2_total_R min hs' ht'
        obtain ⟨M, hM, -⟩ := map2_total_R max hs' ht'
        exact ⟨.ivl m M, by simp [arbitraryBilinear, bilinearProduct, endpoints, reduce, *]⟩
      | false =>
        obtain ⟨s1, hs1, hs1'⟩ := hR a0 (posPart b) rfl rfl
        obtain ⟨s2, hs2, hs2'⟩ := hR a1 (negPart b) ha' rfl
        obtain ⟨s3, hs3, hs3'⟩ := hR a1 (posPart b) ha' rfl
        obtain ⟨s4, hs4, hs4'⟩ := hR a0 (negPart b) rfl rfl
        obtain ⟨m, hm, -⟩ := map2_total_R (· + ·) hs1' hs2'
        obtain ⟨M, hM, -⟩ := map2_total_R (· + ·) hs3' hs4'
        exact ⟨.ivl m M, by simp [arbitraryBilinear, bilinearGeneral, *]⟩
    | ivl b0 b1 =>
      have hb' : b1.shape = (Coef.ivl b0 b1).shape := (WF_ivl.1 hb).symm
      cases flag with
      | true =>
        obtain ⟨s1, hs1, hs1'⟩ := hR a0 b0 rfl rfl
        obtain ⟨s2, hs2, hs2'⟩ := hR a0 b1 rfl hb'
        obtain ⟨s3, hs3, hs3'⟩ := hR a1 b0 ha' rfl
        obtain ⟨s4, hs4, hs4'⟩ := hR a1 b1 ha' hb'
        obtain ⟨m1, hm1, hm1'⟩ := map2_total_R min hs1' hs2'
        obtain ⟨m2, hm2, hm2'⟩ := map2_total_R min hm1' hs3'
        obtain ⟨m3, hm3, hm3'⟩ := map2_total_R min hm2' hs4'
        obtain ⟨M1, hM1, hM1'⟩ := map2_total_R max hs1' hs2'
        obtain ⟨M2, hM2, hM2'⟩ := map2_total_R max hM1' hs3'
        obtain ⟨M3, hM3, hM3'⟩ := map2_total_R max hM2' hs4'
        exact ⟨.ivl m3 M3, by simp [arbitraryBilinear, bilinearProduct, endpoints, reduce, *]⟩
      | false =>
        obtain ⟨s1, hs1, hs1'⟩ := hR (posPart a0) (posPart b0) rfl rfl
        obtain ⟨s2, hs2, hs2'⟩ := hR (posPart a1) (negPart b0) ha' rfl
        obtain ⟨s3, hs3, hs3'⟩ := hR (negPart a0) (posPart b1) rfl hb'
        obtain ⟨s4, hs4, hs4'⟩ := hR (negPart a1) (negPart b1) ha' hb'
        obtain ⟨t1, ht1, ht1'⟩ := hR (posPart a1) (posPart b1) ha' hb'
        obtain ⟨t2, ht2, ht2'⟩ := hR (negPart a1) (posPart b0) ha' rfl
        obtain ⟨t3, ht3, ht3'⟩ := hR (posPart a0) (negPart b1) rfl hb'
        obtain ⟨t4, ht4, ht4'⟩ := hR (negPart a0) (negPart b0) rfl rfl
        obtain ⟨m1, hm1, hm1'⟩ := map2_total_R (· + ·) hs1' hs2'
        obtain ⟨m2, hm2, hm2'⟩ := map2_total_R (· + ·) hm1' hs3'
        obtain ⟨m3, hm3, hm3'⟩ := map2_total_R (· + ·) hm2' hs4'
        obtain ⟨M1, hM1, hM1'⟩ := map2_total_R (· + ·) ht1' ht2'
        obtain ⟨M2, hM2, hM2'⟩ := map2_total_R (· + ·) hM1' ht3'
        obtain ⟨M3, hM3, hM3'⟩ := map2_total_R (· + ·) hM2' ht4'
        exact ⟨.ivl m3 M3, by simp [arbitraryBilinear, bilinearGeneral, reduce, *]⟩

theorem _root_.AB.ND.tensordot_total {a b : ND K} {n : ℕ} (h1 : n ≤ a.ndim) (h2 : n ≤ b.ndim)
    (h3 : a.shape.drop (a.ndim - n) = b.shape.take n) :
    ∃ r, ND.tensordot a b n = .ok r ∧ r.shape = a.shape.take (a.ndim - n) ++ b.shape.drop n := by
  unfold ND.tensordot
  rw [if_neg (by push Not; exact ⟨h1, h2⟩), if_neg (by simpa using h3)]
  exact ⟨_, rfl, rfl⟩

theorem tensordot_total {a b : Coef K} {n : ℕ} (ha : a.WF) (hb : b.WF) (h1 : n ≤ a.ndim)
    (h2 : n ≤ b.ndim) (h3 : a.shape.drop (a.ndim - n) = b.shape.take n) :
    ∃ r, tensordot a b n = .ok r := by
  refine bilinear_total (R := a.shape.take (a.ndim - n) ++ b.shape.drop n) _ ha hb ?_
  intro x y hx hy
  have e1 : x.ndim = a.ndim := by unfold ND.ndim Coef.ndim; rw [hx]
  have e2 : y.ndim = b.ndim := by unfold ND.ndim Coef.ndim; rw [hy]
  have := ND.tensordot_total (a := x) (b := y) (n := n) (e1 ▸ h1) (e2 ▸ h2)
    (by rw [hx, hy, e1]; exact h3)
  rwa [hx, hy, e1] at this

/-! ### outer products -/

theorem ndarrayOuter_ok {d : ℕ} {x y s : ND K} (hd1 : d ≤ x.ndim) (hd2 : d ≤ y.ndim)
    (h : ndarrayOuterProduct d x y = .ok s) :
    ∃ B, bshape (x.shape.take d) (y.shape.take d) = some B ∧
    s.shape = B ++ x.shape.drop d ++ y.shape.drop d ∧
    ∀ I J J', d ≤ I.length → J.length = x.ndim - d → J'.length = y.ndim - d →
      s.bget (I ++ J ++ J') = x.bget (I ++ J) * y.bget (I ++ J') := by
  unfold ndarrayOuterProduct at h
  split_ifs at h with hd
  · subst hd
    have := ND.tensordot_ok h
    refine ⟨[], by simp [bshape_self], by simpa [ND.ndim] using this.2.2.2.1, ?_⟩
    intro I J J' hI hJ hJ'
    have e := this.2.2.2.2 (I ++ J) J' (by simp; omega) (by simpa using hJ')
    rw [e]
    simp only [List.take_zero, idx, List.map_cons, List.map_nil, List.append_nil, List.nil_append,
      List.sum_cons, List.sum_nil, add_zero]
    rw [ND.bget_drop y I (by unfold ND.ndim at hJ'; omega)]
  · unfold ND.einsumOuter at h
    split_ifs at h
    split at h
    · cases h
    · rename_i B hB
      cases h
      refine ⟨B, hB, rfl, ?_⟩
      intro I J J' hI hJ hJ'
      have hBl := bshape_length hB
      have hle := bshape_le hB
      simp only [List.length_take] at hBl
      unfold ND.ndim at *
      have hBd : B.length = d := by omega
      simp only [ND.bget_def]
      rw [bidx_append (by simp [hJ']), bidx_append (by simp [hJ])]
      have l1 : (bidx B I).length = d := by simp; omega
      have l2 : (bidx (x.shape.drop d) J).length = x.shape.length - d := by simp; omega
      rw [List.append_assoc, List.take_left' l1, List.drop_left' l1, List.take_left' l2]
      rw [bidx_bidx hle.1 (by omega), bidx_bidx hle.2 (by omega)]
      have : List.drop x.shape.length (bidx B I ++ (bidx (x.shape.drop d) J ++
          bidx (y.shape.drop d) J')) = bidx (y.shape.drop d) J' := by
        rw [← List.append_assoc]
        apply List.drop_left'
        simp only [List.length_append, l1, l2]; omega
      rw [this]
      congr 2
      · conv_rhs => rw [← List.take_append_drop d x.shape]
        rw [bidx_append (by simp [hJ])]
      · conv_rhs => rw [← List.take_append_drop d y.shape]
        rw [bidx_append (by simp [hJ'])]

/-- shape and membership for `outer_product` -/
theorem outerProduct_ok {a b r : Coef K} {d : ℕ} (ha : a.WF) (hb : b.WF)
    (h : outerProduct a b d = .ok r) :
    d ≤ a.ndim ∧ d ≤ b.ndim ∧ r.WF ∧ r.isArr = (a.isArr && b.isArr) ∧
    ∃ B, bshape (a.shape.take d) (b.shape.take d) = some B ∧
      r.shape = B ++ a.shape.drop d ++ b.shape.drop d ∧
    ∀ I J J', d ≤ I.length → J.length = a.ndim - d → J'.length = b.ndim - d →
      (r.lo.bget (I ++ J ++ J') = plo (a.lo.bget (I ++ J)) (a.hi.bget (I ++ J))
        (b.lo.bget (I ++ J')) (b.hi.bget (I ++ J')) ∧
      r.hi.bget (I ++ J ++ J') = phi (a.lo.bget (I ++ J)) (a.hi.bget (I ++ J))
        (b.lo.bget (I ++ J')) (b.hi.bget (I ++ J'))) := by
  unfold outerProduct at h
  split_ifs at h with hd
  push Not at hd
  have hsh : ∀ x y s : ND K, x.shape = a.shape → y.shape = b.shape →
      ndarrayOuterProduct d x y = .ok s → ∃ B, bshape (a.shape.take d) (b.shape.take d) = some B ∧
      s.shape = B ++ a.shape.drop d ++ b.shape.drop d ∧
      ∀ I J J', d ≤ I.length → J.length = a.ndim - d → J'.length = b.ndim - d →
      s.bget (I ++ J ++ J') = x.bget (I ++ J) * y.bget (I ++ J') := by
    intro x y s hx hy hs
    have e1 : x.ndim = a.ndim := by unfold ND.ndim Coef.ndim; rw [hx]
    have e2 : y.ndim = b.ndim := by unfold ND.ndim Coef.ndim; rw [hy]
    have := ndarrayOuter_ok (by rw [e1]; exact hd.1) (by rw [e2]; exact hd.2) hs
    rwa [hx, hy, e1, e2] at this
  -- the batch shapes broadcast, otherwise every product raises
  cases hB : bshape (a.shape.take d) (b.shape.take d) with
  | none =>
    exfalso
    have hno : ∀ x y s : ND K, x.shape = a.shape → y.shape = b.shape →
        ndarrayOuterProduct d x y ≠ .ok s := by
      intro x y s hx hy hs
      obtain ⟨B, h1, -⟩ := hsh x y s hx hy hs
      rw [hB] at h1; cases h1
    cases a with
    | arr a => cases b with
      | arr b =>
        simp only [arbitraryBilinear, py_bind_ok] at h
        obtain ⟨s, hs, -⟩ := h
        exact hno a b s rfl rfl hs
      | ivl b0 b1 =>
        simp only [arbitraryBilinear, if_true, bilinearProduct, endpoints, List.flatMap_cons,
          List.map_cons, List.cons_append, List.mapM_cons, py_bind_ok] at h
        obtain ⟨_, ⟨s, hs, -⟩, -⟩ := h
        exact hno a b0 s rfl rfl hs
    | ivl a0 a1 => cases b with
      | arr b =>
        simp only [arbitraryBilinear, if_true, bilinearProduct, endpoints, List.flatMap_cons,
          List.map_cons, List.cons_append, List.mapM_cons, py_bind_ok] at h
        obtain ⟨_, ⟨s, hs, -⟩, -⟩ := h
        exact hno a0 b s rfl rfl hs
      | ivl b0 b1 =>
        simp only [arbitraryBilinear, if_true, bilinearProduct, endpoints, List.flatMap_cons,
          List.map_cons, List.cons_append, List.mapM_cons, py_bind_ok] at h
        obtain ⟨_, ⟨s, hs, -⟩, -⟩ := h
        exact hno a0 b0 s rfl rfl hs
  | some B =>
    have hsh1 : ∀ x y s : ND K, x.shape = a.shape → y.shape = b.shape →
        ndarrayOuterProduct d x y = .ok s → s.shape = B ++ a.shape.drop d ++ b.shape.drop d := by
      intro x y s hx hy hs
      obtain ⟨B', h1, h2, -⟩ := hsh x y s hx hy hs
      rw [hB] at h1; cases h1; exact h2
    have ok := bilinearTrue_ok ha hb hsh1 h
    refine ⟨hd.1, hd.2, ok.1, ok.2.2.1, B, rfl, ok.2.1, ?_⟩
    intro I J J' hI hJ hJ'
    have hBl := bshape_length hB
    simp only [List.length_take] at hBl
    refine ok.2.2.2 _ _ _ ?_ ?_
    · simp only [List.length_append, List.length_drop]
      unfold Coef.ndim at *; omega
    · intro x y s hx hy hs
      obtain ⟨B', -, -, h3⟩ := hsh x y s hx hy hs
      exact h3 I J J' hI hJ hJ'

theorem outerProduct_mem {a b r : Coef K} {d : ℕ} (ha : a.WF) (hb : b.WF)
    (h : outerProduct a b d = .ok r) {I J J' : List ℕ} (hI : d ≤ I.length)
    (hJ : J.length = a.ndim - d) (hJ' : J'.length = b.ndim - d) {s t : K}
    (hs : a.Mem (I ++ J) s) (ht : b.Mem (I ++ J') t) : r.Mem (I ++ J ++ J') (s * t) := by
  obtain ⟨-, -, -, -, B, -, -, hh⟩ := outerProduct_ok ha hb h
  have := hh I J J' hI hJ hJ'
  unfold Mem
  rw [this.1, this.2]
  exact pbounds hs.1 hs.2 ht.1 ht.2

/-- `k` copies of a shape -/
def repS (k : ℕ) (C : List ℕ) : List ℕ := (List.replicate k C).flatten

@[simp] theorem repS_zero (C : List ℕ) : repS 0 C = [] := rfl
theorem repS_succ (k : ℕ) (C : List ℕ) : repS (k + 1) C = C ++ repS k C := by
  simp [repS, List.replicate_succ]
theorem repS_succ' (k : ℕ) (C : List ℕ) : repS (k + 1) C = repS k C ++ C := by
  simp [repS, List.replicate_succ']
@[simp] theorem repS_one (C : List ℕ) : repS 1 C = C := by simp [repS]
@[simp] theorem repS_length (k : ℕ) (C : List ℕ) : (repS k C).length = k * C.length := by
  simp [repS]
theorem repS_add (i j : ℕ) (C : List ℕ) : repS (i + j) C = repS i C ++ repS j C := by
  unfold repS; rw [List.replicate_add, List.flatten_append]
@[simp] theorem repS_nil (k : ℕ) : repS k [] = [] := by
  induction k with
  | zero => rfl
  | succ k ih => rw [repS_succ, ih]; rfl

theorem flatten_length_const {Js : List (List ℕ)} {n : ℕ} (h : ∀ J ∈ Js, J.length = n) :
    Js.flatten.length = Js.length * n := by
  induction Js with
  | nil => simp
  | cons J Js ih =>
    simp only [List.flatten_cons, List.length_append, List.length_cons]
    rw [ih fun J' hJ' => h J' (List.mem_cons_of_mem _ hJ'), h J (by simp)]
    ring

theorem running_ok {a : Coef K} {B C : List ℕ} (ha : a.WF) (hs : a.shape = B ++ C) {m : ℕ}
    {r : Coef K} (h : runningOuterProduct a B.length m = .ok r) :
    r.WF ∧ r.shape = B ++ repS (m + 1) C ∧ r.isArr = a.isArr ∧
    ∀ I, B.length ≤ I.length → ∀ (s : List ℕ → K) (Js : List (List ℕ)), Js.length = m + 1 →
      (∀ J ∈ Js, J.length = C.length ∧ a.Mem (I ++ J) (s J)) →
      r.Mem (I ++ Js.flatten) (Js.map s).prod := by
  induction m generalizing r with
  | zero =>
    cases h
    refine ⟨ha, by simpa [repS_succ] using hs, rfl, ?_⟩
    intro I hI s Js hJs hmem
    match Js, hJs with
    | [J], _ => simpa using (hmem J (by simp)).2
  | succ m ih =>
    simp only [runningOuterProduct, py_bind_ok] at h
    obtain ⟨r', hr', h⟩ := h
    obtain ⟨ih1, ih2, ih3, ih4⟩ := ih hr'
    obtain ⟨-, -, hw, harr, B', hB', hsh, -⟩ := outerProduct_ok ih1 ha h
    rw [ih2, hs, List.take_left, List.take_left, bshape_self] at hB'
    cases hB'
    rw [ih2, hs, List.drop_left, List.drop_left, List.append_assoc, ← repS_succ'] at hsh
    refine ⟨hw, hsh, by rw [harr, ih3]; simp, ?_⟩
    intro I hI s Js hJs hmem
    have hne : Js ≠ [] := by intro h; simp [h] at hJs
    obtain ⟨Js', J, rfl⟩ : ∃ Js' J, Js = Js' ++ [J] :=
      ⟨Js.dropLast, Js.getLast hne, (List.dropLast_append_getLast hne).symm⟩
    have hl : Js'.length = m + 1 := by simpa using hJs
    have m1 := ih4 I hI s Js' hl fun J hJ => hmem J (by simp [hJ])
    have m2 := (hmem J (by simp))
    simp only [List.flatten_append, List.flatten_cons, List.flatten_nil, List.append_nil,
      List.map_append, List.map_cons, List.map_nil, List.prod_append, List.prod_cons, List.prod_nil,
      mul_one]
    rw [← List.append_assoc]
    refine outerProduct_mem ih1 ha h hI ?_ ?_ m1 m2.2
    · rw [flatten_length_const fun J hJ => (hmem J (by simp [hJ])).1, hl, ndim_def, ih2]
      simp
    · rw [m2.1, ndim_def, hs]; simp

/-- `outer_power` encloses products of one and the same selection -/
theorem outerPower_mem {a : Coef K} {B C : List ℕ} (ha : a.WF) (hs : a.shape = B ++ C) {k : ℕ}
    {r : Coef K} (h : outerPower a k B.length = .ok r) :
    r.WF ∧ (k ≠ 0 → r.shape = B ++ repS k C) ∧ (k = 0 → r.shape = []) ∧
    (a.isArr = true ∨ k = 0 → r.isArr = true) ∧
    ∀ I, B.length ≤ I.length → ∀ (s : List ℕ → K) (Js : List (List ℕ)), Js.length = k →
      (∀ J ∈ Js, ValidIdx C J ∧ a.Mem (I ++ J) (s J)) →
      r.Mem (I ++ Js.flatten) (Js.map s).prod := by
  unfold outerPower at h
  rw [if_neg (by omega : ¬ ((k : ℤ) < 0))] at h
  by_cases hk : k = 0
  · subst hk
    simp at h; subst h
    refine ⟨trivial, by simp, by simp, by simp [isArr], ?_⟩
    intro I hI s Js hJs _
    have : Js = [] := by simpa using hJs
    subst this
    rw [mem_arr]; simp
  rw [if_neg (by omega : ¬ ((k : ℤ) = 0))] at h
  by_cases hn : a.ndim = 0
  · rw [if_pos hn] at h
    have hBC : B = [] ∧ C = [] := by
      rw [ndim_def, hs] at hn; simpa using hn
    obtain ⟨rfl, rfl⟩ := hBC
    have ok := power_ok ha h
    refine ⟨ok.1, fun _ => by rw [ok.2.1, hs]; simp, fun h => absurd h hk, ok.2.2.1, ?_⟩
    intro I hI s Js hJs hmem
    have hJ : ∀ J ∈ Js, J = [] := fun J hJ => by
      have := (hmem J hJ).1.length; simpa using this.symm
    have hp : (Js.map s).prod = s [] ^ k := by
      rw [← hJs, List.map_congr_left (g := fun _ => s []) fun J hJ' => by rw [hJ J hJ']]
      simp
    have hf : Js.flatten = [] := by simpa using hJ
    rw [hp, hf]
    match Js, hJs with
    | [], hJs => exact absurd hJs.symm hk
    | J :: Js, hJs =>
      have := (hmem J (by simp)).2
      rw [hJ J (by simp)] at this
      exact power_mem ha h (by rw [ndim_def] at hn; omega) this
  · rw [if_neg hn] at h
    simp only [py_bind_ok] at h
    obtain ⟨rop, hrop, h⟩ := h
    have hk1 : ((k : ℤ).toNat - 1) + 1 = k := by omega
    obtain ⟨r1, r2, r3, r4⟩ := running_ok ha hs hrop
    rw [hk1] at r2
    have hfall : r = rop → r.WF ∧ (k ≠ 0 → r.shape = B ++ repS k C) ∧ (k = 0 → r.shape = []) ∧
        (a.isArr = true ∨ k = 0 → r.isArr = true) ∧
        ∀ I, B.length ≤ I.length → ∀ (s : List ℕ → K) (Js : List (List ℕ)), Js.length = k →
        (∀ J ∈ Js, ValidIdx C J ∧ a.Mem (I ++ J) (s J)) →
        r.Mem (I ++ Js.flatten) (Js.map s).prod := by
      rintro rfl
      refine ⟨r1, fun _ => r2, fun h => absurd h hk, ?_, ?_⟩
      · rintro (h | h)
        · rw [r3, h]
        · exact absurd h hk
      intro I hI s Js hJs hmem
      exact r4 I hI s Js (by omega) fun J hJ => ⟨(hmem J hJ).1.length.symm, (hmem J hJ).2⟩
    split_ifs at h with hB
    · exact hfall (by simpa [py_pure_eq] using h.symm)
    · have hB0 : B = [] := by simpa using hB
      subst hB0
      simp only [List.nil_append] at hs r2
      have hfs : (firstEndpoint a).shape = C := by rw [← hs]; cases a <;> rfl
      unfold generalizedDiagNdarray at h
      by_cases hk1 : k = 1
      · -- exponent 1: rop*0 + power(a,1)
        subst hk1
        simp only [Nat.cast_one, if_true, py_bind_ok] at h
        obtain ⟨dg, hdg, dg', hdg', pr, hpr, hadd⟩ := h
        have hdg'' : dg' = dg := by
          unfold generalizedDiagInterval generalizedDiagNdarray at hdg'
          cases dg <;> simp at hdg' <;> exact hdg'.symm
        subst hdg''
        have pk := power_ok (k := 1) ha (by simpa using hdg)
        have hmulR : ∀ (x y s : ND K), x.shape = rop.shape →
            y.shape = (Coef.arr ((firstEndpoint a).onesLike.map (1 - ·))).shape →
            ND.map2 (· * ·) x y = .ok s → s.shape = C := by
          intro x y s hx hy hs'
          have := ND.map2_ok hs'
          rw [hx, r2, hy] at this
          simp only [repS_one, shape_arr, ND.shape_map, ND.shape_onesLike, hfs, bshape_self] at this
          simpa using this.1.symm
        have mk := bilinearTrue_ok r1 (WF_arr _) hmulR hpr
        have ak := add_ok mk.1 pk.1 hadd
        have hsh : r.shape = C := by
          have := ak.2.1
          rw [mk.2.1, pk.2.1, hs, bshape_self] at this
          simpa using this.symm
        refine ⟨ak.1, fun _ => by simpa using hsh, by simp, ?_, ?_⟩
        · rintro (h | h)
          · rw [ak.2.2.1, mk.2.2.1, r3, pk.2.2.1 (Or.inl h), h]; rfl
          · simp at h
        intro I hI s Js hJs hmem
        match Js, hJs with
        | [J], _ =>
          obtain ⟨hv, hm⟩ := hmem J (by simp)
          have hlen : C.length ≤ (I ++ J).length := by rw [hv.length]; simp
          have hm1 : rop.Mem (I ++ J) (s J) := by
            have := r4 I hI s [J] (by simp) (by
              intro J' hJ'; simp at hJ'; subst hJ'; exact ⟨hv.length.symm, hm⟩)
            simpa using this
          have hm2 : (Coef.arr ((firstEndpoint a).onesLike.map (1 - ·))).Mem (I ++ J) 0 := by
            rw [mem_arr]; simp
          have hm3 : pr.Mem (I ++ J) (s J * 0) := by
            refine bilinearTrue_mem r1 (WF_arr _) hmulR hpr hlen ?_ hm1 hm2
            intro x y s hx hy hs'
            have e1 := hmulR x y s hx hy hs'
            exact (ND.map2_ok hs').2 _ (e1 ▸ hlen)
          have hm4 := power_mem (k := 1) ha (by simpa using hdg) (by rw [hs]; exact hlen) hm
          have := ak.2.2.2 (I ++ J) (hsh ▸ hlen)
          simp only [List.flatten_cons, List.flatten_nil, List.append_nil, List.map_cons,
            List.map_nil, List.prod_cons, List.prod_nil, mul_one]
          unfold Mem at hm3 hm4 ⊢
          rw [this.1, this.2]
          simp only [mul_zero, pow_one] at hm3 hm4
          constructor <;> linarith [hm3.1, hm3.2, hm4.1, hm4.2]
      · by_cases hk2 : k = 2
        · subst hk2
          simp only [Nat.cast_ofNat, OfNat.ofNat_ne_one, if_false, if_true] at h
          by_cases h1 : (firstEndpoint a).onesLike.ndim = 1
          · rw [if_pos h1] at h
            simp only [py_bind_ok] at h
            obtain ⟨pw, hpw, dg, hdg, pr, hpr, hadd⟩ := h
            obtain ⟨n, hC⟩ : ∃ n, C = [n] := by
              have : C.length = 1 := by rw [← hfs]; exact h1
              exact List.length_eq_one_iff.1 this
            subst hC
            have pk := power_ok (k := 2) ha (by simpa using hpw)
            -- diag of power
            have hdk : dg.WF ∧ dg.shape = [n, n] ∧ dg.isArr = pw.isArr ∧ 
                ∀ i j, i < n → j < n → ∀ I, dg.lo.bget (I ++ [i, j]) =
                  (if i = j then pw.lo.get [i] else 0) ∧
                  dg.hi.bget (I ++ [i, j]) = (if i = j then pw.hi.get [i] else 0) := by
              have hdiag : ∀ x : ND K, x.shape = [n] → generalizedDiagNdarray x 2 = .ok x.diag := by
                intro x hx; simp [generalizedDiagNdarray, ND.ndim, hx]
              have hbg : ∀ x : ND K, x.shape = [n] → ∀ i j, i < n → j < n → ∀ I,
                  x.diag.bget (I ++ [i, j]) = if i = j then x.get [i] else 0 := by
                intro x hx i j hi hj I
                have hsd : x.diag.shape = [n, n] := by show x.shape ++ x.shape = _; rw [hx]; rfl
                rw [ND.bget_drop _ I (by rw [hsd]; simp), ND.bget_valid _ (by
                  rw [hsd]; exact .cons hi (.cons hj .nil))]
                simp [ND.diag]
              unfold generalizedDiagInterval at hdg
              cases pw with
              | arr x =>
                have hx : x.shape = [n] := by simpa [hs] using pk.2.1
                simp only [hdiag x hx] at hdg
                cases hdg
                exact ⟨trivial, by simp [ND.diag, hx], rfl, fun i j hi hj I =>
                  ⟨hbg x hx i j hi hj I, hbg x hx i j hi hj I⟩⟩
              | ivl x y =>
                have hx : x.shape = [n] := by simpa [hs] using pk.2.1
                have hy : y.shape = [n] := by rw [← WF_ivl.1 pk.1]; exact hx
                simp only [hdiag x hx, hdiag y hy] at hdg
                cases hdg
                exact ⟨by simp [WF_ivl, ND.diag, hx, hy], by simp [ND.diag, hx], rfl,
                  fun i j hi hj I => ⟨hbg x hx i j hi hj I, hbg y hy i j hi hj I⟩⟩
            have heye : ∀ i j, i < n → j < n → ∀ I : List ℕ,
                (((firstEndpoint a).onesLike.diag.map (1 - ·)) : ND K).bget (I ++ [i, j]) =
                if i = j then 0 else 1 := by
              intro i j hi hj I
              have hsd : (firstEndpoint a).onesLike.diag.shape = [n, n] := by
                show (firstEndpoint a).shape ++ (firstEndpoint a).shape = _; rw [hfs]; rfl
              rw [ND.bget_map, ND.bget_drop _ I (by rw [hsd]; simp), ND.bget_valid _ (by
                  rw [hsd]; exact .cons hi (.cons hj .nil))]
              simp only [ND.diag, ND.onesLike, List.take_succ_cons, List.take_zero,
                List.drop_succ_cons, List.drop_zero]
              by_cases hij : i = j <;> simp [hij]
            have hmulR : ∀ (x y s : ND K), x.shape = rop.shape →
                y.shape = (Coef.arr ((firstEndpoint a).onesLike.diag.map (1 - ·))).shape →
                ND.map2 (· * ·) x y = .ok s → s.shape = [n, n] := by
              intro x y s hx hy hs'
              have := ND.map2_ok hs'
              rw [hx, r2, hy] at this
              have hsd : (firstEndpoint a).onesLike.diag.shape = [n, n] := by
                show (firstEndpoint a).shape ++ (firstEndpoint a).shape = _; rw [hfs]; rfl
              simp only [shape_arr, ND.shape_map, hsd, repS_succ, repS_zero, List.append_nil,
                List.cons_append, List.nil_append, bshape_self] at this
              simpa using this.1.symm
            have mk := bilinearTrue_ok r1 (WF_arr _) hmulR hpr
            have ak := add_ok mk.1 hdk.1 hadd
            have hsh : r.shape = [n, n] := by
              have := ak.2.1
              rw [mk.2.1, hdk.2.1, bshape_self] at this
              simpa using this.symm
            refine ⟨ak.1, fun _ => by simpa [repS_succ] using hsh, by simp, ?_, ?_⟩
            · rintro (h | h)
              · rw [ak.2.2.1, mk.2.2.1, r3, hdk.2.2.1, pk.2.2.1 (Or.inl h), h]; rfl
              · simp at h
            intro I hI s Js hJs hmem
            match Js, hJs with
            | [J, J'], _ =>
              obtain ⟨hv, hm⟩ := hmem J (by simp)
              obtain ⟨hv', hm'⟩ := hmem J' (by simp)
              obtain ⟨i, rfl⟩ : ∃ i, J = [i] := List.length_eq_one_iff.1 hv.length.symm
              obtain ⟨j, rfl⟩ : ∃ j, J' = [j] := List.length_eq_one_iff.1 hv'.length.symm
              have hi : i < n := by simpa [ValidIdx] using hv
              have hj : j < n := by simpa [ValidIdx] using hv'
              have hlen : [n, n].length ≤ (I ++ [i, j]).length := by simp
              have hm1 : rop.Mem (I ++ [i, j]) (s [i] * s [j]) := by
                have := r4 I hI s [[i], [j]] (by simp) (by
                  intro J' hJ'; exact ⟨(hmem J' hJ').1.length.symm, (hmem J' hJ').2⟩)
                simpa using this
              have hm2 : (Coef.arr ((firstEndpoint a).onesLike.diag.map (1 - ·))).Mem (I ++ [i, j])
                  (if i = j then 0 else 1) := by
                rw [mem_arr, heye i j hi hj]
              have hm3 : pr.Mem (I ++ [i, j]) ((s [i] * s [j]) * (if i = j then 0 else 1)) := by
                refine bilinearTrue_mem r1 (WF_arr _) hmulR hpr hlen ?_ hm1 hm2
                intro x y s hx hy hs'
                have e1 := hmulR x y s hx hy hs'
                exact (ND.map2_ok hs').2 _ (e1 ▸ hlen)
              have hm4 := power_mem (k := 2) ha (by simpa using hpw) (by rw [hs]; simp) hm
              have hd := hdk.2.2.2 i j hi hj I
              have := ak.2.2.2 (I ++ [i, j]) (hsh ▸ hlen)
              simp only [List.flatten_cons, List.flatten_nil, List.append_nil, List.map_cons,
                List.map_nil, List.prod_cons, List.prod_nil, mul_one, List.singleton_append]
              unfold Mem at hm3 hm4 ⊢
              rw [this.1, this.2, hd.1, hd.2]
              by_cases hij : i = j
              · subst hij
                simp only [if_true, mul_zero] at hm3 ⊢
                have g1 : pw.lo.bget (I ++ [i]) = pw.lo.get [i] := by
                  rw [ND.bget_drop _ I (by rw [lo_shape, pk.2.1, hs]; simp), ND.bget_valid _ (by
                    rw [lo_shape, pk.2.1, hs]; exact hv)]
                have g2 : pw.hi.bget (I ++ [i]) = pw.hi.get [i] := by
                  rw [ND.bget_drop _ I (by rw [pk.1.hi_shape, pk.2.1, hs]; simp), ND.bget_valid _ (by
                    rw [pk.1.hi_shape, pk.2.1, hs]; exact hv)]
                rw [g1, g2, pow_two] at hm4
                constructor <;> linarith [hm3.1, hm3.2, hm4.1, hm4.2]
              · simp only [hij, if_false, mul_one] at hm3 ⊢
                constructor <;> linarith [hm3.1, hm3.2]
          · rw [if_neg h1] at h
            exact hfall (by simpa [py_pure_eq] using h.symm)
        · have e1 : ¬ ((k : ℤ) = 1) := by omega
          have e2 : ¬ ((k : ℤ) = 2) := by omega
          simp only [e1, e2, if_false] at h
          exact hfall (by simpa [py_pure_eq] using h.symm)

end IA
end AB
