/-
Which results of the pushforward functions (/repo/autobound/jax/jax_bound.py:333-503) are not mere constants:
needed for the degree-0 computation of propagated trust regions, and for constant folding.
-/
import Verif.Proofs.Total3
import Verif.Props.Form
import Verif.Spec.TotalStatic

set_option linter.unusedSectionVars false

namespace AB
variable {K : Type} [Field K] [LinearOrder K] [IsStrictOrderedRing K]

/-- not a constant: for `max_degree = 0` the constant term is an interval, otherwise there is a coefficient of
degree 1 -/
def Live (m : ℕ) (e : Encl K) : Prop :=
  (m = 0 → ∃ lo hi, e[0]? = some (.ivl lo hi)) ∧ (1 ≤ m → 2 ≤ e.length)

theorem ivl_of_not_arr {c : Coef K} (h : ¬c.IsArr) : ∃ lo hi, c = .ivl lo hi := by
  cases c with
  | arr a => exact absurd trivial h
  | ivl l u => exact ⟨l, u, rfl⟩

theorem live_truncate {T : TEA K} {e out : Encl K}
    (h : T.truncateIfNecessary e = .ok out) (hl : 2 ≤ e.length ∨ Live T.maxDegree e) : Live T.maxDegree out := by
  unfold TEA.truncateIfNecessary encloseEnclosure at h
  split_ifs at h with hle
  · cases h
    rcases hl with hl | hl
    · exact ⟨fun h0 => by omega, fun _ => hl⟩
    · exact hl
  · simp only [py_bind_ok, py_pure] at h
    obtain ⟨c, hc, rfl⟩ := h
    refine ⟨fun h0 => ?_, fun h1 => ?_⟩
    · rw [h0] at hc hle ⊢
      obtain ⟨l, u, rfl⟩ := ivl_of_not_arr (eval_ivl (Z := T.trustRegion) id (by
        rw [List.drop_zero]; omega) hc)
      exact ⟨l, u, rfl⟩
    · rw [List.length_append, List.length_take, List.length_singleton]
      omega

theorem live_addCoeffs {m : ℕ} {a b c : Encl K} (h : TEA.addCoeffs a b = .ok c) (ha : a ≠ []) (hb : b ≠ [])
    (hl : Live m a ∨ Live m b) : Live m c := by
  have len : ∀ {a b c : Encl K}, TEA.addCoeffs a b = .ok c → c.length = max a.length b.length := by
    intro a
    induction a with
    | nil =>
      intro b c h
      cases b with
      | nil => cases h; rfl
      | cons y bs => cases h; simp
    | cons x as ih =>
      intro b c h
      cases b with
      | nil => cases h; simp
      | cons y bs =>
        simp only [TEA.addCoeffs, py_bind_ok, py_pure] at h
        obtain ⟨u, -, v, hv, rfl⟩ := h
        rw [List.length_cons, ih hv, List.length_cons, List.length_cons]
        omega
  have hlen := len h
  refine ⟨fun h0 => ?_, fun h1 => ?_⟩
  · cases a with
    | nil => exact absurd rfl ha
    | cons x as =>
      cases b with
      | nil => exact absurd rfl hb
      | cons y bs =>
        simp only [TEA.addCoeffs, py_bind_ok, py_pure] at h
        obtain ⟨u, hu, v, -, rfl⟩ := h
        have : ¬u.IsArr := IA.ivl_add hu (by
          rcases hl with hl | hl
          · obtain ⟨l, h, e⟩ := hl.1 h0
            cases e
            exact Or.inl id
          · obtain ⟨l, h, e⟩ := hl.1 h0
            cases e
            exact Or.inr id)
        obtain ⟨l, r, rfl⟩ := ivl_of_not_arr this
        exact ⟨l, r, rfl⟩
  · rcases hl with hl | hl <;> have := hl.2 h1 <;> omega

theorem live_add {T : TEA K} {a b c : Encl K} (h : T.add a b = .ok c) (ha : a ≠ []) (hb : b ≠ [])
    (hl : Live T.maxDegree a ∨ Live T.maxDegree b) : Live T.maxDegree c := by
  unfold TEA.add at h
  rw [py_bind_ok] at h
  obtain ⟨s, h1, h2⟩ := h
  exact live_truncate h2 (Or.inr (live_addCoeffs h1 ha hb hl))

theorem live_negative {T : TEA K} {a c : Encl K} (h : T.negative a = .ok c) (hl : Live T.maxDegree a) :
    Live T.maxDegree c := by
  unfold TEA.negative at h
  refine live_truncate h (Or.inr ⟨fun h0 => ?_, fun h1 => ?_⟩)
  · obtain ⟨l, u, e⟩ := hl.1 h0
    rw [List.getElem?_map, e]
    exact ⟨_, _, rfl⟩
  · rw [List.length_map]; exact hl.2 h1

theorem live_multiply {T : TEA K} {a b c : Encl K} (h : T.multiply a b = .ok c) (ha : a ≠ []) (hb : b ≠ [])
    (hl : Live T.maxDegree a ∨ Live T.maxDegree b) : Live T.maxDegree c := by
  simp only [TEA.multiply, py_bind_ok] at h
  obtain ⟨_, -, _, -, p, hp, h⟩ := h
  have hlen := JB.polyBilinear_length hp
  rw [List.length_replicate] at hlen
  have h1 := List.length_pos_iff.2 ha
  have h2 := List.length_pos_iff.2 hb
  by_cases h3 : 2 ≤ p.length
  · exact live_truncate h (Or.inl h3)
  refine live_truncate h (Or.inr ⟨fun h0 => ?_, fun h1 => ?_⟩)
  · obtain ⟨x, rfl⟩ := List.length_eq_one_iff.1 (show a.length = 1 by omega)
    obtain ⟨y, rfl⟩ := List.length_eq_one_iff.1 (show b.length = 1 by omega)
    have hp : Poly.bilinearStep IA.add (elementwiseTermProductCoefficient T.xNdim) [.arr (ND.scalar 0)]
        ((0, x), (0, y)) = .ok p := by
      simp only [Poly.arbitraryBilinear, Poly.enum, List.length_singleton, List.range_one, List.zip_cons_cons,
        List.zip_nil_right, List.flatMap_cons, List.flatMap_nil, List.map_cons, List.map_nil, List.append_nil,
        List.foldlM_cons, List.foldlM_nil, py_bind_ok, py_pure, List.replicate_one, Nat.add_sub_cancel] at hp
      obtain ⟨q, hq, rfl⟩ := hp
      exact hq
    simp only [Poly.bilinearStep, py_bind_ok, List.getElem?_cons_zero, Nat.add_zero, py_pure] at hp
    obtain ⟨t, ht, r, hr, rfl⟩ := hp
    have hn : ¬t.IsArr := IA.ivl_bilinear ht (by
      rcases hl with hl | hl
      · obtain ⟨l, h, e⟩ := hl.1 h0
        cases e
        exact Or.inl id
      · obtain ⟨l, h, e⟩ := hl.1 h0
        cases e
        exact Or.inr id)
    obtain ⟨l, u, rfl⟩ := ivl_of_not_arr (IA.ivl_add hr (Or.inr hn))
    exact ⟨l, u, rfl⟩
  · rcases hl with hl | hl <;> have := hl.2 h1 <;> omega

theorem live_bilinear {T : TEA K} {a b c : Encl K} {pbb : ND K → ND K → ℕ → ℕ → Py (ND K)}
    (h : T.arbitraryBilinear a b pbb = .ok c) (ha : a ≠ []) (hb : b ≠ [])
    (ha' : a.length ≤ T.maxDegree + 1) (hb' : b.length ≤ T.maxDegree + 1)
    (hl : Live T.maxDegree a ∨ Live T.maxDegree b) : Live T.maxDegree c := by
  have hlen := TEA.setFold_length T h
  rw [List.length_replicate] at hlen
  have h1 := List.length_pos_iff.2 ha
  have h2 := List.length_pos_iff.2 hb
  refine ⟨fun h0 => ?_, fun h1 => ?_⟩
  · obtain ⟨x, rfl⟩ := List.length_eq_one_iff.1 (show a.length = 1 by omega)
    obtain ⟨y, rfl⟩ := List.length_eq_one_iff.1 (show b.length = 1 by omega)
    have hp : T.bilinearStep pbb [.arr (ND.scalar 0)] ((0, x), (0, y)) = .ok c := by
      simp only [TEA.arbitraryBilinear, Poly.enum, List.length_singleton, List.range_one, List.zip_cons_cons,
        List.zip_nil_right, List.flatMap_cons, List.flatMap_nil, List.map_cons, List.map_nil, List.append_nil,
        List.foldlM_cons, List.foldlM_nil, py_bind_ok, py_pure, h0, Nat.zero_add, Nat.add_sub_cancel, min_self,
        List.replicate_one] at h
      obtain ⟨q, hq, rfl⟩ := h
      exact hq
    simp only [TEA.bilinearStep, py_bind_ok, List.getElem?_cons_zero, Nat.add_zero, py_pure, Nat.zero_min] at hp
    obtain ⟨t, ht, r, hr, rfl⟩ := hp
    rw [TEA.termEnclosureCoefficient, if_pos (Nat.zero_le _)] at ht
    have hn : ¬t.IsArr := IA.ivl_bilinear ht (by
      rcases hl with hl | hl
      · obtain ⟨l, h, e⟩ := hl.1 h0
        cases e
        exact Or.inl id
      · obtain ⟨l, h, e⟩ := hl.1 h0
        cases e
        exact Or.inr id)
    obtain ⟨l, u, rfl⟩ := ivl_of_not_arr (IA.ivl_add hr (Or.inr hn))
    exact ⟨l, u, rfl⟩
  · rcases hl with hl | hl <;> have := hl.2 h1 <;> omega

theorem live_powerNat {T : TEA K} {a c : Encl K} {p : ℕ} (h : T.powerNat a p = .ok c) (hp : p ≠ 0)
    (hl : Live T.maxDegree a) : Live T.maxDegree c := by
  simp only [TEA.powerNat, py_bind_ok] at h
  obtain ⟨_, -, h⟩ := h
  cases a with
  | nil => cases h
  | cons x as =>
    simp only [py_bind_ok] at h
    obtain ⟨r, hr, h⟩ := h
    unfold Poly.integerPower at hr
    rw [if_neg (by omega), if_neg (by omega), Poly.powRange (by simp) (by omega)] at hr
    have hlen := (Poly.mapM_ok hr).length_eq
    rw [List.length_range, List.length_cons, Nat.add_sub_cancel] at hlen
    by_cases h3 : 2 ≤ r.length
    · exact live_truncate h (Or.inl h3)
    have has : as.length = 0 := by
      by_contra hc
      have : 1 ≤ as.length * (p : ℤ).toNat := Nat.mul_pos (by omega) (by simp; omega)
      omega
    have has := List.length_eq_zero_iff.1 has
    subst has
    refine live_truncate h (Or.inr ⟨fun h0 => ?_, fun h1 => ?_⟩)
    · obtain ⟨l, u, e⟩ := hl.1 h0
      cases e
      simp only [List.length_singleton, Nat.sub_self, Nat.zero_mul, Nat.add_zero, List.range_one, List.mapM_cons,
        List.mapM_nil, py_bind_ok, py_pure, Int.toNat_natCast] at hr
      obtain ⟨q, hq, r', rfl, rfl⟩ := hr
      suffices H : ¬q.IsArr by
        obtain ⟨l, u, rfl⟩ := ivl_of_not_arr H
        exact ⟨l, u, rfl⟩
      simp only [Poly.getCoeff, py_bind_ok] at hq
      obtain ⟨ps, hps, hq⟩ := hq
      have : ps = [[p]] := by
        unfold Poly.iterPartitions at hps
        rw [if_neg (by simp), if_neg (by simp), if_neg (by simp)] at hps
        cases hps
        simp [Poly.iterPartitionsNat]
      subst this
      simp only [List.foldlM_cons, List.foldlM_nil, py_bind_ok, py_pure] at hq
      obtain ⟨q', hq, rfl⟩ := hq
      unfold Poly.coeffStep at hq
      split_ifs at hq
      simp only [py_bind_ok] at hq
      obtain ⟨rp, hrp, hq⟩ := hq
      split_ifs at hq
      simp only [py_bind_ok] at hq
      obtain ⟨mc, -, term, hterm, hq⟩ := hq
      refine IA.ivl_add hq (Or.inr ?_)
      refine IA.ivl_bilinear hterm (Or.inr ?_)
      simp only [Poly.partitionProduct, Poly.enum, List.length_singleton, List.range_one, List.zip_cons_cons,
        List.zip_nil_right, List.foldlM_cons, List.foldlM_nil, py_bind_ok, py_pure, Poly.productStep] at hrp
      obtain ⟨_, ⟨w, hw, v, hv, rfl⟩, rfl⟩ := hrp
      refine IA.ivl_bilinear hv (Or.inr ?_)
      unfold elementwiseTermPowerCoefficient at hw
      split_ifs at hw
      exact IA.ivl_outerPower hw (by omega) id
    · have := hl.2 h1
      simp at this

theorem live_compose {T : TEA K} {e arg c : Encl K} (h : T.composeEnclosures e arg = .ok c)
    (he : e.length = T.maxDegree + 1) (hi : ∃ lo hi, e[T.maxDegree]? = some (.ivl lo hi))
    (hl : Live T.maxDegree arg) : Live T.maxDegree c := by
  unfold TEA.composeEnclosures at h
  split_ifs at h with hemp
  -- once the output is live it stays so
  have key : ∀ (l : List (ℕ × Coef K)) (o c : Encl K), o ≠ [] →
      (Live T.maxDegree o ∨ ∃ q ∈ l, ∀ t, T.composeTerm (.arr (ND.scalar 0) :: arg.drop 1) q.1 q.2 = .ok t →
        Live T.maxDegree t) →
      l.foldlM (T.composeStep (.arr (ND.scalar 0) :: arg.drop 1)) o = .ok c → Live T.maxDegree c := by
    intro l
    induction l with
    | nil =>
      intro o c ho hor h
      cases h
      rcases hor with h | ⟨q, hq, -⟩
      · exact h
      · cases hq
    | cons x l ih =>
      intro o c ho hor h
      rw [List.foldlM_cons, py_bind_ok] at h
      obtain ⟨o', h1, h2⟩ := h
      unfold TEA.composeStep at h1
      rw [py_bind_ok] at h1
      obtain ⟨t, ht, h1⟩ := h1
      have htne : t ≠ [] := by
        unfold TEA.composeTerm at ht
        by_cases hx : x.1 = 0
        · rw [if_pos hx] at ht; cases ht; simp
        · rw [if_neg hx] at ht
          simp only [py_bind_ok] at ht
          obtain ⟨poly, hpoly, ht⟩ := ht
          have := (Poly.mapM_ok ht).length_eq
          rw [Poly.enum_length] at this
          intro h0
          rw [h0] at this
          exact JB.powerNat_ne hpoly (List.length_eq_zero_iff.1 (by simpa using this))
      refine ih o' c (JB.add_ne ho h1) ?_ h2
      rcases hor with h | ⟨q, hq, hq'⟩
      · exact Or.inl (live_add h1 ho htne (Or.inl h))
      · rcases List.mem_cons.1 hq with rfl | hq
        · exact Or.inl (live_add h1 ho htne (Or.inr (hq' t ht)))
        · exact Or.inr ⟨q, hq, hq'⟩
  refine key _ _ _ (by simp) (Or.inr ?_) h
  by_cases hm : T.maxDegree = 0
  · obtain ⟨l, u, hc⟩ := hi
    rw [hm] at hc
    refine ⟨(0, .ivl l u), Poly.mem_enum.2 hc, fun t ht => ?_⟩
    simp only [TEA.composeTerm, if_true] at ht
    cases ht
    exact ⟨fun _ => ⟨l, u, rfl⟩, fun h => by omega⟩
  · obtain ⟨c1, hc1⟩ : ∃ c1, e[1]? = some c1 :=
      ⟨e[1]'(by omega), List.getElem?_eq_getElem _⟩
    refine ⟨(1, c1), Poly.mem_enum.2 hc1, fun t ht => ⟨fun h => absurd h hm, fun _ => ?_⟩⟩
    simp only [TEA.composeTerm, Nat.one_ne_zero, if_false, py_bind_ok] at ht
    obtain ⟨poly, hpoly, ht⟩ := ht
    have := (Poly.mapM_ok ht).length_eq
    rw [Poly.enum_length] at this
    rw [← this]
    have hl2 := hl.2 (by omega)
    exact (live_powerNat hpoly one_ne_zero ⟨fun h => absurd h hm, fun _ => by
      rw [List.length_cons, List.length_drop]; omega⟩).2 (by omega)

theorem live_elementwise {T : TEA K} {g : TEA.Generator K} (hg : JB.GenFull g) {a c : Encl K} {r : Option (Coef K)}
    (h : T.elementwiseFun g a r = .ok c) (hl : Live T.maxDegree a) : Live T.maxDegree c := by
  simp only [TEA.elementwiseFun, py_bind_ok] at h
  obtain ⟨tr, -, h⟩ := h
  cases a with
  | nil => cases h
  | cons x as =>
    simp only [py_bind_ok] at h
    obtain ⟨x0, -, e, he, h⟩ := h
    obtain ⟨h1, h2⟩ := hg _ _ _ _ he
    exact live_compose h h1 h2 hl

theorem live_powerOther {T : TEA K} {g : TEA.Generator K} (hg : JB.GenFull g) {a c : Encl K}
    (h : T.powerOther g a = .ok c) (hl : Live T.maxDegree a) : Live T.maxDegree c := by
  simp only [TEA.powerOther, py_bind_ok] at h
  obtain ⟨_, -, h⟩ := h
  exact live_elementwise hg h hl

namespace JB
open TEA

/-- the equation is not a power with exponent 0 -/
def NotZeroPow (lib : Lib K) : Prim K → List (Inter K) → Prop
  | .integerPow y, _ => y ≠ 0
  | .pow, [_, b] => ∀ v, b.constantValue = some v → lib.expo (v.get []) ≠ .int 0
  | _, _ => True

theorem not_live_const {m : ℕ} {b : Inter K} {v : ND K} (h : b.constantValue = some v) : ¬Live m b.encl := by
  have he : b.encl = [.arr v] := by
    unfold Inter.constantValue at h
    split at h
    · rename_i w hw
      cases h
      exact hw
    · cases h
  rw [he]
  rintro ⟨h1, h2⟩
  rcases Nat.eq_zero_or_pos m with hm | hm
  · obtain ⟨_, _, h⟩ := h1 hm
    cases h
  · have := h2 hm
    simp at this

theorem live_map {m : ℕ} {a c : Encl K} (hl : Live m a) {F : ℕ → Coef K → Py (Coef K)} (hlen : c.length = a.length)
    (h : ∀ i x, a[i]? = some x → ∃ y, c[i]? = some y ∧ F i x = .ok y)
    (hF : ∀ i lo hi y, F i (.ivl lo hi) = .ok y → ∃ l u, y = .ivl l u) : Live m c := by
  refine ⟨fun h0 => ?_, fun h1 => by rw [hlen]; exact hl.2 h1⟩
  obtain ⟨lo, hi, e⟩ := hl.1 h0
  obtain ⟨y, hy, hf⟩ := h 0 _ e
  obtain ⟨l, u, rfl⟩ := hF 0 lo hi y hf
  exact ⟨l, u, hy⟩

/-- an equation with a live argument has a live result -/
theorem push_live {lib : Lib K} (hlib : LibFull lib) {T : TEA K} {p : Prim K} {f : List (Inter K) → Py (Encl K)}
    (hf : pushforward lib T p = some f) {ins : List (Inter K)}
    (hi : ∀ i ∈ ins, i.encl ≠ [] ∧ i.encl.length ≤ T.maxDegree + 1) {e : Encl K} (hc : f ins = .ok e)
    (hz : NotZeroPow lib p ins) (hl : ∃ i ∈ ins, Live T.maxDegree i.encl) : Live T.maxDegree e := by
  have bin : ∀ g : Inter K → Inter K → Py (Encl K),
      (match ins with | [a, b] => g a b | _ => (.error .typeError : Py (Encl K))) = .ok e →
      ∃ a b, ins = [a, b] ∧ g a b = .ok e := by
    intro g hg
    rcases ins with _ | ⟨a, _ | ⟨b, _ | ⟨c, l⟩⟩⟩ <;> simp only [reduceCtorEq] at hg
    exact ⟨a, b, rfl, hg⟩
  have una : ∀ g : Inter K → Py (Encl K),
      (match ins with | [a] => g a | _ => (.error .typeError : Py (Encl K))) = .ok e →
      ∃ a, ins = [a] ∧ g a = .ok e ∧ Live T.maxDegree a.encl := by
    intro g hg
    rcases ins with _ | ⟨a, _ | ⟨b, l⟩⟩ <;> simp only [reduceCtorEq] at hg
    obtain ⟨i, hi, hli⟩ := hl
    rw [List.mem_singleton] at hi
    subst hi
    exact ⟨i, rfl, hg, hli⟩
  have two : ∀ {a b : Inter K}, ins = [a, b] → Live T.maxDegree a.encl ∨ Live T.maxDegree b.encl := by
    intro a b h
    obtain ⟨i, hi, hli⟩ := hl
    rw [h] at hi
    simp only [List.mem_cons, List.not_mem_nil, or_false] at hi
    rcases hi with rfl | rfl
    · exact Or.inl hli
    · exact Or.inr hli
  have lin : ∀ (q : Prim K),
      (match ins with | [a] => (mapOverEnclosure a.encl (q.bind1 lib.sem) : Py (Encl K))
                      | _ => .error .typeError) = .ok e → Live T.maxDegree e := by
    intro q hg
    obtain ⟨a, rfl, hg, hla⟩ := una _ hg
    have hF := Poly.mapM_ok hg
    refine live_map hla hF.length_eq.symm (F := fun _ c => match c with
      | .ivl lo hi => do return .ivl (← q.bind1 lib.sem lo) (← q.bind1 lib.sem hi)
      | .arr x => do return .arr (← q.bind1 lib.sem x)) (fun i x hx => (Poly.forall₂_getElem? hF i).2 x hx) ?_
    intro i lo hi y hy
    simp only [py_bind_ok, py_pure] at hy
    obtain ⟨_, -, _, -, rfl⟩ := hy
    exact ⟨_, _, rfl⟩
  cases p with
  | add =>
    cases hf
    obtain ⟨a, b, rfl, hg⟩ := bin _ hc
    exact live_add hg (hi a (by simp)).1 (hi b (by simp)).1 (two rfl)
  | sub =>
    cases hf
    obtain ⟨a, b, rfl, hg⟩ := bin _ hc
    unfold TEA.subtract at hg
    rw [py_bind_ok] at hg
    obtain ⟨nb, hnb, hg⟩ := hg
    refine live_add hg (hi a (by simp)).1 (encloseEnclosure_ne (by simpa using (hi b (by simp)).1) hnb) ?_
    exact (two rfl).imp id (live_negative hnb)
  | mul =>
    cases hf
    obtain ⟨a, b, rfl, hg⟩ := bin _ hc
    exact live_multiply hg (hi a (by simp)).1 (hi b (by simp)).1 (two rfl)
  | div =>
    cases hf
    obtain ⟨a, b, rfl, hg⟩ := bin _ hc
    unfold TEA.divide at hg
    rw [py_bind_ok] at hg
    obtain ⟨r, h1, hg⟩ := hg
    exact live_multiply hg (hi a (by simp)).1 (powerOther_ne h1) ((two rfl).imp id (live_powerOther (hlib.pow _) h1))
  | neg =>
    cases hf
    obtain ⟨a, rfl, hg, hla⟩ := una _ hc
    exact live_negative hg hla
  | pow =>
    cases hf
    obtain ⟨a, b, rfl, hg⟩ := bin _ hc
    unfold powPush at hg
    cases hcv : b.constantValue with
    | none => rw [hcv] at hg; cases hg
    | some u =>
      have hla := (two rfl).resolve_right (not_live_const hcv)
      have hz := hz u hcv
      rw [hcv] at hg
      simp only at hg
      by_cases hsh : u.shape ≠ []
      · rw [if_pos hsh] at hg; cases hg
      rw [if_neg hsh] at hg
      cases hx : lib.expo (u.get []) with
      | frac q => rw [hx] at hg; exact live_powerOther (hlib.pow _) hg hla
      | int n =>
        rw [hx] at hg hz
        simp only at hg
        by_cases hn : n < 0
        · rw [if_pos hn] at hg; exact live_powerOther (hlib.pow _) hg hla
        · rw [if_neg hn] at hg
          by_cases hn0 : n = 0
          · exact absurd (by rw [hn0]) hz
          · rw [if_neg hn0] at hg; cases hg
  | integerPow n =>
    cases hf
    obtain ⟨a, rfl, hg, hla⟩ := una _ hc
    by_cases hn : 0 ≤ n
    · rw [if_pos hn] at hg
      have hz : n ≠ 0 := hz
      exact live_powerNat hg (by omega) hla
    · rw [if_neg hn] at hg; exact live_powerOther (hlib.pow _) hg hla
  | dotGeneral lc rc lb rb =>
    cases hf
    obtain ⟨a, b, rfl, hg⟩ := bin _ hc
    exact live_bilinear hg (hi a (by simp)).1 (hi b (by simp)).1 (hi a (by simp)).2 (hi b (by simp)).2 (two rfl)
  | conv op =>
    cases hf
    obtain ⟨a, b, rfl, hg⟩ := bin _ hc
    exact live_bilinear hg (hi a (by simp)).1 (hi b (by simp)).1 (hi a (by simp)).2 (hi b (by simp)).2 (two rfl)
  | broadcastInDim shape dims =>
    cases hf
    obtain ⟨a, rfl, hg, hla⟩ := una _ hc
    simp only [broadcastInDimPush, py_bind_ok] at hg
    obtain ⟨xs, -, hg⟩ := hg
    have hF := Poly.mapM_ok hg
    have hlen := hF.length_eq
    rw [Poly.enum_length] at hlen
    refine live_map hla hlen.symm (F := fun i c => bidCoef shape dims xs (i, c)) (fun i x hx => ?_) ?_
    · exact (Poly.forall₂_getElem? hF i).2 (i, x) (by rw [Poly.enum_getElem?, hx]; rfl)
    · intro i lo hi y hy
      simp only [bidCoef, py_bind_ok, py_pure] at hy
      obtain ⟨_, -, _, -, rfl⟩ := hy
      exact ⟨_, _, rfl⟩
  | elementwise name =>
    simp only [pushforward, Option.map_eq_some_iff] at hf
    obtain ⟨g, hgen, rfl⟩ := hf
    obtain ⟨a, rfl, hg, hla⟩ := una _ hc
    exact live_elementwise (hlib.gen _ _ hgen) hg hla
  | other _ _ => cases hf
  | _ => cases hf; exact lin _ hc

end JB

end AB
