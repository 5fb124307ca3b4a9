/-
Enclosures that hold up to an error, on arrays and for whole programs.
-/
import Verif.Proofs.Near3
import Verif.Props.AtRef
import Verif.Spec.NearLib
set_option linter.unusedSectionVars false

namespace AB
open PE EF Set

/-- scalar soundness of `g` for `f` up to an error `ε`, where `ok` holds -/
def ScalarNear {K : Type} [Field K] [LinearOrder K] (ε : K) (f : K → K) (tc : ℕ → K → Py (List K))
    (g : K → K → K → ℕ → Py (SEncl K)) (ok : K → K → K → ℕ → Prop) : Prop :=
  ∀ x0 a b d s, a ≤ x0 → x0 ≤ b → ok x0 a b d → g x0 a b d = .ok s →
    s.1.length = d ∧ s.2.1 ≤ s.2.2 ∧ (∀ x, a ≤ x → x ≤ b → ∃ w, SEncl.Has s (x - x0) w ∧ |w - f x| ≤ ε) ∧
    ∃ l, tc d x0 = .ok l ∧ ∀ i < d, l.getD i 0 = s.1.getD i 0

section
variable {K : Type} [Field K] [LinearOrder K] [IsStrictOrderedRing K]

/-- Lifting a scalar function that is enclosed up to an error to arrays. -/
theorem nearGenerator_lift {ε : K} {f : K → K} {tc : ℕ → K → Py (List K)}
    {g : K → K → K → ℕ → Py (SEncl K)} {ok : K → K → K → ℕ → Prop} (hs : ScalarNear ε f tc g ok) :
    NearGenerator ε f (guardGen ok (liftGen tc g)) := by
  intro x0 lo hi d e R hsh hR hne hx0 hg
  obtain ⟨hok, hg⟩ := guardGen_ok hg
  have hok := hok R hR
  simp only at hok
  unfold liftGen at hg
  simp only [hR] at hg
  simp only [py_bind_ok, py_pure] at hg
  obtain ⟨ss, hss, rfl⟩ := hg
  have hall : ∀ I, ValidIdx R I → ∃ s, g (x0.bget I) (lo.bget I) (hi.bget I) d = .ok s := by
    intro I hI
    have := Poly.mapM_ok hss
    have hm := mem_idx.2 hI
    clear hss hI
    generalize idx R = l at this hm
    induction this with
    | nil => cases hm
    | cons h _ ih =>
      rcases List.mem_cons.1 hm with rfl | hm
      · exact ⟨_, h⟩
      · exact ih hm
  have lR := bshape_le hR
  have key : ∀ I, ValidIdx R I → ∃ s, g (x0.bget I) (lo.bget I) (hi.bget I) d = .ok s ∧
      s.1.length = d ∧ s.2.1 ≤ s.2.2 ∧ (∀ x, lo.bget I ≤ x → x ≤ hi.bget I → ∃ w, SEncl.Has s (x - x0.bget I) w ∧ |w - f x| ≤ ε) ∧
      ∃ l, tc d (x0.bget I) = .ok l ∧ ∀ i < d, l.getD i 0 = s.1.getD i 0 := by
    intro I hI
    obtain ⟨s, h⟩ := hall I hI
    exact ⟨s, h, hs _ _ _ _ _ (hx0 I hI).1 (hx0 I hI).2 (hok I hI) h⟩
  set fin : List ℕ → K × K := fun I => finOf (g (x0.bget I) (lo.bget I) (hi.bget I) d) with hfin
  have hfin' : ∀ I s, g (x0.bget I) (lo.bget I) (hi.bget I) d = .ok s → fin I = s.2 := by
    intro I s h; rw [hfin]; simp only [h, finOf]
  set coef : ℕ → K → K := fun i x => coefOf i (tc d x) with hcf
  have hcf' : ∀ i x l, tc d x = .ok l → coef i x = l.getD i 0 := by
    intro i x l h; rw [hcf]; simp only [h, coefOf]
  set E : Encl K := (List.range d).map (fun i => Coef.arr (x0.map (coef i))) ++
        [Coef.ivl ⟨R, fun I => (fin I).1⟩ ⟨R, fun I => (fin I).2⟩] with hEdef
  have hlen : E.length = d + 1 := by simp [hEdef]
  have hmem : ∀ c ∈ E, (∃ i, c = .arr (x0.map (coef i))) ∨
      c = .ivl ⟨R, fun I => (fin I).1⟩ ⟨R, fun I => (fin I).2⟩ := by
    intro c hc
    rw [hEdef, List.mem_append] at hc
    rcases hc with hc | hc
    · obtain ⟨i, -, rfl⟩ := List.mem_map.1 hc
      exact Or.inl ⟨i, rfl⟩
    · exact Or.inr (List.mem_singleton.1 hc)
  have hwf : WellFormedEncl E := by
    intro c hc
    rcases hmem c hc with ⟨i, rfl⟩ | rfl
    · exact ⟨trivial, trivial⟩
    · refine ⟨rfl, fun I hI => ?_⟩
      obtain ⟨s, h1, -, h2, -⟩ := key I hI
      show (fin I).1 ≤ (fin I).2
      rw [hfin' I s h1]; exact h2
  refine ⟨by intro h; rw [h] at hlen; simp at hlen, hlen.le, hwf, ?_, ?_⟩
  · intro c hc
    rcases hmem c hc with ⟨i, rfl⟩ | rfl
    · right; left; rfl
    · right; right; right; rfl
  · intro y δ hRy hy hδ
    have hw : ∀ I, ∃ w, ValidIdx y.shape I → |w - f (y.get I)| ≤ ε ∧
        ∀ s, g (x0.bget (bidx R I)) (lo.bget (bidx R I)) (hi.bget (bidx R I)) d = .ok s →
          SEncl.Has s (y.get I - x0.bget I) w := by
      intro I
      by_cases hI : ValidIdx y.shape I
      · have lRy : ble R y.shape := ble_iff_bshape.1 hRy
        have hl : R.length ≤ I.length := (ble_length lRy).trans hI.length.le
        have hJ := validIdx_bidx lRy hI
        obtain ⟨s, h1, -, -, h4, -⟩ := key (bidx R I) hJ
        have ex0 : x0.bget (bidx R I) = x0.bget I := ND.bget_bidx _ lR.1 hl
        have elo : lo.bget (bidx R I) = lo.bget I := ND.bget_bidx _ lR.2 hl
        have ehi : hi.bget (bidx R I) = hi.bget I := ND.bget_bidx _ (hsh ▸ lR.2) hl
        rw [ex0, elo, ehi] at h4
        obtain ⟨w, hw1, hw2⟩ := h4 (y.get I) (hy I hI).1 (hy I hI).2
        refine ⟨w, fun _ => ⟨hw2, fun s' hs' => ?_⟩⟩
        rw [h1] at hs'
        cases hs'
        exact hw1
      · exact ⟨0, fun h => absurd h hI⟩
    choose W hW using hw
    refine ⟨⟨y.shape, W⟩, ⟨rfl, fun I hI => (hW I hI).1⟩, ?_⟩
    have lRy : ble R y.shape := ble_iff_bshape.1 hRy
    obtain ⟨hδs, hδv⟩ := ND.map2_ok hδ
    have hxy : ble x0.shape y.shape := ble_trans lR.1 lRy
    have hδs : δ.shape = y.shape := by
      have := bshape_eq_of_ble' hxy
      rw [hδs] at this
      exact Option.some.inj this
    have hEy : ∀ c ∈ E, ble c.shape y.shape := by
      intro c hc
      rcases hmem c hc with ⟨i, rfl⟩ | rfl
      · exact hxy
      · exact lRy
    obtain ⟨r, hr⟩ := elemEval_total (Z := .arr δ) hwf.wfe (Coef.WF_arr _) hEy
      (by show ble δ.shape _; rw [hδs]; exact ble_refl _)
    obtain ⟨r1, -, -, r4, r5⟩ := elemEval_ok hwf.wfe (Coef.WF_arr _) hr
    have hry : ble r.shape y.shape := r4 _ hEy (by show ble δ.shape _; rw [hδs]; exact ble_refl _)
    refine ⟨r, hr, (Coef.covers_iff r1).2 ⟨hry, fun I hI => ?_⟩⟩
    have hI : ValidIdx y.shape I := hI
    have hl : R.length ≤ I.length := (ble_length lRy).trans hI.length.le
    have hJ := validIdx_bidx lRy hI
    obtain ⟨s, h1, h2, h3, h4, l, hl1, hl2⟩ := key (bidx R I) hJ
    have ex0 : x0.bget (bidx R I) = x0.bget I := ND.bget_bidx _ lR.1 hl
    have elo : lo.bget (bidx R I) = lo.bget I := ND.bget_bidx _ lR.2 hl
    have ehi : hi.bget (bidx R I) = hi.bget I := ND.bget_bidx _ (hsh ▸ lR.2) hl
    obtain ⟨q, q1, q2, q3⟩ := (hW I hI).2 s h1
    have hδI : δ.bget I = y.get I - x0.bget I := by
      rw [hδv I (by rw [hδs]; exact hI.length.le), ND.bget_valid _ hI]
    have := r5 I ((ble_length hry).trans hI.length.le)
      (by show δ.shape.length ≤ _; rw [hδs]; exact hI.length.le) (δ.bget I) (Coef.mem_arr.2 rfl)
      (fun j => if j < d then s.1.getD j 0 else q) ?_
    · show r.Mem I (W I)
      rw [q3, h2]
      rw [hlen, Finset.sum_range_succ, hδI] at this
      simp only [lt_irrefl, if_false] at this
      rwa [Finset.sum_congr rfl (g := fun i => s.1.getD i 0 * (y.get I - x0.bget I) ^ i)] at this
      intro i hi
      rw [if_pos (Finset.mem_range.1 hi)]
    · intro j c hj
      by_cases hjd : j < d
      · rw [if_pos hjd]
        rw [hEdef, List.getElem?_append_left (by simpa using hjd), List.getElem?_map,
          List.getElem?_range hjd] at hj
        simp only [Option.map_some, Option.some.injEq] at hj
        subst hj
        rw [Coef.mem_arr, ND.bget_map, ← ex0, hcf' _ _ _ hl1, hl2 j hjd]
      · rw [if_neg hjd]
        rw [hEdef, List.getElem?_append_right (by simpa using hjd)] at hj
        have hj0 : j - ((List.range d).map (fun i => Coef.arr (x0.map (coef i)))).length = 0 := by
          by_contra hne
          rw [List.getElem?_eq_none (by simp at hne ⊢; omega)] at hj
          cases hj
        rw [hj0] at hj
        simp only [List.getElem?_cons_zero, Option.some.injEq] at hj
        subst hj
        show (fin (bidx R I)).1 ≤ q ∧ q ≤ (fin (bidx R I)).2
        rw [hfin' _ _ h1]
        exact ⟨q1, q2⟩


end

/-- an enclosure that is right after widening is right up to an error -/
theorem has_of_widen {s : SEncl ℝ} {η δ w : ℝ} (hη : 0 ≤ η) (h : s.2.1 ≤ s.2.2) (hw : SEncl.Has (SEncl.widen s η) δ w) :
    ∃ w', SEncl.Has s δ w' ∧ |w' - w| ≤ η * |δ| ^ s.1.length := by
  obtain ⟨q, q1, q2, rfl⟩ := hw
  have q1 : s.2.1 - η ≤ q := q1
  have q2 : q ≤ s.2.2 + η := q2
  have key : |max s.2.1 (min q s.2.2) - q| ≤ η := by
    rw [abs_le]
    constructor
    · rcases le_total q s.2.2 with h1 | h1
      · rw [min_eq_left h1]
        have := le_max_right s.2.1 q
        linarith
      · rw [min_eq_right h1, max_eq_right h]; linarith
    · rcases le_total q s.2.2 with h1 | h1
      · rw [min_eq_left h1]
        rcases le_total s.2.1 q with h2 | h2
        · rw [max_eq_right h2]; linarith
        · rw [max_eq_left h2]; linarith
      · rw [min_eq_right h1, max_eq_right h]; linarith
  refine ⟨_, ⟨max s.2.1 (min q s.2.2), le_max_left _ _, max_le h (min_le_right _ _), rfl⟩, ?_⟩
  have e : (∑ i ∈ Finset.range s.1.length, s.1.getD i 0 * δ ^ i + max s.2.1 (min q s.2.2) * δ ^ s.1.length) -
      (∑ i ∈ Finset.range (SEncl.widen s η).1.length, (SEncl.widen s η).1.getD i 0 * δ ^ i +
        q * δ ^ (SEncl.widen s η).1.length) = (max s.2.1 (min q s.2.2) - q) * δ ^ s.1.length := by
    simp only [SEncl.widen]; ring
  rw [e, abs_mul, abs_pow]
  exact mul_le_mul_of_nonneg_right key (by positivity)

theorem widen_zero (s : SEncl ℝ) : SEncl.widen s 0 = s := by
  simp [SEncl.widen]

theorem builtinNear_zero {n : FName} {k : ℕ} {x0 a b ε ε' : ℝ} (h : BuiltinNear n k x0 a b 0 ε) (he : ε ≤ ε')
    {s : SEncl ℝ} (hg : getElementwiseTaylorEnclosure ⟨n, 0⟩ x0 a b k = .ok s) :
    s.1.length = k ∧ ∀ x, a ≤ x → x ≤ b → ∃ w, SEncl.Has s (x - x0) w ∧ |w - mathFun n x| ≤ ε' := by
  obtain ⟨s', e, hl, h⟩ := h
  rw [hg] at e
  cases e
  rw [widen_zero] at h
  refine ⟨hl, fun x h1 h2 => ?_⟩
  obtain ⟨w, hw, hd⟩ := h x h1 h2
  exact ⟨w, hw, by rw [abs_sub_comm]; exact hd.trans he⟩

theorem dist_pow_le {x0 a b x : ℝ} (h1 : a ≤ x0) (h2 : x0 ≤ b) (h3 : a ≤ x) (h4 : x ≤ b) (k : ℕ) :
    |x - x0| ^ k ≤ (b - a) ^ k := by
  refine pow_le_pow_left₀ (abs_nonneg _) ?_ k
  rw [abs_le]
  constructor <;> linarith

/-- the error of the built-in functions -/
theorem scalarNear_builtin (ε : ℝ) (n : FName) :
    ScalarNear ε (mathFun n) (fun d x => getTaylorPolynomialCoefficients ⟨n, 0⟩ d x)
      (fun x0 a b d => getElementwiseTaylorEnclosure ⟨n, 0⟩ x0 a b d) (NearCall ε n) := by
  intro x0 a b d s h1 h2 hok hg
  simp only at hg
  obtain ⟨l, hl, hs⟩ := elementwise_fst hg
  have hll := taylorPoly_length hl
  have hlen : s.1.length = d := by rw [hs, List.length_take]; omega
  obtain ⟨hd, hok⟩ := hok
  have hx0 : x0 ∈ Icc a b := ⟨h1, h2⟩
  have order : (∀ x, a ≤ x → x ≤ b → ∃ w, SEncl.Has s (x - x0) w ∧ |w - mathFun n x| ≤ ε) → s.2.1 ≤ s.2.2 := by
    intro h
    obtain ⟨w, ⟨q, q1, q2, -⟩, -⟩ := h x0 h1 h2
    exact q1.trans q2
  suffices h : ∀ x, a ≤ x → x ≤ b → ∃ w, SEncl.Has s (x - x0) w ∧ |w - mathFun n x| ≤ ε from
    ⟨hlen, order h, h, l, hl, fun i hi => by rw [hs, getD_take hi]⟩
  rcases hok with ⟨rfl, rfl, he⟩ | ⟨rfl, rfl, he⟩ | ⟨V, hV, hdom, ht, he⟩ | ⟨V, hV, ht, he, s', hg', ho⟩
  · exact (builtinNear_zero (C59_abs hx0) he hg).2
  · have hord := (scalarIsotone_builtin .softplus x0 x0 a b a b 2 s s le_rfl h1 h2 le_rfl h1 h2 (fun _ => rfl)
      (Or.inr (Or.inl rfl)) (Or.inr (Or.inl rfl)) hg hg).2.1
    obtain ⟨s', e, -, h⟩ := C59_softplus2 hx0
    rw [hg] at e
    cases e
    intro x h3 h4
    obtain ⟨w, hw, hd⟩ := has_of_widen (by norm_num) hord (h x h3 h4)
    refine ⟨w, hw, hd.trans (le_trans ?_ he)⟩
    rw [hlen]
    have := dist_pow_le h1 h2 h3 h4 2
    linarith
  · exact (builtinNear_zero (C59_truthful hx0 hdom ht hV) he hg).2
  · rw [hg] at hg'
    cases hg'
    obtain ⟨s', e, -, h⟩ := C59_rounded ht hx0 hV
    rw [hg] at e
    cases e
    intro x h3 h4
    obtain ⟨w, hw, hwd⟩ := h x h3 h4
    obtain ⟨w', hw', hd⟩ := has_of_widen (by norm_num) ho hw
    refine ⟨w', hw', ?_⟩
    have := dist_pow_le h1 h2 h3 h4 d
    rw [hlen] at hd
    have h5 := abs_sub_le w' w (mathFun n x)
    rw [abs_sub_comm] at hwd
    have h6 : 1 / 10 ^ 12 * |x - x0| ^ d ≤ (b - a) ^ d / 10 ^ 12 := by linarith
    linarith

theorem scalarNear_pow (ε : ℝ) (p : Expo ℝ) {f : ℝ → ℝ} (hf : ∀ x, (∀ q, p = .frac q → 0 < x) → powFun p x = f x) :
    ScalarNear ε f (fun d x => .ok (powCoeffs (fun x p : ℝ => x ^ p) p d x))
      (fun x0 a b d => powEnclosure (fun x p : ℝ => x ^ p) p x0 a b d) (PowNearCall ε p) := by
  intro x0 a b d s h1 h2 hok hg
  simp only at hg
  obtain ⟨hd, hreg, h0, hfin, V, hV, he⟩ := hok
  obtain ⟨s', e, hlen, hord, h⟩ := C59_pow ⟨h1, h2⟩ hreg h0 hfin hV
  rw [hg] at e
  cases e
  refine ⟨hlen, hord, ?_, _, rfl, fun i hi => by rw [pow_fst hg, getD_take hi]⟩
  intro x h3 h4
  obtain ⟨w, hw, hwd⟩ := h x h3 h4
  refine ⟨w, hw, ?_⟩
  rw [← hf x (fun q hq => (h0 q hq).trans_le h3), abs_sub_comm]
  exact hwd.trans he

/-- an enclosure that is right up to an error, and whose first coefficient is the function value, is right at the
reference point -/
theorem soundOn_of_near {ε : ℝ} {f : ℝ → ℝ} {tc : ℕ → ℝ → Py (List ℝ)} {g : ℝ → ℝ → ℝ → ℕ → Py (SEncl ℝ)}
    {ok : ℝ → ℝ → ℝ → ℕ → Prop} (h : ScalarNear ε f tc g ok)
    (hd : ∀ x0 a b d, ok x0 a b d → 1 ≤ d)
    (h0 : ∀ x0 a b d s, a ≤ x0 → x0 ≤ b → ok x0 a b d → g x0 a b d = .ok s → s.1.getD 0 0 = f x0) :
    ScalarSoundOn (fun d x0 x => d = 0 ∨ x = x0) f tc g ok := by
  intro x0 a b d s h1 h2 hok hg
  obtain ⟨k1, k2, -, k4⟩ := h x0 a b d s h1 h2 hok hg
  refine ⟨k1, k2, ?_, k4⟩
  have := hd _ _ _ _ hok
  rintro x - - (h | rfl)
  · omega
  · rw [sub_self]
    exact has_at_ref (by omega) k2 (h0 x a b d s h1 h2 hok hg)

theorem coef_zero_builtin {n : FName} {x0 a b : ℝ} {d : ℕ} {s : SEncl ℝ} (hd : 1 ≤ d)
    (hg : getElementwiseTaylorEnclosure ⟨n, 0⟩ x0 a b d = .ok s) : s.1.getD 0 0 = mathFun n x0 := by
  obtain ⟨l, hl, hs⟩ := elementwise_fst hg
  rw [hs, getD_take (by omega)]
  have hF := Poly.mapM_ok hl
  obtain ⟨v, hv, e⟩ : ∃ v, l[0]? = some v ∧ (do
      let fd ← getFunction (FunctionId.derivativeId ⟨n, 0⟩ 0)
      return fd x0 / ((0 : ℕ).factorial : ℝ) : Py ℝ) = .ok v := by
    have h0 : (List.range (d + 1))[0]? = some 0 := by simp
    exact (Poly.forall₂_getElem? hF 0).2 0 h0
  simp only [py_bind_ok, py_pure] at e
  obtain ⟨fd, hfd, rfl⟩ := e
  obtain ⟨-, rfl⟩ := getFunction_eq.1 hfd
  rw [List.getD_eq_getElem?_getD, hv]
  simp [derivFun_zero]

theorem coef_zero_pow {p : Expo ℝ} {x0 a b : ℝ} {d : ℕ} {s : SEncl ℝ} (hd : 1 ≤ d)
    (hg : powEnclosure (fun x p : ℝ => x ^ p) p x0 a b d = .ok s) : s.1.getD 0 0 = powFun p x0 := by
  rw [pow_fst hg, getD_take (by omega), List.getD_eq_getElem?_getD]
  unfold powCoeffs
  rw [List.getElem?_map, List.getElem?_range (by omega)]
  simp [fallProd, powShift_zero]

theorem soundOn_builtin_near (ε : ℝ) (n : FName) :
    ScalarSoundOn (fun d x0 x => d = 0 ∨ x = x0) (mathFun n) (fun d x => getTaylorPolynomialCoefficients ⟨n, 0⟩ d x)
      (fun x0 a b d => getElementwiseTaylorEnclosure ⟨n, 0⟩ x0 a b d) (NearCall ε n) :=
  soundOn_of_near (scalarNear_builtin ε n) (fun _ _ _ _ h => h.1) fun _ _ _ _ _ _ _ h hg => coef_zero_builtin h.1 hg

theorem soundOn_pow_near (ε : ℝ) (p : Expo ℝ) {f : ℝ → ℝ} (hf : ∀ x, (∀ q, p = .frac q → 0 < x) → powFun p x = f x) :
    ScalarSoundOn (fun d x0 x => d = 0 ∨ x = x0) f (fun d x => .ok (powCoeffs (fun x p : ℝ => x ^ p) p d x))
      (fun x0 a b d => powEnclosure (fun x p : ℝ => x ^ p) p x0 a b d) (PowNearCall ε p) :=
  soundOn_of_near (scalarNear_pow ε p hf) (fun _ _ _ _ h => h.1) fun x0 a b d s h1 h2 h hg => by
    rw [coef_zero_pow h.1 hg, hf x0 (fun q hq => (h.2.2.1 q hq).trans_le h1)]

namespace JB

theorem root_fun {s : String} {q : ℝ} (h : rootExponent s = some q) :
    ∃ f, realSem.fn s = some f ∧ ∀ x, (∀ q', Expo.frac q = .frac q' → 0 < x) → powFun (.frac q) x = f x := by
  unfold rootExponent at h
  split at h <;> cases h
  · exact ⟨cbrt, rfl, fun x hx => (cbrt_of_nonneg (hx _ rfl).le).symm⟩
  · exact ⟨_, rfl, fun x _ => (rsqrt_eq x).symm⟩
  · exact ⟨_, rfl, fun x _ => (Real.sqrt_eq_rpow x).symm⟩

theorem nearLib_near (ε : ℝ) : LibNear ε (nearLib ε) realSem where
  fn := safeLib_sound.fn
  pow := rfl
  gen n g h := by
    simp only [nearLib] at h
    cases hn : builtinName n with
    | some b =>
      simp only [hn, Option.some.injEq] at h
      subst h
      exact ⟨_, realSem_builtin hn, nearGenerator_lift (scalarNear_builtin ε b), keepsShape_guard (keepsShape_lift _ _)⟩
    | none =>
      simp only [hn, Option.map_eq_some_iff] at h
      obtain ⟨q, hq, rfl⟩ := h
      obtain ⟨f, hf, hs⟩ := root_fun hq
      exact ⟨f, hf, nearGenerator_lift (scalarNear_pow ε _ hs), keepsShape_guard (keepsShape_lift _ _)⟩
  powInt n _ := ⟨nearGenerator_lift (scalarNear_pow ε (.int n) (fun _ _ => rfl)),
    keepsShape_guard (keepsShape_lift _ _)⟩
  expoInt := safeLib_sound.expoInt
  expoFrac p q h := by
    have h : realExpo p = .frac q := h
    unfold realExpo at h
    split_ifs at h with hp
    cases h
    exact ⟨nearGenerator_lift (scalarNear_pow ε (.frac p) (fun _ _ => rfl)), keepsShape_guard (keepsShape_lift _ _)⟩

theorem nearLib_soundAt (ε : ℝ) (xs : List ℕ) : LibSoundAt ⟨xs, fun _ => 0⟩ (nearLib ε) realSem where
  fn := safeLib_sound.fn
  pow := rfl
  gen n g h := by
    simp only [nearLib] at h
    cases hn : builtinName n with
    | some b =>
      simp only [hn, Option.some.injEq] at h
      subst h
      exact ⟨_, realSem_builtin hn, soundGeneratorAt_lift (soundOn_builtin_near ε b) xs,
        keepsShape_guard (keepsShape_lift _ _)⟩
    | none =>
      simp only [hn, Option.map_eq_some_iff] at h
      obtain ⟨q, hq, rfl⟩ := h
      obtain ⟨f, hf, hs⟩ := root_fun hq
      exact ⟨f, hf, soundGeneratorAt_lift (soundOn_pow_near ε _ hs) xs, keepsShape_guard (keepsShape_lift _ _)⟩
  powInt n _ := ⟨soundGeneratorAt_lift (soundOn_pow_near ε (.int n) (fun _ _ => rfl)) xs,
    keepsShape_guard (keepsShape_lift _ _)⟩
  expoInt := safeLib_sound.expoInt
  expoFrac p q h := by
    have h : realExpo p = .frac q := h
    unfold realExpo at h
    split_ifs at h with hp
    cases h
    exact ⟨soundGeneratorAt_lift (soundOn_pow_near ε (.frac p) (fun _ _ => rfl)) xs,
      keepsShape_guard (keepsShape_lift _ _)⟩

theorem nearLib_arr (ε : ℝ) : LibArr (nearLib ε) where
  gen n g h := by
    simp only [nearLib] at h
    cases hn : builtinName n with
    | some b =>
      simp only [hn, Option.some.injEq] at h
      subst h
      exact arrGen_guard (arrGen_lift _ _)
    | none =>
      simp only [hn, Option.map_eq_some_iff] at h
      obtain ⟨q, hq, rfl⟩ := h
      exact arrGen_guard (arrGen_lift _ _)
  pow p := arrGen_guard (arrGen_lift _ _)

theorem nearLib_full (ε : ℝ) : LibFull (nearLib ε) where
  gen n g h := by
    simp only [nearLib] at h
    cases hn : builtinName n with
    | some b =>
      simp only [hn, Option.some.injEq] at h
      subst h
      exact full_guard (full_lift _ _)
    | none =>
      simp only [hn, Option.map_eq_some_iff] at h
      obtain ⟨q, hq, rfl⟩ := h
      exact full_guard (full_lift _ _)
  pow p := full_guard (full_lift _ _)

theorem nearLib_le (ε : ℝ) : LibLe (nearLib ε) realLib where
  sem := rfl
  expo := rfl
  gen n := by
    cases hn : builtinName n with
    | some b =>
      exact Or.inr ⟨_, _, by simp only [nearLib, hn]; rfl, by simp only [realLib, realGen, hn], genLe_guard⟩
    | none =>
      cases hq : rootExponent n with
      | none => exact Or.inl ⟨by simp only [nearLib, hn, hq]; rfl, by simp only [realLib, realGen, hn, hq]; rfl⟩
      | some q =>
        exact Or.inr ⟨_, _, by simp only [nearLib, hn, hq]; rfl, by simp only [realLib, realGen, hn, hq]; rfl, genLe_guard⟩
  pow p := genLe_guard

theorem nearLib_at_ref (ε : ℝ) (x0 : ND ℝ) (z : ND ℝ) (hz : ND.map2 (· - ·) x0 x0 = .ok z) :
    LibSoundAt z (nearLib ε) realSem := by
  rw [ND.map2_same (fun a b : ℝ => a - b) rfl] at hz
  cases hz
  have : (⟨x0.shape, fun I => x0.bget I - x0.bget I⟩ : ND ℝ) = ⟨x0.shape, fun _ => 0⟩ := by simp
  rw [this]
  exact nearLib_soundAt _ _

end JB
end AB
