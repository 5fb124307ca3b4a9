/-
Widths: element-wise functions and the rules of /repo/autobound/jax/jax_bound.py.
-/
import Verif.Proofs.Thin4
import Verif.Proofs.Iso5
import Verif.Spec.Converge

set_option linter.unusedSectionVars false

namespace AB
variable {K : Type} [Field K] [LinearOrder K] [IsStrictOrderedRing K]
open IA (repS)

section
variable {ι : Type} {w : ι → K} {i0 : ι} (hw : ∀ i, 0 ≤ w i)

/-- a family of enclosures from its coefficients -/
theorem thinE_of {e : ι → Encl K} (hn : ∀ i, NestE (e i) (e i0))
    (hwid : ∀ (n : ℕ) (L : List ℕ), ∃ C : K, 0 ≤ C ∧ ∀ i c, (e i)[n]? = some c → ValidIdx c.shape L →
      c.hi.bget L - c.lo.bget L ≤ C * w i) : ThinE w i0 e := by
  have hlen : ∀ i, (e i).length = (e i0).length := fun i => (hn i).length_eq
  refine ⟨(List.range (e i0).length).map fun n i => (e i).getD n (.arr (ND.scalar 0)), fun x hx => ?_, fun i => ?_⟩
  · obtain ⟨n, hn', rfl⟩ := List.mem_map.1 hx
    have hn' := List.mem_range.1 hn'
    have hg : ∀ i, (e i)[n]? = some ((e i).getD n (.arr (ND.scalar 0))) := by
      intro i
      have : n < (e i).length := by rw [hlen]; exact hn'
      simp [List.getD, List.getElem?_eq_getElem this]
    have hnest : ∀ i, Nest ((e i).getD n (.arr (ND.scalar 0))) ((e i0).getD n (.arr (ND.scalar 0))) := by
      intro i
      have := Poly.forall₂_getElem? (hn i) n
      rw [hg i, hg i0] at this
      simpa using this
    refine ⟨hnest, fun L hL => ?_⟩
    obtain ⟨C, c0, hC⟩ := hwid n L
    refine ⟨C, c0, fun i => hC i _ (hg i) ?_⟩
    rw [(hnest i).shape]; exact hL
  · refine List.ext_getElem? fun n => ?_
    by_cases h : n < (e i0).length
    · have h' : n < (e i).length := by rw [hlen]; exact h
      simp [h, List.getElem?_eq_getElem h', List.getD]
    · have h' : ¬ n < (e i).length := by rw [hlen]; exact h
      simp [h, h']

include hw

theorem thin_broadcastInDim {shape dims : List ℕ} {e r : ι → Encl K} (he : ThinE w i0 e)
    (h : ∀ i, JB.broadcastInDimPush shape dims (e i) = .ok (r i)) : ThinE w i0 r := by
  simp only [JB.broadcastInDimPush, py_bind_ok] at h
  choose xs hx h using h
  have e1 : ∀ i, xs i = xs i0 := by
    intro i
    rcases he.cases with he | ⟨c0, F, hc0, hF, he⟩
    · have := hx i0
      rw [he] at this; cases this
    have h1 := hx i
    have h2 := hx i0
    rw [he] at h1 h2
    rcases hF.cases with hF0 | ⟨c1, F', hc1, hF', hF0⟩
    · rw [hF0] at h1 h2
      rw [← Except.ok.inj h1, ← Except.ok.inj h2]
    · rw [hF0] at h1 h2
      have := hc1.nest i
      revert h1 h2 this
      generalize c1 i = u, c1 i0 = v
      intro h1 h2 this
      revert h1 h2
      cases this with
      | arr a =>
        intro h1 h2
        unfold JB.bidXShape at h1 h2
        rw [← Except.ok.inj h1, ← Except.ok.inj h2, hc0.ndim]
      | ivl _ _ _ => intro h1; cases h1
  simp only [e1] at h
  refine fam_mapM (Q := Thin w i0) ?_ (fam_enum he) h
  rintro _ t ⟨n, c, hc, rfl⟩ h
  refine thin_op hw (monotone_broadcastInDim (shape ++ TEA.rep n (xs i0)) dims)
    (lipschitz_broadcastInDim (shape ++ TEA.rep n (xs i0)) dims) hc fun i => ?_
  rw [← h i]
  beta_reduce
  cases c i <;> rfl

namespace TEA
variable {T : ι → TEA K}

theorem thin_gen (hT : ThinT w i0 T) {g : Generator K} (hg : IsotoneGen g) (hl : LipschitzGen g) {c0 : ι → Coef K}
    {a : ι → Encl K} (ha : ThinE w i0 fun i => c0 i :: a i) {t : ι → Coef K} (ht : Thin w i0 t)
    (hm : ∀ i, ble (c0 i).shape (t i).shape ∧ ∀ I, ValidIdx (t i).shape I → (t i).lo.bget I ≤ (c0 i).lo.bget I ∧
      (c0 i).lo.bget I ≤ (t i).hi.bget I)
    {x0 : ι → ND K} (hx : ∀ i, (T i).expansionPoint (c0 i) = .ok (x0 i))
    {e : ι → Encl K} (he : ∀ i, g (x0 i) (toInterval (t i)) (T i).maxDegree = .ok (e i))
    {r : ι → Encl K} (h : ∀ i, (T i).composeEnclosures (e i) (c0 i :: a i) = .ok (r i)) : ThinE w i0 r := by
  have : Nonempty ι := ⟨i0⟩
  have hc0 : Thin w i0 c0 := ha.head.1
  refine thin_compose hw hT ?_ ha h
  have hp : ∀ (S : TEA K) (c : Coef K) (x : ND K), S.expansionPoint c = .ok x → x = c.lo := by
    intro S c x hx
    unfold expansionPoint at hx
    cases c with
    | arr b => cases hx; rfl
    | ivl l h =>
      simp only at hx
      split_ifs at hx
      cases hx; rfl
  have e1 : ∀ i, x0 i = (c0 i).lo := fun i => hp _ _ _ (hx i)
  have hd : ∀ i, (T i0).maxDegree ≠ 0 → x0 i = x0 i0 := by
    intro i hd
    have hn := hc0.nest i
    have h0 := hx i0
    rw [e1, e1]
    revert h0 hn
    generalize c0 i = u, c0 i0 = v
    intro hn
    cases hn with
    | arr b => exact fun _ => rfl
    | ivl _ _ _ =>
      intro h0
      unfold expansionPoint at h0
      simp only at h0
      rw [if_neg hd] at h0
      cases h0
  simp only [hT.deg] at he
  have hbox : ∀ i, Nest (.ivl (toInterval (t i)).1 (toInterval (t i)).2) (.ivl (toInterval (t i0)).1 (toInterval (t i0)).2) := by
    intro i
    have := ht.nest i
    revert this
    generalize t i = u, t i0 = v
    intro this
    cases this with
    | arr b => exact Nest.refl ⟨rfl, fun _ _ => le_rfl⟩
    | ivl w' w hi => exact .ivl w' w hi
  have hs : ∀ t : Coef K, (toInterval t).1.shape = t.shape := by intro t; cases t <;> rfl
  have hll : ∀ t : Coef K, (toInterval t).1 = t.lo ∧ (toInterval t).2 = t.hi := by
    intro t; cases t <;> exact ⟨rfl, rfl⟩
  have hcs : ∀ c : Coef K, c.lo.shape = c.shape := by intro c; cases c <;> rfl
  have hsh : ∀ i, (x0 i).shape = (x0 i0).shape := fun i => by rw [e1, e1, hcs, hcs, hc0.shape]
  have hb : bshape (x0 i0).shape (toInterval (t i0)).1.shape = some (t i0).shape := by
    rw [e1, hs, hcs]
    exact bshape_eq_of_ble (hm i0).1
  have hin : ∀ i I, ValidIdx (t i0).shape I →
      (toInterval (t i)).1.bget I ≤ (x0 i).bget I ∧ (x0 i).bget I ≤ (toInterval (t i)).2.bget I := by
    intro i I hI
    rw [(hll (t i)).1, (hll (t i)).2, e1]
    exact (hm i).2 I (by rw [ht.shape]; exact hI)
  refine thinE_of (fun i => hg (x0 i) (x0 i0) _ _ _ _ (T i0).maxDegree (e i) (e i0) (t i0).shape (hbox i) (hsh i) hb
    (hin i) (hin i0) (hd i) (he i) (he i0)) fun n L => ?_
  obtain ⟨C, k0, hC⟩ := hl (x0 i0) _ _ _ _ (t i0).shape hb (hbox i0).wf (hin i0) (he i0)
  obtain ⟨D, d0, hD⟩ := ht.uniform hw
  refine ⟨C * D, mul_nonneg k0 d0, fun i c hc hL => ?_⟩
  have := hC (x0 i) _ _ (e i) (D * w i) (mul_nonneg d0 (hw i)) (hbox i) (hsh i) (hin i) (hd i) (fun I hI => by
    rw [(hll (t i)).1, (hll (t i)).2]; exact hD i I hI) (he i) n c hc L hL
  rw [(hll c).1, (hll c).2] at this
  rw [mul_assoc]; exact this

theorem thin_argRegion (hT : ThinT w i0 T) {a : ι → Encl K} (ha : ThinE w i0 a) {t : ι → Coef K}
    (h : ∀ i, (T i).argRegion (a i) none = .ok (t i)) : Thin w i0 t := by
  have : Nonempty ι := ⟨i0⟩
  simp only [argRegion, py_bind_ok] at h
  choose o ho h using h
  have := thin_enclose hw ha hT.region ho
  rcases this.cases with he | ⟨c, F, hc, hF, he⟩
  · have := h i0
    rw [he] at this; cases this
  · have : t = c := funext fun i => by
      have := h i
      rw [he] at this
      exact (Except.ok.inj this).symm
    rw [this]; exact hc

/-- the same regions everywhere, or nowhere -/
def ThinR (w : ι → K) (i0 : ι) (a : ι → Encl K) (t : ι → Option (Coef K)) : Prop :=
  (∀ i, t i = none) ∨ ∃ r : ι → Coef K, (∀ i, t i = some (r i)) ∧ Thin w i0 r ∧ ∀ i, RegionOk (a i) (r i)

omit hw in
theorem thinE_wf {a : ι → Encl K} (ha : ThinE w i0 a) (i : ι) : ∀ c ∈ a i, c.WellFormed := by
  obtain ⟨L, h1, h2⟩ := ha
  intro c hc
  rw [h2] at hc
  obtain ⟨x, hx, rfl⟩ := List.mem_map.1 hc
  exact ((h1 x hx).nest i).wf'

theorem thin_elementwise (hT : ThinT w i0 T) (h0 : ∀ i, (T i).Zero) {g : Generator K} (hg : IsotoneGen g)
    (hl : LipschitzGen g) {a : ι → Encl K} (ha : ThinE w i0 a) {t : ι → Option (Coef K)} (ht : ThinR w i0 a t)
    {r : ι → Encl K} (h : ∀ i, (T i).elementwiseFun g (a i) (t i) = .ok (r i)) : ThinE w i0 r := by
  simp only [elementwiseFun, py_bind_ok] at h
  choose tr htr h using h
  rcases ha.cases with he | ⟨c0, as, hc0, has, he⟩
  · have := h i0
    rw [he] at this; cases this
  obtain rfl : a = fun i => c0 i :: as i := funext he
  simp only [py_bind_ok] at h
  choose x0 hx e he h using h
  rcases ht with ht | ⟨s, hs, hts, hok⟩
  · simp only [ht] at htr
    exact thin_gen hw hT hg hl ha (thin_argRegion hw hT ha htr)
      (fun i => argRegion_head (h0 i) ((hT.region.nest i).wf') (thinE_wf ha i) (htr i)) hx he h
  · simp only [hs] at htr
    obtain rfl : tr = s := funext fun i => (Except.ok.inj (htr i)).symm
    refine thin_gen hw hT hg hl ha hts (fun i => ?_) hx he h
    obtain ⟨y0, z1, q1, q2, q3⟩ := hok i
    obtain ⟨q1, -⟩ := List.cons.inj q1
    rw [q1]
    exact ⟨q2, q3⟩

theorem thin_powerOther (hT : ThinT w i0 T) (h0 : ∀ i, (T i).Zero) {g : Generator K} (hg : IsotoneGen g)
    (hl : LipschitzGen g) {a : ι → Encl K} (ha : ThinE w i0 a)
    {r : ι → Encl K} (h : ∀ i, (T i).powerOther g (a i) = .ok (r i)) : ThinE w i0 r := by
  simp only [powerOther, py_bind_ok] at h
  choose _ _ h using h
  exact thin_elementwise hw hT h0 hg hl ha (.inl fun _ => rfl) h

theorem thin_divide (hT : ThinT w i0 T) (h0 : ∀ i, (T i).Zero) {g : Generator K} (hg : IsotoneGen g)
    (hl : LipschitzGen g) {a b : ι → Encl K} (ha : ThinE w i0 a) (hb : ThinE w i0 b)
    {r : ι → Encl K} (h : ∀ i, (T i).divide g (a i) (b i) = .ok (r i)) : ThinE w i0 r := by
  simp only [divide, py_bind_ok] at h
  choose c hc h using h
  exact thin_multiply hw hT ha (thin_powerOther hw hT h0 hg hl hb hc) h

end TEA

namespace JB
open TEA
variable {T T0 : ι → TEA K} {lib : Lib K}

/-- families of intermediate enclosures -/
structure ThinI (w : ι → K) (i0 : ι) (x : ι → Inter K) : Prop where
  encl : ThinE w i0 fun i => (x i).encl
  reg : ThinR w i0 (fun i => (x i).encl) fun i => (x i).tr

theorem thinI_const (v : ND K) : ThinI w i0 fun _ => constantInter v := by
  refine ⟨.cons (.arr hw v) .nil, .inr ⟨fun _ => .ivl v v, fun _ => rfl, ⟨fun _ => Nest.refl ⟨rfl, fun _ _ => le_rfl⟩,
    fun L _ => .zero hw fun _ => rfl⟩, fun i => ?_⟩⟩
  exact ⟨v, [], rfl, ble_refl _, fun I _ => ⟨le_rfl, le_rfl⟩⟩

omit hw in
theorem ThinI.constantValue {x : ι → Inter K} (h : ThinI w i0 x) (i : ι) : (x i).constantValue = (x i0).constantValue := by
  rcases h.encl.cases with he | ⟨c, F, hc, hF, he⟩
  · have h1 := he i
    have h2 := he i0
    generalize x i = y at *
    generalize x i0 = z at *
    obtain ⟨e', t'⟩ := y
    obtain ⟨e, t⟩ := z
    simp only at h1 h2
    subst h1; subst h2; rfl
  · have h1 := he i
    have h2 := he i0
    have h3 := hc.nest i
    have h4 : (F i).length = (F i0).length := hF.length i i0
    generalize x i = y at *
    generalize x i0 = z at *
    obtain ⟨e', t'⟩ := y
    obtain ⟨e, t⟩ := z
    simp only at h1 h2
    subst h1; subst h2
    revert h3 h4
    generalize c i = u, c i0 = v, F i = f, F i0 = g
    intro h3 h4
    cases h3 with
    | arr a =>
      cases f with
      | nil => cases g with
        | nil => rfl
        | cons => simp at h4
      | cons => cases g with
        | nil => simp at h4
        | cons => rfl
    | ivl _ _ _ => rfl

theorem thin_pushforward (hiso : LibIsotone lib) (hlip : LibLipschitz lib) (hT : ThinT w i0 T) (h0 : ∀ i, (T i).Zero)
    {p : Prim K} (hp : PrimIsotone p) (hq : PrimLipschitz p) {f : ι → List (Inter K) → Py (Encl K)}
    (hf : ∀ i, pushforward lib (T i) p = some (f i)) {ins : ι → List (Inter K)} (hi : FamList (ThinI w i0) ins)
    {e : ι → Encl K} (h : ∀ i, f i (ins i) = .ok (e i)) : ThinE w i0 e := by
  have bin : ∀ g : ι → Inter K → Inter K → Py (Encl K),
      (∀ i, (match ins i with | [a, b] => g i a b | _ => (.error .typeError : Py (Encl K))) = .ok (e i)) →
      ∃ a b : ι → Inter K, ThinI w i0 a ∧ ThinI w i0 b ∧ ∀ i, g i (a i) (b i) = .ok (e i) := by
    intro g h
    obtain ⟨L, h1, h2⟩ := hi
    simp only [h2] at h
    rcases L with _ | ⟨a, _ | ⟨b, _ | ⟨c, L⟩⟩⟩
    · cases h i0
    · cases h i0
    · exact ⟨a, b, h1 a (by simp), h1 b (by simp), h⟩
    · cases h i0
  have una : ∀ g : ι → Inter K → Py (Encl K),
      (∀ i, (match ins i with | [a] => g i a | _ => (.error .typeError : Py (Encl K))) = .ok (e i)) →
      ∃ a : ι → Inter K, ThinI w i0 a ∧ ∀ i, g i (a i) = .ok (e i) := by
    intro g h
    obtain ⟨L, h1, h2⟩ := hi
    simp only [h2] at h
    rcases L with _ | ⟨a, _ | ⟨b, L⟩⟩
    · cases h i0
    · exact ⟨a, h1 a (by simp), h⟩
    · cases h i0
  have lin : ∀ p : Prim K, MonotoneOp (p.bind1 lib.sem) → LipschitzOp (p.bind1 lib.sem) →
      (∀ i, (match ins i with | [a] => mapOverEnclosure a.encl (p.bind1 lib.sem) | _ => (.error .typeError : Py (Encl K))) = .ok (e i)) →
      ThinE w i0 e := by
    intro p hm hl h
    obtain ⟨a, na, k⟩ := una (fun _ a => mapOverEnclosure a.encl (p.bind1 lib.sem)) h
    exact thin_mapOver hw hm hl na.encl k
  cases p with
  | add =>
    obtain rfl : _ = f := funext fun i => Option.some.inj (hf i)
    obtain ⟨a, b, na, nb, k⟩ := bin _ h
    exact thin_add hw hT na.encl nb.encl k
  | sub =>
    obtain rfl : _ = f := funext fun i => Option.some.inj (hf i)
    obtain ⟨a, b, na, nb, k⟩ := bin _ h
    exact thin_subtract hw hT na.encl nb.encl k
  | mul =>
    obtain rfl : _ = f := funext fun i => Option.some.inj (hf i)
    obtain ⟨a, b, na, nb, k⟩ := bin _ h
    exact thin_multiply hw hT na.encl nb.encl k
  | div =>
    obtain rfl : _ = f := funext fun i => Option.some.inj (hf i)
    obtain ⟨a, b, na, nb, k⟩ := bin _ h
    exact thin_divide hw hT h0 (hiso.pow _) (hlip.pow _) na.encl nb.encl k
  | neg =>
    obtain rfl : _ = f := funext fun i => Option.some.inj (hf i)
    obtain ⟨a, na, k⟩ := una _ h
    exact thin_negative hw hT na.encl k
  | pow =>
    obtain rfl : _ = f := funext fun i => Option.some.inj (hf i)
    obtain ⟨a, b, na, nb, k⟩ := bin _ h
    simp only [powPush, nb.constantValue] at k
    cases hv : (b i0).constantValue with
    | none => rw [hv] at k; cases k i0
    | some v =>
      simp only [hv] at k
      by_cases hs : v.shape ≠ []
      · simp only [if_pos hs] at k; cases k i0
      simp only [if_neg hs] at k
      cases he : lib.expo (v.get []) with
      | frac q =>
        simp only [he] at k
        exact thin_powerOther hw hT h0 (hiso.pow _) (hlip.pow _) na.encl k
      | int n =>
        simp only [he] at k
        by_cases hn : n < 0
        · simp only [if_pos hn] at k
          exact thin_powerOther hw hT h0 (hiso.pow _) (hlip.pow _) na.encl k
        · simp only [if_neg hn] at k
          by_cases hn0 : n = 0
          · simp only [if_pos hn0] at k
            exact thin_powerNat hw hT na.encl k
          · simp only [if_neg hn0] at k; cases k i0
  | integerPow y =>
    obtain rfl : _ = f := funext fun i => Option.some.inj (hf i)
    obtain ⟨a, na, k⟩ := una _ h
    by_cases hy : 0 ≤ y
    · simp only [if_pos hy] at k
      exact thin_powerNat hw hT na.encl k
    · simp only [if_neg hy] at k
      exact thin_powerOther hw hT h0 (hiso.pow _) (hlip.pow _) na.encl k
  | dotGeneral lc rc lb rb =>
    obtain rfl : _ = f := funext fun i => Option.some.inj (hf i)
    obtain ⟨a, b, na, nb, k⟩ := bin _ h
    exact thin_arbitraryBilinear hw hT (formed_dot lib.sem lc rc lb rb) na.encl nb.encl k
  | conv op =>
    obtain rfl : _ = f := funext fun i => Option.some.inj (hf i)
    obtain ⟨a, b, na, nb, k⟩ := bin _ h
    exact thin_arbitraryBilinear hw hT (formed_conv hp) na.encl nb.encl fun i => conv_reduce lib.sem (k i)
  | broadcastInDim shape dims =>
    obtain rfl : _ = f := funext fun i => Option.some.inj (hf i)
    obtain ⟨a, na, k⟩ := una _ h
    exact thin_broadcastInDim hw na.encl k
  | elementwise name =>
    simp only [pushforward, Option.map_eq_some_iff] at hf
    obtain ⟨g, hg, -⟩ := hf i0
    have h' : ∀ i, (match ins i with | [a] => (T i).elementwiseFun g a.encl a.tr | _ => (.error .typeError : Py (Encl K))) =
        .ok (e i) := fun i => by
      obtain ⟨g', hg', hf⟩ := hf i
      rw [hg] at hg'
      obtain rfl := Option.some.inj hg'
      rw [← h i, ← hf]
      rfl
    obtain ⟨a, na, k⟩ := una (fun i a => (T i).elementwiseFun g a.encl a.tr) h'
    exact thin_elementwise hw hT h0 (hiso.gen _ _ hg) (hlip.gen _ _ hg) na.encl na.reg k
  | other _ _ => cases hf i0
  | jit body =>
    obtain rfl : _ = f := funext fun i => Option.some.inj (hf i)
    exact lin (.jit body) (monotone_bind1 lib.sem (p := .jit body) hp) (lipschitz_bind1 lib.sem (p := .jit body) hq) h
  | convertElementType round =>
    obtain rfl : _ = f := funext fun i => Option.some.inj (hf i)
    exact lin (.convertElementType round) (monotone_bind1 lib.sem (p := .convertElementType round) hp)
      (lipschitz_bind1 lib.sem (p := .convertElementType round) hq) h
  | reshape s =>
    obtain rfl : _ = f := funext fun i => Option.some.inj (hf i)
    exact lin (.reshape s) (monotone_bind1 lib.sem (p := .reshape s) trivial)
      (lipschitz_bind1 lib.sem (p := .reshape s) trivial) h
  | reduceSum s =>
    obtain rfl : _ = f := funext fun i => Option.some.inj (hf i)
    exact lin (.reduceSum s) (monotone_bind1 lib.sem (p := .reduceSum s) trivial)
      (lipschitz_bind1 lib.sem (p := .reduceSum s) trivial) h
  | reduceWindowSum s =>
    obtain rfl : _ = f := funext fun i => Option.some.inj (hf i)
    exact lin (.reduceWindowSum s) (monotone_bind1 lib.sem (p := .reduceWindowSum s) trivial)
      (lipschitz_bind1 lib.sem (p := .reduceWindowSum s) trivial) h
  | squeeze s =>
    obtain rfl : _ = f := funext fun i => Option.some.inj (hf i)
    exact lin (.squeeze s) (monotone_bind1 lib.sem (p := .squeeze s) trivial)
      (lipschitz_bind1 lib.sem (p := .squeeze s) trivial) h
  | transpose s =>
    obtain rfl : _ = f := funext fun i => Option.some.inj (hf i)
    exact lin (.transpose s) (monotone_bind1 lib.sem (p := .transpose s) trivial)
      (lipschitz_bind1 lib.sem (p := .transpose s) trivial) h

end JB
end
end AB
