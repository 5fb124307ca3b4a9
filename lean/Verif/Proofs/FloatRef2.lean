/-
Proof of C83, continued: bilinear operations, composition, the pushforward functions, the interpreter.
-/
import Verif.Proofs.FloatRef
import Verif.Props.Contracts

set_option linter.unusedSectionVars false

namespace AB
variable {F : Type} [Zero F] [One F] [Add F] [Sub F] [Mul F] [Pow F ℤ] [Neg F] [Div F] [NatCast F] [LinearOrder F]
open ND (scalar)

namespace TEA
variable (hF : UnitLaws F) {T : TEA F}
open JB (HeadIs GenHead)

theorem head_congr {y y' : ND F} {e : Encl F} (h : HeadIs y e) (hs : y.Same y') : HeadIs y' e := by
  obtain ⟨c, l, rfl, hc⟩ := h
  exact ⟨c, l, rfl, hc.trans hs⟩

theorem bilinear_head (hd : 1 ≤ T.maxDegree) {pbb : ND F → ND F → ℕ → ℕ → Py (ND F)} {a b : ND F} {l m r : Encl F}
    (h : T.arbitraryBilinear (.arr a :: l) (.arr b :: m) pbb = .ok r) :
    ∃ c o s, pbb a b 0 0 = .ok c ∧ ND.map2 (· + ·) (scalar 0) c = .ok o ∧ r = .arr o :: s := by
  unfold arbitraryBilinear at h
  obtain ⟨q, hq, hq'⟩ := pairs_cons (Coef.arr a) l (Coef.arr b) m
  rw [hq, List.foldlM_cons] at h
  simp only [py_bind_ok] at h
  obtain ⟨t, ht, h⟩ := h
  have hk := foldl_keep (fun s x t hx hs => ?_) h
  · unfold bilinearStep at ht
    simp only [py_bind_ok] at ht
    obtain ⟨c', hc', ht⟩ := ht
    unfold termEnclosureCoefficient at hc'
    rw [if_pos (by omega)] at hc'
    obtain ⟨c, rfl, hc⟩ := IA.bilinear_arr_ok hc'
    rw [Nat.zero_mul] at hc
    rw [Nat.add_zero, Nat.zero_min] at ht
    have : (List.replicate (min (T.maxDegree + 1) ((Coef.arr a :: l).length + (Coef.arr b :: m).length - 1))
        (Coef.arr (scalar (0 : F))))[0]? = some (.arr (scalar 0)) := by
      simp
    rw [this] at ht
    simp only [py_bind_ok, py_pure] at ht
    obtain ⟨o', ho', rfl⟩ := ht
    obtain ⟨o, rfl, ho⟩ := IA.add_arr_ok ho'
    rw [List.getElem?_set_self (by simp)] at hk
    obtain ⟨s, hs⟩ := cons_of_zero hk
    exact ⟨c, o, s, hc, ho, hs⟩
  · unfold bilinearStep at hs
    simp only [py_bind_ok] at hs
    obtain ⟨c, hc, hs⟩ := hs
    have h1 := hq' x hx
    split at hs
    · cases hs
    · simp only [py_bind_ok, py_pure] at hs
      obtain ⟨o, ho, rfl⟩ := hs
      rw [List.getElem?_set_ne (by omega)]

include hF in
theorem head_bilinear (hd : 1 ≤ T.maxDegree) {pbb : ND F → ND F → ℕ → ℕ → Py (ND F)} {a b r : Encl F} {y1 y2 y : ND F}
    (ha : HeadIs y1 a) (hb : HeadIs y2 b)
    (hp : ∀ a b c, a.Same y1 → b.Same y2 → pbb a b 0 0 = .ok c → c.Same y)
    (h : T.arbitraryBilinear a b pbb = .ok r) : HeadIs y r := by
  obtain ⟨a, l, rfl, ha⟩ := ha
  obtain ⟨b, m, rfl, hb⟩ := hb
  obtain ⟨c, o, s, hc, ho, rfl⟩ := bilinear_head hd h
  exact ⟨o, s, rfl, (ND.map2_scalar_left hF.zero_add ho).trans (hp _ _ _ ha hb hc)⟩

include hF in
theorem head_composeStep (hd : 1 ≤ T.maxDegree) {ad o r : Encl F} {y : ND F} {p : ℕ} {c : Coef F} (hp : 1 ≤ p)
    (ho : HeadIs y o) (h : T.composeStep ad o (p, c) = .ok r) : HeadIs y r := by
  obtain ⟨a, l, rfl, ha⟩ := ho
  unfold composeStep at h
  simp only [py_bind_ok] at h
  obtain ⟨t, ht, h⟩ := h
  unfold composeTerm at ht
  rw [if_neg (by omega)] at ht
  simp only [py_bind_ok] at ht
  obtain ⟨poly, -, ht⟩ := ht
  cases poly with
  | nil =>
    cases ht
    unfold add addCoeffs at h
    simp only [py_ok_bind] at h
    obtain ⟨s, rfl⟩ := head_truncate hd h
    exact ⟨a, s, rfl, ha⟩
  | cons x poly =>
    obtain ⟨m, hm, -⟩ := enum_split x poly
    rw [hm, List.mapM_cons] at ht
    simp only [py_bind_ok, py_pure] at ht
    obtain ⟨u, hu, v, hv, rfl⟩ := ht
    rw [if_pos (by omega)] at hu
    cases hu
    obtain ⟨c, s, rfl, hc⟩ := head_add_ok hd h
    exact ⟨c, s, rfl, (ND.map2_scalar_right hF.add_zero hc).trans ha⟩

include hF in
theorem head_compose (hd : 1 ≤ T.maxDegree) {e arg r : Encl F} {y : ND F} (he : HeadIs y e)
    (h : T.composeEnclosures e arg = .ok r) : HeadIs y r := by
  obtain ⟨c, l, rfl, hc⟩ := he
  unfold composeEnclosures at h
  rw [if_neg (by simp)] at h
  obtain ⟨m, hm, hm'⟩ := enum_split (Coef.arr c) l
  rw [hm, List.foldlM_cons] at h
  simp only [py_bind_ok] at h
  obtain ⟨t, ht, h⟩ := h
  have h1 : HeadIs y t := by
    unfold composeStep composeTerm at ht
    rw [if_pos rfl] at ht
    simp only [py_pure_eq, py_ok_bind] at ht
    obtain ⟨o, s, rfl, ho⟩ := head_add_ok hd ht
    exact ⟨o, s, rfl, (ND.map2_scalar_left hF.zero_add ho).trans hc⟩
  generalize (Coef.arr (scalar (0 : F)) :: arg.drop 1) = ad at h
  clear ht hm
  induction m generalizing t with
  | nil => cases h; exact h1
  | cons x m ih =>
    rw [List.foldlM_cons] at h
    simp only [py_bind_ok] at h
    obtain ⟨t', ht', h⟩ := h
    exact ih (fun x hx => hm' x (List.mem_cons_of_mem _ hx)) t' (head_composeStep hF hd (hm' x List.mem_cons_self) h1 ht') h

include hF in
theorem head_elementwise (hd : 1 ≤ T.maxDegree) {g : Generator F} {f : F → F} (hg : GenHead g f) {a r : Encl F}
    {tr : Option (Coef F)} {y : ND F} (ha : HeadIs y a) (h : T.elementwiseFun g a tr = .ok r) :
    HeadIs (y.map f) r := by
  obtain ⟨a, l, rfl, ha⟩ := ha
  unfold elementwiseFun at h
  simp only [py_bind_ok] at h
  obtain ⟨reg, -, x, hx, e, he, h⟩ := h
  cases hx
  exact head_congr (head_compose hF hd (hg _ _ _ _ hd he) h) (ha.map f)

include hF in
theorem head_powerOther (hd : 1 ≤ T.maxDegree) {g : Generator F} {f : F → F} (hg : GenHead g f) {a r : Encl F}
    {y : ND F} (ha : HeadIs y a) (h : T.powerOther g a = .ok r) : HeadIs (y.map f) r := by
  unfold powerOther at h
  simp only [py_bind_ok] at h
  obtain ⟨-, -, h⟩ := h
  exact head_elementwise hF hd hg ha h

end TEA

namespace JB
open TEA
variable (hF : UnitLaws F)

theorem head_canon {y : ND F} {e : Encl F} (h : HeadIs y e) : HeadIs y.canon e := head_congr h (ND.canon_same y)

theorem oneF_ok {α : Type} {x : Py α} {l : List α} (h : x.one = .ok l) : ∃ y, l = [y] ∧ x = .ok y := by
  cases x with
  | error e => cases h
  | ok y => cases h; exact ⟨y, rfl, rfl⟩

theorem naryF_ok {f : F → F → F} {a b : ND F} {l : List (ND F)} (h : (Lax.nary f a b).one = .ok l) :
    ∃ y, l = [y] ∧ ND.map2 f a b = .ok y := by
  obtain ⟨y, rfl, hy⟩ := oneF_ok h
  unfold Lax.nary at hy
  split_ifs at hy
  exact ⟨y, rfl, hy⟩

theorem bind_same1 {sem : Sem F} {p : Prim F} {a b : ND F} (h : a.Same b) : p.bind sem [a] = p.bind sem [b] := by
  unfold Prim.bind
  simp only [List.map_cons, List.map_nil, ND.canon_eq_of_same h]

theorem bind_same2 {sem : Sem F} {p : Prim F} {a a' b b' : ND F} (h : a.Same a') (h' : b.Same b') :
    p.bind sem [a, b] = p.bind sem [a', b'] := by
  unfold Prim.bind
  simp only [List.map_cons, List.map_nil, ND.canon_eq_of_same h, ND.canon_eq_of_same h']

theorem head_mapOver {f : ND F → Py (ND F)} {a r : Encl F} {y y' : ND F} (ha : HeadIs y a)
    (hf : ∀ a r, a.Same y → f a = .ok r → r.Same y') (h : mapOverEnclosure a f = .ok r) : HeadIs y' r := by
  obtain ⟨a, l, rfl, ha⟩ := ha
  unfold mapOverEnclosure at h
  rw [List.mapM_cons] at h
  simp only [py_bind_ok, py_pure] at h
  obtain ⟨c, ⟨w, hw, rfl⟩, s, hs, rfl⟩ := h
  exact ⟨w, s, rfl, hf _ _ ha hw⟩

theorem bind1_one {sem : Sem F} {p : Prim F} {a r : ND F} (h : p.bind1 sem a = .ok r) : p.bind sem [a] = .ok [r] := by
  unfold Prim.bind1 at h
  simp only [py_bind_ok] at h
  obtain ⟨l, hl, h⟩ := h
  split at h
  · cases h; exact hl
  · cases h

theorem bind2_one {sem : Sem F} {p : Prim F} {a b r : ND F} (h : p.bind2 sem a b = .ok r) :
    p.bind sem [a, b] = .ok [r] := by
  unfold Prim.bind2 at h
  simp only [py_bind_ok] at h
  obtain ⟨l, hl, h⟩ := h
  split at h
  · cases h; exact hl
  · cases h

theorem transpose_id {a r : ND F} (h : Lax.transpose (List.range a.ndim) a = .ok r) : r.Same a := by
  unfold Lax.transpose at h
  split_ifs at h
  cases h
  have hs : ((List.range a.ndim).map fun p => a.shape.getD p 0) = a.shape := map_getD_range a.shape
  refine ⟨hs, fun I hI => ?_⟩
  have hl : I.length = a.ndim := by
    have := hI.length
    simp at this
    exact this.symm
  show a.get _ = a.get I
  congr 1
  conv_rhs => rw [← map_getD_range I]
  rw [hl]
  refine List.map_congr_left fun k hk => ?_
  congr 1
  exact Lax.idxOf_of_getElem List.nodup_range (by rw [List.getElem?_range (List.mem_range.1 hk)])

theorem dot_zero {sem : Sem F} {lc rc lb rb : List ℕ} {a b c : ND F}
    (h : dotPairwise sem lc rc lb rb a b 0 0 = .ok c) :
    ∃ t, (Prim.dotGeneral lc rc lb rb).bind sem [a, b] = .ok [t] ∧ c.Same t := by
  unfold dotPairwise at h
  simp only [py_bind_ok] at h
  obtain ⟨t, ht, h⟩ := h
  refine ⟨t, bind2_one ht, ?_⟩
  split_ifs at h with h1 h2
  simp only [Nat.add_zero, Nat.sub_zero, List.range'_zero, List.append_nil] at h
  refine transpose_id ?_
  convert h using 2
  push Not at h2
  obtain ⟨k, hk⟩ : ∃ k, t.ndim = (a.ndim - (0 + (lc ++ lb).dedup.length)) + k :=
    ⟨t.ndim - (a.ndim - (0 + (lc ++ lb).dedup.length)), by omega⟩
  rw [hk, Nat.add_sub_cancel_left, List.range_eq_range', List.range_eq_range']
  generalize a.ndim - (0 + (lc ++ lb).dedup.length) = n
  have := List.range'_append_1 (s := 0) (m := n) (n := k)
  rw [Nat.zero_add] at this
  exact this.symm

theorem conv_zero {sem : Sem F} {op : ND F → ND F → Py (ND F)} {a b c : ND F}
    (h : convPairwise sem op a b 0 0 = .ok c) : (Prim.conv op).bind sem [a, b] = .ok [c] := by
  unfold convPairwise moveLastToFront at h
  simp only [if_true, py_ok_bind, py_bind_ok] at h
  obtain ⟨t, ht, h⟩ := h
  simp only [and_self, if_true] at h
  cases h
  exact bind2_one ht

theorem bid_same {shape dims : List ℕ} {a b y r : ND F} (hab : a.Same b)
    (h : Lax.broadcastInDimP shape dims b.canon = .ok y) (hr : Lax.broadcastInDim shape dims a = .ok r) : r.Same y := by
  have hnd : b.canon.ndim = a.ndim := (congrArg List.length hab.1).symm
  have hsh : b.canon.shape = a.shape := hab.1.symm
  unfold Lax.broadcastInDimP at h
  rw [hnd, hsh] at h
  split_ifs at h with hc
  cases h
  unfold Lax.broadcastInDim at hr
  split_ifs at hr with h1
  · cases hr
    obtain ⟨h1, rfl⟩ := h1
    have h0 : a.ndim = 0 := hc.1.symm
    have ha : a.shape = [] := List.eq_nil_of_length_eq_zero h0
    have hs : shape = [] := List.eq_nil_of_length_eq_zero (by omega)
    subst hs
    refine ⟨ha, fun I hI => ?_⟩
    rw [ha] at hI
    cases hI
    simp only [h0, List.range_zero, List.map_nil]
    rw [hab.2 [] (by rw [ha]; exact ValidIdx.nil), ND.canon_get b (by rw [← hab.1, ha]; exact ValidIdx.nil)]
  · unfold Lax.broadcastInDimP at hr
    rw [if_pos hc] at hr
    cases hr
    refine ⟨rfl, fun I hI => ?_⟩
    have hv := bidIdx_valid (Ra := a.shape) hc.2.2.1 hc.1 hc.2.2.2 hI
    show a.get _ = b.canon.get _
    rw [ND.canon_get b (by rw [← hab.1]; exact hv)]
    exact hab.2 _ hv

theorem bind_mono {lib : Lib F} {sem : Sem F} (hfn : ∀ n f, lib.sem.fn n = some f → sem.fn n = some f)
    (hpw : lib.sem.pow = sem.pow) {p : Prim F} {args outs : List (ND F)}
    (h : p.bind lib.sem args = .ok outs) : p.bind sem args = .ok outs := by
  unfold Prim.bind at h ⊢
  generalize args.map ND.canon = l at h
  cases p with
  | elementwise name =>
    rcases l with _ | ⟨a, _ | ⟨b, l⟩⟩
    · exact h
    · simp only [Prim.eval] at h ⊢
      cases hf : lib.sem.fn name with
      | none => rw [hf] at h; cases h
      | some f => rw [hf] at h; rw [hfn _ _ hf]; exact h
    · exact h
  | pow =>
    rcases l with _ | ⟨a, _ | ⟨b, _ | ⟨c, l⟩⟩⟩
    · exact h
    · exact h
    · simp only [Prim.eval] at h ⊢
      rw [← hpw]; exact h
    · exact h
  | _ => rcases l with _ | ⟨a, _ | ⟨b, _ | ⟨c, l⟩⟩⟩ <;> exact h

section
variable {lib : Lib F} {sem : Sem F} (hlib : LibHead lib sem) {T : TEA F}
include hF hlib

theorem head_pow (hd : 1 ≤ T.maxDegree) {a b : Inter F} {ya yb : ND F} {outs : List (ND F)} {e : Encl F}
    (ha : HeadIs ya a.encl) (hb : HeadIs yb b.encl) (hy : Prim.pow.bind sem [ya, yb] = .ok outs)
    (h : powPush lib T a b = .ok e) : ∃ y, outs = [y] ∧ HeadIs y e := by
  unfold powPush at h
  obtain ⟨b, tb⟩ := b
  obtain ⟨v, l, hbl, hv⟩ := hb
  simp only at hbl
  subst hbl
  cases l with
  | cons x l => cases h
  | nil =>
    simp only [Inter.constantValue] at h
    split_ifs at h with hs
    have hs : v.shape = [] := by simpa using hs
    obtain ⟨y, rfl, hm⟩ := naryF_ok hy
    refine ⟨y, rfl, ?_⟩
    have hyb : yb.shape = [] := hv.1.symm.trans hs
    have hys : y.Same (ya.map fun x => sem.pow x (v.get [])) := by
      unfold ND.map2 at hm
      rw [show yb.canon.shape = [] from hyb, bshape_nil_right] at hm
      cases hm
      refine ⟨rfl, fun I hI => ?_⟩
      have hI' : ValidIdx ya.shape I := hI
      show sem.pow (ya.canon.bget I) (yb.canon.bget I) = sem.pow (ya.get I) (v.get [])
      rw [ND.bget_valid _ (show ValidIdx ya.canon.shape I from hI'), ND.canon_get _ hI', ND.bget_def,
        show yb.canon.shape = [] from hyb, bidx_nil, ND.canon_get _ (by rw [hyb]; exact ValidIdx.nil),
        hv.2 [] (by rw [hs]; exact ValidIdx.nil)]
    refine head_congr (y := ya.map fun x => sem.pow x (v.get [])) ?_ hys.symm
    have hgen := hlib.pow (v.get [])
    have hz := hlib.pow_zero (v.get [])
    cases hx : lib.expo (v.get []) with
    | frac q =>
      rw [hx] at h hgen
      exact head_powerOther hF hd (hgen fun n hn => by cases hn) ha h
    | int n =>
      rw [hx] at h hgen hz
      simp only at h
      split_ifs at h with h1 h2
      · exact head_powerOther hF hd (hgen fun n hn => by cases hn; exact h1) ha h
      · subst h2
        have := head_powerNat hF hd (Or.inl (by omega)) ha h
        refine head_congr this ⟨rfl, fun I hI => ?_⟩
        show ya.get I ^ ((0 : ℕ) : ℤ) = sem.pow _ _
        rw [Nat.cast_zero, hF.pow_zero, hz rfl]

theorem head_push (hd : 1 ≤ T.maxDegree) {p : Prim F} {f : List (Inter F) → Py (Encl F)}
    (hf : pushforward lib T p = some f) {ins : List (Inter F)} {vals outs : List (ND F)} {e : Encl F}
    (hins : List.Forall₂ (fun (i : Inter F) v => HeadIs v i.encl) ins vals) (hop : OpExact p vals)
    (hy : p.bind sem vals = .ok outs) (h : f ins = .ok e) : ∃ y, outs = [y] ∧ HeadIs y e := by
  have key1 : ∀ {a : Inter F} {v : ND F}, ins = [a] → HeadIs v a.encl → vals = [v] →
      mapOverEnclosure a.encl (p.bind1 lib.sem) = .ok e → ∃ y, outs = [y] ∧ HeadIs y e := by
    rintro a v rfl ha rfl h
    obtain ⟨c, l, hal, hc⟩ := ha
    have h0 := h
    rw [hal] at h
    unfold mapOverEnclosure at h
    rw [List.mapM_cons] at h
    simp only [py_bind_ok, py_pure] at h
    obtain ⟨w, ⟨x, hx, rfl⟩, s, hs, rfl⟩ := h
    have h2 := bind_mono hlib.fn hlib.semPow (bind1_one hx)
    rw [bind_same1 hc, hy] at h2
    cases h2
    exact ⟨x, rfl, x, s, rfl, ND.Same.rfl_ _⟩
  cases hins with
  | nil => cases p <;> simp only [pushforward, Option.map_eq_some_iff] at hf <;>
      first | (cases hf; done) | (cases hf; cases h; done) | (obtain ⟨g, -, rfl⟩ := hf; cases h)
  | cons ha hins =>
    rename_i a v ins vals
    cases hins with
    | nil =>
      cases p with
      | neg =>
        cases hf
        cases hy
        exact ⟨_, rfl, head_negative hd (head_canon ha) h⟩
      | integerPow n =>
        cases hf
        cases hy
        refine ⟨_, rfl, ?_⟩
        simp only at h
        by_cases hn : 0 ≤ n
        · rw [if_pos hn] at h
          have hp : TEA.PowOk v.canon n.toNat := by
            rcases hop with h1 | h1 | h1
            · exact Or.inl (by omega)
            · exact Or.inr (Or.inl (h1 v (by simp)))
            · refine Or.inr (Or.inr ?_)
              rw [Int.toNat_of_nonneg hn]
              exact h1
          have := head_powerNat hF hd hp (head_canon ha) h
          rw [Int.toNat_of_nonneg hn] at this
          exact this
        · rw [if_neg hn] at h
          exact head_powerOther hF hd (hlib.recip n (by omega)) (head_canon ha) h
      | broadcastInDim shape dims =>
        cases hf
        obtain ⟨y, rfl, hbd⟩ := oneF_ok (show (Lax.broadcastInDimP shape dims v.canon).one = .ok outs from hy)
        refine ⟨y, rfl, ?_⟩
        obtain ⟨c, l, hal, hc⟩ := ha
        simp only [broadcastInDimPush, hal, py_bind_ok] at h
        obtain ⟨xs, -, h⟩ := h
        obtain ⟨m, hm, -⟩ := enum_split (Coef.arr c) l
        rw [hm, List.mapM_cons] at h
        simp only [bidCoef, py_bind_ok, py_pure] at h
        obtain ⟨w, ⟨x, hx, rfl⟩, s, hs, rfl⟩ := h
        have : shape ++ rep 0 xs = shape := by simp [rep]
        rw [this] at hx
        exact ⟨x, s, rfl, bid_same hc hbd hx⟩
      | elementwise name =>
        simp only [pushforward, Option.map_eq_some_iff] at hf
        obtain ⟨g, hg, rfl⟩ := hf
        simp only [Prim.bind, List.map_cons, List.map_nil, Prim.eval] at hy
        cases hfn : sem.fn name with
        | none => rw [hfn] at hy; cases hy
        | some fn =>
          rw [hfn] at hy
          cases hy
          exact ⟨_, rfl, head_elementwise hF hd (hlib.gen _ _ _ hg hfn) (head_canon ha) h⟩
      | other n i => cases hf
      | convertElementType => cases hf; exact key1 rfl ha rfl h
      | reshape => cases hf; exact key1 rfl ha rfl h
      | reduceSum => cases hf; exact key1 rfl ha rfl h
      | reduceWindowSum => cases hf; exact key1 rfl ha rfl h
      | squeeze => cases hf; exact key1 rfl ha rfl h
      | transpose => cases hf; exact key1 rfl ha rfl h
      | jit => cases hf; exact key1 rfl ha rfl h
      | _ => cases hf; cases h
    | cons hb hins =>
      rename_i b u ins vals
      cases hins with
      | nil =>
        cases p with
        | add =>
          cases hf
          obtain ⟨y, rfl, hm⟩ := naryF_ok hy
          exact ⟨y, rfl, head_add hd (head_canon ha) (head_canon hb) hm h⟩
        | sub =>
          cases hf
          obtain ⟨y, rfl, hm⟩ := naryF_ok hy
          exact ⟨y, rfl, head_subtract hF hd (head_canon ha) (head_canon hb) hm h⟩
        | mul =>
          cases hf
          obtain ⟨y, rfl, hm⟩ := naryF_ok hy
          exact ⟨y, rfl, head_multiply hF hd (head_canon ha) (head_canon hb) hm h⟩
        | div =>
          cases hf
          obtain ⟨y, rfl, hm⟩ := naryF_ok hy
          refine ⟨y, rfl, ?_⟩
          simp only [divide, py_bind_ok] at h
          obtain ⟨r, hr, h⟩ := h
          refine head_multiply hF hd (head_canon ha)
            (head_powerOther hF hd (hlib.recip (-1) (by omega)) (head_canon hb) hr) ?_ h
          have hdiv : ∀ a b : F, a / b = a * b ^ (-1 : ℤ) := hop
          unfold ND.map2 at hm ⊢
          rw [ND.shape_map]
          cases hR : bshape v.canon.shape u.canon.shape with
          | none => rw [hR] at hm; cases hm
          | some R =>
            rw [hR] at hm
            cases hm
            refine congrArg Except.ok ?_
            rw [ND.mk.injEq]
            exact ⟨rfl, funext fun I => (hdiv _ _).symm⟩
        | pow => cases hf; exact head_pow hF hlib hd ha hb hy h
        | dotGeneral lc rc lb rb =>
          cases hf
          obtain ⟨y, rfl, hyy⟩ := oneF_ok (show (Lax.dotGeneral lc rc lb rb v.canon u.canon).one = .ok outs from hy)
          refine ⟨y, rfl, head_bilinear hF hd ha hb (fun a b c h1 h2 h3 => ?_) h⟩
          obtain ⟨t, ht, hct⟩ := dot_zero h3
          rw [bind_same2 h1 h2, show (Prim.dotGeneral lc rc lb rb).bind lib.sem [v, u] =
            (Prim.dotGeneral lc rc lb rb).bind sem [v, u] from rfl, hy] at ht
          cases ht
          exact hct
        | conv op =>
          cases hf
          obtain ⟨y, rfl, hyy⟩ := oneF_ok (show (op v.canon u.canon).one = .ok outs from hy)
          refine ⟨y, rfl, head_bilinear hF hd ha hb (fun a b c h1 h2 h3 => ?_) h⟩
          have ht := conv_zero h3
          rw [bind_same2 h1 h2, show (Prim.conv op).bind lib.sem [v, u] =
            (Prim.conv op).bind sem [v, u] from rfl, hy] at ht
          cases ht
          exact ND.Same.rfl_ _
        | other n i => cases hf
        | elementwise name =>
          simp only [pushforward, Option.map_eq_some_iff] at hf
          obtain ⟨g, hg, rfl⟩ := hf
          cases h
        | _ => cases hf; cases h
      | cons hc hins =>
        cases p <;> simp only [pushforward, Option.map_eq_some_iff] at hf <;>
          first | (cases hf; done) | (cases hf; cases h; done) | (obtain ⟨g, -, rfl⟩ := hf; cases h)

end

end JB
end AB
