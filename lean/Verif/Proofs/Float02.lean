/-
Proof of C84, continued: pass-through primitives, pushforward functions, the interpreter, evaluation.
-/
import Verif.Proofs.Float0

set_option linter.unusedSectionVars false
set_option linter.unusedTactic false

namespace AB
variable {F : Type} [Zero F] [One F] [Add F] [Sub F] [Mul F] [Pow F ℤ] [Neg F] [Div F] [NatCast F] [LinearOrder F]
open ND (scalar)

namespace JB
open TEA
variable (hR : RoundedArith F) (hF : UnitLaws F)

include hR in
theorem sum_le_sum {α : Type} {l : List α} {f g : α → F} (h : ∀ x ∈ l, f x ≤ g x) : (l.map f).sum ≤ (l.map g).sum := by
  induction l with
  | nil => exact le_rfl
  | cons x l ih =>
    simp only [List.map_cons, List.sum_cons]
    exact hR.add_le (h x List.mem_cons_self) (ih fun x hx => h x (List.mem_cons_of_mem _ hx))

theorem canon_allLe {a b : ND F} (hs : a.shape = b.shape) (h : ∀ I, ValidIdx a.shape I → a.get I ≤ b.get I) :
    a.canon.AllLe b.canon := by
  refine ⟨hs, fun I => ?_⟩
  show (if I ∈ idx a.shape then a.get I else 0) ≤ if I ∈ idx b.shape then b.get I else 0
  rw [← hs]
  split_ifs with hI
  · exact h I (mem_idx.1 hI)
  · exact le_rfl

/-- the primitives of the pass-through table -/
def PassThru : Prim F → Prop
  | .convertElementType _ => True
  | .reshape _ => True
  | .reduceSum _ => True
  | .reduceWindowSum _ => True
  | .squeeze _ => True
  | .transpose _ => True
  | .jit _ => True
  | _ => False

include hR in
theorem bind_allLe {sem : Sem F} {p : Prim F} (hp : PassThru p) (hs : Safe0 p) {a b ra rb : ND F}
    (hsh : a.shape = b.shape) (h : ∀ I, ValidIdx a.shape I → a.get I ≤ b.get I)
    (ha : p.bind sem [a] = .ok [ra]) (hb : p.bind sem [b] = .ok [rb]) : ra.AllLe rb := by
  have hc := canon_allLe hsh h
  unfold Prim.bind at ha hb
  simp only [List.map_cons, List.map_nil] at ha hb
  generalize a.canon = a' at *
  generalize b.canon = b' at *
  obtain ⟨S, f⟩ := a'
  obtain ⟨S', g⟩ := b'
  obtain ⟨h1, h2⟩ := hc
  replace h1 : S = S' := h1
  subst h1
  have one : ∀ {x : Py (ND F)} {r : ND F}, x.one = .ok [r] → x = .ok r := by
    intro x r h
    obtain ⟨y, h1, h2⟩ := oneF_ok h
    cases h1; exact h2
  cases p <;> try exact hp.elim
  case convertElementType round => cases ha; cases hb; exact ⟨rfl, fun I => hs _ _ (h2 I)⟩
  case reshape s =>
    have ha := one ha
    have hb := one hb
    unfold Lax.reshape at ha hb
    split_ifs at ha with hq
    rw [if_pos hq] at hb
    cases ha; cases hb
    exact ⟨rfl, fun I => h2 _⟩
  case reduceSum s =>
    have ha := one ha
    have hb := one hb
    unfold Lax.reduceSum at ha hb
    split_ifs at ha with hq
    rw [if_pos (show Lax.AxesOk (ND.mk S g).ndim s from hq)] at hb
    cases ha; cases hb
    exact ⟨rfl, fun I => sum_le_sum hR fun J _ => h2 _⟩
  case reduceWindowSum s =>
    have ha := one ha
    have hb := one hb
    unfold Lax.reduceWindowSum at ha hb
    split_ifs at ha with hq
    rw [if_pos (show s.length = (ND.mk S g).ndim from hq)] at hb
    cases ha; cases hb
    refine ⟨rfl, fun I => sum_le_sum hR fun J _ => ?_⟩
    show (match Lax.winIdx s S I J with | some α => f α | none => 0) ≤
      match Lax.winIdx s S I J with | some α => g α | none => 0
    cases Lax.winIdx s S I J with
    | none => exact le_rfl
    | some α => exact h2 α
  case squeeze s =>
    have ha := one ha
    have hb := one hb
    unfold Lax.squeeze at ha hb
    split_ifs at ha with hq
    rw [if_pos (show Lax.AxesOk (ND.mk S g).ndim s ∧ ∀ d ∈ s, S.getD d 0 = 1 from hq)] at hb
    cases ha; cases hb
    exact ⟨rfl, fun I => h2 _⟩
  case transpose s =>
    have ha := one ha
    have hb := one hb
    unfold Lax.transpose at ha hb
    split_ifs at ha with hq
    rw [if_pos (show s.length = (ND.mk S g).ndim ∧ s.Nodup ∧ ∀ p ∈ s, p < (ND.mk S g).ndim from hq)] at hb
    cases ha; cases hb
    exact ⟨rfl, fun I => h2 _⟩
  case jit body =>
    have ha : body ⟨S, f⟩ = .ok ra := one ha
    have hb : body ⟨S, g⟩ = .ok rb := one hb
    exact hs ⟨S, f⟩ ⟨S, g⟩ _ _ ⟨rfl, h2⟩ ha hb

include hR in
theorem holds_passThru {sem : Sem F} {p : Prim F} (hp : PassThru p) (hs : Safe0 p) {a e : Encl F} {v y : ND F}
    (ha : Holds0 v a) (hy : p.bind sem [v] = .ok [y])
    (h : mapOverEnclosure a (p.bind1 sem) = .ok e) : Holds0 y e := by
  obtain ⟨c, rfl, hc⟩ := ha
  unfold mapOverEnclosure at h
  rw [List.mapM_cons, List.mapM_nil] at h
  simp only [py_bind_ok, py_pure] at h
  obtain ⟨w, hw, s, rfl, rfl⟩ := h
  refine ⟨w, rfl, ?_⟩
  cases c with
  | arr x =>
    simp only [py_bind_ok, py_pure] at hw
    obtain ⟨r, hr, rfl⟩ := hw
    have h2 := bind1_one hr
    rw [bind_same1 (Coef.holds_arr_iff.1 hc), hy] at h2
    cases h2
    exact Coef.holds_arr (ND.Same.rfl_ _)
  | ivl lo hi =>
    simp only [py_bind_ok, py_pure] at hw
    obtain ⟨l, hl, u, hu, rfl⟩ := hw
    have hsv : v.shape = lo.shape := hc.2.1
    have hlh : lo.shape = hi.shape := hc.1
    have h1 := bind_allLe hR hp hs hsv.symm (fun I hI => (hc.2.2 I hI).1) (bind1_one hl) hy
    have h2 := bind_allLe hR hp hs (hsv.trans hlh) (fun I hI => (hc.2.2 I (show ValidIdx lo.shape I from hsv ▸ hI)).2) hy (bind1_one hu)
    exact ⟨h1.1.trans h2.1, h1.1.symm, fun I _ => ⟨h1.2 I, h2.2 I⟩⟩

theorem holds_broadcast {shape dims : List ℕ} {a e : Encl F} {v y : ND F} (ha : Holds0 v a)
    (hy : Lax.broadcastInDimP shape dims v.canon = .ok y) (h : broadcastInDimPush shape dims a = .ok e) :
    Holds0 y e := by
  obtain ⟨c, rfl, hc⟩ := ha
  simp only [broadcastInDimPush, py_bind_ok] at h
  obtain ⟨xs, -, h⟩ := h
  replace h : [(0, c)].mapM (bidCoef shape dims xs) = .ok e := h
  rw [List.mapM_cons, List.mapM_nil] at h
  simp only [py_bind_ok, py_pure] at h
  obtain ⟨w, hw, s, rfl, rfl⟩ := h
  refine ⟨w, rfl, ?_⟩
  unfold bidCoef at hw
  have hsh : shape ++ rep 0 xs = shape := by simp [rep]
  cases c with
  | arr x =>
    simp only [py_bind_ok, py_pure, hsh] at hw
    obtain ⟨r, hr, rfl⟩ := hw
    exact Coef.holds_arr (bid_same (Coef.holds_arr_iff.1 hc) hy hr)
  | ivl lo hi =>
    simp only [py_bind_ok, py_pure, hsh] at hw
    obtain ⟨l, hl, u, hu, rfl⟩ := hw
    have hlo : v.shape = lo.shape := hc.2.1
    have hhi : v.shape = hi.shape := hlo.trans hc.1
    -- the primitive applied to an array of the shape of `v`
    have hP : ∀ {b r : ND F}, v.shape = b.shape → Lax.broadcastInDim shape dims b = .ok r →
        ∃ t, Lax.broadcastInDimP shape dims b.canon = .ok t ∧ r.Same t := by
      intro b r hb hr
      have hnd : v.canon.ndim = b.canon.ndim := congrArg List.length hb
      have hsh' : v.canon.shape = b.canon.shape := hb
      have hy' := hy
      unfold Lax.broadcastInDimP at hy'
      rw [hnd, hsh'] at hy'
      split_ifs at hy' with hq
      obtain ⟨t, ht⟩ : ∃ t, Lax.broadcastInDimP shape dims b.canon = .ok t := by
        unfold Lax.broadcastInDimP
        rw [if_pos hq]
        exact ⟨_, rfl⟩
      exact ⟨t, ht, bid_same (ND.Same.rfl_ _) ht hr⟩
    obtain ⟨tl, htl, hsl⟩ := hP hlo hl
    obtain ⟨tu, htu, hsu⟩ := hP hhi hu
    have mono : ∀ {b b' t t' : ND F}, b.shape = b'.shape → (∀ I, ValidIdx b.shape I → b.get I ≤ b'.get I) →
        Lax.broadcastInDimP shape dims b.canon = .ok t → Lax.broadcastInDimP shape dims b'.canon = .ok t' →
        t.AllLe t' := by
      intro b b' t t' hs hle ht ht'
      have hc := canon_allLe hs hle
      generalize b.canon = a' at *
      generalize b'.canon = b' at *
      obtain ⟨S, f⟩ := a'
      obtain ⟨S', g⟩ := b'
      obtain ⟨h1, h2⟩ := hc
      replace h1 : S = S' := h1
      subst h1
      unfold Lax.broadcastInDimP at ht ht'
      simp only [show (ND.mk S f).ndim = S.length from rfl, show (ND.mk S g).ndim = S.length from rfl] at ht ht'
      split_ifs at ht with hq
      rw [if_pos hq] at ht'
      cases ht; cases ht'
      exact ⟨rfl, fun I => h2 _⟩
    have h1 := mono hlo.symm (fun I hI => (hc.2.2 I hI).1) htl hy
    have h2 := mono hhi (fun I hI => (hc.2.2 I (show ValidIdx lo.shape I from hlo ▸ hI)).2) hy htu
    have e1 : l.shape = y.shape := hsl.1.trans h1.1
    have e2 : u.shape = y.shape := hsu.1.trans h2.1.symm
    refine ⟨e1.trans e2.symm, e1.symm, fun I hI => ?_⟩
    show l.get I ≤ y.get I ∧ y.get I ≤ u.get I
    rw [hsl.2 I hI, hsu.2 I (by rw [e2, ← e1]; exact hI)]
    exact ⟨h1.2 I, h2.2 I⟩

theorem holds_canon {y : ND F} {e : Encl F} (h : Holds0 y e) : Holds0 y.canon e := by
  obtain ⟨c, rfl, hc⟩ := h
  exact ⟨c, rfl, hc.congr (ND.canon_same y)⟩

theorem holds_congr {y y' : ND F} {e : Encl F} (h : Holds0 y e) (hs : y.Same y') : Holds0 y' e := by
  obtain ⟨c, rfl, hc⟩ := h
  exact ⟨c, rfl, hc.congr hs⟩

/-- what is known of an intermediate result at degree 0 -/
def IHolds (i : Inter F) (v : ND F) : Prop := Holds0 v i.encl ∧ TrOk i.encl i.tr

section
variable {lib : Lib F} {sem : Sem F} (hlib : LibHolds0 lib sem) {T : TEA F}
include hR hF hlib

theorem holds_pow (hd : T.maxDegree = 0) {a b : Inter F} {ya yb : ND F} {outs : List (ND F)} {e : Encl F}
    (ha : Holds0 ya a.encl) (hb : Holds0 yb b.encl) (hy : Prim.pow.bind sem [ya, yb] = .ok outs)
    (h : powPush lib T a b = .ok e) : ∃ y, outs = [y] ∧ Holds0 y e := by
  unfold powPush at h
  obtain ⟨b, tb⟩ := b
  obtain ⟨v, hbl, hv⟩ := hb
  simp only at hbl
  subst hbl
  cases v with
  | ivl v1 v2 => cases h
  | arr v =>
    replace hv := Coef.holds_arr_iff.1 hv
    simp only [Inter.constantValue] at h
    split_ifs at h with hs
    have hs : v.shape = [] := by simpa using hs
    obtain ⟨y, rfl, hm⟩ := naryF_ok hy
    refine ⟨y, rfl, ?_⟩
    have hyb : yb.shape = [] := hv.1.symm.trans hs
    have hys : y.Same (ya.map fun x => sem.pow x (v.get [])) := by
      unfold ND.map2 at hm
      rw [show yb.canon.shape = [] from hyb, bshape_nil_right] at hm
      cases hm
      refine ⟨rfl, fun I hI => ?_⟩
      have hI' : ValidIdx ya.shape I := hI
      show sem.pow (ya.canon.bget I) (yb.canon.bget I) = sem.pow (ya.get I) (v.get [])
      rw [ND.bget_valid _ (show ValidIdx ya.canon.shape I from hI'), ND.canon_get _ hI', ND.bget_def,
        show yb.canon.shape = [] from hyb, bidx_nil, ND.canon_get _ (by rw [hyb]; exact ValidIdx.nil),
        hv.2 [] (by rw [hs]; exact ValidIdx.nil)]
    refine holds_congr (y := ya.map fun x => sem.pow x (v.get [])) ?_ hys.symm
    have hgen := hlib.pow (v.get [])
    have hz := hlib.pow_zero (v.get [])
    cases hx : lib.expo (v.get []) with
    | frac q =>
      rw [hx] at h hgen
      exact holds_powerOther hR hF hd (hgen fun n hn => by cases hn) ha h
    | int n =>
      rw [hx] at h hgen hz
      simp only at h
      split_ifs at h with h1 h2
      · exact holds_powerOther hR hF hd (hgen fun n hn => by cases hn; exact h1) ha h
      · subst h2
        have := holds_powerNat hR hF (Or.inl (by omega)) ha h
        refine holds_congr this ⟨rfl, fun I hI => ?_⟩
        show ya.get I ^ ((0 : ℕ) : ℤ) = sem.pow _ _
        rw [Nat.cast_zero, hF.pow_zero, hz rfl]

theorem holds_push (hd : T.maxDegree = 0) {p : Prim F} {f : List (Inter F) → Py (Encl F)}
    (hf : pushforward lib T p = some f) {ins : List (Inter F)} {vals outs : List (ND F)} {e : Encl F}
    (hins : List.Forall₂ IHolds ins vals) (hop : OpExact p vals) (hsafe : Safe0 p)
    (hy : p.bind sem vals = .ok outs) (h : f ins = .ok e) : ∃ y, outs = [y] ∧ Holds0 y e := by
  have key1 : PassThru p → ∀ {a : Inter F} {v : ND F}, ins = [a] → Holds0 v a.encl → vals = [v] →
      mapOverEnclosure a.encl (p.bind1 lib.sem) = .ok e → ∃ y, outs = [y] ∧ Holds0 y e := by
    rintro hpt a v rfl ha rfl h
    have hsem : p.bind1 lib.sem = p.bind1 sem := by
      cases p <;> first | rfl | exact hpt.elim
    rw [hsem] at h
    have : ∃ y, outs = [y] := by
      unfold Prim.bind at hy
      cases p <;> first
        | exact hpt.elim
        | (cases hy; exact ⟨_, rfl⟩)
        | (obtain ⟨y, rfl, -⟩ := oneF_ok hy; exact ⟨y, rfl⟩)
    obtain ⟨y, rfl⟩ := this
    exact ⟨y, rfl, holds_passThru hR hpt hsafe ha hy h⟩
  cases hins with
  | nil => cases p <;> simp only [pushforward, Option.map_eq_some_iff] at hf <;>
      first | (cases hf; done) | (cases hf; cases h; done) | (obtain ⟨g, -, rfl⟩ := hf; cases h)
  | cons ha hins =>
    rename_i a v ins vals
    obtain ⟨ha, hta⟩ := ha
    cases hins with
    | nil =>
      cases p with
      | neg =>
        cases hf
        cases hy
        exact ⟨_, rfl, holds_negative hR (holds_canon ha) h⟩
      | integerPow n =>
        cases hf
        cases hy
        refine ⟨_, rfl, ?_⟩
        simp only at h
        by_cases hn : 0 ≤ n
        · rw [if_pos hn] at h
          have hp : TEA.PowOk v.canon n.toNat := by
            rcases hop with h1 | h1 | h1
            · exact Or.inl (by omega)
            · exact Or.inr (Or.inl (h1 v (by simp)))
            · refine Or.inr (Or.inr ?_)
              rw [Int.toNat_of_nonneg hn]
              exact h1
          have := holds_powerNat hR hF hp (holds_canon ha) h
          rw [Int.toNat_of_nonneg hn] at this
          exact this
        · rw [if_neg hn] at h
          exact holds_powerOther hR hF hd (hlib.recip n (by omega)) (holds_canon ha) h
      | broadcastInDim shape dims =>
        cases hf
        obtain ⟨y, rfl, hbd⟩ := oneF_ok (show (Lax.broadcastInDimP shape dims v.canon).one = .ok outs from hy)
        exact ⟨y, rfl, holds_broadcast ha hbd h⟩
      | elementwise name =>
        simp only [pushforward, Option.map_eq_some_iff] at hf
        obtain ⟨g, hg, rfl⟩ := hf
        simp only [Prim.bind, List.map_cons, List.map_nil, Prim.eval] at hy
        cases hfn : sem.fn name with
        | none => rw [hfn] at hy; cases hy
        | some fn =>
          rw [hfn] at hy
          cases hy
          exact ⟨_, rfl, holds_elementwise hR hF hd (hlib.gen _ _ _ hg hfn) (holds_canon ha) hta h⟩
      | other n i => cases hf
      | convertElementType => cases hf; exact key1 trivial rfl ha rfl h
      | reshape => cases hf; exact key1 trivial rfl ha rfl h
      | reduceSum => cases hf; exact key1 trivial rfl ha rfl h
      | reduceWindowSum => cases hf; exact key1 trivial rfl ha rfl h
      | squeeze => cases hf; exact key1 trivial rfl ha rfl h
      | transpose => cases hf; exact key1 trivial rfl ha rfl h
      | jit => cases hf; exact key1 trivial rfl ha rfl h
      | _ => cases hf; cases h
    | cons hb hins =>
      rename_i b u ins vals
      obtain ⟨hb, htb⟩ := hb
      cases hins with
      | nil =>
        cases p with
        | add =>
          cases hf
          obtain ⟨y, rfl, hm⟩ := naryF_ok hy
          exact ⟨y, rfl, holds_add hR (holds_canon ha) (holds_canon hb) hm h⟩
        | sub =>
          cases hf
          obtain ⟨y, rfl, hm⟩ := naryF_ok hy
          exact ⟨y, rfl, holds_subtract hR hF (holds_canon ha) (holds_canon hb) hm h⟩
        | mul =>
          cases hf
          obtain ⟨y, rfl, hm⟩ := naryF_ok hy
          exact ⟨y, rfl, holds_multiply hR hF (holds_canon ha) (holds_canon hb) hm h⟩
        | div =>
          cases hf
          obtain ⟨y, rfl, hm⟩ := naryF_ok hy
          refine ⟨y, rfl, ?_⟩
          simp only [divide, py_bind_ok] at h
          obtain ⟨r, hr, h⟩ := h
          refine holds_multiply hR hF (holds_canon ha)
            (holds_powerOther hR hF hd (hlib.recip (-1) (by omega)) (holds_canon hb) hr) ?_ h
          have hdiv : ∀ a b : F, a / b = a * b ^ (-1 : ℤ) := hop
          unfold ND.map2 at hm ⊢
          rw [ND.shape_map]
          cases hR : bshape v.canon.shape u.canon.shape with
          | none => rw [hR] at hm; cases hm
          | some R =>
            rw [hR] at hm
            cases hm
            refine congrArg Except.ok ?_
            rw [ND.mk.injEq]
            exact ⟨rfl, funext fun I => (hdiv _ _).symm⟩
        | pow => cases hf; exact holds_pow hR hF hlib hd ha hb hy h
        | dotGeneral lc rc lb rb => exact hsafe.elim
        | conv op => exact hsafe.elim
        | other n i => cases hf
        | elementwise name =>
          simp only [pushforward, Option.map_eq_some_iff] at hf
          obtain ⟨g, hg, rfl⟩ := hf
          cases h
        | _ => cases hf; cases h
      | cons hc hins =>
        cases p <;> simp only [pushforward, Option.map_eq_some_iff] at hf <;>
          first | (cases hf; done) | (cases hf; cases h; done) | (obtain ⟨g, -, rfl⟩ := hf; cases h)

end

end JB
end AB
