/-
Two runs of the interpreter on arguments of the same shapes (continued): equations and programs.
-/
import Verif.Proofs.Trace

set_option linter.unusedSectionVars false

namespace AB
variable {K : Type} [Field K] [LinearOrder K]

namespace SameOutcome
variable {U : Prop} {A B C D : Type} {R : A → B → Prop} {S : C → D → Prop}

theorem ok {a : A} {b : B} (h : R a b) : SameOutcome U R (.ok a) (.ok b) := Or.inl ⟨a, b, rfl, rfl, h⟩
theorem err (e : PyErr) : SameOutcome U R (.error e) (.error e) := Or.inr (Or.inl ⟨e, rfl, rfl⟩)
theorem of_rel {x : Py A} {y : Py B} (h : PyRel R x y) : SameOutcome U R x y := by
  rcases h with h | h
  · exact Or.inl h
  · exact Or.inr (Or.inl h)
theorem to_rel {x : Py A} {y : Py B} (h : SameOutcome False R x y) : PyRel R x y := by
  rcases h with h | h | h
  · exact Or.inl h
  · exact Or.inr h
  · exact h.1.elim

theorem bind {x : Py A} {y : Py B} {f : A → Py C} {g : B → Py D} (h : SameOutcome U R x y)
    (hf : ∀ a b, x = .ok a → y = .ok b → R a b → SameOutcome U S (f a) (g b)) : SameOutcome U S (x >>= f) (y >>= g) := by
  rcases h with ⟨a, b, rfl, rfl, h⟩ | ⟨e, rfl, rfl⟩ | ⟨hU, rfl | rfl⟩
  · exact hf a b rfl rfl h
  · exact err e
  · exact Or.inr (Or.inr ⟨hU, Or.inl rfl⟩)
  · exact Or.inr (Or.inr ⟨hU, Or.inr rfl⟩)

theorem foldlM {f : C → A → Py C} {g : D → B → Py D} {l : List A} {m : List B} (h : List.Forall₂ R l m)
    (hf : ∀ c d a b, a ∈ l → S c d → R a b → SameOutcome U S (f c a) (g d b)) {c : C} {d : D} (hc : S c d) :
    SameOutcome U S (l.foldlM f c) (m.foldlM g d) := by
  induction h generalizing c d with
  | nil => exact ok hc
  | cons h1 _ ih =>
    rw [List.foldlM_cons, List.foldlM_cons]
    exact bind (hf _ _ _ _ (by simp) hc h1) fun _ _ _ _ h => ih (fun c d a b ha => hf c d a b (by simp [ha])) h

end SameOutcome

namespace ST
variable {T T' : TEA K} (hT : ST T T') {U : Prop}
include hT

theorem elementwise {g : TEA.Generator K} (hg : JB.GenShape U g) {a a' : Encl K} (ha : SE a a') {r r' : Option (Coef K)}
    (hr : Option.Rel SameForm r r') : SameOutcome U SE (T.elementwiseFun g a r) (T'.elementwiseFun g a' r') := by
  unfold TEA.elementwiseFun
  refine (SameOutcome.of_rel (hT.argRegion ha hr)).bind fun u u' _ _ hu => ?_
  cases ha with
  | nil => exact SameOutcome.err _
  | cons h hs =>
    dsimp only
    refine (SameOutcome.of_rel (hT.point h)).bind fun x x' _ _ hx => ?_
    have h2 : (TEA.toInterval u).1.shape = (TEA.toInterval u').1.shape ∧ (TEA.toInterval u).2.shape = (TEA.toInterval u').2.shape := by
      cases hu with
      | arr h => exact ⟨h, h⟩
      | ivl h0 h1 => exact ⟨h0, h1⟩
    rw [hT.deg]
    exact (hg x x' _ _ _ hx h2.1 h2.2).bind fun _ _ _ _ he => SameOutcome.of_rel (hT.compose he (.cons h hs))

theorem powerOther {g : TEA.Generator K} (hg : JB.GenShape U g) {a a' : Encl K} (ha : SE a a') :
    SameOutcome U SE (T.powerOther g a) (T'.powerOther g a') :=
  (SameOutcome.of_rel (hT.validateR ha)).bind fun _ _ _ _ _ => hT.elementwise hg ha .none

theorem divide {g : TEA.Generator K} (hg : JB.GenShape U g) {a a' b b' : Encl K} (ha : SE a a') (hb : SE b b') :
    SameOutcome U SE (T.divide g a b) (T'.divide g a' b') :=
  (hT.powerOther hg hb).bind fun _ _ _ _ h => SameOutcome.of_rel (hT.multiply ha h)

end ST

namespace Lax

theorem transpose_sn {a a' : ND K} (h : SN a a') (p : List ℕ) : PyRel SN (transpose p a) (transpose p a') := by
  unfold transpose ND.ndim
  rw [show a.shape = a'.shape from h]
  split_ifs
  · exact PyRel.ok rfl
  · exact PyRel.err _

theorem squeeze_sn {a a' : ND K} (h : SN a a') (p : List ℕ) : PyRel SN (squeeze p a) (squeeze p a') := by
  unfold squeeze ND.ndim
  rw [show a.shape = a'.shape from h]
  split_ifs
  · exact PyRel.ok rfl
  · exact PyRel.err _

theorem reduceSum_sn {a a' : ND K} (h : SN a a') (p : List ℕ) : PyRel SN (reduceSum p a) (reduceSum p a') := by
  unfold reduceSum ND.ndim
  rw [show a.shape = a'.shape from h]
  split_ifs
  · exact PyRel.ok rfl
  · exact PyRel.err _

theorem dotGeneral_sn {a a' b b' : ND K} (h : SN a a') (hb : SN b b') (lc rc lb rb : List ℕ) :
    PyRel SN (dotGeneral lc rc lb rb a b) (dotGeneral lc rc lb rb a' b') := by
  unfold dotGeneral ND.ndim
  rw [show a.shape = a'.shape from h, show b.shape = b'.shape from hb]
  split_ifs
  · exact PyRel.ok rfl
  · exact PyRel.err _

theorem bidP_sn {a a' : ND K} (h : SN a a') (s p : List ℕ) : PyRel SN (broadcastInDimP s p a) (broadcastInDimP s p a') := by
  unfold broadcastInDimP ND.ndim
  rw [show a.shape = a'.shape from h]
  split_ifs
  · exact PyRel.ok rfl
  · exact PyRel.err _

theorem bid_sn {a a' : ND K} (h : SN a a') (s p : List ℕ) : PyRel SN (broadcastInDim s p a) (broadcastInDim s p a') := by
  unfold broadcastInDim
  rw [show a.ndim = a'.ndim from congrArg List.length h]
  split_ifs
  · exact PyRel.ok h
  · exact bidP_sn h s p

theorem reshape_sn {a a' : ND K} (h : SN a a') (s : List ℕ) : PyRel SN (reshape s a) (reshape s a') := by
  unfold reshape
  rw [show a.shape = a'.shape from h]
  split_ifs
  · exact PyRel.ok rfl
  · exact PyRel.err _

theorem window_sn {a a' : ND K} (h : SN a a') (s : List WinAxis) : PyRel SN (reduceWindowSum s a) (reduceWindowSum s a') := by
  unfold reduceWindowSum ND.ndim
  rw [show a.shape = a'.shape from h]
  split_ifs
  · exact PyRel.ok rfl
  · exact PyRel.err _

end Lax

theorem canon_sn {a a' : ND K} (h : SN a a') : SN a.canon a'.canon := h

theorem one_rel {x y : Py (ND K)} (h : PyRel SN x y) : PyRel (List.Forall₂ SN) x.one y.one := by
  rcases h with ⟨a, b, rfl, rfl, h⟩ | ⟨e, rfl, rfl⟩
  · exact PyRel.ok (.cons h .nil)
  · exact PyRel.err e

namespace JB
open TEA Lax

theorem bind1_of {sem : Sem K} {p : Prim K} {a a' : ND K}
    (h : PyRel (List.Forall₂ SN) (p.bind sem [a]) (p.bind sem [a'])) : PyRel SN (p.bind1 sem a) (p.bind1 sem a') := by
  refine PyRel.bind h fun l l' hl => ?_
  cases hl with
  | nil => exact PyRel.err _
  | cons h1 h2 =>
    cases h2 with
    | nil => exact PyRel.ok h1
    | cons _ _ => exact PyRel.err _

theorem bind2_of {sem : Sem K} {p : Prim K} {a a' b b' : ND K}
    (h : PyRel (List.Forall₂ SN) (p.bind sem [a, b]) (p.bind sem [a', b'])) : PyRel SN (p.bind2 sem a b) (p.bind2 sem a' b') := by
  refine PyRel.bind h fun l l' hl => ?_
  cases hl with
  | nil => exact PyRel.err _
  | cons h1 h2 =>
    cases h2 with
    | nil => exact PyRel.ok h1
    | cons _ _ => exact PyRel.err _

theorem dot_sn (sem : Sem K) (lc rc lb rb : List ℕ) {a a' b b' : ND K} (ha : SN a a') (hb : SN b b') (p q : ℕ) :
    PyRel SN (dotPairwise sem lc rc lb rb a b p q) (dotPairwise sem lc rc lb rb a' b' p q) := by
  unfold dotPairwise
  rw [show a.ndim = a'.ndim from congrArg List.length ha]
  refine PyRel.bind (bind2_of (one_rel (dotGeneral_sn (canon_sn ha) (canon_sn hb) lc rc lb rb))) fun t t' ht => ?_
  dsimp only
  rw [show t.ndim = t'.ndim from congrArg List.length ht]
  split_ifs
  · exact PyRel.err _
  · exact PyRel.err _
  · exact transpose_sn ht _

theorem move_sn {a a' : ND K} (ha : SN a a') (n : ℕ) : PyRel SN (moveLastToFront a n) (moveLastToFront a' n) := by
  unfold moveLastToFront ND.ndim
  rw [show a.shape = a'.shape from ha]
  split_ifs
  · exact PyRel.ok ha
  · exact PyRel.bind (transpose_sn ha _) fun _ _ h => reshape_sn h _

theorem conv_sn {U : Prop} {lib : Lib K} {op : ND K → ND K → Py (ND K)} (hop : PrimShape U lib (.conv op)) (sem : Sem K) {a a' b b' : ND K}
    (ha : SN a a') (hb : SN b b') (p q : ℕ) : PyRel SN (convPairwise sem op a b p q) (convPairwise sem op a' b' p q) := by
  unfold convPairwise ND.ndim
  rw [show a.shape = a'.shape from ha, show b.shape = b'.shape from hb]
  refine PyRel.bind (move_sn ha p) fun u u' hu => PyRel.bind (move_sn hb q) fun v v' hv => ?_
  refine PyRel.bind (bind2_of (one_rel (hop _ _ _ _ (canon_sn hu) (canon_sn hv)).to_rel)) fun c c' hc => ?_
  rw [show c.shape = c'.shape from hc]
  by_cases h1 : p = 0 ∧ q = 0
  · rw [if_pos h1, if_pos h1]; exact PyRel.ok hc
  rw [if_neg h1, if_neg h1]
  by_cases h2 : p = 0 ∨ q = 0
  · rw [if_pos h2, if_pos h2]; exact PyRel.err _
  rw [if_neg h2, if_neg h2]
  exact PyRel.bind (transpose_sn hc _) fun _ _ h => reshape_sn h _

theorem bidX_eq {a a' : Encl K} (ha : SE a a') : PyRel (fun s t => s = t) (bidXShape a) (bidXShape a') := by
  cases ha with
  | nil => exact PyRel.err _
  | cons h hs =>
    cases hs with
    | nil => exact PyRel.ok rfl
    | cons h1 _ =>
      cases h1 with
      | arr k => refine PyRel.ok ?_; rw [k, h.ndim]
      | ivl _ _ => exact PyRel.err _

theorem bidPush_sf (s d : List ℕ) {a a' : Encl K} (ha : SE a a') :
    PyRel SE (broadcastInDimPush s d a) (broadcastInDimPush s d a') := by
  refine PyRel.bind (bidX_eq ha) ?_
  rintro x _ rfl
  refine PyRel.mapM (Poly.enum_rel ha) ?_
  rintro ⟨i, u⟩ ⟨j, v⟩ ⟨h1, h2⟩
  simp only at h1 h2
  subst h1
  unfold bidCoef
  cases h2 with
  | arr h => exact PyRel.pmap (bid_sn h _ _) fun _ _ h => .arr h
  | ivl h0 h1 => exact PyRel.bind (bid_sn h0 _ _) fun _ _ k0 => PyRel.pmap (bid_sn h1 _ _) fun _ _ k1 => .ivl k0 k1

/-- related trust regions: intervals of the same shapes -/
def TrRel (r r' : Coef K) : Prop := SameForm r r' ∧ ¬r.IsArr

/-- related arguments of a pushforward function -/
structure IS (i j : Inter K) : Prop where
  encl : SE i.encl j.encl
  tr : Option.Rel TrRel i.tr j.tr
  const : i.constantValue = j.constantValue

theorem TrRel.opt {r r' : Option (Coef K)} (h : Option.Rel TrRel r r') : Option.Rel SameForm r r' := by
  cases h with
  | none => exact .none
  | some h => exact .some h.1

theorem powPush_shape {U : Prop} {lib : Lib K} (hlib : PrimShape U lib .pow) {T T' : TEA K} (hT : ST T T') {a a' b b' : Inter K}
    (ha : IS a a') (hb : IS b b') : SameOutcome U SE (powPush lib T a b) (powPush lib T' a' b') := by
  unfold powPush
  rw [hb.const]
  cases b'.constantValue with
  | none => exact SameOutcome.err _
  | some v =>
    dsimp only
    by_cases hv : v.shape ≠ []
    · rw [if_pos hv, if_pos hv]; exact SameOutcome.err _
    rw [if_neg hv, if_neg hv]
    cases lib.expo (v.get []) with
    | frac q => exact hT.powerOther (hlib _) ha.encl
    | int n =>
      dsimp only
      split_ifs
      · exact hT.powerOther (hlib _) ha.encl
      · exact SameOutcome.of_rel (hT.powerNat ha.encl 0)
      · exact SameOutcome.err _

theorem push_shape {U : Prop} {lib : Lib K} {T T' : TEA K} (hT : ST T T') {p : Prim K}
    (hp : PrimShape U lib p) : (pushforward lib T p = none ∧ pushforward lib T' p = none) ∨
      ∃ f f', pushforward lib T p = some f ∧ pushforward lib T' p = some f' ∧
        ∀ ins ins', List.Forall₂ IS ins ins' → SameOutcome U SE (f ins) (f' ins') := by
  have un : ∀ g g' : Inter K → Py (Encl K), (∀ a a', IS a a' → SameOutcome U SE (g a) (g' a')) →
      ∀ ins ins', List.Forall₂ IS ins ins' →
        SameOutcome U SE (match ins with | [a] => g a | _ => (.error .typeError : Py (Encl K)))
          (match ins' with | [a] => g' a | _ => (.error .typeError : Py (Encl K))) := by
    intro g g' hg ins ins' h
    cases h with
    | nil => exact SameOutcome.err _
    | cons h1 h2 =>
      cases h2 with
      | nil => exact hg _ _ h1
      | cons _ _ => exact SameOutcome.err _
  have bi : ∀ g g' : Inter K → Inter K → Py (Encl K), (∀ a a' b b', IS a a' → IS b b' → SameOutcome U SE (g a b) (g' a' b')) →
      ∀ ins ins', List.Forall₂ IS ins ins' →
        SameOutcome U SE (match ins with | [a, b] => g a b | _ => (.error .typeError : Py (Encl K)))
          (match ins' with | [a, b] => g' a b | _ => (.error .typeError : Py (Encl K))) := by
    intro g g' hg ins ins' h
    cases h with
    | nil => exact SameOutcome.err _
    | cons h1 h2 =>
      cases h2 with
      | nil => exact SameOutcome.err _
      | cons h2 h3 =>
        cases h3 with
        | nil => exact hg _ _ _ _ h1 h2
        | cons _ _ => exact SameOutcome.err _
  have pass : ∀ p : Prim K, (∀ a a', SN a a' → PyRel (List.Forall₂ SN) (p.bind lib.sem [a]) (p.bind lib.sem [a'])) →
      ∀ ins ins', List.Forall₂ IS ins ins' →
        SameOutcome U SE (match ins with | [a] => mapOverEnclosure a.encl (p.bind1 lib.sem) | _ => (.error .typeError : Py (Encl K)))
          (match ins' with | [a] => mapOverEnclosure a.encl (p.bind1 lib.sem) | _ => (.error .typeError : Py (Encl K))) :=
    fun p hp => un _ _ fun a a' h => SameOutcome.of_rel (mapOver_sf h.encl fun u u' hu => bind1_of (hp u u' hu))
  cases p with
  | add => exact Or.inr ⟨_, _, rfl, rfl, bi _ _ fun _ _ _ _ h1 h2 => SameOutcome.of_rel (hT.add h1.encl h2.encl)⟩
  | sub => exact Or.inr ⟨_, _, rfl, rfl, bi _ _ fun _ _ _ _ h1 h2 => SameOutcome.of_rel (hT.subtract h1.encl h2.encl)⟩
  | mul => exact Or.inr ⟨_, _, rfl, rfl, bi _ _ fun _ _ _ _ h1 h2 => SameOutcome.of_rel (hT.multiply h1.encl h2.encl)⟩
  | div => exact Or.inr ⟨_, _, rfl, rfl, bi _ _ fun _ _ _ _ h1 h2 => hT.divide hp h1.encl h2.encl⟩
  | neg => exact Or.inr ⟨_, _, rfl, rfl, un _ _ fun _ _ h1 => SameOutcome.of_rel (hT.negative h1.encl)⟩
  | pow => exact Or.inr ⟨_, _, rfl, rfl, bi _ _ fun _ _ _ _ h1 h2 => powPush_shape hp hT h1 h2⟩
  | integerPow y =>
    refine Or.inr ⟨_, _, rfl, rfl, un (fun a => if 0 ≤ y then T.powerNat a.encl y.toNat else T.powerOther (lib.powGen (.int y)) a.encl)
      (fun a => if 0 ≤ y then T'.powerNat a.encl y.toNat else T'.powerOther (lib.powGen (.int y)) a.encl) fun a a' h => ?_⟩
    by_cases hy : 0 ≤ y
    · rw [if_pos hy, if_pos hy]; exact SameOutcome.of_rel (hT.powerNat h.encl _)
    · rw [if_neg hy, if_neg hy]; exact hT.powerOther (hp (not_le.1 hy)) h.encl
  | dotGeneral lc rc lb rb =>
    exact Or.inr ⟨_, _, rfl, rfl, bi _ _ fun _ _ _ _ h1 h2 =>
      SameOutcome.of_rel (hT.bilinear (fun _ _ _ _ p q h1 h2 => dot_sn lib.sem lc rc lb rb h1 h2 p q) h1.encl h2.encl)⟩
  | conv op =>
    exact Or.inr ⟨_, _, rfl, rfl, bi _ _ fun _ _ _ _ h1 h2 =>
      SameOutcome.of_rel (hT.bilinear (fun _ _ _ _ p q h1 h2 => conv_sn hp lib.sem h1 h2 p q) h1.encl h2.encl)⟩
  | broadcastInDim s d =>
    exact Or.inr ⟨_, _, rfl, rfl, un _ _ fun _ _ h1 => SameOutcome.of_rel (bidPush_sf s d h1.encl)⟩
  | elementwise name =>
    cases hg : lib.gen name with
    | none => exact Or.inl ⟨by simp only [pushforward, hg, Option.map_none], by simp only [pushforward, hg, Option.map_none]⟩
    | some g =>
      refine Or.inr ⟨_, _, (by simp only [pushforward, hg, Option.map_some]; rfl), (by simp only [pushforward, hg, Option.map_some]; rfl), ?_⟩
      exact un _ _ fun _ _ h1 => hT.elementwise (hp g hg) h1.encl (TrRel.opt h1.tr)
  | convertElementType round =>
    exact Or.inr ⟨_, _, rfl, rfl, pass (.convertElementType round) fun a a' h => PyRel.ok (.cons (canon_sn h) .nil)⟩
  | reshape s => exact Or.inr ⟨_, _, rfl, rfl, pass (.reshape s) fun a a' h => one_rel (reshape_sn (canon_sn h) s)⟩
  | reduceSum s => exact Or.inr ⟨_, _, rfl, rfl, pass (.reduceSum s) fun a a' h => one_rel (reduceSum_sn (canon_sn h) s)⟩
  | reduceWindowSum s => exact Or.inr ⟨_, _, rfl, rfl, pass (.reduceWindowSum s) fun a a' h => one_rel (window_sn (canon_sn h) s)⟩
  | squeeze s => exact Or.inr ⟨_, _, rfl, rfl, pass (.squeeze s) fun a a' h => one_rel (squeeze_sn (canon_sn h) s)⟩
  | transpose s => exact Or.inr ⟨_, _, rfl, rfl, pass (.transpose s) fun a a' h => one_rel (transpose_sn (canon_sn h) s)⟩
  | jit body =>
    exact Or.inr ⟨_, _, rfl, rfl, pass (.jit body) fun a a' h => one_rel (hp _ _ (canon_sn h)).to_rel⟩
  | other n impl => exact Or.inl ⟨rfl, rfl⟩

theorem intersect_sn {a a' b b' : Coef K} (ha : SameForm a a') (hb : SameForm b b') :
    PyRel (fun s t => SN s.1 t.1 ∧ SN s.2 t.2) (intersectIntervals a b) (intersectIntervals a' b') := by
  have gen : ∀ {a a' b b' : Coef K}, SameForm a a' → SameForm b b' →
      PyRel (fun (s t : ND K × ND K) => SN s.1 t.1 ∧ SN s.2 t.2)
        (if a.shape = [] ∨ b.shape = [] then .error .typeError
          else if a.shape.head? = some 2 ∨ b.shape.head? = some 2 then .error .unmodelled else .error .valueError)
        (if a'.shape = [] ∨ b'.shape = [] then .error .typeError
          else if a'.shape.head? = some 2 ∨ b'.shape.head? = some 2 then .error .unmodelled else .error .valueError) := by
    intro a a' b b' ha hb
    rw [ha.shape, hb.shape]
    split_ifs <;> exact PyRel.err _
  have h := gen ha hb
  cases ha with
  | arr _ => exact h
  | ivl h0 h1 =>
    cases hb with
    | arr _ => exact h
    | ivl k0 k1 => exact PyRel.bind (map2_sn h0 k0) fun _ _ e0 => PyRel.pmap (map2_sn h1 k1) fun _ _ e1 => ⟨e0, e1⟩

theorem regions_shape {ins ins' : List (Inter K)} (h : List.Forall₂ IS ins ins') :
    PyRel (List.Forall₂ IS)
      (ins.mapM fun i => match i.tr with
      | none => (.error .assertion : Py (Inter K))
      | some r => .ok ⟨[r], none⟩)
      (ins'.mapM fun i => match i.tr with
      | none => (.error .assertion : Py (Inter K))
      | some r => .ok ⟨[r], none⟩) := by
  refine PyRel.mapM h ?_
  rintro ⟨e, r⟩ ⟨e', r'⟩ ⟨-, h2, -⟩
  dsimp only at h2 ⊢
  cases h2 with
  | none => exact PyRel.err _
  | some h =>
    refine PyRel.ok ⟨.cons h.1 .nil, .none, ?_⟩
    obtain ⟨h1, h2⟩ := h
    cases h1 with
    | arr _ => exact absurd trivial h2
    | ivl _ _ => rfl

theorem outRegion_shape {U : Prop} {lib : Lib K} {T T' T0 T0' : TEA K} (hT : ST T T') (hT0 : ST T0 T0')
    {p : Prim K} (hp : PrimShape U lib p) {ins ins' : List (Inter K)} (hins : List.Forall₂ IS ins ins') {e e' : Encl K}
    (he : SE e e') : SameOutcome U TrRel (outRegion lib T T0 p ins e) (outRegion lib T' T0' p ins' e') := by
  unfold outRegion
  rcases push_shape hT0 hp with ⟨h1, h2⟩ | ⟨f, f', h1, h2, hf⟩
  · rw [h1, h2]; exact SameOutcome.err _
  rw [h1, h2]
  refine (SameOutcome.of_rel (regions_shape hins)).bind fun i0 i0' _ _ h0 => ?_
  refine (hf _ _ h0).bind fun a a' _ _ ha => ?_
  refine (SameOutcome.of_rel (enclose_sf he hT.reg 0)).bind fun b b' _ _ hb => ?_
  cases ha with
  | nil => exact SameOutcome.err _
  | cons ha _ =>
    cases hb with
    | nil => exact SameOutcome.err _
    | cons hb _ =>
      cases he with
      | nil => exact SameOutcome.err _
      | cons he _ =>
        cases he with
        | ivl _ _ => exact SameOutcome.err _
        | arr he =>
          refine (SameOutcome.of_rel (intersect_sn ha hb)).bind fun s t _ _ hst => ?_
          exact (SameOutcome.of_rel (map2_sn he hst.1)).bind fun _ _ _ _ k0 =>
            (SameOutcome.of_rel (map2_sn he hst.2)).bind fun _ _ _ _ k1 => SameOutcome.ok ⟨.ivl k0 k1, id⟩

/-- related values of a variable: same form; and they are the same if they are constants -/
structure IR (md : ℕ) (i j : Inter K) : Prop where
  encl : SE i.encl j.encl
  tr : Option.Rel TrRel i.tr j.tr
  ne : i.encl ≠ []
  len : i.encl.length ≤ md + 1
  live : Live md i.encl ∨ ∃ v, i.encl = [.arr v] ∧ j.encl = [.arr v]

variable [IsStrictOrderedRing K]

theorem live_const_none {md : ℕ} {i : Inter K} (h : Live md i.encl) : i.constantValue = none := by
  cases hc : i.constantValue with
  | none => rfl
  | some v => exact absurd h (not_live_const hc)

theorem live_sf {md : ℕ} {e e' : Encl K} (he : SE e e') (h : Live md e) : Live md e' := by
  refine ⟨fun h0 => ?_, fun h1 => by rw [← he.length_eq]; exact h.2 h1⟩
  obtain ⟨l, u, h⟩ := h.1 h0
  cases he with
  | nil => cases h
  | cons h1 _ =>
    cases h
    cases h1 with
    | ivl _ _ => exact ⟨_, _, rfl⟩

theorem IR.is {md : ℕ} {i j : Inter K} (h : IR md i j) : IS i j := by
  refine ⟨h.encl, h.tr, ?_⟩
  rcases h.live with hl | ⟨v, h1, h2⟩
  · rw [live_const_none hl, live_const_none (live_sf h.encl hl)]
  · unfold Inter.constantValue; rw [h1, h2]

theorem IR.const (md : ℕ) (v : ND K) : IR md (constantInter v) (constantInter v) :=
  ⟨.cons (SameForm.refl _) .nil, .some ⟨SameForm.refl _, id⟩, by simp [constantInter], by simp [constantInter],
    Or.inr ⟨v, rfl, rfl⟩⟩

theorem powerNat_zero {T : TEA K} {a c : Encl K} (h : T.powerNat a 0 = .ok c) :
    ∃ x l, a = x :: l ∧ c = [.arr (IA.firstEndpoint x).onesLike] := by
  simp only [TEA.powerNat, py_bind_ok] at h
  obtain ⟨_, -, h⟩ := h
  cases a with
  | nil => cases h
  | cons x l =>
    refine ⟨x, l, rfl, ?_⟩
    simp only [py_bind_ok] at h
    obtain ⟨r, hr, h⟩ := h
    unfold Poly.integerPower at hr
    rw [if_neg (by simp), if_pos (by simp)] at hr
    cases hr
    unfold TEA.truncateIfNecessary encloseEnclosure at h
    rw [if_pos (by simp)] at h
    exact (Except.ok.inj h).symm

theorem powerNat_zero_eq {T T' : TEA K} {a a' c c' : Encl K} (ha : SE a a') (h : T.powerNat a 0 = .ok c)
    (h' : T'.powerNat a' 0 = .ok c') : ∃ v, c = [.arr v] ∧ c' = [.arr v] := by
  obtain ⟨x, l, rfl, rfl⟩ := powerNat_zero h
  obtain ⟨x', l', rfl, rfl⟩ := powerNat_zero h'
  cases ha with
  | cons h1 _ => exact ⟨_, rfl, by rw [IA.ones_eq (IA.first_sn h1)]⟩

/-- a zeroth power: both runs compute the same constant -/
theorem zero_pow_const {lib : Lib K} {T T' : TEA K} {p : Prim K} {f f' : List (Inter K) → Py (Encl K)}
    (hf : pushforward lib T p = some f) (hf' : pushforward lib T' p = some f') {ins ins' : List (Inter K)}
    (hi : List.Forall₂ IS ins ins') {e e' : Encl K} (h : f ins = .ok e) (h' : f' ins' = .ok e')
    (hz : ¬NotZeroPow lib p ins) : ∃ v, e = [.arr v] ∧ e' = [.arr v] := by
  cases p with
  | integerPow y =>
    have hy : y = 0 := not_not.1 hz
    subst hy
    cases hf; cases hf'
    cases hi with
    | nil => cases h
    | cons h1 h2 =>
      cases h2 with
      | cons _ _ => cases h
      | nil =>
        simp only [le_refl, if_true] at h h'
        exact powerNat_zero_eq h1.encl h h'
  | pow =>
    cases hf; cases hf'
    cases hi with
    | nil => cases h
    | cons h1 h2 =>
      cases h2 with
      | nil => cases h
      | cons h2 h3 =>
        cases h3 with
        | cons _ _ => cases h
        | nil =>
          unfold NotZeroPow at hz
          push Not at hz
          obtain ⟨v, hv, hz⟩ := hz
          simp only [powPush] at h h'
          rw [← h2.const, hv] at h'
          rw [hv] at h
          dsimp only at h h'
          by_cases hs : v.shape ≠ []
          · rw [if_pos hs] at h; cases h
          rw [if_neg hs, hz] at h h'
          simp only [lt_irrefl, if_false, if_true] at h h'
          exact powerNat_zero_eq h1.encl h h'
  | _ => exact absurd trivial hz

/-- related environments -/
abbrev ER (md : ℕ) (env env' : Env K) : Prop := List.Forall₂ (fun a b => a.1 = b.1 ∧ IR md a.2 b.2) env env'

theorem lookup_er {md : ℕ} {env env' : Env K} (h : ER md env env') (v : ℤ) :
    (∃ i j, env.lookup v = some i ∧ env'.lookup v = some j ∧ IR md i j) ∨ (env.lookup v = none ∧ env'.lookup v = none) := by
  induction h with
  | nil => exact Or.inr ⟨rfl, rfl⟩
  | @cons a b l l' h _ ih =>
    obtain ⟨w, i⟩ := a
    obtain ⟨w', j⟩ := b
    obtain ⟨h1, h2⟩ := h
    simp only at h1 h2
    subst h1
    rw [List.lookup_cons, List.lookup_cons]
    by_cases hv : (v == w) = true
    · rw [hv]; exact Or.inl ⟨i, j, rfl, rfl, h2⟩
    · rw [Bool.not_eq_true] at hv; rw [hv]; exact ih

theorem getInter_er {md : ℕ} {env env' : Env K} (h : ER md env env') (a : Atom K) :
    PyRel (IR md) (getInter env a) (getInter env' a) := by
  cases a with
  | lit v => exact PyRel.ok (IR.const md v)
  | var v =>
    unfold getInter
    rcases lookup_er h v with ⟨i, j, h1, h2, h3⟩ | ⟨h1, h2⟩
    · simp only [h1, h2]; exact PyRel.ok h3
    · simp only [h1, h2]; exact PyRel.err _

theorem consts_eq {md : ℕ} {ins ins' : List (Inter K)} (h : List.Forall₂ (IR md) ins ins') :
    ins.mapM Inter.constantValue = ins'.mapM Inter.constantValue := by
  induction h with
  | nil => rfl
  | cons h _ ih => rw [List.mapM_cons, List.mapM_cons, h.is.const, ih]

theorem exists_live {md : ℕ} {ins ins' : List (Inter K)} (h : List.Forall₂ (IR md) ins ins')
    (hn : ins.mapM Inter.constantValue = none) : ∃ i ∈ ins, Live md i.encl := by
  induction h with
  | nil => cases hn
  | @cons i j l l' h _ ih =>
    rcases h.live with hl | ⟨v, h1, -⟩
    · exact ⟨i, by simp, hl⟩
    · rw [List.mapM_cons, show i.constantValue = some v by unfold Inter.constantValue; rw [h1]] at hn
      cases hm : l.mapM Inter.constantValue with
      | none =>
        obtain ⟨k, hk, hl⟩ := ih hm
        exact ⟨k, by simp [hk], hl⟩
      | some w => rw [hm] at hn; cases hn

theorem ir_mem {md : ℕ} {ins ins' : List (Inter K)} (h : List.Forall₂ (IR md) ins ins') :
    ∀ i ∈ ins, i.encl ≠ [] ∧ i.encl.length ≤ md + 1 := by
  induction h with
  | nil => intro i hi; exact absurd hi List.not_mem_nil
  | cons h _ ih =>
    intro i hi
    rcases List.mem_cons.1 hi with rfl | hi
    · exact ⟨h.ne, h.len⟩
    · exact ih i hi

theorem zip_ir {md : ℕ} {l : List ℤ} {o o' : List (Inter K)} (h : List.Forall₂ (IR md) o o') :
    List.Forall₂ (fun a b => a.1 = b.1 ∧ IR md a.2 b.2) (l.zip o) (l.zip o') := by
  induction h generalizing l with
  | nil => simp
  | cons h1 _ ih =>
    cases l with
    | nil => simp
    | cons i l => exact .cons ⟨rfl, h1⟩ ih

section
variable {U : Prop} {lib : Lib K} (hfull : LibFull lib) {T T' T0 T0' : TEA K} (hT : ST T T')
  (hT0 : ST T0 T0')
include hfull hT hT0

theorem eqnOutputs_shape (propagate : Bool) {eqn : Eqn K} (hp : PrimShape U lib eqn.prim) {ins ins' : List (Inter K)}
    (hi : List.Forall₂ (IR T.maxDegree) ins ins') :
    SameOutcome U (List.Forall₂ (IR T.maxDegree)) (eqnOutputs lib T T0 propagate eqn ins)
      (eqnOutputs lib T' T0' propagate eqn ins') := by
  unfold eqnOutputs
  rw [← consts_eq hi]
  cases hc : ins.mapM Inter.constantValue with
  | some vals =>
    dsimp only
    cases hb : eqn.prim.bind lib.sem vals with
    | error e => exact SameOutcome.err e
    | ok outs =>
      refine SameOutcome.ok ?_
      rw [List.forall₂_map_left_iff, List.forall₂_map_right_iff]
      exact List.forall₂_same.2 fun v _ => IR.const _ v
  | none =>
    rcases push_shape hT hp with ⟨h1, h2⟩ | ⟨f, f', h1, h2, hf⟩
    · rw [h1, h2]; exact SameOutcome.err _
    rw [h1, h2]
    have hI : List.Forall₂ IS ins ins' := hi.imp fun _ _ h => h.is
    refine (hf ins ins' hI).bind fun e e' he he' hee => ?_
    have hform := push_form h1 (ir_mem hi) he
    have hlive : Live T.maxDegree e ∨ ∃ v, e = [.arr v] ∧ e' = [.arr v] := by
      by_cases hz : NotZeroPow lib eqn.prim ins
      · exact Or.inl (push_live hfull h1 (ir_mem hi) he hz (exists_live hi hc))
      · exact Or.inr (zero_pow_const h1 h2 hI he he' hz)
    split_ifs
    · exact SameOutcome.err _
    · exact (outRegion_shape hT hT0 hp hI hee).bind fun r r' _ _ hr =>
        SameOutcome.ok (.cons ⟨hee, .some hr, hform.1, hform.2, hlive⟩ .nil)
    · exact SameOutcome.ok (.cons ⟨hee, .none, hform.1, hform.2, hlive⟩ .nil)

omit hfull hT hT0 in
theorem storeOne_shape {md : ℕ} {xs : List ℕ} {env env' : Env K} (h : ER md env env') {v : ℤ} {i j : Inter K} (hi : IR md i j) :
    SameOutcome U (ER md) (storeOne xs env (v, i)) (storeOne xs env' (v, j)) := by
  unfold storeOne
  have hv : validateEnclosure xs i.encl = validateEnclosure xs j.encl := by
    unfold validateEnclosure
    rw [ST.all_ok (Poly.enum_rel hi.encl)]
  have hs : (env.lookup v).isSome = (env'.lookup v).isSome := by
    rcases lookup_er h v with ⟨a, b, h1, h2, -⟩ | ⟨h1, h2⟩ <;> rw [h1, h2] <;> rfl
  dsimp only
  rw [hs, hv]
  split_ifs
  · exact SameOutcome.ok h
  · exact SameOutcome.err _
  · cases validateEnclosure xs j.encl with
    | error e => exact SameOutcome.err e
    | ok _ => exact SameOutcome.ok (.cons ⟨rfl, hi⟩ h)

theorem step_shape (propagate : Bool) (xs : List ℕ) {eqn : Eqn K} (hp : PrimShape U lib eqn.prim) {env env' : Env K}
    (h : ER T.maxDegree env env') :
    SameOutcome U (ER T.maxDegree) (step lib T T0 propagate xs env eqn) (step lib T' T0' propagate xs env' eqn) := by
  unfold step
  have h1 : PyRel (List.Forall₂ (IR T.maxDegree)) (eqn.invars.mapM (getInter env)) (eqn.invars.mapM (getInter env')) :=
    PyRel.mapM (R := fun a b => a = b) (List.forall₂_same.2 fun _ _ => rfl) (by
      rintro a _ rfl; exact getInter_er h a)
  refine (SameOutcome.of_rel h1).bind fun ins ins' _ _ hi => ?_
  refine (eqnOutputs_shape hfull hT hT0 propagate hp hi).bind fun o o' _ _ ho => ?_
  rw [ho.length_eq]
  split_ifs
  · exact SameOutcome.err _
  · refine SameOutcome.foldlM (R := fun a b => a.1 = b.1 ∧ IR T.maxDegree a.2 b.2) (zip_ir ho) ?_ h
    rintro c d ⟨v, i⟩ ⟨w, j⟩ - hc ⟨h1, h2⟩
    simp only at h1 h2
    subst h1
    exact storeOne_shape hc h2
end

end JB
end AB
