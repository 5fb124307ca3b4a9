/-
Coefficients below the maximum degree are plain arrays (not intervals): used for C44 and C45.
-/
import Verif.Proofs.JaxBound

set_option linter.unusedSectionVars false

namespace AB
variable {K : Type} [Field K] [LinearOrder K] [IsStrictOrderedRing K]

theorem ArrBelow.nil (n : ℕ) : ArrBelow n ([] : Encl K) := fun i c h => by simp at h

theorem ArrBelow.cons {n : ℕ} {c : Coef K} {E : Encl K} (h0 : 0 < n → c.IsArr)
    (h : ∀ i d, E[i]? = some d → i + 1 < n → d.IsArr) : ArrBelow n (c :: E) := by
  intro i d hd hi
  rcases i with _ | i
  · cases hd; exact h0 hi
  · exact h i d hd hi

theorem ArrBelow.single {n : ℕ} {c : Coef K} (h0 : 0 < n → c.IsArr) : ArrBelow n [c] :=
  ArrBelow.cons h0 fun i d h => by simp at h

namespace IA

theorem isArr_add {a b r : Coef K} (h : add a b = .ok r) (ha : a.IsArr) (hb : b.IsArr) : r.IsArr := by
  cases a <;> cases b <;> simp only [Coef.IsArr] at ha hb
  simp only [add, py_bind_ok, py_pure] at h
  obtain ⟨_, _, rfl⟩ := h
  trivial

theorem isArr_bilinear {a b r : Coef K} {op : ND K → ND K → Py (ND K)} {f : Bool}
    (h : arbitraryBilinear a b op f = .ok r) (ha : a.IsArr) (hb : b.IsArr) : r.IsArr := by
  cases a <;> cases b <;> simp only [Coef.IsArr] at ha hb
  simp only [arbitraryBilinear, py_bind_ok, py_pure] at h
  obtain ⟨_, _, rfl⟩ := h
  trivial

theorem isArr_power {a r : Coef K} {k : ℤ} (h : power a k = .ok r) (ha : a.IsArr) : r.IsArr := by
  cases a <;> simp only [Coef.IsArr] at ha
  cases h
  trivial

theorem isArr_running {a r : Coef K} {d m : ℕ} (h : runningOuterProduct a d m = .ok r) (ha : a.IsArr) :
    r.IsArr := by
  induction m generalizing r with
  | zero => cases h; exact ha
  | succ m ih =>
    simp only [runningOuterProduct, py_bind_ok] at h
    obtain ⟨p, hp, h⟩ := h
    unfold outerProduct at h
    split_ifs at h
    exact isArr_bilinear h (ih hp) ha

theorem isArr_outerPower {a r : Coef K} {k : ℤ} {d : ℕ} (h : outerPower a k d = .ok r)
    (ha : k = 0 ∨ a.IsArr) : r.IsArr := by
  unfold outerPower at h
  by_cases h1 : k < 0
  · rw [if_pos h1] at h; cases h
  rw [if_neg h1] at h
  by_cases h2 : k = 0
  · rw [if_pos h2] at h; cases h; trivial
  rw [if_neg h2] at h
  have ha := ha.resolve_left h2
  by_cases h3 : a.ndim = 0
  · rw [if_pos h3] at h; exact isArr_power h ha
  rw [if_neg h3] at h
  simp only [py_bind_ok] at h
  obtain ⟨rop, hrop, h⟩ := h
  have hr := isArr_running hrop ha
  by_cases h4 : d ≠ 0
  · rw [if_pos h4] at h; cases h; exact hr
  rw [if_neg h4] at h
  split at h
  · cases h; exact hr
  · cases h
  · simp only [py_bind_ok] at h
    obtain ⟨de, hde, dg, hdg, m, hm, h⟩ := h
    refine isArr_add h (isArr_bilinear hm hr trivial) ?_
    have := isArr_power hde ha
    cases de <;> simp only [Coef.IsArr] at this
    simp only [generalizedDiagInterval, py_bind_ok, py_pure] at hdg
    obtain ⟨_, _, rfl⟩ := hdg
    trivial

end IA

/-- the trivial grading -/
def trivG : Poly.Graded PUnit PUnit where
  mul _ _ _ _ := 0
  pow _ _ _ := 0
  one := 0
  val _ := 0
  val_mul _ _ _ _ := rfl
  val_pow _ _ _ := rfl
  val_one := rfl
  mul_zero _ _ _ := rfl
  zero_mul _ _ _ := rfl
  zero_pow _ _ _ := rfl

/-- "array, if the degree is below `n`" -/
def arrRel (K : Type) (n : ℕ) : ℕ → Coef K → PUnit → Prop := fun i c _ => i < n → c.IsArr

theorem arr_laws (n d : ℕ) : Poly.Laws trivG (arrRel K n) (arrRel K n) (arrRel K n) (arrRel K n) IA.add
    (.arr (ND.scalar 0)) (elementwiseTermProductCoefficient d) where
  hzero _ _ := trivial
  hsub h := h
  hadd h1 h2 h hi := IA.isArr_add h (h1 hi) (h2 hi)
  htpc h1 h2 h hi := by
    unfold elementwiseTermProductCoefficient at h
    exact IA.isArr_bilinear h (h1 (by omega)) (h2 (by omega))

theorem arr_powLaws (n d : ℕ) (o : ND K) : Poly.PowLaws trivG (arrRel K n) (arrRel K n) (arrRel K n) (.arr o)
    (elementwiseTermPowerCoefficient d) (fun n c => IA.multiply (.arr (ND.scalar (n : K))) c) where
  hone _ := trivial
  htpow := by
    intro i p x r u h1 h hi
    unfold elementwiseTermPowerCoefficient at h
    split_ifs at h
    refine IA.isArr_outerPower h ?_
    rcases p with _ | p
    · left; rfl
    · right
      refine h1 (lt_of_le_of_lt ?_ hi)
      exact Nat.le_mul_of_pos_right i (by omega)
  hsmul h1 h hi := IA.isArr_bilinear h trivial (h1 hi)

namespace TEA
variable {T : TEA K}

theorem arr_truncate {a c : Encl K} (h : T.truncateIfNecessary a = .ok c) (ha : ArrBelow T.maxDegree a) :
    ArrBelow T.maxDegree c := by
  unfold truncateIfNecessary encloseEnclosure at h
  split_ifs at h with hl
  · cases h; exact ha
  · simp only [py_bind_ok, py_pure] at h
    obtain ⟨r, _, rfl⟩ := h
    intro i x hx hi
    rw [List.getElem?_append_left (by rw [List.length_take]; omega), List.getElem?_take_of_lt hi] at hx
    exact ha i x hx hi

theorem arr_addCoeffs {n : ℕ} {a b c : Encl K} (h : addCoeffs a b = .ok c) (ha : ArrBelow n a)
    (hb : ArrBelow n b) : ArrBelow n c := by
  induction a generalizing b c n with
  | nil =>
    have : c = b := by
      cases b with
      | nil => cases h; rfl
      | cons => cases h; rfl
    exact this ▸ hb
  | cons x a ih =>
    cases b with
    | nil => cases h; exact ha
    | cons y b =>
      simp only [addCoeffs, py_bind_ok, py_pure] at h
      obtain ⟨r, hr, l, hl, rfl⟩ := h
      rcases n with _ | n
      · intro i d _ hi; omega
      refine ArrBelow.cons (fun _ => IA.isArr_add hr (ha 0 x rfl (by omega)) (hb 0 y rfl (by omega))) ?_
      have := ih (n := n) hl (fun i d hd hi => ha (i + 1) d hd (by omega)) (fun i d hd hi => hb (i + 1) d hd (by omega))
      intro i d hd hi
      exact this i d hd (by omega)

theorem arr_add {a b c : Encl K} (h : T.add a b = .ok c) (ha : ArrBelow T.maxDegree a)
    (hb : ArrBelow T.maxDegree b) : ArrBelow T.maxDegree c := by
  simp only [add, py_bind_ok] at h
  obtain ⟨s, hs, h⟩ := h
  exact arr_truncate h (arr_addCoeffs hs ha hb)

theorem arr_negative {a c : Encl K} (h : T.negative a = .ok c) (ha : ArrBelow T.maxDegree a) :
    ArrBelow T.maxDegree c := by
  refine arr_truncate h ?_
  intro i x hx hi
  rw [List.getElem?_map, Option.map_eq_some_iff] at hx
  obtain ⟨y, hy, rfl⟩ := hx
  have := ha i y hy hi
  cases y <;> simp only [Coef.IsArr] at this
  trivial

theorem arr_subtract {a b c : Encl K} (h : T.subtract a b = .ok c) (ha : ArrBelow T.maxDegree a)
    (hb : ArrBelow T.maxDegree b) : ArrBelow T.maxDegree c := by
  simp only [subtract, py_bind_ok] at h
  obtain ⟨s, hs, h⟩ := h
  exact arr_add h ha (arr_negative hs hb)

theorem arr_multiply {a b c : Encl K} (h : T.multiply a b = .ok c) (ha : ArrBelow T.maxDegree a)
    (hb : ArrBelow T.maxDegree b) : ArrBelow T.maxDegree c := by
  simp only [multiply, py_bind_ok] at h
  obtain ⟨_, _, _, _, p, hp, h⟩ := h
  refine arr_truncate h ?_
  have hrep : ∀ n m, ArrBelow m (List.replicate n (.arr (ND.scalar 0)) : Encl K) := by
    intro n m i c hc _
    have := List.eq_of_mem_replicate (List.mem_of_getElem? hc)
    subst this
    trivial
  by_cases hane : a = []
  · subst hane
    unfold Poly.arbitraryBilinear at hp
    simp only [Poly.enum, List.length_nil, List.range_zero, List.zip_nil_left, List.flatMap_nil, List.foldlM_nil] at hp
    cases hp
    exact hrep _ _
  by_cases hbne : b = []
  · subst hbne
    unfold Poly.arbitraryBilinear at hp
    have : ((Poly.enum a).flatMap fun x => (Poly.enum ([] : Encl K)).map fun y => (x, y)) = [] := by
      simp [Poly.enum]
    rw [this] at hp
    cases hp
    exact hrep _ _
  obtain ⟨-, u, hu, -⟩ := Poly.arbitraryBilinear_rel (arr_laws T.maxDegree T.xNdim) hane hbne
    (w := fun _ => 0) (w' := fun _ => 0) (fun i c hc => ha i c hc) (fun i c hc => hb i c hc) hp
  exact fun i c hc => hu i c hc

theorem arr_powerNat {a c : Encl K} {p : ℕ} (h : T.powerNat a p = .ok c) (ha : ArrBelow T.maxDegree a) :
    ArrBelow T.maxDegree c := by
  simp only [powerNat, py_bind_ok] at h
  obtain ⟨_, _, h⟩ := h
  rcases a with _ | ⟨a0, l⟩
  · cases h
  simp only [py_bind_ok] at h
  obtain ⟨r, hr, h⟩ := h
  refine arr_truncate h ?_
  obtain ⟨-, u, hu, -⟩ := Poly.integerPower_rel (arr_laws T.maxDegree T.xNdim)
    (arr_powLaws T.maxDegree T.xNdim _) (a := a0 :: l) (by simp) (w := fun _ => 0) (fun i c hc => ha i c hc) hr
  exact fun i c hc => hu i c hc

theorem arr_bilinear {a b c : Encl K} {pbb : ND K → ND K → ℕ → ℕ → Py (ND K)}
    (h : T.arbitraryBilinear a b pbb = .ok c) (ha : ArrBelow T.maxDegree a) (hb : ArrBelow T.maxDegree b) :
    ArrBelow T.maxDegree c := by
  unfold arbitraryBilinear at h
  have hl : ∀ x ∈ ((Poly.enum a).flatMap fun x => (Poly.enum b).map fun y => (x, y)),
      (x.1.1 < T.maxDegree → x.1.2.IsArr) ∧ (x.2.1 < T.maxDegree → x.2.2.IsArr) := by
    intro x hx
    simp only [List.mem_flatMap, List.mem_map] at hx
    obtain ⟨u, hu, v, hv, rfl⟩ := hx
    exact ⟨fun h => ha _ _ (Poly.mem_enum.1 hu) h, fun h => hb _ _ (Poly.mem_enum.1 hv) h⟩
  have h0 : ArrBelow T.maxDegree
      (List.replicate (min (T.maxDegree + 1) (a.length + b.length - 1)) (.arr (ND.scalar 0)) : Encl K) := by
    intro i c hc _
    have := List.eq_of_mem_replicate (List.mem_of_getElem? hc)
    subst this
    trivial
  revert h h0
  generalize (List.replicate (min (T.maxDegree + 1) (a.length + b.length - 1)) (.arr (ND.scalar 0)) : Encl K) = o
  revert hl
  generalize ((Poly.enum a).flatMap fun x => (Poly.enum b).map fun y => (x, y)) = l
  intro hl h ho
  induction l generalizing o with
  | nil => cases h; exact ho
  | cons x l ih =>
    rw [List.foldlM_cons, py_bind_ok] at h
    obtain ⟨o', ho', h⟩ := h
    refine ih o' (fun y hy => hl y (by simp [hy])) h ?_
    obtain ⟨k1, k2⟩ := hl x (by simp)
    simp only [bilinearStep, py_bind_ok] at ho'
    obtain ⟨t, ht, ho'⟩ := ho'
    cases hd : o[min (x.1.1 + x.2.1) T.maxDegree]? with
    | none => rw [hd] at ho'; cases ho'
    | some w =>
      rw [hd] at ho'
      simp only [py_bind_ok, py_pure] at ho'
      obtain ⟨s, hs, rfl⟩ := ho'
      intro i c hc hi
      rw [List.getElem?_set] at hc
      split_ifs at hc with h1 h2
      · cases hc
        subst h1
        have hij : x.1.1 + x.2.1 < T.maxDegree := by omega
        refine IA.isArr_add hs (ho _ _ hd hi) ?_
        unfold termEnclosureCoefficient at ht
        rw [if_pos (by omega)] at ht
        exact IA.isArr_bilinear ht (k1 (by omega)) (k2 (by omega))
      · exact ho i c hc hi

theorem arr_compose {e arg c : Encl K} (h : T.composeEnclosures e arg = .ok c)
    (he : ArrBelow T.maxDegree e) (ha : ArrBelow T.maxDegree arg) : ArrBelow T.maxDegree c := by
  unfold composeEnclosures at h
  split_ifs at h
  have hd : ArrBelow T.maxDegree (.arr (ND.scalar 0) :: arg.drop 1) := by
    intro i x hx hi
    rcases i with _ | i
    · cases hx; trivial
    · rw [List.getElem?_cons_succ, List.getElem?_drop] at hx
      exact ha _ _ hx (by omega)
  have hl : ∀ x ∈ Poly.enum e, x.1 < T.maxDegree → x.2.IsArr :=
    fun x hx => he _ _ (Poly.mem_enum.1 hx)
  have h0 : ArrBelow T.maxDegree [(.arr (ND.scalar 0) : Coef K)] := ArrBelow.single fun _ => trivial
  revert h h0
  generalize ([.arr (ND.scalar 0)] : Encl K) = o
  revert hl
  generalize Poly.enum e = l
  intro hl h ho
  induction l generalizing o with
  | nil => cases h; exact ho
  | cons x l ih =>
    rw [List.foldlM_cons, py_bind_ok] at h
    obtain ⟨o', ho', h⟩ := h
    refine ih o' (fun y hy => hl y (by simp [hy])) h ?_
    simp only [composeStep, py_bind_ok] at ho'
    obtain ⟨t, ht, ho'⟩ := ho'
    refine arr_add ho' ho ?_
    have hx := hl x (by simp)
    unfold composeTerm at ht
    by_cases hp : x.1 = 0
    · rw [if_pos hp] at ht
      cases ht
      exact ArrBelow.single fun h => hx (by omega)
    · rw [if_neg hp] at ht
      simp only [py_bind_ok] at ht
      obtain ⟨q, hq, ht⟩ := ht
      have hq := arr_powerNat hq hd
      intro i y hy hi
      obtain ⟨it, hit, hf⟩ := (Poly.forall₂_getElem? (Poly.mapM_ok ht) i).1 y hy
      rw [Poly.enum_getElem?, Option.map_eq_some_iff] at hit
      obtain ⟨w, hw, rfl⟩ := hit
      simp only at hf
      by_cases hip : i < x.1
      · rw [if_pos hip] at hf; cases hf; trivial
      · rw [if_neg hip] at hf
        exact IA.isArr_bilinear hf (hx (by omega)) (hq i w hw hi)

theorem arr_elementwise {g : Generator K} (hg : ArrGen g) {arg c : Encl K} {tr : Option (Coef K)}
    (h : T.elementwiseFun g arg tr = .ok c) (ha : ArrBelow T.maxDegree arg) : ArrBelow T.maxDegree c := by
  simp only [elementwiseFun, py_bind_ok] at h
  obtain ⟨_, _, h⟩ := h
  rcases arg with _ | ⟨a0, l⟩
  · cases h
  simp only [py_bind_ok] at h
  obtain ⟨_, _, e, he, h⟩ := h
  exact arr_compose h (hg _ _ _ _ he) ha

theorem arr_powerOther {g : Generator K} (hg : ArrGen g) {arg c : Encl K}
    (h : T.powerOther g arg = .ok c) (ha : ArrBelow T.maxDegree arg) : ArrBelow T.maxDegree c := by
  simp only [powerOther, py_bind_ok] at h
  obtain ⟨_, _, h⟩ := h
  exact arr_elementwise hg h ha

theorem powerOther_ne {g : Generator K} {arg c : Encl K} (h : T.powerOther g arg = .ok c) : arg ≠ [] := by
  rintro rfl
  simp only [powerOther, elementwiseFun, py_bind_ok] at h
  obtain ⟨_, _, _, _, h⟩ := h
  cases h

end TEA

theorem arr_mapOver {n : ℕ} {a c : Encl K} {f : ND K → Py (ND K)} (h : mapOverEnclosure a f = .ok c)
    (ha : ArrBelow n a) : ArrBelow n c := by
  unfold mapOverEnclosure at h
  intro i y hy hi
  obtain ⟨x, hx, hf⟩ := (Poly.forall₂_getElem? (Poly.mapM_ok h) i).1 y hy
  have := ha i x hx hi
  cases x <;> simp only [Coef.IsArr] at this
  simp only [py_bind_ok, py_pure] at hf
  obtain ⟨_, _, rfl⟩ := hf
  trivial


namespace JB
open TEA

variable {lib : Lib K} {T : TEA K}

theorem arr_bid {n : ℕ} {shape dims : List ℕ} {a c : Encl K} (h : broadcastInDimPush shape dims a = .ok c)
    (ha : ArrBelow n a) : ArrBelow n c := by
  simp only [broadcastInDimPush, py_bind_ok] at h
  obtain ⟨_, _, h⟩ := h
  intro i y hy hi
  obtain ⟨x, hx, hf⟩ := (Poly.forall₂_getElem? (Poly.mapM_ok h) i).1 y hy
  rw [Poly.enum_getElem?, Option.map_eq_some_iff] at hx
  obtain ⟨w, hw, rfl⟩ := hx
  have := ha i w hw hi
  cases w <;> simp only [Coef.IsArr] at this
  simp only [bidCoef, py_bind_ok, py_pure] at hf
  obtain ⟨_, _, rfl⟩ := hf
  trivial

theorem arr_push (hlib : LibArr lib) {p : Prim K} {f : List (Inter K) → Py (Encl K)}
    (hf : pushforward lib T p = some f) {ins : List (Inter K)}
    (hins : ∀ i ∈ ins, ArrBelow T.maxDegree i.encl) {e : Encl K} (hc : f ins = .ok e) :
    ArrBelow T.maxDegree e := by
  have bin : ∀ g : Inter K → Inter K → Py (Encl K),
      (match ins with | [a, b] => g a b | _ => (.error .typeError : Py (Encl K))) = .ok e →
      ∃ a b, ArrBelow T.maxDegree a.encl ∧ ArrBelow T.maxDegree b.encl ∧ g a b = .ok e := by
    intro g hg
    rcases ins with _ | ⟨a, _ | ⟨b, _ | ⟨c, l⟩⟩⟩ <;> simp only [reduceCtorEq] at hg
    exact ⟨a, b, hins a (by simp), hins b (by simp), hg⟩
  have una : ∀ g : Inter K → Py (Encl K),
      (match ins with | [a] => g a | _ => (.error .typeError : Py (Encl K))) = .ok e →
      ∃ a, ArrBelow T.maxDegree a.encl ∧ g a = .ok e := by
    intro g hg
    rcases ins with _ | ⟨a, _ | ⟨b, l⟩⟩ <;> simp only [reduceCtorEq] at hg
    exact ⟨a, hins a (by simp), hg⟩
  cases p <;> simp only [pushforward, Option.some.injEq, Option.map_eq_some_iff, reduceCtorEq] at hf
  case add => subst hf; obtain ⟨a, b, ha, hb, h⟩ := bin _ hc; exact arr_add h ha hb
  case div =>
    subst hf; obtain ⟨a, b, ha, hb, h⟩ := bin _ hc
    simp only [divide, py_bind_ok] at h
    obtain ⟨r, hr, h⟩ := h
    exact arr_multiply h ha (arr_powerOther (hlib.pow _) hr hb)
  case integerPow y =>
    subst hf; obtain ⟨a, ha, h⟩ := una _ hc
    by_cases hy : 0 ≤ y
    · rw [if_pos hy] at h; exact arr_powerNat h ha
    · rw [if_neg hy] at h; exact arr_powerOther (hlib.pow _) h ha
  case mul => subst hf; obtain ⟨a, b, ha, hb, h⟩ := bin _ hc; exact arr_multiply h ha hb
  case neg => subst hf; obtain ⟨a, ha, h⟩ := una _ hc; exact arr_negative h ha
  case pow =>
    subst hf; obtain ⟨a, b, ha, hb, h⟩ := bin _ hc
    unfold powPush at h
    split at h
    · cases h
    · by_cases hv : ‹ND K›.shape ≠ []
      · rw [if_pos hv] at h; cases h
      rw [if_neg hv] at h
      split at h
      · exact arr_powerOther (hlib.pow _) h ha
      · split_ifs at h
        · exact arr_powerOther (hlib.pow _) h ha
        · exact arr_powerNat h ha
  case sub => subst hf; obtain ⟨a, b, ha, hb, h⟩ := bin _ hc; exact arr_subtract h ha hb
  case dotGeneral => subst hf; obtain ⟨a, b, ha, hb, h⟩ := bin _ hc; exact arr_bilinear h ha hb
  case conv => subst hf; obtain ⟨a, b, ha, hb, h⟩ := bin _ hc; exact arr_bilinear h ha hb
  case broadcastInDim => subst hf; obtain ⟨a, ha, h⟩ := una _ hc; exact arr_bid h ha
  case elementwise =>
    obtain ⟨g, hg, rfl⟩ := hf
    obtain ⟨a, ha, h⟩ := una _ hc
    exact arr_elementwise (hlib.gen _ _ hg) h ha
  all_goals
    subst hf
    obtain ⟨a, ha, h⟩ := una _ hc
    exact arr_mapOver h ha

theorem arr_const (n : ℕ) (v : ND K) : ArrBelow n (constantInter v).encl := ArrBelow.single fun _ => trivial

def EnvArr (n : ℕ) (env : Env K) : Prop := ∀ v i, env.lookup v = some i → ArrBelow n i.encl

theorem arr_getInter {n : ℕ} {env : Env K} (h : EnvArr n env) {a : Atom K} {i : Inter K}
    (hi : getInter env a = .ok i) : ArrBelow n i.encl := by
  cases a with
  | lit a => cases hi; exact arr_const n a
  | var v =>
    unfold getInter at hi
    cases hl : env.lookup v with
    | none => simp only [hl] at hi; cases hi
    | some i' => simp only [hl] at hi; cases hi; exact h v _ hl

theorem arr_step (hlib : LibArr lib) {T0 : TEA K} {propagate : Bool} {xs : List ℕ} {env env' : Env K} {eqn : Eqn K}
    (h : EnvArr T.maxDegree env) (hs : step lib T T0 propagate xs env eqn = .ok env') :
    EnvArr T.maxDegree env' := by
  simp only [step, py_bind_ok] at hs
  obtain ⟨ins, hins, outs, houts, hs⟩ := hs
  split_ifs at hs
  have hi : ∀ i ∈ ins, ArrBelow T.maxDegree i.encl := by
    intro i hi
    obtain ⟨k, hk⟩ := List.mem_iff_getElem?.1 hi
    obtain ⟨a, -, ha⟩ := (Poly.forall₂_getElem? (Poly.mapM_ok hins) k).1 i hk
    exact arr_getInter h ha
  have ho : ∀ o ∈ outs, ArrBelow T.maxDegree o.encl := by
    unfold eqnOutputs at houts
    cases hc : ins.mapM Inter.constantValue with
    | some cs =>
      rw [hc] at houts
      simp only [py_bind_ok, py_pure] at houts
      obtain ⟨rs, _, rfl⟩ := houts
      intro o ho
      obtain ⟨r, _, rfl⟩ := List.mem_map.1 ho
      exact arr_const _ r
    | none =>
      rw [hc] at houts
      cases hf : pushforward lib T eqn.prim with
      | none => simp only [hf] at houts; cases houts
      | some f =>
        simp only [hf, py_bind_ok] at houts
        obtain ⟨e, he, houts⟩ := houts
        have hE := arr_push hlib hf hi he
        split_ifs at houts
        · simp only [py_bind_ok, py_pure] at houts
          obtain ⟨r, _, rfl⟩ := houts
          intro o ho
          rw [List.mem_singleton] at ho
          subst ho; exact hE
        · cases houts
          intro o ho
          rw [List.mem_singleton] at ho
          subst ho; exact hE
  have hz : ∀ x ∈ eqn.outvars.zip outs, ArrBelow T.maxDegree x.2.encl :=
    fun x hx => ho _ (List.of_mem_zip hx).2
  revert hs hz
  generalize eqn.outvars.zip outs = l
  intro hs hz
  clear houts ho hins hi
  induction l generalizing env with
  | nil => cases hs; exact h
  | cons x l ih =>
    rw [List.foldlM_cons, py_bind_ok] at hs
    obtain ⟨env1, h1, hs⟩ := hs
    refine ih ?_ hs (fun y hy => hz y (by simp [hy]))
    · unfold storeOne at h1
      split_ifs at h1
      · cases h1; exact h
      · simp only [py_bind_ok, py_pure] at h1
        obtain ⟨_, _, rfl⟩ := h1
        intro w j hj
        rw [List.lookup_cons] at hj
        by_cases hw : (w == x.1) = true
        · rw [hw] at hj
          cases hj
          exact hz x (by simp)
        · have hw : (w == x.1) = false := by simpa using hw
          rw [hw] at hj
          exact h w j hj

end JB
end AB
