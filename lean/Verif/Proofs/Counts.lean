/-
Helper lemmas: the number of coefficients of the results of the operations, and the bounds of `Spec/Static` on them.
-/
import Verif.Spec.Static
import Verif.Props.Form

set_option linter.unusedSectionVars false

namespace AB
variable {K : Type} [Field K] [LinearOrder K] [IsStrictOrderedRing K]

namespace TEA
variable {T : TEA K}

theorem addCoeffs_length {a b c : Encl K} (h : addCoeffs a b = .ok c) : c.length = max a.length b.length := by
  induction a generalizing b c with
  | nil => cases b <;> (cases h; simp)
  | cons x a ih =>
    cases b with
    | nil => cases h; simp
    | cons y b =>
      simp only [addCoeffs, py_bind_ok, py_pure] at h
      obtain ⟨r, -, l, hl, rfl⟩ := h
      simp [ih hl]

theorem enclose_len {E out : Encl K} {Z : Coef K} {d : ℕ} (h : encloseEnclosure E Z d = .ok out) :
    out.length = min E.length (d + 1) := by
  unfold encloseEnclosure at h
  split_ifs at h with hl
  · cases h; omega
  · simp only [py_bind_ok, py_pure] at h
    obtain ⟨c, -, rfl⟩ := h
    simp
    omega

theorem add_len {a b c : Encl K} (h : T.add a b = .ok c) : c.length = min (max a.length b.length) (T.maxDegree + 1) := by
  simp only [add, py_bind_ok, truncateIfNecessary] at h
  obtain ⟨s, hs, h⟩ := h
  rw [enclose_len h, addCoeffs_length hs]

theorem negative_len {a c : Encl K} (h : T.negative a = .ok c) : c.length = min a.length (T.maxDegree + 1) := by
  unfold negative truncateIfNecessary at h
  rw [enclose_len h]
  simp

theorem multiply_len {a b c : Encl K} (h : T.multiply a b = .ok c) :
    c.length = min (a.length + b.length - 1) (T.maxDegree + 1) := by
  simp only [multiply, py_bind_ok, truncateIfNecessary] at h
  obtain ⟨u1, hv1, u2, hv2, p, hp, h⟩ := h
  have hl := JB.polyBilinear_length hp
  rw [List.length_replicate] at hl
  rw [enclose_len h, hl]

theorem bilinear_len {a b c : Encl K} {pbb : ND K → ND K → ℕ → ℕ → Py (ND K)} (h : T.arbitraryBilinear a b pbb = .ok c) :
    c.length = min (T.maxDegree + 1) (a.length + b.length - 1) := by
  have hl := setFold_length T h
  rwa [List.length_replicate] at hl

theorem powerNat_len {a c : Encl K} {p : ℕ} (hp : p ≠ 0) (h : T.powerNat a p = .ok c) :
    c.length = min ((a.length - 1) * p + 1) (T.maxDegree + 1) := by
  simp only [powerNat, py_bind_ok, truncateIfNecessary] at h
  obtain ⟨u1, hv1, h⟩ := h
  rcases a with _ | ⟨a0, l⟩
  · cases h
  simp only [py_bind_ok] at h
  obtain ⟨r, hr, h⟩ := h
  unfold Poly.integerPower at hr
  rw [if_neg (by omega), if_neg (by omega), Poly.powRange (by simp) (by omega)] at hr
  have := (Poly.mapM_ok hr).length_eq
  rw [List.length_range, Int.toNat_natCast] at this
  rw [enclose_len h, ← this]
  congr 1
  omega

end TEA

namespace JB
open TEA
variable {lib : Lib K} {T T0 : TEA K} {ct : Counts} {md : ℕ}

/-- the bounds hold -/
def CountOk (ct : Counts) (md : ℕ) (a : Atom K) (i : Inter K) : Prop :=
  min (a.least ct) (md + 1) ≤ i.encl.length ∧ (i.encl.length : ℕ∞) ≤ a.most ct

def LenOk (ct : Counts) (md : ℕ) (o : ℤ) (e : Encl K) : Prop :=
  min (ct.least o) (md + 1) ≤ e.length ∧ (e.length : ℕ∞) ≤ ct.most o

theorem most_max {a b e : ℕ} {A B E : ℕ∞} (ha : (a : ℕ∞) ≤ A) (hb : (b : ℕ∞) ≤ B) (h : max A B ≤ E) (he : e ≤ max a b) :
    (e : ℕ∞) ≤ E := by
  rcases le_total a b with hab | hab
  · rw [max_eq_right hab] at he
    exact (Nat.cast_le.2 he).trans (hb.trans ((le_max_right _ _).trans h))
  · rw [max_eq_left hab] at he
    exact (Nat.cast_le.2 he).trans (ha.trans ((le_max_left _ _).trans h))

theorem most_sum {a b e : ℕ} {A B E : ℕ∞} (ha : (a : ℕ∞) ≤ A) (hb : (b : ℕ∞) ≤ B) (h : A + B ≤ E + 1) (he : e + 1 ≤ a + b) :
    (e : ℕ∞) ≤ E := by
  have h1 : ((e + 1 : ℕ) : ℕ∞) ≤ E + 1 := (Nat.cast_le.2 he).trans (by
    rw [Nat.cast_add]; exact (add_le_add ha hb).trans h)
  rw [Nat.cast_add, Nat.cast_one] at h1
  exact (WithTop.add_le_add_iff_right ENat.one_ne_top).1 h1

theorem push_counts {p : Prim K} {atoms : List (Atom K)} {outvars : List ℤ} (hop : CountOp ct p atoms outvars)
    {ins : List (Inter K)}
    (hins : List.Forall₂ (fun a i => CountOk ct T.maxDegree a i ∧ 1 ≤ i.encl.length ∧ i.encl.length ≤ T.maxDegree + 1) atoms ins)
    {f : List (Inter K) → Py (Encl K)} (hf : pushforward lib T p = some f) {e : Encl K} (he : f ins = .ok e) :
    ∃ o, outvars = [o] ∧ LenOk ct T.maxDegree o e := by
  have two : ∀ {a b : Atom K}, atoms = [a, b] → ∃ i j, ins = [i, j] ∧
      (CountOk ct T.maxDegree a i ∧ 1 ≤ i.encl.length ∧ i.encl.length ≤ T.maxDegree + 1) ∧
      (CountOk ct T.maxDegree b j ∧ 1 ≤ j.encl.length ∧ j.encl.length ≤ T.maxDegree + 1) := by
    rintro a b rfl
    cases hins with
    | cons h1 h2 =>
      cases h2 with
      | cons h2 h3 =>
        cases h3
        exact ⟨_, _, rfl, h1, h2⟩
  have one : ∀ {a : Atom K}, atoms = [a] → ∃ i, ins = [i] ∧
      (CountOk ct T.maxDegree a i ∧ 1 ≤ i.encl.length ∧ i.encl.length ≤ T.maxDegree + 1) := by
    rintro a rfl
    cases hins with
    | cons h1 h2 =>
      cases h2
      exact ⟨_, rfl, h1⟩
  have lin : ∀ {a : Atom K} {o : ℤ}, atoms = [a] → (ct.least o ≤ a.least ct ∧ a.most ct ≤ ct.most o) →
      (∀ i, f [i] = mapOverEnclosure i.encl (p.bind1 lib.sem)) → LenOk ct T.maxDegree o e := by
    intro a o ha hd hg
    obtain ⟨i, rfl, ⟨h1, h2⟩, h3⟩ := one ha
    rw [hg] at he
    have := (mapOver_get he).1
    refine ⟨by omega, ?_⟩
    rw [this]
    exact h2.trans hd.2
  cases p with
  | add =>
    rcases atoms with _ | ⟨a, _ | ⟨b, _ | ⟨c, l⟩⟩⟩ <;> rcases outvars with _ | ⟨o, _ | ⟨o', lo⟩⟩ <;> try exact absurd hop id
    cases hf
    obtain ⟨i, j, rfl, h1, h2⟩ := two rfl
    have := add_len he
    obtain ⟨q1, q2⟩ : ct.least o ≤ max (a.least ct) (b.least ct) ∧ max (a.most ct) (b.most ct) ≤ ct.most o := hop
    obtain ⟨⟨u1, u2⟩, u3⟩ := h1
    obtain ⟨⟨w1, w2⟩, w3⟩ := h2
    exact ⟨o, rfl, by omega, most_max u2 w2 q2 (by omega)⟩
  | sub =>
    rcases atoms with _ | ⟨a, _ | ⟨b, _ | ⟨c, l⟩⟩⟩ <;> rcases outvars with _ | ⟨o, _ | ⟨o', lo⟩⟩ <;> try exact absurd hop id
    cases hf
    obtain ⟨i, j, rfl, h1, h2⟩ := two rfl
    simp only [TEA.subtract, py_bind_ok] at he
    obtain ⟨nb, hnb, he⟩ := he
    have := add_len he
    have := negative_len hnb
    obtain ⟨q1, q2⟩ : ct.least o ≤ max (a.least ct) (b.least ct) ∧ max (a.most ct) (b.most ct) ≤ ct.most o := hop
    obtain ⟨⟨u1, u2⟩, u3⟩ := h1
    obtain ⟨⟨w1, w2⟩, w3⟩ := h2
    exact ⟨o, rfl, by omega, most_max u2 w2 q2 (by omega)⟩
  | mul =>
    rcases atoms with _ | ⟨a, _ | ⟨b, _ | ⟨c, l⟩⟩⟩ <;> rcases outvars with _ | ⟨o, _ | ⟨o', lo⟩⟩ <;> try exact absurd hop id
    cases hf
    obtain ⟨i, j, rfl, h1, h2⟩ := two rfl
    have := multiply_len he
    obtain ⟨q1, q2⟩ : ct.least o + 1 ≤ a.least ct + b.least ct ∧ a.most ct + b.most ct ≤ ct.most o + 1 := hop
    obtain ⟨⟨u1, u2⟩, u3⟩ := h1
    obtain ⟨⟨w1, w2⟩, w3⟩ := h2
    exact ⟨o, rfl, by omega, most_sum u2 w2 q2 (by omega)⟩
  | dotGeneral lc rc lb rb =>
    rcases atoms with _ | ⟨a, _ | ⟨b, _ | ⟨c, l⟩⟩⟩ <;> rcases outvars with _ | ⟨o, _ | ⟨o', lo⟩⟩ <;> try exact absurd hop id
    cases hf
    obtain ⟨i, j, rfl, h1, h2⟩ := two rfl
    have := bilinear_len he
    obtain ⟨q1, q2⟩ : ct.least o + 1 ≤ a.least ct + b.least ct ∧ a.most ct + b.most ct ≤ ct.most o + 1 := hop
    obtain ⟨⟨u1, u2⟩, u3⟩ := h1
    obtain ⟨⟨w1, w2⟩, w3⟩ := h2
    exact ⟨o, rfl, by omega, most_sum u2 w2 q2 (by omega)⟩
  | conv op =>
    rcases atoms with _ | ⟨a, _ | ⟨b, _ | ⟨c, l⟩⟩⟩ <;> rcases outvars with _ | ⟨o, _ | ⟨o', lo⟩⟩ <;> try exact absurd hop id
    cases hf
    obtain ⟨i, j, rfl, h1, h2⟩ := two rfl
    have := bilinear_len he
    obtain ⟨q1, q2⟩ : ct.least o + 1 ≤ a.least ct + b.least ct ∧ a.most ct + b.most ct ≤ ct.most o + 1 := hop
    obtain ⟨⟨u1, u2⟩, u3⟩ := h1
    obtain ⟨⟨w1, w2⟩, w3⟩ := h2
    exact ⟨o, rfl, by omega, most_sum u2 w2 q2 (by omega)⟩
  | integerPow n =>
    rcases atoms with _ | ⟨a, _ | ⟨b, _ | ⟨c, l⟩⟩⟩ <;> rcases outvars with _ | ⟨o, _ | ⟨o', lo⟩⟩ <;> exact absurd hop id
  | neg =>
    rcases atoms with _ | ⟨a, _ | ⟨b, l⟩⟩ <;> rcases outvars with _ | ⟨o, _ | ⟨o', lo⟩⟩ <;> try exact absurd hop id
    cases hf
    obtain ⟨i, rfl, h1⟩ := one rfl
    have := negative_len he
    obtain ⟨q1, q2⟩ : ct.least o ≤ a.least ct ∧ a.most ct ≤ ct.most o := hop
    obtain ⟨⟨u1, u2⟩, u3⟩ := h1
    exact ⟨o, rfl, by omega, (Nat.cast_le.2 (by omega)).trans (u2.trans q2)⟩
  | elementwise name =>
    rcases atoms with _ | ⟨a, _ | ⟨b, _ | ⟨c, l⟩⟩⟩ <;> rcases outvars with _ | ⟨o, _ | ⟨o', lo⟩⟩ <;> exact absurd hop id
  | broadcastInDim shape dims =>
    rcases atoms with _ | ⟨a, _ | ⟨b, l⟩⟩ <;> rcases outvars with _ | ⟨o, _ | ⟨o', lo⟩⟩ <;> try exact absurd hop id
    cases hf
    obtain ⟨i, rfl, h1⟩ := one rfl
    simp only [broadcastInDimPush, py_bind_ok] at he
    obtain ⟨_, -, hg⟩ := he
    have hl := (Poly.mapM_ok hg).length_eq
    rw [Poly.enum_length] at hl
    obtain ⟨q1, q2⟩ : ct.least o ≤ a.least ct ∧ a.most ct ≤ ct.most o := hop
    obtain ⟨⟨u1, u2⟩, u3⟩ := h1
    exact ⟨o, rfl, by omega, (Nat.cast_le.2 (by omega)).trans (u2.trans q2)⟩
  | pow =>
    rcases atoms with _ | ⟨a, _ | ⟨b, _ | ⟨c, l⟩⟩⟩ <;> rcases outvars with _ | ⟨o, _ | ⟨o', lo⟩⟩ <;> exact absurd hop id
  | div =>
    rcases atoms with _ | ⟨a, _ | ⟨b, _ | ⟨c, l⟩⟩⟩ <;> rcases outvars with _ | ⟨o, _ | ⟨o', lo⟩⟩ <;> exact absurd hop id
  | other name impl =>
    rcases atoms with _ | ⟨a, _ | ⟨b, _ | ⟨c, l⟩⟩⟩ <;> rcases outvars with _ | ⟨o, _ | ⟨o', lo⟩⟩ <;> exact absurd hop id
  | convertElementType _ =>
    rcases atoms with _ | ⟨a, _ | ⟨b, l⟩⟩ <;> rcases outvars with _ | ⟨o, _ | ⟨o', lo⟩⟩ <;> try exact absurd hop id
    cases hf
    exact ⟨o, rfl, lin rfl hop fun _ => rfl⟩
  | reshape s =>
    rcases atoms with _ | ⟨a, _ | ⟨b, l⟩⟩ <;> rcases outvars with _ | ⟨o, _ | ⟨o', lo⟩⟩ <;> try exact absurd hop id
    cases hf
    exact ⟨o, rfl, lin rfl hop fun _ => rfl⟩
  | reduceSum s =>
    rcases atoms with _ | ⟨a, _ | ⟨b, l⟩⟩ <;> rcases outvars with _ | ⟨o, _ | ⟨o', lo⟩⟩ <;> try exact absurd hop id
    cases hf
    exact ⟨o, rfl, lin rfl hop fun _ => rfl⟩
  | reduceWindowSum s =>
    rcases atoms with _ | ⟨a, _ | ⟨b, l⟩⟩ <;> rcases outvars with _ | ⟨o, _ | ⟨o', lo⟩⟩ <;> try exact absurd hop id
    cases hf
    exact ⟨o, rfl, lin rfl hop fun _ => rfl⟩
  | squeeze s =>
    rcases atoms with _ | ⟨a, _ | ⟨b, l⟩⟩ <;> rcases outvars with _ | ⟨o, _ | ⟨o', lo⟩⟩ <;> try exact absurd hop id
    cases hf
    exact ⟨o, rfl, lin rfl hop fun _ => rfl⟩
  | transpose s =>
    rcases atoms with _ | ⟨a, _ | ⟨b, l⟩⟩ <;> rcases outvars with _ | ⟨o, _ | ⟨o', lo⟩⟩ <;> try exact absurd hop id
    cases hf
    exact ⟨o, rfl, lin rfl hop fun _ => rfl⟩
  | jit s =>
    rcases atoms with _ | ⟨a, _ | ⟨b, l⟩⟩ <;> rcases outvars with _ | ⟨o, _ | ⟨o', lo⟩⟩ <;> try exact absurd hop id
    cases hf
    exact ⟨o, rfl, lin rfl hop fun _ => rfl⟩

/-- If all arguments of an equation have one coefficient, one coefficient is right for its results. -/
theorem const_counts {eqn : Eqn K} (hq : CountEqn ct eqn) {ins : List (Inter K)}
    (hins : List.Forall₂ (fun a i => CountOk ct md a i ∧ i.encl.length = 1) eqn.invars ins) :
    ∀ o ∈ eqn.outvars, min (ct.least o) (md + 1) ≤ 1 ∧ 1 ≤ ct.most o := by
  intro o ho
  rcases hq with hq | hop
  · exact ⟨(min_le_left _ _).trans (hq o ho).1, by rw [(hq o ho).2]; exact le_top⟩
  obtain ⟨p, atoms, outvars⟩ := eqn
  have one : ∀ {a : Atom K}, a ∈ atoms → min (a.least ct) (md + 1) ≤ 1 ∧ ((1 : ℕ) : ℕ∞) ≤ a.most ct := by
    intro a ha
    obtain ⟨k, hk⟩ := List.mem_iff_getElem?.1 ha
    obtain ⟨i, hi, h1, h2⟩ := (Poly.forall₂_getElem? hins k).2 a hk
    exact ⟨h2 ▸ h1.1, h2 ▸ h1.2⟩
  cases p <;> rcases atoms with _ | ⟨a, _ | ⟨b, _ | ⟨c, l⟩⟩⟩ <;> rcases outvars with _ | ⟨o', _ | ⟨o'', lo⟩⟩ <;>
    first
      | exact absurd hop id
      | skip
  all_goals
    obtain rfl : o = o' := by simpa using ho
    simp only [CountOp] at hop
    obtain ⟨q1, q2⟩ := hop
    obtain ⟨a1, a2⟩ := one (a := a) (by simp)
  all_goals
    first
      | exact ⟨by omega, (by simpa using a2 : (1 : ℕ∞) ≤ a.most ct).trans q2⟩
      | (obtain ⟨b1, b2⟩ := one (a := b) (by simp)
         refine ⟨by omega, ?_⟩
         first
           | exact_mod_cast most_max a2 b2 q2 (e := 1) (by omega)
           | exact_mod_cast most_sum a2 b2 q2 (e := 1) (by omega))

/-- what holds of all stored variables before and of all new ones holds afterwards -/
theorem stores_pred {P : ℤ → Inter K → Prop} {xs : List ℕ} {env env' : Env K} {l : List (ℤ × Inter K)}
    (h : ∀ v i, env.lookup v = some i → P v i) (hl : ∀ x ∈ l, x.1 ≠ -1 → P x.1 x.2)
    (hs : l.foldlM (storeOne xs) env = .ok env') : ∀ v i, env'.lookup v = some i → P v i := by
  induction l generalizing env with
  | nil => cases hs; exact h
  | cons x l ih =>
    rw [List.foldlM_cons, py_bind_ok] at hs
    obtain ⟨env1, h1, hs⟩ := hs
    refine ih ?_ (fun y hy => hl y (List.mem_cons_of_mem _ hy)) hs
    unfold storeOne at h1
    by_cases hx1 : x.1 = -1
    · rw [if_pos hx1] at h1; cases h1; exact h
    · rw [if_neg hx1] at h1
      split_ifs at h1
      simp only [py_bind_ok, py_pure] at h1
      obtain ⟨_, _, rfl⟩ := h1
      intro w j hj
      rw [List.lookup_cons] at hj
      by_cases hw : (w == x.1) = true
      · rw [hw] at hj
        cases hj
        have : w = x.1 := by simpa using hw
        rw [this]
        exact hl x (by simp) hx1
      · have hw : (w == x.1) = false := by simpa using hw
        rw [hw] at hj
        exact h w j hj

theorem mem_of_lookup {α : Type} {l : List (ℤ × α)} {v : ℤ} {a : α} (h : l.lookup v = some a) : (v, a) ∈ l := by
  induction l with
  | nil => cases h
  | cons x l ih =>
    obtain ⟨w, b⟩ := x
    rw [List.lookup_cons] at h
    by_cases hw : (v == w) = true
    · rw [hw] at h
      cases h
      rw [beq_iff_eq.1 hw]
      exact List.mem_cons_self ..
    · have hw : (v == w) = false := by simpa using hw
      rw [hw] at h
      exact List.mem_cons_of_mem _ (ih h)

end JB
end AB
