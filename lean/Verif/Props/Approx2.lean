/-
C58, continued: the tables of extrema that list extrema which are not global (sigmoid of degree 4, softplus of degree 5,
swish of degree 3) or do not list all extrema (swish of degree 4)
(/repo/autobound/elementwise_functions.py:203-259, 324-356).
-/
import Verif.Props.Approx
import Verif.Proofs.Approx2
import Verif.Proofs.ApproxTables2

set_option linter.unusedSectionVars false

namespace AB
open PE EF Set

/-- `mi` and `ma` list the points where `f` turns from decreasing to increasing and from increasing to decreasing, every
one up to `ε`. -/
def ListsExtrema (f : ℝ → ℝ) (mi ma : List ℝ) (ε : ℝ) : Prop :=
  ∃ mi' ma', ExtremaOf f mi' ma' ∧ List.Forall₂ (fun x y => |x - y| ≤ ε) mi mi' ∧
    List.Forall₂ (fun x y => |x - y| ≤ ε) ma ma'

/-- A region that reaches the outer extremum `o` on one side does not end between 0 and the inner extremum `i` on the
other side. -/
def SeesInner (i o a b : ℝ) : Prop := (b < o ∨ a ≤ -i ∨ 0 ≤ a) ∧ (-o < a ∨ i ≤ b ∨ b ≤ 0)

/-- The table lists the extrema of the `k`-th derivative up to a deformation `φ` of the line. -/
structure BentTable (n : FName) (k : ℕ) (mi ma : List ℝ) (i o : ℝ) (φ : ℝ → ℝ) : Prop where
  sup : supportedOrder n k
  smooth : smoothDomain n = univ
  data : getFunctionData ⟨n, k⟩ = .ok ⟨mi, ma, false, false, false⟩
  three : 3 ≤ k
  deriv : ∃ f' : ℝ → ℝ, (∀ x, HasDerivAt (derivFun n k) (f' x) x) ∧ ∀ x, |f' x| ≤ 3
  mono : StrictMono φ
  cont : Continuous φ
  near : ∀ x, |φ x - x| ≤ 9 / 10 ^ 13
  listed : ∀ e ∈ mi ++ ma, |φ e - e| ≤ 3 / 10 ^ 13
  ext : ExtremaOf (derivFun n k) (mi.map φ) (ma.map φ)
  ne : mi ++ ma ≠ []
  min : ∀ a b, SeesInner i o a b → ∀ m ∈ mi, a ≤ m → m ≤ b →
    ∃ m' ∈ mi, a ≤ m' ∧ m' ≤ b ∧ ∀ x ∈ Icc a b, derivFun n k (φ m') ≤ derivFun n k (φ x)
  max : ∀ a b, SeesInner i o a b → ∀ m ∈ ma, a ≤ m → m ≤ b →
    ∃ m' ∈ ma, a ≤ m' ∧ m' ≤ b ∧ ∀ x ∈ Icc a b, derivFun n k (φ x) ≤ derivFun n k (φ m')

theorem iteratedDeriv_eq_derivFun {n : FName} {k : ℕ} (h : supportedOrder n k) (hs : smoothDomain n = univ) :
    iteratedDeriv k (mathFun n) = derivFun n k := by
  funext x
  rw [← derivFun_zero]
  exact iteratedDeriv_chain (isOpen_smoothDomain n) (fun i hi x hx =>
    hasDerivAt_derivFun (supportedOrder_mono h hi) hx) k le_rfl x (by rw [hs]; trivial)

theorem map_forall₂ {φ : ℝ → ℝ} {ε : ℝ} : ∀ {l : List ℝ}, (∀ e ∈ l, |φ e - e| ≤ ε) →
    List.Forall₂ (fun x y => |x - y| ≤ ε) l (l.map φ)
  | [], _ => .nil
  | e :: l, h => .cons (by rw [abs_sub_comm]; exact h e (by simp)) (map_forall₂ fun e' he => h e' (by simp [he]))

namespace BentTable
variable {n : FName} {k : ℕ} {mi ma : List ℝ} {i o : ℝ} {φ : ℝ → ℝ}

theorem lists (h : BentTable n k mi ma i o φ) : ListsExtrema (iteratedDeriv k (mathFun n)) mi ma (3 / 10 ^ 13) := by
  rw [iteratedDeriv_eq_derivFun h.sup h.smooth]
  exact ⟨_, _, h.ext, map_forall₂ fun e he => h.listed e (by simp [he]), map_forall₂ fun e he => h.listed e (by simp [he])⟩

theorem approx (h : BentTable n k mi ma i o φ) {x0 a b : ℝ} (hx0 : x0 ∈ Icc a b) (ha : NotCapped x0 k a)
    (hb : NotCapped x0 k b) (hs : SeesInner i o a b) : BuiltinApprox n k x0 a b (1 / 10 ^ 12) := by
  obtain ⟨f', hdf, hL⟩ := h.deriv
  have hc : Continuous (derivFun n k) := continuous_iff_continuousAt.2 fun x => (hdf x).continuousAt
  have key := builtin_of_nearby' h.sup h.data hx0 (by rw [h.smooth]; exact subset_univ _) ha hb (by simp)
    (g := fun x => derivFun n k (φ x))
    (hc.comp h.cont) (η := 27 / 10 ^ 13) (fun x _ => by
      refine (near_of_deriv hdf hL _ _).trans ?_
      have := h.near x
      rw [abs_sub_comm]
      linarith) (h.ext.comp h.mono) h.ne (h.min a b hs) (h.max a b hs)
  refine key.mono ?_
  have : (6 : ℝ) ≤ k.factorial := by
    have := Nat.factorial_le h.three
    exact_mod_cast this
  rw [div_le_iff₀ (by linarith)]
  linarith

theorem exact (h : BentTable n k mi ma i o φ) {a b : ℝ}
    (haway : ∀ e ∈ mi ++ ma, b ≤ e - 1 / 10 ^ 12 ∨ e + 1 / 10 ^ 12 ≤ a) (hab : a ≤ b) : TableTruthful n k a b := by
  have hnear := h.near
  have hcmp : ∀ e ∈ mi ++ ma, (b ≤ φ e ↔ b ≤ e) ∧ (φ e ≤ a ↔ e ≤ a) := by
    intro e he
    obtain ⟨n1, n2⟩ := abs_le.1 (hnear e)
    rcases haway e he with h' | h'
    · exact ⟨⟨fun _ => by linarith, fun _ => by linarith⟩, ⟨fun _ => by linarith, fun _ => by linarith⟩⟩
    · exact ⟨⟨fun _ => by linarith, fun _ => by linarith⟩, ⟨fun _ => by linarith, fun _ => by linarith⟩⟩
  have hiter := iteratedDeriv_eq_derivFun h.sup h.smooth
  obtain ⟨hdec, hinc⟩ := C28_monotone_over (d := ⟨mi.map φ, ma.map φ, false, false, false⟩)
    h.ext (by simp) (by simp) a b
  rw [monotoneOver_map h.mono hcmp] at hdec hinc
  have hno : ∀ l : List ℝ, (∀ e ∈ l, e ∈ mi ++ ma) → ∀ m ∈ l.map φ, ¬ (a ≤ m ∧ m ≤ b) := by
    intro l hl m hm hh
    obtain ⟨c, hc, rfl⟩ := List.mem_map.1 hm
    obtain ⟨n1, n2⟩ := abs_le.1 (hnear c)
    rcases haway c (hl c hc) with h' | h' <;> linarith [hh.1, hh.2]
  have hno' : ∀ e ∈ mi ++ ma, ¬ (a ≤ e ∧ e ≤ b) := by
    intro c hc hh
    rcases haway c hc with h' | h' <;> linarith [hh.1, hh.2]
  have hne : mi.map φ ++ ma.map φ ≠ [] := by
    rw [← List.map_append]
    simpa using h.ne
  refine ⟨_, _, h.data, getRange_ok h.sup h.data a b, by simp, ?_, ?_, ?_⟩
  · rw [hiter]; exact hdec
  · rw [hiter]; exact hinc
  · rw [hiter]
    intro _ _ x hx
    constructor
    · rcases minimumValue_spec (derivFun n k) a b mi with ⟨m, hm, m1, m2, -, -⟩ | ⟨-, he⟩
      · exact absurd ⟨m1, m2⟩ (hno' m (by simp [hm]))
      · simp only [he]
        rcases h.ext.min_at_ends' hne (hno mi (fun e he => by simp [he])) hx with h' | h'
        · exact (min_le_left _ _).trans h'
        · exact (min_le_right _ _).trans h'
    · rcases maximumValue_spec (derivFun n k) a b ma with ⟨m, hm, m1, m2, -, -⟩ | ⟨-, he⟩
      · exact absurd ⟨m1, m2⟩ (hno' m (by simp [hm]))
      · simp only [he]
        rcases h.ext.max_at_ends' hne (hno ma (fun e he => by simp [he])) hx with h' | h'
        · exact h'.trans (le_max_left _ _)
        · exact h'.trans (le_max_right _ _)

end BentTable

theorem see_right {g : ℝ → ℝ} {p q i o a b : ℝ} (hp : ∀ x, g p ≤ g x) (hq : ∀ x, 0 ≤ x → g q ≤ g x)
    (hpi : -i ≤ p) (hp0 : p ≤ q) (hqo : o ≤ q) (h : b < o ∨ a ≤ -i ∨ 0 ≤ a) :
    ∀ m ∈ [p, q], a ≤ m → m ≤ b → ∃ m' ∈ [p, q], a ≤ m' ∧ m' ≤ b ∧ ∀ x ∈ Icc a b, g m' ≤ g x := by
  intro m hm h1 h2
  simp only [List.mem_cons, List.not_mem_nil, or_false] at hm
  rcases hm with rfl | rfl
  · exact ⟨m, by simp, h1, h2, fun x _ => hp x⟩
  · rcases h with h | h | h
    · linarith
    · exact ⟨p, by simp, h.trans hpi, hp0.trans h2, fun x _ => hp x⟩
    · exact ⟨m, by simp, h1, h2, fun x hx => hq x (h.trans hx.1)⟩

theorem see_left {g : ℝ → ℝ} {p q i o a b : ℝ} (hp : ∀ x, g p ≤ g x) (hq : ∀ x, x ≤ 0 → g q ≤ g x)
    (hpi : p ≤ i) (hp0 : q ≤ p) (hqo : q ≤ -o) (h : -o < a ∨ i ≤ b ∨ b ≤ 0) :
    ∀ m ∈ [q, p], a ≤ m → m ≤ b → ∃ m' ∈ [q, p], a ≤ m' ∧ m' ≤ b ∧ ∀ x ∈ Icc a b, g m' ≤ g x := by
  intro m hm h1 h2
  simp only [List.mem_cons, List.not_mem_nil, or_false] at hm
  rcases hm with rfl | rfl
  · rcases h with h | h | h
    · linarith
    · exact ⟨p, by simp, h1.trans hp0, hpi.trans h, fun x _ => hp x⟩
    · exact ⟨m, by simp, h1, h2, fun x hx => hq x (hx.2.trans h)⟩
  · exact ⟨m, by simp, h1, h2, fun x _ => hp x⟩

theorem see_right_neg {g : ℝ → ℝ} {p q i o a b : ℝ} (hp : ∀ x, g x ≤ g p) (hq : ∀ x, 0 ≤ x → g x ≤ g q)
    (hpi : -i ≤ p) (hp0 : p ≤ q) (hqo : o ≤ q) (h : b < o ∨ a ≤ -i ∨ 0 ≤ a) :
    ∀ m ∈ [p, q], a ≤ m → m ≤ b → ∃ m' ∈ [p, q], a ≤ m' ∧ m' ≤ b ∧ ∀ x ∈ Icc a b, g x ≤ g m' := by
  have := see_right (g := fun x => -g x) (fun x => neg_le_neg (hp x)) (fun x h => neg_le_neg (hq x h)) hpi hp0 hqo h
  simpa using this

theorem see_left_neg {g : ℝ → ℝ} {p q i o a b : ℝ} (hp : ∀ x, g x ≤ g p) (hq : ∀ x, x ≤ 0 → g x ≤ g q)
    (hpi : p ≤ i) (hp0 : q ≤ p) (hqo : q ≤ -o) (h : -o < a ∨ i ≤ b ∨ b ≤ 0) :
    ∀ m ∈ [q, p], a ≤ m → m ≤ b → ∃ m' ∈ [q, p], a ≤ m' ∧ m' ≤ b ∧ ∀ x ∈ Icc a b, g x ≤ g m' := by
  have := see_left (g := fun x => -g x) (fun x => neg_le_neg (hp x)) (fun x h => neg_le_neg (hq x h)) hpi hp0 hqo h
  simpa using this

theorem half_four {f : ℝ → ℝ} {i o : ℝ} (hi : 0 < i) (hio : i < o) (hE : ExtremaOf f [-i, o] [-o, i]) (h0 : f 0 = 0)
    (ho : f o ≤ 0) (x : ℝ) (hx : 0 ≤ x) : f o ≤ f x := by
  rcases le_total x i with h | h
  · refine ho.trans ?_
    rw [← h0]
    refine hE.before_max i (by simp) (-i) ?_ ⟨by linarith, hi.le⟩ ⟨by linarith, h⟩ hx
    intro e he hh
    simp only [List.cons_append, List.nil_append, List.mem_cons, List.not_mem_nil, or_false] at he
    rcases he with rfl | rfl | rfl | rfl <;> linarith [hh.1, hh.2]
  · rcases le_total x o with h' | h'
    · refine hE.before_min o (by simp) i ?_ ⟨h, h'⟩ ⟨hio.le, le_rfl⟩ h'
      intro e he hh
      simp only [List.cons_append, List.nil_append, List.mem_cons, List.not_mem_nil, or_false] at he
      rcases he with rfl | rfl | rfl | rfl <;> linarith [hh.1, hh.2]
    · refine hE.after_min o (by simp) x ?_ ⟨le_rfl, h'⟩ ⟨h', le_rfl⟩ h'
      intro e he hh
      simp only [List.cons_append, List.nil_append, List.mem_cons, List.not_mem_nil, or_false] at he
      rcases he with rfl | rfl | rfl | rfl <;> linarith [hh.1, hh.2]

/-- the deformation that moves four well separated points -/
noncomputable def bend (p1 p2 p3 p4 q1 q2 q3 q4 : ℝ) : ℝ → ℝ :=
  nudge [(p1, q1 - p1), (p2, q2 - p2), (p3, q3 - p3), (p4, q4 - p4)]

section bend
variable {p1 p2 p3 p4 q1 q2 q3 q4 : ℝ} (h12 : p1 + 1 / 2 ≤ p2) (h2 : p2 ≤ -1 / 2) (h3 : 1 / 2 ≤ p3) (h34 : p3 + 1 / 2 ≤ p4)
include h12 h2 h3 h34

theorem bend_zero : bend p1 p2 p3 p4 q1 q2 q3 q4 0 = 0 := by
  simp only [bend, nudge]
  have up : ∀ {c : ℝ}, c ≤ -1 / 2 → tent c 0 = 0 := fun h => tent_far (by rw [abs_of_nonneg (by linarith)]; linarith)
  have dn : ∀ {c : ℝ}, 1 / 2 ≤ c → tent c 0 = 0 := fun h => tent_far (by rw [abs_of_nonpos (by linarith)]; linarith)
  rw [up h2, dn h3, up (by linarith : p1 ≤ -1 / 2), dn (by linarith : 1 / 2 ≤ p4)]
  ring

theorem bend_at : bend p1 p2 p3 p4 q1 q2 q3 q4 p1 = q1 ∧ bend p1 p2 p3 p4 q1 q2 q3 q4 p2 = q2 ∧
    bend p1 p2 p3 p4 q1 q2 q3 q4 p3 = q3 ∧ bend p1 p2 p3 p4 q1 q2 q3 q4 p4 = q4 := by
  have up : ∀ {c x : ℝ}, c + 1 / 2 ≤ x → tent c x = 0 := fun h => tent_far (by rw [abs_of_nonneg (by linarith)]; linarith)
  have dn : ∀ {c x : ℝ}, x + 1 / 2 ≤ c → tent c x = 0 := fun h => tent_far (by rw [abs_of_nonpos (by linarith)]; linarith)
  refine ⟨?_, ?_, ?_, ?_⟩ <;> simp only [bend, nudge, tent_self]
  · rw [dn (by linarith : p1 + 1 / 2 ≤ p2), dn (by linarith : p1 + 1 / 2 ≤ p3), dn (by linarith : p1 + 1 / 2 ≤ p4)]; ring
  · rw [up (by linarith : p1 + 1 / 2 ≤ p2), dn (by linarith : p2 + 1 / 2 ≤ p3), dn (by linarith : p2 + 1 / 2 ≤ p4)]; ring
  · rw [up (by linarith : p1 + 1 / 2 ≤ p3), up (by linarith : p2 + 1 / 2 ≤ p3), dn (by linarith : p3 + 1 / 2 ≤ p4)]; ring
  · rw [up (by linarith : p1 + 1 / 2 ≤ p4), up (by linarith : p2 + 1 / 2 ≤ p4), up (by linarith : p3 + 1 / 2 ≤ p4)]; ring

end bend

theorem bend_sum {p1 p2 p3 p4 q1 q2 q3 q4 : ℝ} :
    ([(p1, q1 - p1), (p2, q2 - p2), (p3, q3 - p3), (p4, q4 - p4)].map fun p : ℝ × ℝ => |p.2|).sum =
      |q1 - p1| + |q2 - p2| + |q3 - p3| + |q4 - p4| := by
  simp only [List.map, List.sum_cons, List.sum_nil]; ring

/-- the table of the fourth derivative of sigmoid (the fifth of softplus) -/
theorem bent_sig {n : FName} {k : ℕ} (hn : (n = .sigmoid ∧ k = 4) ∨ (n = .softplus ∧ k = 5)) :
    ∃ φ, BentTable n k [-0.8426329481295408, 3.1443184061547065] [-3.144318406154709, 0.8426329481295388] 0.8427 3.1443 φ := by
  obtain ⟨i, hi, o, ho, g1, g2, g3⟩ := sig4_shape
  have hsup : supportedOrder n k := by rcases hn with ⟨rfl, rfl⟩ | ⟨rfl, rfl⟩ <;> simp [supportedOrder]
  have hsm : smoothDomain n = univ := by rcases hn with ⟨rfl, rfl⟩ | ⟨rfl, rfl⟩ <;> rfl
  have hf : derivFun n k = sigD 4 := by rcases hn with ⟨rfl, rfl⟩ | ⟨rfl, rfl⟩ <;> rfl
  have hodd : ∀ x, sigD 4 (-x) = -sigD 4 x := fun x => by rw [sigD4_eq, sigD4_eq, sigD1_even, sigmoid_neg]; ring
  have h0 : sigD 4 0 = 0 := by
    have := hodd 0
    rw [neg_zero] at this
    linarith
  have hso : sigD 4 o ≤ 0 := by
    have t1 : 0.9 ≤ 2 * sigmoid o - 1 :=
      le_trans (by norm_num) ((th_ge exp_sig4oA.1 (by norm_num)).trans (th_mono ho.1))
    rw [sigD4_eq]
    refine mul_nonpos_of_nonpos_of_nonneg (mul_nonpos_of_nonneg_of_nonpos (sigD1_pos o).le (by linarith)) ?_
    rw [th_sq]
    nlinarith
  obtain ⟨i1, i2⟩ := hi
  obtain ⟨o1, o2⟩ := ho
  have half := half_four (by linarith) (by linarith) g1 h0 hso
  have half' : ∀ x, x ≤ 0 → sigD 4 x ≤ sigD 4 (-o) := by
    intro x hx
    have := half (-x) (by linarith)
    rw [hodd] at this
    rw [hodd]
    linarith
  have d1 : |-o - (-3.144318406154709)| ≤ 24 / 10 ^ 14 := abs_le.2 ⟨by linarith, by linarith⟩
  have d2 : |-i - (-0.8426329481295408)| ≤ 18 / 10 ^ 14 := abs_le.2 ⟨by linarith, by linarith⟩
  have d3 : |i - 0.8426329481295388| ≤ 18 / 10 ^ 14 := abs_le.2 ⟨by linarith, by linarith⟩
  have d4 : |o - 3.1443184061547065| ≤ 24 / 10 ^ 14 := abs_le.2 ⟨by linarith, by linarith⟩
  obtain ⟨e1, e2, e3, e4⟩ := bend_at (p1 := -3.144318406154709) (p2 := -0.8426329481295408) (p3 := 0.8426329481295388)
    (p4 := 3.1443184061547065) (q1 := -o) (q2 := -i) (q3 := i) (q4 := o) (by norm_num) (by norm_num) (by norm_num) (by norm_num)
  have e0 := bend_zero (p1 := -3.144318406154709) (p2 := -0.8426329481295408) (p3 := 0.8426329481295388)
    (p4 := 3.1443184061547065) (q1 := -o) (q2 := -i) (q3 := i) (q4 := o) (by norm_num) (by norm_num) (by norm_num) (by norm_num)
  have hmono : StrictMono (bend (-3.144318406154709) (-0.8426329481295408) 0.8426329481295388 3.1443184061547065 (-o) (-i) i o) :=
    nudge_strictMono (by rw [bend_sum]; linarith)
  have hnear : ∀ x, |bend (-3.144318406154709) (-0.8426329481295408) 0.8426329481295388 3.1443184061547065 (-o) (-i) i o x - x|
      ≤ 9 / 10 ^ 13 := fun x => (nudge_near _ x).trans (by rw [bend_sum]; linarith)
  have hcont : Continuous (bend (-3.144318406154709) (-0.8426329481295408) 0.8426329481295388 3.1443184061547065 (-o) (-i) i o) :=
    nudge_continuous _
  generalize bend (-3.144318406154709) (-0.8426329481295408) 0.8426329481295388 3.1443184061547065 (-o) (-i) i o = φ at *
  refine ⟨φ, hsup, hsm, by rcases hn with ⟨rfl, rfl⟩ | ⟨rfl, rfl⟩ <;> rfl, by omega,
    ⟨sigD5, fun x => by rw [hf]; exact hasDerivAt_sigD4 x, fun x => (abs_sigD5 x).trans (by norm_num)⟩, hmono, hcont, hnear, ?_,
    ?_, by simp, ?_, ?_⟩
  · intro e he
    simp only [List.cons_append, List.nil_append, List.mem_cons, List.not_mem_nil, or_false] at he
    rcases he with rfl | rfl | rfl | rfl
    · rw [e2]; linarith
    · rw [e4]; linarith
    · rw [e1]; linarith
    · rw [e3]; linarith
  · rw [hf]
    simp only [List.map, e1, e2, e3, e4]
    exact g1
  · intro a b hs
    rw [hf]
    refine see_right (g := fun x => sigD 4 (φ x)) (fun x => ?_) (fun x hx => ?_) (by norm_num) (by norm_num) (by norm_num) hs.1
    · simp only [e2]; exact g2 _
    · simp only [e4]; exact half _ (e0 ▸ hmono.monotone hx)
  · intro a b hs
    rw [hf]
    refine see_left_neg (g := fun x => sigD 4 (φ x)) (fun x => ?_) (fun x hx => ?_) (by norm_num) (by norm_num) (by norm_num) hs.2
    · simp only [e3]; exact g3 _
    · simp only [e1]; exact half' _ (e0 ▸ hmono.monotone hx)

/-- the table of the third derivative of swish -/
theorem bent_swish3 : ∃ φ, BentTable .swish 3 [-4.429235100557346, 1.0319582417807385]
    [-1.0319582417807402, 4.429235100557342] 1.032 4.4292 φ := by
  obtain ⟨i, hi, o, ho, g1, g2, g3⟩ := sw3_shape
  have hf : derivFun .swish 3 = swishD 3 := rfl
  have hodd : ∀ x, swishD 3 (-x) = -swishD 3 x := fun x => by
    simp only [swishD3_eq, sigD1_even, sigmoid_neg]; ring
  have h0 : swishD 3 0 = 0 := by
    have := hodd 0
    rw [neg_zero] at this
    linarith
  have hso : 0 ≤ swishD 3 o := by
    have t1 : 0.95 ≤ 2 * sigmoid o - 1 :=
      le_trans (by norm_num) ((th_ge exp_sw3oA.1 (by norm_num)).trans (th_mono ho.1))
    have t2 := th_lt o
    rw [swishD3_eq]
    refine mul_nonneg (div_nonneg (sigD1_pos o).le (by norm_num)) ?_
    obtain ⟨o1, o2⟩ := ho
    generalize 2 * sigmoid o - 1 = t at *
    have : 1.7 ≤ 3 * t ^ 2 - 1 := by nlinarith
    nlinarith
  obtain ⟨i1, i2⟩ := hi
  obtain ⟨o1, o2⟩ := ho
  have gn := g1.neg
  have half : ∀ x, 0 ≤ x → swishD 3 x ≤ swishD 3 o := fun x hx => by
    have := half_four (f := fun x => -swishD 3 x) (by linarith) (by linarith) gn (by simp [h0]) (by simpa using hso) x hx
    simpa using this
  have half' : ∀ x, x ≤ 0 → swishD 3 (-o) ≤ swishD 3 x := by
    intro x hx
    have := half (-x) (by linarith)
    rw [hodd] at this
    rw [hodd]
    linarith
  have d1 : |-o - (-4.429235100557346)| ≤ 13 / 10 ^ 14 := abs_le.2 ⟨by linarith, by linarith⟩
  have d2 : |-i - (-1.0319582417807402)| ≤ 2 / 10 ^ 14 := abs_le.2 ⟨by linarith, by linarith⟩
  have d3 : |i - 1.0319582417807385| ≤ 2 / 10 ^ 14 := abs_le.2 ⟨by linarith, by linarith⟩
  have d4 : |o - 4.429235100557342| ≤ 13 / 10 ^ 14 := abs_le.2 ⟨by linarith, by linarith⟩
  obtain ⟨e1, e2, e3, e4⟩ := bend_at (p1 := -4.429235100557346) (p2 := -1.0319582417807402) (p3 := 1.0319582417807385)
    (p4 := 4.429235100557342) (q1 := -o) (q2 := -i) (q3 := i) (q4 := o) (by norm_num) (by norm_num) (by norm_num) (by norm_num)
  have e0 := bend_zero (p1 := -4.429235100557346) (p2 := -1.0319582417807402) (p3 := 1.0319582417807385)
    (p4 := 4.429235100557342) (q1 := -o) (q2 := -i) (q3 := i) (q4 := o) (by norm_num) (by norm_num) (by norm_num) (by norm_num)
  have hmono : StrictMono (bend (-4.429235100557346) (-1.0319582417807402) 1.0319582417807385 4.429235100557342 (-o) (-i) i o) :=
    nudge_strictMono (by rw [bend_sum]; linarith)
  have hnear : ∀ x, |bend (-4.429235100557346) (-1.0319582417807402) 1.0319582417807385 4.429235100557342 (-o) (-i) i o x - x|
      ≤ 9 / 10 ^ 13 := fun x => (nudge_near _ x).trans (by rw [bend_sum]; linarith)
  have hcont : Continuous (bend (-4.429235100557346) (-1.0319582417807402) 1.0319582417807385 4.429235100557342 (-o) (-i) i o) :=
    nudge_continuous _
  generalize bend (-4.429235100557346) (-1.0319582417807402) 1.0319582417807385 4.429235100557342 (-o) (-i) i o = φ at *
  refine ⟨φ, by simp [supportedOrder], rfl, rfl, le_rfl,
    ⟨swishD 4, fun x => hasDerivAt_swishD (k := 3) (by norm_num) x, abs_swishD4⟩, hmono, hcont, hnear, ?_, ?_, by simp, ?_, ?_⟩
  · intro e he
    simp only [List.cons_append, List.nil_append, List.mem_cons, List.not_mem_nil, or_false] at he
    rcases he with rfl | rfl | rfl | rfl
    · rw [e1]; linarith
    · rw [e3]; linarith
    · rw [e2]; linarith
    · rw [e4]; linarith
  · rw [hf]
    simp only [List.map, e1, e2, e3, e4]
    exact g1
  · intro a b hs
    rw [hf]
    refine see_left (g := fun x => swishD 3 (φ x)) (fun x => ?_) (fun x hx => ?_) (by norm_num) (by norm_num) (by norm_num) hs.2
    · simp only [e3]; exact g2 _
    · simp only [e1]; exact half' _ (e0 ▸ hmono.monotone hx)
  · intro a b hs
    rw [hf]
    refine see_right_neg (g := fun x => swishD 3 (φ x)) (fun x => ?_) (fun x hx => ?_) (by norm_num) (by norm_num) (by norm_num) hs.1
    · simp only [e2]; exact g3 _
    · simp only [e4]; exact half _ (e0 ▸ hmono.monotone hx)

/-- The functions and degrees whose tables list all extrema, rounded, two of them global and two of them not; `i` and `o`
bound the inner and the outer extrema. -/
def LocalTable (n : FName) (k : ℕ) (i o : ℝ) : Prop :=
  (((n = .sigmoid ∧ k = 4) ∨ (n = .softplus ∧ k = 5)) ∧ i = 0.8427 ∧ o = 3.1443) ∨
    (n = .swish ∧ k = 3 ∧ i = 1.032 ∧ o = 4.4292)

theorem bent_table {n : FName} {k : ℕ} {i o : ℝ} (h : LocalTable n k i o) : ∃ mi ma φ, BentTable n k mi ma i o φ := by
  rcases h with ⟨h, rfl, rfl⟩ | ⟨rfl, rfl, rfl, rfl⟩
  · exact ⟨_, _, bent_sig h⟩
  · exact ⟨_, _, bent_swish3⟩

/-- **C58 (the tables).** Every number listed in these tables is within `3e-13` of a point where the derivative turns, in
the direction the table says, and the derivative turns nowhere else. -/
theorem C58_listed {n : FName} {k : ℕ} (h : RoundedTable n k ∨ ∃ i o, LocalTable n k i o) :
    ∃ d, getFunctionData ⟨n, k⟩ = .ok d ∧
      ListsExtrema (iteratedDeriv k (mathFun n)) d.localMinima d.localMaxima (3 / 10 ^ 13) := by
  rcases h with h | ⟨i, o, h⟩
  · obtain ⟨mi, ma, d1, d2, h⟩ := near_table h
    refine ⟨_, h.data, ?_⟩
    rw [iteratedDeriv_eq_derivFun h.sup h.smooth]
    have near : ∀ e, |shift d1 d2 e - e| ≤ 3 / 10 ^ 13 := fun e => (shift_near h.left h.right e).trans (by norm_num)
    exact ⟨_, _, h.ext, map_forall₂ fun e _ => near e, map_forall₂ fun e _ => near e⟩
  · obtain ⟨mi, ma, φ, h⟩ := bent_table h
    exact ⟨_, h.data, h.lists⟩

/-- **C58 (sigmoid of degree 4, softplus of degree 5, swish of degree 3).** The enclosure is right up to `1e-12` in the
final coefficient on every trust region that does not reach an outer extremum on one side while ending between 0 and the inner
extremum on the other side. (`C33_sigmoid4_counterexample` and `C33_swish3_counterexample` are about such regions.) -/
theorem C58_local_tables {n : FName} {k : ℕ} {i o : ℝ} (h : LocalTable n k i o) {x0 a b : ℝ} (hx0 : x0 ∈ Icc a b)
    (ha : NotCapped x0 k a) (hb : NotCapped x0 k b) (hs : SeesInner i o a b) : BuiltinApprox n k x0 a b (1 / 10 ^ 12) := by
  obtain ⟨mi, ma, φ, h⟩ := bent_table h
  exact h.approx hx0 ha hb hs

/-- **C58 (the same, away from the listed extrema).** If no listed extremum is within `1e-12` of the region, the enclosure
encloses the function. -/
theorem C58_local_away_sound {n : FName} {k : ℕ} {i o : ℝ} (h : LocalTable n k i o) {x0 a b : ℝ} (hx0 : x0 ∈ Icc a b)
    (ha : NotCapped x0 k a) (hb : NotCapped x0 k b)
    (haway : ∀ d, getFunctionData ⟨n, k⟩ = .ok d → ∀ e ∈ d.localMinima ++ d.localMaxima,
      b ≤ e - 1 / 10 ^ 12 ∨ e + 1 / 10 ^ 12 ≤ a) : BuiltinSound n k x0 a b := by
  obtain ⟨mi, ma, φ, h⟩ := bent_table h
  exact builtin_of_truthful hx0 (by rw [h.smooth]; exact subset_univ _) ha hb (h.exact (haway _ h.data) (hx0.1.trans hx0.2))

/-- **C58 (swish of degree 4).** The table of the fourth derivative of swish is complete on `[-5, 5]`: the enclosure is right
up to `1e-12` on every trust region there. (`C33_swish4_counterexample` is about a region beyond 5.) -/
theorem C58_swish4 {x0 a b : ℝ} (hx0 : x0 ∈ Icc a b) (h5 : -5 ≤ a) (h5' : b ≤ 5)
    (ha : NotCapped x0 4 a) (hb : NotCapped x0 4 b) : BuiltinApprox .swish 4 x0 a b (1 / 10 ^ 12) := by
  obtain ⟨e, ⟨b1, b2⟩, m1, m2, g0⟩ := sw4_shape
  have hf : derivFun .swish 4 = swishD 4 := rfl
  have heven : ∀ x, swishD 4 (-x) = swishD 4 x := fun x => by
    rw [swishD4_eq, swishD4_eq, sigD1_even, sw4h, sw4h, sigmoid_neg]; ring
  -- the derivative, constant beyond 5
  let f : ℝ → ℝ := fun x => swishD 4 (min 5 (max (-5) x))
  have hin : ∀ x : ℝ, -5 ≤ x → x ≤ 5 → min 5 (max (-5) x) = x := fun x h h' => by
    rw [max_eq_right h, min_eq_right h']
  have hcl : ∀ x, |min 5 (max (-5) x)| ≤ (5 : ℝ) := fun x => abs_le.2
    ⟨le_min (by norm_num) (le_max_left _ _), min_le_left _ _⟩
  have fev : ∀ x, f (-x) = f x := by
    intro x
    show swishD 4 _ = swishD 4 _
    rw [← heven (min 5 (max (-5) x))]
    congr 1
    rcases le_total x (-5) with h | h
    · rw [max_eq_left h, max_eq_right (by linarith : (-5 : ℝ) ≤ -x), min_eq_left (by linarith : (5 : ℝ) ≤ -x)]; norm_num
    · rcases le_total x 5 with h' | h'
      · rw [hin x h h', hin (-x) (by linarith) (by linarith)]
      · rw [max_eq_left (by linarith : -x ≤ (-5 : ℝ)), max_eq_right h, min_eq_left h']; norm_num
  have f0 : f 0 = swishD 4 0 := by show swishD 4 _ = _; rw [hin 0 (by norm_num) (by norm_num)]
  obtain ⟨g1, g2, g3⟩ := even_shape (f := f) (e := e) (by linarith) fev
    (fun x => by rw [f0]; exact g0 _ (hcl x))
    (by
      intro x hx y hy hxy
      show swishD 4 _ ≤ swishD 4 _
      rw [hin x (by linarith [hx.1]) (by linarith [hx.2]), hin y (by linarith [hy.1]) (by linarith [hy.2])]
      exact m1 hx hy hxy)
    (by
      intro x hx y hy hxy
      have hx' : e ≤ x := hx
      have hy' : e ≤ y := hy
      show swishD 4 _ ≤ swishD 4 _
      rw [max_eq_right (by linarith : (-5 : ℝ) ≤ x), max_eq_right (by linarith : (-5 : ℝ) ≤ y)]
      exact m2 ⟨le_min (by linarith) hx', min_le_left _ _⟩ ⟨le_min (by linarith) hy', min_le_left _ _⟩
        (min_le_min_left _ hxy))
  have d1 : |-e - -1.8197756117249821| ≤ 4 / 10 ^ 14 := abs_le.2 ⟨by linarith, by linarith⟩
  have d2 : |e - 1.8197756117249804| ≤ 4 / 10 ^ 14 := abs_le.2 ⟨by linarith, by linarith⟩
  have s1 : shift (-e - -1.8197756117249821) (e - 1.8197756117249804) 1.8197756117249804 = e := by
    rw [shift_right (by norm_num)]; ring
  have s2 : shift (-e - -1.8197756117249821) (e - 1.8197756117249804) (-1.8197756117249821) = -e := by
    rw [shift_left (by norm_num)]; ring
  have s0 := shift_zero (-e - -1.8197756117249821) (e - 1.8197756117249804)
  have hmono : StrictMono (shift (-e - -1.8197756117249821) (e - 1.8197756117249804)) :=
    shift_strictMono (lt_of_le_of_lt d1 (by norm_num)) (lt_of_le_of_lt d2 (by norm_num))
  have hnear := shift_near d1 d2
  have hcont := shift_continuous (-e - -1.8197756117249821) (e - 1.8197756117249804)
  generalize shift (-e - -1.8197756117249821) (e - 1.8197756117249804) = φ at *
  have hd4 := hasDerivAt_swishD4'
  have hc : Continuous (swishD 4) := continuous_iff_continuousAt.2 fun x => (hd4 x).continuousAt
  have key := builtin_of_nearby (n := .swish) (k := 4) (by simp [supportedOrder]) (mi := [0])
    (ma := [-1.8197756117249821, 1.8197756117249804]) rfl hx0 (fun _ _ => trivial) ha hb (by simp)
    (g := fun x => f (φ x)) (hc.comp (by fun_prop)) (η := 16 / 10 ^ 14) (fun x hx => by
      have hx1 : -5 ≤ x := h5.trans hx.1
      have hx2 : x ≤ 5 := hx.2.trans h5'
      refine (near_of_deriv hd4 abs_sw5 _ _).trans ?_
      have h1 := abs_min_sub_min_le_max 5 (max (-5) x) 5 (max (-5) (φ x))
      have h2 := abs_max_sub_max_le_max (-5) x (-5) (φ x)
      have h3 := hnear x
      rw [abs_sub_comm] at h3
      simp only [sub_self, abs_zero, hin x hx1 hx2] at h1 h2
      rw [max_eq_right (abs_nonneg (max (-5) x - max (-5) (φ x)))] at h1
      rw [max_eq_right (abs_nonneg (x - φ x))] at h2
      linarith) (ExtremaOf.comp hmono (by simpa only [List.map, s0, s1, s2] using g1)) (by simp)
    (by
      intro m hm x
      simp only [List.mem_cons, List.not_mem_nil, or_false] at hm
      subst hm
      simp only [s0]
      exact g2 _)
    (by
      intro m hm x
      simp only [List.mem_cons, List.not_mem_nil, or_false] at hm
      rcases hm with rfl | rfl
      · simp only [s2, fev]; exact g3 _
      · simp only [s1]; exact g3 _)
  refine key.mono ?_
  norm_num [Nat.factorial]

/-- C58 for sigmoid of degree 4 on the region `[-4, 4]` about 0, which contains all four listed extrema, -/
example : BuiltinApprox .sigmoid 4 0 (-4) 4 (1 / 10 ^ 12) :=
  C58_local_tables (Or.inl ⟨Or.inl ⟨rfl, rfl⟩, rfl, rfl⟩) (by norm_num) (Or.inr (by norm_num)) (Or.inr (by norm_num))
    ⟨Or.inr (Or.inl (by norm_num)), Or.inr (Or.inl (by norm_num))⟩

/-- for swish of degree 3 on `[-1/2, 2]` about 1, which contains one listed extremum, -/
example : BuiltinApprox .swish 3 1 (-1 / 2) 2 (1 / 10 ^ 12) :=
  C58_local_tables (Or.inr ⟨rfl, rfl, rfl, rfl⟩) (by norm_num) (Or.inr (by norm_num)) (Or.inr (by norm_num))
    ⟨Or.inl (by norm_num), Or.inl (by norm_num)⟩

/-- for swish of degree 4 on `[-2, 3]` about 1, which contains all three listed extrema, -/
example : BuiltinApprox .swish 4 1 (-2) 3 (1 / 10 ^ 12) :=
  C58_swish4 (by norm_num) (by norm_num) (by norm_num) (Or.inr (by norm_num)) (Or.inr (by norm_num))

/-- and, exactly, for swish of degree 3 on `[2, 4]` about 3, between two listed extrema -/
example : BuiltinSound .swish 3 3 2 4 := by
  refine C58_local_away_sound (Or.inr ⟨rfl, rfl, rfl, rfl⟩) (by norm_num) (Or.inr (by norm_num)) (Or.inr (by norm_num)) ?_
  intro d hd e he
  cases hd
  simp only [List.mem_append, List.mem_cons, List.not_mem_nil, or_false] at he
  rcases he with (rfl | rfl) | (rfl | rfl)
  · right; norm_num
  · right; norm_num
  · right; norm_num
  · left; norm_num

end AB
