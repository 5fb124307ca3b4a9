/-
C42–C44 with conditions on the program only: for a program that fits, every equation of every run meets
`StepOk`.
-/
import Verif.Spec.Static
import Verif.Proofs.Counts
import Verif.Props.TaylorMain3

set_option linter.unusedSectionVars false

namespace AB
namespace JB
variable {K : Type} [Field K] [LinearOrder K] [IsStrictOrderedRing K]
open TEA Lax

variable {md : ℕ} {z : ND K} {ct : Counts}

/-- all coefficients have the full shape, and inputs that do not depend on `x` have one coefficient -/
def InsExact (xs : List ℕ) (cs : List ℤ) (atoms : List (Atom K)) (ins : List (Inter K)) : Prop :=
  List.Forall₂ (fun a i => Inter.Exact xs i ∧ (Atom.constIn cs a = true → i.encl.length = 1)) atoms ins

theorem exact_of_good {i : Inter K} {v : ND K} (h : GoodEncl i.encl z v) : i.Exact z.shape := by
  have := headShape_eq h.sound
  unfold Inter.Exact
  rw [this]
  exact h.exact

theorem exact_uniform {xs R : List ℕ} {e : Encl K} (h : ExactBatch xs R e) : UniformBatch xs R.length e := by
  intro i c hc
  left
  have := h i c hc
  show c.shape.length = _
  rw [this]
  simp

theorem stepOk_of_fits {xs : List ℕ} {cs : List ℤ} {p : Prim K} {atoms : List (Atom K)} {ins : List (Inter K)}
    {args outs : List (ND K)} (hx : InsExact xs cs atoms ins)
    (hsh : List.Forall₂ (fun (i : Inter K) (v : ND K) => i.headShape = v.shape) ins args)
    (hf : EqnFits ct xs cs p atoms args outs) : StepOk xs p ins := by
  have un : ∀ i : Inter K, i.Exact xs → i.Uniform xs := fun i h => exact_uniform h
  rcases hx with _ | ⟨h1, _ | ⟨h2, _ | ⟨h3, _⟩⟩⟩
  · cases p <;> trivial
  · cases hsh with | cons s1 s2 =>
    cases s2
    cases p <;> simp only [StepOk] <;>
      first
        | trivial
        | exact h1.1
        | exact un _ h1.1
        | exact Or.inr (un _ h1.1)
        | skip
    · exact ⟨h1.1, hf⟩
    · obtain ⟨Rc, terms, k1, k2⟩ := hf
      exact ⟨h1.1, Rc, terms, s1 ▸ k1, k2⟩
  · cases hsh with | cons s1 s2 =>
    cases s2 with | cons s2 s3 =>
    cases s3
    cases p <;> simp only [StepOk] <;>
      first
        | trivial
        | exact un _ h1.1
        | exact un _ h2.1
        | skip
    · refine ⟨h1.1, h2.1, ?_⟩
      rcases hf with h | h | h
      · exact Or.inl h
      · exact Or.inr (Or.inl h)
      · exact Or.inr (Or.inr (h1.2 h))
    · obtain ⟨Rc, terms, k1, k2⟩ := hf
      exact ⟨h1.1, h2.1, Rc, terms, s1 ▸ s2 ▸ k1, k2⟩
  · cases p <;> trivial

section push
variable {lib : Lib K} {sem : Sem K} (hlib : LibSoundAt z lib sem) {T : TEA K} {lo hi : ND K}
  (hinit : TEA.init md lo hi = .ok T) (hz : (Coef.ivl lo hi).Contains z)
  (h0 : (Coef.ivl lo hi).Contains ⟨lo.shape, fun _ => 0⟩)
include hlib hinit hz h0

theorem good_push_elementwise {f : K → K} {gen : Generator K} (hg : SoundGeneratorAt z f (fun _ => True) gen)
    (hk : KeepsShape gen) {a : Inter K} {v : ND K} {e : Encl K} (ha : InterOk md z a v)
    (hx : a.Exact z.shape) (hne : ∃ I, ValidIdx v.shape I)
    (hc : T.elementwiseFun gen a.encl a.tr = .ok e) : GoodEncl e z (v.map f) := by
  obtain ⟨hmd, -, -, -⟩ := unpack hinit hz
  cases hr : a.tr with
  | none =>
    rw [hr] at hc
    exact good_elementwise hinit hz hg hk (ha.good hx) hne h0 (fun _ _ _ _ _ _ => trivial) hc
  | some r =>
    rw [hr] at hc
    obtain ⟨k1, k2, k3, k4, k5⟩ := ha.reg r hr
    refine good_elementwise_supplied hinit hz hg hk (ha.good hx) hne k1 k2 ?_ ?_ (fun _ _ _ _ => trivial) hc
    · refine ⟨by rw [k2]; exact bshape_eq_of_ble (ble_refl _), fun I hI => ?_⟩
      rw [k2, bidx_valid hI]
      exact k3 I hI
    · intro a0 x0 h1 h2 I hI
      unfold expansionPoint at h2
      cases a0 with
      | arr b => cases h2; exact k4 _ h1 I hI
      | ivl l h =>
        have := k5 l h h1
        simp only at h2
        rw [if_neg (by omega)] at h2
        cases h2

/-- One equation: if all coefficients of the arguments have the full shape, so do those of the result. -/
theorem push_good {p : Prim K} {f : List (Inter K) → Py (Encl K)} (hf : pushforward lib T p = some f)
    {ins : List (Inter K)} {vals outs : List (ND K)} (hins : List.Forall₂ (InterOk md z) ins vals)
    {cs : List ℤ} {atoms : List (Atom K)} (hx : InsExact z.shape cs atoms ins)
    (hcnt : List.Forall₂ (CountOk ct md) atoms ins) (hfit : EqnFits ct z.shape cs p atoms vals outs)
    (hone : ∀ v ∈ outs, ∃ I, ValidIdx v.shape I)
    (hev : p.bind sem vals = .ok outs) {e : Encl K} (hc : f ins = .ok e) :
    ∃ y, outs = [y] ∧ GoodEncl e z y := by
  obtain ⟨hmd, -, -, hzs⟩ := unpack hinit hz
  unfold Prim.bind at hev
  have bin : ∀ g : Inter K → Inter K → Py (Encl K),
      (match ins with | [a, b] => g a b | _ => (.error .typeError : Py (Encl K))) = .ok e →
      ∃ a b v w α β, ins = [a, b] ∧ vals = [v, w] ∧ atoms = [α, β] ∧ InterOk md z a v ∧ InterOk md z b w ∧
        a.Exact z.shape ∧ b.Exact z.shape ∧ (Atom.constIn cs α = true → a.encl.length = 1) ∧
        (Atom.constIn cs β = true → b.encl.length = 1) ∧ (CountOk ct md α a ∧ CountOk ct md β b) ∧ g a b = .ok e := by
    intro g hg
    rcases ins with _ | ⟨a, _ | ⟨b, _ | ⟨c, l⟩⟩⟩ <;> simp only [reduceCtorEq] at hg
    rcases hins with _ | ⟨h1, _ | ⟨h2, _ | _⟩⟩
    rcases hx with _ | ⟨k1, _ | ⟨k2, _ | _⟩⟩
    rcases hcnt with _ | ⟨c1, _ | ⟨c2, _ | _⟩⟩
    exact ⟨a, b, _, _, _, _, rfl, rfl, rfl, h1, h2, k1.1, k2.1, k1.2, k2.2, ⟨c1, c2⟩, hg⟩
  have una : ∀ g : Inter K → Py (Encl K),
      (match ins with | [a] => g a | _ => (.error .typeError : Py (Encl K))) = .ok e →
      ∃ a v, ins = [a] ∧ vals = [v] ∧ InterOk md z a v ∧ a.Exact z.shape ∧ g a = .ok e := by
    intro g hg
    rcases ins with _ | ⟨a, _ | ⟨b, l⟩⟩ <;> simp only [reduceCtorEq] at hg
    rcases hins with _ | ⟨h1, _ | _⟩
    rcases hx with _ | ⟨k1, _ | _⟩
    exact ⟨a, _, rfl, rfl, h1, k1.1, hg⟩
  have lin : ∀ (g : ND K → Py (ND K)) (a : Inter K) (v : ND K) (Rc : List ℕ)
      (terms : List ℕ → List (K × List ℕ)) (y : ND K), InterOk md z a v → a.Exact z.shape →
      LinearContract z.shape v.shape Rc terms g → (∀ L, ValidIdx Rc L → ∀ t ∈ terms L, 0 ≤ t.1) →
      g v = .ok y → (∃ I, ValidIdx y.shape I) → mapOverEnclosure a.encl g = .ok e →
      GoodEncl e z y := by
    intro g a v Rc terms y ha hx hL hw hy hne hm
    exact C50_pass_thru (ha.good hx) hL hw hy hne hm
  have bind1 : ∀ (q : Prim K) (v : ND K) (outs : List (ND K)), q.eval sem [v.canon] = .ok outs →
      ∀ y, outs = [y] → q.bind1 sem v = .ok y := by
    intro q v outs h y hy
    subst hy
    unfold Prim.bind1 Prim.bind
    simp only [List.map_cons, List.map_nil, h]
    rfl
  cases p with
  | add =>
    cases hf
    obtain ⟨a, b, v, w, α, β, rfl, rfl, rfl, ha, hb, xa, xb, la, lb, ⟨ca, cb⟩, hg⟩ := bin _ hc
    obtain ⟨y, hy, rfl⟩ := one_ok hev
    obtain ⟨f1, f2⟩ := hfit
    have ga := (ha.congr (ND.canon_same _)).good xa
    have gb := (hb.congr (ND.canon_same _)).good xb
    have na := List.length_pos_iff.2 ga.ne
    have nb := List.length_pos_iff.2 gb.ne
    refine ⟨y, rfl, good_add hinit hz ga gb (nary_ok hy) (hone y (by simp)) ?_ ?_ hg⟩
    · intro hl
      rcases f1 with h | h | h
      · have := la h; omega
      · exact h
      · have h3 := (Nat.cast_le (α := ℕ∞)).1 (ca.2.trans h)
        have h4 := cb.1
        have h5 := ha.len
        have h6 := hb.len
        omega
    · intro hl
      rcases f2 with h | h | h
      · have := lb h; omega
      · exact h
      · have h3 := (Nat.cast_le (α := ℕ∞)).1 (cb.2.trans h)
        have h4 := ca.1
        have h5 := ha.len
        have h6 := hb.len
        omega
  | sub =>
    cases hf
    obtain ⟨a, b, v, w, α, β, rfl, rfl, rfl, ha, hb, xa, xb, la, lb, ⟨ca, cb⟩, hg⟩ := bin _ hc
    obtain ⟨y, hy, rfl⟩ := one_ok hev
    obtain ⟨f1, f2⟩ := hfit
    have ga := (ha.congr (ND.canon_same _)).good xa
    have gb := (hb.congr (ND.canon_same _)).good xb
    have na := List.length_pos_iff.2 ga.ne
    have nb := List.length_pos_iff.2 gb.ne
    refine ⟨y, rfl, good_subtract hinit hz ga gb (nary_ok hy) (hone y (by simp)) ?_ ?_ hg⟩
    · intro hl
      rcases f1 with h | h | h
      · have := la h; omega
      · exact h
      · have h3 := (Nat.cast_le (α := ℕ∞)).1 (ca.2.trans h)
        have h4 := cb.1
        have h5 := ha.len
        have h6 := hb.len
        omega
    · intro hl
      rcases f2 with h | h | h
      · have := lb h; omega
      · exact h
      · have h3 := (Nat.cast_le (α := ℕ∞)).1 (cb.2.trans h)
        have h4 := ca.1
        have h5 := ha.len
        have h6 := hb.len
        omega
  | mul =>
    cases hf
    obtain ⟨a, b, v, w, α, β, rfl, rfl, rfl, ha, hb, xa, xb, la, lb, ⟨ca, cb⟩, hg⟩ := bin _ hc
    obtain ⟨y, hy, rfl⟩ := one_ok hev
    exact ⟨y, rfl, good_multiply hinit hz ((ha.congr (ND.canon_same _)).good xa)
      ((hb.congr (ND.canon_same _)).good xb) (nary_ok hy) (hone y (by simp)) hg⟩
  | div =>
    cases hf
    obtain ⟨a, b, v, w, α, β, rfl, rfl, rfl, ha, hb, xa, xb, la, lb, ⟨ca, cb⟩, hg⟩ := bin _ hc
    obtain ⟨y, hy, rfl⟩ := one_ok hev
    obtain ⟨g1, g2⟩ := hlib.powInt (-1) (by norm_num)
    simp only [zpow_neg_one] at g1
    exact ⟨y, rfl, good_divide hinit hz g1 g2 ((ha.congr (ND.canon_same _)).good xa)
      ((hb.congr (ND.canon_same _)).good xb) (nary_ok hy) (hone y (by simp)) h0
      (fun _ _ _ _ _ _ => trivial) hg⟩
  | neg =>
    cases hf
    obtain ⟨a, v, rfl, rfl, ha, xa, hg⟩ := una _ hc
    cases hev
    exact ⟨_, rfl, (good_negative hinit hz ((ha.congr (ND.canon_same _)).good xa)
      (by have := hone _ (List.mem_singleton.2 rfl); exact this) hg).1⟩
  | pow =>
    cases hf
    obtain ⟨a, b, v, w, α, β, rfl, rfl, rfl, ha, hb, xa, xb, la, lb, ⟨ca, cb⟩, hg⟩ := bin _ hc
    obtain ⟨y, hy, rfl⟩ := one_ok hev
    unfold powPush at hg
    cases hcv : b.constantValue with
    | none => rw [hcv] at hg; cases hg
    | some u =>
      rw [hcv] at hg
      simp only at hg
      by_cases hsh : u.shape ≠ []
      · rw [if_pos hsh] at hg; cases hg
      rw [if_neg hsh] at hg
      rw [not_not] at hsh
      have hbe : b.encl = [.arr u] := by
        unfold Inter.constantValue at hcv
        split at hcv
        · rename_i u' hu'; cases hcv; exact hu'
        · cases hcv
      have hb' := hb.congr (ND.canon_same _)
      have hsame : u.Same w.canon := by
        have := hb'.encl; rw [hbe] at this; exact this.same
      have hws : w.canon.shape = [] := hsame.1 ▸ hsh
      have hwg : w.canon.get [] = u.get [] := (hsame.2 [] (by rw [hsh]; exact ValidIdx.nil)).symm
      have hyv := map2_scalar_right hws (nary_ok hy)
      rw [hwg] at hyv
      have ha' := (ha.congr (ND.canon_same _)).good xa
      have hvn : ∃ I, ValidIdx v.canon.shape I := by
        have := hone y (by simp)
        rw [← hyv.1] at this
        exact this
      refine ⟨y, rfl, ?_⟩
      cases hx : lib.expo (u.get []) with
      | frac q =>
        rw [hx] at hg
        obtain ⟨g1, g2⟩ := hlib.expoFrac _ _ hx
        exact (good_powerOther hinit hz g1 g2 ha' hvn h0 (fun _ _ _ _ _ _ => trivial) hg).congr hyv
      | int n =>
        rw [hx] at hg
        have he := hlib.expoInt _ _ hx
        simp only [he] at hyv
        simp only at hg
        by_cases hn : n < 0
        · rw [if_pos hn] at hg
          obtain ⟨g1, g2⟩ := hlib.powInt n hn
          exact (good_powerOther hinit hz g1 g2 ha' hvn h0 (fun _ _ _ _ _ _ => trivial) hg).congr hyv
        · rw [if_neg hn] at hg
          by_cases hn0 : n = 0
          · rw [if_pos hn0] at hg
            subst hn0
            refine (good_power hinit hz ha' hvn hg).congr ?_
            simpa only [zpow_zero, pow_zero] using hyv
          · rw [if_neg hn0] at hg; cases hg
  | integerPow n =>
    cases hf
    obtain ⟨a, v, rfl, rfl, ha, xa, hg⟩ := una _ hc
    cases hev
    have ha' := (ha.congr (ND.canon_same _)).good xa
    refine ⟨_, rfl, ?_⟩
    by_cases hn : 0 ≤ n
    · rw [if_pos hn] at hg
      have := good_power hinit hz ha' (by have := hone _ (List.mem_singleton.2 rfl); exact this) hg
      have e1 : ∀ x : K, x ^ n = x ^ n.toNat := by
        intro x
        rw [← zpow_natCast, Int.toNat_of_nonneg hn]
      simp only [e1]
      exact this
    · rw [if_neg hn] at hg
      obtain ⟨g1, g2⟩ := hlib.powInt n (by omega)
      exact good_powerOther hinit hz g1 g2 ha' (by have := hone _ (List.mem_singleton.2 rfl); exact this) h0
        (fun _ _ _ _ _ _ => trivial) hg
  | dotGeneral lc rc lb rb =>
    cases hf
    obtain ⟨a, b, v, w, α, β, rfl, rfl, rfl, ha, hb, xa, xb, la, lb', -, hg⟩ := bin _ hc
    obtain ⟨y, hy, rfl⟩ := one_ok hev
    refine ⟨y, rfl, C49_dot_general lib.sem hinit hz (ha.good xa) (hb.good xb) ?_ ?_ (hone y (by simp)) hg⟩
    · rcases hfit with h | h | h
      · exact Or.inl h
      · exact Or.inr (Or.inl h)
      · exact Or.inr (Or.inr (la h))
    · rw [bind2_dotGeneral]
      exact hy
  | conv op =>
    cases hf
    obtain ⟨a, b, v, w, α, β, rfl, rfl, rfl, ha, hb, xa, xb, la, lb, ⟨ca, cb⟩, hg⟩ := bin _ hc
    obtain ⟨y, hy, rfl⟩ := one_ok hev
    obtain ⟨Rc, terms, k3, k4⟩ := hfit
    refine ⟨y, rfl, C49_conv lib.sem hinit hz (ha.good xa) (hb.good xb) k3 k4 ?_ (hone y (by simp)) hg⟩
    rw [bind2_conv]
    exact hy
  | broadcastInDim shape dims =>
    cases hf
    obtain ⟨a, v, rfl, rfl, ha, xa, hg⟩ := una _ hc
    obtain ⟨y, hy, rfl⟩ := one_ok hev
    obtain ⟨y', q1, q2, q3, q4, q5⟩ := bid_value hy
    have hx := ha.good xa
    have hg' := bid_ok_le hx.exact hx.wf _ hg
    refine ⟨y, rfl, ?_⟩
    have hne := hone y (by simp)
    exact (lin _ a v _ _ y' ha xa (C50_broadcast_in_dim z.shape q3 q4 q5) (by
      intro L _ t ht
      rw [List.mem_singleton] at ht
      subst ht
      exact zero_le_one) q1 (by rw [q2.1]; exact hne) hg').congr q2
  | elementwise name =>
    simp only [pushforward, Option.map_eq_some_iff] at hf
    obtain ⟨g, hgen, rfl⟩ := hf
    obtain ⟨a, v, rfl, rfl, ha, xa, hg⟩ := una _ hc
    obtain ⟨f, hfn, g1, g2⟩ := hlib.gen _ _ hgen
    simp only [List.map_cons, List.map_nil, Prim.eval, hfn] at hev
    cases hev
    have ha' := ha.congr (ND.canon_same _)
    exact ⟨_, rfl, good_push_elementwise hlib hinit hz h0 g1 g2 ha' xa
      (by have := hone _ (List.mem_singleton.2 rfl); exact this) hg⟩
  | convertElementType round =>
    cases hf
    obtain ⟨a, v, rfl, rfl, ha, xa, hg⟩ := una _ hc
    have hround : ∀ t, round t = t := hfit
    rw [show round = id from funext hround] at hev
    cases hev
    have ha' := (ha.congr (ND.canon_same _)).good xa
    refine ⟨_, rfl, (sound_convert hround ha'.sound hg).good ?_⟩
    intro i x' hx'
    obtain ⟨x, hx, h⟩ := (mapOver_get hg).2 i x' hx'
    have := ha'.exact i x hx
    rcases h with ⟨u, s, rfl, e, rfl⟩ | ⟨l, h', l', h'', rfl, e1, e2, rfl⟩
    · rw [bind1_convert _ hround] at e
      cases e
      exact this
    · rw [bind1_convert _ hround] at e1 e2
      cases e1; cases e2
      exact this
  | reshape s =>
    cases hf
    obtain ⟨a, v, rfl, rfl, ha, xa, hg⟩ := una _ hc
    have hev1 := hev
    obtain ⟨y, hy, rfl⟩ := one_ok hev1
    have hb := bind1 _ v _ hev y rfl
    have hsz : s.prod = v.shape.prod := by
      unfold Lax.reshape at hy
      split_ifs at hy with h
      exact h
    have hpos : v.shape.prod ≠ 0 := by
      have hys : y.shape = s := by
        unfold Lax.reshape at hy
        split_ifs at hy with h
        cases hy; rfl
      obtain ⟨I, hI⟩ := hone y (by simp)
      have := ravel_lt' hI
      rw [hys] at this
      omega
    exact ⟨y, rfl, lin _ a v _ _ y ha xa (C50_reshape lib.sem hfit hsz hpos) (by
      intro L _ t ht
      rw [List.mem_singleton] at ht
      subst ht
      exact zero_le_one) hb (hone y (by simp)) hg⟩
  | reduceSum axes =>
    cases hf
    obtain ⟨a, v, rfl, rfl, ha, xa, hg⟩ := una _ hc
    have hev1 := hev
    obtain ⟨y, hy, rfl⟩ := one_ok hev1
    have hb := bind1 _ v _ hev y rfl
    have hax : AxesOk v.shape.length axes := by
      unfold Lax.reduceSum at hy
      split_ifs at hy with h
      exact h
    exact ⟨y, rfl, lin _ a v _ _ y ha xa (C50_reduce_sum lib.sem z.shape hax) (by
      intro L _ t ht
      obtain ⟨J, _, rfl⟩ := List.mem_map.1 ht
      exact zero_le_one) hb (hone y (by simp)) hg⟩
  | reduceWindowSum ws =>
    cases hf
    obtain ⟨a, v, rfl, rfl, ha, xa, hg⟩ := una _ hc
    have hev1 := hev
    obtain ⟨y, hy, rfl⟩ := one_ok hev1
    have hb := bind1 _ v _ hev y rfl
    have hax : ws.length = v.shape.length := by
      unfold Lax.reduceWindowSum at hy
      split_ifs at hy with h
      exact h
    exact ⟨y, rfl, lin _ a v _ _ y ha xa (C50_reduce_window_sum lib.sem z.shape hax) (by
      intro L _ t ht
      obtain ⟨J, _, h⟩ := List.mem_filterMap.1 ht
      obtain ⟨α, _, rfl⟩ := Option.map_eq_some_iff.1 h
      exact zero_le_one) hb (hone y (by simp)) hg⟩
  | squeeze dims =>
    cases hf
    obtain ⟨a, v, rfl, rfl, ha, xa, hg⟩ := una _ hc
    have hev1 := hev
    obtain ⟨y, hy, rfl⟩ := one_ok hev1
    have hb := bind1 _ v _ hev y rfl
    have hax : AxesOk v.shape.length dims ∧ ∀ d ∈ dims, v.shape.getD d 0 = 1 := by
      unfold Lax.squeeze at hy
      split_ifs at hy with h
      exact h
    exact ⟨y, rfl, lin _ a v _ _ y ha xa (C50_squeeze lib.sem z.shape hax.1 hax.2) (by
      intro L _ t ht
      rw [List.mem_singleton] at ht
      subst ht
      exact zero_le_one) hb (hone y (by simp)) hg⟩
  | transpose perm =>
    cases hf
    obtain ⟨a, v, rfl, rfl, ha, xa, hg⟩ := una _ hc
    have hev1 := hev
    obtain ⟨y, hy, rfl⟩ := one_ok hev1
    have hb := bind1 _ v _ hev y rfl
    have hax : perm.length = v.shape.length ∧ perm.Nodup ∧ ∀ p ∈ perm, p < v.shape.length := by
      unfold Lax.transpose at hy
      split_ifs at hy with h
      exact h
    exact ⟨y, rfl, lin _ a v _ _ y ha xa (C50_transpose lib.sem z.shape hax.1 hax.2.1 hax.2.2) (by
      intro L _ t ht
      rw [List.mem_singleton] at ht
      subst ht
      exact zero_le_one) hb (hone y (by simp)) hg⟩
  | jit body =>
    cases hf
    obtain ⟨a, v, rfl, rfl, ha, xa, hg⟩ := una _ hc
    have hev1 := hev
    obtain ⟨y, hy, rfl⟩ := one_ok hev1
    have hb := bind1 _ v _ hev y rfl
    obtain ⟨Rc, terms, k2, k3⟩ := hfit
    exact ⟨y, rfl, lin _ a v _ _ y ha xa (C50_jit lib.sem k2) k3 hb (hone y (by simp)) hg⟩
  | other name impl => cases hf


/-- all coefficients of all variables have the full shape -/
def EnvExact (xs : List ℕ) (env : Env K) : Prop := ∀ v i, env.lookup v = some i → i.Exact xs

omit hlib hinit hz h0 in
theorem exact_const (xs : List ℕ) (a : ND K) : (constantInter a).Exact xs := by
  intro i c hc
  match i with
  | 0 => cases hc; simp [Inter.headShape, constantInter, Coef.shape]
  | i + 1 => simp [constantInter] at hc

omit hlib hinit hz h0 in
theorem insExact_of_env {xs : List ℕ} {env : Env K} {vals : Vals K} {cs : List ℤ} (hX : EnvExact xs env)
    (hK : ∀ v ∈ cs, KnownConst env vals v) {atoms : List (Atom K)} {ins : List (Inter K)}
    (hins : atoms.mapM (getInter env) = .ok ins) : InsExact xs cs atoms ins := by
  have := Poly.mapM_ok hins
  refine this.imp ?_
  intro a i hi
  cases a with
  | lit u => cases hi; exact ⟨exact_const xs u, fun _ => rfl⟩
  | var v =>
    unfold getInter at hi
    cases hl : env.lookup v with
    | none => simp only [hl] at hi; cases hi
    | some j =>
      simp only [hl] at hi
      cases hi
      refine ⟨hX v _ hl, fun hc => ?_⟩
      have hv : v ∈ cs := by simpa [Atom.constIn] using hc
      obtain ⟨a, ha, -⟩ := hK v hv
      rw [hl] at ha
      cases ha
      rfl

omit hlib hinit hz h0 in
theorem exact_stores {xs : List ℕ} {env env' : Env K} {l : List (ℤ × Inter K)} (h : EnvExact xs env)
    (hl : ∀ x ∈ l, x.1 = -1 ∨ x.2.Exact xs) (hs : l.foldlM (storeOne xs) env = .ok env') :
    EnvExact xs env' := by
  induction l generalizing env with
  | nil => cases hs; exact h
  | cons x l ih =>
    rw [List.foldlM_cons, py_bind_ok] at hs
    obtain ⟨env1, h1, hs⟩ := hs
    refine ih ?_ (fun y hy => hl y (by simp [hy])) hs
    unfold storeOne at h1
    by_cases hx1 : x.1 = -1
    · rw [if_pos hx1] at h1; cases h1; exact h
    · rw [if_neg hx1] at h1
      split_ifs at h1
      simp only [py_bind_ok, py_pure] at h1
      obtain ⟨_, _, rfl⟩ := h1
      intro w j hj
      rw [List.lookup_cons] at hj
      by_cases hw : (w == x.1) = true
      · rw [hw] at hj
        cases hj
        exact (hl x (by simp)).resolve_left hx1
      · have hw : (w == x.1) = false := by simpa using hw
        rw [hw] at hj
        exact h w j hj

/-- the bounds on the number of coefficients hold -/
def EnvCounts (ct : Counts) (md : ℕ) (env : Env K) : Prop := ∀ v i, env.lookup v = some i → LenOk ct md v i.encl

omit hlib hinit hz h0 in
theorem counts_of_env {env : Env K} (hC : EnvCounts ct md env) {atoms : List (Atom K)} {ins : List (Inter K)}
    (hins : atoms.mapM (getInter env) = .ok ins) : List.Forall₂ (CountOk ct md) atoms ins := by
  refine (Poly.mapM_ok hins).imp ?_
  intro a i hi
  cases a with
  | lit u => cases hi; exact ⟨min_le_left _ _, le_refl _⟩
  | var v =>
    unfold getInter at hi
    cases hl : env.lookup v with
    | none => simp only [hl] at hi; cases hi
    | some j =>
      simp only [hl] at hi
      cases hi
      exact hC v _ hl

omit hlib h0 in
theorem counts_step {T0 : TEA K} {propagate : Bool} {env env' : Env K} {vals : Vals K} {eqn : Eqn K}
    (hE : EnvOk md z env vals) {vals' : Vals K} (hE' : EnvOk md z env' vals') (hC : EnvCounts ct md env)
    (hq : CountEqn ct eqn) (hs : step lib T T0 propagate z.shape env eqn = .ok env') : EnvCounts ct md env' := by
  obtain ⟨hmd, -, -, -⟩ := unpack hinit hz
  simp only [step, py_bind_ok] at hs
  obtain ⟨ins, hins, outs, houts, hs⟩ := hs
  by_cases hlen : outs.length ≠ eqn.outvars.length
  · rw [if_pos hlen] at hs; cases hs
  rw [if_neg hlen] at hs
  have hcnt := counts_of_env hC hins
  obtain ⟨args, -, hF⟩ := getInters_ok hE hins
  have hl : ∀ i ∈ ins, 1 ≤ i.encl.length ∧ i.encl.length ≤ md + 1 := by
    intro i hi
    obtain ⟨k, hk⟩ := List.mem_iff_getElem?.1 hi
    obtain ⟨v, -, h⟩ := (Poly.forall₂_getElem? hF k).2 i hk
    exact ⟨List.length_pos_iff.2 h.encl.ne, h.len⟩
  suffices h : ∀ v i, env'.lookup v = some i → 1 ≤ i.encl.length → LenOk ct md v i.encl by
    intro v i hv
    obtain ⟨a, -, h1⟩ := hE' v i hv
    exact h v i hv (List.length_pos_iff.2 h1.encl.ne)
  refine stores_pred (P := fun v i => 1 ≤ i.encl.length → LenOk ct md v i.encl) (fun v i hv _ => hC v i hv) ?_ hs
  intro x hx _ hx1
  unfold eqnOutputs at houts
  cases hcv : ins.mapM Inter.constantValue with
  | some cv =>
    rw [hcv] at houts
    simp only [py_bind_ok, py_pure] at houts
    obtain ⟨rs, -, rfl⟩ := houts
    obtain ⟨r, -, hr⟩ := List.mem_map.1 (List.of_mem_zip hx).2
    have h1 : ∀ i ∈ ins, i.encl.length = 1 := by
      intro i hi
      have : i.constantValue ≠ none := by
        clear hF hl hcnt hx hins
        induction ins generalizing cv with
        | nil => exact absurd hi List.not_mem_nil
        | cons j ins ih =>
          rw [List.mapM_cons] at hcv
          cases hj : j.constantValue with
          | none => rw [hj] at hcv; cases hcv
          | some w =>
            rcases List.mem_cons.1 hi with rfl | hi
            · rw [hj]; exact Option.some_ne_none _
            · rw [hj] at hcv
              cases hm : ins.mapM Inter.constantValue with
              | none => rw [hm] at hcv; cases hcv
              | some l => exact ih _ hm hi
      unfold Inter.constantValue at this
      rcases he : i.encl with _ | ⟨c, _ | ⟨d, l⟩⟩
      · rw [he] at this; exact absurd rfl this
      · rfl
      · rw [he] at this; cases c <;> exact absurd rfl this
    have h2 : List.Forall₂ (fun a i => CountOk ct md a i ∧ i.encl.length = 1) eqn.invars ins := by
      rw [List.forall₂_iff_get] at hcnt ⊢
      exact ⟨hcnt.1, fun i q1 q2 => ⟨hcnt.2 i q1 q2, h1 _ (List.getElem_mem _)⟩⟩
    obtain ⟨h3, h4⟩ := const_counts hq h2 x.1 (List.of_mem_zip hx).1
    rw [← hr]
    exact ⟨h3, by simpa [constantInter] using h4⟩
  | none =>
    rw [hcv] at houts
    cases hf : pushforward lib T eqn.prim with
    | none => simp only [hf] at houts; cases houts
    | some f =>
      simp only [hf, py_bind_ok] at houts
      obtain ⟨e, he, houts⟩ := houts
      have hout : ∀ q ∈ outs, q.encl = e := by
        split_ifs at houts with g1 g2
        · simp only [py_bind_ok, py_pure] at houts
          obtain ⟨r, -, rfl⟩ := houts
          intro q hq
          rw [List.mem_singleton] at hq
          subst hq
          rfl
        · cases houts
          intro q hq
          rw [List.mem_singleton] at hq
          subst hq
          rfl
      rw [hout _ (List.of_mem_zip hx).2] at hx1 ⊢
      rcases hq with hq | hop
      · obtain ⟨q1, q2⟩ := hq x.1 (List.of_mem_zip hx).1
        exact ⟨by omega, by rw [q2]; exact le_top⟩
      · have h2 : List.Forall₂ (fun a i => CountOk ct T.maxDegree a i ∧ 1 ≤ i.encl.length ∧
            i.encl.length ≤ T.maxDegree + 1) eqn.invars ins := by
          rw [hmd]
          rw [List.forall₂_iff_get] at hcnt ⊢
          exact ⟨hcnt.1, fun i q1 q2 => ⟨hcnt.2 i q1 q2, hl _ (List.getElem_mem _)⟩⟩
        obtain ⟨o, ho, hle⟩ := push_counts hop h2 hf he
        have : x.1 = o := by
          have := (List.of_mem_zip hx).1
          rw [ho] at this
          exact List.mem_singleton.1 this
        rw [this, ← hmd]
        exact hle

theorem fits_step {T0 : TEA K} {propagate : Bool} {env : Env K} {vals vals' : Vals K} {eqn : Eqn K}
    {cs : List ℤ} (hE : EnvOk md z env vals) (hX : EnvExact z.shape env) (hC : EnvCounts ct md env)
    (hK : ∀ v ∈ cs, KnownConst env vals v)
    (hfit : eqn.invars.all (Atom.constIn cs) = false → ∀ args outs, eqn.invars.mapM (getVal vals) = .ok args →
      eqn.prim.bind sem args = .ok outs → EqnFits ct z.shape cs eqn.prim eqn.invars args outs)
    (hne : NonEmptyVals vals') (hev : evalEqn sem vals eqn = .ok vals') :
    (∀ ins, eqn.invars.mapM (getInter env) = .ok ins → ins.mapM Inter.constantValue = none →
      StepOk z.shape eqn.prim ins) ∧
    ∀ env', step lib T T0 propagate z.shape env eqn = .ok env' → EnvExact z.shape env' := by
  simp only [evalEqn, py_bind_ok] at hev
  obtain ⟨args, hargs, ys, hys, hev⟩ := hev
  by_cases hylen : ys.length ≠ eqn.outvars.length
  · rw [if_pos hylen] at hev; cases hev
  rw [if_neg hylen] at hev
  rw [not_not] at hylen
  cases hev
  have hall : ∀ ins, eqn.invars.mapM (getInter env) = .ok ins → ins.mapM Inter.constantValue = none →
      eqn.invars.all (Atom.constIn cs) = false := by
    intro ins hins hcv
    rw [← Bool.not_eq_true]
    intro hall
    obtain ⟨args', h1, -⟩ := known_args hK hall
    rw [hins] at h1
    cases h1
    rw [constantValues_map] at hcv
    cases hcv
  constructor
  · intro ins hins hcv
    obtain ⟨args', hargs', hF⟩ := getInters_ok hE hins
    rw [hargs] at hargs'
    cases hargs'
    exact stepOk_of_fits (insExact_of_env hX hK hins) (hF.imp fun i v h => headShape_eq h.encl)
      (hfit (hall ins hins hcv) _ _ hargs hys)
  · intro env' hs
    simp only [step, py_bind_ok] at hs
    obtain ⟨ins, hins, outs, houts, hs⟩ := hs
    by_cases hlen : outs.length ≠ eqn.outvars.length
    · rw [if_pos hlen] at hs; cases hs
    rw [if_neg hlen] at hs
    rw [not_not] at hlen
    obtain ⟨args', hargs', hF⟩ := getInters_ok hE hins
    rw [hargs] at hargs'
    cases hargs'
    refine exact_stores hX ?_ hs
    unfold eqnOutputs at houts
    cases hcv : ins.mapM Inter.constantValue with
    | some cv =>
      rw [hcv] at houts
      simp only [py_bind_ok, py_pure] at houts
      obtain ⟨rs, -, rfl⟩ := houts
      intro x hx
      obtain ⟨r, -, hr⟩ := List.mem_map.1 (List.of_mem_zip hx).2
      right
      rw [← hr]
      exact exact_const _ _
    | none =>
      rw [hcv] at houts
      cases hf : pushforward lib T eqn.prim with
      | none => simp only [hf] at houts; cases houts
      | some f =>
        simp only [hf, py_bind_ok] at houts
        obtain ⟨e, he, houts⟩ := houts
        by_cases ho1 : eqn.outvars.length ≠ 1
        · rw [if_pos ho1] at houts; cases houts
        rw [if_neg ho1] at houts
        rw [not_not] at ho1
        obtain ⟨v, hv⟩ := List.length_eq_one_iff.1 ho1
        obtain ⟨y, hy⟩ := List.length_eq_one_iff.1 (hylen.trans ho1)
        rw [hv, hy] at hne
        have ho : ∃ tr, outs = [⟨e, tr⟩] := by
          cases propagate with
          | true =>
            simp only [if_true, py_bind_ok, py_pure] at houts
            obtain ⟨r, -, rfl⟩ := houts
            exact ⟨_, rfl⟩
          | false => cases houts; exact ⟨_, rfl⟩
        obtain ⟨tr, rfl⟩ := ho
        intro x hx
        rw [hv, List.zip_cons_cons, List.zip_nil_left, List.mem_singleton] at hx
        subst hx
        by_cases hv1 : v = -1
        · exact Or.inl hv1
        right
        have hyne : ∃ I, ValidIdx y.shape I := hne (v, y) (mem_storeVals.2 (by simp) hv1)
        rw [hy] at hys
        obtain ⟨y', hy', hg⟩ := push_good hlib hinit hz h0 hf hF (insExact_of_env hX hK hins) (counts_of_env hC hins)
          (hfit (hall ins hins hcv) _ _ hargs hys) (by
            intro w hw
            rw [List.mem_singleton] at hw
            subst hw
            exact hyne) hys he
        cases hy'
        exact exact_of_good (i := ⟨e, tr⟩) hg

theorem fits_run {T0 : TEA K} (hinit0 : TEA.init 0 lo hi = .ok T0) {propagate : Bool}
    (hprop : propagate = true → 1 ≤ md) {eqns : List (Eqn K)} {env : Env K} {vals vals' : Vals K}
    {cs : List ℤ} (hE : EnvOk md z env vals) (hX : EnvExact z.shape env) (hC : EnvCounts ct md env)
    (hK : ∀ v ∈ cs, KnownConst env vals v) (hcf : ∀ eqn ∈ eqns, CountEqn ct eqn)
    (hfit : EqnsFit sem ct z.shape cs vals eqns) (hne : NonEmptyVals vals') (hev : eqns.foldlM (evalEqn sem) vals = .ok vals') :
    RunOk lib T T0 propagate z.shape env eqns := by
  induction eqns generalizing env vals cs with
  | nil => trivial
  | cons eqn eqns ih =>
    rw [List.foldlM_cons, py_bind_ok] at hev
    obtain ⟨vals1, he1, he2⟩ := hev
    have hne1 : NonEmptyVals vals1 := fun va hva => hne va (evalEqns_mem he2 hva)
    obtain ⟨f1, f2⟩ := hfit
    obtain ⟨k1, k2⟩ := fits_step hlib hinit hz h0 (T0 := T0) (propagate := propagate) hE hX hC hK f1 hne1 he1
    refine ⟨k1, fun env' hs => ?_⟩
    have hE1 := step_ok hlib hinit hinit0 hz h0 hprop hE k1 hne1 he1 hs
    exact ih hE1 (k2 env' hs) (counts_step hinit hz hE hE1 hC (hcf _ (List.mem_cons_self ..)) hs)
      (known_step hlib hK he1 hs) (fun e he => hcf e (List.mem_cons_of_mem _ he)) (f2 vals1 he1) he2

end push

theorem init_counts {ct : Counts} {jaxpr : Jaxpr K} {consts : List (ND K)} {propagate : Bool} {md : ℕ} {x0 lo hi : ND K}
    {env : Env K} (hcf : CountsFit ct jaxpr) (henv : initEnv propagate md jaxpr consts x0 lo hi = .ok env) :
    EnvCounts ct md env := by
  obtain ⟨identity, v, hid, hcl, hv, rfl⟩ := initEnv_inv henv
  intro w i hw
  rw [List.lookup_cons] at hw
  by_cases hwv : (w == v) = true
  · rw [hwv] at hw
    cases hw
    obtain ⟨h1, h2⟩ := hcf.1 w (by rw [hv, beq_iff_eq.1 hwv]; exact List.mem_singleton_self _)
    by_cases hm : md > 0
    · simp only [if_pos hm]
      exact ⟨(min_le_left _ _).trans h1, by simpa using h2⟩
    · simp only [if_neg hm]
      exact ⟨(min_le_right _ _).trans (by simp; omega), by simpa using one_le_two.trans h2⟩
  · have hwv : (w == v) = false := by simpa using hwv
    rw [hwv] at hw
    obtain ⟨h1, h2⟩ := hcf.2.1 w (List.of_mem_zip (mem_of_lookup hw)).1
    obtain ⟨a, -, rfl⟩ := lookup_zip_const hcl hw
    exact ⟨(min_le_left _ _).trans h1, by simpa [constantInter] using h2⟩

/-- Nothing known about the number of coefficients is right for every program. -/
theorem countsFit_trivial (jaxpr : Jaxpr K) : CountsFit Counts.trivial jaxpr :=
  ⟨fun _ _ => ⟨one_le_two, le_top⟩, fun _ _ => ⟨le_rfl, le_top⟩, fun _ _ => Or.inl fun _ _ => ⟨le_rfl, rfl⟩⟩

/-- `taylorBoundsOk_of_fits`, with the tables right at the point considered only. -/
theorem taylorBoundsOk_of_fits_at {lib : Lib K} {sem : Sem K} {jaxpr : Jaxpr K}
    {consts : List (ND K)} {maxDegree : ℤ} (hmd : 0 ≤ maxDegree) {propagate : Bool} {x0 lo hi : ND K}
    (hlib : ∀ z, ND.map2 (· - ·) x0 x0 = .ok z → LibSoundAt z lib sem)
    (hlh : lo.shape = hi.shape) (h0 : (Coef.ivl lo hi).Contains x0)
    (hfit : ProgramFits sem jaxpr consts x0) {vals : Vals K} (hev : evalEnv sem jaxpr consts x0 = .ok vals)
    (hne : NonEmptyVals vals) : TaylorBoundsOk lib jaxpr consts maxDegree propagate x0 lo hi := by
  intro tlo thi T T0 env ht hT hT0 henv
  obtain ⟨z, hz, hzs, hzc⟩ := region_shift hlh h0 ht h0
  have h00 : (Coef.ivl tlo thi).Contains ⟨tlo.shape, fun _ => 0⟩ := by
    refine ⟨rfl, fun I hI => ?_⟩
    have hs : z.shape = tlo.shape := hzc.1
    have := hzc.2 I hI
    rw [map2_at hz (hs ▸ hI), sub_self] at this
    exact this
  have hE := initEnv_ok hmd hlh h0 h0 hz henv
  have hX : EnvExact z.shape env := by
    obtain ⟨identity, v, hid, hcl, hv, rfl⟩ := initEnv_inv henv
    intro w i hw
    rw [List.lookup_cons] at hw
    by_cases hwv : (w == v) = true
    · rw [hwv] at hw
      cases hw
      by_cases hm : maxDegree.toNat > 0
      · rw [if_pos hm]
        intro i c hc
        match i with
        | 0 => cases hc; simp [Inter.headShape, Coef.shape]
        | 1 =>
          cases hc
          simp [Inter.headShape, Coef.shape, identityCoef_shape hid, hzs]
        | i + 2 => simp at hc
      · rw [if_neg hm]
        intro i c hc
        match i with
        | 0 => cases hc; simp [Inter.headShape, Coef.shape]
        | i + 1 => simp at hc
    · have hwv : (w == v) = false := by simpa using hwv
      rw [hwv] at hw
      obtain ⟨a, -, rfl⟩ := lookup_zip_const hcl hw
      exact exact_const _ _
  have hK := known_init (x := x0) hfit.1 henv
  obtain ⟨-, ct, hcf, hf⟩ := hfit
  have hC : EnvCounts ct maxDegree.toNat env := init_counts hcf henv
  rw [← hzs] at hf ⊢
  exact fits_run (hlib z hz) hT hzc h00 hT0 (by
    intro hp
    have : maxDegree ≠ 0 := by
      intro h
      subst h
      simp at hp
    omega) hE hX hC hK hcf.2.2 hf hne hev

/-- **The condition on runs follows from the condition on programs.** If the program fits, every equation of
every run of `taylor_bounds` on it meets `StepOk`. -/
theorem taylorBoundsOk_of_fits {lib : Lib K} {sem : Sem K} (hlib : LibSound lib sem) {jaxpr : Jaxpr K}
    {consts : List (ND K)} {maxDegree : ℤ} (hmd : 0 ≤ maxDegree) {propagate : Bool} {x0 lo hi : ND K}
    (hlh : lo.shape = hi.shape) (h0 : (Coef.ivl lo hi).Contains x0)
    (hfit : ProgramFits sem jaxpr consts x0) {vals : Vals K} (hev : evalEnv sem jaxpr consts x0 = .ok vals)
    (hne : NonEmptyVals vals) : TaylorBoundsOk lib jaxpr consts maxDegree propagate x0 lo hi :=
  taylorBoundsOk_of_fits_at hmd (fun z _ => hlib.at z) hlh h0 hfit hev hne

/-- **C42/C43 (condition on the program).** Let the tables of enclosure generators be right, let `x0` and `x`
lie in the trust region, let the program fit (`ProgramFits`: a condition on the shapes of the program alone),
and let the evaluations of `f` at `x0` and `x` succeed with non-empty arrays.  If `taylor_bounds` returns
`bnd`, then `bnd(x)` contains `f(x)` and `bnd.lower(x) ≤ f(x) ≤ bnd.upper(x)`. -/
theorem C42_static {lib : Lib K} {sem : Sem K} (hlib : LibSound lib sem) {jaxpr : Jaxpr K}
    {consts : List (ND K)} {maxDegree : ℤ} {propagate : Bool} {x0 lo hi x y : ND K} {bnd : Bounds K}
    (hlh : lo.shape = hi.shape) (h0 : (Coef.ivl lo hi).Contains x0) (hx : (Coef.ivl lo hi).Contains x)
    (hb : taylorBounds lib jaxpr consts maxDegree propagate x0 lo hi = .ok bnd)
    (hfit : ProgramFits sem jaxpr consts x0)
    {vals0 : Vals K} (hev0 : evalEnv sem jaxpr consts x0 = .ok vals0) (hne0 : NonEmptyVals vals0)
    {vals : Vals K} (hev : evalEnv sem jaxpr consts x = .ok vals) (hne : NonEmptyVals vals)
    (hy : evalJaxpr sem jaxpr consts x = .ok y) :
    (∃ r, bnd.call x = .ok r ∧ r.Contains y) ∧
    ∃ l u, bnd.lower x = .ok l ∧ bnd.upper x = .ok u ∧ l.shape = y.shape ∧ u.shape = y.shape ∧
      ∀ I, ValidIdx y.shape I → l.get I ≤ y.get I ∧ y.get I ≤ u.get I := by
  have hmd : 0 ≤ maxDegree := by
    simp only [taylorBounds, py_bind_ok] at hb
    obtain ⟨env, he, -⟩ := hb
    exact (taylorEnv_inv he).1
  have hok := taylorBoundsOk_of_fits (lib := lib) hlib hmd (propagate := propagate) hlh h0 hfit hev0 hne0
  exact ⟨C42_taylor_bounds hlib hlh h0 hx hb hok hev hne hy, C43_lower_upper hlib hlh h0 hx hb hok hev hne hy⟩

/-- **C44 (condition on the program).** -/
theorem C44_static {lib : Lib K} {sem : Sem K} (hlib : LibSound lib sem) (harr : LibArr lib) {jaxpr : Jaxpr K}
    {consts : List (ND K)} {maxDegree : ℤ} (hmd : 1 ≤ maxDegree) {propagate : Bool} {x0 lo hi y : ND K}
    {bnd : Bounds K} (hlh : lo.shape = hi.shape) (h0 : (Coef.ivl lo hi).Contains x0)
    (hb : taylorBounds lib jaxpr consts maxDegree propagate x0 lo hi = .ok bnd)
    (hfit : ProgramFits sem jaxpr consts x0)
    {vals : Vals K} (hev : evalEnv sem jaxpr consts x0 = .ok vals) (hne : NonEmptyVals vals)
    (hy : evalJaxpr sem jaxpr consts x0 = .ok y) :
    ∃ l u, bnd.lower x0 = .ok l ∧ bnd.upper x0 = .ok u ∧ l.Same y ∧ u.Same y :=
  C44_exact_at_x0 hlib harr hmd hlh h0 hb
    (taylorBoundsOk_of_fits hlib (by omega) hlh h0 hfit hev hne) hev hne hy

/-- **C47 (condition on the program).** -/
theorem C47_static {lib : Lib K} {sem : Sem K} (hlib : LibSound lib sem) {jaxpr : Jaxpr K}
    {consts : List (ND K)} {maxDegree : ℤ} (hmd : 1 ≤ maxDegree) {x0 lo hi x : ND K} {env : Env K}
    (hlh : lo.shape = hi.shape) (h0 : (Coef.ivl lo hi).Contains x0) (hx : (Coef.ivl lo hi).Contains x)
    (hb : taylorEnv lib jaxpr consts maxDegree true x0 lo hi = .ok env)
    (hfit : ProgramFits sem jaxpr consts x0)
    {vals0 : Vals K} (hev0 : evalEnv sem jaxpr consts x0 = .ok vals0) (hne0 : NonEmptyVals vals0)
    {vals : Vals K} (hev : evalEnv sem jaxpr consts x = .ok vals) (hne : NonEmptyVals vals)
    {v : ℤ} {i : Inter K} (hv : env.lookup v = some i) :
    ∃ r a, i.tr = some r ∧ vals.lookup v = some a ∧ r.Contains a :=
  C47_propagated_regions hlib hmd hlh h0 hx hb
    (taylorBoundsOk_of_fits hlib (by omega) hlh h0 hfit hev0 hne0) hev hne hv

end JB
end AB
