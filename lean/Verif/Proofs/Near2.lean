/-
C82: one equation, with generators that are right up to an error.
-/
import Verif.Proofs.Near

set_option linter.unusedSectionVars false
set_option linter.unusedTactic false

namespace AB
variable {K : Type} [Field K] [LinearOrder K] [IsStrictOrderedRing K]
open IA (repS)

namespace JB
open TEA Lax

/-- the same shapes -/
abbrev SS (l l' : List (ND K)) : Prop := List.Forall₂ (fun a a' => a.shape = a'.shape) l l'

theorem rel_ok {A B : Type} {R : A → B → Prop} {x : Py A} {y : Py B} (h : PyRel R x y) {a : A} (hx : x = .ok a) :
    ∃ b, y = .ok b ∧ R a b := by
  rcases h with ⟨a', b, h1, h2, h3⟩ | ⟨_, h1, -⟩
  · rw [hx] at h1; cases h1; exact ⟨b, h2, h3⟩
  · rw [hx] at h1; cases h1

theorem nary_sn {f g : K → K → K} {a a' b b' : ND K} (ha : a.shape = a'.shape) (hb : b.shape = b'.shape) :
    PyRel SN (Lax.nary f a b) (Lax.nary g a' b') := by
  unfold Lax.nary
  have h1 : a.ndim = a'.ndim := congrArg List.length ha
  have h2 : b.ndim = b'.ndim := congrArg List.length hb
  rw [h1, h2]
  split_ifs
  · exact map2_sn ha hb
  · exact PyRel.err _

/-- whether a primitive succeeds, and the shapes of its results, depend on the shapes of its arguments -/
theorem bind_shapes (sem : Sem K) {p : Prim K} (hp : ShapeOnly p) {args args' outs : List (ND K)} (hs : SS args args')
    (h : p.bind sem args = .ok outs) : ∃ outs', p.bind sem args' = .ok outs' ∧ SS outs outs' := by
  unfold Prim.bind at h ⊢
  have hc : SS (args.map ND.canon) (args'.map ND.canon) := by
    refine List.forall₂_map_left_iff.2 (List.forall₂_map_right_iff.2 ?_)
    exact hs.imp fun _ _ h => h
  generalize args.map ND.canon = l at h hc
  generalize args'.map ND.canon = l' at hc
  rcases hc with _ | ⟨h1, _ | ⟨h2, _ | ⟨h3, hr⟩⟩⟩
  · cases p <;> first | cases h | skip
    exact hp _ _ .nil _ h
  · cases p <;> first | (simp only [Prim.eval] at h; cases h; done) | skip
    · cases h; exact ⟨_, rfl, .cons h1 .nil⟩
    · cases h; exact ⟨_, rfl, .cons h1 .nil⟩
    · exact rel_ok (one_rel (bidP_sn h1 _ _)) h
    · rename_i name
      simp only [Prim.eval] at h ⊢
      cases hf : sem.fn name with
      | none => rw [hf] at h; cases h
      | some f => rw [hf] at h; cases h; exact ⟨_, rfl, .cons h1 .nil⟩
    · cases h; exact ⟨_, rfl, .cons h1 .nil⟩
    · exact rel_ok (one_rel (reshape_sn h1 _)) h
    · exact rel_ok (one_rel (reduceSum_sn h1 _)) h
    · exact rel_ok (one_rel (window_sn h1 _)) h
    · exact rel_ok (one_rel (squeeze_sn h1 _)) h
    · exact rel_ok (one_rel (transpose_sn h1 _)) h
    · obtain ⟨y, hy, rfl⟩ := one_ok h
      obtain ⟨y', hy', e⟩ := hp _ _ h1 _ hy
      refine ⟨[y'], ?_, .cons e .nil⟩
      simp only [Prim.eval, hy']
      rfl
    · exact hp _ _ (.cons h1 .nil) _ h
  · cases p <;> first | (simp only [Prim.eval] at h; cases h; done) | skip
    · exact rel_ok (one_rel (nary_sn h1 h2)) h
    · exact rel_ok (one_rel (nary_sn h1 h2)) h
    · exact rel_ok (one_rel (nary_sn h1 h2)) h
    · exact rel_ok (one_rel (nary_sn h1 h2)) h
    · exact rel_ok (one_rel (nary_sn h1 h2)) h
    · exact rel_ok (one_rel (dotGeneral_sn h1 h2 _ _ _ _)) h
    · obtain ⟨y, hy, rfl⟩ := one_ok h
      obtain ⟨y', hy', e⟩ := hp _ _ _ _ h1 h2 _ hy
      refine ⟨[y'], ?_, .cons e .nil⟩
      simp only [Prim.eval, hy']
      rfl
    · exact hp _ _ (.cons h1 (.cons h2 .nil)) _ h
  · cases p <;> first | (simp only [Prim.eval] at h; cases h; done) | skip
    exact hp _ _ (.cons h1 (.cons h2 (.cons h3 hr))) _ h

/-- the tables without any element-wise enclosure -/
def rigidLib (lib : Lib K) : Lib K where
  sem := lib.sem
  gen _ := none
  powGen _ := fun _ _ _ => .error .unmodelled
  expo p := .frac p

theorem rigidLib_sound {ε : K} {lib : Lib K} {sem : Sem K} (h : LibNear ε lib sem) (z : ND K) :
    LibSoundAt z (rigidLib lib) sem where
  fn := h.fn
  pow := h.pow
  gen n g hg := by cases hg
  powInt n _ := ⟨fun _ _ _ _ _ _ _ _ _ _ _ hg => (by cases hg), fun _ _ _ _ hg => (by cases hg)⟩
  expoInt p n h := by cases h
  expoFrac p q _ := ⟨fun _ _ _ _ _ _ _ _ _ _ _ hg => (by cases hg), fun _ _ _ _ hg => (by cases hg)⟩

theorem _root_.AB.NearArr.refl {ε : K} (hε : 0 ≤ ε) (a : ND K) : NearArr ε a a := ⟨rfl, fun _ _ => by rw [sub_self, abs_zero]; exact hε⟩

theorem _root_.AB.NearArr.congr {ε : K} {a b b' : ND K} (h : NearArr ε a b) (hs : b.Same b') : NearArr ε a b' := by
  refine ⟨h.1.trans hs.1, fun I hI => ?_⟩
  rw [← hs.2 I (h.1 ▸ hI)]
  exact h.2 I hI

section
variable {md : ℕ} {z : ND K} {ε : K} {lib : Lib K} {sem : Sem K} (hlib : LibNear ε lib sem) {T : TEA K} {lo hi : ND K}
  (hinit : TEA.init md lo hi = .ok T) (hz : (Coef.ivl lo hi).Contains z)
  (h0 : (Coef.ivl lo hi).Contains ⟨lo.shape, fun _ => 0⟩)
include hlib hinit hz h0

theorem push_near {p : Prim K} {f : List (Inter K) → Py (Encl K)} (hf : pushforward lib T p = some f)
    {ins : List (Inter K)} {vals outs : List (ND K)} (hins : List.Forall₂ (InterOk md z) ins vals)
    (htr : ∀ i ∈ ins, i.tr = none ∨ i.constantValue ≠ none) (hcv : ins.mapM Inter.constantValue = none)
    (hok : StepOk z.shape p ins)
    (hone : ∀ v ∈ outs, ∃ I, ValidIdx v.shape I)
    (hev : p.bind sem vals = .ok outs) {e : Encl K} (hc : f ins = .ok e) :
    ∃ y, NearBind ε sem p vals [y] ∧ SS outs [y] ∧ SoundEncl e z y ∧ e.length ≤ md + 1 := by
  obtain ⟨hmd, -, -, hzs⟩ := unpack hinit hz
  have deg := fun a b c => C24_degree_bound T a b c
  rw [hmd] at deg
  have rig : pushforward (rigidLib lib) T p = some f → ∃ y, NearBind ε sem p vals [y] ∧ SS outs [y] ∧
      SoundEncl e z y ∧ e.length ≤ md + 1 := by
    intro hf'
    obtain ⟨y, rfl, k1, k2⟩ := push_sound (rigidLib_sound hlib z) hinit hz h0 hf' hins hok hone hev hc
    exact ⟨y, .exact hev, .cons rfl .nil, k1, k2⟩
  have bin : ∀ g : Inter K → Inter K → Py (Encl K),
      (match ins with | [a, b] => g a b | _ => (.error .typeError : Py (Encl K))) = .ok e →
      ∃ a b v w, ins = [a, b] ∧ vals = [v, w] ∧ InterOk md z a v ∧ InterOk md z b w ∧ g a b = .ok e := by
    intro g hg
    rcases ins with _ | ⟨a, _ | ⟨b, _ | ⟨c, l⟩⟩⟩ <;> simp only [reduceCtorEq] at hg
    rcases hins with _ | ⟨h1, _ | ⟨h2, _ | _⟩⟩
    exact ⟨a, b, _, _, rfl, rfl, h1, h2, hg⟩
  have una : ∀ g : Inter K → Py (Encl K),
      (match ins with | [a] => g a | _ => (.error .typeError : Py (Encl K))) = .ok e →
      ∃ a v, ins = [a] ∧ vals = [v] ∧ InterOk md z a v ∧ g a = .ok e := by
    intro g hg
    rcases ins with _ | ⟨a, _ | ⟨b, l⟩⟩ <;> simp only [reduceCtorEq] at hg
    rcases hins with _ | ⟨h1, _ | _⟩
    exact ⟨a, _, rfl, rfl, h1, hg⟩
  cases p <;> first | exact rig hf | skip
  case div =>
    cases hf
    obtain ⟨a, b, v, w, rfl, rfl, ha, hb, hg⟩ := bin _ hc
    obtain ⟨y, hy, rfl⟩ := one_ok hev
    obtain ⟨g1, g2⟩ := hlib.powInt (-1) (by norm_num)
    simp only [zpow_neg_one] at g1
    have hlen := (deg _ _ _).2.2.2.2.2.2.2.2.2 _ hg
    simp only [divide, py_bind_ok] at hg
    obtain ⟨q, hq, hg⟩ := hg
    have hyne := hone y (by simp)
    obtain ⟨l1, l2⟩ := ND.map2_shape (nary_ok hy)
    have hwne : ∃ I, ValidIdx w.shape I := by
      obtain ⟨I, hI⟩ := hyne
      exact ⟨_, validIdx_bidx l2 hI⟩
    obtain ⟨r, hr, kr⟩ := near_powerOther hinit hz g1 g2 hb.encl (hb.uniform hok) hwne h0 hq
    obtain ⟨y', hy', hs'⟩ := rel_ok (nary_sn (f := (· / ·)) (g := (· * ·)) (a := v.canon) (b := w.canon)
      (a' := v.canon) (b' := r.canon) rfl hr.1.symm) hy
    refine ⟨y', .div (r := r) hr (by simp only [Prim.bind, List.map_cons, List.map_nil, Prim.eval, hy']; rfl),
      .cons hs' .nil, ?_, hlen⟩
    refine sound_multiply hinit hz (ha.congr (ND.canon_same _)).encl (kr.congr (ND.canon_same _)) (nary_ok hy') ?_ hg
    obtain ⟨I, hI⟩ := hyne
    exact ⟨I, (show y.shape = y'.shape from hs') ▸ hI⟩
  case integerPow n =>
    by_cases hn : 0 ≤ n
    · refine rig ?_
      rw [← hf]
      simp only [pushforward]
      congr 1
      funext ins
      rcases ins with _ | ⟨a, _ | ⟨b, l⟩⟩
      · rfl
      · simp only [if_pos hn]
      · rfl
    · cases hf
      obtain ⟨a, v, rfl, rfl, ha, hg⟩ := una _ hc
      simp only [if_neg hn] at hg
      cases hev
      obtain ⟨g1, g2⟩ := hlib.powInt n (not_le.1 hn)
      have hne : ∃ I, ValidIdx v.shape I := by
        have := hone _ (List.mem_singleton.2 rfl)
        exact this
      obtain ⟨w, hw, kw⟩ := near_powerOther hinit hz g1 g2 ha.encl (ha.uniform (by
        rcases hok with h | h
        · exact absurd h hn
        · exact h)) hne h0 hg
      exact ⟨w, .integerPow (not_le.1 hn) hw, .cons hw.1.symm .nil, kw, (deg _ [] _).2.2.2.2.2.2.2.2.1 _ hg⟩
  case elementwise name =>
    simp only [pushforward, Option.map_eq_some_iff] at hf
    obtain ⟨g, hg', rfl⟩ := hf
    obtain ⟨f, hfn, g1, g2⟩ := hlib.gen _ _ hg'
    obtain ⟨a, v, rfl, rfl, ha, hg⟩ := una _ hc
    have hev' : outs = [v.canon.map f] := by
      simp only [Prim.bind, List.map_cons, List.map_nil, Prim.eval, hfn] at hev
      cases hev; rfl
    subst hev'
    have hne : ∃ I, ValidIdx v.shape I := by
      have := hone _ (List.mem_singleton.2 rfl)
      exact this
    have hat : a.tr = none := by
      refine (htr a (by simp)).resolve_right fun h => ?_
      cases hv : a.constantValue with
      | none => exact h hv
      | some u => simp only [List.mapM_cons, List.mapM_nil, hv] at hcv; cases hcv
    have hlen := (deg a.encl [] e).2.2.2.2.2.2.2.1 g a.tr hg
    rw [hat] at hg
    obtain ⟨w, hw, kw⟩ := near_elementwise hinit hz g1 g2 ha.encl (ha.uniform hok) hne h0 hg
    exact ⟨w, .elementwise hfn hw, .cons hw.1.symm .nil, kw, hlen⟩
  case pow =>
    cases hf
    obtain ⟨a, b, v, w, rfl, rfl, ha, hb, hg⟩ := bin _ hc
    obtain ⟨y, hy, rfl⟩ := one_ok hev
    unfold powPush at hg
    cases hcv : b.constantValue with
    | none => rw [hcv] at hg; cases hg
    | some u =>
      rw [hcv] at hg
      simp only at hg
      by_cases hsh : u.shape ≠ []
      · rw [if_pos hsh] at hg; cases hg
      rw [if_neg hsh] at hg
      rw [not_not] at hsh
      have hbe : b.encl = [.arr u] := constantValue_eq hcv
      have hb' := hb.congr (ND.canon_same _)
      have hsame : u.Same w.canon := by
        have := hb'.encl; rw [hbe] at this; exact this.same
      have hws : w.canon.shape = [] := hsame.1 ▸ hsh
      have hwg : w.canon.get [] = u.get [] := (hsame.2 [] (by rw [hsh]; exact ValidIdx.nil)).symm
      have hyv := map2_scalar_right hws (nary_ok hy)
      rw [hwg] at hyv
      have ha' := ha.congr (ND.canon_same _)
      have hu : UniformBatch z.shape v.canon.ndim a.encl := ha'.uniform hok
      have hvn : ∃ I, ValidIdx v.canon.shape I := by
        have := hone y (by simp)
        rw [← hyv.1] at this
        exact this
      have near : ∀ r, NearArr ε r (v.canon.map fun x => sem.pow x (u.get [])) → SoundEncl e z r →
          e.length ≤ md + 1 → ∃ y', NearBind ε sem .pow [v, w] [y'] ∧ SS [y] [y'] ∧ SoundEncl e z y' ∧
            e.length ≤ md + 1 := by
        intro r hr kr hl
        have hr' := hr.congr hyv
        exact ⟨r, .pow hev hr', .cons hr'.1.symm .nil, kr, hl⟩
      cases hx : lib.expo (u.get []) with
      | frac q =>
        rw [hx] at hg
        obtain ⟨g1, g2⟩ := hlib.expoFrac _ _ hx
        obtain ⟨r, hr, kr⟩ := near_powerOther hinit hz g1 g2 ha'.encl hu hvn h0 hg
        exact near r hr kr ((deg _ [] _).2.2.2.2.2.2.2.2.1 _ hg)
      | int n =>
        rw [hx] at hg
        have he := hlib.expoInt _ _ hx
        simp only at hg
        by_cases hn : n < 0
        · rw [if_pos hn] at hg
          obtain ⟨g1, g2⟩ := hlib.powInt n hn
          obtain ⟨r, hr, kr⟩ := near_powerOther hinit hz g1 g2 ha'.encl hu hvn h0 hg
          refine near r ?_ kr ((deg _ [] _).2.2.2.2.2.2.2.2.1 _ hg)
          simpa only [he] using hr
        · rw [if_neg hn] at hg
          by_cases hn0 : n = 0
          · rw [if_pos hn0] at hg
            subst hn0
            refine ⟨y, .exact hev, .cons rfl .nil, (sound_power hinit hz ha'.encl hvn hg).congr ?_, (deg _ [] _).2.2.2.2.1 _ hg⟩
            simp only [he] at hyv
            simpa only [zpow_zero, pow_zero] using hyv
          · rw [if_neg hn0] at hg; cases hg
end
end JB
end AB
