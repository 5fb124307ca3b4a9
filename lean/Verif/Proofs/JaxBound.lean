/-
One equation of the interpreter of /repo/autobound/jax/jax_bound.py: the pushforward functions.
-/
import Verif.Spec.JaxSem
import Verif.Props.SoundEncl
import Verif.Props.Dot
import Verif.Props.Encl2

set_option linter.unusedSectionVars false

namespace AB
variable {K : Type} [Field K] [LinearOrder K] [IsStrictOrderedRing K]
open IA (repS)

/-! ### constant sets -/

theorem Coef.atIdx_mem {r : Coef K} {y : ND K} (hw : r.SameShape) (hs : r.shape = y.shape) {I : List ℕ}
    (hI : ValidIdx y.shape I) (v : K) : r.AtIdx I v ↔ r.Mem I v := by
  cases r with
  | arr a =>
    have hs : a.shape = y.shape := hs
    rw [Coef.mem_arr, ND.bget_valid _ (hs ▸ hI)]; rfl
  | ivl l h =>
    have hw : l.shape = h.shape := hw
    have hs : l.shape = y.shape := hs
    show _ ↔ l.bget I ≤ v ∧ v ≤ h.bget I
    rw [ND.bget_valid _ (hs ▸ hI), ND.bget_valid _ (hw ▸ hs ▸ hI)]; rfl

theorem sound_set {r : Coef K} {z y : ND K} (hw : r.WellFormed) (hs : r.shape = y.shape)
    (h : ∀ I, ValidIdx y.shape I → r.AtIdx I (y.get I)) : SoundEncl [r] z y := by
  have hwf : WellFormedEncl ([r] : Encl K) := by
    intro c hc
    rw [List.mem_singleton] at hc; subst hc; exact hw
  refine ⟨by simp, hwf, ?_, ?_⟩
  · rw [encloses_iff hwf]
    refine ⟨?_, fun I hI => ⟨fun i J => if i = 0 then y.bget (I ++ J) else 0, fun i => ⟨?_, ?_⟩, ?_⟩⟩
    · intro i c hc
      rcases i with _ | i
      · cases hc; exact ⟨hw.wf, y.shape, by simp [hs, IA.repS], ble_refl _⟩
      · simp at hc
    · intro c hc J hJ
      rcases i with _ | i
      · cases hc
        cases hJ
        simp only [if_true, List.append_nil]
        rw [ND.bget_valid _ hI, ← Coef.atIdx_mem hw.1 hs hI]
        exact h I hI
      · simp at hc
    · intro hn J
      rcases i with _ | i
      · simp at hn
      · simp
    · simp [selVal, pair_zero_deg, ND.bget_valid _ hI]
  · intro c hc; cases hc; exact hs

theorem SoundEncl.set {r : Coef K} {z y : ND K} (h : SoundEncl [r] z y) :
    r.SameShape ∧ r.shape = y.shape ∧ ∀ I, ValidIdx y.shape I → r.AtIdx I (y.get I) := by
  have hs := h.head r rfl
  have hw := h.wf r (by simp)
  refine ⟨hw.1, hs, fun I hI => ?_⟩
  obtain ⟨w, hw', e⟩ := ((encloses_iff h.wf).1 h.encl).2 I hI
  rw [Coef.atIdx_mem hw.1 hs hI, e]
  have := (hw' 0).1 r rfl [] ValidIdx.nil
  simpa [selVal, pair_zero_deg] using this

/-! ### convert_element_type: entries outside the shapes do not matter -/

theorem ND.canon_bget (a : ND K) {R I : List ℕ} (h : ble a.shape R) (hI : ValidIdx R I) :
    a.canon.bget I = a.bget I := by
  rw [ND.bget_def, ND.bget_def]
  exact ND.canon_get _ (validIdx_bidx h hI)

theorem sound_convert {a c : Encl K} {z y : ND K} {sem : Sem K} {round : K → K} (hround : ∀ t, round t = t) (ha : SoundEncl a z y)
    (hc : mapOverEnclosure a ((Prim.convertElementType round : Prim K).bind1 sem) = .ok c) :
    SoundEncl c z y := by
  obtain ⟨hl, hg⟩ := mapOver_get hc
  have hg' : ∀ (i : ℕ) (x' : Coef K), c[i]? = some x' → ∃ x, a[i]? = some x ∧ x'.shape = x.shape ∧ x.WellFormed ∧
      x'.SameShape ∧ x'.lo = x.lo.canon ∧ x'.hi = x.hi.canon := by
    intro i x' hx'
    obtain ⟨x, hx, h⟩ := hg i x' hx'
    have hw := ha.wf x (List.mem_of_getElem? hx)
    refine ⟨x, hx, ?_⟩
    rcases h with ⟨u, s, rfl, e, rfl⟩ | ⟨l, h', l', h'', rfl, e1, e2, rfl⟩
    · rw [bind1_convert _ hround] at e
      cases e
      exact ⟨rfl, hw, trivial, rfl, rfl⟩
    · rw [bind1_convert _ hround] at e1 e2
      cases e1; cases e2
      exact ⟨rfl, hw, hw.1, rfl, rfl⟩
  have hwf : WellFormedEncl c := by
    intro x' hx'
    obtain ⟨i, hi⟩ := List.getElem?_of_mem hx'
    obtain ⟨x, hx, h1, h2, h3, h4, h5⟩ := hg' i x' hi
    refine ⟨h3, ?_⟩
    cases x' with
    | arr _ => trivial
    | ivl l' h' =>
      cases x with
      | arr u =>
        have h4 : l' = u.canon := h4
        have h5 : h' = u.canon := h5
        subst h4 h5
        intro I hI
        exact le_rfl
      | ivl l h =>
        have h4 : l' = l.canon := h4
        have h5 : h' = h.canon := h5
        subst h4 h5
        intro I hI
        have hs : l.shape = h.shape := h2.1
        have hI : ValidIdx l.shape I := hI
        rw [ND.canon_get _ hI, ND.canon_get _ (hs ▸ hI)]
        exact h2.2 I hI
  have he := (encloses_iff ha.wf).1 ha.encl
  refine ⟨?_, hwf, ?_, ?_⟩
  · intro h
    subst h
    exact ha.ne (List.length_eq_zero_iff.1 hl.symm)
  · rw [encloses_iff hwf]
    refine ⟨?_, fun I hI => ?_⟩
    · intro i x' hx'
      obtain ⟨x, hx, h1, h2, h3, h4, h5⟩ := hg' i x' hx'
      obtain ⟨-, B, hB, hle⟩ := he.1 i x hx
      exact ⟨(hwf x' (List.mem_of_getElem? hx')).wf, B, h1.trans hB, hle⟩
    · obtain ⟨w, hw, e⟩ := he.2 I hI
      refine ⟨w, fun i => ⟨?_, ?_⟩, by rw [e, hl]⟩
      · intro x' hx' J hJ
        obtain ⟨x, hx, h1, h2, h3, h4, h5⟩ := hg' i x' hx'
        obtain ⟨-, B, hB, hle⟩ := he.1 i x hx
        have := (hw i).1 x hx J hJ
        have hb : ble x.shape (y.shape ++ repS i z.shape) := by
          rw [hB]; exact ble_append hle (ble_refl _) rfl
        have hlo : x.lo.shape = x.shape := by cases x <;> rfl
        have hhi : x.hi.shape = x.shape := by
          cases x with
          | arr _ => rfl
          | ivl l h => exact h2.1.symm
        unfold Coef.Mem at this ⊢
        rw [h4, h5, ND.canon_bget _ (hlo ▸ hb) (validIdx_append hI hJ),
          ND.canon_bget _ (hhi ▸ hb) (validIdx_append hI hJ)]
        exact this
      · intro hn J
        apply (hw i).2
        rw [List.getElem?_eq_none_iff] at hn ⊢
        omega
  · intro x' hx'
    obtain ⟨x, hx, h1, -⟩ := hg' 0 x' hx'
    rw [h1]
    exact ha.head x hx


namespace JB
open TEA Lax

/-- What the interpreter knows about a variable with enclosure `i` and value `v`. -/
structure InterOk (md : ℕ) (z : ND K) (i : Inter K) (v : ND K) : Prop where
  encl : SoundEncl i.encl z v
  len : i.encl.length ≤ md + 1
  reg : ∀ r, i.tr = some r → r.SameShape ∧ r.shape = v.shape ∧
    (∀ I, ValidIdx v.shape I → r.AtIdx I (v.get I)) ∧
    (∀ a, i.encl[0]? = some (.arr a) → ∀ I, ValidIdx v.shape I → r.AtIdx I (a.get I)) ∧
    ∀ lo hi, i.encl[0]? = some (.ivl lo hi) → 1 ≤ md

variable {md : ℕ} {z : ND K}

theorem headShape_eq {i : Inter K} {v : ND K} (h : SoundEncl i.encl z v) : i.headShape = v.shape := by
  unfold Inter.headShape
  cases hi : i.encl with
  | nil => exact absurd hi h.ne
  | cons c l => exact h.head c (by rw [hi]; rfl)

theorem InterOk.congr {i : Inter K} {v v' : ND K} (h : InterOk md z i v) (hs : v.Same v') :
    InterOk md z i v' := by
  refine ⟨h.encl.congr hs, h.len, fun r hr => ?_⟩
  obtain ⟨h1, h2, h3, h4, h5⟩ := h.reg r hr
  refine ⟨h1, h2.trans hs.1, fun I hI => ?_, fun a ha I hI => h4 a ha I (hs.1 ▸ hI), h5⟩
  rw [← hs.2 I (hs.1 ▸ hI)]
  exact h3 I (hs.1 ▸ hI)

theorem InterOk.good {i : Inter K} {v : ND K} (h : InterOk md z i v) (he : i.Exact z.shape) :
    GoodEncl i.encl z v := by
  refine h.encl.good ?_
  have := headShape_eq h.encl
  unfold Inter.Exact at he
  rwa [this] at he

theorem InterOk.uniform {i : Inter K} {v : ND K} (h : InterOk md z i v) (he : i.Uniform z.shape) :
    UniformBatch z.shape v.ndim i.encl := by
  have := headShape_eq h.encl
  unfold Inter.Uniform at he
  rwa [this] at he

theorem nary_ok {f : K → K → K} {a b y : ND K} (h : Lax.nary f a b = .ok y) : ND.map2 f a b = .ok y := by
  unfold Lax.nary at h
  split_ifs at h
  exact h

theorem one_ok {r : Py (ND K)} {outs : List (ND K)} (h : r.one = .ok outs) : ∃ y, r = .ok y ∧ outs = [y] := by
  cases r with
  | error e => cases h
  | ok y => cases h; exact ⟨y, rfl, rfl⟩

/-- canonical representatives satisfy the same facts -/
theorem forall_canon {ins : List (Inter K)} {vals : List (ND K)} (h : List.Forall₂ (InterOk md z) ins vals) :
    List.Forall₂ (InterOk md z) ins (vals.map ND.canon) := by
  induction h with
  | nil => exact .nil
  | cons h1 _ ih => exact .cons (h1.congr (ND.canon_same _)) ih

/-- `map_over_enclosure` on one coefficient -/
def mapCoef (g : ND K → Py (ND K)) : Coef K → Py (Coef K)
  | .ivl lo hi => do return .ivl (← g lo) (← g hi)
  | .arr x => do return .arr (← g x)

theorem mapOver_eq (a : Encl K) (g : ND K → Py (ND K)) : mapOverEnclosure a g = a.mapM (mapCoef g) := by
  unfold mapOverEnclosure
  congr 1

theorem bid_ok_le {xs shape dims Ra : List ℕ} {e : Encl K} (he : ExactBatch xs Ra e) (hw : WellFormedEncl e) :
    OkLe (broadcastInDimPush shape dims e)
      (mapOverEnclosure e fun u => Lax.broadcastInDim (shape ++ u.shape.drop Ra.length) dims u) := by
  unfold broadcastInDimPush
  rw [mapOver_eq]
  intro r hr
  rw [py_bind_ok] at hr
  obtain ⟨xs', hxs', hr⟩ := hr
  have hx : ∀ i < e.length, rep i xs' = rep i xs := by
    intro i hi
    unfold bidXShape at hxs'
    split at hxs'
    · cases hxs'
    · cases hxs'
      have : i = 0 := by simpa using hi
      subst this; rfl
    · cases hxs'
      rename_i c0 c1 l
      have h0 := he 0 c0 rfl
      have h1 : c1.shape = _ := he 1 (.arr c1) rfl
      simp only [List.replicate_zero, List.flatten_nil, List.append_nil] at h0
      have : c0.ndim = Ra.length := by show c0.shape.length = _; rw [h0]
      rw [this, h1, List.drop_left' rfl]
      simp
    · cases hxs'
  have key : ∀ i c, (i, c) ∈ Poly.enum e →
      bidCoef shape dims xs' (i, c) = mapCoef (fun u => Lax.broadcastInDim (shape ++ u.shape.drop Ra.length) dims u) c := by
    intro i c hic
    unfold Poly.enum at hic
    obtain ⟨k, hk, e1⟩ := List.mem_iff_getElem.1 hic
    simp only [List.length_zip, List.length_range, min_self] at hk
    simp only [List.getElem_zip, List.getElem_range, Prod.mk.injEq] at e1
    obtain ⟨rfl, e2⟩ := e1
    have hc : e[k]? = some c := by rw [List.getElem?_eq_getElem hk, e2]
    have hs := he k c hc
    have hwc := hw c (List.mem_of_getElem? hc)
    unfold bidCoef mapCoef
    rw [hx k hk]
    cases c with
    | arr a =>
      have hs : a.shape = _ := hs
      simp only [hs, List.drop_left' rfl]; rfl
    | ivl l h =>
      have hs : l.shape = _ := hs
      have hw' : l.shape = h.shape := hwc.1
      have hs' : h.shape = _ := hw'.symm.trans hs
      simp only [hs, hs', List.drop_left' rfl]; rfl
  have : ∀ (l : List (ℕ × Coef K)), (∀ p ∈ l, p ∈ Poly.enum e) →
      l.mapM (bidCoef shape dims xs') = (l.map Prod.snd).mapM (mapCoef (fun u => Lax.broadcastInDim (shape ++ u.shape.drop Ra.length) dims u)) := by
    intro l hl
    induction l with
    | nil => rfl
    | cons p l ih =>
      rw [List.mapM_cons, List.map_cons, List.mapM_cons, key p.1 p.2 (hl p (by simp)),
        ih fun q hq => hl q (by simp [hq])]
  rw [this _ fun p hp => hp] at hr
  have e2 : (Poly.enum e).map Prod.snd = e := by
    unfold Poly.enum
    rw [List.map_snd_zip]
    simp
  rw [e2] at hr
  exact hr

/-- the value computed by the primitive, in the form used by the pushforward function -/
theorem bid_value {shape dims : List ℕ} {a y : ND K} (h : Lax.broadcastInDimP shape dims a.canon = .ok y) :
    ∃ y', Lax.broadcastInDim (shape ++ a.shape.drop a.shape.length) dims a = .ok y' ∧ y'.Same y ∧
      dims.length = a.shape.length ∧ (∀ d ∈ dims, d < shape.length) ∧
      ∀ k < a.shape.length, a.shape.getD k 0 = 1 ∨ a.shape.getD k 0 = shape.getD (dims.getD k 0) 0 := by
  rw [List.drop_length, List.append_nil]
  unfold Lax.broadcastInDimP at h
  split_ifs at h with hc
  cases h
  unfold Lax.broadcastInDim
  by_cases h1 : a.ndim = shape.length ∧ dims = []
  · rw [if_pos h1]
    obtain ⟨h1, rfl⟩ := h1
    have h0 : a.ndim = 0 := hc.1.symm
    have ha : a.shape = [] := List.eq_nil_of_length_eq_zero h0
    have hs : shape = [] := List.eq_nil_of_length_eq_zero (by omega)
    subst hs
    refine ⟨a, rfl, ⟨ha, fun I hI => ?_⟩, hc.1, hc.2.2.1, hc.2.2.2⟩
    rw [ha] at hI
    cases hI
    have : a.canon.ndim = 0 := h0
    simp only [this, List.range_zero, List.map_nil]
    exact (ND.canon_get a (by rw [ha]; exact ValidIdx.nil)).symm
  · rw [if_neg h1]
    unfold Lax.broadcastInDimP
    have hc' : dims.length = a.ndim ∧ dims.Pairwise (· < ·) ∧ (∀ d ∈ dims, d < shape.length) ∧
      ∀ k < a.ndim, a.shape.getD k 0 = 1 ∨ a.shape.getD k 0 = shape.getD (dims.getD k 0) 0 := hc
    rw [if_pos hc']
    refine ⟨_, rfl, ⟨rfl, fun I hI => ?_⟩, hc.1, hc.2.2.1, hc.2.2.2⟩
    show a.get _ = a.canon.get _
    symm
    apply ND.canon_get
    have := bidIdx_valid (Ra := a.shape) hc.2.2.1 hc.1 hc.2.2.2 hI
    exact this


section push
variable {lib : Lib K} {sem : Sem K} (hlib : LibSoundAt z lib sem) {T : TEA K} {lo hi : ND K}
  (hinit : TEA.init md lo hi = .ok T) (hz : (Coef.ivl lo hi).Contains z)
  (h0 : (Coef.ivl lo hi).Contains ⟨lo.shape, fun _ => 0⟩)
include hlib hinit hz h0

/-- an element-wise function -/
theorem push_elementwise {f : K → K} {gen : Generator K} (hg : SoundGeneratorAt z f (fun _ => True) gen)
    (hk : KeepsShape gen) {a : Inter K} {v : ND K} {e : Encl K} (ha : InterOk md z a v)
    (hu : UniformBatch z.shape v.ndim a.encl) (hne : ∃ I, ValidIdx v.shape I)
    (hc : T.elementwiseFun gen a.encl a.tr = .ok e) : SoundEncl e z (v.map f) := by
  obtain ⟨hmd, -, -, -⟩ := unpack hinit hz
  cases hr : a.tr with
  | none =>
    rw [hr] at hc
    exact sound_elementwise hinit hz hg hk ha.encl hu hne h0 (fun _ _ _ _ _ _ => trivial) hc
  | some r =>
    rw [hr] at hc
    obtain ⟨k1, k2, k3, k4, k5⟩ := ha.reg r hr
    refine sound_elementwise_supplied hinit hz hg hk ha.encl hu hne k1 k2 ?_ ?_ (fun _ _ _ _ => trivial) hc
    · refine ⟨by rw [k2]; exact bshape_eq_of_ble (ble_refl _), fun I hI => ?_⟩
      rw [k2, bidx_valid hI]
      exact k3 I hI
    · intro a0 x0 h1 h2 I hI
      unfold expansionPoint at h2
      cases a0 with
      | arr b => cases h2; exact k4 _ h1 I hI
      | ivl l h =>
        have := k5 l h h1
        simp only at h2
        rw [if_neg (by omega)] at h2
        cases h2

omit hlib hinit hz h0 in
theorem map2_scalar_right {f : K → K → K} {a b y : ND K} (hb : b.shape = []) (h : ND.map2 f a b = .ok y) :
    (a.map fun x => f x (b.get [])).Same y := by
  obtain ⟨h1, h2⟩ := ND.map2_ok h
  have hs : y.shape = a.shape := by
    rw [hb, bshape_nil_right] at h1
    exact (Option.some.inj h1).symm
  refine ⟨hs.symm, fun I hI => ?_⟩
  have hI : ValidIdx a.shape I := hI
  have hIy : ValidIdx y.shape I := hs ▸ hI
  rw [map2_at h hIy, ND.bget_valid _ hI, ND.bget_def b, hb]
  have : bidx [] I = [] := by
    apply List.eq_nil_of_length_eq_zero
    have := (validIdx_bidx (S := []) (ble_nil _) hI).length
    exact this.symm
  rw [this]; rfl

/-- **One equation.** If every input is soundly enclosed and the equation meets `StepOk`, the output is
soundly enclosed. -/
theorem push_sound {p : Prim K} {f : List (Inter K) → Py (Encl K)} (hf : pushforward lib T p = some f)
    {ins : List (Inter K)} {vals outs : List (ND K)} (hins : List.Forall₂ (InterOk md z) ins vals)
    (hok : StepOk z.shape p ins)
    (hone : ∀ v ∈ outs, ∃ I, ValidIdx v.shape I)
    (hev : p.bind sem vals = .ok outs) {e : Encl K} (hc : f ins = .ok e) :
    ∃ y, outs = [y] ∧ SoundEncl e z y ∧ e.length ≤ md + 1 := by
  obtain ⟨hmd, -, -, hzs⟩ := unpack hinit hz
  have hC := forall_canon hins
  unfold Prim.bind at hev
  have deg := fun a b c => C24_degree_bound T a b c
  rw [hmd] at deg
  -- the number of arguments
  have bin : ∀ g : Inter K → Inter K → Py (Encl K),
      (match ins with | [a, b] => g a b | _ => (.error .typeError : Py (Encl K))) = .ok e →
      ∃ a b v w, ins = [a, b] ∧ vals = [v, w] ∧ InterOk md z a v ∧ InterOk md z b w ∧ g a b = .ok e := by
    intro g hg
    rcases ins with _ | ⟨a, _ | ⟨b, _ | ⟨c, l⟩⟩⟩ <;> simp only [reduceCtorEq] at hg
    rcases hins with _ | ⟨h1, _ | ⟨h2, _ | _⟩⟩
    exact ⟨a, b, _, _, rfl, rfl, h1, h2, hg⟩
  have una : ∀ g : Inter K → Py (Encl K),
      (match ins with | [a] => g a | _ => (.error .typeError : Py (Encl K))) = .ok e →
      ∃ a v, ins = [a] ∧ vals = [v] ∧ InterOk md z a v ∧ g a = .ok e := by
    intro g hg
    rcases ins with _ | ⟨a, _ | ⟨b, l⟩⟩ <;> simp only [reduceCtorEq] at hg
    rcases hins with _ | ⟨h1, _ | _⟩
    exact ⟨a, _, rfl, rfl, h1, hg⟩
  -- linear operations
  have lin : ∀ (g : ND K → Py (ND K)) (a : Inter K) (v : ND K) (Rc : List ℕ)
      (terms : List ℕ → List (K × List ℕ)) (y : ND K), InterOk md z a v → a.Exact z.shape →
      LinearContract z.shape v.shape Rc terms g → (∀ L, ValidIdx Rc L → ∀ t ∈ terms L, 0 ≤ t.1) →
      g v = .ok y → (∃ I, ValidIdx y.shape I) → mapOverEnclosure a.encl g = .ok e →
      SoundEncl e z y ∧ e.length ≤ md + 1 := by
    intro g a v Rc terms y ha hx hL hw hy hne hm
    exact ⟨(C50_pass_thru (ha.good hx) hL hw hy hne hm).sound, by rw [(mapOver_get hm).1]; exact ha.len⟩
  have bind1 : ∀ (q : Prim K) (v : ND K) (outs : List (ND K)), q.eval sem [v.canon] = .ok outs →
      ∀ y, outs = [y] → q.bind1 sem v = .ok y := by
    intro q v outs h y hy
    subst hy
    unfold Prim.bind1 Prim.bind
    simp only [List.map_cons, List.map_nil, h]
    rfl
  cases p with
  | add =>
    cases hf
    obtain ⟨a, b, v, w, rfl, rfl, ha, hb, hg⟩ := bin _ hc
    obtain ⟨y, hy, rfl⟩ := one_ok hev
    exact ⟨y, rfl, sound_add hinit hz (ha.congr (ND.canon_same _)).encl (hb.congr (ND.canon_same _)).encl
      (nary_ok hy) (hone y (by simp)) hg, (deg _ _ _).1 hg⟩
  | sub =>
    cases hf
    obtain ⟨a, b, v, w, rfl, rfl, ha, hb, hg⟩ := bin _ hc
    obtain ⟨y, hy, rfl⟩ := one_ok hev
    exact ⟨y, rfl, sound_subtract hinit hz (ha.congr (ND.canon_same _)).encl (hb.congr (ND.canon_same _)).encl
      (nary_ok hy) (hone y (by simp)) hg, (deg _ _ _).2.1 hg⟩
  | mul =>
    cases hf
    obtain ⟨a, b, v, w, rfl, rfl, ha, hb, hg⟩ := bin _ hc
    obtain ⟨y, hy, rfl⟩ := one_ok hev
    exact ⟨y, rfl, sound_multiply hinit hz (ha.congr (ND.canon_same _)).encl (hb.congr (ND.canon_same _)).encl
      (nary_ok hy) (hone y (by simp)) hg, (deg _ _ _).2.2.2.1 hg⟩
  | div =>
    cases hf
    obtain ⟨a, b, v, w, rfl, rfl, ha, hb, hg⟩ := bin _ hc
    obtain ⟨y, hy, rfl⟩ := one_ok hev
    obtain ⟨g1, g2⟩ := hlib.powInt (-1) (by norm_num)
    simp only [zpow_neg_one] at g1
    refine ⟨y, rfl, sound_divide hinit hz g1 g2 (ha.congr (ND.canon_same _)).encl
      (hb.congr (ND.canon_same _)).encl (hb.uniform hok) (nary_ok hy) (hone y (by simp)) h0
      (fun _ _ _ _ _ _ => trivial) hg, (deg _ _ _).2.2.2.2.2.2.2.2.2 _ hg⟩
  | neg =>
    cases hf
    obtain ⟨a, v, rfl, rfl, ha, hg⟩ := una _ hc
    cases hev
    exact ⟨_, rfl, sound_negative hinit hz (ha.congr (ND.canon_same _)).encl (by have := hone _ (List.mem_singleton.2 rfl); exact this) hg,
      (deg _ [] _).2.2.1 hg⟩
  | pow =>
    cases hf
    obtain ⟨a, b, v, w, rfl, rfl, ha, hb, hg⟩ := bin _ hc
    obtain ⟨y, hy, rfl⟩ := one_ok hev
    unfold powPush at hg
    cases hcv : b.constantValue with
    | none => rw [hcv] at hg; cases hg
    | some u =>
      rw [hcv] at hg
      simp only at hg
      by_cases hsh : u.shape ≠ []
      · rw [if_pos hsh] at hg; cases hg
      rw [if_neg hsh] at hg
      rw [not_not] at hsh
      have hbe : b.encl = [.arr u] := by
        unfold Inter.constantValue at hcv
        split at hcv
        · rename_i u' hu'; cases hcv; exact hu'
        · cases hcv
      have hb' := hb.congr (ND.canon_same _)
      have hsame : u.Same w.canon := by
        have := hb'.encl; rw [hbe] at this; exact this.same
      have hws : w.canon.shape = [] := hsame.1 ▸ hsh
      have hwg : w.canon.get [] = u.get [] := (hsame.2 [] (by rw [hsh]; exact ValidIdx.nil)).symm
      have hyv := map2_scalar_right hws (nary_ok hy)
      rw [hwg] at hyv
      have ha' := ha.congr (ND.canon_same _)
      have hu : UniformBatch z.shape v.canon.ndim a.encl := ha'.uniform hok
      have hvn : ∃ I, ValidIdx v.canon.shape I := by
        have := hone y (by simp)
        rw [← hyv.1] at this
        exact this
      refine ⟨y, rfl, ?_⟩
      cases hx : lib.expo (u.get []) with
      | frac q =>
        rw [hx] at hg
        obtain ⟨g1, g2⟩ := hlib.expoFrac _ _ hx
        exact ⟨(sound_powerOther hinit hz g1 g2 ha'.encl hu hvn h0 (fun _ _ _ _ _ _ => trivial) hg).congr hyv,
          (deg _ [] _).2.2.2.2.2.2.2.2.1 _ hg⟩
      | int n =>
        rw [hx] at hg
        have he := hlib.expoInt _ _ hx
        simp only [he] at hyv
        simp only at hg
        by_cases hn : n < 0
        · rw [if_pos hn] at hg
          obtain ⟨g1, g2⟩ := hlib.powInt n hn
          exact ⟨(sound_powerOther hinit hz g1 g2 ha'.encl hu hvn h0 (fun _ _ _ _ _ _ => trivial) hg).congr hyv,
            (deg _ [] _).2.2.2.2.2.2.2.2.1 _ hg⟩
        · rw [if_neg hn] at hg
          by_cases hn0 : n = 0
          · rw [if_pos hn0] at hg
            subst hn0
            refine ⟨(sound_power hinit hz ha'.encl hvn hg).congr ?_, (deg _ [] _).2.2.2.2.1 _ hg⟩
            simpa only [zpow_zero, pow_zero] using hyv
          · rw [if_neg hn0] at hg; cases hg
  | integerPow n =>
    cases hf
    obtain ⟨a, v, rfl, rfl, ha, hg⟩ := una _ hc
    cases hev
    have ha' := ha.congr (ND.canon_same _)
    refine ⟨_, rfl, ?_⟩
    by_cases hn : 0 ≤ n
    · rw [if_pos hn] at hg
      have := sound_power hinit hz ha'.encl (by have := hone _ (List.mem_singleton.2 rfl); exact this) hg
      have e1 : ∀ x : K, x ^ n = x ^ n.toNat := by
        intro x
        rw [← zpow_natCast, Int.toNat_of_nonneg hn]
      simp only [e1]
      exact ⟨this, (deg _ [] _).2.2.2.2.1 _ hg⟩
    · rw [if_neg hn] at hg
      obtain ⟨g1, g2⟩ := hlib.powInt n (by omega)
      have hu : UniformBatch z.shape v.canon.ndim a.encl := ha'.uniform (by
        rcases hok with h | h
        · exact absurd h hn
        · exact h)
      exact ⟨sound_powerOther hinit hz g1 g2 ha'.encl hu (by have := hone _ (List.mem_singleton.2 rfl); exact this) h0
        (fun _ _ _ _ _ _ => trivial) hg, (deg _ [] _).2.2.2.2.2.2.2.2.1 _ hg⟩
  | dotGeneral lc rc lb rb =>
    cases hf
    obtain ⟨a, b, v, w, rfl, rfl, ha, hb, hg⟩ := bin _ hc
    obtain ⟨y, hy, rfl⟩ := one_ok hev
    obtain ⟨k1, k2, k3⟩ := hok
    refine ⟨y, rfl, (C49_dot_general lib.sem hinit hz (ha.good k1) (hb.good k2) k3 ?_ (hone y (by simp)) hg).sound,
      (deg _ _ _).2.2.2.2.2.1 _ hg⟩
    rw [bind2_dotGeneral]
    exact hy
  | conv op =>
    cases hf
    obtain ⟨a, b, v, w, rfl, rfl, ha, hb, hg⟩ := bin _ hc
    obtain ⟨y, hy, rfl⟩ := one_ok hev
    obtain ⟨k1, k2, Rc, terms, k3, k4⟩ := hok
    rw [headShape_eq ha.encl, headShape_eq hb.encl] at k3
    refine ⟨y, rfl, (C49_conv lib.sem hinit hz (ha.good k1) (hb.good k2) k3 k4 ?_ (hone y (by simp)) hg).sound,
      (deg _ _ _).2.2.2.2.2.1 _ hg⟩
    rw [bind2_conv]
    exact hy
  | broadcastInDim shape dims =>
    cases hf
    obtain ⟨a, v, rfl, rfl, ha, hg⟩ := una _ hc
    obtain ⟨y, hy, rfl⟩ := one_ok hev
    obtain ⟨y', q1, q2, q3, q4, q5⟩ := bid_value hy
    have hx := ha.good hok
    have hg' := bid_ok_le hx.exact hx.wf _ hg
    refine ⟨y, rfl, ?_⟩
    have hne := hone y (by simp)
    obtain ⟨s1, s2⟩ := lin _ a v _ _ y' ha hok (C50_broadcast_in_dim z.shape q3 q4 q5) (by
      intro L _ t ht
      rw [List.mem_singleton] at ht
      subst ht
      exact zero_le_one) q1 (by rw [q2.1]; exact hne) hg'
    exact ⟨s1.congr q2, s2⟩
  | elementwise name =>
    simp only [pushforward, Option.map_eq_some_iff] at hf
    obtain ⟨g, hgen, rfl⟩ := hf
    obtain ⟨a, v, rfl, rfl, ha, hg⟩ := una _ hc
    obtain ⟨f, hfn, g1, g2⟩ := hlib.gen _ _ hgen
    simp only [List.map_cons, List.map_nil, Prim.eval, hfn] at hev
    cases hev
    have ha' := ha.congr (ND.canon_same _)
    exact ⟨_, rfl, push_elementwise hlib hinit hz h0 g1 g2 ha' (ha'.uniform hok) (by have := hone _ (List.mem_singleton.2 rfl); exact this) hg,
      (deg _ [] _).2.2.2.2.2.2.2.1 _ _ hg⟩
  | convertElementType round =>
    cases hf
    obtain ⟨a, v, rfl, rfl, ha, hg⟩ := una _ hc
    have hround : ∀ t, round t = t := hok
    rw [show round = id from funext hround] at hev
    cases hev
    exact ⟨_, rfl, sound_convert hround (ha.congr (ND.canon_same _)).encl hg, by
      rw [(mapOver_get hg).1]; exact ha.len⟩
  | reshape s =>
    cases hf
    obtain ⟨a, v, rfl, rfl, ha, hg⟩ := una _ hc
    have hev1 := hev
    obtain ⟨y, hy, rfl⟩ := one_ok hev1
    have hb := bind1 _ v _ hev y rfl
    have hsz : s.prod = v.shape.prod := by
      unfold Lax.reshape at hy
      split_ifs at hy with h
      exact h
    have hpos : v.shape.prod ≠ 0 := by
      have hys : y.shape = s := by
        unfold Lax.reshape at hy
        split_ifs at hy with h
        cases hy; rfl
      obtain ⟨I, hI⟩ := hone y (by simp)
      have := ravel_lt' hI
      rw [hys] at this
      omega
    exact ⟨y, rfl, lin _ a v _ _ y ha hok.1 (C50_reshape lib.sem hok.2 hsz hpos) (by
      intro L _ t ht
      rw [List.mem_singleton] at ht
      subst ht
      exact zero_le_one) hb (hone y (by simp)) hg⟩
  | reduceSum axes =>
    cases hf
    obtain ⟨a, v, rfl, rfl, ha, hg⟩ := una _ hc
    have hev1 := hev
    obtain ⟨y, hy, rfl⟩ := one_ok hev1
    have hb := bind1 _ v _ hev y rfl
    have hax : AxesOk v.shape.length axes := by
      unfold Lax.reduceSum at hy
      split_ifs at hy with h
      exact h
    exact ⟨y, rfl, lin _ a v _ _ y ha hok (C50_reduce_sum lib.sem z.shape hax) (by
      intro L _ t ht
      obtain ⟨J, _, rfl⟩ := List.mem_map.1 ht
      exact zero_le_one) hb (hone y (by simp)) hg⟩
  | reduceWindowSum ws =>
    cases hf
    obtain ⟨a, v, rfl, rfl, ha, hg⟩ := una _ hc
    have hev1 := hev
    obtain ⟨y, hy, rfl⟩ := one_ok hev1
    have hb := bind1 _ v _ hev y rfl
    have hax : ws.length = v.shape.length := by
      unfold Lax.reduceWindowSum at hy
      split_ifs at hy with h
      exact h
    exact ⟨y, rfl, lin _ a v _ _ y ha hok (C50_reduce_window_sum lib.sem z.shape hax) (by
      intro L _ t ht
      obtain ⟨J, _, h⟩ := List.mem_filterMap.1 ht
      obtain ⟨α, _, rfl⟩ := Option.map_eq_some_iff.1 h
      exact zero_le_one) hb (hone y (by simp)) hg⟩
  | squeeze dims =>
    cases hf
    obtain ⟨a, v, rfl, rfl, ha, hg⟩ := una _ hc
    have hev1 := hev
    obtain ⟨y, hy, rfl⟩ := one_ok hev1
    have hb := bind1 _ v _ hev y rfl
    have hax : AxesOk v.shape.length dims ∧ ∀ d ∈ dims, v.shape.getD d 0 = 1 := by
      unfold Lax.squeeze at hy
      split_ifs at hy with h
      exact h
    exact ⟨y, rfl, lin _ a v _ _ y ha hok (C50_squeeze lib.sem z.shape hax.1 hax.2) (by
      intro L _ t ht
      rw [List.mem_singleton] at ht
      subst ht
      exact zero_le_one) hb (hone y (by simp)) hg⟩
  | transpose perm =>
    cases hf
    obtain ⟨a, v, rfl, rfl, ha, hg⟩ := una _ hc
    have hev1 := hev
    obtain ⟨y, hy, rfl⟩ := one_ok hev1
    have hb := bind1 _ v _ hev y rfl
    have hax : perm.length = v.shape.length ∧ perm.Nodup ∧ ∀ p ∈ perm, p < v.shape.length := by
      unfold Lax.transpose at hy
      split_ifs at hy with h
      exact h
    exact ⟨y, rfl, lin _ a v _ _ y ha hok (C50_transpose lib.sem z.shape hax.1 hax.2.1 hax.2.2) (by
      intro L _ t ht
      rw [List.mem_singleton] at ht
      subst ht
      exact zero_le_one) hb (hone y (by simp)) hg⟩
  | jit body =>
    cases hf
    obtain ⟨a, v, rfl, rfl, ha, hg⟩ := una _ hc
    have hev1 := hev
    obtain ⟨y, hy, rfl⟩ := one_ok hev1
    have hb := bind1 _ v _ hev y rfl
    obtain ⟨k1, Rc, terms, k2, k3⟩ := hok
    rw [headShape_eq ha.encl] at k2
    exact ⟨y, rfl, lin _ a v _ _ y ha k1 (C50_jit lib.sem k2) k3 hb (hone y (by simp)) hg⟩
  | other name impl => cases hf

end push
end JB
end AB
