/-
C53, with conditions on the program only: `taylor_bounds` returns (/repo/autobound/jax/jax_bound.py:61-212).
-/
import Verif.Proofs.Live
import Verif.Props.Total
import Verif.Props.Static

set_option linter.unusedSectionVars false

namespace AB
variable {K : Type} [Field K] [LinearOrder K] [IsStrictOrderedRing K]
open IA (repS)

namespace JB
open TEA Lax
variable {md : ℕ} {z : ND K}

theorem labels_mono {xs R : List ℕ} {n m : ℕ} (h : Labels xs R m) (hnm : n ≤ m) : Labels xs R n := by
  rcases h with h | h
  · exact Or.inl h
  · right
    have := Nat.mul_le_mul_right xs.length hnm
    omega

section push
variable {lib : Lib K} {T : TEA K} {lo hi : ND K} {m : ℕ}
  (hinit : TEA.init m lo hi = .ok T) (hz : (Coef.ivl lo hi).Contains z)
  (h0 : (Coef.ivl lo hi).Contains ⟨lo.shape, fun _ => 0⟩)
include hinit hz h0

/-- a generator that returns on every region returns on the argument of an equation -/
theorem genReturns_of_total {g : Generator K} (hg : GenTotal g m) {a : Inter K} {v : ND K}
    (ha : InterOk m z a v) (hu : UniformBatch z.shape v.ndim a.encl) :
    GenReturns T g a.encl none ∧ GenReturns T g a.encl a.tr := by
  obtain ⟨hmd, -, -, -⟩ := unpack hinit hz
  have hm := uniform_mode hu
  have key : ∀ (r : Coef K) (x0 : ND K), r.WF → ble r.shape x0.shape →
      (∀ I, ValidIdx x0.shape I → r.Mem I (x0.bget I)) → ∃ e, g x0 (toInterval r) T.maxDegree = .ok e := by
    intro r x0 h1 h2 h3
    rw [toInterval_eq, hmd]
    refine hg x0 r.lo r.hi ?_ ?_ ?_
    · rw [Coef.lo_shape, h1.hi_shape]
    · rw [Coef.lo_shape]; exact ble_iff_bshape.2 h2
    · intro I hI
      have := h3 I hI
      rw [ND.bget_valid _ hI] at this
      exact this
  have hnone : GenReturns T g a.encl none := by
    intro r c x0 hr hc hx0
    obtain ⟨r', e1, -, e2, e3, e4, e5⟩ := derived_region hinit hz ha.encl.wf (rankM_cm _) hm ha.encl.encl ha.encl.ne h0
    rw [hr] at e1
    cases e1
    have hs0 : x0.shape = v.shape := by
      rw [(expansionPoint_shape hx0).1]; exact ha.encl.head _ hc
    exact key r x0 e2 (by rw [hs0]; exact e4) (fun I hI => e5 c x0 hc hx0 I (hs0 ▸ hI))
  refine ⟨hnone, ?_⟩
  cases ht : a.tr with
  | none => exact hnone
  | some r =>
    obtain ⟨k1, k2, k3, k4, k5⟩ := ha.reg r ht
    intro r' c x0 hr h1 h2
    cases hr
    have hs0 : x0.shape = v.shape := by
      rw [(expansionPoint_shape h2).1]; exact ha.encl.head _ h1
    refine key r x0 (Coef.sameShape_iff.1 k1) (by rw [hs0, k2]; exact ble_refl _) fun I hI => ?_
    replace hI : ValidIdx v.shape I := hs0 ▸ hI
    have hat : r.AtIdx I (x0.get I) := by
      unfold expansionPoint at h2
      cases c with
      | arr b => cases h2; exact k4 _ h1 I hI
      | ivl l h =>
        have := k5 l h h1
        simp only at h2
        rw [if_neg (by omega)] at h2
        cases h2
    rw [ND.bget_valid _ (hs0 ▸ hI)]
    unfold Coef.Mem
    cases r with
    | arr b =>
      have : b.shape = v.shape := k2
      simp only [Coef.lo, Coef.hi]
      rw [ND.bget_valid _ (this ▸ hI)]
      have h : x0.get I = b.get I := by simpa [Coef.AtIdx] using hat
      exact ⟨h.ge, h.le⟩
    | ivl l h =>
      have e1 : l.shape = v.shape := k2
      have e2 : l.shape = h.shape := k1
      simp only [Coef.lo, Coef.hi]
      rw [ND.bget_valid _ (e1 ▸ hI), ND.bget_valid _ (e2 ▸ e1 ▸ hI)]
      exact hat

/-- the condition on one equation of a run follows from the condition on the program -/
theorem stepReturns_of {propagate : Bool} (hm : m = md ∨ (m = 0 ∧ propagate = true)) {p : Prim K}
    {sem : Sem K} {atoms : List (Atom K)} {cs : List ℤ} {ins : List (Inter K)} {vals outs : List (ND K)}
    (hins : List.Forall₂ (InterOk m z) ins vals) (hex : ∀ i ∈ ins, i.Exact z.shape)
    (harr : ∀ i ∈ ins, ArrBelow m i.encl)
    (hev : p.bind sem vals = .ok outs) (hlen : atoms.length = ins.length)
    (hconst : propagate = false → List.Forall₂ (fun (a : Atom K) (iv : Inter K × ND K) =>
      a.constIn cs = true → iv.1.constantValue = some iv.2) atoms (ins.zip vals))
    (hret : EqnReturns lib z.shape md propagate cs p atoms vals) : StepReturns lib T z.shape p ins := by
  obtain ⟨hmd, -, -, hzs⟩ := unpack hinit hz
  have har := arity_ok hev
  have hmm : m ≤ md := by rcases hm with h | h <;> omega
  have uni : ∀ {a : Inter K} {v : ND K}, a ∈ ins → InterOk m z a v → UniformBatch z.shape v.ndim a.encl := by
    intro a v ha h
    have := exact_uniform (hex a ha)
    rwa [headShape_eq h.encl] at this
  have lab : ∀ {a : Inter K} {v : ND K} {n k : ℕ}, InterOk m z a v → n ≤ k → Labels z.shape v.shape (md * k) →
      Labels z.shape a.headShape ((a.encl.length - 1) * n) := by
    intro a v n k h hn hl
    rw [headShape_eq h.encl]
    refine labels_mono hl (Nat.mul_le_mul ?_ hn)
    have := h.len
    omega
  have tot : ∀ {g : Generator K}, GenUsable md propagate g → GenTotal g m := by
    intro g hg
    rcases hm with h | ⟨h, h'⟩
    · rw [h]; exact hg.1
    · rw [h]; exact hg.2 h'
  cases p with
  | div =>
    obtain ⟨a, b, v, w, rfl, rfl, ha, hb⟩ := two_of hins (har 2 rfl)
    obtain ⟨h1, h2⟩ := hret
    exact ⟨lab hb (hmd ▸ hmm) h1, (genReturns_of_total hinit hz h0 (tot h2) hb (uni (by simp) hb)).1⟩
  | integerPow y =>
    obtain ⟨a, v, rfl, rfl, ha⟩ := one_of hins (har 1 rfl)
    obtain ⟨-, h1, h2⟩ := hret
    refine ⟨fun hy => lab ha le_rfl (h1 hy), fun hy => ?_⟩
    obtain ⟨h3, h4⟩ := h2 hy
    exact ⟨lab ha (hmd ▸ hmm) h3, (genReturns_of_total hinit hz h0 (tot h4) ha (uni (by simp) ha)).1⟩
  | pow =>
    obtain ⟨a, b, v, w, rfl, rfl, ha, hb⟩ := two_of hins (har 2 rfl)
    rcases atoms with _ | ⟨at1, _ | ⟨at2, _ | ⟨at3, l⟩⟩⟩ <;> simp at hlen
    obtain ⟨h1, h2, h3, h4, h5⟩ := hret
    have hm' : m = md := by
      rcases hm with h | ⟨-, h⟩
      · exact h
      · rw [h1] at h; cases h
    have hbv : b.constantValue = some w := by
      cases hconst h1 with
      | cons _ h => cases h with
        | cons h _ => exact h h2
    refine ⟨w, hbv, h3, lab ha (hmd ▸ hmm) h4, ?_⟩
    have gt : ∀ g : Generator K, GenTotal g md → GenReturns T g a.encl none := fun g hg =>
      (genReturns_of_total hinit hz h0 (hm' ▸ hg) ha (uni (by simp) ha)).1
    cases hx : lib.expo (w.get []) with
    | frac q => rw [hx] at h5; exact gt _ h5
    | int n => rw [hx] at h5; exact ⟨h5.1.le, fun _ => gt _ h5.2⟩
  | elementwise name =>
    obtain ⟨a, v, rfl, rfl, ha⟩ := one_of hins (har 1 rfl)
    obtain ⟨h1, g, h2, h3⟩ := hret
    exact ⟨lab ha (hmd ▸ hmm) h1, g, h2, (genReturns_of_total hinit hz h0 (tot h3) ha (uni (by simp) ha)).2⟩
  | conv op =>
    obtain ⟨a, b, v, w, rfl, rfl, ha, hb⟩ := two_of hins (har 2 rfl)
    obtain ⟨h1, h2⟩ := hret
    refine ⟨Or.inl h1, fun u v' hu hv => h2 u v' ?_ ?_⟩
    · rw [hu, headShape_eq ha.encl]
    · rw [hv, headShape_eq hb.encl]
  | broadcastInDim _ _ =>
    obtain ⟨a, v, rfl, rfl, ha⟩ := one_of hins (har 1 rfl)
    obtain ⟨h1, h2⟩ := hret
    have hl := ha.len
    have hp := List.length_pos_iff.2 ha.encl.ne
    by_cases hle : a.encl.length = 1
    · exact Or.inl hle
    · right
      refine ⟨h1, ?_⟩
      have hc : a.encl[1]? = some (a.encl[1]'(by omega)) := List.getElem?_eq_getElem _
      have := harr a (by simp) 1 _ hc (by
        rcases hm with h | ⟨h, -⟩ <;> omega)
      cases hcc : a.encl[1]'(by omega) with
      | arr u => exact ⟨u, by rw [hc, hcc]⟩
      | ivl l u => rw [hcc] at this; exact absurd this id
  | reshape _ =>
    obtain ⟨a, v, rfl, rfl, ha⟩ := one_of hins (har 1 rfl)
    exact Or.inr hret
  | transpose _ =>
    obtain ⟨a, v, rfl, rfl, ha⟩ := one_of hins (har 1 rfl)
    exact Or.inr hret
  | reduceWindowSum _ =>
    obtain ⟨a, v, rfl, rfl, ha⟩ := one_of hins (har 1 rfl)
    exact Or.inr hret
  | jit body =>
    obtain ⟨a, v, rfl, rfl, ha⟩ := one_of hins (har 1 rfl)
    intro i u hi hu
    have hl := ha.len
    exact hret i u (by omega) (by rw [hu, headShape_eq ha.encl])
  | other n i => exact hret
  | _ => trivial

end push

/-- variables that depend on the input are not constants -/
def EnvLive (md : ℕ) (cs : List ℤ) (env : Env K) : Prop := ∀ v i, env.lookup v = some i → v ∉ cs → Live md i.encl

/-- all trust regions are intervals -/
def EnvIvl (env : Env K) : Prop := ∀ v i, env.lookup v = some i → ∃ l u, i.tr = some (.ivl l u)

theorem live_of_atoms {cs : List ℤ} {env : Env K} (hL : EnvLive md cs env) {atoms : List (Atom K)}
    {ins : List (Inter K)} (hins : atoms.mapM (getInter env) = .ok ins)
    (hall : atoms.all (Atom.constIn cs) = false) : ∃ i ∈ ins, Live md i.encl := by
  rw [List.all_eq_false] at hall
  obtain ⟨a, ha, hc⟩ := hall
  obtain ⟨k, hk⟩ := List.mem_iff_getElem?.1 ha
  obtain ⟨i, hki, hi⟩ := (Poly.forall₂_getElem? (Poly.mapM_ok hins) k).2 _ hk
  refine ⟨i, List.mem_of_getElem? hki, ?_⟩
  cases a with
  | lit b => exact absurd rfl hc
  | var v =>
    unfold getInter at hi
    cases hl : env.lookup v with
    | none => simp only [hl] at hi; cases hi
    | some j =>
      simp only [hl] at hi
      cases hi
      exact hL v _ hl (by simpa [Atom.constIn] using hc)

theorem not_const_of_live {ins : List (Inter K)} (h : ∃ i ∈ ins, Live md i.encl) :
    ins.mapM Inter.constantValue = none := by
  cases hcv : ins.mapM Inter.constantValue with
  | none => rfl
  | some l =>
    exfalso
    obtain ⟨i, hi, hl⟩ := h
    induction ins generalizing l with
    | nil => cases hi
    | cons j js ih =>
      rw [List.mapM_cons] at hcv
      cases hj : j.constantValue with
      | none => rw [hj] at hcv; cases hcv
      | some v =>
        rw [hj] at hcv
        rcases List.mem_cons.1 hi with rfl | hi
        · exact not_live_const hj hl
        · cases hjs : js.mapM Inter.constantValue with
          | none => rw [hjs] at hcv; cases hcv
          | some l' => exact ih _ hjs hi

theorem consts_of_known {cs : List ℤ} {env : Env K} {vals : Vals K} (hK : ∀ v ∈ cs, KnownConst env vals v)
    {atoms : List (Atom K)} {ins : List (Inter K)} {args : List (ND K)}
    (hins : atoms.mapM (getInter env) = .ok ins) (hargs : atoms.mapM (getVal vals) = .ok args) :
    List.Forall₂ (fun (a : Atom K) (iv : Inter K × ND K) =>
      a.constIn cs = true → iv.1.constantValue = some iv.2) atoms (ins.zip args) := by
  have h1 := Poly.mapM_ok hins
  have h2 := Poly.mapM_ok hargs
  clear hins hargs
  induction h1 generalizing args with
  | nil => cases h2; exact .nil
  | @cons a i la li h _ ih =>
    cases h2 with
    | @cons _ v _ lv h' h2 =>
      refine .cons (fun hc => ?_) (ih h2)
      cases a with
      | lit b => cases h; cases h'; rfl
      | var w =>
        obtain ⟨b, e1, e2⟩ := hK w (by simpa [Atom.constIn] using hc)
        unfold getInter at h
        unfold getVal at h'
        simp only [e1] at h
        simp only [e2] at h'
        cases h; cases h'; rfl

theorem notZeroPow_of {lib : Lib K} {propagate : Bool} {xs : List ℕ} {cs : List ℤ} {p : Prim K} {sem : Sem K}
    {atoms : List (Atom K)} {ins : List (Inter K)} {vals outs : List (ND K)} (hev : p.bind sem vals = .ok outs)
    (hlen : atoms.length = ins.length) (hlv : ins.length = vals.length)
    (hconst : propagate = false → List.Forall₂ (fun (a : Atom K) (iv : Inter K × ND K) =>
      a.constIn cs = true → iv.1.constantValue = some iv.2) atoms (ins.zip vals))
    (hret : EqnReturns lib xs md propagate cs p atoms vals) : NotZeroPow lib p ins := by
  have har := arity_ok hev
  cases p with
  | integerPow y =>
    obtain ⟨v, rfl⟩ := List.length_eq_one_iff.1 (har 1 rfl)
    exact hret.1
  | pow =>
    obtain ⟨v, w, rfl⟩ := List.length_eq_two.1 (har 2 rfl)
    obtain ⟨a, b, rfl⟩ := List.length_eq_two.1 hlv
    obtain ⟨at1, at2, rfl⟩ := List.length_eq_two.1 hlen
    obtain ⟨h1, h2, h3, h4, h5⟩ := hret
    have hbv : b.constantValue = some w := by
      cases hconst h1 with
      | cons _ h => cases h with
        | cons h _ => exact h h2
    intro u hu
    rw [hbv] at hu
    cases hu
    intro hx
    rw [hx] at h5
    exact absurd h5.1 (lt_irrefl _)
  | _ => exact trivial

section run
variable {lib : Lib K} {sem : Sem K} (hlib : LibSoundAt z lib sem) (harr : LibArr lib) (hfull : LibFull lib) {T T0 : TEA K}
  {lo hi : ND K} (hinit : TEA.init md lo hi = .ok T) (hinit0 : TEA.init 0 lo hi = .ok T0)
  (hz : (Coef.ivl lo hi).Contains z) (h0 : (Coef.ivl lo hi).Contains ⟨lo.shape, fun _ => 0⟩)
include hlib harr hfull hinit hinit0 hz h0

omit harr in
theorem regionReturns_of (hmd1 : 1 ≤ md) {p : Prim K} {atoms : List (Atom K)} {cs : List ℤ} {ins : List (Inter K)}
    {vals outs : List (ND K)} (hins : List.Forall₂ (InterOk md z) ins vals)
    (htr : ∀ i ∈ ins, ∃ l u, i.tr = some (.ivl l u)) (hlive : ∃ i ∈ ins, Live md i.encl)
    (hlen : atoms.length = ins.length) (hev : p.bind sem vals = .ok outs)
    (hret : EqnReturns lib z.shape md true cs p atoms vals) : RegionReturns lib T T0 z.shape p ins := by
  obtain ⟨hmd, -, -, -⟩ := unpack hinit hz
  obtain ⟨hmd0, -, -, -⟩ := unpack hinit0 hz
  intro ins0 hreg
  have hF : List.Forall₂ (fun i i0 : Inter K => ∃ l u, i.tr = some (.ivl l u) ∧ i0 = ⟨[.ivl l u], none⟩) ins ins0 := by
    clear hins hlive hlen
    unfold regions at hreg
    induction ins generalizing ins0 with
    | nil => cases hreg; exact .nil
    | cons i is ih =>
      obtain ⟨l, u, hr⟩ := htr i (by simp)
      rw [List.mapM_cons, hr] at hreg
      simp only [Option.map_some, Option.bind_eq_bind, Option.bind_some, Option.bind_eq_some_iff, Option.pure_def,
        Option.some.injEq] at hreg
      obtain ⟨l', h1, rfl⟩ := hreg
      exact .cons ⟨l, u, hr, rfl⟩ (ih (fun j hj => htr j (List.mem_cons_of_mem _ hj)) _ h1)
  have hins0 : List.Forall₂ (InterOk 0 z) ins0 vals := by
    clear hev hret hreg hlen hlive
    induction hins generalizing ins0 with
    | nil => cases hF; exact .nil
    | cons h1 _ ih =>
      cases hF with
      | cons h2 h3 =>
        refine .cons ?_ (ih (fun j hj => htr j (List.mem_cons_of_mem _ hj)) _ h3)
        obtain ⟨l, u, k1, rfl⟩ := h2
        obtain ⟨q1, q2, q3, q4, q5⟩ := h1.reg _ k1
        refine ⟨sound_set ⟨q1, ?_⟩ q2 q3, by simp, fun r hr => by cases hr⟩
        intro I hI
        have := q3 I (q2 ▸ hI)
        exact this.1.trans this.2
  have hex0 : ∀ i ∈ ins0, i.Exact z.shape ∧ Live 0 i.encl ∧ i.encl ≠ [] ∧ i.encl.length ≤ 0 + 1 := by
    intro i hi
    obtain ⟨k, hk⟩ := List.mem_iff_getElem?.1 hi
    obtain ⟨j, -, l, u, -, rfl⟩ := (Poly.forall₂_getElem? hF k).1 i hk
    refine ⟨?_, ⟨fun _ => ⟨l, u, rfl⟩, fun h => by omega⟩, by simp, by simp⟩
    intro k c hc
    match k with
    | 0 => cases hc; simp [Inter.headShape, Coef.shape]
    | k + 1 => simp at hc
  have hl0 := hF.length_eq
  have nz0 : NotZeroPow lib p ins0 := notZeroPow_of hev (hlen.trans hl0) hins0.length_eq (fun h => by cases h) hret
  have nz : NotZeroPow lib p ins := notZeroPow_of hev hlen hins.length_eq (fun h => by cases h) hret
  refine ⟨?_, ?_, ?_⟩
  · exact stepReturns_of hinit0 hz h0 (Or.inr ⟨rfl, rfl⟩) hins0 (fun i hi => (hex0 i hi).1)
      (fun i _ j c _ hj => absurd hj (by omega)) hev (hlen.trans hl0) (fun h => by cases h) hret
  · intro f e hf he
    have := push_live hfull hf (T := T0) (ins := ins0) (by rw [hmd0]; exact fun i hi => (hex0 i hi).2.2) he nz0 (by
      rw [hmd0]
      obtain ⟨i, hi, -⟩ := hlive
      obtain ⟨k, hk⟩ := List.mem_iff_getElem?.1 hi
      obtain ⟨j, hj, -⟩ := (Poly.forall₂_getElem? hF k).2 i hk
      exact ⟨j, List.mem_of_getElem? hj, (hex0 j (List.mem_of_getElem? hj)).2.1⟩)
    rw [hmd0] at this
    exact this.1 rfl
  · intro f e hf he
    have := push_live hfull hf (T := T) (ins := ins) (by
      rw [hmd]
      intro i hi
      obtain ⟨k, hk⟩ := List.mem_iff_getElem?.1 hi
      obtain ⟨v, -, hv⟩ := (Poly.forall₂_getElem? hins k).2 i hk
      exact ⟨hv.encl.ne, hv.len⟩) he nz (by rw [hmd]; exact hlive)
    rw [hmd] at this
    exact this.2 hmd1

omit harr in
theorem returns_step {propagate : Bool} (hprop : propagate = true → 1 ≤ md) {env : Env K} {vals vals' : Vals K}
    {eqn : Eqn K} {cs : List ℤ} (hE : EnvOk md z env vals) (hX : EnvExact z.shape env) (hA : EnvArr md env)
    (hK : ∀ v ∈ cs, KnownConst env vals v) (hL : EnvLive md cs env) (hI : propagate = true → EnvIvl env)
    (hret : ∀ args, eqn.invars.mapM (getVal vals) = .ok args →
      if eqn.invars.all (Atom.constIn cs) then ∃ outs, eqn.prim.bind lib.sem args = .ok outs
      else EqnReturns lib z.shape md propagate cs eqn.prim eqn.invars args)
    (hev : evalEqn sem vals eqn = .ok vals') :
    (∀ ins, eqn.invars.mapM (getInter env) = .ok ins →
      match ins.mapM Inter.constantValue with
      | none => StepReturns lib T z.shape eqn.prim ins ∧
          (propagate = true → RegionReturns lib T T0 z.shape eqn.prim ins)
      | some vals => ∃ outs, eqn.prim.bind lib.sem vals = .ok outs) ∧
    ∀ env', step lib T T0 propagate z.shape env eqn = .ok env' →
      EnvLive md (constAfter cs eqn) env' ∧ (propagate = true → EnvIvl env') := by
  obtain ⟨hmd, -, -, -⟩ := unpack hinit hz
  simp only [evalEqn, py_bind_ok] at hev
  obtain ⟨args, hargs, ys, hys, -⟩ := hev
  have hr := hret args hargs
  have facts : ∀ ins, eqn.invars.mapM (getInter env) = .ok ins → List.Forall₂ (InterOk md z) ins args := by
    intro ins hins
    obtain ⟨args', hargs', hF⟩ := getInters_ok hE hins
    rw [hargs] at hargs'
    cases hargs'
    exact hF
  by_cases hall : eqn.invars.all (Atom.constIn cs) = true
  · -- constant folding
    rw [if_pos hall] at hr
    obtain ⟨args', k1, k2⟩ := known_args hK hall
    rw [hargs] at k2
    cases k2
    constructor
    · intro ins hins
      rw [k1] at hins
      cases hins
      rw [constantValues_map]
      exact hr
    · intro env' hs
      simp only [step, py_bind_ok] at hs
      obtain ⟨ins, hins, outs, houts, hs⟩ := hs
      by_cases hlen : outs.length ≠ eqn.outvars.length
      · rw [if_pos hlen] at hs; cases hs
      rw [if_neg hlen] at hs
      rw [k1] at hins
      cases hins
      unfold eqnOutputs at houts
      rw [constantValues_map] at houts
      simp only [py_bind_ok, py_pure] at houts
      obtain ⟨rs, -, rfl⟩ := houts
      have hcs : constAfter cs eqn = cs ++ eqn.outvars.filter (· ≠ -1) := by unfold constAfter; rw [if_pos hall]
      constructor
      · refine stores_pred (P := fun v i => v ∉ constAfter cs eqn → Live md i.encl) ?_ ?_ hs
        · intro v i hv hn
          exact hL v i hv fun h => hn (by rw [hcs]; exact List.mem_append_left _ h)
        · intro x hx h1 hn
          exfalso
          apply hn
          rw [hcs]
          exact List.mem_append_right _ (List.mem_filter.2 ⟨(List.of_mem_zip hx).1, by simpa using h1⟩)
      · intro hp
        refine stores_pred (P := fun _ i => ∃ l u, i.tr = some (.ivl l u)) (hI hp) ?_ hs
        intro x hx _
        obtain ⟨r, -, hr⟩ := List.mem_map.1 (List.of_mem_zip hx).2
        exact ⟨r, r, by rw [← hr]; rfl⟩
  · rw [if_neg hall] at hr
    have hall' : eqn.invars.all (Atom.constIn cs) = false := by simpa using hall
    constructor
    · intro ins hins
      have hF := facts ins hins
      have hlive := live_of_atoms hL hins hall'
      rw [not_const_of_live hlive]
      have hlen := (Poly.mapM_ok hins).length_eq
      refine ⟨stepReturns_of hinit hz h0 (Or.inl rfl) hF ?_ ?_ hys hlen (fun _ => consts_of_known hK hins hargs) hr, ?_⟩
      · intro i hi
        obtain ⟨k, hk⟩ := List.mem_iff_getElem?.1 hi
        obtain ⟨a, -, ha⟩ := (Poly.forall₂_getElem? (insExact_of_env hX hK hins) k).1 i hk
        exact ha.1
      · intro i hi
        obtain ⟨k, hk⟩ := List.mem_iff_getElem?.1 hi
        obtain ⟨a, -, ha⟩ := (Poly.forall₂_getElem? (Poly.mapM_ok hins) k).1 i hk
        exact arr_getInter hA ha
      · intro hp
        subst hp
        refine regionReturns_of hlib hfull hinit hinit0 hz h0 (hprop rfl) hF ?_ hlive hlen hys hr
        intro i hi
        obtain ⟨k, hk⟩ := List.mem_iff_getElem?.1 hi
        obtain ⟨a, -, ha⟩ := (Poly.forall₂_getElem? (Poly.mapM_ok hins) k).1 i hk
        cases a with
        | lit b => cases ha; exact ⟨b, b, rfl⟩
        | var w =>
          unfold getInter at ha
          cases hl : env.lookup w with
          | none => simp only [hl] at ha; cases ha
          | some i' =>
            simp only [hl] at ha
            cases ha
            exact hI rfl w _ hl
    · intro env' hs
      simp only [step, py_bind_ok] at hs
      obtain ⟨ins, hins, outs, houts, hs⟩ := hs
      by_cases hlen : outs.length ≠ eqn.outvars.length
      · rw [if_pos hlen] at hs; cases hs
      rw [if_neg hlen] at hs
      have hF := facts ins hins
      have hlive := live_of_atoms hL hins hall'
      have hlen' := (Poly.mapM_ok hins).length_eq
      have hcs : constAfter cs eqn = cs := by unfold constAfter; rw [if_neg hall]
      rw [hcs]
      unfold eqnOutputs at houts
      rw [not_const_of_live hlive] at houts
      cases hf : pushforward lib T eqn.prim with
      | none => simp only [hf] at houts; cases houts
      | some f =>
        simp only [hf, py_bind_ok] at houts
        obtain ⟨e, he, houts⟩ := houts
        have hle := push_live hfull hf (ins := ins) (by
          rw [hmd]
          intro i hi
          obtain ⟨k, hk⟩ := List.mem_iff_getElem?.1 hi
          obtain ⟨v, -, hv⟩ := (Poly.forall₂_getElem? hF k).2 i hk
          exact ⟨hv.encl.ne, hv.len⟩) he
          (notZeroPow_of hys hlen' hF.length_eq (fun _ => consts_of_known hK hins hargs) hr)
          (by rw [hmd]; exact hlive)
        rw [hmd] at hle
        have ho : ∀ o ∈ outs, o.encl = e ∧ (propagate = true → ∃ l u, o.tr = some (.ivl l u)) := by
          split_ifs at houts with h1 h2
          · simp only [py_bind_ok, py_pure] at houts
            obtain ⟨r, hrg, rfl⟩ := houts
            intro o ho
            rw [List.mem_singleton] at ho
            subst ho
            refine ⟨rfl, fun _ => ?_⟩
            unfold outRegion at hrg
            cases hf0 : pushforward lib T0 eqn.prim with
            | none => rw [hf0] at hrg; cases hrg
            | some f0 =>
              rw [hf0] at hrg
              simp only [py_bind_ok] at hrg
              obtain ⟨_, -, _, -, _, -, hrg⟩ := hrg
              split at hrg
              · simp only [py_bind_ok, py_pure] at hrg
                obtain ⟨_, -, _, -, _, -, rfl⟩ := hrg
                exact ⟨_, _, rfl⟩
              · cases hrg
              · cases hrg
          · cases houts
            intro o ho
            rw [List.mem_singleton] at ho
            subst ho
            exact ⟨rfl, fun h => absurd h h2⟩
        constructor
        · refine stores_pred (P := fun v i => v ∉ cs → Live md i.encl) hL ?_ hs
          intro x hx _ _
          rw [(ho _ (List.of_mem_zip hx).2).1]
          exact hle
        · intro hp
          refine stores_pred (P := fun _ i => ∃ l u, i.tr = some (.ivl l u)) (hI hp) ?_ hs
          intro x hx _
          exact (ho _ (List.of_mem_zip hx).2).2 hp

theorem returns_run {propagate : Bool} (hprop : propagate = true → 1 ≤ md) {eqns : List (Eqn K)} {env : Env K}
    {vals vals' : Vals K} {cs : List ℤ} (hE : EnvOk md z env vals) (hX : EnvExact z.shape env)
    {ct : Counts} (hC : EnvCounts ct md env) (hA : EnvArr md env)
    (hK : ∀ v ∈ cs, KnownConst env vals v) (hL : EnvLive md cs env) (hI : propagate = true → EnvIvl env)
    (hcf : ∀ eqn ∈ eqns, CountEqn ct eqn) (hfit : EqnsFit sem ct z.shape cs vals eqns) (hret : EqnsReturn lib sem z.shape md propagate cs vals eqns)
    (hne : NonEmptyVals vals') (hev : eqns.foldlM (evalEqn sem) vals = .ok vals') :
    RunReturns lib T T0 propagate z.shape env eqns := by
  obtain ⟨hmd, -, -, -⟩ := unpack hinit hz
  induction eqns generalizing env vals cs with
  | nil => trivial
  | cons eqn eqns ih =>
    rw [List.foldlM_cons, py_bind_ok] at hev
    obtain ⟨vals1, he1, he2⟩ := hev
    have hne1 : NonEmptyVals vals1 := fun va hva => hne va (evalEqns_mem he2 hva)
    obtain ⟨f1, f2⟩ := hfit
    obtain ⟨r1, r2⟩ := hret
    obtain ⟨k1, k2⟩ := fits_step hlib hinit hz h0 (T0 := T0) (propagate := propagate) hE hX hC hK f1 hne1 he1
    obtain ⟨l1, l2⟩ := returns_step hlib hfull hinit hinit0 hz h0 hprop hE hX hA hK hL hI r1 he1
    refine ⟨l1, fun env' hs => ?_⟩
    obtain ⟨l3, l4⟩ := l2 env' hs
    have hA1 : EnvArr md env' := by
      have := arr_step harr (T := T) (by rw [hmd]; exact hA) hs
      rwa [hmd] at this
    have hE1 := step_ok hlib hinit hinit0 hz h0 hprop hE k1 hne1 he1 hs
    exact ih hE1 (k2 env' hs) (counts_step hinit hz hE hE1 hC (hcf _ (List.mem_cons_self ..)) hs) hA1
      (known_step hlib hK he1 hs) l3 l4 (fun e he => hcf e (List.mem_cons_of_mem _ he)) (f2 vals1 he1) (r2 vals1 he1) he2

end run

/-- `taylorBoundsReturns_of`, with the tables right at the point considered only. -/
theorem taylorBoundsReturns_of_at {lib : Lib K} {sem : Sem K} (harr : LibArr lib)
    (hfull : LibFull lib) {jaxpr : Jaxpr K} {consts : List (ND K)} {maxDegree : ℤ} (hmd : 0 ≤ maxDegree)
    {propagate : Bool} {x0 lo hi : ND K} (hlib : ∀ z, ND.map2 (· - ·) x0 x0 = .ok z → LibSoundAt z lib sem)
    (hlh : lo.shape = hi.shape) (h0 : (Coef.ivl lo hi).Contains x0)
    (hfit : ProgramFits sem jaxpr consts x0)
    (hret : ProgramReturns lib sem jaxpr consts maxDegree propagate x0)
    {vals : Vals K} (hev : evalEnv sem jaxpr consts x0 = .ok vals) (hne : NonEmptyVals vals) :
    TaylorBoundsReturns lib jaxpr consts maxDegree propagate x0 lo hi := by
  intro tlo thi T T0 env ht hT hT0 henv
  obtain ⟨z, hz, hzs, hzc⟩ := region_shift hlh h0 ht h0
  have h00 : (Coef.ivl tlo thi).Contains ⟨tlo.shape, fun _ => 0⟩ := by
    refine ⟨rfl, fun I hI => ?_⟩
    have hs : z.shape = tlo.shape := hzc.1
    have := hzc.2 I hI
    rw [map2_at hz (hs ▸ hI), sub_self] at this
    exact this
  have hE := initEnv_ok hmd hlh h0 h0 hz henv
  have hK := known_init (x := x0) hfit.1 henv
  obtain ⟨identity, v, hid, hcl, hv, henv'⟩ := initEnv_inv henv
  have hX : EnvExact z.shape env := by
    subst henv'
    intro w i hw
    rw [List.lookup_cons] at hw
    by_cases hwv : (w == v) = true
    · rw [hwv] at hw
      cases hw
      by_cases hm : maxDegree.toNat > 0
      · rw [if_pos hm]
        intro i c hc
        match i with
        | 0 => cases hc; simp [Inter.headShape, Coef.shape]
        | 1 =>
          cases hc
          simp [Inter.headShape, Coef.shape, identityCoef_shape hid, hzs]
        | i + 2 => simp at hc
      · rw [if_neg hm]
        intro i c hc
        match i with
        | 0 => cases hc; simp [Inter.headShape, Coef.shape]
        | i + 1 => simp at hc
    · have hwv : (w == v) = false := by simpa using hwv
      rw [hwv] at hw
      obtain ⟨a, -, rfl⟩ := lookup_zip_const hcl hw
      exact exact_const _ _
  have hA : EnvArr maxDegree.toNat env := by
    subst henv'
    intro w i hw
    rw [List.lookup_cons] at hw
    split at hw
    · cases hw
      simp only
      split_ifs with hm
      · intro i c hc _
        match i with
        | 0 => cases hc; trivial
        | 1 => cases hc; trivial
        | i + 2 => simp at hc
      · intro i c hc hi
        omega
    · obtain ⟨a, -, rfl⟩ := lookup_zip_const hcl hw
      exact arr_const _ a
  have hL : EnvLive maxDegree.toNat jaxpr.constvars env := by
    subst henv'
    intro w i hw hn
    rw [List.lookup_cons] at hw
    split at hw
    · cases hw
      simp only
      split_ifs with hm
      · exact ⟨fun h => by omega, fun _ => by simp⟩
      · exact ⟨fun _ => ⟨_, _, rfl⟩, fun h => by omega⟩
    · exfalso
      apply hn
      have : ((jaxpr.constvars.zip (consts.map constantInter)).lookup w).isSome := by rw [hw]; rfl
      exact (lookup_zip_isSome (by simpa using hcl)).1 this
  have hI : (propagate && (maxDegree != 0)) = true → EnvIvl env := by
    intro hp w i hw
    rw [henv', List.lookup_cons] at hw
    split at hw
    · cases hw
      exact ⟨lo, hi, if_pos hp⟩
    · obtain ⟨a, -, rfl⟩ := lookup_zip_const hcl hw
      exact ⟨a, a, rfl⟩
  obtain ⟨-, ct, hcf, hf⟩ := hfit
  have hC : EnvCounts ct maxDegree.toNat env := init_counts hcf henv
  unfold ProgramReturns at hret
  rw [← hzs] at hf hret ⊢
  exact returns_run (hlib z hz) harr hfull hT hT0 hzc h00 (by
    intro hp
    have : maxDegree ≠ 0 := by
      intro h
      subst h
      simp at hp
    omega) hE hX hC hA hK hL hI hcf.2.2 hf hret hne hev

/-- **The condition on runs follows from the condition on programs.** -/
theorem taylorBoundsReturns_of {lib : Lib K} {sem : Sem K} (hlib : LibSound lib sem) (harr : LibArr lib)
    (hfull : LibFull lib) {jaxpr : Jaxpr K} {consts : List (ND K)} {maxDegree : ℤ} (hmd : 0 ≤ maxDegree)
    {propagate : Bool} {x0 lo hi : ND K} (hlh : lo.shape = hi.shape) (h0 : (Coef.ivl lo hi).Contains x0)
    (hfit : ProgramFits sem jaxpr consts x0)
    (hret : ProgramReturns lib sem jaxpr consts maxDegree propagate x0)
    {vals : Vals K} (hev : evalEnv sem jaxpr consts x0 = .ok vals) (hne : NonEmptyVals vals) :
    TaylorBoundsReturns lib jaxpr consts maxDegree propagate x0 lo hi :=
  taylorBoundsReturns_of_at harr hfull hmd (fun z _ => hlib.at z) hlh h0 hfit hret hev hne

/-- **C53 (conditions on the program).** Let the tables be right (`LibSound`), with generators that return
`degree + 1` coefficients of which exactly the last is an interval (`LibArr`, `LibFull`); let the Jaxpr be well
formed, with one input of rank at most 1 and one output; let `x0` lie in the trust region, and let the evaluation
of `f` at `x0` succeed with non-empty arrays.  If the program meets `ProgramFits` and `ProgramReturns`, which are
conditions on its primitives and the shapes of their arguments, then `taylor_bounds` returns, for every
`max_degree ≥ 0` and with or without propagated trust regions — and the bounds hold wherever `f` can be evaluated
in the trust region. -/
theorem C53_static {lib : Lib K} {sem : Sem K} (hlib : LibSound lib sem) (harr : LibArr lib) (hfull : LibFull lib)
    {jaxpr : Jaxpr K} {consts : List (ND K)} {maxDegree : ℤ} {propagate : Bool} {x0 lo hi y : ND K}
    (hmd : 0 ≤ maxDegree) (hlh : lo.shape = hi.shape) (hrank : x0.shape.length ≤ 1)
    (h0 : (Coef.ivl lo hi).Contains x0) (hwf : WellFormedProgram jaxpr consts)
    (hused : propagate = true → ∀ eqn ∈ jaxpr.eqns, -1 ∉ eqn.outvars)
    (hfit : ProgramFits sem jaxpr consts x0)
    (hret : ProgramReturns lib sem jaxpr consts maxDegree propagate x0)
    {vals : Vals K} (hev : evalEnv sem jaxpr consts x0 = .ok vals) (hne : NonEmptyVals vals)
    (hy : evalJaxpr sem jaxpr consts x0 = .ok y) :
    ∃ bnd, taylorBounds lib jaxpr consts maxDegree propagate x0 lo hi = .ok bnd ∧
      ∀ x' y' vals', (Coef.ivl lo hi).Contains x' → evalEnv sem jaxpr consts x' = .ok vals' → NonEmptyVals vals' →
        evalJaxpr sem jaxpr consts x' = .ok y' → ∃ l u, bnd.lower x' = .ok l ∧ bnd.upper x' = .ok u ∧
          l.shape = y'.shape ∧ u.shape = y'.shape ∧
          ∀ I, ValidIdx y'.shape I → l.get I ≤ y'.get I ∧ y'.get I ≤ u.get I := by
  have hok := taylorBoundsOk_of_fits (lib := lib) hlib hmd (propagate := propagate) hlh h0 hfit hev hne
  have hr := taylorBoundsReturns_of hlib harr hfull hmd hlh h0 hfit hret hev hne
  obtain ⟨bnd, hb⟩ := C53_returns hlib harr hmd hlh hrank h0 h0 hwf hused hok hr hev hne hy
  exact ⟨bnd, hb, fun x' y' vals' hx' hev' hne' hy' => C43_lower_upper hlib hlh h0 hx' hb hok hev' hne' hy'⟩

end JB
end AB
