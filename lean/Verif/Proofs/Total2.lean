/-
Totality of the pushforward functions of /repo/autobound/jax/jax_bound.py.
-/
import Verif.Proofs.Total
import Verif.Spec.Total
import Verif.Props.TaylorMain3

set_option linter.unusedSectionVars false

namespace AB
variable {K : Type} [Field K] [LinearOrder K] [IsStrictOrderedRing K]
open IA (repS)

namespace TEA
variable {T : TEA K} {md : ℕ} {lo hi : ND K} (hinit : TEA.init md lo hi = .ok T) {z : ND K}
  (hz : (Coef.ivl lo hi).Contains z)

theorem expansionPoint_shape {a0 : Coef K} {x0 : ND K} (hx0 : T.expansionPoint a0 = .ok x0) :
    x0.shape = a0.shape ∧ a0.lo = x0 := by
  unfold expansionPoint at hx0
  cases a0 with
  | arr a => cases hx0; exact ⟨rfl, rfl⟩
  | ivl l h =>
    simp only at hx0
    split_ifs at hx0 with hm
    cases hx0; exact ⟨rfl, rfl⟩

include hinit hz

/-- what the generator returns can be composed with the argument -/
theorem gen_facts {U : Mode} {f : K → K} {D : K → Prop} {gen : Generator K}
    (hgen : SoundGeneratorAt z f D gen) {arg e : Encl K} (harg : WellFormedEncl arg) {y x0 : ND K}
    (hC : U.Cm y.shape.length)
    (hu : ∀ i c B, arg[i]? = some c → c.shape = B ++ repS i z.shape → U i B) (hy : Encloses arg z y)
    (hne : ∃ I, ValidIdx y.shape I) {a0 : Coef K} (ha0 : arg[0]? = some a0)
    (hx0 : T.expansionPoint a0 = .ok x0) {r : Coef K} (hr : r.WF)
    (hrn : U 0 r.shape) (hrs : ble r.shape y.shape)
    (hry : ∀ I, ValidIdx y.shape I → r.Mem I (x0.bget I))
    (hD : ∀ I, ValidIdx r.shape I → ∀ v, r.AtIdx I v → D v)
    (hg : gen x0 (toInterval r) T.maxDegree = .ok e) :
    e ≠ [] ∧ e.length ≤ T.maxDegree + 1 ∧ ∀ (p : ℕ) (c : Coef K), e[p]? = some c → EC U y.shape c := by
  have hx0s := (expansionPoint_shape hx0).1
  have hV := (hy.at harg (ble_refl _)).1
  have nx0 : U 0 x0.shape := by rw [hx0s]; exact hu 0 a0 _ ha0 (by simp [IA.repS])
  have lx0 : ble x0.shape y.shape := by
    obtain ⟨-, B, hB, hle⟩ := hV 0 a0 ha0
    have : a0.shape = B := by simpa [IA.repS] using hB
    rw [hx0s, this]; exact hle
  obtain ⟨R, hR, lR⟩ := bshape_lub lx0 hrs
  have hlo : r.lo.shape = r.shape := Coef.lo_shape r
  have hhi : r.hi.shape = r.shape := hr.hi_shape
  have lR' := bshape_le hR
  have hRne : ∃ I, ValidIdx R I := by
    obtain ⟨I, hI⟩ := hne
    exact ⟨_, validIdx_bidx lR hI⟩
  rw [toInterval_eq] at hg
  obtain ⟨g0, g1, g2, g3, g4⟩ := hgen x0 r.lo r.hi T.maxDegree e R (hlo.trans hhi.symm)
    (by rw [hlo]; exact hR) hRne (fun I hI => by
      obtain ⟨L, hL, rfl⟩ := ble_surj lR hne hI
      have hl : R.length ≤ L.length := (ble_length lR).trans hL.length.le
      rw [ND.bget_bidx _ (hlo ▸ lR'.2) hl, ND.bget_bidx _ lR'.1 hl, ND.bget_bidx _ (hhi ▸ lR'.2) hl]
      exact hry L hL) (fun I hI v h1 h2 =>
      hD (bidx r.shape I) (validIdx_bidx lR'.2 hI) v ((Coef.atIdx_bidx hr).2 ⟨h1, h2⟩)) hg
  refine ⟨g0, g1, fun p c hc => ?_⟩
  have hm := List.mem_of_getElem? hc
  refine ⟨(g2 c hm).wf, ?_, ?_⟩
  · rcases g3 c hm with h | h | h | h
    · rw [h]; exact ble_nil _
    · rw [h]; exact lx0
    · rw [h, hlo]; exact hrs
    · rw [h]; exact lR
  · rcases g3 c hm with h | h | h | h
    · rw [h]; exact hC.pw.nil
    · rw [h]; exact nx0
    · rw [h, hlo]; exact hrn
    · rw [h]; exact hC.pw.cl le_rfl nx0 hrn hR

/-- the derived trust region of an argument -/
theorem derived_region {U : Mode} {arg : Encl K} (harg : WellFormedEncl arg) {y : ND K}
    (hC : U.Cm y.shape.length)
    (hu : ∀ i c B, arg[i]? = some c → c.shape = B ++ repS i z.shape → U i B) (hy : Encloses arg z y)
    (hne0 : arg ≠ []) (h0 : (Coef.ivl lo hi).Contains ⟨lo.shape, fun _ => 0⟩) :
    ∃ r, T.argRegion arg none = .ok r ∧ encloseEnclosure arg (.ivl lo hi) 0 = .ok [r] ∧ r.WF ∧ U 0 r.shape ∧ ble r.shape y.shape ∧
      ∀ a0 x0, arg[0]? = some a0 → T.expansionPoint a0 = .ok x0 → ∀ I, ValidIdx y.shape I → r.Mem I (x0.bget I) := by
  obtain ⟨hmd, hT, hzm, hzs⟩ := unpack hinit hz
  have hTR : T.trustRegion = .ivl lo hi := by rw [(shape_of_init hinit).1]; rfl
  have hV := (hy.at harg (ble_refl _)).1
  rw [hzs] at hV
  have hVU : VEU U T.xShape y.shape arg := by
    intro i x hx
    obtain ⟨wx, B, hB, hle⟩ := hV i x hx
    exact ⟨wx, B, hB, hle, hu i x B hx (by rw [hzs]; exact hB)⟩
  obtain ⟨out, hout⟩ := enclose_total (trWF T hT) hzm hV 0
  obtain ⟨t1, t2, -, -, -⟩ := trunc_sel (trWF T hT) hzm hC.pw.cl hVU hout
  obtain ⟨-, -, -, -, s5⟩ := trunc_sel (z := fun _ => 0) (trWF T hT) (by
    rw [hTR]; exact zmem_contains (Coef.sameShape_iff.1 (by
      obtain ⟨rfl, h⟩ := shape_of_init hinit; exact h)) h0) hC.pw.cl hVU hout
  have hal : arg.length ≠ 0 := fun h => hne0 (List.length_eq_zero_iff.1 h)
  have hol : out.length = 1 := by rw [t2]; omega
  obtain ⟨r, rfl⟩ := List.length_eq_one_iff.1 hol
  obtain ⟨wr, B, hB, hBu⟩ := t1 0 r rfl
  have hB : r.shape = B := by simpa [IA.repS] using hB
  subst hB
  refine ⟨r, by simp only [argRegion, hout, py_ok_bind], by rw [← hTR]; exact hout, wr, hBu.2, hBu.1, ?_⟩
  intro a0 x0 ha0 hx0 I hI
  obtain ⟨w, hw, hw0⟩ := lower_sel harg hV hI
  obtain ⟨W, hW, eW, -⟩ := s5 I hI.length.le w hw
  have hm := (hW 0).1 r rfl [] (by simp [IA.repS, ValidIdx.nil])
  rw [List.append_nil] at hm
  rw [selVal_zero_point _ _ (by simp), selVal_zero_point _ _ hal, hw0 a0 ha0] at eW
  rw [eW, (expansionPoint_shape hx0).2] at hm
  exact hm

/-- `get_elementwise_fun(gen)(arg)` returns -/
theorem elementwise_total {U : Mode} {f : K → K} {D : K → Prop} {gen : Generator K}
    (hgen : SoundGeneratorAt z f D gen) {arg : Encl K} (harg : WellFormedEncl arg) {y : ND K}
    (hC : U.Cm y.shape.length)
    (hu : ∀ i c B, arg[i]? = some c → c.shape = B ++ repS i z.shape → U i B) (hy : Encloses arg z y)
    (hne : ∃ I, ValidIdx y.shape I) (hne0 : arg ≠ []) (hpt : ∀ a0, arg[0]? = some a0 → a0.IsArr ∨ md = 0)
    {tr : Option (Coef K)} {r : Coef K} (hr : T.argRegion arg tr = .ok r) (rw' : r.WF) (rU : U 0 r.shape)
    (rs : ble r.shape y.shape)
    (rx : ∀ a0 x0, arg[0]? = some a0 → T.expansionPoint a0 = .ok x0 → ∀ I, ValidIdx y.shape I → r.Mem I (x0.bget I))
    (hD : ∀ I, ValidIdx r.shape I → ∀ v, r.AtIdx I v → D v)
    (hg : JB.GenReturns T gen arg tr)
    (hN : JB.Labels z.shape y.shape ((arg.length - 1) * T.maxDegree)) :
    ∃ c, T.elementwiseFun gen arg tr = .ok c := by
  obtain ⟨hmd, hT, hzm, hzs⟩ := unpack hinit hz
  cases arg with
  | nil => exact absurd rfl hne0
  | cons a0 as =>
    have hx0 : ∃ x0, T.expansionPoint a0 = .ok x0 := by
      unfold expansionPoint
      cases a0 with
      | arr a => exact ⟨a, rfl⟩
      | ivl l h =>
        rcases hpt _ rfl with h | h
        · exact absurd h (by simp [Coef.IsArr])
        · exact ⟨l, by simp only; rw [if_pos (by omega)]⟩
    obtain ⟨x0, hx0⟩ := hx0
    obtain ⟨e, he⟩ := hg r a0 x0 hr rfl hx0
    obtain ⟨g0, g1, g2⟩ := gen_facts hinit hz hgen harg hC hu hy hne (a0 := a0) rfl hx0 rw' rU rs
      (rx a0 x0 rfl hx0) hD he
    have hV := (hy.at harg (ble_refl _)).1
    have hVU : VEU U T.xShape y.shape (a0 :: as) := by
      intro i x hx
      obtain ⟨wx, B, hB, hle⟩ := hV i x hx
      exact ⟨wx, B, by rw [← hzs]; exact hB, hle, hu i x B hx hB⟩
    obtain ⟨out, hout, -⟩ := compose_total hT hzm hC hVU g0 g1 (by
      rcases hN with h | h
      · exact Or.inl h
      · right
        rw [hzs] at h
        have h1 : e.length - 1 ≤ T.maxDegree := by omega
        have h2 := Nat.mul_le_mul_right T.xShape.length (Nat.mul_le_mul_left ((a0 :: as).length - 1) h1)
        omega) g2
    refine ⟨out, ?_⟩
    unfold elementwiseFun
    simp only [hr, hx0, he, py_ok_bind]
    exact hout

theorem powerOther_total {U : Mode} {f : K → K} {D : K → Prop} {gen : Generator K}
    (hgen : SoundGeneratorAt z f D gen) {arg : Encl K} (harg : WellFormedEncl arg) {y : ND K}
    (hC : U.Cm y.shape.length)
    (hu : ∀ i c B, arg[i]? = some c → c.shape = B ++ repS i z.shape → U i B) (hy : Encloses arg z y)
    (hne : ∃ I, ValidIdx y.shape I) (hne0 : arg ≠ []) (hpt : ∀ a0, arg[0]? = some a0 → a0.IsArr ∨ md = 0)
    (h0 : (Coef.ivl lo hi).Contains ⟨lo.shape, fun _ => 0⟩)
    (hD : ∀ r, encloseEnclosure arg (.ivl lo hi) 0 = .ok [r] →
      ∀ I, ValidIdx r.shape I → ∀ v, r.AtIdx I v → D v)
    (hg : JB.GenReturns T gen arg none)
    (hN : JB.Labels z.shape y.shape ((arg.length - 1) * T.maxDegree)) :
    ∃ c, T.powerOther gen arg = .ok c := by
  obtain ⟨hmd, hT, hzm, hzs⟩ := unpack hinit hz
  obtain ⟨r, hr, hr', r1, r2, r3, r4⟩ := derived_region hinit hz harg hC hu hy hne0 h0
  obtain ⟨c, hc⟩ := elementwise_total hinit hz hgen harg hC hu hy hne hne0 hpt hr r1 r2 r3 r4 (hD r hr') hg hN
  have hV := (hy.at harg (ble_refl _)).1
  rw [hzs] at hV
  exact ⟨c, by unfold powerOther; rw [validate_total hV, py_ok_bind]; exact hc⟩

end TEA

/-! ### linear primitives -/

theorem mapOver_total {a : Encl K} {g : ND K → Py (ND K)} {xs R : List ℕ} (hx : ExactBatch xs R a)
    (hw : WellFormedEncl a)
    (hg : ∀ i (u : ND K), i < a.length → u.shape = R ++ repS i xs → ∃ s, g u = .ok s) :
    ∃ c, mapOverEnclosure a g = .ok c := by
  unfold mapOverEnclosure
  apply Poly.mapM_total
  intro c hc
  obtain ⟨i, hi⟩ := List.getElem?_of_mem hc
  have hl := (List.getElem?_eq_some_iff.1 hi).1
  have hs := hx i c hi
  cases c with
  | arr u =>
    obtain ⟨s, hs⟩ := hg i u hl hs
    exact ⟨.arr s, by simp only [hs, py_ok_bind]; rfl⟩
  | ivl l h =>
    have hw' : l.shape = h.shape := (hw _ hc).1
    obtain ⟨s, hs1⟩ := hg i l hl hs
    obtain ⟨s', hs2⟩ := hg i h hl (hw' ▸ hs)
    exact ⟨.ivl s s', by simp only [hs1, hs2, py_ok_bind]; rfl⟩

namespace JB
open TEA Lax

theorem dotPairwise_total (sem : Sem K) (xs : List ℕ) {lc rc lb rb Ra Rb : List ℕ} (h0 : DotOk lc rc lb rb Ra Rb)
    {i j : ℕ} {u v : ND K} (hu : u.shape = Ra ++ repS i xs) (hv : v.shape = Rb ++ repS j xs)
    (hb : lb = [] ∨ i * xs.length = 0) :
    ∃ s, dotPairwise sem lc rc lb rb u v (i * xs.length) (j * xs.length) = .ok s ∧
      s.shape = dotShape lc rc lb rb Ra Rb ++ repS (i + j) xs := by
  have hex : ∃ s, dotPairwise sem lc rc lb rb u v (i * xs.length) (j * xs.length) = .ok s := by
    obtain ⟨hA, hB, hlen, hdims⟩ := h0
    have hus : u.canon.shape = Ra ++ repS i xs := hu
    have hvs : v.canon.shape = Rb ++ repS j xs := hv
    have hun : u.ndim = Ra.length + i * xs.length := by show u.shape.length = _; rw [hu]; simp
    have hvn : v.ndim = Rb.length + j * xs.length := by show v.shape.length = _; rw [hv]; simp
    have getL : ∀ {S P : List ℕ} {D : List ℕ}, (∀ d ∈ D, d < S.length) →
        D.map (fun d => (S ++ P).getD d 0) = D.map (fun d => S.getD d 0) := fun h => dims_append h
    have hdot : ∃ t, dotGeneral lc rc lb rb u.canon v.canon = .ok t ∧ t.shape =
        dotShape lc rc lb rb u.canon.shape v.canon.shape := by
      unfold dotGeneral
      rw [if_pos]
      · exact ⟨_, rfl, rfl⟩
      · refine ⟨⟨hA.1, fun d hd => ?_⟩, ⟨hB.1, fun d hd => ?_⟩, hlen, ?_⟩
        · have := hA.2 d hd
          show d < u.ndim
          omega
        · have := hB.2 d hd
          show d < v.ndim
          omega
        · rw [hus, hvs, getL hA.2, getL hB.2, hdims]
    obtain ⟨t, ht, hts⟩ := hdot
    have c1 := cnt_add_length hA
    have c2 := cnt_add_length hB
    rw [List.length_append] at c1 c2
    have nl := dropAxes_length (lb ++ lc) Ra
    have nr := dropAxes_length (rb ++ rc) Rb
    have htn : t.ndim = lb.length + ((dropAxes (lb ++ lc) Ra).length + i * xs.length) +
        ((dropAxes (rb ++ rc) Rb).length + j * xs.length) := by
      show t.shape.length = _
      rw [hts, hus, hvs]
      unfold dotShape
      rw [dropAxes_append hA.2, dropAxes_append hB.2]
      simp [IA.repS_length]
      omega
    have hded : (lc ++ lb).dedup.length = lc.length + lb.length := by
      rw [List.dedup_eq_self.2, List.length_append]
      exact (List.perm_append_comm.nodup_iff).1 hA.1
    unfold dotPairwise
    rw [bind2_dotGeneral, ht, py_ok_bind]
    simp only [hun, hded, htn]
    rw [if_neg (by omega), if_neg (by omega)]
    unfold transpose
    rw [if_pos]
    · exact ⟨_, rfl⟩
    · refine ⟨?_, ?_, ?_⟩
      · simp only [List.length_append, List.length_range, List.length_range', htn]; omega
      · refine List.nodup_append.2 ⟨List.nodup_append.2 ⟨List.nodup_append.2 ⟨List.nodup_range,
          List.nodup_range', ?_⟩, List.nodup_range', ?_⟩, List.nodup_range', ?_⟩ <;>
        · simp only [List.mem_append, List.mem_range, List.mem_range'_1]
          intros; omega
      · intro p hp
        simp only [List.mem_append, List.mem_range, List.mem_range'_1] at hp
        omega
  obtain ⟨s, hs⟩ := hex
  refine ⟨s, hs, ?_⟩
  have := ((C49_contract sem xs h0).2 i j (repS i xs) (repS j xs) u v s rfl rfl hu hv (by
    simp only
    rw [if_pos hb]; exact hs)).1
  rw [this, IA.repS_add, List.append_assoc]

end JB
end AB
