import Verif.Spec.Models
import Verif.Lemmas.Tuners
/- Absorption of a model by a new one. -/

set_option linter.unusedSectionVars false

namespace EFG
variable {F : Type} [Arith F]

theorem SameImages.refl (f : Fn F) : SameImages f f := ⟨rfl, fun _ _ => rfl⟩

theorem SameExponential.refl {f : Fn F} (h : f.weight.isSome) : SameExponential f f :=
  ⟨.refl f, h, rfl, fun _ _ => rfl⟩

theorem Fn.WF.sameClone {f : Fn F} (h : f.WF) : ∃ g, f.cloneTransformed = .ok g ∧ g.WF ∧ SameImages f g := by
  obtain ⟨c, h1, h2, h3, h4, h5, h6⟩ := h.cloneTransformed
  refine ⟨c, h1, h2, by rw [h3], ?_⟩
  intro q hq
  rw [← h.sizes'] at hq
  have hq' : Valid c.sizes q := by rw [h4]; exact hq
  rw [h2.findTransformed hq', h.findTransformed hq, Fn.timg_plain h5, h6 q hq]

theorem Fn.WF.sameExponential {f : Fn F} (h : f.WF) (hw : f.weight.isSome) :
    ∃ g, f.copyExponential = .ok g ∧ g.WF ∧ SameExponential f g := by
  obtain ⟨w, hwt⟩ := Option.isSome_iff_exists.mp hw
  obtain ⟨c, h1, h2, h3, h4, h5, h6⟩ := h.exponential w
  refine ⟨c, by simp [Fn.copyExponential, hwt, h1], h2, ⟨by rw [h3], ?_⟩, hw, by rw [h5, hwt], ?_⟩
  all_goals
    intro q hq
    rw [← h.sizes'] at hq
    have hq' : Valid c.sizes q := by rw [h4]; exact hq
  · rw [h2.findTransformed hq', h.findTransformed hq, Fn.timg_exp h5, Fn.timg_exp hwt, h6 q hq]
  · rw [h2.findImage hq', h.findImage hq, h6 q hq]

namespace State

/-! ### Every accepted factor is constant or tunable -/

def Registered (s : State F) : Prop := s.factors.Perm (s.consts ++ s.tunables)

def GoodR (x : Out (State F) Unit) : Prop :=
  match x with
  | .ok s' _ => Registered s'
  | .throw s' => Registered s'
  | .ub => True

theorem Registered.const {s s' : State F} {p : Nat} {f : Fn F} (h : Registered s) (hi : Inserted s s' p f) :
    Registered { s' with consts := s'.consts ++ [p] } := by
  show s'.factors.Perm ((s'.consts ++ [p]) ++ s'.tunables)
  rw [hi.factors, hi.kept.consts, hi.kept.tunables]
  refine (List.Perm.append_right [p] h).trans ?_
  rw [List.append_assoc, List.append_assoc]
  exact List.Perm.append_left _ List.perm_append_comm

theorem Registered.tunable {s s' : State F} {p : Nat} {f : Fn F} (h : Registered s) (hi : Inserted s s' p f) :
    Registered (registered s' p) := by
  show s'.factors.Perm (s'.consts ++ (s'.tunables ++ [p]))
  rw [hi.factors, hi.kept.consts, hi.kept.tunables, ← List.append_assoc]
  exact List.Perm.append_right [p] h

theorem Registered.refused {s s' : State F} {f : Fn F} (h : Registered s)
    (hr : s' = s ∨ s' = s.resetBelief ∨ ∃ a b, f.vars.group = [a, b] ∧ (∀ w ∈ s.vars, w.eqv a = false) ∧
      s' = addVar a s.resetBelief) : Registered s' := by
  rcases hr with h4 | h4 | ⟨a, b, _, _, h4⟩ <;> rw [h4] <;> exact h

theorem addDistribution_none (s : State F) {p : Nat} (h : s.heap[p]? = none) :
    addDistribution (some p) s = .throw s ∨ addDistribution (some p) s = .ub := by
  unfold addDistribution
  simp only
  by_cases hc : s.factors.contains p = true
  · rw [if_pos hc]; exact Or.inl rfl
  · rw [if_neg hc]
    have : s.deref p = .ub := by
      unfold deref Heap.get
      rw [h]; rfl
    rw [this]; exact Or.inr rfl

theorem addConst_registered {s : State F} (hs : Inv s) (h : Registered s) (ptr : Option Nat) :
    GoodR (addConstFactor ptr s) := by
  cases ptr with
  | none => exact h
  | some p =>
    unfold addConstFactor
    cases hp : s.heap[p]? with
    | none =>
      rcases addDistribution_none s hp with h1 | h1 <;> rw [h1]
      · exact h
      · trivial
    | some f =>
      rcases addDistribution_cases hs hp with ⟨s', h1, h2, _⟩ | ⟨s', h1, _, _, h3⟩
      · rw [h1]; exact h.const h2
      · rw [h1]; exact h.refused h3

theorem share_registered {s : State F} (h : Registered s) (i : Nat) (b : BaseTuner) : GoodR (shareTuner i b s) := by
  unfold shareTuner
  cases s.tuners[i]? with
  | none => trivial
  | some t =>
    simp only
    cases s.tunerWeight t with
    | throw => exact h
    | ub => trivial
    | ok w => exact h

theorem addTunable_registered {s : State F} (hs : Inv s) (ht : Tuned s) (h : Registered s) (ptr : Option Nat)
    (share : Option VarSet) : GoodR (addTunable ptr share s) := by
  cases ptr with
  | none => exact h
  | some p =>
    cases hp : s.heap[p]? with
    | none =>
      unfold addTunable
      rcases addDistribution_none s hp with h1 | h1 <;> rw [h1]
      · exact h
      · trivial
    | some f =>
      rcases addTunable_cases hs ht hp share with ⟨s', h1, _, _, h3⟩ | ⟨_, s1, b, h1, _, _, h4⟩
      · rw [h1]; exact h.refused h3
      · cases share with
        | none => rw [h4]; exact h.tunable h1
        | some g =>
          rcases h4 with ⟨_, h4⟩ | ⟨i, _, h4⟩
          · rw [h4]; exact h.tunable h1
          · rw [h4]; exact share_registered (h.tunable h1) i b

theorem exec_registered {s : State F} (hs : Inv s) (ht : Tuned s) (h : Registered s) {op : GOp F} (hv : op.Valid s) :
    GoodR (op.exec s) := by
  by_cases hi : op.Inserts = false
  · have h1 := exec_regs hs hv hi
    cases he : op.exec s with
    | ok s' u =>
      have := h1.1 s' he
      show s'.factors.Perm (s'.consts ++ s'.tunables)
      rw [this.factors, this.consts, this.tunables]; exact h
    | throw s' =>
      have := h1.2 s' he
      show s'.factors.Perm (s'.consts ++ s'.tunables)
      rw [this.factors, this.consts, this.tunables]; exact h
    | ub => trivial
  · cases op with
    | addConst p => exact addConst_registered hs h p
    | addTunable p share => exact addTunable_registered hs ht h p share
    | copyConst p =>
      show GoodR (copyConstFactor p s)
      unfold copyConstFactor
      cases hd : s.deref p with
      | ok f =>
        simp only
        have hf : f.WF := hs.heapWF f (List.mem_of_getElem? (deref_some hd))
        obtain ⟨g, hg, hgw, _⟩ := hf.cloneTransformed
        rw [hg]
        exact addConst_registered (hs.create hgw) h _
      | throw => exact h
      | ub => trivial
    | copyTunable p share =>
      show GoodR (copyTunable p share s)
      unfold copyTunable
      cases hd : s.deref p with
      | ok f =>
        simp only
        have hf : f.WF := hs.heapWF f (List.mem_of_getElem? (deref_some hd))
        cases hc : f.copyExponential with
        | ok g =>
          simp only
          have hw : f.weight.isSome := by
            cases hw : f.weight with
            | none => rw [Fn.copyExponential, hw] at hc; cases hc
            | some w => rfl
          obtain ⟨g', hg, hgw, _⟩ := hf.sameExponential hw
          rw [hc] at hg
          cases hg
          exact addTunable_registered (hs.create hgw) (alloc_tuned hs ht g) h _ _
        | throw => exact h
        | ub => trivial
      | throw => exact h
      | ub => trivial
    | _ => exact absurd rfl hi

theorem reach_registered {allowed : State F → GOp F → Prop} {s : State F} (h : Reach allowed s) : Registered s := by
  induction h with
  | init _ => exact List.Perm.refl _
  | ok hr hv _ he ih =>
    have := exec_registered (reach_inv hr) (reach_tuned hr) ih hv
    rw [he] at this
    exact this
  | throw hr hv _ _ he ih =>
    have := exec_registered (reach_inv hr) (reach_tuned hr) ih hv
    rw [he] at this
    exact this

/-! ### The functions of a program are those it can construct -/

def Built (h : Heap F) : Prop := ∀ f ∈ h, FactorReach f

def GoodB (x : Out (State F) Unit) : Prop :=
  match x with
  | .ok s' _ => Built s'.heap
  | .throw s' => Built s'.heap
  | .ub => True

theorem Built.snoc {h : Heap F} (hb : Built h) {f : Fn F} (hf : FactorReach f) : Built (h ++ [f]) := by
  intro g hg
  rcases List.mem_append.mp hg with hg | hg
  · exact hb g hg
  · simp at hg; rw [hg]; exact hf

theorem Built.setWeight {h : Heap F} (hb : Built h) (w : F) (p : Nat) : Built (heapSetWeight w h p) := by
  intro g hg
  obtain ⟨i, hi⟩ := List.mem_iff_getElem?.mp hg
  unfold heapSetWeight at hi
  rw [List.getElem?_modify] at hi
  cases hf : h[i]? with
  | none => rw [hf] at hi; cases hi
  | some f =>
    rw [hf] at hi
    have hr := hb f (List.mem_of_getElem? hf)
    change some (if p = i then f.setWeight w else f) = some g at hi
    by_cases hpi : p = i
    · rw [if_pos hpi] at hi
      cases hi
      exact .mutate (op := .setWeight w) hr rfl
    · rw [if_neg hpi] at hi
      cases hi
      exact hr

theorem Built.setWeights (w : F) (ps : List Nat) : ∀ {h : Heap F}, Built h → Built (ps.foldl (heapSetWeight w) h) := by
  induction ps with
  | nil => intro h hb; exact hb
  | cons p ps ih => intro h hb; exact ih (hb.setWeight w p)

theorem Built.setTunersWeights (l : List (List BaseTuner × F)) : ∀ {s : State F}, Built s.heap →
    Built (setTunersWeights l s).heap := by
  induction l with
  | nil => intro s hb; exact hb
  | cons e l ih =>
    intro s hb
    obtain ⟨t, w⟩ := e
    exact ih (s := setTunerWeight t w s) (hb.setWeights w _)

theorem addConst_built {s : State F} (hs : Inv s) (h : Built s.heap) (ptr : Option Nat) :
    GoodB (addConstFactor ptr s) := by
  cases ptr with
  | none => exact h
  | some p =>
    unfold addConstFactor
    cases hp : s.heap[p]? with
    | none =>
      rcases addDistribution_none s hp with h1 | h1 <;> rw [h1]
      · exact h
      · trivial
    | some f =>
      rcases addDistribution_cases hs hp with ⟨s', h1, h2, _⟩ | ⟨s', h1, _, _, h3⟩
      · rw [h1]
        show Built s'.heap
        rw [h2.kept.heap]; exact h
      · rw [h1]
        rcases h3 with h4 | h4 | ⟨a, b, _, _, h4⟩ <;> rw [h4] <;> exact h

theorem addTunable_built {s : State F} (hs : Inv s) (ht : Tuned s) (h : Built s.heap) (ptr : Option Nat)
    (share : Option VarSet) : GoodB (addTunable ptr share s) := by
  cases ptr with
  | none => exact h
  | some p =>
    cases hp : s.heap[p]? with
    | none =>
      unfold addTunable
      rcases addDistribution_none s hp with h1 | h1 <;> rw [h1]
      · exact h
      · trivial
    | some f =>
      rcases addTunable_cases hs ht hp share with ⟨s', h1, _, _, h3⟩ | ⟨_, s1, b, h1, _, _, h4⟩
      · rw [h1]
        rcases h3 with h4 | h4 | ⟨a, b, _, _, h4⟩ <;> rw [h4] <;> exact h
      · have hb : Built s1.heap := by rw [h1.kept.heap]; exact h
        cases share with
        | none => rw [h4]; exact hb
        | some g =>
          rcases h4 with ⟨_, h4⟩ | ⟨i, _, h4⟩
          · rw [h4]; exact hb
          · rw [h4]
            unfold shareTuner
            cases (registered s1 p).tuners[i]? with
            | none => trivial
            | some t =>
              simp only
              cases (registered s1 p).tunerWeight t with
              | throw => exact hb
              | ub => trivial
              | ok w => exact hb.setWeights w _

theorem exec_built {s : State F} (hs : Inv s) (ht : Tuned s) (h : Built s.heap) {op : GOp F} (hv : op.Valid s) :
    GoodB (op.exec s) := by
  by_cases hi : op.Inserts = false
  · by_cases ha : op.Alters = false
    · have h1 := exec_all hs hv hi ha
      cases he : op.exec s with
      | ok s' u =>
        show Built s'.heap
        rw [(h1.1 s' he).heap]; exact h
      | throw s' =>
        show Built s'.heap
        rw [(h1.2 s' he).heap]; exact h
      | ub => trivial
    · cases op with
      | create f => exact h.snoc hv.2
      | mutate p o =>
        show GoodB (GOp.onHeap (Heap.mutate p o) s)
        unfold GOp.onHeap Heap.mutate
        cases hp : s.heap[p]? with
        | none => trivial
        | some f =>
          have hr := h f (List.mem_of_getElem? hp)
          have hset : ∀ g, FactorReach g → Built (s.heap.set p g) := by
            intro g hg x hx
            rcases List.mem_or_eq_of_mem_set hx with hx | hx
            · exact h x hx
            · rw [hx]; exact hg
          simp only
          cases he : Heap.applyOp o f with
          | ok g u => exact hset g (.mutate hr he)
          | throw g => exact hset g (.mutateThrow hr he)
          | ub => trivial
      | setWeights ws =>
        show GoodB (State.setWeights ws s)
        unfold State.setWeights
        by_cases hl : ws.length ≠ s.tuners.length
        · rw [if_pos hl]; exact h
        · rw [if_neg hl]
          exact Built.setTunersWeights _ h
      | _ => exact absurd rfl ha
  · cases op with
    | addConst p => exact addConst_built hs h p
    | addTunable p share => exact addTunable_built hs ht h p share
    | copyConst p =>
      show GoodB (copyConstFactor p s)
      unfold copyConstFactor
      cases hd : s.deref p with
      | ok f =>
        simp only
        have hm := List.mem_of_getElem? (deref_some hd)
        obtain ⟨g, hg, hgw, _⟩ := (hs.heapWF f hm).cloneTransformed
        rw [hg]
        exact addConst_built (hs.create hgw) (h.snoc (.transformed (h f hm) hg)) _
      | throw => exact h
      | ub => trivial
    | copyTunable p share =>
      show GoodB (copyTunable p share s)
      unfold copyTunable
      cases hd : s.deref p with
      | ok f =>
        simp only
        have hm := List.mem_of_getElem? (deref_some hd)
        cases hc : f.copyExponential with
        | ok g =>
          simp only
          have hw : f.weight.isSome := by
            cases hw : f.weight with
            | none => rw [Fn.copyExponential, hw] at hc; cases hc
            | some w => rfl
          obtain ⟨g', hg, hgw, _⟩ := (hs.heapWF f hm).sameExponential hw
          rw [hc] at hg
          cases hg
          exact addTunable_built (hs.create hgw) (alloc_tuned hs ht g) (h.snoc (.copyExponential (h f hm) hc)) _ _
        | throw => exact h
        | ub => trivial
      | throw => exact h
      | ub => trivial
    | _ => exact absurd rfl hi

theorem reach_built {allowed : State F → GOp F → Prop} {s : State F} (h : Reach allowed s) : Built s.heap := by
  induction h with
  | init hh => exact hh
  | ok hr hv _ he ih =>
    have := exec_built (reach_inv hr) (reach_tuned hr) ih hv
    rw [he] at this
    exact this
  | throw hr hv _ _ he ih =>
    have := exec_built (reach_inv hr) (reach_tuned hr) ih hv
    rw [he] at this
    exact this

end State
end EFG
