import Verif.Spec.Sign
import Verif.Lemmas.Res
/- The images, the messages and the beliefs are never negative. -/

set_option linter.unusedSectionVars false

namespace EFG
variable {F : Type} [Arith F] [Arith.Signed F]

/-! ### Functions -/

namespace Fn

theorem NotNeg.congr {f g : Fn F} (h : f.NotNeg) (e : g.data = f.data) : g.NotNeg := by
  unfold NotNeg at h ⊢
  rw [e]
  exact h

theorem notNeg_ofGroup (g : Group) : (ofGroup g : Fn F).NotNeg := by
  unfold NotNeg ofGroup
  simp

theorem notNeg_dense {f : Fn F} {v : List F} (h : ∀ x ∈ v, EFG.NotNeg x) : ({ f with data := .dense v } : Fn F).NotNeg := h

theorem notNeg_sparseSet {c : List (List Nat × F)} (h : ∀ e ∈ c, EFG.NotNeg e.2) {comb : List Nat} {x : F}
    (hx : EFG.NotNeg x) : ∀ e ∈ sparseSet c comb x, EFG.NotNeg e.2 := by
  intro e he
  unfold sparseSet at he
  split at he
  · obtain ⟨e', h1, h2⟩ := List.mem_map.mp he
    split at h2
    · rw [← h2]; exact hx
    · rw [← h2]; exact h e' h1
  · rcases List.mem_append.mp he with h1 | h1
    · exact h e h1
    · rw [List.mem_singleton] at h1
      rw [h1]; exact hx

theorem notNeg_vecSet {v v' : List F} (h : ∀ x ∈ v, EFG.NotNeg x) {i : Nat} {x : F} (hx : EFG.NotNeg x)
    (e : vecSet v i x = .ok v') : ∀ y ∈ v', EFG.NotNeg y := by
  unfold vecSet at e
  split at e
  · cases e
    intro y hy
    rcases List.mem_or_eq_of_mem_set hy with h1 | h1
    · exact h y h1
    · rw [h1]; exact hx
  · cases e

theorem notNeg_fold {α β : Type} {f : β → α → Res β} (P : β → Prop) {l : List α}
    (hstep : ∀ b, P b → ∀ a ∈ l, ∀ b', f b a = .ok b' → P b') {b b' : β} (hb : P b)
    (h : Res.foldList f b l = .ok b') : P b' := foldList_ok_inv P hstep hb h

theorem notNeg_densify {f : Fn F} {c : List (List Nat × F)} (h : ∀ e ∈ c, EFG.NotNeg e.2) {v : List F}
    (e : f.densify c = .ok v) : ∀ x ∈ v, EFG.NotNeg x := by
  refine notNeg_fold (fun v : List F => ∀ x ∈ v, EFG.NotNeg x) (fun w hw a ha w' hw' => ?_) ?_ e
  · unfold densifyStep at hw'
    split at hw'
    · exact notNeg_vecSet hw (h a ha) hw'
    · cases hw'
    · cases hw'
  · intro x hx
    rw [List.eq_of_mem_replicate hx]
    exact Arith.Signed.zero

theorem NotNeg.set {f g : Fn F} (h : f.NotNeg) {comb : List Nat} {x : F} (hx : EFG.NotNeg x) (e : f.set comb x = .ok g) :
    g.NotNeg := by
  unfold Fn.set at e
  split at e
  · split at e
    · rename_i c hc
      have h1 : ∀ e ∈ sparseSet c comb x, EFG.NotNeg e.2 := by
        unfold NotNeg at h
        rw [hc] at h
        exact notNeg_sparseSet h hx
      simp only at e
      split at e
      · split at e
        · rename_i v hv
          cases e
          exact notNeg_densify h1 hv
        · cases e
        · cases e
      · cases e
        exact h1
    · rename_i v hv
      split at e
      · rename_i v' hv'
        cases e
        unfold NotNeg at h
        rw [hv] at h
        exact notNeg_vecSet h hx hv'
      · cases e
      · cases e
  · cases e
  · cases e

theorem NotNeg.findImage {f : Fn F} (h : f.NotNeg) {comb : List Nat} {x : F} (e : f.findImage comb = .ok x) :
    EFG.NotNeg x := by
  unfold Fn.findImage at e
  unfold NotNeg at h
  split at e
  · split at e
    · rename_i c hc
      rw [hc] at h
      split at e
      · rename_i y hy
        cases e
        unfold sparseFind at hy
        split at hy
        · rename_i e' he'
          cases hy
          exact h e' (List.mem_of_find?_eq_some he')
        · cases hy
      · cases e
        exact Arith.Signed.zero
    · rename_i v hv
      rw [hv] at h
      unfold vecGet at e
      cases hx : v[(_ : Nat)]? with
      | some y =>
        rw [hx] at e
        cases e
        exact h _ (List.mem_of_getElem? hx)
      | none => rw [hx] at e; cases e
  · cases e
  · cases e

theorem notNeg_transform (f : Fn F) {x : F} (h : EFG.NotNeg x) : EFG.NotNeg (f.transform x) := by
  unfold transform
  split
  · exact h
  · exact Arith.Signed.exp _

theorem NotNeg.findTransformed {f : Fn F} (h : f.NotNeg) {comb : List Nat} {x : F}
    (e : f.findTransformed comb = .ok x) : EFG.NotNeg x := by
  unfold Fn.findTransformed at e
  split at e
  · rename_i y hy
    cases e
    exact notNeg_transform f (h.findImage hy)
  · cases e
  · cases e

theorem zipDense_mem {cs : List (List Nat)} {v : List F} {l : List (List Nat × F)} (h : zipDense cs v = .ok l) :
    ∀ e ∈ l, e.2 ∈ v := by
  induction cs generalizing v l with
  | nil => cases h; simp
  | cons c cs ih =>
    cases v with
    | nil => cases h
    | cons x xs =>
      unfold zipDense at h
      split at h
      · rename_i l' hl'
        cases h
        intro e he
        rcases List.mem_cons.mp he with h1 | h1
        · rw [h1]; simp
        · exact List.mem_cons_of_mem _ (ih hl' e h1)
      · cases h
      · cases h

theorem mapList_all {α β : Type} {f : α → Res β} {l : List α} {l' : List β} (P : β → Prop)
    (h : ∀ a ∈ l, ∀ b, f a = .ok b → P b) (e : Res.mapList f l = .ok l') : ∀ b ∈ l', P b := by
  have h1 := Res.mapList_eq_ok.mp e
  induction h1 with
  | nil => simp
  | cons h2 h3 ih =>
    intro b hb
    rcases List.mem_cons.mp hb with h4 | h4
    · rw [h4]; exact h _ (by simp) _ h2
    · exact ih (fun a ha => h a (by simp [ha])) (Res.mapList_eq_ok.mpr h3) b h4

theorem NotNeg.rawEntries {f : Fn F} (h : f.NotNeg) {l : List (List Nat × F)} (e : f.rawEntries = .ok l) :
    ∀ e ∈ l, EFG.NotNeg e.2 := by
  unfold Fn.rawEntries at e
  unfold NotNeg at h
  split at e
  · split at e
    · rename_i c hc
      rw [hc] at h
      refine mapList_all (fun e : List Nat × F => EFG.NotNeg e.2) (fun comb _ b hb => ?_) e
      split at hb
      · cases hb
        simp only
        split
        · rename_i y hy
          unfold sparseFind at hy
          split at hy
          · rename_i e' he'
            cases hy
            exact h e' (List.mem_of_find?_eq_some he')
          · cases hy
        · exact Arith.Signed.zero
      · cases hb
      · cases hb
    · rename_i v hv
      rw [hv] at h
      exact fun x hx => h _ (zipDense_mem e x hx)
  · cases e
  · cases e

theorem NotNeg.entries {f : Fn F} (h : f.NotNeg) {l : List (List Nat × F)} (e : f.entries = .ok l) :
    ∀ e ∈ l, EFG.NotNeg e.2 := by
  unfold Fn.entries at e
  split at e
  · rename_i l' hl'
    cases e
    intro x hx
    obtain ⟨y, h1, rfl⟩ := List.mem_map.mp hx
    exact notNeg_transform f (h.rawEntries hl' y h1)
  · cases e
  · cases e

theorem NotNeg.images {f : Fn F} (h : f.NotNeg) {l : List F} (e : f.images = .ok l) : ∀ x ∈ l, EFG.NotNeg x := by
  unfold Fn.images at e
  split at e
  · rename_i l' hl'
    cases e
    intro x hx
    obtain ⟨y, h1, rfl⟩ := List.mem_map.mp hx
    exact h.entries hl' y h1
  · cases e
  · cases e

/-! ### Sums and products -/

theorem notNeg_sum {l : List F} (h : ∀ x ∈ l, EFG.NotNeg x) : EFG.NotNeg (Arith.sum l) := by
  unfold Arith.sum
  have : ∀ (l : List F) (a : F), EFG.NotNeg a → (∀ x ∈ l, EFG.NotNeg x) → EFG.NotNeg (l.foldl Arith.add a) := by
    intro l
    induction l with
    | nil => intro a ha _; exact ha
    | cons x l ih =>
      intro a ha hl
      exact ih _ (Arith.Signed.add _ _ ha (hl x (by simp))) (fun y hy => hl y (by simp [hy]))
  exact this l _ Arith.Signed.zero h

theorem notNeg_maxElement {l : List F} (h : ∀ x ∈ l, EFG.NotNeg x) {m : F} (e : Arith.maxElement l = .ok m) :
    EFG.NotNeg m := by
  cases l with
  | nil => cases e
  | cons x l =>
    cases e
    have : ∀ (l : List F) (a : F), EFG.NotNeg a → (∀ x ∈ l, EFG.NotNeg x) → EFG.NotNeg (Arith.maxFrom a l) := by
      intro l
      induction l with
      | nil => intro a ha _; exact ha
      | cons x l ih =>
        intro a ha hl
        unfold Arith.maxFrom
        refine ih _ ?_ (fun y hy => hl y (by simp [hy]))
        split
        · exact hl x (by simp)
        · exact ha
    exact this l x (h x (by simp)) (fun y hy => h y (by simp [hy]))

theorem notNeg_mulVec {xs ys l : List F} (hx : ∀ x ∈ xs, EFG.NotNeg x) (hy : ∀ y ∈ ys, EFG.NotNeg y)
    (e : mulVec xs ys = .ok l) : ∀ z ∈ l, EFG.NotNeg z := by
  induction xs generalizing ys l with
  | nil =>
    cases ys with
    | nil => cases e; simp
    | cons y ys => cases e
  | cons x xs ih =>
    cases ys with
    | nil => cases e; exact hx
    | cons y ys =>
      unfold mulVec at e
      split at e
      · rename_i l' hl'
        cases e
        intro z hz
        rcases List.mem_cons.mp hz with h1 | h1
        · rw [h1]; exact Arith.Signed.mul _ _ (hx x (by simp)) (hy y (by simp))
        · exact ih (fun a ha => hx a (by simp [ha])) (fun a ha => hy a (by simp [ha])) hl' z h1
      · cases e
      · cases e

theorem NotNeg.probabilities {f : Fn F} (h : f.NotNeg) {l : List F} (e : f.probabilities = .ok l) :
    ∀ x ∈ l, EFG.NotNeg x := by
  unfold Fn.probabilities at e
  split at e
  · rename_i ps hps
    have h1 := h.images hps
    simp only at e
    split at e
    · cases e
      intro x hx
      obtain ⟨y, _, rfl⟩ := List.mem_map.mp hx
      exact Arith.Signed.div _ _ Arith.Signed.one (Arith.Signed.ofNat _)
    · cases e
      intro x hx
      obtain ⟨y, hy, rfl⟩ := List.mem_map.mp hx
      exact Arith.Signed.div _ _ (h1 y hy) (notNeg_sum h1)
  · cases e
  · cases e

/-! ### The special factors -/

theorem notNeg_ones (v : Var) : (ones v : Fn F).NotNeg := by
  refine notNeg_dense (f := ofGroup (Group.single v)) (fun x hx => ?_)
  rw [List.eq_of_mem_replicate hx]
  exact Arith.Signed.one

theorem notNeg_mergedUnaries {fs : List (Fn F)} (h : ∀ f ∈ fs, f.NotNeg) {g : Fn F} (e : mergedUnaries fs = .ok g) :
    g.NotNeg := by
  unfold mergedUnaries at e
  split at e
  · cases e
  · split at e
    · rename_i v _
      split at e
      · rename_i xs hxs
        have h1 : ∀ x ∈ xs, EFG.NotNeg x := by
          refine notNeg_fold (fun v : List F => ∀ x ∈ v, EFG.NotNeg x) (fun w hw f hf w' hw' => ?_) ?_ hxs
          · unfold mergeInto at hw'
            split at hw'
            · split at hw'
              · cases hw'
              · split at hw'
                · rename_i ys hys
                  exact notNeg_mulVec hw ((h f hf).images hys) hw'
                · cases hw'
                · cases hw'
            · cases hw'
          · intro x hx
            rw [List.eq_of_mem_replicate hx]
            exact Arith.Signed.one
        split at e
        · rename_i ys hys
          cases e
          refine notNeg_dense (f := ones v) (fun y hy => ?_)
          unfold normalizeVec at hys
          split at hys
          · rename_i m hm
            cases hys
            obtain ⟨x, hx, rfl⟩ := List.mem_map.mp hy
            exact Arith.Signed.mul _ _ (h1 x hx) (Arith.Signed.div _ _ Arith.Signed.one (notNeg_maxElement h1 hm))
          · cases hys
          · cases hys
        · cases e
        · cases e
      · cases e
      · cases e
    · cases e
    · cases e

theorem NotNeg.evidence {b : Fn F} (h : b.NotNeg) {v : Var} {k : Nat} {g : Fn F} (e : b.evidence v k = .ok g) :
    g.NotNeg := by
  unfold Fn.evidence at e
  split at e
  · split at e
    · split at e
      · rename_i es hes
        refine notNeg_fold Fn.NotNeg (fun r hr a ha r' hr' => ?_) (notNeg_ofGroup _) e
        unfold evidenceStep at hr'
        split at hr'
        · split at hr'
          · exact hr.set (h.entries hes a ha) hr'
          · cases hr'; exact hr
        · cases hr'
      · cases e
      · cases e
    · cases e
    · cases e
  · cases e
  · cases e

theorem notNeg_indicator {v : Var} {k : Nat} {g : Fn F} (e : indicator v k = .ok g) : g.NotNeg := by
  unfold indicator at e
  split at e
  · cases e
  · exact (notNeg_ofGroup _).set Arith.Signed.one e

theorem notNeg_max2 {x y : F} (hx : EFG.NotNeg x) (hy : EFG.NotNeg y) : EFG.NotNeg (Arith.max2 x y) := by
  unfold Arith.max2
  split
  · exact hy
  · exact hx

theorem notNeg_message {kind : Kind} {m b g : Fn F} (hm : m.NotNeg) (hb : b.NotNeg) (e : message kind m b = .ok g) :
    g.NotNeg := by
  unfold message at e
  split at e
  · split at e
    · split at e
      · split at e
        · split at e
          · rename_i es hes
            refine notNeg_fold Fn.NotNeg (fun r hr a _ r' hr' => ?_) (notNeg_ofGroup _) e
            unfold messageStep at hr'
            split at hr'
            · rename_i x hx
              refine hr.set ?_ hr'
              refine notNeg_fold EFG.NotNeg (fun y hy d hd y' hy' => ?_) ?_ hx
              · unfold messageValueStep at hy'
                split at hy'
                · split at hy'
                  · rename_i z hz
                    cases hy'
                    have h1 := Arith.Signed.mul _ _ (hm.entries hes d hd) (hb.findTransformed hz)
                    cases kind
                    · exact Arith.Signed.add _ _ hy h1
                    · exact notNeg_max2 hy h1
                  · cases hy'
                  · cases hy'
                · cases hy'
              · cases kind
                · exact Arith.Signed.zero
                · exact Arith.Signed.fltMin
            · cases hr'
            · cases hr'
          · cases e
          · cases e
        · cases e
      · cases e
      · cases e
    · cases e
    · cases e
  · cases e
  · cases e

/-! ### Factors -/

theorem notNeg_setAll {f g : Fn F} (h : f.NotNeg) {es : List (List Nat × F)} (he : ∀ e ∈ es, EFG.NotNeg e.2)
    (e : f.setAll es = .ok g) : g.NotNeg :=
  notNeg_fold Fn.NotNeg (fun _ hr a ha _ hr' => hr.set (he a ha) hr') h e

theorem NotNeg.cloneTransformed {f g : Fn F} (h : f.NotNeg) (e : f.cloneTransformed = .ok g) : g.NotNeg := by
  unfold Fn.cloneTransformed at e
  split at e
  · rename_i es hes
    exact notNeg_setAll (notNeg_ofGroup _) (h.entries hes) e
  · cases e
  · cases e

theorem NotNeg.exponential {f g : Fn F} (h : f.NotNeg) {w : F} (e : f.exponential w = .ok g) : g.NotNeg := by
  unfold Fn.exponential at e
  split at e
  · rename_i es hes
    cases e
    intro x hx
    obtain ⟨y, hy, rfl⟩ := List.mem_map.mp hx
    exact h.rawEntries hes y hy
  · cases e
  · cases e

theorem NotNeg.copyExponential {f g : Fn F} (h : f.NotNeg) (e : f.copyExponential = .ok g) : g.NotNeg := by
  unfold Fn.copyExponential at e
  split at e
  · exact h.exponential e
  · cases e

theorem NotNeg.permute {f g : Fn F} (h : f.NotNeg) {o : Group} (e : f.cloneWithPermutedGroup o = .ok g) : g.NotNeg := by
  unfold Fn.cloneWithPermutedGroup at e
  split at e
  · cases e
  · simp only at e
    split at e
    · rename_i es hes
      refine notNeg_fold Fn.NotNeg (fun r hr a ha r' hr' => ?_) (notNeg_ofGroup _) e
      unfold permuteStep at hr'
      split at hr'
      · exact hr.set (h.rawEntries hes a ha) hr'
      · cases hr'
      · cases hr'
    · cases e
    · cases e

theorem notNeg_mulWhile {α : Type} {look : α → Res F} {l : List α} (hl : ∀ a ∈ l, ∀ x, look a = .ok x → EFG.NotNeg x)
    {v z : F} (hv : EFG.NotNeg v) (e : mulWhileNonZero look v l = .ok z) : EFG.NotNeg z := by
  induction l generalizing v with
  | nil => cases e; exact hv
  | cons a l ih =>
    unfold mulWhileNonZero at e
    split at e
    · cases e; exact hv
    · split at e
      · rename_i x hx
        exact ih (fun b hb => hl b (by simp [hb])) (Arith.Signed.mul _ _ hv (hl a (by simp) x hx)) e
      · cases e
      · cases e

theorem notNeg_merge {ord : List Var → List Var} {fs : List (Fn F)} (h : ∀ f ∈ fs, f.NotNeg) {g : Fn F}
    (e : merge ord fs = .ok g) : g.NotNeg := by
  unfold merge at e
  split at e
  · split at e
    · cases e
    · simp only at e
      split at e
      · rename_i finders hf
        have h1 : ∀ fd ∈ finders, fd.fn.NotNeg := by
          refine mapList_all (fun fd : Finder F => fd.fn.NotNeg) (fun f hfm fd hfd => ?_) hf
          unfold Finder.make at hfd
          split at hfd
          · cases hfd; exact h f (List.mem_of_mem_filter hfm)
          · cases hfd
          · cases hfd
        split at e
        · refine notNeg_fold Fn.NotNeg (fun r hr a _ r' hr' => ?_) (notNeg_ofGroup _) e
          unfold mergeStep at hr'
          split at hr'
          · rename_i v hv
            refine hr.set ?_ hr'
            unfold mergedImage at hv
            split at hv
            · rename_i y hy
              have h2 := notNeg_mulWhile (fun f hfm x hx => (h f (List.mem_of_mem_filter hfm)).findTransformed hx)
                Arith.Signed.one hy
              split at hv
              · rename_i z hz
                have h3 := notNeg_mulWhile (fun fd hfd x hx => by
                  unfold Finder.findTransformed at hx
                  split at hx
                  · exact (h1 fd hfd).findTransformed hx
                  · cases hx
                  · cases hx) h2 hz
                simp only [Res.ok.injEq] at hv
                split at hv
                · cases hv
                · cases hv; exact h3
              · cases hv
              · cases hv
            · cases hv
            · cases hv
          · cases hr'; exact hr
          · cases hr'
          · cases hr'
        · cases e
        · cases e
      · cases e
      · cases e
  · cases e
  · cases e

theorem notNeg_correlated {g : Group} {f : Fn F} (e : correlated g = .ok f) : f.NotNeg := by
  unfold correlated at e
  split at e
  · split at e
    · cases e
    · split at e
      · cases e
      · cases e
        rename_i v _ _
        have : ∀ (l : List Nat) (c : List (List Nat × F)), (∀ e ∈ c, EFG.NotNeg e.2) → ∀ e ∈ l.foldl
            (fun c k => sparseEmplace c (sameValues g.group.length k) Arith.one) c, EFG.NotNeg e.2 := by
          intro l
          induction l with
          | nil => intro c hc; exact hc
          | cons k l ih =>
            intro c hc
            refine ih _ ?_
            unfold sparseEmplace
            beta_reduce
            split
            · exact hc
            · intro x hx
              rcases List.mem_append.mp hx with h1 | h1
              · exact hc x h1
              · rw [List.mem_singleton] at h1
                rw [h1]; exact Arith.Signed.one
        exact this _ [] (by simp)
  · cases e
  · cases e

theorem notNeg_antiCorrelated {g : Group} {f : Fn F} (e : antiCorrelated g = .ok f) : f.NotNeg := by
  unfold antiCorrelated at e
  split at e
  · cases e
  · split at e
    · split at e
      · cases e
      · simp only at e
        split at e
        · rename_i imgs himgs
          cases e
          refine notNeg_dense (f := ofGroup g) ?_
          refine notNeg_fold (fun v : List F => ∀ x ∈ v, EFG.NotNeg x) (fun w hw a _ w' hw' => ?_) ?_ himgs
          · unfold antiStep at hw'
            split at hw'
            · exact notNeg_vecSet hw Arith.Signed.zero hw'
            · cases hw'
            · cases hw'
          · intro x hx
            rw [List.eq_of_mem_replicate hx]
            exact Arith.Signed.one
        · cases e
        · cases e
    · cases e
    · cases e

end Fn

/-- What a mutation leaves behind. -/
theorem notNeg_apply {op : Heap.Op F} {f g : Fn F} (h : f.NotNeg)
    (e : Heap.applyOp op f = .ok g () ∨ Heap.applyOp op f = .throw g) : g.NotNeg := by
  cases op with
  | set comb x =>
    unfold Heap.applyOp Fn.mutableSet at e
    simp only at e
    split at e
    · rcases e with e | e <;> cases e
      exact h
    · rename_i hx
      split at e
      · rcases e with e | e <;> cases e
        exact h
      · split at e
        · rename_i f' hf'
          rcases e with e | e <;> cases e
          refine h.set ?_ hf'
          unfold NotNeg
          simpa using hx
        · rcases e with e | e <;> cases e
          exact h
        · rcases e with e | e <;> cases e
  | clear =>
    rcases e with e | e <;> cases e
    exact Fn.notNeg_ofGroup (F := F) f.vars
  | replaceVariables vs =>
    unfold Heap.applyOp Fn.replaceVariables at e
    simp only at e
    split at e
    · rcases e with e | e <;> cases e
      exact h.congr rfl
    · rcases e with e | e <;> cases e
      exact h.congr rfl
    · rcases e with e | e <;> cases e
  | setWeight w =>
    rcases e with e | e <;> cases e
    exact h.congr rfl

theorem notNeg_factor {f : Fn F} (h : FactorReach f) : f.NotNeg := by
  induction h with
  | group _ _ => exact Fn.notNeg_ofGroup _
  | correlated _ _ h => exact Fn.notNeg_correlated h
  | antiCorrelated _ _ h => exact Fn.notNeg_antiCorrelated h
  | copy _ ih => exact ih.congr rfl
  | transformed _ h ih => exact ih.cloneTransformed h
  | merge _ _ h ih => exact Fn.notNeg_merge ih h
  | permuted _ _ h ih => exact ih.permute h
  | exponential _ h ih => exact ih.exponential h
  | copyExponential _ h ih => exact ih.copyExponential h
  | mutate _ h ih => exact notNeg_apply ih (.inl h)
  | mutateThrow _ h ih => exact notNeg_apply ih (.inr h)

end EFG
