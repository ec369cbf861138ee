import Verif.Lemmas.Gibbs
/- The parallel execution of the updates of the Gibbs sampler. -/

set_option linter.unusedSectionVars false

namespace EFG
namespace State
variable {F : Type} [Arith F]

/-! ### The groups are free of races -/

theorem samplerPass_free : ∀ (nds : List (SamplerNode F)) (stay change : List Nat),
    (nds.map SamplerNode.slot).Nodup →
    (∀ nd ∈ (samplerPass stay change nds).1, nd.slot ∉ stay ∧ ∀ d ∈ nd.deps, d.slot ∉ change) ∧
    (samplerPass stay change nds).1.Pairwise
      (fun a b => a.slot ≠ b.slot ∧ (∀ d ∈ b.deps, d.slot ≠ a.slot) ∧ ∀ d ∈ a.deps, d.slot ≠ b.slot) := by
  intro nds
  induction nds with
  | nil => intro _ _ _; exact ⟨by simp [samplerPass], by simp [samplerPass]⟩
  | cons nd nds ih =>
    intro stay change hnd
    rw [List.map_cons, List.nodup_cons] at hnd
    rw [samplerPass]
    split
    · rename_i hc
      simp only [Bool.and_eq_true, Bool.not_eq_true', List.contains_eq_mem, decide_eq_false_iff_not, List.any_eq_false,
        decide_eq_true_eq] at hc
      obtain ⟨h1, h2⟩ := ih (nd.deps.map SamplerDep.slot ++ stay) (nd.slot :: change) hnd.2
      constructor
      · intro x hx
        rcases List.mem_cons.mp hx with rfl | hx
        · exact hc
        · obtain ⟨h3, h4⟩ := h1 x hx
          exact ⟨fun h => h3 (by simp [h]), fun d hd h => h4 d hd (by simp [h])⟩
      · refine List.pairwise_cons.mpr ⟨fun x hx => ?_, h2⟩
        obtain ⟨h3, h4⟩ := h1 x hx
        have hx' : x ∈ nds := (samplerPass_perm nds _ _).mem_iff.mp (List.mem_append.mpr (Or.inl hx))
        refine ⟨fun e => hnd.1 (List.mem_map.mpr ⟨x, hx', e.symm⟩), fun d hd e => h4 d hd (by simp [e]), fun d hd e => ?_⟩
        exact h3 (List.mem_append.mpr (Or.inl (List.mem_map.mpr ⟨d, hd, e⟩)))
    · exact ih stay change hnd.2

theorem samplerPass_raceFree {nds : List (SamplerNode F)} (h : (nds.map SamplerNode.slot).Nodup) (stay change : List Nat) :
    RaceFree (samplerPass stay change nds).1 := by
  have hp := (samplerPass_free nds stay change h).2
  rw [List.pairwise_iff_getElem] at hp
  intro i j a b hi hj hij
  obtain ⟨h1, rfl⟩ := List.getElem?_eq_some_iff.mp hi
  obtain ⟨h2, rfl⟩ := List.getElem?_eq_some_iff.mp hj
  rcases Nat.lt_or_gt_of_ne hij with h | h
  · obtain ⟨e1, e2, e3⟩ := hp i j h1 h2 h
    exact ⟨e1, e2⟩
  · obtain ⟨e1, e2, e3⟩ := hp j i h2 h1 h
    exact ⟨fun e => e1 e.symm, e3⟩

theorem samplerGroups_raceFree : ∀ (n : Nat) (nds : List (SamplerNode F)), nds.length ≤ n →
    (nds.map SamplerNode.slot).Nodup → ∀ g ∈ samplerGroups nds, RaceFree g := by
  intro n
  induction n with
  | zero =>
    intro nds h
    have : nds = [] := List.length_eq_zero_iff.mp (by omega)
    subst this
    intro _ g hg
    cases hg
  | succ n ih =>
    intro nds h hnd g hg
    cases nds with
    | nil => cases hg
    | cons nd nds =>
      rw [samplerGroups_cons] at hg
      have h1 := samplerPass_length (nd :: nds) [] []
      have h2 : 0 < (samplerPass [] [] (nd :: nds)).1.length := by simp [samplerPass]
      rcases List.mem_cons.mp hg with rfl | hg
      · exact samplerPass_raceFree hnd _ _
      · refine ih _ (by omega) ?_ g hg
        have hp := (samplerPass_perm (nd :: nds) [] []).map SamplerNode.slot
        have := hp.nodup_iff.mpr hnd
        rw [List.map_append] at this
        exact (List.nodup_append.mp this).2.1

/-! ### Threads -/

/-- The tasks of a thread. -/
def tasksOf (size : Nat) (g : List (SamplerNode F)) (t : Nat) : List (SamplerNode F) :=
  (g.zipIdx.filter (fun e => e.2 % size = t)).map Prod.fst

/-- Tasks of different threads are independent. -/
def Apart (size : Nat) (g : List (SamplerNode F)) : Prop :=
  ∀ t t', t ≠ t' → ∀ a ∈ tasksOf size g t, ∀ b ∈ tasksOf size g t', a.slot ≠ b.slot ∧ ∀ d ∈ b.deps, d.slot ≠ a.slot

theorem mem_tasksOf {size : Nat} {g : List (SamplerNode F)} {t : Nat} {nd : SamplerNode F} :
    nd ∈ tasksOf size g t ↔ ∃ i, g[i]? = some nd ∧ i % size = t := by
  unfold tasksOf
  constructor
  · intro h
    obtain ⟨⟨a, i⟩, h1, rfl⟩ := List.mem_map.mp h
    obtain ⟨h2, h3⟩ := List.mem_filter.mp h1
    rw [List.mem_zipIdx_iff_getElem?] at h2
    exact ⟨i, h2, by simpa using h3⟩
  · rintro ⟨i, h1, h2⟩
    refine List.mem_map.mpr ⟨(nd, i), List.mem_filter.mpr ⟨?_, by simpa using h2⟩, rfl⟩
    rw [List.mem_zipIdx_iff_getElem?]
    exact h1

theorem RaceFree.apart {g : List (SamplerNode F)} (h : RaceFree g) (size : Nat) : Apart size g := by
  intro t t' ht a ha b hb
  obtain ⟨i, h1, h2⟩ := mem_tasksOf.mp ha
  obtain ⟨j, h3, h4⟩ := mem_tasksOf.mp hb
  exact h i j a b h1 h3 (by rintro rfl; exact ht (h2.symm.trans h4))

theorem apart_one (g : List (SamplerNode F)) : Apart 1 g := by
  intro t t' ht a ha b hb
  obtain ⟨i, h1, h2⟩ := mem_tasksOf.mp ha
  obtain ⟨j, h3, h4⟩ := mem_tasksOf.mp hb
  exact absurd (by omega) ht

/-! ### What the threads have done -/

/-- A slot which no other thread writes. -/
def Own (size : Nat) (g : List (SamplerNode F)) (t i : Nat) : Prop :=
  ∀ t', t' ≠ t → ∀ nd ∈ tasksOf size g t', nd.slot ≠ i

/-- The tasks done by a thread, as if it was alone. -/
structure Halfway (s : State F) (draw : Nat → Nat → F) (size : Nat) (g : List (SamplerNode F)) (c : Sampling)
    (w : Workers F) (t : Nat) : Prop where
  part : ∃ done ct, done ++ (w.worker t).todo = tasksOf size g t ∧
    Res.foldList (fun c nd => s.sampleTask draw nd t c) c done = .ok ct ∧ w.drawn t = ct.drawn t ∧
    ∀ i, Own size g t i → w.values[i]? = ct.values[i]?
  read : ∀ nd rest xs, w.worker t = ⟨nd :: rest, some xs⟩ → xs.length ≤ nd.deps.length ∧
    ∀ (k x : Nat), xs[k]? = some x → ∃ d : SamplerDep, nd.deps[k]? = some d ∧ w.values[d.slot]? = some x
  idle : (w.worker t).todo = [] → (w.worker t).read = none

theorem progress_start (s : State F) (draw : Nat → Nat → F) (size : Nat) (g : List (SamplerNode F)) (c : Sampling) (t : Nat) :
    Halfway s draw size g c (Workers.start size g c) t := by
  refine ⟨⟨[], c, rfl, rfl, rfl, fun _ _ => rfl⟩, ?_, fun _ => rfl⟩
  intro nd rest xs h
  injection h with _ h2
  cases h2

theorem sampleTask_length {s : State F} {draw : Nat → Nat → F} {nd : SamplerNode F} {t : Nat} {c c' : Sampling}
    (h : s.sampleTask draw nd t c = .ok c') : c'.values.length = c.values.length := by
  unfold sampleTask at h
  split at h
  · split at h
    · split at h
      · cases h; simp
      · cases h
    · cases h
    · cases h
  · cases h
  · cases h

theorem fold_length {s : State F} {draw : Nat → Nat → F} {t : Nat} (l : List (SamplerNode F)) : ∀ {c c' : Sampling},
    Res.foldList (fun c nd => s.sampleTask draw nd t c) c l = .ok c' → c'.values.length = c.values.length := by
  induction l with
  | nil => intro c c' h; cases h; rfl
  | cons nd l ih =>
    intro c c' h
    cases hx : s.sampleTask draw nd t c with
    | ok c1 =>
      rw [Res.foldList_cons_ok (f := fun c nd => s.sampleTask draw nd t c) hx] at h
      rw [ih h, sampleTask_length hx]
    | throw => rw [Res.foldList, hx] at h; cases h
    | ub => rw [Res.foldList, hx] at h; cases h

theorem WorkStep.progress {s : State F} {draw : Nat → Nat → F} {size : Nat} {g : List (SamplerNode F)} {c : Sampling}
    (ha : Apart size g) {w w' : Workers F} (hst : WorkStep s draw w w') (hl : w.values.length = c.values.length)
    (hp : ∀ t, Halfway s draw size g c w t) :
    w'.values.length = c.values.length ∧ ∀ t, Halfway s draw size g c w' t := by
  have htodo : ∀ t nd rest r, w.worker t = ⟨nd :: rest, r⟩ → nd ∈ tasksOf size g t := by
    intro t nd rest r h
    obtain ⟨done, _, h1, _⟩ := (hp t).part
    rw [h] at h1
    rw [← h1]
    simp
  have hdeps : ∀ t nd, nd ∈ tasksOf size g t → ∀ d ∈ nd.deps, Own size g t d.slot := by
    intro t nd hnd d hd t' ht' a ha' e
    exact (ha t' t ht' a ha' nd hnd).2 d hd e.symm
  cases hst with
  | @start t nd rest hw =>
    refine ⟨hl, fun u => ?_⟩
    by_cases hu : u = t
    · subst hu
      have := hp u
      refine ⟨?_, ?_, ?_⟩
      · obtain ⟨done, ct, h1, h2⟩ := this.part
        exact ⟨done, ct, by simpa [hw] using h1, h2⟩
      · intro nd' rest' xs h
        simp only [Function.update_self] at h
        cases h
        exact ⟨by simp, fun k x hk => by simp at hk⟩
      · intro h; simp at h
    · refine ⟨?_, ?_, ?_⟩
      · obtain ⟨done, ct, h1, h2⟩ := (hp u).part
        exact ⟨done, ct, by simpa [Function.update_of_ne hu] using h1, h2⟩
      · intro nd' rest' xs h
        simp only [Function.update_of_ne hu] at h
        exact (hp u).read nd' rest' xs h
      · intro h
        simp only [Function.update_of_ne hu] at h ⊢
        exact (hp u).idle h
  | @read t nd rest xs d x hw hd hx =>
    refine ⟨hl, fun u => ?_⟩
    by_cases hu : u = t
    · subst hu
      refine ⟨?_, ?_, ?_⟩
      · obtain ⟨done, ct, h1, h2⟩ := (hp u).part
        exact ⟨done, ct, by simpa [hw] using h1, h2⟩
      · intro nd' rest' xs' h
        simp only [Function.update_self] at h
        cases h
        obtain ⟨h1, h2⟩ := (hp u).read nd rest xs hw
        have hlt := (List.getElem?_eq_some_iff.mp hd).1
        refine ⟨by simp; omega, fun k y hk => ?_⟩
        by_cases hk' : k < xs.length
        · rw [List.getElem?_append_left hk'] at hk
          exact h2 k y hk
        · rw [List.getElem?_append_right (by omega)] at hk
          have : k - xs.length = 0 := by
            have := (List.getElem?_eq_some_iff.mp hk).1
            simp at this
            omega
          rw [this] at hk
          simp only [List.getElem?_cons_zero, Option.some.injEq] at hk
          have hke : k = xs.length := by omega
          subst hke
          exact ⟨d, hd, hk ▸ hx⟩
      · intro h; simp at h
    · refine ⟨?_, ?_, ?_⟩
      · obtain ⟨done, ct, h1, h2⟩ := (hp u).part
        exact ⟨done, ct, by simpa [Function.update_of_ne hu] using h1, h2⟩
      · intro nd' rest' xs h
        simp only [Function.update_of_ne hu] at h
        exact (hp u).read nd' rest' xs h
      · intro h
        simp only [Function.update_of_ne hu] at h ⊢
        exact (hp u).idle h
  | @write t nd rest xs x hw hx hv hs =>
    refine ⟨by simpa using hl, fun u => ?_⟩
    have hnd := htodo t nd rest _ hw
    by_cases hu : u = t
    · subst hu
      refine ⟨?_, ?_, ?_⟩
      · obtain ⟨done, ct, h1, h2, h3, h4⟩ := (hp u).part
        obtain ⟨_, hr⟩ := (hp u).read nd rest xs hw
        have hread : readDeps nd.deps ct.values = .ok xs := by
          unfold readDeps
          rw [Res.mapList_eq_ok]
          refine List.forall₂_iff_get.mpr ⟨hx.symm, fun i hi hi' => ?_⟩
          obtain ⟨d, hd, hdx⟩ := hr i (xs[i]'hi') (List.getElem?_eq_getElem hi')
          have hde : nd.deps[i]'hi = d := by
            rw [List.getElem?_eq_getElem hi] at hd
            exact Option.some.inj hd
          have hown := hdeps u nd hnd d (List.mem_of_getElem? hd)
          show Res.ofOption ct.values[(nd.deps[i]'hi).slot]? = _
          rw [hde, ← h4 _ hown, hdx]
          rfl
        have hlen := fold_length done h2
        refine ⟨done ++ [nd], ⟨ct.values.set nd.slot x, fun v => if v = u then ct.drawn v + 1 else ct.drawn v⟩, ?_, ?_, ?_, ?_⟩
        · rw [hw] at h1
          simpa using h1
        · rw [Res.foldList_append, h2]
          refine (Res.foldList_cons_ok (f := fun c nd => s.sampleTask draw nd u c) ?_).trans rfl
          unfold sampleTask
          rw [hread]
          simp only
          rw [← h3, hv]
          simp only
          rw [if_pos (by omega)]
        · simp [h3]
        · intro i hi
          simp only [List.getElem?_set]
          rw [h4 i hi]
          by_cases e : nd.slot = i
          · rw [if_pos e, if_pos e, if_pos (by omega), if_pos (by omega)]
          · rw [if_neg e, if_neg e]
      · intro nd' rest' xs' h
        simp only [Function.update_self] at h
        injection h with _ h2
        cases h2
      · intro _; simp
    · refine ⟨?_, ?_, ?_⟩
      · obtain ⟨done, ct, h1, h2, h3, h4⟩ := (hp u).part
        refine ⟨done, ct, by simpa [Function.update_of_ne hu] using h1, h2, by simpa [Function.update_of_ne hu] using h3, ?_⟩
        intro i hi
        simp only [List.getElem?_set]
        rw [if_neg (hi t (fun e => hu e.symm) nd hnd)]
        exact h4 i hi
      · intro nd' rest' xs' h
        simp only [Function.update_of_ne hu] at h
        obtain ⟨h1, h2⟩ := (hp u).read nd' rest' xs' h
        refine ⟨h1, fun k y hk => ?_⟩
        obtain ⟨d, hd, hdx⟩ := h2 k y hk
        refine ⟨d, hd, ?_⟩
        have hown := hdeps u nd' (htodo u nd' rest' _ h) d (List.mem_of_getElem? hd)
        simp only [List.getElem?_set]
        rw [if_neg (hown t (fun e => hu e.symm) nd hnd)]
        exact hdx
      · intro h
        simp only [Function.update_of_ne hu] at h ⊢
        exact (hp u).idle h

theorem Works.progress {s : State F} {draw : Nat → Nat → F} {size : Nat} {g : List (SamplerNode F)} {c : Sampling}
    (ha : Apart size g) {n : Nat} {w w' : Workers F} (h : Works s draw n w w') : w.values.length = c.values.length →
    (∀ t, Halfway s draw size g c w t) → w'.values.length = c.values.length ∧ ∀ t, Halfway s draw size g c w' t := by
  induction h with
  | nil => intro h1 h2; exact ⟨h1, h2⟩
  | cons hst _ ih =>
    intro h1 h2
    obtain ⟨h3, h4⟩ := hst.progress ha h1 h2
    exact ih h3 h4

/-- All the executions of a group end in the same way. -/
theorem Works.unique {s : State F} {draw : Nat → Nat → F} {size : Nat} {g : List (SamplerNode F)} {c : Sampling}
    (ha : Apart size g) {n n' : Nat} {w w' : Workers F} (h : Works s draw n (Workers.start size g c) w) (hd : w.Done)
    (h' : Works s draw n' (Workers.start size g c) w') (hd' : w'.Done) : w.values = w'.values ∧ w.drawn = w'.drawn := by
  obtain ⟨hl, hp⟩ := h.progress (c := c) ha rfl (progress_start s draw size g c)
  obtain ⟨hl', hp'⟩ := h'.progress (c := c) ha rfl (progress_start s draw size g c)
  have key : ∀ t, w.drawn t = w'.drawn t ∧ ∀ i, Own size g t i → w.values[i]? = w'.values[i]? := by
    intro t
    obtain ⟨d, ct, h1, h2, h3, h4⟩ := (hp t).part
    obtain ⟨d', ct', h1', h2', h3', h4'⟩ := (hp' t).part
    rw [hd t, List.append_nil] at h1
    rw [hd' t, List.append_nil] at h1'
    rw [h1] at h2
    rw [h1'] at h2'
    rw [h2] at h2'
    cases h2'
    exact ⟨h3.trans h3'.symm, fun i hi => (h4 i hi).trans (h4' i hi).symm⟩
  refine ⟨List.ext_getElem? (fun i => ?_), funext (fun t => (key t).1)⟩
  by_cases hi : ∃ t, ∃ nd ∈ tasksOf size g t, nd.slot = i
  · obtain ⟨t, nd, hnd, rfl⟩ := hi
    exact (key t).2 _ (fun t' ht' a ha' => (ha t' t ht' a ha' nd hnd).1)
  · exact (key 0).2 i (fun t' _ nd hnd e => hi ⟨t', nd, hnd, e⟩)

/-! ### Executing the tasks in their order -/

theorem Works.trans {s : State F} {draw : Nat → Nat → F} {n m : Nat} {w w' w'' : Workers F} (h : Works s draw n w w')
    (h' : Works s draw m w' w'') : Works s draw (n + m) w w'' := by
  induction h with
  | nil => rw [Nat.zero_add]; exact h'
  | @cons n _ _ _ hst _ ih => rw [Nat.add_right_comm]; exact .cons hst (ih h')

/-- The steps of one task. -/
theorem works_task {s : State F} {draw : Nat → Nat → F} {w : Workers F} {t : Nat} {nd : SamplerNode F}
    {rest : List (SamplerNode F)} (hw : w.worker t = ⟨nd :: rest, none⟩) {c' : Sampling}
    (h : s.sampleTask draw nd t ⟨w.values, w.drawn⟩ = .ok c') :
    ∃ n, Works s draw n w { worker := Function.update w.worker t ⟨rest, none⟩, values := c'.values, drawn := c'.drawn } := by
  unfold sampleTask at h
  split at h
  · rename_i xs hxs
    split at h
    · rename_i x hx
      split at h
      · rename_i hlt
        cases h
        unfold readDeps at hxs
        have hf := Res.mapList_eq_ok.mp hxs
        have hlen : nd.deps.length = xs.length := hf.length_eq
        -- reading the first k values
        have hread : ∀ k, k ≤ xs.length → ∃ n, Works s draw n w
            { w with worker := Function.update w.worker t ⟨nd :: rest, some (xs.take k)⟩ } := by
          intro k
          induction k with
          | zero => intro _; exact ⟨1, .cons (.start hw) (by simpa using .nil)⟩
          | succ k ih =>
            intro hk
            obtain ⟨n, hn⟩ := ih (by omega)
            refine ⟨n + 1, hn.trans ?_⟩
            have hget := hf.get (i := k) (by omega) (by omega)
            have hd : w.values[(nd.deps[k]'(by omega)).slot]? = some (xs[k]'(by omega)) := by
              have : Res.ofOption w.values[(nd.deps[k]'(by omega)).slot]? = .ok (xs[k]'(by omega)) := hget
              cases he : w.values[(nd.deps[k]'(by omega)).slot]? with
              | none => rw [he] at this; cases this
              | some y => rw [he] at this; cases this; rfl
            have hstep := WorkStep.read (s := s) (draw := draw)
              (w := { w with worker := Function.update w.worker t ⟨nd :: rest, some (xs.take k)⟩ }) (t := t)
              (nd := nd) (rest := rest) (xs := xs.take k) (d := nd.deps[k]'(by omega)) (x := xs[k]'(by omega))
              (by simp) (by rw [List.length_take, Nat.min_eq_left (by omega)]; exact List.getElem?_eq_getElem (by omega)) hd
            simp only [Function.update_idem] at hstep
            rw [← List.take_concat_get' xs k (by omega)]
            exact .cons hstep .nil
        obtain ⟨n, hn⟩ := hread xs.length le_rfl
        rw [List.take_length] at hn
        refine ⟨n + 1, hn.trans ?_⟩
        have hstep := WorkStep.write (s := s) (draw := draw)
          (w := { w with worker := Function.update w.worker t ⟨nd :: rest, some xs⟩ }) (t := t)
          (nd := nd) (rest := rest) (xs := xs) (x := x) (by simp) hlen.symm hx hlt
        simp only [Function.update_idem] at hstep
        have he : (fun u => if u = t then w.drawn u + 1 else w.drawn u) = Function.update w.drawn t (w.drawn t + 1) := by
          funext u
          by_cases hu : u = t
          · subst hu; simp
          · rw [Function.update_of_ne hu, if_neg hu]
        simp only
        rw [he]
        exact .cons hstep .nil
      · cases h
    · cases h
    · cases h
  · cases h
  · cases h

/-- The tasks in their order are one of the executions. -/
theorem sampleGroup_works {s : State F} {draw : Nat → Nat → F} {size : Nat} {g : List (SamplerNode F)} {c c' : Sampling}
    (h : s.sampleGroup draw size c g = .ok c') : ParGroup s draw size g c c' := by
  have gen : ∀ (l : List (SamplerNode F × Nat)) (w : Workers F) (c' : Sampling),
      (∀ t, w.worker t = ⟨(l.filter (fun e => e.2 % size = t)).map Prod.fst, none⟩) →
      Res.foldList (s.sampleStep draw size) ⟨w.values, w.drawn⟩ l = .ok c' →
      ∃ n w', Works s draw n w w' ∧ w'.Done ∧ c'.values = w'.values ∧ c'.drawn = w'.drawn := by
    intro l
    induction l with
    | nil =>
      intro w c' hw h
      cases h
      exact ⟨0, w, .nil, fun t => by rw [hw t]; rfl, rfl, rfl⟩
    | cons e l ih =>
      obtain ⟨nd, k⟩ := e
      intro w c' hw h
      cases hx : s.sampleStep draw size ⟨w.values, w.drawn⟩ (nd, k) with
      | ok c1 =>
        rw [Res.foldList_cons_ok hx] at h
        obtain ⟨n, hn⟩ := works_task (t := k % size) (nd := nd)
          (rest := (l.filter (fun e => e.2 % size = k % size)).map Prod.fst) (by rw [hw]; simp) hx
        have hrest : ∀ t, Function.update w.worker (k % size)
            ⟨(l.filter (fun e => e.2 % size = k % size)).map Prod.fst, none⟩ t =
              ⟨(l.filter (fun e => e.2 % size = t)).map Prod.fst, none⟩ := by
          intro t
          by_cases ht : t = k % size
          · subst ht; simp
          · rw [Function.update_of_ne ht, hw t, List.filter_cons_of_neg (by simpa using fun e => ht e.symm)]
        obtain ⟨m, w', h1, h2⟩ := ih (Workers.mk (Function.update w.worker (k % size)
          ⟨(l.filter (fun e => e.2 % size = k % size)).map Prod.fst, none⟩) c1.values c1.drawn) c' hrest h
        exact ⟨n + m, w', hn.trans h1, h2⟩
      | throw => rw [Res.foldList, hx] at h; cases h
      | ub => rw [Res.foldList, hx] at h; cases h
  exact gen g.zipIdx (Workers.start size g c) c' (fun t => rfl) h

/-- Every execution of a group ends as the execution in order. -/
theorem ParGroup.eq {s : State F} {draw : Nat → Nat → F} {size : Nat} {g : List (SamplerNode F)} {c c' c'' : Sampling}
    (ha : Apart size g) (h : ParGroup s draw size g c c') (h' : s.sampleGroup draw size c g = .ok c'') : c' = c'' := by
  obtain ⟨n, w, h1, h2, h3, h4⟩ := h
  obtain ⟨m, w', g1, g2, g3, g4⟩ := sampleGroup_works h'
  obtain ⟨e1, e2⟩ := h1.unique ha h2 g1 g2
  cases c'
  cases c''
  simp only at h3 h4 g3 g4
  rw [h3, h4, g3, g4, e1, e2]

/-! ### No thread gets stuck -/

/-- The threads are in a state from which they can go on. -/
structure Sane (s : State F) (size : Nat) (g : List (SamplerNode F)) (w : Workers F) : Prop where
  values : s.IsSample w.values
  todo : ∀ t, ∀ nd ∈ (w.worker t).todo, nd ∈ g
  out : ∀ t, size ≤ t → (w.worker t).todo = []
  read : ∀ t nd rest xs, w.worker t = ⟨nd :: rest, some xs⟩ → xs.length ≤ nd.deps.length ∧
    ∀ (k x : Nat) (d : SamplerDep), xs[k]? = some x → nd.deps[k]? = some d → x < d.sender.size

theorem sane_start {s : State F} {size : Nat} (hsz : 1 ≤ size) {g : List (SamplerNode F)} {c : Sampling}
    (hc : s.IsSample c.values) : Sane s size g (Workers.start size g c) := by
  refine ⟨hc, fun t nd h => ?_, fun t ht => ?_, fun t nd rest xs h => ?_⟩
  · obtain ⟨i, h1, _⟩ := mem_tasksOf.mp h
    exact List.mem_of_getElem? h1
  · refine List.eq_nil_iff_forall_not_mem.mpr (fun nd h => ?_)
    obtain ⟨i, _, h2⟩ := mem_tasksOf.mp h
    have := Nat.mod_lt i (show 0 < size by omega)
    omega
  · injection h with _ h2
    cases h2

theorem WorkStep.sane {ord : List Var → List Var} {s : State F} (hs : Core s) {draw : Nat → Nat → F} {size : Nat}
    {g : List (SamplerNode F)} (hg : Nodes ord s g) {w w' : Workers F} (hst : WorkStep s draw w w')
    (h : Sane s size g w) : Sane s size g w' := by
  cases hst with
  | @start t nd rest hw =>
    have hmem := h.todo t
    have hout := h.out t
    rw [hw] at hmem hout
    refine ⟨h.values, fun u => ?_, fun u hu => ?_, fun u nd' rest' xs' hx => ?_⟩
    · by_cases e : u = t
      · subst e; simpa using hmem
      · simp only [Function.update_of_ne e]; exact h.todo u
    · by_cases e : u = t
      · subst e; exact absurd (hout hu) (by simp)
      · simp only [Function.update_of_ne e]; exact h.out u hu
    · by_cases e : u = t
      · subst e
        simp only [Function.update_self] at hx
        cases hx
        exact ⟨by simp, fun k x d hk => by simp at hk⟩
      · simp only [Function.update_of_ne e] at hx; exact h.read u nd' rest' xs' hx
  | @read t nd rest xs d x hw hd hx =>
    have hmem := h.todo t
    have hout := h.out t
    rw [hw] at hmem hout
    refine ⟨h.values, fun u => ?_, fun u hu => ?_, fun u nd' rest' xs' hxs => ?_⟩
    · by_cases e : u = t
      · subst e; simpa using hmem
      · simp only [Function.update_of_ne e]; exact h.todo u
    · by_cases e : u = t
      · subst e; exact absurd (hout hu) (by simp)
      · simp only [Function.update_of_ne e]; exact h.out u hu
    · by_cases e : u = t
      · subst e
        simp only [Function.update_self] at hxs
        cases hxs
        obtain ⟨h1, h2⟩ := h.read u nd rest xs hw
        have hlt := (List.getElem?_eq_some_iff.mp hd).1
        refine ⟨by simp; omega, fun k y d' hk hd' => ?_⟩
        by_cases hk' : k < xs.length
        · rw [List.getElem?_append_left hk'] at hk
          exact h2 k y d' hk hd'
        · rw [List.getElem?_append_right (by omega)] at hk
          have h0 : k - xs.length = 0 := by
            have := (List.getElem?_eq_some_iff.mp hk).1
            simp at this
            omega
          rw [h0] at hk
          simp only [List.getElem?_cons_zero, Option.some.injEq] at hk
          have hke : k = xs.length := by omega
          subst hke
          rw [hd] at hd'
          cases hd'
          subst hk
          obtain ⟨v, _, hn⟩ := hg nd (hmem nd (by simp))
          obtain ⟨y, hy, hlt'⟩ := h.values.fits.2 d.slot d.sender (hn.dep d (List.mem_of_getElem? hd)).1
          rw [hx] at hy
          cases hy
          exact hlt'
      · simp only [Function.update_of_ne e] at hxs; exact h.read u nd' rest' xs' hxs
  | @write t nd rest xs x hw hx hv hlt =>
    have hmem := h.todo t
    have hout := h.out t
    rw [hw] at hmem hout
    refine ⟨?_, fun u => ?_, fun u hu => ?_, fun u nd' rest' xs' hxs => ?_⟩
    · obtain ⟨v, hvo, hn⟩ := hg nd (hmem nd (by simp))
      obtain ⟨h1, h2⟩ := h.read t nd rest xs hw
      obtain ⟨y, hy, hy'⟩ := updatedValue_ok hs hn (xs := xs) (List.forall₂_iff_get.mpr ⟨hx.symm, fun i hi hi' =>
        h2 i _ _ (List.getElem?_eq_getElem hi') (List.getElem?_eq_getElem hi)⟩) (draw t (w.drawn t))
      rw [hv] at hy
      cases hy
      exact h.values.set hn.slot hvo hy'
    · by_cases e : u = t
      · subst e; simp only [Function.update_self]; exact fun nd' h' => hmem nd' (by simp [h'])
      · simp only [Function.update_of_ne e]; exact h.todo u
    · by_cases e : u = t
      · subst e; exact absurd (hout hu) (by simp)
      · simp only [Function.update_of_ne e]; exact h.out u hu
    · by_cases e : u = t
      · subst e
        simp only [Function.update_self] at hxs
        injection hxs with _ h2
        cases h2
      · simp only [Function.update_of_ne e] at hxs; exact h.read u nd' rest' xs' hxs

theorem Sane.step {ord : List Var → List Var} {s : State F} (hs : Core s) (draw : Nat → Nat → F) {size : Nat}
    {g : List (SamplerNode F)} (hg : Nodes ord s g) {w : Workers F} (h : Sane s size g w) (hd : ¬ w.Done) :
    ∃ w', WorkStep s draw w w' := by
  unfold Workers.Done at hd
  push Not at hd
  obtain ⟨t, ht⟩ := hd
  cases hw : w.worker t with
  | mk todo read =>
    rw [hw] at ht
    cases todo with
    | nil => exact absurd rfl ht
    | cons nd rest =>
      cases read with
      | none => exact ⟨_, .start hw⟩
      | some xs =>
        have hm := h.todo t
        rw [hw] at hm
        obtain ⟨v, hvo, hn⟩ := hg nd (hm nd (by simp))
        obtain ⟨h1, h2⟩ := h.read t nd rest xs hw
        by_cases hl : xs.length < nd.deps.length
        · obtain ⟨y, hy, _⟩ := h.values.fits.2 _ _ (hn.dep _ (List.getElem_mem hl)).1
          exact ⟨_, .read hw (List.getElem?_eq_getElem hl) hy⟩
        · have hx : xs.length = nd.deps.length := by omega
          obtain ⟨y, hy, hy'⟩ := updatedValue_ok hs hn (xs := xs) (List.forall₂_iff_get.mpr ⟨hx.symm, fun i hi hi' =>
            h2 i _ _ (List.getElem?_eq_getElem hi') (List.getElem?_eq_getElem hi)⟩) (draw t (w.drawn t))
          refine ⟨_, .write hw hx hy ?_⟩
          rw [h.values.1]
          exact (List.getElem?_eq_some_iff.mp hn.slot).1

/-- The number of steps a thread still has to do. -/
def Worker.left (w : Worker F) : Nat :=
  (w.todo.map (fun nd => nd.deps.length + 2)).sum - (match w.read with | some xs => xs.length + 1 | none => 0)

theorem WorkStep.left {s : State F} {draw : Nat → Nat → F} {size : Nat} {g : List (SamplerNode F)} {w w' : Workers F}
    (hst : WorkStep s draw w w') (h : Sane s size g w) :
    ((List.range size).map (fun t => (w'.worker t).left)).sum + 1 = ((List.range size).map (fun t => (w.worker t).left)).sum := by
  have key : ∀ (t : Nat) (x : Worker F), t < size → x.left + 1 = (w.worker t).left →
      ((List.range size).map (fun u => (Function.update w.worker t x u).left)).sum + 1 =
        ((List.range size).map (fun u => (w.worker u).left)).sum := by
    intro t x
    clear hst h
    induction size with
    | zero => intro ht; omega
    | succ n ih =>
      intro ht hx
      rw [List.range_succ, List.map_append, List.map_append, List.sum_append, List.sum_append]
      simp only [List.map_cons, List.map_nil, List.sum_cons, List.sum_nil]
      by_cases e : t = n
      · subst e
        rw [Function.update_self]
        have : (List.range t).map (fun u => (Function.update w.worker t x u).left) = (List.range t).map (fun u => (w.worker u).left) := by
          refine List.map_congr_left (fun u hu => ?_)
          rw [Function.update_of_ne (by have := List.mem_range.mp hu; omega)]
        rw [this]
        omega
      · have := ih (by omega) hx
        rw [Function.update_of_ne (fun e' => e e'.symm)]
        omega
  have hlt : ∀ t nd rest r, w.worker t = ⟨nd :: rest, r⟩ → t < size := by
    intro t nd rest r hw
    by_contra hc
    have := h.out t (by omega)
    rw [hw] at this
    cases this
  cases hst with
  | @start t nd rest hw =>
    refine key t _ (hlt t _ _ _ hw) ?_
    rw [hw]
    simp only [Worker.left, List.map_cons, List.sum_cons, List.length_nil]
    omega
  | @read t nd rest xs d x hw hd hx =>
    refine key t _ (hlt t _ _ _ hw) ?_
    rw [hw]
    have := (List.getElem?_eq_some_iff.mp hd).1
    simp only [Worker.left, List.map_cons, List.sum_cons, List.length_append, List.length_nil, List.length_cons]
    omega
  | @write t nd rest xs x hw hx hv hs =>
    refine key t _ (hlt t _ _ _ hw) ?_
    rw [hw]
    simp only [Worker.left, List.map_cons, List.sum_cons]
    omega

theorem Works.left {ord : List Var → List Var} {s : State F} (hs : Core s) {draw : Nat → Nat → F} {size : Nat}
    {g : List (SamplerNode F)} (hg : Nodes ord s g) {n : Nat} {w w' : Workers F} (h : Works s draw n w w') :
    Sane s size g w → Sane s size g w' ∧
      ((List.range size).map (fun t => (w'.worker t).left)).sum + n = ((List.range size).map (fun t => (w.worker t).left)).sum := by
  induction h with
  | nil => intro h; exact ⟨h, rfl⟩
  | cons hst _ ih =>
    intro h
    obtain ⟨h1, h2⟩ := ih (hst.sane hs hg h)
    have := hst.left h
    exact ⟨h1, by omega⟩

/-- Every execution can be completed. -/
theorem Sane.complete {ord : List Var → List Var} {s : State F} (hs : Core s) (draw : Nat → Nat → F) {size : Nat}
    {g : List (SamplerNode F)} (hg : Nodes ord s g) : ∀ (k : Nat) (w : Workers F), Sane s size g w →
    ((List.range size).map (fun t => (w.worker t).left)).sum ≤ k → ∃ n w', Works s draw n w w' ∧ w'.Done := by
  intro k
  induction k with
  | zero =>
    intro w h hk
    by_cases hd : w.Done
    · exact ⟨0, w, .nil, hd⟩
    · obtain ⟨w', hw'⟩ := h.step hs draw hg hd
      have := hw'.left h
      omega
  | succ k ih =>
    intro w h hk
    by_cases hd : w.Done
    · exact ⟨0, w, .nil, hd⟩
    · obtain ⟨w', hw'⟩ := h.step hs draw hg hd
      have := hw'.left h
      obtain ⟨n, w'', h1, h2⟩ := ih w' (hw'.sane hs hg h) (by omega)
      exact ⟨n + 1, w'', .cons hw' h1, h2⟩

/-! ### Whole executions -/

theorem ParGroups.eq {s : State F} {draw : Nat → Nat → F} {size : Nat} {gs : List (List (SamplerNode F))} {c c' : Sampling}
    (h : ParGroups s draw size gs c c') : (∀ g ∈ gs, Apart size g) → ∀ c'', Res.foldList (s.sampleGroup draw size) c gs = .ok c'' →
    c' = c'' := by
  induction h with
  | nil => intro _ c'' h; cases h; rfl
  | @cons g gs c c1 c' h1 _ ih =>
    intro ha c'' h
    cases hx : s.sampleGroup draw size c g with
    | ok c2 =>
      rw [Res.foldList_cons_ok hx] at h
      have := h1.eq (ha g (by simp)) hx
      subst this
      exact ih (fun g' hg' => ha g' (by simp [hg'])) c'' h
    | throw => rw [Res.foldList, hx] at h; cases h
    | ub => rw [Res.foldList, hx] at h; cases h

theorem ParEvolve.eq {s : State F} {draw : Nat → Nat → F} {size : Nat} {gs : List (List (SamplerNode F))} {n : Nat}
    {c c' : Sampling} (h : ParEvolve s draw size gs n c c') (ha : ∀ g ∈ gs, Apart size g) :
    ∀ c'', s.evolve draw size gs n c = .ok c'' → c' = c'' := by
  induction h with
  | zero => intro c'' h; cases h; rfl
  | @succ n c c1 c' h1 _ ih =>
    intro c'' h
    rw [evolve] at h
    cases hx : Res.foldList (s.sampleGroup draw size) c gs with
    | ok c2 =>
      rw [hx] at h
      have := h1.eq ha c2 hx
      subst this
      exact ih c'' h
    | throw => rw [hx] at h; cases h
    | ub => rw [hx] at h; cases h

theorem ParSamples.eq {s : State F} {draw : Nat → Nat → F} {size delta : Nat} {gs : List (List (SamplerNode F))} {n : Nat}
    {c : Sampling} {l : List (List Nat)} (h : ParSamples s draw size delta gs n c l) (ha : ∀ g ∈ gs, Apart size g) :
    ∀ l', s.takeSamples draw size delta gs n c = .ok l' → l = l' := by
  induction h with
  | zero => intro l' h; cases h; rfl
  | @succ n c c1 l h1 _ ih =>
    intro l' h
    rw [takeSamples] at h
    cases hx : s.evolve draw size gs delta c with
    | ok c2 =>
      rw [hx] at h
      have := h1.eq ha c2 hx
      subst this
      simp only at h
      cases hy : s.takeSamples draw size delta gs n c1 with
      | ok l2 => rw [hy] at h; cases h; rw [ih l2 hy]
      | throw => rw [hy] at h; cases h
      | ub => rw [hy] at h; cases h
    | throw => rw [hx] at h; cases h
    | ub => rw [hx] at h; cases h

/-! ### The nodes of a model -/

/-- The nodes have different positions, which are those of the hidden variables. -/
theorem makeSamplerNodes_nodes {ord : List Var → List Var} (hord : ∀ l, (ord l).Perm l) {s s' : State F} (hs : Inv s)
    {c : List Nat} {nds : List (SamplerNode F)} (h : makeSamplerNodes ord s = .ok s' (c, nds)) :
    s.IsSample c ∧ Inv s' ∧ Quiet s s' ∧ Nodes ord s' nds ∧ (nds.map SamplerNode.slot).Nodup ∧
      nds.map (fun nd => s.vars[nd.slot]?) = (sampled ord s).map some := by
  obtain ⟨s1, c1, nds1, h1, h2, h3, h4⟩ := makeSamplerNodes_ok hord hs
  rw [h] at h1
  cases h1
  have hmap : nds.map (fun nd => s.vars[nd.slot]?) = (sampled ord s).map some := by
    have : ∀ {l : List Var} {nds : List (SamplerNode F)}, List.Forall₂ (NodeOf ord s) l nds →
        nds.map (fun nd => s.vars[nd.slot]?) = l.map some := by
      intro l nds h
      induction h with
      | nil => rfl
      | cons h1 _ ih => rw [List.map_cons, List.map_cons, ih, h1.slot]
    exact this h4
  refine ⟨h2, h3.inv hs, h3.toQuiet, ?_, ?_, hmap⟩
  · intro nd hnd
    obtain ⟨i, hi, rfl⟩ := List.getElem_of_mem hnd
    have := h4.get (by rw [h4.length_eq]; exact hi) hi
    have hv := (sampled_perm hord hs).mem_iff.mp (List.get_mem (sampled ord s) ⟨i, by rw [h4.length_eq]; exact hi⟩)
    refine ⟨_, ?_, (NodeOf.quiet h3.toQuiet).mpr this⟩
    unfold obs
    rw [h3.evidences]
    exact (mem_hid.mp hv).2
  · have hnd : ((sampled ord s).map some).Nodup :=
      ((sampled_perm hord hs).nodup_iff.mpr (hid_nodup hs.net)).map (fun a b e => Option.some.inj e)
    rw [← hmap] at hnd
    have : nds.map (fun nd => s.vars[nd.slot]?) = (nds.map SamplerNode.slot).map (fun i => s.vars[i]?) := by
      rw [List.map_map]; rfl
    rw [this] at hnd
    exact List.Nodup.of_map _ hnd

theorem samplingGroups_apart {size : Nat} {nds : List (SamplerNode F)} (h : (nds.map SamplerNode.slot).Nodup) :
    ∀ g ∈ samplingGroups size nds, Apart size g := by
  intro g hg
  unfold samplingGroups at hg
  split at hg
  · rename_i h1
    subst h1
    exact apart_one g
  · exact (samplerGroups_raceFree _ nds le_rfl h g hg).apart size

end State
end EFG
