import Verif.Spec.Pool
/- The invariant of the executions of the pool. -/

namespace EFG
namespace Pool

/-! ### The tasks done by a thread -/

/-- The tasks of thread `t` among the first `m`. -/
def upTo (size : Nat) (j : Job) (t m : Nat) : List Event :=
  ((List.range m).filter (fun k => k % size = t)).flatMap (fun k => [.enter j k t, .leave j k t])

theorem turn_eq (size : Nat) (j : Job) (t : Nat) : turn size j t = upTo size j t j.tasks := rfl

theorem upTo_succ_ne {size : Nat} {j : Job} {t m : Nat} (h : m % size ≠ t) :
    upTo size j t (m + 1) = upTo size j t m := by
  unfold upTo
  rw [List.range_succ, List.filter_append, List.flatMap_append]
  simp [h]

theorem upTo_succ_eq {size : Nat} {j : Job} {t m : Nat} (h : m % size = t) :
    upTo size j t (m + 1) = upTo size j t m ++ [.enter j m t, .leave j m t] := by
  unfold upTo
  rw [List.range_succ, List.filter_append, List.flatMap_append]
  simp [h]

theorem upTo_small {size : Nat} {j : Job} {t m : Nat} (hm : m ≤ t) (ht : t < size) : upTo size j t m = [] := by
  induction m with
  | zero => rfl
  | succ m ih =>
    rw [upTo_succ_ne, ih (by omega)]
    rw [Nat.mod_eq_of_lt (by omega)]
    omega

theorem mod_ne {size k e : Nat} (h1 : 0 < e) (h2 : e < size) : (k + e) % size ≠ k % size := by
  intro h
  have h3 : k % size < size := Nat.mod_lt _ (by omega)
  rw [Nat.add_mod, Nat.mod_eq_of_lt h2] at h
  by_cases hlt : k % size + e < size
  · rw [Nat.mod_eq_of_lt hlt] at h; omega
  · rw [Nat.mod_eq_sub_mod (by omega), Nat.mod_eq_of_lt (by omega)] at h; omega

theorem upTo_next {size : Nat} {j : Job} {t k : Nat} (hk : k < j.tasks) (hm : k % size = t) (hs : 0 < size) :
    upTo size j t (min (k + size) j.tasks) = upTo size j t k ++ [.enter j k t, .leave j k t] := by
  have gen : ∀ d, d < size → upTo size j t (k + 1 + d) = upTo size j t (k + 1) := by
    intro d
    induction d with
    | zero => intro _; rfl
    | succ d ih =>
      intro hd
      have : k + 1 + (d + 1) = (k + (d + 1)) + 1 := by omega
      rw [this, upTo_succ_ne (by rw [← hm]; exact mod_ne (by omega) hd), ← ih (by omega)]
      rw [show k + (d + 1) = k + 1 + d by omega]
  rw [← upTo_succ_eq hm]
  rw [show min (k + size) j.tasks = k + 1 + (min (k + size) j.tasks - (k + 1)) by omega]
  exact gen _ (by omega)

/-! ### The invariant -/

/-- The call which the owner of the pool is in. -/
def MainPc.job : MainPc → Option Job
  | .publish j _ | .exec j _ | .inside j _ | .scan j _ => some j
  | _ => none

/-- A worker during a call whose tasks have been stored, and the events of its thread. -/
inductive Work (size : Nat) (j : Job) (t : Nat) : WorkerPc → Slot → List Event → Prop where
  | pending {w} : (w = .check ∨ w = .load) → Work size j t w (.task j) []
  | exec {k} : k % size = t → Work size j t (.exec j k) (.task j) (upTo size j t (min k j.tasks))
  | inside {k} : k % size = t → k < j.tasks →
      Work size j t (.inside j k) (.task j) (upTo size j t k ++ [.enter j k t])
  | clear : Work size j t (.clear j) (.task j) (upTo size j t j.tasks)
  | done {w} : (w = .check ∨ w = .load) → Work size j t w .empty (upTo size j t j.tasks)

/-- A worker with nothing to do. -/
def Quiet (w : WorkerPc) (sl : Slot) : Prop := sl = .empty ∧ (w = .check ∨ w = .load)

/-- A worker, according to where the owner of the pool is. -/
def WInv (size : Nat) (t : Nat) (w : WorkerPc) (sl : Slot) (l : List Event) : MainPc → Prop
  | .start k => if t < k then Quiet w sl else w = .absent ∧ sl = .raw
  | .init k => if t < k then Quiet w sl else if t = k then sl = .raw ∧ (w = .check ∨ w = .load) else
      w = .absent ∧ sl = .raw
  | .idle => Quiet w sl
  | .publish j k => if t < k then Work size j t w sl l else Quiet w sl ∧ l = []
  | .exec j _ => Work size j t w sl l
  | .inside j _ => Work size j t w sl l
  | .scan j k => Work size j t w sl l ∧ (t < k → sl = .empty)
  | .join k => sl = .empty ∧ (w = .check ∨ w = .load ∨ w = .over) ∧ (t < k → w = .over)
  | .gone => sl = .empty ∧ w = .over

/-- The owner of the pool. -/
def MInv (size : Nat) (l : List Event) : MainPc → Prop
  | .start k => 0 < k
  | .init k => 0 < k ∧ k < size
  | .idle => True
  | .publish _ k => 0 < k ∧ l = []
  | .exec j k => k % size = 0 ∧ l = upTo size j 0 (min k j.tasks)
  | .inside j k => k % size = 0 ∧ k < j.tasks ∧ l = upTo size j 0 k ++ [.enter j k 0]
  | .scan j k => 0 < k ∧ l = upTo size j 0 j.tasks
  | .join k => 0 < k
  | .gone => True

/-- Whether the destructor has been entered. -/
def MainPc.ending : MainPc → Bool
  | .join _ | .gone => true
  | _ => false

/-- The events of a thread. -/
def of (t : Nat) (l : List Event) : List Event := l.filter (fun e => e.thread = some t)

theorem of_append (t : Nat) (l l' : List Event) : of t (l ++ l') = of t l ++ of t l' := List.filter_append ..

/-- The events of the calls which have returned are `closed`, those of the current one are `seg`. -/
structure Inv (s : Sys) (closed seg : List Event) : Prop where
  pos : 0 < s.size
  out : ∀ t, t = 0 ∨ s.size ≤ t → s.worker t = .absent
  log : s.log = closed ++ (s.main.job.toList.map Event.call ++ seg)
  between : s.main.job = none → seg = [] ∧ History s.size s.calls closed
  during : ∀ j, s.main.job = some j → History s.size j.call closed ∧ s.calls = j.call + 1
  segs : ∀ e ∈ seg, ∃ t, t < s.size ∧ e.thread = some t
  workers : ∀ t, 0 < t → t < s.size → WInv s.size t (s.worker t) (s.slot t) (of t seg) s.main
  own : MInv s.size (of 0 seg) s.main
  life : s.life = !s.main.ending

theorem inv_initial {size : Nat} (h : 0 < size) : Inv (initial size) [] [] := by
  refine ⟨h, fun _ _ => rfl, rfl, fun _ => ⟨rfl, .nil⟩, (by intro j hj; cases hj), (by intro e he; cases he), ?_, by
    show 0 < 1; omega, rfl⟩
  intro t h1 h2
  show if t < 1 then _ else _
  rw [if_neg (by omega)]
  exact ⟨rfl, rfl⟩

theorem of_events {size : Nat} {life : Bool} {t : Nat} {w w' : WorkerPc} {sl sl' : Slot} {es : List Event}
    (h : WStep size life t w sl w' sl' es) : of t es = es ∧ (∀ u, u ≠ t → of u es = []) ∧
      ∀ e ∈ es, e.thread = some t := by
  have h1 : ∀ e ∈ es, e.thread = some t := by
    cases h <;> simp [Event.thread]
  refine ⟨?_, ?_, h1⟩
  · unfold of
    rw [List.filter_eq_self]
    intro e he
    simpa using h1 e he
  · intro u hu
    unfold of
    rw [List.filter_eq_nil_iff]
    intro e he
    rw [h1 e he]
    simpa using fun h => hu h.symm

theorem Work.step {size : Nat} {life : Bool} {j : Job} {t : Nat} {w w' : WorkerPc} {sl sl' : Slot}
    {es l : List Event} (hp : 0 < size) (ht : t < size) (hl : life = true) (h : Work size j t w sl l)
    (hs : WStep size life t w sl w' sl' es) :
    Work size j t w' sl' (l ++ es) ∧ (sl = .empty → sl' = .empty) := by
  cases hs with
  | alive _ =>
    rw [List.append_nil]
    cases h with
    | pending _ => exact ⟨.pending (Or.inr rfl), id⟩
    | done _ => exact ⟨.done (Or.inr rfl), id⟩
  | dead hd => rw [hd] at hl; cases hl
  | nothing =>
    rw [List.append_nil]
    cases h with
    | done _ => exact ⟨.done (Or.inl rfl), id⟩
  | take =>
    rw [List.append_nil]
    cases h with
    | pending _ =>
      have := Work.exec (size := size) (j := j) (t := t) (k := t) (Nat.mod_eq_of_lt ht)
      rw [upTo_small (by omega) ht] at this
      exact ⟨this, id⟩
  | enter hk =>
    cases h with
    | exec hm =>
      rw [Nat.min_eq_left (by omega)]
      exact ⟨.inside hm hk, id⟩
    | pending h => rcases h with h | h <;> cases h
    | done h => rcases h with h | h <;> cases h
  | leave =>
    cases h with
    | inside hm hk =>
      have := Work.exec (size := size) (j := j) (t := t) (k := _ + size) (by rw [Nat.add_mod_right]; exact hm)
      rw [upTo_next hk hm hp] at this
      rw [List.append_assoc]
      exact ⟨this, id⟩
    | pending h => rcases h with h | h <;> cases h
    | done h => rcases h with h | h <;> cases h
  | finish hk =>
    rw [List.append_nil]
    cases h with
    | exec hm =>
      rw [Nat.min_eq_right (by omega)]
      exact ⟨.clear, id⟩
    | pending h => rcases h with h | h <;> cases h
    | done h => rcases h with h | h <;> cases h
  | clear =>
    rw [List.append_nil]
    cases h with
    | clear => exact ⟨.done (Or.inl rfl), fun _ => rfl⟩
    | pending h => rcases h with h | h <;> cases h
    | done h => rcases h with h | h <;> cases h

theorem Quiet.step {size : Nat} {life : Bool} {t : Nat} {w w' : WorkerPc} {sl sl' : Slot}
    {es : List Event} (hl : life = true) (h : Quiet w sl) (hs : WStep size life t w sl w' sl' es) :
    Quiet w' sl' ∧ es = [] := by
  obtain ⟨rfl, h⟩ := h
  rcases h with rfl | rfl
  · cases hs with
    | alive _ => exact ⟨⟨rfl, Or.inr rfl⟩, rfl⟩
    | dead hd => rw [hd] at hl; cases hl
  · cases hs with
    | nothing => exact ⟨⟨rfl, Or.inl rfl⟩, rfl⟩

theorem WInv.step {size : Nat} {life : Bool} {t : Nat} {w w' : WorkerPc} {sl sl' : Slot} {es l : List Event}
    {m : MainPc} (hp : 0 < size) (ht : t < size) (hl : life = !m.ending) (h : WInv size t w sl l m)
    (hs : WStep size life t w sl w' sl' es) : WInv size t w' sl' (l ++ es) m ∧ (m.job = none → es = []) := by
  cases m with
  | start k =>
    simp only [WInv] at h ⊢
    by_cases hk : t < k
    · rw [if_pos hk] at h ⊢
      have := h.step hl hs
      exact ⟨this.1, fun _ => this.2⟩
    · rw [if_neg hk] at h
      rw [h.1] at hs
      cases hs
  | init k =>
    simp only [WInv] at h ⊢
    by_cases hk : t < k
    · rw [if_pos hk] at h ⊢
      have := h.step hl hs
      exact ⟨this.1, fun _ => this.2⟩
    · rw [if_neg hk] at h ⊢
      by_cases he : t = k
      · rw [if_pos he] at h ⊢
        obtain ⟨rfl, h⟩ := h
        rcases h with rfl | rfl
        · cases hs with
          | alive _ => exact ⟨⟨rfl, Or.inr rfl⟩, fun _ => rfl⟩
          | dead hd => rw [hd] at hl; cases hl
        · cases hs
      · rw [if_neg he] at h
        rw [h.1] at hs
        cases hs
  | idle =>
    have := Quiet.step hl h hs
    exact ⟨this.1, fun _ => this.2⟩
  | publish j k =>
    simp only [WInv] at h ⊢
    refine ⟨?_, fun h => by cases h⟩
    by_cases hk : t < k
    · rw [if_pos hk] at h ⊢
      exact (h.step hp ht hl hs).1
    · rw [if_neg hk] at h ⊢
      have := h.1.step hl hs
      exact ⟨this.1, by rw [h.2, this.2]; rfl⟩
  | exec j k => exact ⟨(Work.step hp ht hl h hs).1, fun h => by cases h⟩
  | inside j k => exact ⟨(Work.step hp ht hl h hs).1, fun h => by cases h⟩
  | scan j k =>
    have := h.1.step hp ht hl hs
    exact ⟨⟨this.1, fun hk => this.2 (h.2 hk)⟩, fun h => by cases h⟩
  | join k =>
    obtain ⟨rfl, h1, h2⟩ := h
    rcases h1 with rfl | rfl | rfl
    · cases hs with
      | alive ha => rw [ha] at hl; cases hl
      | dead _ => exact ⟨⟨rfl, Or.inr (Or.inr rfl), fun _ => rfl⟩, fun _ => rfl⟩
    · cases hs with
      | nothing => exact ⟨⟨rfl, Or.inl rfl, fun h => by cases h2 h⟩, fun _ => rfl⟩
    · cases hs
  | gone =>
    rw [h.2] at hs
    cases hs

theorem inv_worker {s : Sys} {closed seg : List Event} (h : Inv s closed seg) {t : Nat} {w : WorkerPc} {sl : Slot}
    {es : List Event} (h0 : 0 < t) (hs : WStep s.size s.life t (s.worker t) (s.slot t) w sl es) :
    Inv { s with worker := Function.update s.worker t w, slot := Function.update s.slot t sl, log := s.log ++ es }
      closed (seg ++ es) := by
  have ht : t < s.size := by
    by_contra hc
    have := h.out t (Or.inr (by omega))
    rw [this] at hs
    cases hs
  obtain ⟨h1, h2⟩ := (h.workers t h0 ht).step h.pos ht h.life hs
  obtain ⟨e1, e2, e3⟩ := of_events hs
  refine ⟨h.pos, ?_, ?_, ?_, h.during, ?_, ?_, ?_, h.life⟩
  · intro u hu
    have hu : u = 0 ∨ s.size ≤ u := hu
    show Function.update s.worker t w u = _
    rw [Function.update_of_ne (by rintro rfl; omega)]
    exact h.out u hu
  · show s.log ++ es = _
    rw [h.log, List.append_assoc, List.append_assoc]
  · intro hn
    have hn : s.main.job = .none := hn
    rw [h2 hn, List.append_nil]
    exact h.between hn
  · intro e he
    rcases List.mem_append.mp he with he | he
    · exact h.segs e he
    · exact ⟨t, ht, e3 e he⟩
  · intro u hu0 hu
    show WInv s.size u (Function.update s.worker t w u) (Function.update s.slot t sl u) (of u (seg ++ es)) s.main
    rw [of_append]
    by_cases hut : u = t
    · subst hut
      rw [Function.update_self, Function.update_self, e1]
      exact h1
    · rw [Function.update_of_ne hut, Function.update_of_ne hut, e2 u hut, List.append_nil]
      exact h.workers u hu0 hu
  · show MInv s.size (of 0 (seg ++ es)) s.main
    rw [of_append, e2 0 (by omega), List.append_nil]
    exact h.own

theorem of_call (t : Nat) (l : List Event) (hl : l = []) : of t l = [] := by rw [hl]; rfl

theorem inv_main {s s' : Sys} {closed seg : List Event} (h : Inv s closed seg) (hs : MStep s s') :
    ∃ closed' seg', Inv s' closed' seg' := by
  have hw := h.workers
  have ho := h.own
  have hlf := h.life
  cases hs with
  | @launch k hm hk =>
    rw [hm] at hw ho hlf
    obtain ⟨h1, h2⟩ := h.between (by rw [hm]; rfl)
    refine ⟨closed, seg, h.pos, ?_, by rw [h.log, hm]; rfl, fun _ => ⟨h1, h2⟩, (by intro j hj; cases hj), h.segs, ?_,
      ⟨ho, hk⟩, hlf⟩
    · intro u hu
      have hu : u = 0 ∨ s.size ≤ u := hu
      show Function.update s.worker k .check u = _
      have : 0 < k := ho
      rw [Function.update_of_ne (by rintro rfl; omega)]
      exact h.out u hu
    · intro u hu0 hu
      have hu : u < s.size := hu
      show WInv s.size u (Function.update s.worker k .check u) (s.slot u) (of u seg) (.init k)
      have := hw u hu0 hu
      simp only [WInv] at this ⊢
      by_cases hlt : u < k
      · rw [if_pos hlt] at this ⊢
        rw [Function.update_of_ne (by omega)]
        exact this
      · rw [if_neg hlt] at this ⊢
        by_cases he : u = k
        · subst he
          rw [if_pos rfl, Function.update_self]
          exact ⟨this.2, Or.inl rfl⟩
        · rw [if_neg he, Function.update_of_ne he]
          exact this
  | @init k hm =>
    rw [hm] at hw ho hlf
    obtain ⟨h1, h2⟩ := h.between (by rw [hm]; rfl)
    refine ⟨closed, seg, h.pos, h.out, by rw [h.log, hm]; rfl, fun _ => ⟨h1, h2⟩, (by intro j hj; cases hj), h.segs, ?_,
      Nat.succ_pos k, hlf⟩
    intro u hu0 hu
    have hu : u < s.size := hu
    show WInv s.size u (s.worker u) (Function.update s.slot k .empty u) (of u seg) (.start (k + 1))
    have := hw u hu0 hu
    simp only [WInv] at this ⊢
    by_cases he : u = k
    · subst he
      rw [if_neg (by omega), if_pos rfl] at this
      rw [if_pos (by omega), Function.update_self]
      exact ⟨rfl, this.2⟩
    · rw [Function.update_of_ne he]
      by_cases hlt : u < k
      · rw [if_pos hlt] at this
        rw [if_pos (by omega)]
        exact this
      · rw [if_neg hlt, if_neg he] at this
        rw [if_neg (by omega)]
        exact this
  | @built k hm hk =>
    rw [hm] at hw ho hlf
    obtain ⟨h1, h2⟩ := h.between (by rw [hm]; rfl)
    refine ⟨closed, seg, h.pos, h.out, by rw [h.log, hm]; rfl, fun _ => ⟨h1, h2⟩, (by intro j hj; cases hj), h.segs, ?_,
      trivial, hlf⟩
    intro u hu0 hu
    have hu : u < s.size := hu
    have := hw u hu0 hu
    simp only [WInv] at this
    rw [if_pos (by omega)] at this
    exact this
  | @call n hm =>
    rw [hm] at hw ho hlf
    obtain ⟨h1, h2⟩ := h.between (by rw [hm]; rfl)
    refine ⟨closed, [], h.pos, h.out, ?_, (by intro hj; cases hj), ?_, (by intro e he; cases he), ?_, ⟨Nat.one_pos, rfl⟩, hlf⟩
    · show s.log ++ [Event.call ⟨s.calls, n⟩] = _
      rw [h.log, hm, h1]
      simp [MainPc.job]
    · intro j hj
      cases hj
      exact ⟨h2, rfl⟩
    · intro u hu0 hu
      have hu : u < s.size := hu
      show WInv s.size u (s.worker u) (s.slot u) [] (.publish ⟨s.calls, n⟩ 1)
      have := hw u hu0 hu
      simp only [WInv]
      rw [if_neg (by omega)]
      exact ⟨this, trivial⟩
  | @publish j k hm hk =>
    rw [hm] at hw ho hlf
    refine ⟨closed, seg, h.pos, h.out, by rw [h.log, hm]; rfl, (by intro hj; cases hj), ?_, h.segs, ?_,
      ⟨Nat.succ_pos k, ho.2⟩, hlf⟩
    · intro j' hj
      exact h.during j' (by rw [hm]; exact hj)
    · intro u hu0 hu
      have hu : u < s.size := hu
      show WInv s.size u (s.worker u) (Function.update s.slot k (.task j) u) (of u seg) (.publish j (k + 1))
      have := hw u hu0 hu
      simp only [WInv] at this ⊢
      by_cases he : u = k
      · subst he
        rw [if_neg (by omega)] at this
        rw [if_pos (by omega), Function.update_self, this.2]
        exact .pending this.1.2
      · rw [Function.update_of_ne he]
        by_cases hlt : u < k
        · rw [if_pos hlt] at this
          rw [if_pos (by omega)]
          exact this
        · rw [if_neg hlt] at this
          rw [if_neg (by omega)]
          exact this
  | @published j k hm hk =>
    rw [hm] at hw ho hlf
    refine ⟨closed, seg, h.pos, h.out, by rw [h.log, hm]; rfl, (by intro hj; cases hj), ?_, h.segs, ?_, ?_, hlf⟩
    · intro j' hj
      exact h.during j' (by rw [hm]; exact hj)
    · intro u hu0 hu
      have hu : u < s.size := hu
      have := hw u hu0 hu
      simp only [WInv] at this
      rw [if_pos (by omega)] at this
      exact this
    · refine ⟨Nat.zero_mod _, ?_⟩
      rw [ho.2, Nat.zero_min]
      rfl
  | @enter j k hm hk =>
    rw [hm] at hw ho hlf
    refine ⟨closed, seg ++ [.enter j k 0], h.pos, h.out, ?_, (by intro hj; cases hj), ?_, ?_, ?_, ?_, hlf⟩
    · show s.log ++ [Event.enter j k 0] = _
      rw [h.log, hm, List.append_assoc, List.append_assoc]
      rfl
    · intro j' hj
      exact h.during j' (by rw [hm]; exact hj)
    · intro e he
      rcases List.mem_append.mp he with he | he
      · exact h.segs e he
      · simp at he; rw [he]; exact ⟨0, h.pos, rfl⟩
    · intro u hu0 hu
      have hu : u < s.size := hu
      have := hw u hu0 hu
      show Work s.size j u _ _ (of u (seg ++ [.enter j k 0]))
      rw [of_append, show of u [Event.enter j k 0] = [] by
        unfold of; rw [List.filter_eq_nil_iff]; simp [Event.thread]; omega, List.append_nil]
      exact this
    · refine ⟨ho.1, hk, ?_⟩
      rw [of_append, ho.2, Nat.min_eq_left (by omega)]
      rfl
  | @leave j k hm =>
    rw [hm] at hw ho hlf
    refine ⟨closed, seg ++ [.leave j k 0], h.pos, h.out, ?_, (by intro hj; cases hj), ?_, ?_, ?_, ?_, hlf⟩
    · show s.log ++ [Event.leave j k 0] = _
      rw [h.log, hm, List.append_assoc, List.append_assoc]
      rfl
    · intro j' hj
      exact h.during j' (by rw [hm]; exact hj)
    · intro e he
      rcases List.mem_append.mp he with he | he
      · exact h.segs e he
      · simp at he; rw [he]; exact ⟨0, h.pos, rfl⟩
    · intro u hu0 hu
      have hu : u < s.size := hu
      have := hw u hu0 hu
      show Work s.size j u _ _ (of u (seg ++ [.leave j k 0]))
      rw [of_append, show of u [Event.leave j k 0] = [] by
        unfold of; rw [List.filter_eq_nil_iff]; simp [Event.thread]; omega, List.append_nil]
      exact this
    · refine ⟨by rw [Nat.add_mod_right]; exact ho.1, ?_⟩
      show of 0 (seg ++ [.leave j k 0]) = upTo s.size j 0 (min (k + s.size) j.tasks)
      rw [of_append, ho.2.2, upTo_next ho.2.1 ho.1 h.pos, List.append_assoc]
      rfl
  | @wait j k hm hk =>
    rw [hm] at hw ho hlf
    refine ⟨closed, seg, h.pos, h.out, by rw [h.log, hm]; rfl, (by intro hj; cases hj), ?_, h.segs, ?_,
      ⟨Nat.one_pos, by rw [ho.2, Nat.min_eq_right (by omega)]⟩, hlf⟩
    · intro j' hj
      exact h.during j' (by rw [hm]; exact hj)
    · intro u hu0 hu
      have hu : u < s.size := hu
      exact ⟨hw u hu0 hu, fun h => by omega⟩
  | @scanned j k hm hk he =>
    rw [hm] at hw ho hlf
    refine ⟨closed, seg, h.pos, h.out, by rw [h.log, hm]; rfl, (by intro hj; cases hj), ?_, h.segs, ?_,
      ⟨Nat.succ_pos k, ho.2⟩, hlf⟩
    · intro j' hj
      exact h.during j' (by rw [hm]; exact hj)
    · intro u hu0 hu
      have hu : u < s.size := hu
      refine ⟨(hw u hu0 hu).1, fun h => ?_⟩
      by_cases hk' : u = k
      · rw [hk']; exact he
      · exact (hw u hu0 hu).2 (by omega)
  | @again j k i hm hk he =>
    rw [hm] at hw ho hlf
    refine ⟨closed, seg, h.pos, h.out, by rw [h.log, hm]; rfl, (by intro hj; cases hj), ?_, h.segs, ?_,
      ⟨Nat.one_pos, ho.2⟩, hlf⟩
    · intro j' hj
      exact h.during j' (by rw [hm]; exact hj)
    · intro u hu0 hu
      have hu : u < s.size := hu
      exact ⟨(hw u hu0 hu).1, fun h => by omega⟩
  | @ret j k hm hk =>
    rw [hm] at hw ho hlf
    obtain ⟨h1, h2⟩ := h.during j (by rw [hm]; rfl)
    have hdone : ∀ u, u < s.size → of u seg = upTo s.size j u j.tasks := by
      intro u hu
      by_cases h0 : u = 0
      · rw [h0]; exact ho.2
      · obtain ⟨h3, h4⟩ := hw u (by omega) hu
        have h4 := h4 (by omega)
        rw [h4] at h3
        generalize of u seg = l at h3
        generalize s.worker u = wk at h3
        cases h3 with
        | done _ => rfl
    have hserved : Served s.size j seg := ⟨h.segs, hdone⟩
    refine ⟨closed ++ .call j :: seg ++ [.ret j], [], h.pos, h.out, ?_, ?_, (by intro j hj; cases hj), (by intro e he; cases he), ?_,
      trivial, hlf⟩
    · show s.log ++ [Event.ret j] = _
      rw [h.log, hm]
      simp [MainPc.job]
    · intro _
      refine ⟨rfl, ?_⟩
      show History s.size s.calls _
      rw [h2]
      exact .call (n := j.tasks) h1 hserved
    · intro u hu0 hu
      have hu : u < s.size := hu
      obtain ⟨h3, h4⟩ := hw u hu0 hu
      have h4 := h4 (by omega)
      show Quiet (s.worker u) (s.slot u)
      rw [h4] at h3 ⊢
      generalize of u seg = l at h3
      generalize hwk : s.worker u = wk at h3
      cases h3 with
      | done h => exact ⟨rfl, h⟩
  | destroy hm =>
    rw [hm] at hw ho hlf
    obtain ⟨h1, h2⟩ := h.between (by rw [hm]; rfl)
    refine ⟨closed, seg, h.pos, h.out, by rw [h.log, hm]; rfl, fun _ => ⟨h1, h2⟩, (by intro j hj; cases hj), h.segs, ?_,
      Nat.one_pos, rfl⟩
    intro u hu0 hu
    have hu : u < s.size := hu
    have := hw u hu0 hu
    exact ⟨this.1, this.2.elim Or.inl (fun h => Or.inr (Or.inl h)), fun h => by omega⟩
  | @join k hm hk he =>
    rw [hm] at hw ho hlf
    obtain ⟨h1, h2⟩ := h.between (by rw [hm]; rfl)
    refine ⟨closed, seg, h.pos, h.out, by rw [h.log, hm]; rfl, fun _ => ⟨h1, h2⟩, (by intro j hj; cases hj), h.segs, ?_,
      Nat.succ_pos k, hlf⟩
    intro u hu0 hu
    have hu : u < s.size := hu
    have := hw u hu0 hu
    refine ⟨this.1, this.2.1, fun h => ?_⟩
    by_cases hk' : u = k
    · rw [hk']; exact he
    · exact this.2.2 (by omega)
  | @gone k hm hk =>
    rw [hm] at hw ho hlf
    obtain ⟨h1, h2⟩ := h.between (by rw [hm]; rfl)
    refine ⟨closed, seg, h.pos, h.out, by rw [h.log, hm]; rfl, fun _ => ⟨h1, h2⟩, (by intro j hj; cases hj), h.segs, ?_,
      trivial, hlf⟩
    intro u hu0 hu
    have hu : u < s.size := hu
    have := hw u hu0 hu
    exact ⟨this.1, this.2.2 (by omega)⟩

theorem inv_step {s s' : Sys} {closed seg : List Event} (h : Inv s closed seg) {t : Nat} (hs : Step t s s') :
    ∃ closed' seg', Inv s' closed' seg' := by
  cases hs with
  | main hm => exact inv_main h hm
  | worker h0 hw => exact ⟨_, _, inv_worker h h0 hw⟩

theorem step_size {t : Nat} {s s' : Sys} (h : Step t s s') : s'.size = s.size := by
  cases h with
  | main h => cases h <;> rfl
  | worker _ _ => rfl

theorem runs_inv {size : Nat} (hp : 0 < size) {s : Sys} (h : Runs size s) :
    s.size = size ∧ ∃ closed seg, Inv s closed seg := by
  induction h with
  | init => exact ⟨rfl, [], [], inv_initial hp⟩
  | step _ hs ih =>
    obtain ⟨h1, c, g, h2⟩ := ih
    exact ⟨(step_size hs).trans h1, inv_step h2 hs⟩

end Pool
end EFG
