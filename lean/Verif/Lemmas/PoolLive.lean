import Mathlib.Order.Basic
import Mathlib.Order.Defs.LinearOrder
import Mathlib.Algebra.Order.Group.Nat
import Verif.Lemmas.Pool
/- What happens eventually in the fair executions of the pool. -/

namespace EFG
namespace Pool

/-- The invariant holds. -/
def Ok (size : Nat) (s : Sys) : Prop := s.size = size ∧ ∃ closed seg, Inv s closed seg

theorem Ok.step {size : Nat} {s s' : Sys} (h : Ok size s) {t : Nat} (hs : Step t s s') : Ok size s' := by
  obtain ⟨h1, c, g, h2⟩ := h
  exact ⟨(step_size hs).trans h1, inv_step h2 hs⟩

theorem Fair.ok {size : Nat} {σ : Nat → Sys} {τ : Nat → Nat} (hf : Fair size σ τ) (hp : 0 < size) (i : Nat) :
    Ok size (σ i) := by
  induction i with
  | zero => rw [hf.start]; exact ⟨rfl, [], [], inv_initial hp⟩
  | succ i ih =>
    rcases hf.next i with h | h
    · exact ih.step h
    · rw [h.1]; exact ih

theorem Fair.runs {size : Nat} {σ : Nat → Sys} {τ : Nat → Nat} (hf : Fair size σ τ) (i : Nat) : Runs size (σ i) := by
  induction i with
  | zero => rw [hf.start]; exact .init
  | succ i ih =>
    rcases hf.next i with h | h
    · exact ih.step h
    · rw [h.1]; exact ih

/-- If `P` holds until `Q` does, and the steps of thread `t`, which is never stuck, decrease a number which no
other thread increases, then `Q` will hold. -/
theorem Fair.eventually {size : Nat} {σ : Nat → Sys} {τ : Nat → Nat} (hf : Fair size σ τ) (hp : 0 < size) {t : Nat}
    (ht : t < size) (P Q : Sys → Prop) (rank : Sys → Nat)
    (hstep : ∀ s s' u, Ok size s → P s → Step u s s' → Q s' ∨ (P s' ∧ rank s' ≤ rank s ∧ (u = t → rank s' < rank s)))
    (hen : ∀ s, Ok size s → P s → ∃ s', Step t s s') {i : Nat} (hi : P (σ i)) : ∃ i', i ≤ i' ∧ Q (σ i') := by
  induction hr : rank (σ i) using Nat.strongRecOn generalizing i with
  | _ r ih =>
    obtain ⟨m, hm1, hm2⟩ := hf.fair t ht i
    -- until the turn of thread `t`
    have hmid : ∀ d, i + d ≤ m → (∃ i', i ≤ i' ∧ Q (σ i')) ∨ (P (σ (i + d)) ∧ rank (σ (i + d)) ≤ r) := by
      intro d
      induction d with
      | zero => intro _; exact Or.inr ⟨hi, hr.le⟩
      | succ d ihd =>
        intro hd
        rcases ihd (by omega) with h | ⟨h1, h2⟩
        · exact Or.inl h
        · rcases hf.next (i + d) with h | h
          · rcases hstep _ _ _ (hf.ok hp _) h1 h with h3 | ⟨h3, h4, _⟩
            · exact Or.inl ⟨i + d + 1, by omega, h3⟩
            · exact Or.inr ⟨h3, h4.trans h2⟩
          · refine Or.inr ?_
            rw [show i + (d + 1) = i + d + 1 by omega, h.1]
            exact ⟨h1, h2⟩
    rcases hmid (m - i) (by omega) with h | ⟨h1, h2⟩
    · exact h
    · rw [show i + (m - i) = m by omega] at h1 h2
      rcases hf.next m with h | h
      · rcases hstep _ _ _ (hf.ok hp _) h1 h with h3 | ⟨h3, _, h5⟩
        · exact ⟨m + 1, by omega, h3⟩
        · obtain ⟨i', h6, h7⟩ := ih _ (Nat.lt_of_lt_of_le (h5 hm2) h2) h3 rfl
          exact ⟨i', by omega, h7⟩
      · obtain ⟨s', hs'⟩ := hen _ (hf.ok hp _) h1
        exact absurd (hm2 ▸ hs') (h.2 s')

theorem main_of_worker {t : Nat} {s s' : Sys} (h : Step t s s') (ht : t ≠ 0) : s'.main = s.main := by
  cases h with
  | main _ => exact absurd rfl ht
  | worker _ _ => rfl

/-- A state predicate about the main thread only, whose steps decrease a number. -/
theorem Fair.eventually_main {size : Nat} {σ : Nat → Sys} {τ : Nat → Nat} (hf : Fair size σ τ) (hp : 0 < size)
    (P Q : MainPc → Prop) (rank : MainPc → Nat)
    (hstep : ∀ s s', Ok size s → P s.main → MStep s s' → Q s'.main ∨ (P s'.main ∧ rank s'.main < rank s.main))
    (hen : ∀ s, Ok size s → P s.main → ∃ s', MStep s s') {i : Nat} (hi : P (σ i).main) :
    ∃ i', i ≤ i' ∧ Q (σ i').main := by
  refine hf.eventually hp (t := 0) hp (fun s => P s.main) (fun s => Q s.main) (fun s => rank s.main) ?_ ?_ hi
  · intro s s' u hok hP hs
    by_cases hu : u = 0
    · subst hu
      cases hs with
      | main hm =>
        rcases hstep s s' hok hP hm with h | ⟨h1, h2⟩
        · exact Or.inl h
        · exact Or.inr ⟨h1, h2.le, fun _ => h2⟩
      | worker h0 _ => exact absurd h0 (by omega)
    · have := main_of_worker hs hu
      refine Or.inr ⟨?_, ?_, fun h => absurd h hu⟩
      · show P s'.main
        rw [this]; exact hP
      · show rank s'.main ≤ rank s.main
        rw [this]
  · intro s hok hP
    obtain ⟨s', h⟩ := hen s hok hP
    exact ⟨s', .main h⟩

/-! ### Construction -/

theorem Fair.ready {size : Nat} {σ : Nat → Sys} {τ : Nat → Nat} (hf : Fair size σ τ) (hp : 0 < size) :
    ∃ i, (σ i).main = .idle := by
  suffices h : ∃ i, 0 ≤ i ∧ (σ i).main = .idle from ⟨h.choose, h.choose_spec.2⟩
  refine hf.eventually_main hp (i := 0)
    (fun m => (∃ k, m = .start k) ∨ ∃ k, m = .init k ∧ k < size) (fun m => m = .idle)
    (fun m => match m with | .start k => 2 * (size - k) + 1 | .init k => 2 * (size - k) | _ => 0) ?_ ?_
    (Or.inl ⟨1, by rw [hf.start]; rfl⟩)
  · intro s s' hok hP hs
    rcases hP with ⟨k, hk⟩ | ⟨k, hk, hlt⟩
    · cases hs with
      | launch hm h1 =>
        rw [hk] at hm
        cases hm
        rw [hok.1] at h1
        refine Or.inr ⟨Or.inr ⟨k, rfl, h1⟩, ?_⟩
        rw [hk]
        show 2 * (size - k) < 2 * (size - k) + 1
        omega
      | built _ _ => exact Or.inl rfl
      | _ hm => rw [hk] at hm; cases hm
    · cases hs with
      | init hm =>
        rw [hk] at hm
        cases hm
        refine Or.inr ⟨Or.inl ⟨k + 1, rfl⟩, ?_⟩
        rw [hk]
        show 2 * (size - (k + 1)) + 1 < 2 * (size - k)
        omega
      | _ hm => rw [hk] at hm; cases hm
  · intro s hok hP
    rcases hP with ⟨k, hk⟩ | ⟨k, hk, hlt⟩
    · by_cases hlt : k < s.size
      · exact ⟨_, .launch hk hlt⟩
      · exact ⟨_, .built hk hlt⟩
    · exact ⟨_, .init hk⟩

/-! ### A call -/

/-- The owner of the pool comes to wait for the workers. -/
theorem Fair.waits {size : Nat} {σ : Nat → Sys} {τ : Nat → Nat} (hf : Fair size σ τ) (hp : 0 < size) {i : Nat}
    {j : Job} (hi : (σ i).main.job = some j) : ∃ i', i ≤ i' ∧ ∃ k, (σ i').main = .scan j k := by
  have hcases : (∃ k, (σ i).main = .scan j k) ∨ (∃ k, (σ i).main = .publish j k) ∨
      (∃ k, (σ i).main = .exec j k) ∨ ∃ k, (σ i).main = .inside j k ∧ k < j.tasks := by
    obtain ⟨_, c, g, hinv⟩ := hf.ok hp i
    have ho := hinv.own
    cases hm : (σ i).main with
    | publish j' k => rw [hm] at hi; cases hi; exact Or.inr (Or.inl ⟨k, rfl⟩)
    | exec j' k => rw [hm] at hi; cases hi; exact Or.inr (Or.inr (Or.inl ⟨k, rfl⟩))
    | inside j' k =>
      rw [hm] at hi ho
      cases hi
      exact Or.inr (Or.inr (Or.inr ⟨k, rfl, ho.2.1⟩))
    | scan j' k => rw [hm] at hi; cases hi; exact Or.inl ⟨k, rfl⟩
    | _ => rw [hm] at hi; cases hi
  rcases hcases with h | h
  · exact ⟨i, le_refl i, h⟩
  · refine hf.eventually_main hp
      (fun m => (∃ k, m = .publish j k) ∨ (∃ k, m = .exec j k) ∨ ∃ k, m = .inside j k ∧ k < j.tasks)
      (fun m => ∃ k, m = .scan j k)
      (fun m => match m with
        | .publish _ k => 3 * j.tasks + 4 + (size - k)
        | .exec _ k => 3 * (j.tasks - k) + 3
        | .inside _ k => 3 * (j.tasks - k) + 2
        | _ => 0) ?_ ?_ h
    · intro s s' hok hP hs
      rcases hP with ⟨k, hk⟩ | ⟨k, hk⟩ | ⟨k, hk, hlt⟩
      · cases hs with
        | publish hm h1 =>
          rw [hk] at hm
          cases hm
          rw [hok.1] at h1
          refine Or.inr ⟨Or.inl ⟨k + 1, rfl⟩, ?_⟩
          rw [hk]
          show 3 * j.tasks + 4 + (size - (k + 1)) < 3 * j.tasks + 4 + (size - k)
          omega
        | published hm h1 =>
          rw [hk] at hm
          cases hm
          refine Or.inr ⟨Or.inr (Or.inl ⟨0, rfl⟩), ?_⟩
          rw [hk]
          show 3 * (j.tasks - 0) + 3 < 3 * j.tasks + 4 + (size - k)
          omega
        | _ hm => rw [hk] at hm; cases hm
      · cases hs with
        | enter hm h1 =>
          rw [hk] at hm
          cases hm
          refine Or.inr ⟨Or.inr (Or.inr ⟨k, rfl, h1⟩), ?_⟩
          rw [hk]
          show 3 * (j.tasks - k) + 2 < 3 * (j.tasks - k) + 3
          omega
        | wait hm h1 =>
          rw [hk] at hm
          cases hm
          exact Or.inl ⟨1, rfl⟩
        | _ hm => rw [hk] at hm; cases hm
      · cases hs with
        | leave hm =>
          rw [hk] at hm
          cases hm
          refine Or.inr ⟨Or.inr (Or.inl ⟨_, rfl⟩), ?_⟩
          rw [hk]
          show 3 * (j.tasks - (k + s.size)) + 3 < 3 * (j.tasks - k) + 2
          rw [hok.1]
          omega
        | _ hm => rw [hk] at hm; cases hm
    · intro s hok hP
      rcases hP with ⟨k, hk⟩ | ⟨k, hk⟩ | ⟨k, hk, hlt⟩
      · by_cases hlt : k < s.size
        · exact ⟨_, .publish hk hlt⟩
        · exact ⟨_, .published hk hlt⟩
      · by_cases hlt : k < j.tasks
        · exact ⟨_, .enter hk hlt⟩
        · exact ⟨_, .wait hk hlt⟩
      · exact ⟨_, .leave hk⟩

/-- The workers before `m` have done their part of a call whose owner waits. -/
def Settled (j : Job) (m : Nat) (s : Sys) : Prop :=
  (∃ k, s.main = .scan j k) ∧ ∀ t, 0 < t → t < m → s.slot t = .empty

/-- How far a worker is from the end of its part. -/
def workRank (n : Nat) : WorkerPc → Nat
  | .check => 3 * n + 10
  | .load => 3 * n + 9
  | .exec _ k => 3 * (n - k) + 3
  | .inside _ k => 3 * (n - k) + 2
  | .clear _ => 1
  | _ => 0

theorem scan_step {size : Nat} {s s' : Sys} {j : Job} {k : Nat} (hm : s.main = .scan j k) {u : Nat} (hs : Step u s s')
    (hok : Ok size s) :
    s'.main = .idle ∨ (∃ k', s'.main = .scan j k') ∧ (∀ t, 0 < t → t < size → s.slot t = .empty → s'.slot t = .empty) ∧
      (∀ t, u ≠ t → s'.worker t = s.worker t ∧ s'.slot t = s.slot t) := by
  obtain ⟨hsz, c, g, hinv⟩ := hok
  cases hs with
  | main h =>
    cases h with
    | scanned h1 h2 h3 =>
      rw [hm] at h1
      cases h1
      exact Or.inr ⟨⟨_, rfl⟩, fun t _ _ h => h, fun t _ => ⟨rfl, rfl⟩⟩
    | again h1 h2 h3 =>
      rw [hm] at h1
      cases h1
      exact Or.inr ⟨⟨_, rfl⟩, fun t _ _ h => h, fun t _ => ⟨rfl, rfl⟩⟩
    | ret h1 h2 => exact Or.inl rfl
    | _ h1 => rw [hm] at h1; cases h1
  | worker h0 hw =>
    refine Or.inr ⟨⟨k, hm⟩, ?_, ?_⟩
    · intro t ht0 ht he
      show Function.update s.slot u _ t = _
      by_cases htu : t = u
      · subst htu
        rw [Function.update_self]
        have h1 := hinv.workers t ht0 (by omega)
        rw [hm] at h1
        have hl := hinv.life
        rw [hm] at hl
        exact (h1.1.step hinv.pos (by omega) hl hw).2 he
      · rw [Function.update_of_ne htu]; exact he
    · intro t htu
      have htu : t ≠ u := fun h => htu h.symm
      exact ⟨Function.update_of_ne htu _ _, Function.update_of_ne htu _ _⟩

theorem Fair.settles {size : Nat} {σ : Nat → Sys} {τ : Nat → Nat} (hf : Fair size σ τ) (hp : 0 < size) {i : Nat}
    {j : Job} {m : Nat} (hm0 : 0 < m) (hm : m < size) (hi : Settled j m (σ i)) :
    ∃ i', i ≤ i' ∧ ((σ i').main = .idle ∨ Settled j (m + 1) (σ i')) := by
  by_cases hslot : (σ i).slot m = .empty
  · refine ⟨i, le_refl i, Or.inr ⟨hi.1, ?_⟩⟩
    intro t ht0 ht
    by_cases he : t = m
    · rw [he]; exact hslot
    · exact hi.2 t ht0 (by omega)
  · refine hf.eventually hp (t := m) hm (fun s => Settled j m s ∧ s.slot m ≠ .empty)
      (fun s => s.main = .idle ∨ Settled j (m + 1) s) (fun s => workRank j.tasks (s.worker m)) ?_ ?_ ⟨hi, hslot⟩
    · intro s s' u hok hP hs
      obtain ⟨⟨⟨k, hk⟩, hset⟩, hne⟩ := hP
      rcases scan_step hk hs hok with h | ⟨h1, h2, h3⟩
      · exact Or.inl (Or.inl h)
      · have hset' : Settled j m s' := ⟨h1, fun t ht0 ht => h2 t ht0 (by omega) (hset t ht0 ht)⟩
        by_cases hem : s'.slot m = .empty
        · refine Or.inl (Or.inr ⟨h1, ?_⟩)
          intro t ht0 ht
          by_cases he : t = m
          · rw [he]; exact hem
          · exact hset'.2 t ht0 (by omega)
        · refine Or.inr ⟨⟨hset', hem⟩, ?_⟩
          by_cases hu : u = m
          · subst hu
            suffices h : workRank j.tasks (s'.worker u) < workRank j.tasks (s.worker u) from ⟨h.le, fun _ => h⟩
            obtain ⟨hsz, c, g, hinv⟩ := hok
            cases hs with
            | main _ => omega
            | @worker _ _ w sl es h0 hw =>
              have hw1 := hinv.workers u h0 (by omega)
              rw [hk] at hw1
              have hl := hinv.life
              rw [hk] at hl
              have hW := hw1.1
              show workRank j.tasks (Function.update s.worker u w u) < _
              rw [Function.update_self]
              change Function.update s.slot u sl u ≠ .empty at hem
              rw [Function.update_self] at hem
              generalize s.worker u = w0 at hw hW
              generalize s.slot u = sl0 at hw hW hne
              generalize of u g = l at hW
              cases hw with
              | alive _ => show 3 * _ + 9 < 3 * _ + 10; omega
              | dead hd => rw [hd] at hl; cases hl
              | nothing => exact absurd rfl hem
              | take =>
                cases hW with
                | pending _ => show 3 * (_ - _) + 3 < 3 * _ + 9; omega
              | enter hk =>
                cases hW with
                | exec _ => show 3 * (_ - _) + 2 < 3 * (_ - _) + 3; omega
                | pending h => rcases h with h | h <;> cases h
                | done h => exact absurd rfl hne
              | @leave j' k' sl' =>
                cases hW with
                | inside _ hlt => show 3 * (j.tasks - (k' + s.size)) + 3 < 3 * (j.tasks - k') + 2; omega
                | pending h => rcases h with h | h <;> cases h
                | done h => exact absurd rfl hne
              | finish hk => show 1 < 3 * (_ - _) + 3; omega
              | clear => exact absurd rfl hem
          · have := (h3 m hu).1
            rw [this]
            exact ⟨le_refl _, fun h => absurd h hu⟩
    · intro s hok hP
      obtain ⟨⟨⟨k, hk⟩, hset⟩, hne⟩ := hP
      obtain ⟨hsz, c, g, hinv⟩ := hok
      have hw1 := hinv.workers m hm0 (by omega)
      rw [hk] at hw1
      have hl := hinv.life
      rw [hk] at hl
      have hW := hw1.1
      have : ∃ w sl es, WStep s.size s.life m (s.worker m) (s.slot m) w sl es := by
        generalize s.worker m = w0 at hW
        generalize s.slot m = sl0 at hW hne
        generalize of m g = l at hW
        cases hW with
        | pending h =>
          rcases h with rfl | rfl
          · exact ⟨_, _, _, .alive hl⟩
          · exact ⟨_, _, _, .take⟩
        | @exec k' _ =>
          by_cases hlt : k' < j.tasks
          · exact ⟨_, _, _, .enter hlt⟩
          · exact ⟨_, _, _, .finish hlt⟩
        | inside _ _ => exact ⟨_, _, _, .leave⟩
        | clear => exact ⟨_, _, _, .clear⟩
        | done _ => exact absurd rfl hne
      obtain ⟨w, sl, es, h⟩ := this
      exact ⟨_, .worker hm0 h⟩

/-- Every call returns. -/
theorem Fair.returns {size : Nat} {σ : Nat → Sys} {τ : Nat → Nat} (hf : Fair size σ τ) (hp : 0 < size) {i : Nat}
    {j : Job} (hi : (σ i).main.job = some j) : ∃ i', i ≤ i' ∧ (σ i').main = .idle := by
  obtain ⟨i1, hi1, k, hk⟩ := hf.waits hp hi
  have hset : ∀ m, 0 < m → m ≤ size → ∃ i', i1 ≤ i' ∧ ((σ i').main = .idle ∨ Settled j m (σ i')) := by
    intro m
    induction m with
    | zero => intro h; omega
    | succ m ih =>
      intro _ hm
      by_cases h0 : m = 0
      · subst h0
        exact ⟨i1, le_refl _, Or.inr ⟨⟨k, hk⟩, fun t ht0 ht => by omega⟩⟩
      · obtain ⟨i2, h1, h2⟩ := ih (by omega) (by omega)
        rcases h2 with h2 | h2
        · exact ⟨i2, h1, Or.inl h2⟩
        · obtain ⟨i3, h3, h4⟩ := hf.settles hp (by omega) (by omega) h2
          exact ⟨i3, by omega, h4⟩
  obtain ⟨i2, h1, h2⟩ := hset size hp (le_refl _)
  rcases h2 with h2 | h2
  · exact ⟨i2, by omega, h2⟩
  · suffices h : ∃ i', i2 ≤ i' ∧ (σ i').main = .idle by
      obtain ⟨i3, h3, h4⟩ := h
      exact ⟨i3, by omega, h4⟩
    refine hf.eventually hp (t := 0) hp (fun s => Settled j size s) (fun s => s.main = .idle)
      (fun s => match s.main with | .scan _ k => size - k + 1 | _ => 0) (i := i2) ?_ ?_ h2
    · intro s s' u hok hP hs
      obtain ⟨⟨k, hk⟩, hset⟩ := hP
      rcases scan_step hk hs hok with h | ⟨h5, h6, _⟩
      · exact Or.inl h
      · have hset' : Settled j size s' := ⟨h5, fun t ht0 ht => h6 t ht0 ht (hset t ht0 ht)⟩
        by_cases hu : u = 0
        · subst hu
          cases hs with
          | worker h0 _ => omega
          | main hm =>
            cases hm with
            | scanned h7 h8 _ =>
              rw [hk] at h7
              cases h7
              refine Or.inr ⟨hset', ?_⟩
              rw [hk]
              rw [hok.1] at h8
              show size - (k + 1) + 1 ≤ size - k + 1 ∧ (0 = 0 → size - (k + 1) + 1 < size - k + 1)
              omega
            | again h7 h8 h9 =>
              rw [hk] at h7
              cases h7
              obtain ⟨hsz, c, g, hinv⟩ := hok
              have ho := hinv.own
              rw [hk] at ho
              rw [hset k ho.1 (by omega)] at h9
              cases h9
            | ret _ _ => exact Or.inl rfl
            | _ h7 => rw [hk] at h7; cases h7
        · have := main_of_worker hs hu
          refine Or.inr ⟨hset', ?_, fun h => absurd h hu⟩
          simp only [this]
          exact le_refl _
    · intro s hok hP
      obtain ⟨⟨k, hk⟩, hset⟩ := hP
      obtain ⟨hsz, c, g, hinv⟩ := hok
      have ho := hinv.own
      rw [hk] at ho
      by_cases hlt : k < s.size
      · exact ⟨_, .main (.scanned hk hlt (hset k ho.1 (by omega)))⟩
      · exact ⟨_, .main (.ret hk hlt)⟩

/-! ### Destruction -/

theorem Fair.joins {size : Nat} {σ : Nat → Sys} {τ : Nat → Nat} (hf : Fair size σ τ) (hp : 0 < size) {i k : Nat}
    (hk : k < size) (hi : (σ i).main = .join k) : ∃ i', i ≤ i' ∧ (σ i').main = .join (k + 1) := by
  have hk0 : 0 < k := by
    obtain ⟨_, c, g, hinv⟩ := hf.ok hp i
    have ho := hinv.own
    rw [hi] at ho
    exact ho
  -- the worker ends
  have hover : ∃ i', i ≤ i' ∧ (((σ i').main = .join (k + 1)) ∨ ((σ i').main = .join k ∧ (σ i').worker k = .over)) := by
    by_cases hw : (σ i).worker k = .over
    · exact ⟨i, le_refl _, Or.inr ⟨hi, hw⟩⟩
    · refine hf.eventually hp hk (fun s => s.main = .join k ∧ s.worker k ≠ .over)
        (fun s => s.main = .join (k + 1) ∨ (s.main = .join k ∧ s.worker k = .over))
        (fun s => match s.worker k with | .load => 2 | .check => 1 | _ => 0) ?_ ?_ ⟨hi, hw⟩
      · intro s s' u hok hP hs
        obtain ⟨hm, hne⟩ := hP
        cases hs with
        | main h =>
          cases h with
          | join h1 h2 h3 => rw [hm] at h1; cases h1; exact Or.inl (Or.inl rfl)
          | gone h1 h2 => rw [hm] at h1; cases h1; rw [hok.1] at h2; omega
          | _ h1 => rw [hm] at h1; cases h1
        | @worker _ _ w sl es h0 hws =>
          by_cases hu : u = k
          · subst hu
            obtain ⟨hsz, c, g, hinv⟩ := hok
            have h1 := hinv.workers u h0 (by omega)
            rw [hm] at h1
            have hl := hinv.life
            rw [hm] at hl
            obtain ⟨h2, h3, _⟩ := h1
            show ((_ ∨ (s.main = _ ∧ Function.update s.worker u w u = _)) ∨ (s.main = _ ∧ Function.update s.worker u w u ≠ _) ∧
              (match Function.update s.worker u w u with | .load => 2 | .check => 1 | _ => 0) ≤ _ ∧
              (u = u → (match Function.update s.worker u w u with | .load => 2 | .check => 1 | _ => 0) < _))
            rw [Function.update_self]
            rw [h2] at hws
            rcases h3 with h3 | h3 | h3
            · rw [h3] at hws
              cases hws with
              | alive ha => rw [ha] at hl; cases hl
              | dead _ => exact Or.inl (Or.inr ⟨hm, rfl⟩)
            · rw [h3] at hws
              cases hws with
              | nothing =>
                refine Or.inr ⟨⟨hm, by simp⟩, ?_⟩
                rw [h3]
                simp
            · exact absurd h3 hne
          · refine Or.inr ⟨⟨hm, ?_⟩, ?_, fun h => absurd h hu⟩
            · show Function.update s.worker u w k ≠ _
              rw [Function.update_of_ne (fun h => hu h.symm)]
              exact hne
            · show (match Function.update s.worker u w k with | .load => 2 | .check => 1 | _ => 0) ≤ _
              rw [Function.update_of_ne (fun h => hu h.symm)]
      · intro s hok hP
        obtain ⟨hm, hne⟩ := hP
        obtain ⟨hsz, c, g, hinv⟩ := hok
        have h1 := hinv.workers k hk0 (by omega)
        rw [hm] at h1
        have hl := hinv.life
        rw [hm] at hl
        obtain ⟨h2, h3, _⟩ := h1
        have : ∃ w sl es, WStep s.size s.life k (s.worker k) (s.slot k) w sl es := by
          rw [h2]
          rcases h3 with h3 | h3 | h3
          · rw [h3]; exact ⟨_, _, _, .dead hl⟩
          · rw [h3]; exact ⟨_, _, _, .nothing⟩
          · exact absurd h3 hne
        obtain ⟨w, sl, es, h⟩ := this
        exact ⟨_, .worker hk0 h⟩
  obtain ⟨i1, h1, h2⟩ := hover
  rcases h2 with h2 | h2
  · exact ⟨i1, h1, h2⟩
  · suffices h : ∃ i', i1 ≤ i' ∧ (σ i').main = .join (k + 1) by
      obtain ⟨i2, h3, h4⟩ := h
      exact ⟨i2, by omega, h4⟩
    refine hf.eventually hp (t := 0) hp (fun s => s.main = .join k ∧ s.worker k = .over)
      (fun s => s.main = .join (k + 1)) (fun _ => 0) (i := i1) ?_ ?_ h2
    · intro s s' u hok hP hs
      obtain ⟨hm, hw⟩ := hP
      cases hs with
      | main h =>
        cases h with
        | join h1 h2 h3 => rw [hm] at h1; cases h1; exact Or.inl rfl
        | gone h1 h2 => rw [hm] at h1; cases h1; rw [hok.1] at h2; omega
        | _ h1 => rw [hm] at h1; cases h1
      | @worker _ _ w sl es h0 hws =>
        refine Or.inr ⟨⟨hm, ?_⟩, le_refl _, fun h => by omega⟩
        show Function.update s.worker u w k = _
        by_cases hu : k = u
        · subst hu
          rw [hw] at hws
          cases hws
        · rw [Function.update_of_ne hu]; exact hw
    · intro s hok hP
      exact ⟨_, .main (.join hP.1 (by rw [hok.1]; exact hk) hP.2)⟩

theorem Fair.ends {size : Nat} {σ : Nat → Sys} {τ : Nat → Nat} (hf : Fair size σ τ) (hp : 0 < size) {i k : Nat}
    (hi : (σ i).main = .join k) : ∃ i', i ≤ i' ∧ (σ i').main = .gone := by
  induction hd : size - k generalizing i k with
  | zero =>
    refine hf.eventually_main hp (fun m => m = .join k) (fun m => m = .gone) (fun _ => 0) ?_ ?_ hi
    · intro s s' hok hm hs
      cases hs with
      | join h1 h2 h3 => rw [hm] at h1; cases h1; rw [hok.1] at h2; omega
      | gone h1 h2 => exact Or.inl rfl
      | _ h1 => rw [hm] at h1; cases h1
    · intro s hok hm
      exact ⟨_, .gone hm (by rw [hok.1]; omega)⟩
  | succ d ih =>
    obtain ⟨i1, h1, h2⟩ := hf.joins hp (by omega) hi
    obtain ⟨i2, h3, h4⟩ := ih h2 (by omega)
    exact ⟨i2, by omega, h4⟩

end Pool
end EFG
