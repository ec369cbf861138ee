import Verif.Spec.Trainer
import Verif.Lemmas.CrfReach
import Verif.Lemmas.Tuners
/-
The training of a model: the pool stays as it is between the calls of the optimiser.
-/

set_option linter.unusedSectionVars false

namespace EFG
namespace State
variable {F D : Type} [Arith F]

/-- What a gradient changes: the caches and the evidences. -/
structure Mild (s s' : State F) : Prop extends SameRegs s s' where
  inv : Inv s'
  pool : s'.pool = s.pool
  heap : s'.heap = s.heap

theorem Mild.rfl' {s : State F} (hs : Inv s) : Mild s s := ⟨.rfl' s, hs, rfl, rfl⟩

theorem Mild.trans {s s' s'' : State F} (a : Mild s s') (b : Mild s' s'') : Mild s s'' :=
  ⟨a.toSameRegs.trans b.toSameRegs, b.inv, b.pool.trans a.pool, b.heap.trans a.heap⟩

def MildAt {α : Type} (x : M (State F) α) (s : State F) : Prop :=
  match x s with
  | .ok s' _ => Mild s s'
  | .throw s' => Mild s s'
  | .ub => True

/-- An operation which keeps the pool, the factors and the registers, however it ends. -/
def Mildly {α : Type} (x : M (State F) α) : Prop := ∀ s, Inv s → MildAt x s

theorem propagateBelief_mildly {ord : List Var → List Var} (hord : ∀ l, (ord l).Perm l) (sched : Sched)
    (kind : Kind) : Mildly (propagateBelief (F := F) ord sched kind) := by
  intro s hs
  have hA := propagateBelief_asked (F := F) hord sched kind s hs
  have of : ∀ s', Asked s s' → s'.pool = s.pool → Mild s s' := fun s' h hp => ⟨h.toFrame.regs, h.inv hs, hp, h.toFrame.heap⟩
  unfold MildAt
  unfold propagateBelief at hA ⊢
  by_cases hw : (!s.wouldNeedPropagation kind) = true
  · rw [if_pos hw]; exact .rfl' hs
  · rw [if_neg hw] at hA ⊢
    cases hn : s.pool with
    | none => exact .rfl' hs
    | some n =>
      rw [hn] at hA
      simp only at hA ⊢
      have h0 := (resetMessages_soft s).step
      have h1 := propagateClusters_step hord sched kind n (List.range s.clusters.length) (h0.inv hs)
      cases hp : propagateClusters ord sched kind n (List.range s.clusters.length) s.resetMessages with
      | ok s1 rs =>
        rw [hp] at h1 hA
        exact of _ hA (h0.trans h1).pool
      | throw s1 => rw [hp] at h1 hA; exact of _ hA (h0.trans h1).pool
      | ub => trivial

theorem gradient_mildly {ord : List Var → List Var} (hord : ∀ l, (ord l).Perm l) (sched : Sched)
    (samples : List (List Nat)) : Mildly (gradient (F := F) ord sched samples) := by
  intro s hs
  unfold MildAt gradient
  have h0 : ∃ s1, (if s.evidences.isEmpty then .ok s () else removeAllEvidences ord s : Out (State F) Unit) = .ok s1 () ∧
      Mild s s1 := by
    by_cases he : s.evidences.isEmpty = true
    · exact ⟨s, by rw [if_pos he], .rfl' hs⟩
    · obtain ⟨s', h1, h2, h3, h4, _⟩ := removeAllEvidences_ok hord hs.toCore
      exact ⟨s', by rw [if_neg he]; exact h1, h3.regs, h2, h4, h3.heap⟩
  obtain ⟨s1, e1, h1⟩ := h0
  simp only [e1]
  have hr : Mild s s1.resetBelief :=
    ⟨⟨h1.vars, h1.factors, h1.consts, h1.tunables, h1.tuners⟩, h1.inv.resetBelief, h1.pool, h1.heap⟩
  have h2 := propagateBelief_mildly (F := F) hord sched .sum s1.resetBelief hr.inv
  unfold MildAt at h2
  cases hp : propagateBelief ord sched .sum s1.resetBelief with
  | ok s2 _ =>
    rw [hp] at h2
    simp only [lift]
    cases Res.mapList (gradientTask ord samples s2) s2.tuners with
    | ok _ => exact hr.trans h2
    | throw => exact hr.trans h2
    | ub => trivial
  | throw s2 => rw [hp] at h2; exact hr.trans h2
  | ub => trivial

theorem forEach_mild {ord : List Var → List Var} (hord : ∀ l, (ord l).Perm l) : ∀ (es : List (Var × Nat)) {s : State F},
    Inv s → (∀ e ∈ es, e.1 ∈ s.obs) → MildAt (forEach (fun e : Var × Nat => setEvidence ord e.1 e.2) es) s := by
  intro es
  induction es with
  | nil => intro s hs _; exact .rfl' hs
  | cons e es ih =>
    intro s hs he
    unfold MildAt
    rw [forEach]
    rcases setEvidence_again hord hs (he e (by simp)) e.2 with ⟨_, s1, h1, h2, h3, h4, h5, _⟩ | ⟨_, h1⟩
    · rw [h1]
      simp only
      have hc : Mild s s1 := ⟨h3.toSameRegs, h2, h5, h4⟩
      have := ih h2 (fun e' he' => by rw [h3.obs]; exact he e' (by simp [he']))
      cases hx : forEach (fun e : Var × Nat => setEvidence ord e.1 e.2) es s1 with
      | ok s' u => rw [MildAt, hx] at this; exact hc.trans this
      | throw s' => rw [MildAt, hx] at this; exact hc.trans this
      | ub => trivial
    · rw [h1]; exact .rfl' hs

theorem betaStep_mildly {ord visit : List Var → List Var} (hord : ∀ l, (ord l).Perm l) (hvis : ∀ l, (visit l).Perm l)
    (sched : Sched) (positions : List Nat) (coeff : F) (betas : List F) (comb : List Nat) :
    Mildly (betaStep ord visit sched positions coeff betas comb) := by
  intro s hs
  unfold MildAt
  unfold betaStep
  cases he : sampleEvidences positions comb (visit (AMap.keys s.evidences)) 0 with
  | throw => exact .rfl' hs
  | ub => trivial
  | ok es =>
    simp only
    have hk := sampleEvidences_keys _ _ _ he
    have h1 := forEach_mild hord es hs (fun e hm => (hvis _).mem_iff.mp (hk ▸ List.mem_map_of_mem hm))
    cases hx : forEach (fun e : Var × Nat => setEvidence ord e.1 e.2) es s with
    | throw s1 => rw [MildAt, hx] at h1; exact h1
    | ub => trivial
    | ok s1 u =>
      rw [MildAt, hx] at h1
      simp only
      have h2 := propagateBelief_mildly (F := F) hord sched .sum s1 h1.inv
      cases hp : propagateBelief ord sched .sum s1 with
      | throw s2 => rw [MildAt, hp] at h2; exact h1.trans h2
      | ub => trivial
      | ok s2 u =>
        rw [MildAt, hp] at h2
        simp only
        cases Res.mapList (fun t => tunerSum (s2.baseBeta ord) t) s2.tuners with
        | ok bs => exact h1.trans h2
        | throw => exact h1.trans h2
        | ub => trivial

theorem betaLoop_mildly {ord visit : List Var → List Var} (hord : ∀ l, (ord l).Perm l) (hvis : ∀ l, (visit l).Perm l)
    (sched : Sched) (positions : List Nat) (coeff : F) : ∀ (cs : List (List Nat)) (betas : List F),
    Mildly (betaLoop ord visit sched positions coeff betas cs) := by
  intro cs
  induction cs with
  | nil => intro betas s hs; exact .rfl' hs
  | cons c cs ih =>
    intro betas s hs
    unfold MildAt
    rw [betaLoop]
    have h1 := betaStep_mildly hord hvis sched positions coeff betas c s hs
    cases hx : betaStep ord visit sched positions coeff betas c s with
    | throw s1 => rw [MildAt, hx] at h1; exact h1
    | ub => trivial
    | ok s1 b =>
      rw [MildAt, hx] at h1
      simp only
      have h2 := ih b s1 h1.inv
      cases hy : betaLoop ord visit sched positions coeff b cs s1 with
      | throw s2 => rw [MildAt, hy] at h2; exact h1.trans h2
      | ok s2 _ => rw [MildAt, hy] at h2; exact h1.trans h2
      | ub => trivial

theorem crfGradient_mildly {ord visit : List Var → List Var} (hord : ∀ l, (ord l).Perm l) (hvis : ∀ l, (visit l).Perm l)
    (sched : Sched) (positions : List Nat) (samples : List (List Nat)) :
    Mildly (crfGradient (F := F) ord visit sched positions samples) := by
  intro s hs
  unfold MildAt
  unfold crfGradient
  cases Res.mapList (fun t => tunerSum (s.baseAlpha samples) t) s.tuners with
  | throw => exact .rfl' hs
  | ub => trivial
  | ok alphas =>
    simp only
    have h1 := betaLoop_mildly hord hvis sched positions (Arith.div Arith.one (Arith.ofNat samples.length)) samples
      (s.tuners.map (fun _ => Arith.zero)) s hs
    cases hx : betaLoop ord visit sched positions (Arith.div Arith.one (Arith.ofNat samples.length))
        (s.tuners.map (fun _ => Arith.zero)) samples s with
    | throw s1 => rw [MildAt, hx] at h1; exact h1
    | ok s1 _ => rw [MildAt, hx] at h1; exact h1
    | ub => trivial

/-! ### The pool -/

/-- The state in the scope of an activator. -/
def inPool (n : Nat) (s : State F) : State F := { s with pool := some n }

theorem inPool_inv {n : Nat} {s : State F} (hs : Inv s) : Inv (inPool n s) :=
  (Asked.light (s := s) (s' := inPool n s) rfl rfl rfl rfl rfl rfl rfl rfl rfl rfl).inv hs

theorem inPool_reset {n : Nat} {s : State F} (h : s.pool = some n) : inPool n s.resetPool = s := by
  cases s
  simp only at h
  subst h
  rfl

theorem setPoolSize_inPool {n : Nat} (hn : 1 ≤ n) {s : State F} (h : s.pool = some 1) :
    setPoolSize n s = .ok (inPool n s) () := by
  unfold setPoolSize
  rw [h]
  simp only
  by_cases h1 : n = 1
  · subst h1
    rw [if_pos rfl]
    cases s
    simp only at h
    rw [h]
    rfl
  · rw [if_neg h1, if_neg (by omega)]
    rfl

/-- The end of the scope of an activator. -/
def leave {α : Type} : Out (State F) α → Out (State F) α
  | .ok s a => .ok s.resetPool a
  | .throw s => .throw s.resetPool
  | .ub => .ub

theorem withPool_leave {α : Type} {n : Nat} (hn : 1 ≤ n) {s : State F} (h : s.pool = some 1) (body : M (State F) α) :
    withPool n body s = leave (body (inPool n s)) := by
  unfold withPool
  rw [setPoolSize_inPool hn h]
  simp only
  cases body (inPool n s) <;> rfl

theorem setTunersWeights_inPool (n : Nat) : ∀ (l : List (List BaseTuner × F)) (s : State F),
    setTunersWeights l (inPool n s) = inPool n (setTunersWeights l s) := by
  intro l
  induction l with
  | nil => intro s; rfl
  | cons e l ih => intro s; exact ih (setTunerWeight e.1 e.2 s)

theorem setWeights_pool {ws : List F} {s : State F} (n : Nat) :
    (∃ s', setWeights ws s = .ok s' () ∧ setWeights ws (inPool n s) = .ok (inPool n s') () ∧ s'.pool = s.pool) ∨
    (setWeights ws s = .throw s ∧ setWeights ws (inPool n s) = .throw (inPool n s)) := by
  unfold setWeights
  by_cases h : ws.length ≠ s.tuners.length
  · exact .inr ⟨if_pos h, if_pos h⟩
  · refine .inl ⟨_, if_neg h, ?_, ?_⟩
    · rw [if_neg (show ¬ ws.length ≠ (inPool n s).tuners.length from h)]
      show Out.ok (setTunersWeights (s.tuners.zip ws) (inPool n s)).resetBelief () = _
      rw [setTunersWeights_inPool]
      rfl
    · obtain ⟨hp, h1, _⟩ := setTunersWeights_eq (s.tuners.zip ws) s
      rw [h1]
      rfl

/-- The training makes the calls which it would make without the pool around them. -/
theorem optimise_session {cv : Doubles F D} {samples : Nat → Res (List (List Nat))}
    {grad : Nat → List (List Nat) → M (State F) (List F)} (hg : ∀ k l, Mildly (grad k l)) {n : Nat} (hn : 1 ≤ n)
    (opt : Optimiser D) : ∀ (k : Nat) (s : State F), Inv s → s.pool = some 1 →
    ∃ es, Session cv samples (fun k l => withPool n (grad k l)) opt k s es
      (leave (optimise cv samples grad opt k (inPool n s))) := by
  have hback : ∀ {s : State F}, s.pool = some 1 → (inPool n s).resetPool = s := by
    intro s h
    cases s
    simp only at h
    subst h
    rfl
  induction opt with
  | stop => intro k s _ hp; exact ⟨[], by rw [optimise, leave, hback hp]; exact .stop⟩
  | fail => intro k s _ hp; exact ⟨[], by rw [optimise, leave, hback hp]; exact .fail⟩
  | parameters next ih =>
    intro k s hs hp
    rw [optimise]
    have he : (inPool n s).getWeights = s.getWeights := rfl
    rw [he]
    cases hw : s.getWeights with
    | ok ws =>
      obtain ⟨es, h⟩ := ih (ws.map cv.widen) k s hs hp
      exact ⟨_, .read hw h⟩
    | throw => exact ⟨_, by rw [leave, hback hp]; exact .readThrow hw⟩
    | ub => exact ⟨_, .readUb hw⟩
  | set w next ih =>
    intro k s hs hp
    rw [optimise]
    rcases setWeights_pool (ws := w.map cv.narrow) (s := s) n with ⟨s', h1, h2, h3⟩ | ⟨h1, h2⟩
    · rw [h2]
      have hi := setWeights_preserves (w.map cv.narrow) s hs
      rw [h1] at hi
      obtain ⟨es, h⟩ := ih true k s' hi (h3.trans hp)
      exact ⟨_, .set h1 h⟩
    · rw [h2]
      obtain ⟨es, h⟩ := ih false k s hs hp
      exact ⟨_, .refused h1 h⟩
  | gradient next ih =>
    intro k s hs hp
    rw [optimise]
    cases hb : samples k with
    | throw =>
      obtain ⟨es, h⟩ := ih none (k + 1) s hs hp
      exact ⟨_, .noSamples hb h⟩
    | ub => exact ⟨_, .samplesUb hb⟩
    | ok l =>
      simp only
      have hc := hg k l (inPool n s) (inPool_inv hs)
      have hw := withPool_leave hn hp (grad k l)
      unfold MildAt at hc
      cases hx : grad k l (inPool n s) with
      | ub => rw [hx] at hw; exact ⟨_, .gradientUb hb hw⟩
      | ok s1 g =>
        rw [hx] at hc hw
        simp only
        have hi : Inv s1.resetPool := (Asked.light (s := s1) (s' := s1.resetPool) rfl rfl rfl rfl rfl rfl rfl rfl rfl rfl).inv hc.inv
        obtain ⟨es, h⟩ := ih (some (g.map (fun x => cv.neg (cv.widen x)))) (k + 1) s1.resetPool hi rfl
        rw [inPool_reset (n := n) hc.pool] at h
        exact ⟨_, .gradient hb hw h⟩
      | throw s1 =>
        rw [hx] at hc hw
        simp only
        have hi : Inv s1.resetPool := (Asked.light (s := s1) (s' := s1.resetPool) rfl rfl rfl rfl rfl rfl rfl rfl rfl rfl).inv hc.inv
        obtain ⟨es, h⟩ := ih none (k + 1) s1.resetPool hi rfl
        rw [inPool_reset (n := n) hc.pool] at h
        exact ⟨_, .gradientThrow hb hw h⟩

end State

/-- The calls and their outcome are determined. -/
theorem Session.det {F D : Type} [Arith F] {cv : Doubles F D} {samples : Nat → Res (List (List Nat))}
    {grad : Nat → List (List Nat) → M (State F) (List F)} {opt : Optimiser D} {k : Nat} {s : State F} {es es' : List (Event F)}
    {o o' : Out (State F) Unit} (h : Session cv samples grad opt k s es o) (h' : Session cv samples grad opt k s es' o') :
    es = es' ∧ o = o' := by
  induction h generalizing es' o' with
  | stop => cases h'; exact ⟨rfl, rfl⟩
  | fail => cases h'; exact ⟨rfl, rfl⟩
  | read h1 _ ih =>
    cases h' with
    | read g1 g2 =>
      rw [h1] at g1; cases g1
      obtain ⟨e1, e2⟩ := ih g2
      exact ⟨by rw [e1], e2⟩
    | readThrow g1 => rw [h1] at g1; cases g1
    | readUb g1 => rw [h1] at g1; cases g1
  | readThrow h1 =>
    cases h' with
    | read g1 g2 => rw [h1] at g1; cases g1
    | readThrow g1 => exact ⟨rfl, rfl⟩
    | readUb g1 => rw [h1] at g1; cases g1
  | readUb h1 =>
    cases h' with
    | read g1 g2 => rw [h1] at g1; cases g1
    | readThrow g1 => rw [h1] at g1; cases g1
    | readUb g1 => exact ⟨rfl, rfl⟩
  | set h1 _ ih =>
    cases h' with
    | set g1 g2 =>
      rw [h1] at g1; cases g1
      obtain ⟨e1, e2⟩ := ih g2
      exact ⟨by rw [e1], e2⟩
    | refused g1 _ => rw [h1] at g1; cases g1
    | setUb g1 => rw [h1] at g1; cases g1
  | refused h1 _ ih =>
    cases h' with
    | refused g1 g2 =>
      rw [h1] at g1; cases g1
      obtain ⟨e1, e2⟩ := ih g2
      exact ⟨by rw [e1], e2⟩
    | set g1 _ => rw [h1] at g1; cases g1
    | setUb g1 => rw [h1] at g1; cases g1
  | setUb h1 =>
    cases h' with
    | refused g1 _ => rw [h1] at g1; cases g1
    | set g1 _ => rw [h1] at g1; cases g1
    | setUb g1 => exact ⟨rfl, rfl⟩
  | gradient h0 h1 _ ih =>
    cases h' with
    | gradient g0 g1 g2 =>
      rw [h0] at g0; cases g0
      rw [h1] at g1; cases g1
      obtain ⟨e1, e2⟩ := ih g2
      exact ⟨by rw [e1], e2⟩
    | gradientThrow g0 g1 _ => rw [h0] at g0; cases g0; rw [h1] at g1; cases g1
    | gradientUb g0 g1 => rw [h0] at g0; cases g0; rw [h1] at g1; cases g1
    | noSamples g0 _ => rw [h0] at g0; cases g0
    | samplesUb g0 => rw [h0] at g0; cases g0
  | gradientThrow h0 h1 _ ih =>
    cases h' with
    | gradientThrow g0 g1 g2 =>
      rw [h0] at g0; cases g0
      rw [h1] at g1; cases g1
      obtain ⟨e1, e2⟩ := ih g2
      exact ⟨by rw [e1], e2⟩
    | gradient g0 g1 _ => rw [h0] at g0; cases g0; rw [h1] at g1; cases g1
    | gradientUb g0 g1 => rw [h0] at g0; cases g0; rw [h1] at g1; cases g1
    | noSamples g0 _ => rw [h0] at g0; cases g0
    | samplesUb g0 => rw [h0] at g0; cases g0
  | gradientUb h0 h1 =>
    cases h' with
    | gradientUb g0 g1 => exact ⟨rfl, rfl⟩
    | gradient g0 g1 _ => rw [h0] at g0; cases g0; rw [h1] at g1; cases g1
    | gradientThrow g0 g1 _ => rw [h0] at g0; cases g0; rw [h1] at g1; cases g1
    | noSamples g0 _ => rw [h0] at g0; cases g0
    | samplesUb g0 => rw [h0] at g0; cases g0
  | noSamples h0 _ ih =>
    cases h' with
    | noSamples g0 g2 =>
      obtain ⟨e1, e2⟩ := ih g2
      exact ⟨by rw [e1], e2⟩
    | gradient g0 _ _ => rw [h0] at g0; cases g0
    | gradientThrow g0 _ _ => rw [h0] at g0; cases g0
    | gradientUb g0 _ => rw [h0] at g0; cases g0
    | samplesUb g0 => rw [h0] at g0; cases g0
  | samplesUb h0 =>
    cases h' with
    | samplesUb g0 => exact ⟨rfl, rfl⟩
    | gradient g0 _ _ => rw [h0] at g0; cases g0
    | gradientThrow g0 _ _ => rw [h0] at g0; cases g0
    | gradientUb g0 _ => rw [h0] at g0; cases g0
    | noSamples g0 _ => rw [h0] at g0; cases g0

namespace Session
variable {F D : Type} [Arith F] {cv : Doubles F D} {samples : Nat → Res (List (List Nat))}
  {grad : Nat → List (List Nat) → M (State F) (List F)}

theorem setWeights_throw {ws : List F} {s s' : State F} (h : State.setWeights ws s = .throw s') : s' = s := by
  unfold State.setWeights at h
  by_cases hl : ws.length ≠ s.tuners.length
  · rw [if_pos hl] at h; cases h; rfl
  · rw [if_neg hl] at h; cases h

/-- What a property kept by the calls gives. -/
theorem always {P : State F → Prop} (hset : ∀ ws s s', P s → State.setWeights ws s = .ok s' () → P s')
    (hok : ∀ k l s s' g, P s → samples k = .ok l → grad k l s = .ok s' g → P s')
    (hthrow : ∀ k l s s', P s → samples k = .ok l → grad k l s = .throw s' → P s')
    {opt : Optimiser D} {k : Nat} {s : State F} {es : List (Event F)} {o : Out (State F) Unit}
    (h : Session cv samples grad opt k s es o) (hs : P s) :
    (∀ s1 l g, .gradient s1 l g ∈ es → P s1 ∧ ∃ k, samples k = .ok l ∧ ∀ s' g', grad k l s1 = .ok s' g' → g = some g') ∧
    (∀ s', o = .ok s' () → P s') ∧ ∀ s', o = .throw s' → P s' := by
  have one : ∀ {e : Event F} {es : List (Event F)} {Q : State F → List (List Nat) → Option (List F) → Prop},
      (∀ s1 l g, .gradient s1 l g ∈ es → Q s1 l g) → (∀ s1 l g, e = .gradient s1 l g → Q s1 l g) →
      ∀ s1 l g, .gradient s1 l g ∈ e :: es → Q s1 l g := by
    intro e es Q h1 h2 s1 l g hm
    rcases List.mem_cons.mp hm with h | h
    · exact h2 _ _ _ h.symm
    · exact h1 _ _ _ h
  induction h with
  | stop => exact ⟨(fun _ _ _ hm => by cases hm), (fun _ ho => by cases ho; exact hs), (fun _ ho => by cases ho)⟩
  | fail => exact ⟨(fun _ _ _ hm => by cases hm), (fun _ ho => by cases ho), (fun _ ho => by cases ho; exact hs)⟩
  | read _ _ ih =>
    obtain ⟨h1, h2⟩ := ih hs
    exact ⟨one h1 (fun _ _ _ he => by cases he), h2⟩
  | readThrow _ => exact ⟨(fun _ _ _ hm => by cases hm), (fun _ ho => by cases ho), (fun _ ho => by cases ho; exact hs)⟩
  | readUb _ => exact ⟨(fun _ _ _ hm => by cases hm), (fun _ ho => by cases ho), (fun _ ho => by cases ho)⟩
  | set hw _ ih =>
    obtain ⟨h1, h2⟩ := ih (hset _ _ _ hs hw)
    exact ⟨one h1 (fun _ _ _ he => by cases he), h2⟩
  | refused hw _ ih =>
    obtain ⟨h1, h2⟩ := ih (by rw [setWeights_throw hw]; exact hs)
    exact ⟨one h1 (fun _ _ _ he => by cases he), h2⟩
  | setUb _ => exact ⟨(fun _ _ _ hm => by cases hm), (fun _ ho => by cases ho), (fun _ ho => by cases ho)⟩
  | gradient hb hg _ ih =>
    obtain ⟨h1, h2⟩ := ih (hok _ _ _ _ _ hs hb hg)
    refine ⟨one h1 (fun _ _ _ he => ?_), h2⟩
    cases he
    exact ⟨hs, _, hb, fun s' g' h => by rw [hg] at h; cases h; rfl⟩
  | gradientThrow hb hg _ ih =>
    obtain ⟨h1, h2⟩ := ih (hthrow _ _ _ _ hs hb hg)
    refine ⟨one h1 (fun _ _ _ he => ?_), h2⟩
    cases he
    exact ⟨hs, _, hb, fun s' g' h => by rw [hg] at h; cases h⟩
  | gradientUb _ _ => exact ⟨(fun _ _ _ hm => by cases hm), (fun _ ho => by cases ho), (fun _ ho => by cases ho)⟩
  | noSamples _ _ ih =>
    obtain ⟨h1, h2⟩ := ih hs
    exact ⟨one h1 (fun _ _ _ he => by cases he), h2⟩
  | samplesUb _ => exact ⟨(fun _ _ _ hm => by cases hm), (fun _ ho => by cases ho), (fun _ ho => by cases ho)⟩

/-- The weights are the last ones which were set. -/
theorem weights {P : State F → Prop}
    (hset : ∀ ws s s', P s → State.setWeights ws s = .ok s' () → P s' ∧ s'.getWeights = .ok ws)
    (hok : ∀ k l s s' g, P s → samples k = .ok l → grad k l s = .ok s' g → P s' ∧ s'.getWeights = s.getWeights)
    (hthrow : ∀ k l s s', P s → samples k = .ok l → grad k l s = .throw s' → P s' ∧ s'.getWeights = s.getWeights)
    {opt : Optimiser D} {k : Nat} {s : State F} {es : List (Event F)} {o : Out (State F) Unit}
    (h : Session cv samples grad opt k s es o) (hs : P s) {ws : List F} (hws : s.getWeights = .ok ws) :
    (∀ pre s1 l g post, es = pre ++ .gradient s1 l g :: post → s1.getWeights = .ok (weightsAfter ws pre)) ∧
    (∀ pre ws' post, es = pre ++ .read ws' :: post → ws' = weightsAfter ws pre) ∧
    (∀ s', o = .ok s' () → s'.getWeights = .ok (weightsAfter ws es)) ∧
    ∀ s', o = .throw s' → s'.getWeights = .ok (weightsAfter ws es) := by
  have nil : (∀ pre s1 l g post, ([] : List (Event F)) = pre ++ .gradient s1 l g :: post → s1.getWeights = .ok (weightsAfter ws pre)) ∧
      (∀ pre ws' post, ([] : List (Event F)) = pre ++ .read ws' :: post → ws' = weightsAfter ws pre) :=
    ⟨(fun pre _ _ _ _ h => by cases pre <;> cases h), (fun pre _ _ h => by cases pre <;> cases h)⟩
  have cons : ∀ {e : Event F} {es : List (Event F)} {ws ws0 : List F}, (∀ pre, weightsAfter ws0 (e :: pre) = weightsAfter ws pre) →
      (∀ s1 l g, e = .gradient s1 l g → s1.getWeights = .ok ws0) → (∀ ws', e = .read ws' → ws' = ws0) →
      (∀ pre s1 l g post, es = pre ++ .gradient s1 l g :: post → s1.getWeights = .ok (weightsAfter ws pre)) →
      (∀ pre ws' post, es = pre ++ .read ws' :: post → ws' = weightsAfter ws pre) →
      (∀ pre s1 l g post, e :: es = pre ++ .gradient s1 l g :: post → s1.getWeights = .ok (weightsAfter ws0 pre)) ∧
      (∀ pre ws' post, e :: es = pre ++ .read ws' :: post → ws' = weightsAfter ws0 pre) := by
    intro e es ws ws0 h0 h1 h2 h3 h4
    constructor
    · intro pre s1 l g post he
      cases pre with
      | nil => cases he; exact h1 _ _ _ rfl
      | cons a pre => cases he; rw [h0]; exact h3 _ _ _ _ _ rfl
    · intro pre ws' post he
      cases pre with
      | nil => cases he; exact h2 _ rfl
      | cons a pre => cases he; rw [h0]; exact h4 _ _ _ rfl
  induction h generalizing ws with
  | stop => exact ⟨nil.1, nil.2, (fun _ ho => by cases ho; exact hws), (fun _ ho => by cases ho)⟩
  | fail => exact ⟨nil.1, nil.2, (fun _ ho => by cases ho), (fun _ ho => by cases ho; exact hws)⟩
  | read hw _ ih =>
    obtain ⟨h1, h2, h3, h4⟩ := ih hs hws nil
    rw [hws] at hw
    cases hw
    have := cons (e := .read _) (ws0 := _) (fun _ => rfl) (fun _ _ _ he => by cases he) (fun _ he => by cases he; rfl) h1 h2
    exact ⟨this.1, this.2, h3, h4⟩
  | readThrow hw => rw [hws] at hw; cases hw
  | readUb hw => rw [hws] at hw; cases hw
  | @set w _ _ _ _ _ _ hw _ ih =>
    obtain ⟨g1, g2⟩ := hset _ _ _ hs hw
    obtain ⟨h1, h2, h3, h4⟩ := ih g1 g2
      ⟨(fun pre _ _ _ _ h => by cases pre <;> cases h), (fun pre _ _ h => by cases pre <;> cases h)⟩
    have := cons (e := .set (w.map cv.narrow)) (ws0 := ws) (fun _ => rfl) (fun _ _ _ he => by cases he) (fun _ he => by cases he) h1 h2
    exact ⟨this.1, this.2, h3, h4⟩
  | @refused w _ _ _ _ _ _ hw _ ih =>
    have e := setWeights_throw hw
    subst e
    obtain ⟨h1, h2, h3, h4⟩ := ih hs hws nil
    have := cons (e := .refused (w.map cv.narrow)) (ws0 := ws) (fun _ => rfl) (fun _ _ _ he => by cases he) (fun _ he => by cases he) h1 h2
    exact ⟨this.1, this.2, h3, h4⟩
  | setUb _ => exact ⟨nil.1, nil.2, (fun _ ho => by cases ho), (fun _ ho => by cases ho)⟩
  | @gradient _ _ s _ l g _ _ hb hg _ ih =>
    obtain ⟨g1, g2⟩ := hok _ _ _ _ _ hs hb hg
    obtain ⟨h1, h2, h3, h4⟩ := ih g1 (g2.trans hws) nil
    have := cons (e := .gradient s l (some g)) (ws0 := ws) (fun _ => rfl) (fun _ _ _ he => by cases he; exact hws) (fun _ he => by cases he) h1 h2
    exact ⟨this.1, this.2, h3, h4⟩
  | @gradientThrow _ _ s _ l _ _ hb hg _ ih =>
    obtain ⟨g1, g2⟩ := hthrow _ _ _ _ hs hb hg
    obtain ⟨h1, h2, h3, h4⟩ := ih g1 (g2.trans hws) nil
    have := cons (e := .gradient s l none) (ws0 := ws) (fun _ => rfl) (fun _ _ _ he => by cases he; exact hws) (fun _ he => by cases he) h1 h2
    exact ⟨this.1, this.2, h3, h4⟩
  | gradientUb _ _ => exact ⟨nil.1, nil.2, (fun _ ho => by cases ho), (fun _ ho => by cases ho)⟩
  | noSamples hb _ ih =>
    obtain ⟨h1, h2, h3, h4⟩ := ih hs hws nil
    have := cons (e := .noSamples) (ws0 := ws) (fun _ => rfl) (fun _ _ _ he => by cases he) (fun _ he => by cases he) h1 h2
    exact ⟨this.1, this.2, h3, h4⟩
  | samplesUb _ => exact ⟨nil.1, nil.2, (fun _ ho => by cases ho), (fun _ ho => by cases ho)⟩

end Session

namespace State
variable {F D : Type} [Arith F]

theorem withPool_mild {α : Type} {n : Nat} (hn : 1 ≤ n) {s : State F} (hs : Inv s) (hp : s.pool = some 1) {x : M (State F) α}
    (hx : Mildly x) : MildAt (withPool n x) s := by
  have h := hx _ (inPool_inv (n := n) hs)
  unfold MildAt at h ⊢
  rw [withPool_leave hn hp]
  cases hy : x (inPool n s) with
  | ub => trivial
  | ok s1 a =>
    rw [hy] at h
    exact ⟨⟨h.vars, h.factors, h.consts, h.tunables, h.tuners⟩,
      (Asked.light (s := s1) (s' := s1.resetPool) rfl rfl rfl rfl rfl rfl rfl rfl rfl rfl).inv h.inv, hp.symm, h.heap⟩
  | throw s1 =>
    rw [hy] at h
    exact ⟨⟨h.vars, h.factors, h.consts, h.tunables, h.tuners⟩,
      (Asked.light (s := s1) (s' := s1.resetPool) rfl rfl rfl rfl rfl rfl rfl rfl rfl rfl).inv h.inv, hp.symm, h.heap⟩

theorem mildAt_cases {α : Type} {x : M (State F) α} {s : State F} (h : MildAt x s) :
    (∀ s' a, x s = .ok s' a → Mild s s') ∧ (∀ s', x s = .throw s' → Mild s s') := by
  unfold MildAt at h
  constructor
  · intro s' a hx; rw [hx] at h; exact h
  · intro s' hx; rw [hx] at h; exact h

theorem Mild.weights {s s' : State F} (h : Mild s s') : s'.getWeights = s.getWeights := by
  have e : s'.tunerWeight = s.tunerWeight := by
    funext t
    unfold tunerWeight weightOf
    rw [h.heap]
  unfold getWeights
  rw [e, h.tuners]

theorem Mild.same {s s' : State F} (h : Mild s s') : SameModel s s' :=
  ⟨h.vars, h.factors, h.consts, h.tunables, by unfold tunableClusters; rw [h.tuners],
    fun p f hf => ⟨f.weight, by rw [h.heap]; exact hf⟩, fun p _ => by rw [h.heap]⟩

theorem _root_.EFG.SameModel.rfl' (s : State F) : SameModel s s :=
  ⟨rfl, rfl, rfl, rfl, rfl, fun _ f hf => ⟨f.weight, hf⟩, fun _ _ => rfl⟩

theorem _root_.EFG.SameModel.trans {s s' s'' : State F} (a : SameModel s s') (b : SameModel s' s'') : SameModel s s'' :=
  ⟨b.vars.trans a.vars, b.factors.trans a.factors, b.consts.trans a.consts, b.tunables.trans a.tunables,
    b.clusters.trans a.clusters, fun p f hf => by
      obtain ⟨w, h1⟩ := a.heap p f hf
      obtain ⟨w', h2⟩ := b.heap p _ h1
      exact ⟨w', h2⟩,
    fun p hp => (b.untouched p (by rw [a.clusters]; exact hp)).trans (a.untouched p hp)⟩

theorem flatten_factors (s : State F) : s.tuners.flatten.map BaseTuner.factor = s.tunableClusters.flatten := by
  unfold tunableClusters
  rw [List.map_flatten]

theorem Weighted.same {s s' : State F} (h : Weighted s) (hm : SameModel s s')
    (hw : ∀ p ∈ s.tunables, ∀ f, s'.heap[p]? = some f → f.weight.isSome) : Weighted s' := by
  refine ⟨by rw [hm.clusters]; exact h.ne', by rw [hm.clusters]; exact h.nodup',
    by rw [hm.clusters, hm.tunables]; exact h.mem', by rw [hm.tunables, hm.factors]; exact h.reg, ?_⟩
  intro p hp
  rw [hm.tunables] at hp
  obtain ⟨f, h1, _⟩ := h.exp p hp
  obtain ⟨w, h2⟩ := hm.heap p f h1
  exact ⟨_, h2, hw p hp _ h2⟩

/-- What the training keeps. -/
structure Training (s0 s : State F) : Prop where
  inv : Inv s
  pool : s.pool = some 1
  weighted : Weighted s
  same : SameModel s0 s

theorem Training.setWeights {s0 s s' : State F} (h : Training s0 s) {ws : List F} (hw : setWeights ws s = .ok s' ()) :
    Training s0 s' ∧ s'.getWeights = .ok ws := by
  have hl : ws.length = s.tuners.length := by
    by_contra hne
    unfold State.setWeights at hw
    rw [if_pos hne] at hw
    cases hw
  obtain ⟨t, h1, h2, h3, h4, h5, h6⟩ := setWeights_ok h.weighted hl
  rw [hw] at h1
  cases h1
  have hi := setWeights_preserves ws s h.inv
  rw [hw] at hi
  have hc : s'.tunableClusters = s.tunableClusters := by rw [h2]; rfl
  have hm : SameModel s s' := by
    refine ⟨by rw [h2], by rw [h2], by rw [h2], by rw [h2], hc, ?_, ?_⟩
    · intro p f hf
      rcases h3 p with ⟨k1, _⟩ | ⟨g, w, k1, k2, k3⟩
      · rw [hf] at k1; cases k1
      · rw [hf] at k1; cases k1; exact ⟨w, k2⟩
    · intro p hp
      exact h5 p (by rw [flatten_factors]; exact hp)
  refine ⟨⟨hi, by rw [h2]; exact h.pool, h.weighted.same hm ?_, h.same.trans hm⟩, h6⟩
  intro p hp f hf
  obtain ⟨g, k1, k2⟩ := h.weighted.exp p hp
  rcases h3 p with ⟨k3, _⟩ | ⟨g', w, k3, k4, k5⟩
  · rw [k1] at k3; cases k3
  · rw [k1] at k3; cases k3
    rw [hf] at k4; cases k4
    exact k5 k2

theorem Training.mild {s0 s s' : State F} (h : Training s0 s) (hm : Mild s s') : Training s0 s' := by
  refine ⟨hm.inv, hm.pool.trans h.pool, h.weighted.same hm.same ?_, h.same.trans hm.same⟩
  intro p hp f hf
  rw [hm.heap] at hf
  obtain ⟨g, k1, k2⟩ := h.weighted.exp p hp
  rw [hf] at k1; cases k1
  exact k2

/-- The samples of a batch are samples of the set. -/
theorem _root_.EFG.batch_mem {floorInt : F → Option Int} {set l : List (List Nat)} {percentage : F} {draw : Nat → Nat}
    (h : batch floorInt set percentage draw = .ok l) : ∀ c ∈ l, c ∈ set := by
  unfold batch at h
  split at h
  · unfold iteratorSamples at h
    split at h
    · cases h; exact fun c hc => hc
    · split at h
      · cases h
      · split at h
        · cases h
        · intro c hc
          obtain ⟨i, hi, rfl⟩ := List.getElem_of_mem hc
          have hf := Res.mapList_eq_ok.mp h
          have := hf.get (i := i) (by rw [hf.length_eq]; exact hi) hi
          simp only [List.get_eq_getElem] at this
          unfold Res.ofOption at this
          split at this
          · rename_i x hx
            cases this
            exact List.mem_of_getElem? hx
          · cases this
  · cases h; exact fun c hc => hc

/-- After the gradient of a random field there are no evidences. -/
theorem gradient_bare {ord : List Var → List Var} (hord : ∀ l, (ord l).Perm l) (sched : Sched) (samples : List (List Nat))
    {s : State F} (hs : Inv s) : match gradient ord sched samples s with
      | .ok s' _ => s'.evidences = []
      | .throw s' => s'.evidences = []
      | .ub => True := by
  unfold gradient
  have h0 : ∃ s1, (if s.evidences.isEmpty then .ok s () else removeAllEvidences ord s : Out (State F) Unit) = .ok s1 () ∧
      Inv s1 ∧ s1.evidences = [] := by
    by_cases he : s.evidences.isEmpty = true
    · exact ⟨s, by rw [if_pos he], hs, by simpa using he⟩
    · obtain ⟨s', h1, h2, h3, h4, h5, h6⟩ := removeAllEvidences_ok hord hs.toCore
      exact ⟨s', by rw [if_neg he]; exact h1, h2, h6⟩
  obtain ⟨s1, e1, h1, h1'⟩ := h0
  simp only [e1]
  have h2 := propagateBelief_asked (F := F) hord sched .sum s1.resetBelief h1.resetBelief
  cases hp : propagateBelief ord sched .sum s1.resetBelief with
  | ok s2 _ =>
    rw [hp] at h2
    have e : s2.evidences = [] := h2.evidences.trans h1'
    simp only [lift]
    cases Res.mapList (gradientTask ord samples s2) s2.tuners with
    | ok _ => exact e
    | throw => exact e
    | ub => trivial
  | throw s2 => rw [hp] at h2; exact h2.evidences.trans h1'
  | ub => trivial

end State
end EFG
