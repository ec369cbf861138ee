import Verif.Lemmas.CrfDefined
import Verif.Lemmas.Trainer
/-
Training is defined.
-/

set_option linter.unusedSectionVars false

namespace EFG
variable {F D : Type} [Arith F]

theorem batch_ne_ub {floorInt : F → Option Int} {set : List (List Nat)} {info : TrainInfo F}
    (h : info.Sensible floorInt set) (draw : Nat → Nat) : batch floorInt set info.percentage draw ≠ .ub := by
  obtain ⟨hne, h⟩ := h
  unfold batch
  split
  · rename_i h1
    unfold iteratorSamples
    rw [if_neg (by simpa using h1)]
    split
    · exact (nomatch ·)
    · rename_i h2
      simp only [Bool.or_eq_true, not_or, Bool.not_eq_true] at h2
      simp only [Bool.not_eq_true'] at h1
      rcases h with h | h | h | ⟨k, h⟩
      · rw [h1] at h; cases h
      · rw [h2.1] at h; cases h
      · rw [h2.2] at h; cases h
      · rw [h]
        simp only
        have hall : ∀ p ∈ drawPositions set.length ((List.range (max 0 k).toNat).map draw), Res.ofOption set[p]? =
            .ok (set[p]?.getD []) := by
          intro p hp
          obtain ⟨r, _, rfl⟩ := List.mem_map.mp hp
          have : r % set.length < set.length := Nat.mod_lt _ (List.length_pos_of_ne_nil hne)
          rw [List.getElem?_eq_getElem this]
          rfl
        rw [Res.mapList_ok hall]
        exact (nomatch ·)
  · exact (nomatch ·)

/-- If no call is undefined in the states of a session, the session is not. -/
theorem Session.ne_ub {cv : Doubles F D} {samples : Nat → Res (List (List Nat))}
    {grad : Nat → List (List Nat) → M (State F) (List F)} {P : State F → Prop}
    (hset : ∀ ws s s', P s → State.setWeights ws s = .ok s' () → P s')
    (hok : ∀ k l s s' g, P s → samples k = .ok l → grad k l s = .ok s' g → P s')
    (hthrow : ∀ k l s s', P s → samples k = .ok l → grad k l s = .throw s' → P s')
    (hread : ∀ s, P s → s.getWeights ≠ .ub) (hsam : ∀ k, samples k ≠ .ub)
    (hgrad : ∀ k l s, P s → samples k = .ok l → grad k l s ≠ .ub)
    {opt : Optimiser D} {k : Nat} {s : State F} {es : List (Event F)} {o : Out (State F) Unit}
    (h : Session cv samples grad opt k s es o) (hs : P s) : o ≠ .ub := by
  induction h with
  | stop => exact (nomatch ·)
  | fail => exact (nomatch ·)
  | read _ _ ih => exact ih hs
  | readThrow _ => exact (nomatch ·)
  | readUb h => exact absurd h (hread _ hs)
  | set hw _ ih => exact ih (hset _ _ _ hs hw)
  | refused hw _ ih => exact ih (by rw [setWeights_throw hw]; exact hs)
  | setUb h => unfold State.setWeights at h; split at h <;> cases h
  | gradient h1 h2 _ ih => exact ih (hok _ _ _ _ _ hs h1 h2)
  | gradientThrow h1 h2 _ ih => exact ih (hthrow _ _ _ _ hs h1 h2)
  | gradientUb h1 h2 => exact absurd h2 (hgrad _ _ _ hs h1)
  | noSamples _ _ ih => exact ih hs
  | samplesUb h => exact absurd h (hsam _)

namespace State

theorem Weighted.getWeights {s : State F} (h : Weighted s) : s.getWeights ≠ .ub := by
  have key : ∀ t ∈ s.tuners, ∃ w, s.tunerWeight t = .ok w := by
    intro t ht
    cases t with
    | nil => exact absurd rfl (h.ne ht)
    | cons b t =>
      obtain ⟨f, h1, h2⟩ := h.exp _ (h.mem ht (b := b) (by simp))
      obtain ⟨w, h3⟩ := Option.isSome_iff_exists.mp h2
      refine ⟨w, ?_⟩
      show s.weightOf b.factor = _
      unfold weightOf
      rw [h1]
      simp only
      rw [h3]; rfl
  have hall : ∀ t ∈ s.tuners, s.tunerWeight t = .ok (match s.tunerWeight t with | .ok w => w | _ => Arith.zero) := by
    intro t ht
    obtain ⟨w, hw⟩ := key t ht
    rw [hw]
  unfold State.getWeights
  rw [Res.mapList_ok hall]
  exact (nomatch ·)

theorem drop_ok {α : Type} {x : M (State F) α} {s s' : State F} {a : α} (h : x s = .ok s' a) : GOp.drop x s = .ok s' () := by
  unfold GOp.drop; rw [h]

theorem drop_throw {α : Type} {x : M (State F) α} {s s' : State F} (h : x s = .throw s') : GOp.drop x s = .throw s' := by
  unfold GOp.drop; rw [h]

theorem ne_ub_of_drop {α : Type} {x : M (State F) α} {s : State F} (h : GOp.drop x s ≠ .ub) : x s ≠ .ub := by
  intro e
  apply h
  unfold GOp.drop
  rw [e]

end State
end EFG
