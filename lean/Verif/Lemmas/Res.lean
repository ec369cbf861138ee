import Mathlib.Data.List.Forall2
import Verif.Model.Outcome
/- Lemmas about runs over lists. -/

namespace EFG.Res

theorem mapList_ok {α : Type u} {β : Type v} {f : α → Res β} {g : α → β} {l : List α}
    (h : ∀ a ∈ l, f a = .ok (g a)) : mapList f l = .ok (l.map g) := by
  induction l with
  | nil => rfl
  | cons a l ih =>
    simp only [mapList, h a (by simp), ih (fun b hb => h b (by simp [hb])), List.map_cons]

theorem mapList_eq_ok {α : Type u} {β : Type v} {f : α → Res β} {l : List α} {l' : List β} :
    mapList f l = .ok l' ↔ List.Forall₂ (fun a b => f a = .ok b) l l' := by
  induction l generalizing l' with
  | nil =>
    simp only [mapList, ok.injEq]
    constructor
    · rintro rfl; exact .nil
    · intro h; cases h; rfl
  | cons a l ih =>
    simp only [mapList]
    constructor
    · intro h
      cases hf : f a with
      | ok b =>
        rw [hf] at h
        cases hm : mapList f l with
        | ok bs =>
          rw [hm] at h
          simp only [ok.injEq] at h
          subst h
          exact .cons hf (ih.1 hm)
        | throw => rw [hm] at h; cases h
        | ub => rw [hm] at h; cases h
      | throw => rw [hf] at h; cases h
      | ub => rw [hf] at h; cases h
    · intro h
      cases h with
      | cons h1 h2 => rw [h1, ih.2 h2]

theorem mapList_cons {α : Type u} {β : Type v} (f : α → Res β) (a : α) (l : List α) :
    mapList f (a :: l) = (match f a with
      | .ok b => (match mapList f l with
        | .ok bs => .ok (b :: bs)
        | .throw => .throw
        | .ub => .ub)
      | .throw => .throw
      | .ub => .ub) := rfl

/-- A map over a list which fails nowhere with `ub` is not `ub`. -/
theorem mapList_ne_ub {α : Type u} {β : Type v} {f : α → Res β} {l : List α}
    (h : ∀ a ∈ l, f a ≠ .ub) : mapList f l ≠ .ub := by
  induction l with
  | nil => simp [mapList]
  | cons a l ih =>
    have h1 := h a (by simp)
    have h2 := ih (fun b hb => h b (by simp [hb]))
    rw [mapList_cons]
    cases hf : f a with
    | ok b =>
      cases hm : mapList f l with
      | ok bs => simp
      | throw => simp
      | ub => exact absurd hm h2
    | throw => simp
    | ub => exact absurd hf h1

@[simp] theorem foldList_nil {α : Type u} {β : Type v} (f : β → α → Res β) (b : β) :
    foldList f b [] = .ok b := rfl

theorem foldList_cons_ok {α : Type u} {β : Type v} {f : β → α → Res β} {b b' : β} {a : α}
    {l : List α} (h : f b a = .ok b') : foldList f b (a :: l) = foldList f b' l := by
  simp [foldList, h]

theorem foldList_append {α : Type u} {β : Type v} (f : β → α → Res β) (b : β) (l l' : List α) :
    foldList f b (l ++ l') = (match foldList f b l with
      | .ok b' => foldList f b' l'
      | .throw => .throw
      | .ub => .ub) := by
  induction l generalizing b with
  | nil => simp
  | cons a l ih =>
    simp only [List.cons_append, foldList]
    cases f b a with
    | ok b' => exact ih b'
    | throw => rfl
    | ub => rfl

/-- Folding with an invariant which each step keeps. -/
theorem foldList_inv {α : Type u} {β : Type v} {f : β → α → Res β} (P : β → Prop)
    {l : List α} (hstep : ∀ b, P b → ∀ a ∈ l, ∃ b', f b a = .ok b' ∧ P b') {b : β} (hb : P b) :
    ∃ b', foldList f b l = .ok b' ∧ P b' := by
  induction l generalizing b with
  | nil => exact ⟨b, rfl, hb⟩
  | cons a l ih =>
    obtain ⟨b', h1, h2⟩ := hstep b hb a (by simp)
    obtain ⟨b'', h3, h4⟩ := ih (fun b hb a ha => hstep b hb a (by simp [ha])) h2
    exact ⟨b'', by rw [foldList_cons_ok h1, h3], h4⟩

theorem foldList_pure {α : Type u} {β : Type v} {f : β → α → Res β} {g : β → α → β} {l : List α}
    (h : ∀ b, ∀ a ∈ l, f b a = .ok (g b a)) (b : β) : foldList f b l = .ok (l.foldl g b) := by
  induction l generalizing b with
  | nil => rfl
  | cons a l ih =>
    rw [foldList_cons_ok (h b a (by simp)), ih (fun b a ha => h b a (by simp [ha])), List.foldl_cons]

theorem foldList_congr {α : Type u} {β : Type v} {f g : β → α → Res β} {l : List α}
    (h : ∀ b, ∀ a ∈ l, f b a = g b a) (b : β) : foldList f b l = foldList g b l := by
  induction l generalizing b with
  | nil => rfl
  | cons a l ih =>
    simp only [foldList, h b a (by simp)]
    cases g b a with
    | ok b' => exact ih (fun b a ha => h b a (by simp [ha])) b'
    | throw => rfl
    | ub => rfl

end EFG.Res
