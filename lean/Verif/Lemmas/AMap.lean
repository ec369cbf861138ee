import Mathlib.Data.List.Basic
import Mathlib.Data.List.Nodup
import Verif.Model.Graph
/- Association lists. -/

set_option linter.unusedSectionVars false

namespace EFG
namespace AMap
variable {α : Type u} {β : Type v} [DecidableEq α]

@[simp] theorem keys_nil : keys ([] : List (α × β)) = [] := rfl

@[simp] theorem keys_cons (e : α × β) (m : List (α × β)) : keys (e :: m) = e.1 :: keys m := rfl

@[simp] theorem find?_nil (q : α) : find? ([] : List (α × β)) q = none := rfl

theorem find?_cons (k : α) (x : β) (m : List (α × β)) (q : α) :
    find? ((k, x) :: m) q = if k = q then some x else find? m q := rfl

theorem find?_append (m m' : List (α × β)) (q : α) :
    find? (m ++ m') q = (find? m q).or (find? m' q) := by
  induction m with
  | nil => simp
  | cons e m ih =>
    obtain ⟨k, x⟩ := e
    simp only [List.cons_append, find?_cons, ih]
    split <;> simp

theorem find?_erase (m : List (α × β)) (k q : α) :
    find? (erase m k) q = if k = q then none else find? m q := by
  induction m with
  | nil => simp [erase]
  | cons e m ih =>
    obtain ⟨k', x⟩ := e
    simp only [erase, List.filter_cons] at *
    by_cases h : k' = k
    · subst h
      simp only [decide_true, Bool.not_true, Bool.false_eq_true, if_false, ih, find?_cons]
      split <;> simp_all
    · simp only [h, decide_false, Bool.not_false, if_true, find?_cons, ih]
      split <;> rename_i h1
      · subst h1; simp [show ¬ k = k' from fun h' => h h'.symm]
      · rfl

theorem find?_set (m : List (α × β)) (k q : α) (x : β) :
    find? (set m k x) q = if k = q then some x else find? m q := by
  induction m with
  | nil => simp [set, find?_cons]
  | cons e m ih =>
    obtain ⟨k', x'⟩ := e
    simp only [set]
    split <;> rename_i h
    · subst h; simp only [find?_cons]; split <;> rfl
    · simp only [find?_cons, ih]
      by_cases h1 : k' = q
      · subst h1; simp [show ¬ k = k' from fun h' => h h'.symm]
      · simp [h1]

theorem find?_modify (m : List (α × β)) (k q : α) (f : β → β) :
    find? (modify m k f) q = if k = q then (find? m q).map f else find? m q := by
  induction m with
  | nil => simp [modify]
  | cons e m ih =>
    obtain ⟨k', x'⟩ := e
    simp only [modify]
    split <;> rename_i h
    · subst h; simp only [find?_cons]; split <;> simp_all
    · simp only [find?_cons, ih]
      by_cases h1 : k' = q
      · subst h1; simp [show ¬ k = k' from fun h' => h h'.symm]
      · simp [h1]

@[simp] theorem keys_modify (m : List (α × β)) (k : α) (f : β → β) : keys (modify m k f) = keys m := by
  induction m with
  | nil => rfl
  | cons e m ih =>
    obtain ⟨k', x'⟩ := e
    simp only [modify]
    split
    · rfl
    · simpa [keys] using ih

theorem keys_erase (m : List (α × β)) (k : α) :
    keys (erase m k) = (keys m).filter (fun q => !decide (q = k)) := by
  simp only [keys, erase, List.filter_map]; rfl

theorem keys_append (m m' : List (α × β)) : keys (m ++ m') = keys m ++ keys m' := by simp [keys]

theorem find?_eq_none {m : List (α × β)} {k : α} : find? m k = none ↔ k ∉ keys m := by
  induction m with
  | nil => simp [keys]
  | cons e m ih =>
    obtain ⟨k', x'⟩ := e
    rw [find?_cons, keys_cons, List.mem_cons, not_or]
    split <;> rename_i h
    · simp [h]
    · rw [ih]
      exact ⟨fun h1 => ⟨fun h' => h h'.symm, h1⟩, fun h1 => h1.2⟩

theorem mem_keys {m : List (α × β)} {k : α} : k ∈ keys m ↔ ∃ x, find? m k = some x := by
  rw [← not_iff_not, ← find?_eq_none, not_exists]
  constructor
  · intro h x; simp [h]
  · intro h; cases hf : find? m k with
    | none => rfl
    | some x => exact absurd hf (h x)

theorem find?_mem {m : List (α × β)} {k : α} {x : β} (h : find? m k = some x) : (k, x) ∈ m := by
  induction m with
  | nil => simp at h
  | cons e m ih =>
    obtain ⟨k', x'⟩ := e
    rw [find?_cons] at h
    split at h <;> rename_i h1
    · simp_all
    · exact List.mem_cons_of_mem _ (ih h)

theorem find?_of_mem {m : List (α × β)} {k : α} {x : β} (hn : (keys m).Nodup) (h : (k, x) ∈ m) :
    find? m k = some x := by
  induction m with
  | nil => simp at h
  | cons e m ih =>
    obtain ⟨k', x'⟩ := e
    simp only [keys, List.map_cons, List.nodup_cons] at hn
    rw [find?_cons]
    rcases List.mem_cons.mp h with h | h
    · simp_all
    · have : k' ≠ k := by
        rintro rfl
        exact hn.1 (List.mem_map.mpr ⟨_, h, rfl⟩)
      rw [if_neg this]
      exact ih hn.2 h

theorem keys_set (m : List (α × β)) (k : α) (x : β) :
    keys (set m k x) = if k ∈ keys m then keys m else keys m ++ [k] := by
  induction m with
  | nil => simp [set, keys]
  | cons e m ih =>
    obtain ⟨k', x'⟩ := e
    simp only [set]
    split <;> rename_i h
    · subst h; simp [keys]
    · have h' : ¬ k = k' := fun h' => h h'.symm
      rw [keys_cons, ih, keys_cons]
      by_cases hk : k ∈ keys m <;> simp [hk, h']

theorem nodup_set {m : List (α × β)} (h : (keys m).Nodup) (k : α) (x : β) :
    (keys (set m k x)).Nodup := by
  rw [keys_set]
  split
  · exact h
  · rename_i hk
    exact List.Nodup.append h (by simp) (by simpa using hk)

theorem nodup_erase {m : List (α × β)} (h : (keys m).Nodup) (k : α) : (keys (erase m k)).Nodup := by
  rw [keys_erase]; exact h.filter _

theorem keys_map (m : List (α × β)) (f : α → β → β') : keys (m.map (fun e => (e.1, f e.1 e.2))) = keys m := by
  simp [keys]

theorem find?_map {β' : Type w} (m : List (α × β)) (f : β → β') (q : α) :
    find? (m.map (fun e => (e.1, f e.2))) q = (find? m q).map f := by
  induction m with
  | nil => rfl
  | cons e m ih =>
    obtain ⟨k', x'⟩ := e
    simp only [List.map_cons, find?_cons, ih]
    split <;> rfl

end AMap
end EFG
