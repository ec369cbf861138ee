import Mathlib.Data.List.Nodup
import Mathlib.Data.List.Perm.Basic
import Mathlib.Data.List.Forall2
import Mathlib.Algebra.BigOperators.Group.List.Basic
import Verif.Spec.Basic
/- Invariant of groups. -/

namespace EFG

theorem Var.eqv_iff {a b : Var} : a.eqv b = true ↔ a.name = b.name ∧ a.size = b.size := by
  simp [Var.eqv]

theorem Var.eqv_refl (a : Var) : a.eqv a = true := by simp [Var.eqv]

theorem Var.eqv_comm (a b : Var) : a.eqv b = b.eqv a := by
  rw [Bool.eq_iff_iff, Var.eqv_iff, Var.eqv_iff]
  constructor <;> (rintro ⟨h1, h2⟩; exact ⟨h1.symm, h2.symm⟩)

theorem Var.eqv_trans {a b c : Var} (h1 : a.eqv b = true) (h2 : b.eqv c = true) :
    a.eqv c = true := by
  rw [Var.eqv_iff] at *
  exact ⟨h1.1.trans h2.1, h1.2.trans h2.2⟩

theorem distinct_iff {l : List Var} :
    Distinct l ↔ l.Pairwise (fun a b => a.eqv b = false) := by
  unfold Distinct
  refine ⟨fun h => h.imp ?_, fun h => h.imp ?_⟩ <;> intro a b hab
  · rw [← Var.eqv_iff] at hab; simpa using hab
  · rw [← Var.eqv_iff]; simp [hab]

instance (l : List Var) : Decidable (Distinct l) := by unfold Distinct; infer_instance

theorem Distinct.perm {l l' : List Var} (h : Distinct l) (hp : l.Perm l') : Distinct l' :=
  List.Pairwise.perm h hp (by rintro a b hab ⟨h1, h2⟩; exact hab ⟨h1.symm, h2.symm⟩)

theorem Distinct.nodup {l : List Var} (h : Distinct l) : l.Nodup :=
  List.Pairwise.imp (fun {a b} hab => by rintro rfl; simp at hab) h

theorem Distinct.eq_of_eqv {l : List Var} (h : Distinct l) {a b : Var} (ha : a ∈ l) (hb : b ∈ l)
    (hab : a.eqv b = true) : a = b := by
  rw [distinct_iff] at h
  induction l with
  | nil => cases ha
  | cons c l ih =>
    simp only [List.pairwise_cons] at h
    simp only [List.mem_cons] at ha hb
    rcases ha with rfl | ha <;> rcases hb with rfl | hb
    · rfl
    · simp [h.1 b hb] at hab
    · rw [Var.eqv_comm] at hab; simp [h.1 a ha] at hab
    · exact ih h.2 ha hb

namespace VarSet

theorem mem_iff {s : VarSet} {v : Var} : mem s v = true ↔ ∃ w ∈ s, w.eqv v = true := by
  simp [mem]

theorem mem_eq_false {s : VarSet} {v : Var} : mem s v = false ↔ ∀ w ∈ s, w.eqv v = false := by
  simp [mem]

theorem mem_append {s t : VarSet} {v : Var} : mem (s ++ t) v = (mem s v || mem t v) := by
  simp [mem]

theorem distinct_emplace {s : VarSet} (h : Distinct s) (v : Var) : Distinct (emplace s v) := by
  unfold emplace
  split
  · exact h
  · rename_i hm
    simp only [Bool.not_eq_true] at hm
    rw [mem_eq_false] at hm
    rw [distinct_iff] at h ⊢
    simp only [List.pairwise_append, List.pairwise_cons, List.not_mem_nil,
      false_imp_iff, implies_true, List.Pairwise.nil, and_self, true_and, List.mem_singleton,
      forall_eq]
    exact ⟨h, hm⟩

theorem foldl_emplace_distinct (l : List Var) {s : VarSet} (h : Distinct s) :
    Distinct (l.foldl emplace s) := by
  induction l generalizing s with
  | nil => exact h
  | cons v l ih => exact ih (distinct_emplace h v)

theorem emplace_length_le (s : VarSet) (v : Var) : (emplace s v).length ≤ s.length + 1 := by
  unfold emplace; split <;> simp

theorem foldl_emplace_length_le (l : List Var) (s : VarSet) :
    (l.foldl emplace s).length ≤ s.length + l.length := by
  induction l generalizing s with
  | nil => simp
  | cons v l ih =>
    have h1 := ih (emplace s v)
    have h2 := emplace_length_le s v
    simp only [List.foldl_cons, List.length_cons]
    omega

theorem foldl_emplace_eq (l : List Var) (s : VarSet)
    (h : (l.foldl emplace s).length = s.length + l.length) : l.foldl emplace s = s ++ l := by
  induction l generalizing s with
  | nil => simp
  | cons v l ih =>
    simp only [List.foldl_cons, List.length_cons] at h ⊢
    have h1 := foldl_emplace_length_le l (emplace s v)
    have h2 := emplace_length_le s v
    have h3 : (emplace s v).length = s.length + 1 := by omega
    have h4 : emplace s v = s ++ [v] := by
      unfold emplace at h3 ⊢
      split
      · rename_i hm; simp [hm] at h3
      · rfl
    rw [ih (emplace s v) (by omega), h4]
    simp

theorem foldl_emplace_of_distinct (l : List Var) (s : VarSet) (h : Distinct (s ++ l)) :
    l.foldl emplace s = s ++ l := by
  induction l generalizing s with
  | nil => simp
  | cons v l ih =>
    have h4 : emplace s v = s ++ [v] := by
      unfold emplace
      rw [if_neg]
      simp only [Bool.not_eq_true]
      rw [mem_eq_false]
      intro w hw
      exact (List.pairwise_append.1 (distinct_iff.1 h)).2.2 w hw v (by simp)
    rw [List.foldl_cons, h4, ih (s ++ [v]) (by simpa using h)]
    simp

theorem ofSoup_length_eq_iff (l : List Var) : l.length = (ofSoup l).length ↔ Distinct l := by
  constructor
  · intro h
    have := foldl_emplace_eq l [] (by simpa [ofSoup] using h.symm)
    have h2 := foldl_emplace_distinct l (s := []) List.Pairwise.nil
    rw [this] at h2
    simpa using h2
  · intro h
    have := foldl_emplace_of_distinct l [] (by simpa using h)
    simp [ofSoup, this]

theorem ofSoup_eq {l : List Var} (h : Distinct l) : ofSoup l = l := by
  have := foldl_emplace_of_distinct l [] (by simpa using h)
  simpa [ofSoup] using this

theorem ofSoup_length_le (l : List Var) : (ofSoup l).length ≤ l.length := by
  have := foldl_emplace_length_le l []
  simpa [ofSoup] using this

theorem same_iff {a b : VarSet} (ha : a.Nodup) : same a b = true ↔ a.Perm b := by
  simp only [same, Bool.and_eq_true, beq_iff_eq, List.all_eq_true, List.contains_iff_mem]
  constructor
  · rintro ⟨h1, h2⟩
    exact (List.subperm_of_subset ha h2).perm_of_length_le (by omega)
  · intro h
    exact ⟨h.length_eq, fun v hv => h.mem_iff.1 hv⟩

end VarSet

namespace Group

/-- Invariant of groups: not empty, pairwise different variables, and the set holds the listed
variables. -/
structure WF (g : Group) : Prop where
  ne : g.group ≠ []
  distinct : Distinct g.group
  perm : g.sorted.Perm g.group

theorem ofSoup_eq_ok {soup : List Var} {g : Group} :
    ofSoup soup = .ok g ↔ soup ≠ [] ∧ Distinct soup ∧ g = ⟨soup, soup⟩ := by
  unfold ofSoup
  split
  · rename_i h
    simp only [List.isEmpty_iff] at h
    simp [h]
  · rename_i h
    simp only [List.isEmpty_iff] at h
    split
    · rename_i h'
      have : ¬ Distinct soup := by
        rw [← VarSet.ofSoup_length_eq_iff]; exact h'
      simp [this]
    · rename_i h'
      have hd : Distinct soup := by
        rw [← VarSet.ofSoup_length_eq_iff]; simpa using h'
      simp only [Res.ok.injEq, VarSet.ofSoup_eq hd]
      constructor
      · rintro rfl; exact ⟨h, hd, rfl⟩
      · rintro ⟨_, _, rfl⟩; rfl

theorem ofSoup_ne_ub (soup : List Var) : ofSoup soup ≠ .ub := by
  unfold ofSoup
  split
  · simp
  · split <;> simp

theorem WF.of_soup {soup : List Var} {g : Group} (h : ofSoup soup = .ok g) : g.WF := by
  obtain ⟨h1, h2, rfl⟩ := ofSoup_eq_ok.1 h
  exact ⟨h1, h2, List.Perm.refl _⟩

theorem WF.single (v : Var) : (single v).WF := by
  refine ⟨by simp [Group.single], by simp [Group.single, Distinct], ?_⟩
  simp [Group.single, VarSet.emplace, VarSet.mem]

theorem WF.add {g g' : Group} {v : Var} (h : g.WF) (ha : add v g = .ok g' ()) : g'.WF := by
  unfold Group.add at ha
  split at ha
  · cases ha
  · rename_i hm
    simp only [Bool.not_eq_true] at hm
    simp only [Out.ok.injEq, and_true] at ha
    subst ha
    have hm' := VarSet.mem_eq_false.1 hm
    refine ⟨by simp, ?_, ?_⟩
    · rw [distinct_iff]
      simp only [List.pairwise_append, List.pairwise_cons, List.not_mem_nil,
        false_imp_iff, implies_true, List.Pairwise.nil, and_self, true_and, List.mem_singleton,
        forall_eq]
      exact ⟨distinct_iff.1 h.distinct, fun a ha => hm' a (h.perm.mem_iff.2 ha)⟩
    · simp only [VarSet.emplace, hm, Bool.false_eq_true, if_false]
      exact h.perm.append_right _

theorem replaceCheck_ok_iff {ns os : List Var} :
    replaceCheck ns os = .ok () ↔
      ns.length ≤ os.length ∧ List.Forall₂ (fun n o => n.size = o.size) ns (os.take ns.length) := by
  induction ns generalizing os with
  | nil => simp [replaceCheck]
  | cons n ns ih =>
    cases os with
    | nil => simp [replaceCheck]
    | cons o os =>
      simp only [replaceCheck]
      split
      · rename_i h
        simp [h]
      · rename_i h
        simp only [ne_eq, not_not] at h
        rw [ih]
        simp [h]

theorem replaceVariables_eq_ok {g g' : Group} {newVars : List Var} :
    replaceVariables newVars g = .ok g' () ↔
      Distinct newVars ∧ List.Forall₂ (fun n o => n.size = o.size) newVars g.group ∧
        g' = ⟨newVars, newVars⟩ := by
  unfold replaceVariables
  simp only
  split
  · rename_i h
    constructor
    · intro h; cases h
    · rintro ⟨hd, hf, _⟩
      rw [VarSet.ofSoup_eq hd] at h
      exact absurd (List.Forall₂.length_eq hf) h
  · rename_i h
    simp only [ne_eq, not_not] at h
    have hle := VarSet.ofSoup_length_le newVars
    cases hc : replaceCheck newVars g.group with
    | ok u =>
      obtain ⟨h1, h2⟩ := replaceCheck_ok_iff.1 hc
      have hlen : newVars.length = g.group.length := by omega
      have hd : Distinct newVars := by
        rw [← VarSet.ofSoup_length_eq_iff]; omega
      rw [hlen, List.take_length] at h2
      simp only [Out.ok.injEq, and_true, VarSet.ofSoup_eq hd]
      constructor
      · rintro rfl; exact ⟨hd, h2, rfl⟩
      · rintro ⟨_, _, rfl⟩; rfl
    | throw =>
      simp only [reduceCtorEq, false_iff, not_and]
      intro hd hf
      have hlen := List.Forall₂.length_eq hf
      have := replaceCheck_ok_iff.2 ⟨Nat.le_of_eq hlen, by rw [hlen, List.take_length]; exact hf⟩
      rw [this] at hc; cases hc
    | ub =>
      simp only [reduceCtorEq, false_iff, not_and]
      intro hd hf
      have hlen := List.Forall₂.length_eq hf
      have := replaceCheck_ok_iff.2 ⟨Nat.le_of_eq hlen, by rw [hlen, List.take_length]; exact hf⟩
      rw [this] at hc; cases hc

theorem replaceVariables_throw {g g' : Group} {newVars : List Var}
    (h : replaceVariables newVars g = .throw g') : g' = g := by
  unfold replaceVariables at h
  simp only at h
  split at h
  · cases h; rfl
  · split at h
    · cases h
    · cases h; rfl
    · cases h

theorem WF.replace {g g' : Group} {newVars : List Var} (h : g.WF)
    (hr : replaceVariables newVars g = .ok g' ()) : g'.WF ∧ g'.sizes = g.sizes := by
  obtain ⟨hd, hf, rfl⟩ := replaceVariables_eq_ok.1 hr
  have hlen := List.Forall₂.length_eq hf
  refine ⟨⟨?_, hd, List.Perm.refl _⟩, ?_⟩
  · intro h0
    simp only at h0
    subst h0
    have : g.group = [] := by
      simp only [List.length_nil] at hlen
      exact List.length_eq_zero_iff.1 hlen.symm
    exact h.ne this
  · simp only [Group.sizes]
    clear hr hd hlen h
    generalize g.group = os at hf
    induction hf with
    | nil => rfl
    | cons h _ ih => simp [h, ih]

theorem size_eq (g : Group) : g.size = (g.group.map Var.size).prod := by
  have : ∀ (l : List Var) (a : Nat), l.foldl (fun s v => s * v.size) a = a * (l.map Var.size).prod := by
    intro l
    induction l with
    | nil => simp
    | cons v l ih => intro a; simp [ih, Nat.mul_assoc]
  simp [size, this]

end Group
end EFG
