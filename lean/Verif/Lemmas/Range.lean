import Mathlib.Data.List.Basic
import Mathlib.Data.List.Nodup
import Mathlib.Data.List.Forall2
import Mathlib.Algebra.BigOperators.Group.List.Basic
import Mathlib.Tactic.Ring
import Mathlib.Tactic.Linarith
import Verif.Model.Range
import Verif.Spec.Basic
import Verif.Lemmas.Res
/- The odometer of `GroupRange` enumerates the lexicographic list of the combinations. -/

namespace EFG

theorem Valid.length {sizes comb : List Nat} (h : Valid sizes comb) :
    comb.length = sizes.length := (List.Forall₂.length_eq h).symm

theorem valid_nil_iff {comb : List Nat} : Valid [] comb ↔ comb = [] := by
  simp [Valid]

theorem valid_cons_iff {s : Nat} {ss comb : List Nat} :
    Valid (s :: ss) comb ↔ ∃ c cs, c < s ∧ Valid ss cs ∧ comb = c :: cs := by
  simp only [Valid, List.forall₂_cons_left_iff]

instance decValid : (sizes comb : List Nat) → Decidable (Valid sizes comb)
  | [], [] => isTrue .nil
  | [], _ :: _ => isFalse (by intro h; cases h)
  | _ :: _, [] => isFalse (by intro h; cases h)
  | s :: ss, c :: cs =>
    match decValid ss cs with
    | isTrue h =>
      if h' : c < s then isTrue (.cons h' h) else isFalse (by intro hh; cases hh; contradiction)
    | isFalse h => isFalse (by intro hh; cases hh; contradiction)

/-- The combinations of the given sizes in lexicographic order, last entry fastest. -/
def lex : List Nat → List (List Nat)
  | [] => [[]]
  | s :: ss => (List.range s).flatMap (fun k => (lex ss).map (k :: ·))

theorem mem_lex {sizes comb : List Nat} : comb ∈ lex sizes ↔ Valid sizes comb := by
  induction sizes generalizing comb with
  | nil => simp [lex, valid_nil_iff]
  | cons s ss ih =>
    simp only [lex, List.mem_flatMap, List.mem_range, List.mem_map, valid_cons_iff, ih]
    constructor
    · rintro ⟨c, hc, cs, hcs, rfl⟩; exact ⟨c, cs, hc, hcs, rfl⟩
    · rintro ⟨c, cs, hc, hcs, rfl⟩; exact ⟨c, hc, cs, hcs, rfl⟩

theorem lex_length (sizes : List Nat) : (lex sizes).length = sizes.prod := by
  induction sizes with
  | nil => simp [lex]
  | cons s ss ih =>
    simp [lex, List.length_flatMap, ih]

theorem lex_sorted (sizes : List Nat) : (lex sizes).Pairwise LexLt := by
  induction sizes with
  | nil => simp [lex]
  | cons s ss ih =>
    simp only [lex, List.pairwise_flatMap]
    constructor
    · intro k _
      rw [List.pairwise_map]
      exact ih.imp (fun h => List.Lex.cons h)
    · refine List.Pairwise.imp ?_ (List.pairwise_lt_range)
      intro a b hab x hx y hy
      simp only [List.mem_map] at hx hy
      obtain ⟨x', _, rfl⟩ := hx
      obtain ⟨y', _, rfl⟩ := hy
      exact List.Lex.rel hab

theorem lexLt_irrefl (a : List Nat) : ¬ LexLt a a := by
  induction a with
  | nil => intro h; cases h
  | cons x a ih =>
    intro h
    cases h with
    | rel h => exact absurd h (lt_irrefl _)
    | cons h => exact ih h

theorem lex_nodup (sizes : List Nat) : (lex sizes).Nodup :=
  (lex_sorted sizes).imp (fun {a b} h => by rintro rfl; exact lexLt_irrefl a h)

theorem prod_pos_nat {l : List Nat} (h : ∀ s ∈ l, 0 < s) : 0 < l.prod := by
  induction l with
  | nil => simp
  | cons s l ih =>
    rw [List.prod_cons]
    exact Nat.mul_pos (h s (by simp)) (ih (fun t ht => h t (by simp [ht])))

/-- The successor of a combination. -/
def nextComb : List Nat → List Nat → Option (List Nat)
  | s :: ss, c :: cs =>
    match nextComb ss cs with
    | some cs' => some (c :: cs')
    | none => if c + 1 = s then none else some ((c + 1) :: List.replicate ss.length 0)
  | _, _ => none

theorem nextComb_snoc (ss : List Nat) (s : Nat) (cs : List Nat) (c : Nat)
    (hl : cs.length = ss.length) :
    nextComb (ss ++ [s]) (cs ++ [c]) =
      if c + 1 = s then (nextComb ss cs).map (· ++ [0]) else some (cs ++ [c + 1]) := by
  induction ss generalizing cs with
  | nil =>
    have : cs = [] := by simpa using hl
    subst this
    simp [nextComb]
  | cons t ts ih =>
    cases cs with
    | nil => simp at hl
    | cons d ds =>
      have hl' : ds.length = ts.length := by simpa using hl
      simp only [List.cons_append, nextComb, ih ds hl']
      by_cases h : c + 1 = s
      · simp only [h, if_true]
        cases nextComb ts ds with
        | some x => simp
        | none =>
          by_cases hd : d + 1 = t
          · simp [hd]
          · simp [hd, List.replicate_succ']
      · simp [h]

theorem carry_eq (k : Nat) (ss cs ts suf : List Nat) (hs : ss.length = k + 1)
    (hc : cs.length = k + 1) :
    GroupRange.carry (ss ++ ts) k (cs ++ suf) =
      .ok ((nextComb ss cs).map (· ++ suf)) := by
  induction k generalizing ss cs ts suf with
  | zero =>
    obtain ⟨s, rfl⟩ : ∃ s, ss = [s] := List.length_eq_one_iff.1 hs
    obtain ⟨c, rfl⟩ : ∃ c, cs = [c] := List.length_eq_one_iff.1 hc
    simp only [GroupRange.carry, List.cons_append, List.nil_append, List.getElem?_cons_zero,
      nextComb, List.set_cons_zero]
    by_cases h : c + 1 = s <;> simp [h]
  | succ k ih =>
    obtain ⟨ss', s, rfl⟩ : ∃ ss' s, ss = ss' ++ [s] :=
      ⟨ss.dropLast, ss.getLast (by intro h; simp [h] at hs), (List.dropLast_append_getLast _).symm⟩
    obtain ⟨cs', c, rfl⟩ : ∃ cs' c, cs = cs' ++ [c] :=
      ⟨cs.dropLast, cs.getLast (by intro h; simp [h] at hc), (List.dropLast_append_getLast _).symm⟩
    have hs' : ss'.length = k + 1 := by simpa using hs
    have hc' : cs'.length = k + 1 := by simpa using hc
    have e1 : (cs' ++ [c] ++ suf)[k + 1]? = some c := by
      rw [List.append_assoc, List.getElem?_append_right (by omega)]; simp [hc']
    have e2 : (ss' ++ [s] ++ ts)[k + 1]? = some s := by
      rw [List.append_assoc, List.getElem?_append_right (by omega)]; simp [hs']
    have e3 : ∀ x, (cs' ++ [c] ++ suf).set (k + 1) x = cs' ++ (x :: suf) := by
      intro x
      rw [List.append_assoc, List.set_append_right _ _ (by omega)]; simp [hc']
    simp only [GroupRange.carry, e1, e2, e3, nextComb_snoc ss' s cs' c (by omega)]
    by_cases h : c + 1 = s
    · simp only [h, if_true]
      rw [List.append_assoc, ih ss' cs' ([s] ++ ts) (0 :: suf) hs' hc']
      cases nextComb ss' cs' <;> simp
    · simp [h]

theorem carry_full (sizes comb : List Nat) (k : Nat) (hs : sizes.length = k + 1)
    (hc : comb.length = k + 1) :
    GroupRange.carry sizes k comb = .ok (nextComb sizes comb) := by
  have := carry_eq k sizes comb [] [] hs hc
  simpa using this

/-- `l` is the list obtained from `c` by following `nx` until it gives `none`. -/
inductive Enum (nx : List Nat → Option (List Nat)) : List Nat → List (List Nat) → Prop where
  | last {c} : nx c = none → Enum nx c [c]
  | step {c d l} : nx c = some d → Enum nx d l → Enum nx c (c :: l)

theorem enum_block {s : Nat} {ss : List Nat} {k : Nat} {tail : List (List Nat)}
    (htail : (k + 1 = s ∧ tail = []) ∨ (k + 1 ≠ s ∧
      Enum (nextComb (s :: ss)) ((k + 1) :: List.replicate ss.length 0) tail))
    {d : List Nat} {l : List (List Nat)} (h : Enum (nextComb ss) d l) :
    Enum (nextComb (s :: ss)) (k :: d) (l.map (k :: ·) ++ tail) := by
  induction h with
  | last hc =>
    rename_i c
    rcases htail with ⟨h1, h2⟩ | ⟨h1, h2⟩
    · subst h2
      exact .last (by simp [nextComb, hc, h1])
    · exact .step (by simp [nextComb, hc, h1]) h2
  | step hc _ ih => exact .step (by simp [nextComb, hc]) ih

theorem enum_lex (sizes : List Nat) (hpos : ∀ s ∈ sizes, 0 < s) :
    Enum (nextComb sizes) (List.replicate sizes.length 0) (lex sizes) := by
  induction sizes with
  | nil => exact .last rfl
  | cons s ss ih =>
    have ih := ih (fun t ht => hpos t (by simp [ht]))
    have hs := hpos s (by simp)
    have key : ∀ n k, k + (n + 1) = s → Enum (nextComb (s :: ss))
        (k :: List.replicate ss.length 0)
        ((List.range' k (n + 1)).flatMap (fun k => (lex ss).map (k :: ·))) := by
      intro n
      induction n with
      | zero =>
        intro k hk
        have := enum_block (s := s) (ss := ss) (k := k) (tail := []) (.inl ⟨by omega, rfl⟩) ih
        simpa using this
      | succ n ihn =>
        intro k hk
        have h1 := ihn (k + 1) (by omega)
        have := enum_block (s := s) (ss := ss) (k := k) (.inr ⟨by omega, h1⟩) ih
        rw [List.range'_succ]
        simpa using this
    have := key (s - 1) 0 (by omega)
    simp only [List.length_cons, List.replicate_succ, lex, List.range_eq_range']
    have e : s - 1 + 1 = s := by omega
    rw [e] at this
    exact this

theorem nextComb_length {sizes comb c : List Nat} (hl : comb.length = sizes.length)
    (h : nextComb sizes comb = some c) : c.length = sizes.length := by
  induction sizes generalizing comb c with
  | nil => simp [nextComb] at h
  | cons s ss ih =>
    cases comb with
    | nil => simp at hl
    | cons d ds =>
      have hl' : ds.length = ss.length := by simpa using hl
      simp only [nextComb] at h
      cases hn : nextComb ss ds with
      | some x =>
        rw [hn] at h
        simp only [Option.some.injEq] at h
        subst h
        simp [ih hl' hn]
      | none =>
        rw [hn] at h
        simp only at h
        split at h
        · cases h
        · simp only [Option.some.injEq] at h
          subst h; simp

theorem next_eq (sizes comb : List Nat) (eor : Bool) (hne : sizes ≠ [])
    (hl : comb.length = sizes.length) :
    GroupRange.next ⟨some ⟨sizes, comb, eor⟩⟩ =
      .ok ⟨(nextComb sizes comb).map (fun c => ⟨sizes, c, eor⟩)⟩ () := by
  obtain ⟨k, hk⟩ : ∃ k, sizes.length = k + 1 := by
    cases sizes with
    | nil => exact absurd rfl hne
    | cons s ss => exact ⟨ss.length, by simp⟩
  simp only [GroupRange.next]
  split
  · omega
  · rename_i k' hk'
    have : k' = k := by omega
    subst this
    rw [carry_full sizes comb k' hk (by omega)]
    cases nextComb sizes comb <;> simp

theorem visitFrom_enum (sizes : List Nat) (hne : sizes ≠ []) {comb : List Nat}
    {l : List (List Nat)} (h : Enum (nextComb sizes) comb l) (hl : comb.length = sizes.length)
    (fuel : Nat) (hf : l.length ≤ fuel) :
    GroupRange.visitFrom fuel ⟨some ⟨sizes, comb, false⟩⟩ = .ok l := by
  induction h generalizing fuel with
  | last hc =>
    cases fuel with
    | zero => simp at hf
    | succ fuel =>
      cases fuel with
      | zero =>
        simp [GroupRange.visitFrom, GroupRange.isEqual, GroupRange.endOf, GroupRange.deref,
          next_eq sizes _ false hne hl, hc]
      | succ fuel =>
        simp [GroupRange.visitFrom, GroupRange.isEqual, GroupRange.endOf, GroupRange.deref,
          next_eq sizes _ false hne hl, hc]
  | step hc _ ih =>
    cases fuel with
    | zero => simp at hf
    | succ fuel =>
      have := ih (nextComb_length hl hc) fuel (by simpa using hf)
      simp [GroupRange.visitFrom, GroupRange.isEqual, GroupRange.endOf, GroupRange.deref,
          next_eq sizes _ false hne hl, hc, this]

theorem visit_eq (sizes : List Nat) (hne : sizes ≠ []) (hpos : ∀ s ∈ sizes, 0 < s) :
    GroupRange.visit sizes = .ok (lex sizes) := by
  unfold GroupRange.visit GroupRange.start RangeData.make
  exact visitFrom_enum sizes hne (enum_lex sizes hpos) (by simp) _ (by rw [lex_length]; omega)

/-- Position of a combination in the lexicographic list. -/
def rank : List Nat → List Nat → Nat
  | _ :: ss, c :: cs => c * ss.prod + rank ss cs
  | _, _ => 0

theorem rank_lt {sizes comb : List Nat} (h : Valid sizes comb) : rank sizes comb < sizes.prod := by
  induction h with
  | nil => simp [rank]
  | cons hc _ ih =>
    rename_i s c ss cs _
    simp only [rank, List.prod_cons]
    calc c * ss.prod + rank ss cs < c * ss.prod + ss.prod := by omega
      _ = (c + 1) * ss.prod := by ring
      _ ≤ s * ss.prod := Nat.mul_le_mul_right _ hc

theorem lex_rank {sizes comb : List Nat} (h : Valid sizes comb) :
    (lex sizes)[rank sizes comb]? = some comb := by
  induction h with
  | nil => simp [lex, rank]
  | cons hc hv ih =>
    rename_i s c ss cs
    have hlt : rank ss cs < ss.prod := rank_lt hv
    have key : ∀ (n k : Nat), k < n → ∀ j, ((List.range' j n).flatMap
        (fun k => (lex ss).map (k :: ·)))[k * ss.prod + rank ss cs]? = some ((j + k) :: cs) := by
      intro n
      induction n with
      | zero => intro k hk; omega
      | succ n ihn =>
        intro k hk j
        rw [List.range'_succ, List.flatMap_cons]
        cases k with
        | zero =>
          rw [List.getElem?_append_left (by simp [lex_length]; omega)]
          simp [ih]
        | succ k =>
          have hl : ((lex ss).map (j :: ·)).length = ss.prod := by simp [lex_length]
          rw [List.getElem?_append_right (by rw [hl]; nlinarith), hl]
          have e : (k + 1) * ss.prod + rank ss cs - ss.prod = k * ss.prod + rank ss cs := by
            have : (k + 1) * ss.prod = k * ss.prod + ss.prod := by ring
            omega
          rw [e, ihn k (by omega) (j + 1)]
          simp; omega
    have := key s c hc 0
    simp only [lex, rank, List.range_eq_range']
    simpa using this

theorem rank_inj {sizes a b : List Nat} (ha : Valid sizes a) (hb : Valid sizes b)
    (h : rank sizes a = rank sizes b) : a = b := by
  have h1 := lex_rank ha
  have h2 := lex_rank hb
  rw [h] at h1
  rw [h1] at h2
  exact Option.some.inj h2

end EFG
