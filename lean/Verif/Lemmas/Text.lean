import Verif.Spec.Text
import Verif.Model.Text
import Verif.Lemmas.Res
import Mathlib.Tactic.IntervalCases
import Mathlib.Data.List.TakeWhile
import Verif.Lemmas.Factor
/- Lines, words and numbers of text files. -/

set_option linter.unusedSectionVars false

namespace EFG
namespace Text

theorem isSpace_iff (c : Char) : isSpace c = true ↔ Blank c := by
  unfold isSpace Blank
  simp [or_assoc]

theorem isSpace_false {c : Char} : isSpace c = false ↔ ¬ Blank c := by
  rw [← isSpace_iff]; simp

theorem words_blanks {ws : List Char} (h : ∀ c ∈ ws, Blank c) (rest : List Char) :
    words [] (ws ++ rest) = words [] rest := by
  induction ws with
  | nil => rfl
  | cons c ws ih =>
    have hc := (isSpace_iff c).mpr (h c (by simp))
    show words [] (c :: (ws ++ rest)) = _
    rw [words, if_pos hc]
    exact ih (fun d hd => h d (by simp [hd]))

theorem words_letters {w : List Char} (h : ∀ c ∈ w, ¬ Blank c) (cur rest : List Char) :
    words cur (w ++ rest) = words (w.reverse ++ cur) rest := by
  induction w generalizing cur with
  | nil => rfl
  | cons c w ih =>
    have hc := isSpace_false.mpr (h c (by simp))
    show words cur (c :: (w ++ rest)) = _
    rw [words, hc, if_neg (by simp), ih (fun d hd => h d (by simp [hd]))]
    simp

theorem words_spells {l : List (List Char)} {line : List Char} (h : Spells l line) : words [] line = l := by
  induction h with
  | done h =>
    rename_i ws
    have := words_blanks h []
    rw [List.append_nil] at this
    rw [this]; rfl
  | word h1 h2 h3 h4 h5 ih =>
    rename_i ws w rest l
    rw [List.append_assoc, words_blanks h1, words_letters h3, List.append_nil]
    have hne : w.reverse.isEmpty = false := by
      cases w with
      | nil => exact absurd rfl h2
      | cons c w => simp
    cases rest with
    | nil =>
      rw [words, hne, List.reverse_reverse, if_neg (by simp)]
      rw [← ih]; rfl
    | cons c rest =>
      have hc := (isSpace_iff c).mpr (h4 c (by simp))
      rw [words, if_pos hc, hne, List.reverse_reverse, if_neg (by simp)]
      rw [words, if_pos hc] at ih
      rw [← ih]; rfl

theorem lines_plain {l : List Char} (h : '\n' ∉ l) : lines l = [l] := by
  induction l with
  | nil => rfl
  | cons c l ih =>
    simp only [List.mem_cons, not_or] at h
    rw [lines, if_neg (fun e => h.1 e.symm), ih h.2]

theorem lines_newline {l : List Char} (h : '\n' ∉ l) (rest : List Char) : lines (l ++ '\n' :: rest) = l :: lines rest := by
  induction l with
  | nil => rw [List.nil_append, lines, if_pos rfl]
  | cons c l ih =>
    simp only [List.mem_cons, not_or] at h
    rw [List.cons_append, lines, if_neg (fun e => h.1 e.symm), ih h.2]

theorem lines_eq {ls : List (List Char)} {content : List Char} (h : HasLines ls content) : lines content = ls := by
  obtain ⟨h1, h2, rfl⟩ := h
  induction ls with
  | nil => exact absurd rfl h1
  | cons l ls ih =>
    cases ls with
    | nil => simpa [List.intercalate] using lines_plain (h2 l (by simp))
    | cons l' ls =>
      have := ih (by simp) (fun m hm => h2 m (by simp [hm]))
      rw [List.intercalate_cons_cons]
      rw [List.append_assoc]
      show lines (l ++ '\n' :: _) = _
      rw [lines_newline (h2 l (by simp))]
      erw [this]

theorem lines_trailing {ls : List (List Char)} {content : List Char} (h : HasLines ls content) :
    lines (content ++ ['\n']) = ls ++ [[]] := by
  obtain ⟨h1, h2, rfl⟩ := h
  induction ls with
  | nil => exact absurd rfl h1
  | cons l ls ih =>
    cases ls with
    | nil =>
      have := lines_newline (h2 l (by simp)) []
      simpa [List.intercalate, lines] using this
    | cons l' ls =>
      have := ih (by simp) (fun m hm => h2 m (by simp [hm]))
      rw [List.intercalate_cons_cons]
      rw [List.append_assoc, List.append_assoc]
      show lines (l ++ '\n' :: _) = _
      rw [lines_newline (h2 l (by simp))]
      erw [this]
      rfl

theorem digit_isDigit {c : Char} (h : c ∈ "0123456789".toList) : c.isDigit = true := by
  have : ∀ c ∈ "0123456789".toList, c.isDigit = true := by decide
  exact this c h

theorem digit_not_blank {c : Char} (h : c ∈ "0123456789".toList) : ¬ Blank c := by
  have : ∀ c ∈ "0123456789".toList, ¬ Blank c := by decide
  exact this c h

theorem digit_ne_sign {c : Char} (h : c ∈ "0123456789".toList) : c ≠ '-' ∧ c ≠ '+' := by
  have : ∀ c ∈ "0123456789".toList, c ≠ '-' ∧ c ≠ '+' := by decide
  exact this c h

theorem atoi_writes {n : Nat} {w : List Char} (h : Writes n w) (hn : n < 2 ^ 31) : atoi w = .ok n := by
  obtain ⟨h1, h2, h3⟩ := h
  have hnum : leadingNumber w = n := by
    unfold leadingNumber
    have ht : w.takeWhile Char.isDigit = w := List.takeWhile_eq_self_iff.2 (fun c hc => digit_isDigit (h2 c hc))
    rw [ht, Nat.ofDigitChars_eq_foldl, h3]
  have hr : ¬ ((n : Int) < -(2 ^ 31) ∨ 2 ^ 31 ≤ (n : Int)) := by omega
  cases w with
  | nil => exact absurd rfl h1
  | cons c w =>
    have hc := h2 c (by simp)
    have hd : (c :: w).dropWhile isSpace = c :: w := by
      rw [List.dropWhile_cons, isSpace_false.mpr (digit_not_blank hc)]; rfl
    have hs := digit_ne_sign hc
    have hm : signedNumber (c :: w) = (n : Int) := by
      unfold signedNumber
      rw [if_neg (by simpa using hs.1), if_neg (by simpa using hs.2), hnum]
    unfold atoi
    rw [hd, hm, if_neg hr]

theorem atoSize_writes {n : Nat} {w : List Char} (h : Writes n w) (hn : n < 2 ^ 31) : atoSize w = .ok n := by
  unfold atoSize
  rw [atoi_writes h hn]
  have : ((n : Int) % 2 ^ 64).toNat = n := by
    rw [Int.emod_eq_of_lt (by omega) (by omega)]; rfl
  simp only [this]

theorem writes_ofNat (n : Nat) : Writes n (ofNat n) := by
  refine ⟨Nat.toDigits_ne_nil, ?_, ?_⟩
  · intro c hc
    have h := Nat.isDigit_of_mem_toDigits (by decide) (by decide) hc
    unfold Char.isDigit at h
    simp only [Bool.and_eq_true, decide_eq_true_eq] at h
    have h1 : 48 ≤ c.toNat := h.1
    have h2 : c.toNat ≤ 57 := h.2
    have h3 : c = Char.ofNat c.toNat := (Char.ofNat_toNat c).symm
    rw [h3]
    generalize c.toNat = k at h1 h2 ⊢
    interval_cases k <;> decide
  · rw [← Nat.ofDigitChars_eq_foldl]
    exact Nat.ofDigitChars_ten_toDigits

theorem atoSize_ofNat {n : Nat} (hn : n < 2 ^ 31) : atoSize (ofNat n) = .ok n := atoSize_writes (writes_ofNat n) hn

variable {F : Type}

/-- A line with at least one word, all but the last being numbers. -/
theorem parse_spells (tx : FloatText F) {comb : List Nat} {ws : List (List Char)} {w line : List Char}
    (h : Spells (ws ++ [w]) line) (hw : WritesAll comb ws) (hn : ∀ n ∈ comb, n < 2 ^ 31) :
    parseCombinationImage tx line = .ok (comb, tx.parse w) := by
  unfold parseCombinationImage
  rw [words_spells h]
  simp only [List.getLast?_append, List.getLast?_singleton, Option.some_or, List.dropLast_concat]
  have : Res.mapList atoSize ws = .ok comb := by
    rw [Res.mapList_eq_ok]
    clear h
    induction hw with
    | nil => exact .nil
    | cons h1 _ ih => exact .cons (atoSize_writes h1 (hn _ (by simp))) (ih (fun n hn' => hn n (by simp [hn'])))
  rw [this]

theorem parse_empty (tx : FloatText F) {line : List Char} (h : Spells [] line) : parseCombinationImage tx line = .ub := by
  unfold parseCombinationImage
  rw [words_spells h]; rfl

/-! ### Training sets -/

/-- A line of a combination without its last number. -/
theorem parse_combination (tx : FloatText F) {comb : List Nat} {line : List Char} (h : CombinationLine comb line) :
    (comb = [] ∧ parseCombinationImage tx line = .ub) ∨
      ∃ c x, comb.length = c.length + 1 ∧ parseCombinationImage tx line = .ok (c, x) := by
  obtain ⟨ws, h1, h2, h3⟩ := h
  rcases List.eq_nil_or_concat ws with rfl | ⟨ws', w, rfl⟩
  · cases h1
    exact Or.inl ⟨rfl, parse_empty tx h2⟩
  · right
    rcases List.eq_nil_or_concat comb with rfl | ⟨c, n, rfl⟩
    · have := h1.length_eq; simp at this
    · rw [List.concat_eq_append] at h1 h2 h3 ⊢
      rw [List.concat_eq_append] at h1
      have hl : c.length = ws'.length := by
        have := h1.length_eq; simpa using this
      have h4 : WritesAll c ws' := by
        have := List.forall₂_take c.length h1
        rw [List.take_left] at this
        rw [hl, List.take_left] at this
        exact this
      refine ⟨c, tx.parse w, by simp, parse_spells tx h2 h4 (fun n hn => h3 n (by simp [hn]))⟩

/-- The sizes of the lines as they are read. -/
theorem trainSet_fold (tx : FloatText F) {combs : List (List Nat)} {ls : List (List Char)}
    (h : List.Forall₂ CombinationLine combs ls) (hne : ∀ c ∈ combs, c ≠ []) (e : Nat) (acc : List (List Nat)) :
    Res.foldList (trainSetLine tx) (e, acc) ls = .throw ∨
      ∃ e', Res.foldList (trainSetLine tx) (e, acc) ls =
        .ok (e', acc ++ combs.map (fun c => List.replicate (c.length - 1) 0)) := by
  induction h generalizing e acc with
  | nil => exact Or.inr ⟨e, by simp [Res.foldList]⟩
  | cons h1 _ ih =>
    rename_i c l combs ls _
    rcases parse_combination tx h1 with ⟨rfl, _⟩ | ⟨d, x, h2, h3⟩
    · exact absurd rfl (hne [] (by simp))
    · rw [Res.foldList]
      have hstep : trainSetLine tx (e, acc) l = if e ≠ 0 ∧ d.length ≠ e then .throw
          else .ok (d.length, acc ++ [List.replicate d.length 0]) := by
        unfold trainSetLine; rw [h3]
      rw [hstep]
      by_cases hc : e ≠ 0 ∧ d.length ≠ e
      · rw [if_pos hc]; exact Or.inl rfl
      · rw [if_neg hc]
        simp only
        rcases ih (fun c hc => hne c (by simp [hc])) d.length (acc ++ [List.replicate d.length 0]) with h4 | ⟨e', h4⟩
        · exact Or.inl h4
        · refine Or.inr ⟨e', ?_⟩
          rw [h4, List.append_assoc, List.map_cons, h2]
          rfl

/-- Lines of one length. -/
theorem trainSet_same (tx : FloatText F) {combs : List (List Nat)} {ls : List (List Char)} {n : Nat}
    (h : List.Forall₂ CombinationLine combs ls) (hn : ∀ c ∈ combs, c.length = n + 1) {e : Nat} (he : e = 0 ∨ e = n)
    (acc : List (List Nat)) : ∃ e', (e' = 0 ∨ e' = n) ∧ Res.foldList (trainSetLine tx) (e, acc) ls =
        .ok (e', acc ++ combs.map (fun _ => List.replicate n 0)) := by
  induction h generalizing e acc with
  | nil => exact ⟨e, he, by simp [Res.foldList]⟩
  | cons h1 _ ih =>
    rename_i c l combs ls _
    rcases parse_combination tx h1 with ⟨rfl, _⟩ | ⟨d, x, h2, h3⟩
    · have := hn [] (by simp); simp at this
    · rw [Res.foldList]
      have hd : d.length = n := by have := hn c (by simp); omega
      have hstep : trainSetLine tx (e, acc) l = .ok (n, acc ++ [List.replicate n 0]) := by
        unfold trainSetLine; rw [h3]
        simp only
        rw [if_neg (by rintro ⟨h5, h6⟩; rcases he with he | he <;> omega), hd]
      rw [hstep]
      simp only
      obtain ⟨e', h4, h5⟩ := ih (fun c hc => hn c (by simp [hc])) (Or.inr rfl) (acc ++ [List.replicate n 0])
      refine ⟨e', h4, ?_⟩
      rw [h5, List.append_assoc]; rfl

/-- A line without words makes reading the file undefined. -/
theorem trainSet_blank (tx : FloatText F) {l : List Char} (h : Spells [] l) (st : Nat × List (List Nat)) :
    trainSetLine tx st l = .ub := by
  unfold trainSetLine
  rw [parse_empty tx h]

theorem makeTrainSet_ok {l : List (List Nat)} {n : Nat} (hne : l ≠ []) (hn : 0 < n) (h : ∀ c ∈ l, c.length = n) :
    makeTrainSet l = .ok l := by
  cases l with
  | nil => exact absurd rfl hne
  | cons c l =>
    unfold makeTrainSet
    simp only
    rw [if_pos]
    rw [List.all_eq_true]
    intro d hd
    simp [h d hd, h c (by simp)]
    omega

theorem makeTrainSet_throw {l : List (List Nat)} (h : ∃ c ∈ l, c.length = 0 ∨ ∃ d ∈ l, c.length ≠ d.length) :
    makeTrainSet l = .throw := by
  cases l with
  | nil => rfl
  | cons b l =>
    unfold makeTrainSet
    simp only
    rw [if_neg]
    rw [List.all_eq_true]
    intro hall
    have h' : ∀ d ∈ b :: l, d.length ≠ 0 ∧ b.length = d.length := by
      intro d hd
      have := hall d hd
      simpa using this
    obtain ⟨c, hc, h1 | ⟨d, hd, h1⟩⟩ := h
    · exact (h' c hc).1 h1
    · exact h1 ((h' c hc).2.symm.trans (h' d hd).2)

/-! ### Values -/

variable [Arith F]

theorem onEach_append {α σ : Type} (f : α → M σ Unit) (l l' : List α) (s : σ) :
    onEach f (l ++ l') s = match onEach f l s with
      | .ok s' _ => onEach f l' s'
      | .throw s' => .throw s'
      | .ub => .ub := by
  induction l generalizing s with
  | nil => rfl
  | cons a l ih =>
    show (match f a s with | .ok s' _ => onEach f (l ++ l') s' | .throw s' => .throw s' | .ub => .ub) = _
    rw [onEach]
    cases f a s with
    | ok s' u => exact ih s'
    | throw s' => rfl
    | ub => rfl

/-- The image written by the last of the entries for a combination. -/
def lastImage (tx : FloatText F) (es : List (List Nat × List Char)) (q : List Nat) (x : F) : F :=
  es.foldl (fun x e => if e.1 = q then tx.parse e.2 else x) x

theorem values_entry (tx : FloatText F) {e : List Nat × List Char} {l : List Char} (h : EntryLine e.1 e.2 l) (n : Nat) (f : Fn F) :
    valuesLine tx n l f = if e.1.length ≠ n then .throw f else Fn.mutableSet e.1 (tx.parse e.2) f := by
  obtain ⟨ws, h1, h2, h3⟩ := h
  unfold valuesLine
  rw [parse_spells tx h2 h1 h3]

theorem values_fold (tx : FloatText F) {es : List (List Nat × List Char)} {ls : List (List Char)}
    (h : List.Forall₂ (fun e l => EntryLine e.1 e.2 l) es ls) {f : Fn F} (hf : f.WF)
    (hv : ∀ e ∈ es, Valid f.sizes e.1 ∧ Arith.lt (tx.parse e.2) Arith.zero = false) :
    ∃ f', onEach (valuesLine tx f.vars.group.length) ls f = .ok f' () ∧ f'.WF ∧ f'.vars = f.vars ∧ f'.sizes = f.sizes ∧
      f'.weight = f.weight ∧ ∀ q, Valid f.sizes q → f'.img q = lastImage tx es q (f.img q) := by
  induction h generalizing f with
  | nil => exact ⟨f, rfl, hf, rfl, rfl, rfl, fun q _ => rfl⟩
  | cons h1 _ ih =>
    rename_i e l es ls _
    have hve := hv e (by simp)
    rw [onEach, values_entry tx h1]
    have hl : e.1.length = f.vars.group.length := by
      have := hve.1.length_eq
      rw [hf.sizes'] at this
      simpa using this.symm
    rw [if_neg (by simp [hl])]
    rcases hf.mutableSet e.1 (tx.parse e.2) with ⟨f1, g1, _, _, g2, g3, g4, g5, g6⟩ | ⟨_, g2⟩
    · rw [g1]
      simp only
      obtain ⟨f', k1, k2, k3, k4, k5, k6⟩ := ih g2 (fun e' he' => by rw [g4]; exact hv e' (by simp [he']))
      rw [g3] at k1
      refine ⟨f', k1, k2, k3.trans g3, k4.trans g4, k5.trans g5, ?_⟩
      intro q hq
      rw [k6 q (by rw [g4]; exact hq), g6 q hq]
      show _ = lastImage tx es q (if e.1 = q then tx.parse e.2 else f.img q)
      by_cases he : q = e.1
      · rw [if_pos he, if_pos he.symm]
      · rw [if_neg he, if_neg (fun h => he h.symm)]
    · exact absurd ⟨hve.2, hve.1⟩ g2

end Text
end EFG
