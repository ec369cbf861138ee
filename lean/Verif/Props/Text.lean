import Verif.Lemmas.Text
import Verif.Props.Factor
import Verif.Props.Examples
/- C46, C47: files of combinations and of images. -/

namespace EFG

/-! ### C46 -/

section
variable {F : Type}

/-- C46 is violated by every file: `import_train_set` never returns the combinations which were written.
The last number of every line is taken for an image (io/Utils.cpp:23-29) and the others are replaced by zeros
(io/TrainSetImport.cpp:26). -/
theorem C46_violated (tx : FloatText F) {combs : List (List Nat)} {content : List Char} (h : CombinationFile combs content) :
    Text.importTrainSet tx (some content) ≠ .ok combs := by
  obtain ⟨ls, h1, h2⟩ := h
  intro hok
  unfold Text.importTrainSet at hok
  simp only [Text.lines_eq h1] at hok
  have hne : combs ≠ [] := by
    rintro rfl
    cases h2
    exact h1.1 rfl
  cases hf : Res.foldList (Text.trainSetLine tx) (0, []) ls with
  | throw => rw [hf] at hok; cases hok
  | ub => rw [hf] at hok; cases hok
  | ok st =>
    rw [hf] at hok
    simp only at hok
    have hself : ∀ l : List (List Nat), makeTrainSet l = .ok l ∨ makeTrainSet l = .throw := by
      intro l
      unfold makeTrainSet
      cases l with
      | nil => exact Or.inr rfl
      | cons a l => simp only; split <;> simp
    have hst : st.2 = combs := by
      rcases hself st.2 with h3 | h3
      · rw [h3] at hok; cases hok; rfl
      · rw [h3] at hok; cases hok
    rw [hst] at hok
    have hall : ∀ c ∈ combs, c ≠ [] := by
      rintro c hc rfl
      rw [Text.makeTrainSet_throw ⟨[], hc, Or.inl rfl⟩] at hok
      cases hok
    rcases Text.trainSet_fold tx h2 hall 0 [] with h3 | ⟨e, h3⟩
    · rw [h3] at hf; cases hf
    · rw [h3] at hf
      cases hf
      simp only [List.nil_append] at hst
      cases combs with
      | nil => exact hne rfl
      | cons c combs =>
        simp only [List.map_cons, List.cons.injEq] at hst
        have hl := congrArg List.length hst.1
        rw [List.length_replicate] at hl
        have := hall c (by simp)
        have : 0 < c.length := List.length_pos_iff.mpr this
        omega

/-- What is returned: as many combinations as there are lines, all of them null, with one number less than
the lines. -/
theorem C46_returned (tx : FloatText F) {combs : List (List Nat)} {content : List Char} {n : Nat}
    (h : CombinationFile combs content) (hn : ∀ c ∈ combs, c.length = n + 1) :
    Text.importTrainSet tx (some content) = if n = 0 then .throw else .ok (combs.map (fun _ => List.replicate n 0)) := by
  obtain ⟨ls, h1, h2⟩ := h
  unfold Text.importTrainSet
  simp only [Text.lines_eq h1]
  obtain ⟨e, _, h3⟩ := Text.trainSet_same tx h2 hn (Or.inl rfl) []
  rw [h3]
  simp only [List.nil_append]
  have hne : combs ≠ [] := by
    rintro rfl
    cases h2
    exact h1.1 rfl
  by_cases h0 : n = 0
  · rw [if_pos h0]
    refine Text.makeTrainSet_throw ?_
    cases combs with
    | nil => exact absurd rfl hne
    | cons c combs => exact ⟨List.replicate n 0, by simp, Or.inl (by simp [h0])⟩
  · rw [if_neg h0]
    refine Text.makeTrainSet_ok (n := n) (by simpa using hne) (by omega) ?_
    intro c hc
    obtain ⟨_, _, rfl⟩ := List.mem_map.mp hc
    simp

/-- C46, the part which holds: lines of different lengths make the import throw.

Missing: the combinations are returned as written, which is violated by every file (`C46_violated`). -/
theorem C46_lengths_partial (tx : FloatText F) {combs : List (List Nat)} {content : List Char}
    (h : CombinationFile combs content) (hne : ∀ c ∈ combs, c ≠ []) {c d : List Nat} (hc : c ∈ combs) (hd : d ∈ combs)
    (hcd : c.length ≠ d.length) : Text.importTrainSet tx (some content) = .throw := by
  obtain ⟨ls, h1, h2⟩ := h
  unfold Text.importTrainSet
  simp only [Text.lines_eq h1]
  rcases Text.trainSet_fold tx h2 hne 0 [] with h3 | ⟨e, h3⟩
  · rw [h3]
  · rw [h3]
    simp only [List.nil_append]
    refine Text.makeTrainSet_throw ⟨List.replicate (c.length - 1) 0, List.mem_map.mpr ⟨c, hc, rfl⟩,
      Or.inr ⟨List.replicate (d.length - 1) 0, List.mem_map.mpr ⟨d, hd, rfl⟩, ?_⟩⟩
    have h4 : 0 < c.length := List.length_pos_iff.mpr (hne c hc)
    have h5 : 0 < d.length := List.length_pos_iff.mpr (hne d hd)
    simp only [List.length_replicate]
    omega

/-- A missing file makes the import throw. -/
theorem C46_missing (tx : FloatText F) : Text.importTrainSet tx none = .throw := rfl

/-- A newline at the end of the file makes the import undefined. -/
theorem C46_newline_violated (tx : FloatText F) {combs : List (List Nat)} {content : List Char} {n : Nat}
    (h : CombinationFile combs content) (hn : ∀ c ∈ combs, c.length = n + 1) :
    Text.importTrainSet tx (some (content ++ ['\n'])) = .ub := by
  obtain ⟨ls, h1, h2⟩ := h
  unfold Text.importTrainSet
  simp only [Text.lines_trailing h1]
  obtain ⟨e, _, h3⟩ := Text.trainSet_same tx h2 hn (Or.inl rfl) []
  rw [Res.foldList_append, h3]
  simp only [Res.foldList]
  rw [Text.trainSet_blank tx (.done (by simp))]

end

namespace Ex

/-- A line written with single blanks. -/
theorem spells_one {w : List Char} (h1 : w ≠ []) (h2 : ∀ c ∈ w, ¬ Blank c) : Spells [w] w := by
  have := Spells.word (ws := []) (rest := []) (by simp) h1 h2 (by simp) (.done (ws := []) (by simp))
  simpa using this

theorem spells_cons {w rest : List Char} {l : List (List Char)} (h1 : w ≠ []) (h2 : ∀ c ∈ w, ¬ Blank c) (h3 : Spells l rest) :
    Spells (w :: l) (w ++ ' ' :: rest) := by
  have h4 : Spells l (' ' :: rest) := by
    cases h3 with
    | done h => exact .done (by intro c hc; rcases List.mem_cons.mp hc with rfl | hc; exacts [by decide, h c hc])
    | word g1 g2 g3 g4 g5 =>
      rename_i ws w' rest' l'
      have := Spells.word (ws := ' ' :: ws) (by intro c hc; rcases List.mem_cons.mp hc with rfl | hc; exacts [by decide, g1 c hc])
        g2 g3 g4 g5
      simpa using this
  have := Spells.word (ws := []) (by simp) h1 h2 (by simp; decide) h4
  simpa using this

theorem writes_digit {n : Nat} {c : Char} (h : c ∈ "0123456789".toList ∧ c.toNat - '0'.toNat = n) : Writes n [c] :=
  ⟨by simp, by simpa using h.1, by simpa using h.2⟩

theorem lineOf (a b c : Nat) (x y z : Char) (hx : x ∈ "0123456789".toList ∧ x.toNat - '0'.toNat = a)
    (hy : y ∈ "0123456789".toList ∧ y.toNat - '0'.toNat = b) (hz : z ∈ "0123456789".toList ∧ z.toNat - '0'.toNat = c)
    (ha : a < 2 ^ 31) (hb : b < 2 ^ 31) (hc : c < 2 ^ 31) :
    CombinationLine [a, b, c] [x, ' ', y, ' ', z] :=
  ⟨[[x], [y], [z]], .cons (writes_digit hx) (.cons (writes_digit hy) (.cons (writes_digit hz) .nil)),
    spells_cons (by simp) (by simpa using Text.digit_not_blank hx.1)
      (spells_cons (by simp) (by simpa using Text.digit_not_blank hy.1)
        (spells_one (by simp) (by simpa using Text.digit_not_blank hz.1))),
    by
      intro n hn
      simp only [List.mem_cons, List.not_mem_nil, or_false] at hn
      rcases hn with rfl | rfl | rfl <;> assumption⟩

/-- Two samples of three variables. -/
theorem sampleFile : CombinationFile [[0, 1, 1], [1, 0, 2]] "0 1 1\n1 0 2".toList :=
  ⟨["0 1 1".toList, "1 0 2".toList], ⟨by decide, by decide, by decide⟩,
    .cons (lineOf 0 1 1 '0' '1' '1' (by decide) (by decide) (by decide) (by decide) (by decide) (by decide))
      (.cons (lineOf 1 0 2 '1' '0' '2' (by decide) (by decide) (by decide) (by decide) (by decide) (by decide)) .nil)⟩

end Ex

example : Text.importTrainSet Text.fixed (some "0 1 1\n1 0 2".toList) ≠ .ok [[0, 1, 1], [1, 0, 2]] :=
  C46_violated _ Ex.sampleFile

example : Text.importTrainSet Text.fixed (some "0 1 1\n1 0 2".toList) = .ok [[0, 0], [0, 0]] :=
  C46_returned (n := 2) _ Ex.sampleFile (by decide)

example : Text.importTrainSet Text.fixed (some "0 1 1\n1 0 2".toList) = .ok [[0, 0], [0, 0]] := by decide +kernel

example : Text.importTrainSet Text.fixed (some "0 1 1\n1 0 2\n".toList) = .ub :=
  C46_newline_violated (n := 2) _ Ex.sampleFile (by decide)

example : Text.importTrainSet Text.fixed (some "0 1 1\n1 0 ".toList) = .throw := by decide +kernel

/-- The hypotheses of `C46_lengths_partial` hold for a file with lines of three and of one number. -/
example : Text.importTrainSet Text.fixed (some "0 1 1\n7".toList) = .throw :=
  C46_lengths_partial (combs := [[0, 1, 1], [7]]) (c := [0, 1, 1]) (d := [7]) _
    ⟨["0 1 1".toList, "7".toList], ⟨by decide, by decide, by decide⟩,
      .cons (Ex.lineOf 0 1 1 '0' '1' '1' (by decide) (by decide) (by decide) (by decide) (by decide) (by decide))
        (.cons ⟨[['7']], .cons (Ex.writes_digit (by decide)) .nil, Ex.spells_one (by decide) (by decide), by decide⟩ .nil)⟩
    (by decide) (by decide) (by decide) (by decide)

/-! ### C47 -/

section
variable {F : Type} [Arith F]

theorem Text.lastImage_none (tx : FloatText F) {es : List (List Nat × List Char)} {q : List Nat} (h : ∀ e ∈ es, e.1 ≠ q) (x : F) :
    Text.lastImage tx es q x = x := by
  unfold Text.lastImage
  induction es generalizing x with
  | nil => rfl
  | cons e es ih =>
    rw [List.foldl_cons, if_neg (h e (by simp))]
    exact ih (fun e' he' => h e' (by simp [he'])) x

/-- C47, the part which holds: the lines of a file without empty lines are read as they are written. After
the import the image of a combination is the one on the last of its lines, and 0 if it has no line. The
variables are not changed.

Missing: files with blank lines, in particular with a newline at the end (`C47_violated`). -/
theorem C47_values_partial (tx : FloatText F) {f : Fn F} (hf : FactorReach f) {es : List (List Nat × List Char)}
    {content : List Char} (h : ValuesFile es content)
    (hv : ∀ e ∈ es, Valid (f.vars.group.map Var.size) e.1 ∧ Arith.lt (tx.parse e.2) Arith.zero = false) :
    ∃ f', Text.importValues tx (some content) f = .ok f' () ∧ f'.vars = f.vars ∧ f'.weight = f.weight ∧
      (∀ before e after, es = before ++ e :: after → (∀ e' ∈ after, e'.1 ≠ e.1) → f'.findImage e.1 = .ok (tx.parse e.2)) ∧
      ∀ q, Valid (f.vars.group.map Var.size) q → (∀ e ∈ es, e.1 ≠ q) → f'.findImage q = .ok Arith.zero := by
  have hw := factorReach_wf hf
  obtain ⟨ls, h1, h2⟩ := h
  rw [← hw.sizes'] at hv
  obtain ⟨f', g1, g2, g3, g4, g5, g6⟩ := Text.values_fold tx h2 hw.clear hv
  refine ⟨f', ?_, g3, g5, ?_, ?_⟩
  · unfold Text.importValues
    simp only [Text.lines_eq h1]
    exact g1
  · intro before e after he hlast
    have hve := (hv e (by rw [he]; simp)).1
    have hq : Valid f'.sizes e.1 := by rw [g4]; exact hve
    rw [g2.findImage hq, g6 _ hve, he]
    congr 1
    unfold Text.lastImage
    rw [List.foldl_append, List.foldl_cons, if_pos rfl]
    exact Text.lastImage_none tx hlast _
  · intro q hq hno
    rw [← hw.sizes'] at hq
    have hq' : Valid f'.sizes q := by rw [g4]; exact hq
    rw [g2.findImage hq', g6 _ hq, Text.lastImage_none tx hno, Fn.clear_img]

/-- C47: a line whose combination is not a combination of the variables, or whose image is negative, makes
the import throw. -/
theorem C47_invalid_partial (tx : FloatText F) {f : Fn F} (hf : FactorReach f) {es : List (List Nat × List Char)}
    {content : List Char} (h : ValuesFile es content)
    (hv : ∃ e ∈ es, ¬ (Valid (f.vars.group.map Var.size) e.1 ∧ Arith.lt (tx.parse e.2) Arith.zero = false)) :
    ∃ f', Text.importValues tx (some content) f = .throw f' := by
  have hw := factorReach_wf hf
  obtain ⟨ls, h1, h2⟩ := h
  have key : ∀ (es : List (List Nat × List Char)) (ls : List (List Char)) (g : Fn F),
      List.Forall₂ (fun e l => EntryLine e.1 e.2 l) es ls → g.WF → g.vars = f.vars →
      (∃ e ∈ es, ¬ (Valid (f.vars.group.map Var.size) e.1 ∧ Arith.lt (tx.parse e.2) Arith.zero = false)) →
      ∃ f', Text.onEach (Text.valuesLine tx f.vars.group.length) ls g = .throw f' := by
    intro es ls g hes
    induction hes generalizing g with
    | nil => rintro _ _ ⟨e, he, _⟩; cases he
    | cons h3 _ ih =>
      rename_i e l es ls _
      intro hg hgv hex
      rw [Text.onEach, Text.values_entry tx h3]
      by_cases hl : e.1.length ≠ f.vars.group.length
      · rw [if_pos hl]; exact ⟨g, rfl⟩
      · rw [if_neg hl]
        rcases hg.mutableSet e.1 (tx.parse e.2) with ⟨g', k1, k2, k3, k4, k5, _⟩ | ⟨k1, _⟩
        · rw [k1]
          refine ih g' k4 (k5.trans hgv) ?_
          obtain ⟨e', he', hn⟩ := hex
          rcases List.mem_cons.mp he' with rfl | he'
          · rw [hg.sizes', hgv] at k3
            exact absurd ⟨k3, k2⟩ hn
          · exact ⟨e', he', hn⟩
        · rw [k1]; exact ⟨g, rfl⟩
  obtain ⟨f', hf'⟩ := key es ls f.clear h2 hw.clear rfl hv
  refine ⟨f', ?_⟩
  unfold Text.importValues
  simp only [Text.lines_eq h1]
  exact hf'

/-- C47 is violated: a newline at the end of the file makes the import undefined (src/io/Utils.h:44-48,
io/Utils.cpp:24-29). -/
theorem C47_violated (tx : FloatText F) {f : Fn F} (hf : FactorReach f) {es : List (List Nat × List Char)}
    {content : List Char} (h : ValuesFile es content)
    (hv : ∀ e ∈ es, Valid (f.vars.group.map Var.size) e.1 ∧ Arith.lt (tx.parse e.2) Arith.zero = false) :
    Text.importValues tx (some (content ++ ['\n'])) f = .ub := by
  have hw := factorReach_wf hf
  obtain ⟨ls, h1, h2⟩ := h
  rw [← hw.sizes'] at hv
  obtain ⟨f', g1, g2, g3, g4, g5, g6⟩ := Text.values_fold tx h2 hw.clear hv
  unfold Text.importValues
  simp only [Text.lines_trailing h1]
  rw [Text.onEach_append]
  have g1' : Text.onEach (Text.valuesLine tx f.vars.group.length) ls f.clear = .ok f' () := g1
  rw [g1']
  simp only [Text.onEach]
  unfold Text.valuesLine
  rw [Text.parse_empty tx (.done (by simp))]

/-- A missing file makes the import throw, and the factor is not changed. -/
theorem C47_missing (tx : FloatText F) (f : Fn F) : Text.importValues tx none f = .throw f := rfl

end

namespace Ex

theorem entryOf (a b : Nat) (x y : Char) (w : List Char) (hx : x ∈ "0123456789".toList ∧ x.toNat - '0'.toNat = a)
    (hy : y ∈ "0123456789".toList ∧ y.toNat - '0'.toNat = b) (ha : a < 2 ^ 31) (hb : b < 2 ^ 31) (h1 : w ≠ [])
    (h2 : ∀ c ∈ w, ¬ Blank c) : EntryLine [a, b] w (x :: ' ' :: y :: ' ' :: w) :=
  ⟨[[x], [y]], .cons (writes_digit hx) (.cons (writes_digit hy) .nil),
    spells_cons (by simp) (by simpa using Text.digit_not_blank hx.1)
      (spells_cons (by simp) (by simpa using Text.digit_not_blank hy.1) (spells_one h1 h2)),
    by
      intro n hn
      simp only [List.mem_cons, List.not_mem_nil, or_false] at hn
      rcases hn with rfl | rfl <;> assumption⟩

/-- Two images. -/
theorem valuesFile : ValuesFile [([0, 1], "2.5".toList), ([1, 1], "4".toList)] "0 1 2.5\n1 1 4".toList :=
  ⟨["0 1 2.5".toList, "1 1 4".toList], ⟨by decide, by decide, by decide⟩,
    .cons (entryOf 0 1 '0' '1' _ (by decide) (by decide) (by decide) (by decide) (by decide) (by decide))
      (.cons (entryOf 1 1 '1' '1' _ (by decide) (by decide) (by decide) (by decide) (by decide) (by decide)) .nil)⟩

theorem bin_reach' : FactorReach (bin X Y 2 1 1 3) := heapXYZ_reach _ (by simp [heapXYZ])

theorem valuesFile_valid : ∀ e ∈ [([0, 1], "2.5".toList), ([1, 1], "4".toList)],
    Valid ((bin X Y 2 1 1 3).vars.group.map Var.size) e.1 ∧
      Arith.lt (Text.fixed.parse e.2) (Arith.zero : Ext ℚ) = false := by
  have h : (bin X Y 2 1 1 3).vars.group.map Var.size = [2, 2] := by decide +kernel
  rw [h]
  intro e he
  simp only [List.mem_cons, List.not_mem_nil, or_false] at he
  rcases he with rfl | rfl
  · exact ⟨.cons (by decide) (.cons (by decide) .nil), by decide +kernel⟩
  · exact ⟨.cons (by decide) (.cons (by decide) .nil), by decide +kernel⟩

end Ex

/-- The images of a factor after an import: those of the file, and 0 elsewhere. -/
example : ∃ f', Text.importValues Text.fixed (some "0 1 2.5\n1 1 4".toList) (Ex.bin Ex.X Ex.Y 2 1 1 3) = .ok f' () ∧
    f'.findImage [0, 1] = .ok (.val (5 / 2)) ∧ f'.findImage [1, 0] = .ok (.val 0) := by
  obtain ⟨f', h1, _, _, h2, h3⟩ := C47_values_partial Text.fixed Ex.bin_reach' Ex.valuesFile Ex.valuesFile_valid
  refine ⟨f', h1, ?_, ?_⟩
  · rw [h2 [] ([0, 1], "2.5".toList) _ rfl (by decide)]
    decide +kernel
  · exact h3 [1, 0] (by
      have h : (Ex.bin Ex.X Ex.Y 2 1 1 3).vars.group.map Var.size = [2, 2] := by decide +kernel
      rw [h]; exact .cons (by decide) (.cons (by decide) .nil)) (by decide)

example : Text.importValues Text.fixed (some "0 1 2.5\n1 1 4\n".toList) (Ex.bin Ex.X Ex.Y 2 1 1 3) = .ub :=
  C47_violated Text.fixed Ex.bin_reach' Ex.valuesFile Ex.valuesFile_valid

/-- A combination which is out of range. -/
example : ∃ f', Text.importValues Text.fixed (some "0 7 2.5".toList) (Ex.bin Ex.X Ex.Y 2 1 1 3) = .throw f' :=
  C47_invalid_partial (es := [([0, 7], "2.5".toList)]) Text.fixed Ex.bin_reach'
    ⟨["0 7 2.5".toList], ⟨by decide, by decide, by decide⟩,
      .cons (Ex.entryOf 0 7 '0' '7' _ (by decide) (by decide) (by decide) (by decide) (by decide) (by decide)) .nil⟩
    ⟨_, List.mem_singleton.mpr rfl, by
      have h : (Ex.bin Ex.X Ex.Y 2 1 1 3).vars.group.map Var.size = [2, 2] := by decide +kernel
      rw [h]
      rintro ⟨h1, _⟩
      cases h1 with
      | cons _ h2 => cases h2 with
        | cons h3 _ => exact absurd h3 (by decide)⟩

end EFG
