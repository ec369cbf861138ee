import Verif.Spec.Import
import Verif.Lemmas.Safety
import Verif.Lemmas.Text
import Verif.Props.Graph
import Verif.Props.FactorOps
/- Whatever is read from a file, the receiver is a model reached by public operations. -/

set_option linter.unusedSectionVars false

namespace EFG

/-! ### Texts -/

namespace Text

theorem ofDigitChars_eq (ds : List Char) : ∀ x, Nat.ofDigitChars 10 ds x = ds.foldl (fun x c => 10 * x + (c.toNat - '0'.toNat)) x := by
  induction ds with
  | nil => intro x; rfl
  | cons c ds ih => intro x; rw [List.foldl_cons, ← ih]; rfl

theorem mem_takeWhile_true {α : Type} {p : α → Bool} {l : List α} : ∀ x ∈ l.takeWhile p, p x = true := by
  induction l with
  | nil => intro x hx; cases hx
  | cons a l ih =>
    intro x hx
    rw [List.takeWhile_cons] at hx
    by_cases h : p a = true
    · rw [if_pos h] at hx
      rcases List.mem_cons.mp hx with rfl | hx
      · exact h
      · exact ih x hx
    · rw [if_neg h] at hx; cases hx

theorem isDigit_mem {c : Char} (h : c.isDigit = true) : c ∈ "0123456789".toList := by
  unfold Char.isDigit at h
  have h1 : 48 ≤ c.toNat ∧ c.toNat ≤ 57 := by
    simp only [ge_iff_le, Bool.and_eq_true, decide_eq_true_eq] at h
    exact ⟨UInt32.le_iff_toNat_le.mp h.1, UInt32.le_iff_toNat_le.mp h.2⟩
  have h2 : c = Char.ofNat c.toNat := (Char.ofNat_toNat c).symm
  rw [h2]
  generalize c.toNat = n at h1
  have : ∀ n, n ≤ 57 → 48 ≤ n → Char.ofNat n ∈ "0123456789".toList := by decide
  exact this n h1.2 h1.1

theorem leadingNumber_lt {l ws sign r : List Char} (h : FitsInt l) (hl : l = ws ++ sign ++ r) (hw : ∀ c ∈ ws, Blank c)
    (hs : sign.length ≤ 1) : leadingNumber r < 2 ^ 31 := by
  unfold leadingNumber
  rw [ofDigitChars_eq]
  refine h ws sign _ (r.dropWhile Char.isDigit) ?_ hw hs (fun c hc => isDigit_mem (mem_takeWhile_true c hc))
  rw [hl, List.append_assoc, List.append_assoc, List.append_assoc, List.takeWhile_append_dropWhile]

/-- A text with a small number is converted. -/
theorem atoi_ne_ub {l : List Char} (h : FitsInt l) : atoi l ≠ .ub := by
  have hl : l = l.takeWhile isSpace ++ l.dropWhile isSpace := List.takeWhile_append_dropWhile.symm
  have hw : ∀ c ∈ l.takeWhile isSpace, Blank c := fun c hc => (isSpace_iff c).mp (mem_takeWhile_true c hc)
  have key : -(2 ^ 31) ≤ signedNumber (l.dropWhile isSpace) ∧ signedNumber (l.dropWhile isSpace) < 2 ^ 31 := by
    generalize l.takeWhile isSpace = ws at hl hw
    generalize l.dropWhile isSpace = r at hl
    unfold signedNumber
    split
    · rename_i hh
      obtain ⟨r', rfl⟩ : ∃ r', r = '-' :: r' := by
        cases r with
        | nil => cases hh
        | cons a r => simp at hh; exact ⟨r, by rw [hh]⟩
      have := leadingNumber_lt h (sign := ['-']) (r := r') (by rw [hl]; simp) hw (by simp)
      rw [List.tail_cons]
      omega
    · split
      · rename_i hh
        obtain ⟨r', rfl⟩ : ∃ r', r = '+' :: r' := by
          cases r with
          | nil => cases hh
          | cons a r => simp at hh; exact ⟨r, by rw [hh]⟩
        have := leadingNumber_lt h (sign := ['+']) (r := r') (by rw [hl]; simp) hw (by simp)
        rw [List.tail_cons]
        omega
      · have := leadingNumber_lt h (sign := []) (r := r) (by rw [hl]; simp) hw (by simp)
        omega
  unfold atoi
  simp only
  rw [if_neg (by omega)]
  exact (nomatch ·)

theorem atoSize_ne_ub {l : List Char} (h : FitsInt l) : atoSize l ≠ .ub := by
  unfold atoSize
  have := atoi_ne_ub h
  cases ha : atoi l with
  | ok v => exact (nomatch ·)
  | throw => exact (nomatch ·)
  | ub => exact absurd ha this

/-- Every file has lines. -/
theorem hasLines_lines (l : List Char) : HasLines (lines l) l := by
  induction l with
  | nil => exact ⟨by simp [lines], by simp [lines], by simp [lines, List.intercalate]⟩
  | cons c l ih =>
    obtain ⟨h1, h2, h3⟩ := ih
    unfold lines
    by_cases hc : c = '\n'
    · rw [if_pos hc]
      refine ⟨by simp, ?_, ?_⟩
      · intro x hx
        rcases List.mem_cons.mp hx with rfl | hx
        · simp
        · exact h2 x hx
      · cases hl : lines l with
        | nil => exact absurd hl h1
        | cons a ls =>
          rw [hl] at h3
          rw [hc, h3]
          simp [List.intercalate, List.intersperse]
    · rw [if_neg hc]
      cases hl : lines l with
      | nil => exact absurd hl h1
      | cons a ls =>
        rw [hl] at h2 h3
        simp only
        refine ⟨by simp, ?_, ?_⟩
        · intro x hx
          rcases List.mem_cons.mp hx with rfl | hx
          · intro hm
            rcases List.mem_cons.mp hm with h | h
            · exact hc h.symm
            · exact h2 a (by simp) h
          · exact h2 x (List.mem_cons_of_mem _ hx)
        · rw [h3]
          cases ls with
          | nil => simp [List.intercalate]
          | cons b ls => simp [List.intercalate, List.intersperse]

/-- Every line consists of words. -/
theorem spells_words (l : List Char) : ∀ cur : List Char, (∀ c ∈ cur, ¬ Blank c) →
    ∃ ws, words cur l = ws ∧ Spells ws (cur.reverse ++ l) := by
  induction l with
  | nil =>
    intro cur hc
    unfold words
    by_cases h : cur.isEmpty = true
    · rw [if_pos h, List.isEmpty_iff.mp h]
      exact ⟨[], rfl, .done (by simp)⟩
    · rw [if_neg h]
      refine ⟨_, rfl, ?_⟩
      have := Spells.word (ws := []) (w := cur.reverse) (rest := []) (l := []) (by simp)
        (by intro h'; rw [List.reverse_eq_nil_iff] at h'; exact h (by simp [h'])) (fun c hm => hc c (List.mem_reverse.mp hm))
        (by simp) (.done (by simp))
      simpa using this
  | cons c l ih =>
    intro cur hc
    unfold words
    by_cases hb : isSpace c = true
    · rw [if_pos hb]
      have hB := (isSpace_iff c).mp hb
      obtain ⟨ws, h1, h2⟩ := ih [] (by simp)
      have hcons : Spells ws (c :: l) := by
        simp only [List.reverse_nil, List.nil_append] at h2
        clear h1
        cases h2 with
        | done h => exact .done (by intro x hx; rcases List.mem_cons.mp hx with rfl | hx; exacts [hB, h x hx])
        | @word ws0 w rest l0 h3 h4 h5 h6 h7 =>
          have := Spells.word (ws := c :: ws0) (w := w) (rest := rest) (l := l0)
            (by intro x hx; rcases List.mem_cons.mp hx with rfl | hx; exacts [hB, h3 x hx]) h4 h5 h6 h7
          simpa using this
      by_cases h : cur.isEmpty = true
      · rw [if_pos h, List.isEmpty_iff.mp h]
        exact ⟨ws, h1, hcons⟩
      · rw [if_neg h]
        refine ⟨_, rfl, ?_⟩
        rw [h1]
        have := Spells.word (ws := []) (w := cur.reverse) (rest := c :: l) (l := ws) (by simp)
          (by intro h'; rw [List.reverse_eq_nil_iff] at h'; exact h (by simp [h'])) (fun c hm => hc c (List.mem_reverse.mp hm))
          (by intro x hx; simp at hx; rw [← hx]; exact hB) hcons
        simpa using this
    · rw [if_neg hb]
      obtain ⟨ws, h1, h2⟩ := ih (c :: cur) (by
        intro x hx
        rcases List.mem_cons.mp hx with rfl | hx
        · exact fun h => hb ((isSpace_iff x).mpr h)
        · exact hc x hx)
      exact ⟨ws, h1, by simpa using h2⟩

end Text

/-! ### Reading -/

namespace Res

/-- What is got satisfies `P`; something undefined is met only if `c` does not hold. -/
def Yields {α : Type} (c : Prop) (P : α → Prop) : Res α → Prop
  | .ok a => P a
  | .throw => True
  | .ub => ¬ c

theorem Yields.of_ne_ub {α : Type} {c : Prop} {P : α → Prop} {x : Res α} (h : c → x ≠ .ub) (hp : ∀ a, x = .ok a → P a) :
    Yields c P x := by
  cases hx : x with
  | ok a => exact hp a hx
  | throw => trivial
  | ub => exact fun hc => h hc hx

theorem Yields.mono {α : Type} {c : Prop} {P Q : α → Prop} {x : Res α} (h : Yields c P x) (hp : ∀ a, P a → Q a) :
    Yields c Q x := by
  cases x with
  | ok a => exact hp a h
  | throw => trivial
  | ub => exact h

theorem Yields.foldList {α β : Type} {c : Prop} {P : β → Prop} {f : β → α → Res β} {l : List α}
    (hstep : ∀ b, P b → ∀ a ∈ l, Yields c P (f b a)) : ∀ {b : β}, P b → Yields c P (Res.foldList f b l) := by
  induction l with
  | nil => intro b hb; exact hb
  | cons a l ih =>
    intro b hb
    have h1 := hstep b hb a (by simp)
    unfold Res.foldList
    cases hf : f b a with
    | ok b' => rw [hf] at h1; exact ih (fun b hb a ha => hstep b hb a (List.mem_cons_of_mem _ ha)) h1
    | throw => trivial
    | ub => rw [hf] at h1; exact h1

theorem Yields.mapList {α β : Type} {c : Prop} {P : β → Prop} {f : α → Res β} {l : List α}
    (h : ∀ a ∈ l, Yields c P (f a)) : Yields c (fun l' => ∀ b ∈ l', P b) (Res.mapList f l) := by
  induction l with
  | nil => intro b hb; cases hb
  | cons a l ih =>
    have h1 := h a (by simp)
    have h2 := ih (fun a ha => h a (List.mem_cons_of_mem _ ha))
    rw [Res.mapList_cons]
    cases hf : f a with
    | throw => trivial
    | ub => rw [hf] at h1; exact h1
    | ok b =>
      rw [hf] at h1
      cases hm : Res.mapList f l with
      | throw => trivial
      | ub => rw [hm] at h2; exact h2
      | ok bs =>
        rw [hm] at h2
        intro x hx
        rcases List.mem_cons.mp hx with rfl | hx
        · exact h1
        · exact h2 x hx

end Res

open Res (Yields)

theorem Text.atoSize_yields {c : Prop} {t : List Char} (h : c → FitsInt t) : Yields c (fun k => Text.atoSize t = .ok k) (Text.atoSize t) :=
  .of_ne_ub (fun hc => Text.atoSize_ne_ub (h hc)) (fun _ h => h)

variable {F : Type} [Arith F]

/-- A factor which can be read: a constructed one, on the given variables. -/
def Fresh (L : List Var) (f : Fn F) : Prop := FactorReach f ∧ ∀ v ∈ f.vars.group, v ∈ L

theorem Fresh.set {L : List Var} {f : Fn F} (h : Fresh L f) (comb : List Nat) (x : F) :
    Fn.mutableSet comb x f ≠ .ub ∧ ∀ f', Fn.mutableSet comb x f = .ok f' () → Fresh L f' := by
  refine ⟨(C05_set_refuses h.1 comb x).1, fun f' he => ⟨.mutate (op := .set comb x) h.1 he, ?_⟩⟩
  rcases (factorReach_wf h.1).mutableSet comb x with ⟨f1, e1, _, _, _, e2, _⟩ | ⟨e1, _⟩
  · rw [e1] at he; cases he
    rw [e2]; exact h.2
  · rw [e1] at he; cases he

theorem Fresh.exponential {c : Prop} {L : List Var} {f : Fn F} (h : Fresh L f) (w : F) :
    Yields c (fun f' => Fresh L f' ∧ f'.weight.isSome) (Fn.exponential f w) := by
  obtain ⟨e, h1, h2, h3, _⟩ := C12_exponential h.1 w
  rw [h1]
  exact ⟨⟨.exponential h.1 h1, by rw [h2]; exact h.2⟩, by rw [h3]; rfl⟩

/-- A group of variables which are known. -/
structure Known (L : List Var) (g : Group) : Prop where
  reach : GroupReach g
  mem : ∀ v ∈ g.group, v ∈ L
  arity : g.group.length = 1 ∨ g.group.length = 2

theorem Known.soup {c : Prop} {L l : List Var} (h : ∀ v ∈ l, v ∈ L) :
    Yields c (Known L) (if l.length ≠ 1 ∧ l.length ≠ 2 then .throw else Group.ofSoup l) := by
  split
  · trivial
  · refine .of_ne_ub (fun _ => Group.ofSoup_ne_ub l) (fun g hg => ?_)
    obtain ⟨_, _, h3⟩ := Group.ofSoup_eq_ok.mp hg
    have e : g.group = l := by rw [h3]
    exact ⟨.soup hg, by rw [e]; exact h, by rw [e]; omega⟩

theorem Known.fresh {L : List Var} (hL : ∀ v ∈ L, v.WF) {g : Group} (h : Known L g) : Fresh L (Fn.ofGroup g : Fn F) :=
  ⟨.group h.reach (fun v hv => hL v (h.mem v hv)), h.mem⟩

theorem Known.correlated {c : Prop} {L : List Var} (hL : ∀ v ∈ L, v.WF) {g : Group} (h : Known L g) :
    Yields c (Fresh L) (Fn.correlated g : Res (Fn F)) ∧ Yields c (Fresh L) (Fn.antiCorrelated g : Res (Fn F)) := by
  have hv : ∀ v ∈ g.group, v.WF := fun v hv => hL v (h.mem v hv)
  by_cases hs : ∀ v ∈ g.group, ∀ w ∈ g.group, v.size = w.size
  · by_cases h1 : g.group.length = 1
    · obtain ⟨e1, e2⟩ := C11_throws (F := F) h.reach (Or.inl h1)
      rw [e1, e2]; exact ⟨trivial, trivial⟩
    · have hl : 2 ≤ g.group.length := by have := h.arity; omega
      obtain ⟨f1, e1, e2, _⟩ := C11_correlated (F := F) h.reach hv hl hs
      obtain ⟨f2, e3, e4, _⟩ := C11_antiCorrelated (F := F) h.reach hv hl hs
      rw [e1, e3]
      exact ⟨⟨.correlated h.reach hv e1, by rw [e2]; exact h.mem⟩, ⟨.antiCorrelated h.reach hv e3, by rw [e4]; exact h.mem⟩⟩
  · obtain ⟨e1, e2⟩ := C11_throws (F := F) h.reach (Or.inr hs)
    rw [e1, e2]; exact ⟨trivial, trivial⟩

/-- Something which can be inserted. -/
structure Item (L : List Var) (x : Fn F × ItemKind) : Prop where
  fresh : Fresh L x.1
  weight : ∀ share, x.2 = .tunable share → x.1.weight.isSome

/-- The variables which were read have been constructed, with sizes of which `Q` is true. -/
def Sized (Q : Nat → Prop) (r : JsonIn.Read) : Prop := ∀ v ∈ r.vars, v.WF ∧ Q v.size

theorem Sized.emplace {Q : Nat → Prop} {r : JsonIn.Read} (h : Sized Q r) {v : Var} (hv : v.WF ∧ Q v.size)
    (e : List (String × Nat)) : Sized Q ⟨VarSet.emplace r.vars v, e⟩ := by
  intro u hu
  simp only at hu
  unfold VarSet.emplace at hu
  split at hu
  · exact h u hu
  · rcases List.mem_append.mp hu with hu | hu
    · exact h u hu
    · simp at hu; rw [hu]; exact hv

theorem makeVariable_yields {c : Prop} {Q : Nat → Prop} {a n : Nat} {name : String} (h : Q n) :
    Yields c (fun v => v.WF ∧ Q v.size) (makeVariable a n name) := by
  unfold makeVariable
  split
  · trivial
  · rename_i hn
    split
    · trivial
    · rename_i h0
      exact ⟨⟨fun he => hn (by have : name = "" := he; rw [this]; rfl), by show 0 < n; omega⟩, h⟩

/-! ### Reading json -/

namespace JsonIn

theorem field_yields {c : Prop} (j : Json) (k : String) :
    Yields c (fun t => ∃ x, j.tryAccess k = some x ∧ x.toStr = .ok t) (field j k) := by
  unfold field Json.access
  cases h : j.tryAccess k with
  | none => trivial
  | some x =>
    simp only
    cases hx : x.toStr with
    | ok t => exact ⟨x, rfl, hx⟩
    | throw => trivial
    | ub => cases x <;> cases hx

theorem toStr_ne_ub (j : Json) : j.toStr ≠ .ub := by
  cases j <;> exact (nomatch ·)

theorem addVariable_yields {c : Prop} {Q : Nat → Prop} {r : Read} (hr : Sized Q r) {v : Var} (hv : v.WF ∧ Q v.size)
    {flag : Option Json} (hf : c → ∀ x, flag = some x → x.Fits) : Yields c (Sized Q) (addVariable r v flag) := by
  unfold addVariable
  split
  · trivial
  · cases flag with
    | none => exact hr.emplace hv _
    | some x =>
      simp only
      cases hx : x.toStr with
      | throw => trivial
      | ub => exact absurd hx (toStr_ne_ub x)
      | ok t =>
        simp only
        have h := Text.atoSize_yields (c := c) (t := t) (fun hc => hf hc x rfl t hx)
        cases ha : Text.atoSize t with
        | ok k => exact hr.emplace hv _
        | throw => trivial
        | ub => rw [ha] at h; exact h

theorem oneVariable_yields {c : Prop} {Q : Nat → Prop} {o : ImportOrder} {r : Read} (hr : Sized Q r) {j : Json}
    (hc : c → ∀ k ∈ ["Size", "evidence"], ∀ x, j.tryAccess k = some x → x.Fits)
    (hq : ∀ x, j.tryAccess "Size" = some x → ∀ t, x.toStr = .ok t → ∀ k, Text.atoSize t = .ok k → Q k) :
    Yields c (Sized Q) (oneVariable o r j) := by
  unfold oneVariable
  have h1 := field_yields (c := c) j "name"
  cases e1 : field j "name" with
  | throw => trivial
  | ub => rw [e1] at h1; exact h1
  | ok name =>
    simp only
    have h2 := field_yields (c := c) j "Size"
    cases e2 : field j "Size" with
    | throw => trivial
    | ub => rw [e2] at h2; exact h2
    | ok size =>
      rw [e2] at h2
      obtain ⟨x, hx, ht⟩ := h2
      simp only
      have h3 := Text.atoSize_yields (c := c) (t := size) (fun h => hc h "Size" (by simp) x hx size ht)
      cases e3 : Text.atoSize size with
      | throw => trivial
      | ub => rw [e3] at h3; exact h3
      | ok n =>
        simp only
        have h4 := makeVariable_yields (c := c) (Q := Q) (a := o.fresh r.vars.length) (name := String.ofList name)
          (hq x hx size ht n e3)
        cases e4 : makeVariable (o.fresh r.vars.length) n (String.ofList name) with
        | throw => trivial
        | ub => rw [e4] at h4; exact h4
        | ok v =>
          rw [e4] at h4
          exact addVariable_yields hr h4 (fun h x hx => hc h "evidence" (by simp) x hx)

theorem findVariable_yields {c : Prop} {o : ImportOrder} (ho : o.Fair) {L : List Var} (j : Json) :
    Yields c (fun v => v ∈ L) (findVariable o L j) := by
  unfold findVariable
  cases hx : j.toStr with
  | throw => trivial
  | ub => exact absurd hx (toStr_ne_ub j)
  | ok name =>
    simp only
    cases hf : (o.found L).find? (fun v => v.name == String.ofList name) with
    | none => trivial
    | some v => exact (ho.found L).mem_iff.mp (List.mem_of_find?_eq_some hf)

theorem group_yields {c : Prop} {o : ImportOrder} (ho : o.Fair) {L : List Var} (j : Json) :
    Yields c (Known L) (group o L j) := by
  unfold group
  have h := Res.Yields.mapList (c := c) (l := j.items) (fun a _ => findVariable_yields ho (L := L) a)
  cases hm : Res.mapList (findVariable o L) j.items with
  | throw => trivial
  | ub => rw [hm] at h; exact h
  | ok l => rw [hm] at h; exact Known.soup h

theorem value_yields {c : Prop} {j : Json} (h : c → j.Fits) : Yields c (fun _ => True) (value j) := by
  unfold value
  cases hx : j.toStr with
  | throw => trivial
  | ub => exact absurd hx (toStr_ne_ub j)
  | ok t => exact (Text.atoSize_yields (fun hc => h hc t hx)).mono (fun _ _ => trivial)

theorem entry_yields {c : Prop} {tx : FloatText F} {L : List Var} {f : Fn F} (hf : Fresh L f) {j : Json}
    (hc : c → j.Has "v" ∧ ∀ v, j.tryAccess "v" = some v → ∀ x ∈ v.items, x.Fits) :
    Yields c (Fresh L) (entry tx f j) := by
  unfold entry
  cases hi : j.index "v" with
  | throw => trivial
  | ub =>
    intro h
    cases j with
    | obj l =>
      obtain ⟨x, hx⟩ := (hc h).1 l rfl
      unfold Json.index at hi
      simp only at hi
      rw [hx] at hi
      cases hi
    | _ => cases hi
  | ok v =>
    simp only
    have hv : j.tryAccess "v" = some v := by
      unfold Json.index at hi
      cases j with
      | obj l =>
        simp only at hi
        cases ha : (Json.obj l).tryAccess "v" with
        | none => rw [ha] at hi; cases hi
        | some x => rw [ha] at hi; cases hi; rfl
      | _ => cases hi
    have h1 := Res.Yields.mapList (c := c) (l := v.items) (fun a ha => value_yields (fun h => (hc h).2 v hv a ha))
    cases e1 : Res.mapList value v.items with
    | throw => trivial
    | ub => rw [e1] at h1; exact h1
    | ok comb =>
      simp only
      have h2 := field_yields (c := c) j "D"
      cases e2 : field j "D" with
      | throw => trivial
      | ub => rw [e2] at h2; exact h2
      | ok t =>
        simp only
        have h3 := hf.set comb (tx.parse t)
        cases e3 : Fn.mutableSet comb (tx.parse t) f with
        | throw => trivial
        | ub => exact absurd e3 h3.1
        | ok f' u => exact h3.2 f' e3

/-- The condition on one potential. -/
def Entries (j : Json) : Prop := ∀ d, j.tryAccess "Distr_val" = some d →
  ∀ e ∈ d.items, e.Has "v" ∧ ∀ v, e.tryAccess "v" = some v → ∀ x ∈ v.items, x.Fits

theorem images_yields {c : Prop} {tx : FloatText F} {L : List Var} (hL : ∀ v ∈ L, v.WF) {g : Group} (hg : Known L g)
    {j : Json} (hc : c → Entries j) : Yields c (Fresh L) (images (F := F) tx g j) := by
  unfold images Json.access
  cases h : j.tryAccess "Distr_val" with
  | none => trivial
  | some d => exact Res.Yields.foldList (fun f hf e he => entry_yields hf (fun h' => hc h' d h e he)) (hg.fresh hL)

theorem factor_yields {c : Prop} {tx : FloatText F} {o : ImportOrder} (ho : o.Fair) {L : List Var} (hL : ∀ v ∈ L, v.WF)
    {j : Json} (hc : c → Entries j) : Yields c (Fresh L) (factor (F := F) tx o L j) := by
  unfold factor Json.access
  cases h : j.tryAccess "Variables" with
  | none => trivial
  | some vs =>
    simp only
    have h1 := group_yields (c := c) ho (L := L) vs
    cases e1 : group o L vs with
    | throw => trivial
    | ub => rw [e1] at h1; exact h1
    | ok g =>
      rw [e1] at h1
      simp only
      cases h2 : j.tryAccess "Correlation" with
      | none => exact images_yields hL h1 hc
      | some x =>
        simp only
        cases h3 : x.toStr with
        | throw => trivial
        | ub => exact absurd h3 (toStr_ne_ub x)
        | ok t =>
          simp only
          split
          · exact (h1.correlated hL).1
          · split
            · exact (h1.correlated hL).2
            · trivial

theorem kind_yields {c : Prop} {o : ImportOrder} (ho : o.Fair) {L : List Var} (j : Json) :
    Yields c (fun _ => True) (kind o L j) := by
  unfold kind
  cases h : j.tryAccess "tunability" with
  | none => trivial
  | some x =>
    simp only
    cases h3 : x.toStr with
    | throw => trivial
    | ub => exact absurd h3 (toStr_ne_ub x)
    | ok t =>
      simp only
      split
      · cases h4 : j.tryAccess "Share" with
        | none => trivial
        | some sh =>
          simp only
          have h1 := group_yields (c := c) ho (L := L) sh
          cases e1 : group o L sh with
          | throw => trivial
          | ub => rw [e1] at h1; exact h1
          | ok g => trivial
      · trivial

theorem potential_yields {c : Prop} {tx : FloatText F} {o : ImportOrder} (ho : o.Fair) {L : List Var} (hL : ∀ v ∈ L, v.WF)
    {j : Json} (hc : c → Entries j) : Yields c (Item L) (potential (F := F) tx o L j) := by
  unfold potential
  have h1 := factor_yields (tx := tx) ho hL hc
  cases e1 : factor tx o L j with
  | throw => trivial
  | ub => rw [e1] at h1; exact h1
  | ok f =>
    rw [e1] at h1
    simp only
    cases h2 : j.tryAccess "weight" with
    | none => exact ⟨h1, fun _ h => by cases h⟩
    | some w =>
      simp only
      cases h3 : w.toStr with
      | throw => trivial
      | ub => exact absurd h3 (toStr_ne_ub w)
      | ok t =>
        simp only
        have h4 := Fresh.exponential (c := c) h1 (tx.parse t)
        cases e4 : Fn.exponential f (tx.parse t) with
        | throw => trivial
        | ub => rw [e4] at h4; exact h4
        | ok f' =>
          rw [e4] at h4
          simp only
          have h5 := kind_yields (c := c) ho (L := L) j
          cases e5 : kind o L j with
          | throw => trivial
          | ub => rw [e5] at h5; exact h5
          | ok k => exact ⟨h4.1, fun _ _ => h4.2⟩

end JsonIn

/-! ### Reading xml -/

namespace XmlIn
open JsonIn (Read)

theorem addVariable_yields {c : Prop} {Q : Nat → Prop} {r : Read} (hr : Sized Q r) {v : Var} (hv : v.WF ∧ Q v.size)
    {flag : Option (List Char)} (hf : c → ∀ x, flag = some x → FitsInt x) : Yields c (Sized Q) (addVariable r v flag) := by
  unfold addVariable
  split
  · trivial
  · cases flag with
    | none => exact hr.emplace hv _
    | some t =>
      simp only
      have h := Text.atoSize_yields (c := c) (t := t) (fun hc => hf hc t rfl)
      cases ha : Text.atoSize t with
      | ok k => exact hr.emplace hv _
      | throw => trivial
      | ub => rw [ha] at h; exact h

theorem oneVariable_yields {c : Prop} {Q : Nat → Prop} {o : ImportOrder} {r : Read} (hr : Sized Q r) {t : Tag}
    (hc : c → ∀ k ∈ ["Size", "evidence"], ∀ x, t.tryAttribute k = some x → FitsInt x)
    (hq : ∀ x, t.tryAttribute "Size" = some x → ∀ k, Text.atoSize x = .ok k → Q k) :
    Yields c (Sized Q) (oneVariable o r t) := by
  unfold oneVariable Tag.access
  cases h1 : t.tryAttribute "name" with
  | none => trivial
  | some name =>
    simp only
    cases h2 : t.tryAttribute "Size" with
    | none => trivial
    | some size =>
      simp only
      have h3 := Text.atoSize_yields (c := c) (t := size) (fun h => hc h "Size" (by simp) size h2)
      cases e3 : Text.atoSize size with
      | throw => trivial
      | ub => rw [e3] at h3; exact h3
      | ok n =>
        simp only
        have h4 := makeVariable_yields (c := c) (Q := Q) (a := o.fresh r.vars.length) (name := String.ofList name)
          (hq size h2 n e3)
        cases e4 : makeVariable (o.fresh r.vars.length) n (String.ofList name) with
        | throw => trivial
        | ub => rw [e4] at h4; exact h4
        | ok v =>
          rw [e4] at h4
          exact addVariable_yields hr h4 (fun h x hx => hc h "evidence" (by simp) x hx)

theorem findVariable_yields {c : Prop} {o : ImportOrder} (ho : o.Fair) {L : List Var} (name : List Char) :
    Yields c (fun v => v ∈ L) (findVariable o L name) := by
  unfold findVariable
  cases hf : (o.found L).find? (fun v => v.name == String.ofList name) with
  | none => trivial
  | some v => exact (ho.found L).mem_iff.mp (List.mem_of_find?_eq_some hf)

theorem group_yields {c : Prop} {o : ImportOrder} (ho : o.Fair) {L : List Var} (t : Tag) :
    Yields c (Known L) (group o L t) := by
  unfold group
  have h := Res.Yields.mapList (c := c) (l := t.attributesOf "var") (fun a _ => findVariable_yields ho (L := L) a)
  cases hm : Res.mapList (findVariable o L) (t.attributesOf "var") with
  | throw => trivial
  | ub => rw [hm] at h; exact h
  | ok l => rw [hm] at h; exact Known.soup h

theorem entry_yields {c : Prop} {tx : FloatText F} {L : List Var} {f : Fn F} (hf : Fresh L f) {t : Tag}
    (hc : c → ∀ x ∈ t.attributesOf "v", FitsInt x) : Yields c (Fresh L) (entry tx f t) := by
  unfold entry Tag.access
  have h1 := Res.Yields.mapList (c := c) (l := t.attributesOf "v") (P := fun _ => True)
    (fun a ha => (Text.atoSize_yields (fun h => hc h a ha)).mono (fun _ _ => trivial))
  cases e1 : Res.mapList Text.atoSize (t.attributesOf "v") with
  | throw => trivial
  | ub => rw [e1] at h1; exact h1
  | ok comb =>
    simp only
    cases h2 : t.tryAttribute "D" with
    | none => trivial
    | some d =>
      simp only
      have h3 := hf.set comb (tx.parse d)
      cases e3 : Fn.mutableSet comb (tx.parse d) f with
      | throw => trivial
      | ub => exact absurd e3 h3.1
      | ok f' u => exact h3.2 f' e3

/-- The lines of a file with values. -/
def Readable (content : List Char) : Prop := ∀ ls, HasLines ls content → ∀ l ∈ ls, ∀ ws, Spells ws l →
  ws ≠ [] ∧ ∀ w ∈ ws, FitsInt w

theorem parse_ne_ub {tx : FloatText F} {l : List Char} (h : ∀ ws, Spells ws l → ws ≠ [] ∧ ∀ w ∈ ws, FitsInt w) :
    Text.parseCombinationImage tx l ≠ .ub := by
  obtain ⟨ws, h1, h2⟩ := Text.spells_words l [] (by simp)
  obtain ⟨h3, h4⟩ := h ws h2
  unfold Text.parseCombinationImage
  simp only
  rw [h1, List.getLast?_eq_some_getLast h3]
  simp only
  have := Res.mapList_ne_ub (f := Text.atoSize) (l := ws.dropLast)
    (fun a ha => Text.atoSize_ne_ub (h4 a (List.mem_of_mem_dropLast ha)))
  cases hm : Res.mapList Text.atoSize ws.dropLast with
  | ok comb => exact (nomatch ·)
  | throw => exact (nomatch ·)
  | ub => exact absurd hm this

theorem lines_yields {c : Prop} {tx : FloatText F} {L : List Var} {n : Nat} (ls : List (List Char))
    (hc : c → ∀ l ∈ ls, ∀ ws, Spells ws l → ws ≠ [] ∧ ∀ w ∈ ws, FitsInt w) : ∀ {f : Fn F}, Fresh L f →
    match Text.onEach (Text.valuesLine tx n) ls f with
    | .ok f' _ => Fresh L f'
    | .throw _ => True
    | .ub => ¬ c := by
  induction ls with
  | nil => intro f hf; exact hf
  | cons l ls ih =>
    intro f hf
    unfold Text.onEach Text.valuesLine
    cases h1 : Text.parseCombinationImage tx l with
    | throw => trivial
    | ub => exact fun h => parse_ne_ub (fun ws hw => hc h l (by simp) ws hw) h1
    | ok e =>
      obtain ⟨comb, img⟩ := e
      simp only
      by_cases hn : comb.length = n
      · rw [if_neg (by simpa using hn)]
        have h3 := hf.set comb img
        cases e3 : Fn.mutableSet comb img f with
        | throw => trivial
        | ub => exact absurd e3 h3.1
        | ok f' u => exact ih (fun h l' hl' => hc h l' (List.mem_cons_of_mem _ hl')) (h3.2 f' e3)
      · rw [if_pos (by simpa using hn)]; trivial

/-- The condition on one potential. -/
structure Entries (files : List Char → Option (List Char)) (t : Tag) : Prop where
  values : ∀ e ∈ t.nestedOf "Distr_val", ∀ x ∈ e.attributesOf "v", FitsInt x
  sources : ∀ name, t.tryAttribute "Source" = some name → ∀ content, files name = some content → Readable content

theorem images_yields {c : Prop} {tx : FloatText F} {files : List Char → Option (List Char)} {L : List Var}
    (hL : ∀ v ∈ L, v.WF) {g : Group} (hg : Known L g) {t : Tag} (hc : c → Entries files t) :
    Yields c (Fresh L) (images (F := F) tx files g t) := by
  unfold images
  cases h : t.tryAttribute "Source" with
  | none => exact Res.Yields.foldList (fun f hf e he => entry_yields hf (fun h' => (hc h').values e he)) (hg.fresh hL)
  | some name =>
    simp only
    unfold Text.importValues
    cases hfile : files name with
    | none => trivial
    | some content =>
      simp only
      have hcl : Fresh L ((Fn.ofGroup g : Fn F).clear) :=
        ⟨.mutate (op := .clear) (hg.fresh hL).1 rfl, (hg.fresh (F := F) hL).2⟩
      have := lines_yields (c := c) (tx := tx) (n := (Fn.ofGroup g : Fn F).vars.group.length) (Text.lines content)
        (fun h' => (hc h').sources name h content hfile _ (Text.hasLines_lines content)) hcl
      cases ho : Text.onEach (Text.valuesLine tx (Fn.ofGroup g : Fn F).vars.group.length) (Text.lines content)
          ((Fn.ofGroup g : Fn F).clear) with
      | ok f u => rw [ho] at this; exact this
      | throw f => trivial
      | ub => rw [ho] at this; exact this

theorem factor_yields {c : Prop} {tx : FloatText F} {files : List Char → Option (List Char)} {o : ImportOrder} (ho : o.Fair)
    {L : List Var} (hL : ∀ v ∈ L, v.WF) {t : Tag} (hc : c → Entries files t) :
    Yields c (Fresh L) (factor (F := F) tx files o L t) := by
  unfold factor
  have h1 := group_yields (c := c) ho (L := L) t
  cases e1 : group o L t with
  | throw => trivial
  | ub => rw [e1] at h1; exact h1
  | ok g =>
    rw [e1] at h1
    simp only
    cases h2 : t.tryAttribute "Correlation" with
    | none => exact images_yields hL h1 hc
    | some x =>
      simp only
      split
      · exact (h1.correlated hL).1
      · split
        · exact (h1.correlated hL).2
        · trivial

theorem kind_yields {c : Prop} {o : ImportOrder} (ho : o.Fair) {L : List Var} (t : Tag) :
    Yields c (fun _ => True) (kind o L t) := by
  unfold kind
  split
  · cases h4 : t.nestedOf "Share" with
    | nil => trivial
    | cons sh _ =>
      simp only
      have h1 := group_yields (c := c) ho (L := L) sh
      cases e1 : group o L sh with
      | throw => trivial
      | ub => rw [e1] at h1; exact h1
      | ok g => trivial
  · trivial

theorem potential_yields {c : Prop} {tx : FloatText F} {files : List Char → Option (List Char)} {o : ImportOrder} (ho : o.Fair)
    {L : List Var} (hL : ∀ v ∈ L, v.WF) {t : Tag} (hc : c → Entries files t) :
    Yields c (Item L) (potential (F := F) tx files o L t) := by
  unfold potential
  have h1 := factor_yields (tx := tx) ho hL hc
  cases e1 : factor tx files o L t with
  | throw => trivial
  | ub => rw [e1] at h1; exact h1
  | ok f =>
    rw [e1] at h1
    simp only
    cases h2 : t.tryAttribute "weight" with
    | none => exact ⟨h1, fun _ h => by cases h⟩
    | some w =>
      simp only
      have h4 := Fresh.exponential (c := c) h1 (tx.parse w)
      cases e4 : Fn.exponential f (tx.parse w) with
      | throw => trivial
      | ub => rw [e4] at h4; exact h4
      | ok f' =>
        rw [e4] at h4
        simp only
        have h5 := kind_yields (c := c) ho (L := L) t
        cases e5 : kind o L t with
        | throw => trivial
        | ub => rw [e5] at h5; exact h5
        | ok k => exact ⟨h4.1, fun _ _ => h4.2⟩

end XmlIn
end EFG
