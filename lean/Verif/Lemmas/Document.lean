import Verif.Spec.Document
import Verif.Lemmas.ImportState
/- What is read is what the document says. -/

set_option linter.unusedSectionVars false

namespace EFG

/-! ### Numbers -/

namespace Text

theorem not_mem_of_not_isDigit {c : Char} (h : c.isDigit = false) : c ∉ "0123456789".toList := by
  intro hm
  have : ∀ c ∈ "0123456789".toList, c.isDigit = true := by decide
  rw [this c hm] at h
  cases h

theorem head_dropWhile {α : Type} {p : α → Bool} {l : List α} : ∀ c ∈ (l.dropWhile p).head?, p c = false := by
  intro c hc
  cases hl : l.dropWhile p with
  | nil => rw [hl] at hc; cases hc
  | cons a r =>
    rw [hl] at hc
    simp at hc
    rw [← hc]
    have := List.head_dropWhile_not p (w := by rw [hl]; simp)
    simpa [hl] using this

theorem leadingNumber_spec (l : List Char) : ∃ ds rest, l = ds ++ rest ∧ (∀ c ∈ ds, c ∈ "0123456789".toList) ∧
    (∀ c ∈ rest.head?, c ∉ "0123456789".toList) ∧
    ds.foldl (fun x c => 10 * x + (c.toNat - '0'.toNat)) 0 = leadingNumber l := by
  refine ⟨l.takeWhile Char.isDigit, l.dropWhile Char.isDigit, List.takeWhile_append_dropWhile.symm,
    fun c hc => isDigit_mem (mem_takeWhile_true c hc), fun c hc => not_mem_of_not_isDigit (head_dropWhile c hc), ?_⟩
  unfold leadingNumber
  rw [ofDigitChars_eq]

theorem atoSize_denotes {t : List Char} {n : Nat} (h : atoSize t = .ok n) : Denotes t n := by
  unfold atoSize atoi at h
  simp only at h
  have hl : t = t.takeWhile isSpace ++ t.dropWhile isSpace := List.takeWhile_append_dropWhile.symm
  have hw : ∀ c ∈ t.takeWhile isSpace, Blank c := fun c hc => (isSpace_iff c).mp (mem_takeWhile_true c hc)
  have hh : ∀ c ∈ (t.dropWhile isSpace).head?, ¬ Blank c := by
    intro c hc hb
    have h1 := head_dropWhile c hc
    rw [(isSpace_iff c).mpr hb] at h1
    cases h1
  generalize t.takeWhile isSpace = ws at hl hw
  generalize t.dropWhile isSpace = r at h hl hh
  by_cases hr : signedNumber r < -(2 ^ 31) ∨ 2 ^ 31 ≤ signedNumber r
  · rw [if_pos hr] at h; cases h
  · rw [if_neg hr] at h
    simp only [Res.ok.injEq] at h
    unfold signedNumber at h hr
    by_cases h1 : r.head? = some '-'
    · obtain ⟨r', rfl⟩ : ∃ r', r = '-' :: r' := by
        cases r with
        | nil => cases h1
        | cons a r => simp at h1; exact ⟨r, by rw [h1]⟩
      rw [if_pos h1, List.tail_cons] at h hr
      obtain ⟨ds, rest, e, h2, h3, h4⟩ := leadingNumber_spec r'
      refine ⟨ws, ['-'], ds, rest, by rw [hl, e]; simp, hw, by rw [e] at hh; simpa using hh, Or.inl rfl, h2, h3, _, h4, ?_⟩
      rw [if_pos rfl]
      generalize leadingNumber r' = v at h hr
      refine ⟨by omega, ?_⟩
      by_cases h0 : v = 0
      · subst h0
        right
        exact ⟨by rw [← h]; rfl, rfl⟩
      · left
        omega
    · rw [if_neg h1] at h hr
      by_cases h2 : r.head? = some '+'
      · obtain ⟨r', rfl⟩ : ∃ r', r = '+' :: r' := by
          cases r with
          | nil => cases h2
          | cons a r => simp at h2; exact ⟨r, by rw [h2]⟩
        rw [if_pos h2, List.tail_cons] at h hr
        obtain ⟨ds, rest, e, h3, h4, h5⟩ := leadingNumber_spec r'
        refine ⟨ws, ['+'], ds, rest, by rw [hl, e]; simp, hw, by rw [e] at hh; simpa using hh, Or.inr (Or.inl rfl), h3, h4, _, h5, ?_⟩
        rw [if_neg (by decide)]
        generalize leadingNumber r' = v at h hr
        refine ⟨?_, by omega⟩
        rw [Int.emod_eq_of_lt (by omega) (by omega)] at h
        omega
      · rw [if_neg h2] at h hr
        obtain ⟨ds, rest, e, h3, h4, h5⟩ := leadingNumber_spec r
        refine ⟨ws, [], ds, rest, by rw [hl, e]; simp, hw, by rw [e] at hh; simpa using hh, Or.inr (Or.inr ⟨rfl, ?_⟩), h3, h4, _, h5, ?_⟩
        · intro c hc
          rw [← e] at hc
          have hc' : r.head? = some c := hc
          constructor
          · intro h6; rw [h6] at hc'; exact h1 hc'
          · intro h6; rw [h6] at hc'; exact h2 hc'
        · rw [if_neg (by decide)]
          generalize leadingNumber r = v at h hr
          refine ⟨?_, by omega⟩
          rw [Int.emod_eq_of_lt (by omega) (by omega)] at h
          omega

end Text

theorem Res.mapList_forall₂ {α β : Type} {f : α → Res β} {l : List α} : ∀ {l' : List β}, Res.mapList f l = .ok l' →
    List.Forall₂ (fun a b => f a = .ok b) l l' := by
  induction l with
  | nil => intro l' h; cases h; exact .nil
  | cons a l ih =>
    intro l' h
    rw [Res.mapList_cons] at h
    cases ha : f a with
    | throw => rw [ha] at h; cases h
    | ub => rw [ha] at h; cases h
    | ok b =>
      rw [ha] at h
      simp only at h
      cases hm : Res.mapList f l with
      | throw => rw [hm] at h; cases h
      | ub => rw [hm] at h; cases h
      | ok bs =>
        rw [hm] at h
        cases h
        exact .cons ha (ih hm)

theorem forall₂_map_right {α β γ : Type} {r : α → β → Prop} {q : α → γ → Prop} {g : β → γ} (h : ∀ a b, r a b → q a (g b)) :
    ∀ {l : List α} {l' : List β}, List.Forall₂ r l l' → List.Forall₂ q l (l'.map g)
  | _, _, .nil => .nil
  | _, _, .cons h1 h2 => .cons (h _ _ h1) (forall₂_map_right h h2)

theorem forall₂_mono {α β : Type} {r q : α → β → Prop} (h : ∀ a b, r a b → q a b) :
    ∀ {l : List α} {l' : List β}, List.Forall₂ r l l' → List.Forall₂ q l l'
  | _, _, .nil => .nil
  | _, _, .cons h1 h2 => .cons (h _ _ h1) (forall₂_mono h h2)

theorem forall₂_exists {α β : Type} {r : α → β → Prop} : ∀ {l : List α}, (∀ a ∈ l, ∃ b, r a b) → ∃ l', List.Forall₂ r l l'
  | [], _ => ⟨[], .nil⟩
  | a :: l, h => by
    obtain ⟨b, hb⟩ := h a (by simp)
    obtain ⟨l', hl⟩ := forall₂_exists (fun a ha => h a (List.mem_cons_of_mem _ ha))
    exact ⟨b :: l', .cons hb hl⟩

variable {F : Type} [Arith F]

/-! ### Images -/

/-- The images are those of the list, the last one for each combination, or those of `f`. -/
structure Drew (tx : FloatText F) (l : List (List Nat × List Char)) (f f' : Fn F) : Prop where
  wf : f'.WF
  fv : f'.vars = f.vars
  sizes : f'.sizes = f.sizes
  weight : f'.weight = f.weight
  img : ∀ q, Valid f.sizes q → f'.img q = Text.lastImage tx l q (f.img q)

theorem Drew.step {tx : FloatText F} {f f1 f' : Fn F} (hf : f.WF) {e : List Nat × List Char} {l : List (List Nat × List Char)}
    (h1 : Fn.mutableSet e.1 (tx.parse e.2) f = .ok f1 ()) (h : f1.WF → Drew tx l f1 f') : Drew tx (e :: l) f f' := by
  rcases hf.mutableSet e.1 (tx.parse e.2) with ⟨f2, g1, _, _, g2, g3, g4, g5, g6⟩ | ⟨g1, _⟩
  · rw [g1] at h1; cases h1
    obtain ⟨k1, k2, k3, k4, k5⟩ := h g2
    refine ⟨k1, k2.trans g3, k3.trans g4, k4.trans g5, ?_⟩
    intro q hq
    rw [k5 q (by rw [g4]; exact hq), g6 q hq]
    show _ = Text.lastImage tx l q (if e.1 = q then tx.parse e.2 else f.img q)
    by_cases he : q = e.1
    · rw [if_pos he, if_pos he.symm]
    · rw [if_neg he, if_neg (fun h => he h.symm)]
  · rw [g1] at h1; cases h1

theorem lastImage_draws {tx : FloatText F} (q : List Nat) : ∀ (l : List (List Nat × List Char)) (x : F),
    (∃ before t after, l = before ++ (q, t) :: after ∧ (∀ e ∈ after, e.1 ≠ q) ∧ Text.lastImage tx l q x = tx.parse t) ∨
      ((∀ e ∈ l, e.1 ≠ q) ∧ Text.lastImage tx l q x = x)
  | [], x => Or.inr ⟨by simp, rfl⟩
  | e :: l, x => by
    have h1 : Text.lastImage tx (e :: l) q x = Text.lastImage tx l q (if e.1 = q then tx.parse e.2 else x) := rfl
    rw [h1]
    rcases lastImage_draws (tx := tx) q l (if e.1 = q then tx.parse e.2 else x) with ⟨b, t, a, h2, h3, h4⟩ | ⟨h2, h3⟩
    · exact Or.inl ⟨e :: b, t, a, by rw [h2]; rfl, h3, h4⟩
    · by_cases he : e.1 = q
      · refine Or.inl ⟨[], e.2, l, by rw [← he]; rfl, h2, ?_⟩
        rw [h3, if_pos he]
      · refine Or.inr ⟨?_, by rw [h3, if_neg he]⟩
        intro e' he'
        rcases List.mem_cons.mp he' with rfl | he'
        · exact he
        · exact h2 e' he'

/-- A function on a group of variables, with the given images and no weight. -/
structure Formed (tx : FloatText F) (g : Group) (sh : Shape) (f : Fn F) : Prop where
  wf : f.WF
  fv : f.vars = g
  weight : f.weight = none
  images : ∀ q, Valid f.sizes q → sh.Draws tx q (f.img q)

theorem Drew.formed {tx : FloatText F} {l : List (List Nat × List Char)} {f f' : Fn F} (h : Drew tx l f f')
    (hz : ∀ q, f.img q = Arith.zero) (hw : f.weight = none) : Formed tx f.vars (.images l) f' := by
  refine ⟨h.wf, h.fv, h.weight.trans hw, ?_⟩
  intro q hq
  rw [h.img q (by rw [← h.sizes]; exact hq), hz]
  rcases lastImage_draws (tx := tx) q l Arith.zero with ⟨b, t, a, h2, h3, h4⟩ | ⟨h2, h3⟩
  · exact Or.inl ⟨b, t, a, h2, h3, h4⟩
  · exact Or.inr ⟨h2, h3⟩

theorem Known.wf {L : List Var} (hL : ∀ v ∈ L, v.WF) {g : Group} (h : Known L g) : g.WF ∧ ∀ v ∈ g.group, 0 < v.size :=
  ⟨groupReach_wf h.reach, fun v hv => (hL v (h.mem v hv)).2⟩

theorem Known.formed {L : List Var} (hL : ∀ v ∈ L, v.WF) {g : Group} (h : Known L g) {tx : FloatText F} {f : Fn F} :
    (Fn.correlated g = .ok f → Formed tx g .equal f) ∧ (Fn.antiCorrelated g = .ok f → Formed tx g .different f) := by
  obtain ⟨hg, hp⟩ := h.wf hL
  by_cases hs : ∀ v ∈ g.group, ∀ w ∈ g.group, v.size = w.size
  · by_cases h1 : g.group.length = 1
    · obtain ⟨e1, e2⟩ := C11_throws (F := F) h.reach (Or.inl h1)
      rw [e1, e2]; exact ⟨(nomatch ·), (nomatch ·)⟩
    · obtain ⟨f1, e1, e2, e3, e4, e5⟩ := Fn.correlated_ok (F := F) hg hp hs h1
      obtain ⟨f2, d1, d2, d3, d4, d5⟩ := Fn.antiCorrelated_ok (F := F) hg hp hs h1
      rw [e1, d1]
      constructor
      · intro he; cases he
        refine ⟨e2, e3, e4, fun q hq => ?_⟩
        rw [e5 q hq]
        by_cases hc : ∀ i ∈ q, ∀ j ∈ q, i = j
        · rw [if_pos hc]; exact Or.inl ⟨hc, rfl⟩
        · rw [if_neg hc]; exact Or.inr ⟨hc, rfl⟩
      · intro he; cases he
        refine ⟨d2, d3, d4, fun q hq => ?_⟩
        rw [d5 q hq]
        by_cases hc : ∀ i ∈ q, ∀ j ∈ q, i = j
        · rw [if_pos hc]; exact Or.inl ⟨hc, rfl⟩
        · rw [if_neg hc]; exact Or.inr ⟨hc, rfl⟩
  · obtain ⟨e1, e2⟩ := C11_throws (F := F) h.reach (Or.inr hs)
    rw [e1, e2]; exact ⟨(nomatch ·), (nomatch ·)⟩

/-- What was read is what is described. -/
structure Made (tx : FloatText F) (L : List Var) (d : Draft) (x : Fn F × ItemKind) : Prop where
  item : Item L x
  drawn : x.1.Drawn tx d
  weight : x.1.weight = d.weight.map tx.parse
  kind : match x.2 with
    | .const => d.tunable = false ∧ d.share = none
    | .tunable none => d.tunable = true ∧ d.share = none
    | .tunable (some g) => d.tunable = true ∧ ∃ l, d.share = some l ∧ ∀ n, n ∈ g.map Var.name ↔ n ∈ l

theorem Formed.drawn {tx : FloatText F} {g : Group} {d : Draft} {f : Fn F} (h : Formed tx g d.shape f)
    (hn : g.group.map Var.name = d.names) : f.Drawn tx d := by
  refine ⟨by rw [h.fv]; exact hn, fun q hq => ?_⟩
  rw [← h.wf.sizes'] at hq
  exact ⟨_, h.wf.findImage hq, h.images q hq⟩

theorem Formed.exponential {tx : FloatText F} {g : Group} {sh : Shape} {f e : Fn F} (h : Formed tx g sh f) {w : F}
    (he : Fn.exponential f w = .ok e) : Formed tx g sh { e with weight := none } ∧ e.weight = some w ∧ e.WF := by
  obtain ⟨e', h1, h2, h3, h4, h5, h6⟩ := h.wf.exponential w
  rw [h1] at he; cases he
  refine ⟨⟨⟨h2.group, h2.sizes_eq, h2.tot_eq, h2.pos, h2.store⟩, h3.trans h.fv, rfl, ?_⟩, h5, h2⟩
  intro q hq
  have hq' : Valid f.sizes q := by rw [← h4]; exact hq
  have : ({ e with weight := none } : Fn F).img q = e.img q := rfl
  rw [this, h6 q hq']
  exact h.images q hq'

/-! ### Json -/

namespace JsonIn

theorem hasText_of {j : Json} {t : List Char} (h : j.toStr = .ok t) : j.HasText t := by
  cases j with
  | str s => cases h; exact ⟨s, rfl, rfl⟩
  | _ => cases h

theorem field_of {j : Json} {k : String} {t : List Char} (h : field j k = .ok t) : j.Field k t := by
  have := field_yields (c := True) j k
  rw [h] at this
  obtain ⟨x, h1, h2⟩ := this
  exact ⟨x, h1, hasText_of h2⟩

theorem findVariable_of {o : ImportOrder} {L : VarSet} {j : Json} {v : Var} (h : findVariable o L j = .ok v) :
    j.HasText v.name.toList := by
  unfold findVariable at h
  cases hx : j.toStr with
  | throw => rw [hx] at h; cases h
  | ub => rw [hx] at h; cases h
  | ok name =>
    rw [hx] at h
    simp only at h
    cases hf : (o.found L).find? (fun v => v.name == String.ofList name) with
    | none => rw [hf] at h; cases h
    | some v' =>
      rw [hf] at h
      cases h
      have h1 := List.find?_some hf
      have h2 : v.name = String.ofList name := by simpa using h1
      rw [h2, String.toList_ofList]
      exact hasText_of hx

theorem group_of {o : ImportOrder} (ho : o.Fair) {L : VarSet} {j : Json} {g : Group} (h : group o L j = .ok g) :
    Known L g ∧ j.Names (g.group.map Var.name) ∧ g.sorted = g.group := by
  have h0 := group_yields (c := True) ho (L := L) j
  rw [h] at h0
  refine ⟨h0, ?_⟩
  unfold group at h
  cases hm : Res.mapList (findVariable o L) j.items with
  | throw => rw [hm] at h; cases h
  | ub => rw [hm] at h; cases h
  | ok l =>
    rw [hm] at h
    simp only at h
    split at h
    · cases h
    · obtain ⟨_, _, h3⟩ := Group.ofSoup_eq_ok.mp h
      rw [h3]
      exact ⟨forall₂_map_right (q := fun (x : Json) (n : String) => x.HasText n.toList) (g := Var.name)
        (fun a b hab => findVariable_of hab) (Res.mapList_forall₂ hm), rfl⟩

theorem value_of {j : Json} {n : Nat} (h : value j = .ok n) : ∃ t, j.HasText t ∧ Denotes t n := by
  unfold value at h
  cases hx : j.toStr with
  | throw => rw [hx] at h; cases h
  | ub => rw [hx] at h; cases h
  | ok t =>
    rw [hx] at h
    exact ⟨t, hasText_of hx, Text.atoSize_denotes h⟩

theorem index_of {j : Json} {k : String} {v : Json} (hi : j.index k = .ok v) : j.tryAccess k = some v := by
  unfold Json.index at hi
  cases j with
  | obj l =>
    simp only at hi
    cases ha : (Json.obj l).tryAccess k with
    | none => rw [ha] at hi; cases hi
    | some x => rw [ha] at hi; cases hi; rfl
  | _ => cases hi

theorem entry_of {tx : FloatText F} {f f' : Fn F} {j : Json} (h : entry tx f j = .ok f') :
    ∃ e, j.Image e ∧ Fn.mutableSet e.1 (tx.parse e.2) f = .ok f' () := by
  unfold entry at h
  cases hi : j.index "v" with
  | throw => rw [hi] at h; cases h
  | ub => rw [hi] at h; cases h
  | ok v =>
    rw [hi] at h
    simp only at h
    cases e1 : Res.mapList value v.items with
    | throw => rw [e1] at h; cases h
    | ub => rw [e1] at h; cases h
    | ok comb =>
      rw [e1] at h
      simp only at h
      cases e2 : field j "D" with
      | throw => rw [e2] at h; cases h
      | ub => rw [e2] at h; cases h
      | ok t =>
        rw [e2] at h
        simp only at h
        cases e3 : Fn.mutableSet comb (tx.parse t) f with
        | throw => rw [e3] at h; cases h
        | ub => rw [e3] at h; cases h
        | ok f1 u =>
          rw [e3] at h
          cases h
          exact ⟨(comb, t), ⟨⟨v, index_of hi, forall₂_mono (fun _ _ h => value_of h) (Res.mapList_forall₂ e1)⟩, field_of e2⟩, e3⟩

theorem entries_of {tx : FloatText F} {js : List Json} : ∀ {f f' : Fn F}, f.WF → Res.foldList (entry tx) f js = .ok f' →
    ∃ l, List.Forall₂ Json.Image js l ∧ Drew tx l f f' := by
  induction js with
  | nil => intro f f' hf h; cases h; exact ⟨[], .nil, hf, rfl, rfl, rfl, fun _ _ => rfl⟩
  | cons j js ih =>
    intro f f' hf h
    unfold Res.foldList at h
    cases e1 : entry tx f j with
    | throw => rw [e1] at h; cases h
    | ub => rw [e1] at h; cases h
    | ok f1 =>
      rw [e1] at h
      obtain ⟨e, h1, h2⟩ := entry_of e1
      have hw : f1.WF := by
        rcases hf.mutableSet e.1 (tx.parse e.2) with ⟨f2, g1, _, _, g2, _⟩ | ⟨g1, _⟩
        · rw [g1] at h2; cases h2; exact g2
        · rw [g1] at h2; cases h2
      obtain ⟨l, h3, h4⟩ := ih hw h
      exact ⟨e :: l, .cons h1 h3, Drew.step hf h2 (fun _ => h4)⟩

theorem factor_of {tx : FloatText F} {o : ImportOrder} (ho : o.Fair) {L : VarSet} (hL : ∀ v ∈ L, v.WF) {j : Json} {f : Fn F}
    (h : factor tx o L j = .ok f) : ∃ g sh, Known L g ∧ Formed tx g sh f ∧
      (∃ vs, j.tryAccess "Variables" = some vs ∧ vs.Names (g.group.map Var.name)) ∧
      match sh with
      | .equal => j.Field "Correlation" ['T']
      | .different => j.Field "Correlation" ['F']
      | .images l => j.tryAccess "Correlation" = none ∧ ∃ v, j.tryAccess "Distr_val" = some v ∧ List.Forall₂ Json.Image v.items l := by
  unfold factor Json.access at h
  cases h0 : j.tryAccess "Variables" with
  | none => rw [h0] at h; cases h
  | some vs =>
    rw [h0] at h
    simp only at h
    cases e1 : group o L vs with
    | throw => rw [e1] at h; cases h
    | ub => rw [e1] at h; cases h
    | ok g =>
      rw [e1] at h
      simp only at h
      obtain ⟨hk, hn, _⟩ := group_of ho e1
      cases h2 : j.tryAccess "Correlation" with
      | none =>
        rw [h2] at h
        simp only at h
        unfold images Json.access at h
        cases h3 : j.tryAccess "Distr_val" with
        | none => rw [h3] at h; cases h
        | some d =>
          rw [h3] at h
          simp only at h
          obtain ⟨hg, hp⟩ := hk.wf hL
          obtain ⟨l, h4, h5⟩ := entries_of (Fn.ofGroup_wf hg hp) h
          exact ⟨g, .images l, hk, h5.formed (fun q => Fn.ofGroup_img g q) rfl, ⟨vs, rfl, hn⟩, rfl, d, rfl, h4⟩
      | some x =>
        rw [h2] at h
        simp only at h
        cases h3 : x.toStr with
        | throw => rw [h3] at h; cases h
        | ub => rw [h3] at h; cases h
        | ok t =>
          rw [h3] at h
          simp only at h
          split at h
          · rename_i ht
            exact ⟨g, .equal, hk, (hk.formed hL).1 h, ⟨vs, rfl, hn⟩, x, h2, by rw [← ht]; exact hasText_of h3⟩
          · split at h
            · rename_i ht
              exact ⟨g, .different, hk, (hk.formed hL).2 h, ⟨vs, rfl, hn⟩, x, h2, by rw [← ht]; exact hasText_of h3⟩
            · cases h

theorem text_unique {j : Json} {a b : List Char} (ha : j.HasText a) (hb : j.HasText b) : a = b := by
  obtain ⟨s, rfl, rfl⟩ := ha
  obtain ⟨s', h, rfl⟩ := hb
  cases h
  rfl

theorem field_unique {j : Json} {k : String} {a b : List Char} (ha : j.Field k a) (hb : j.Field k b) : a = b := by
  obtain ⟨x, h1, h2⟩ := ha
  obtain ⟨y, h3, h4⟩ := hb
  rw [h1] at h3
  cases h3
  exact text_unique h2 h4

/-- What follows the weight. -/
theorem kind_of {o : ImportOrder} (ho : o.Fair) {L : VarSet} {j : Json} {k : ItemKind} (h : kind o L j = .ok k) :
    match k with
    | .const => ¬ j.Field "tunability" ['Y']
    | .tunable none => j.Field "tunability" ['Y'] ∧ j.tryAccess "Share" = none
    | .tunable (some g) => j.Field "tunability" ['Y'] ∧ ∃ v, j.tryAccess "Share" = some v ∧ v.Names (g.map Var.name) := by
  unfold kind at h
  cases h0 : j.tryAccess "tunability" with
  | none =>
    rw [h0] at h
    cases h
    rintro ⟨x, hx, _⟩
    rw [h0] at hx; cases hx
  | some t =>
    rw [h0] at h
    simp only at h
    cases h1 : t.toStr with
    | throw => rw [h1] at h; cases h
    | ub => rw [h1] at h; cases h
    | ok tt =>
      rw [h1] at h
      simp only at h
      split at h
      · rename_i hy
        have hY : j.Field "tunability" ['Y'] := ⟨t, h0, by rw [← hy]; exact hasText_of h1⟩
        cases h2 : j.tryAccess "Share" with
        | none => rw [h2] at h; cases h; exact ⟨hY, rfl⟩
        | some sh =>
          rw [h2] at h
          simp only at h
          cases h3 : group o L sh with
          | throw => rw [h3] at h; cases h
          | ub => rw [h3] at h; cases h
          | ok g =>
            rw [h3] at h
            cases h
            obtain ⟨_, h4, h5⟩ := group_of ho h3
            exact ⟨hY, sh, rfl, by rw [h5]; exact h4⟩
      · rename_i hy
        cases h
        rintro ⟨x, hx, ht⟩
        rw [h0] at hx; cases hx
        exact hy (text_unique (hasText_of h1) ht)

theorem potential_of {tx : FloatText F} {o : ImportOrder} (ho : o.Fair) {L : VarSet} (hL : ∀ v ∈ L, v.WF) {j : Json}
    {x : Fn F × ItemKind} (h : potential tx o L j = .ok x) : ∃ d, j.Says d ∧ Made tx L d x := by
  have hI : Item L x := by
    have := potential_yields (c := False) (tx := tx) ho hL (j := j) (fun h => h.elim)
    rw [h] at this
    exact this
  unfold potential at h
  cases e1 : factor tx o L j with
  | throw => rw [e1] at h; cases h
  | ub => rw [e1] at h; cases h
  | ok shape =>
    rw [e1] at h
    simp only at h
    obtain ⟨g, sh, hk, hf, hn, hsh⟩ := factor_of ho hL e1
    cases e2 : j.tryAccess "weight" with
    | none =>
      rw [e2] at h
      cases h
      refine ⟨⟨g.group.map Var.name, sh, none, false, none⟩, ⟨hn, hsh, e2, by simp, by simp⟩,
        hI, Formed.drawn (d := ⟨g.group.map Var.name, sh, none, false, none⟩) hf rfl, hf.weight, rfl, rfl⟩
    | some w =>
      rw [e2] at h
      simp only at h
      cases e3 : w.toStr with
      | throw => rw [e3] at h; cases h
      | ub => rw [e3] at h; cases h
      | ok t =>
        rw [e3] at h
        simp only at h
        cases e4 : Fn.exponential shape (tx.parse t) with
        | throw => rw [e4] at h; cases h
        | ub => rw [e4] at h; cases h
        | ok f =>
          rw [e4] at h
          simp only at h
          obtain ⟨hf', hw', hwf⟩ := hf.exponential e4
          have hW : j.Field "weight" t := ⟨w, e2, hasText_of e3⟩
          have hdr : ∀ tu shr, f.Drawn tx ⟨g.group.map Var.name, sh, some t, tu, shr⟩ := by
            intro tu shr
            refine ⟨by rw [show f.vars = g from hf'.fv], fun q hq => ?_⟩
            rw [← hwf.sizes'] at hq
            exact ⟨_, hwf.findImage hq, hf'.images q hq⟩
          cases e5 : kind o L j with
          | throw => rw [e5] at h; cases h
          | ub => rw [e5] at h; cases h
          | ok k =>
            rw [e5] at h
            cases h
            have hkk := kind_of ho e5
            cases k with
            | const =>
              exact ⟨⟨g.group.map Var.name, sh, some t, false, none⟩, ⟨hn, hsh, hW, ⟨(nomatch ·), fun h => absurd h.2 hkk⟩, (nomatch ·)⟩,
                hI, hdr _ _, hw', rfl, rfl⟩
            | tunable share =>
              cases share with
              | none =>
                exact ⟨⟨g.group.map Var.name, sh, some t, true, none⟩, ⟨hn, hsh, hW, ⟨fun _ => ⟨rfl, hkk.1⟩, fun _ => rfl⟩, fun _ => hkk.2⟩,
                  hI, hdr _ _, hw', rfl, rfl⟩
              | some gs =>
                exact ⟨⟨g.group.map Var.name, sh, some t, true, some (gs.map Var.name)⟩,
                  ⟨hn, hsh, hW, ⟨fun _ => ⟨rfl, hkk.1⟩, fun _ => rfl⟩, rfl, hkk.2⟩,
                  hI, hdr _ _, hw', rfl, _, rfl, fun _ => Iff.rfl⟩

end JsonIn

/-! ### Xml -/

namespace XmlIn

theorem access_of {t : Tag} {k : String} {x : List Char} (h : t.access k = .ok x) : t.tryAttribute k = some x := by
  unfold Tag.access at h
  cases ha : t.tryAttribute k with
  | none => rw [ha] at h; cases h
  | some y => rw [ha] at h; cases h; rfl

theorem findVariable_of {o : ImportOrder} {L : VarSet} {name : List Char} {v : Var} (h : findVariable o L name = .ok v) :
    name = v.name.toList := by
  unfold findVariable at h
  cases hf : (o.found L).find? (fun v => v.name == String.ofList name) with
  | none => rw [hf] at h; cases h
  | some v' =>
    rw [hf] at h
    cases h
    have h1 := List.find?_some hf
    have h2 : v.name = String.ofList name := by simpa using h1
    rw [h2, String.toList_ofList]

theorem group_of {o : ImportOrder} (ho : o.Fair) {L : VarSet} {t : Tag} {g : Group} (h : group o L t = .ok g) :
    Known L g ∧ t.Names (g.group.map Var.name) ∧ g.sorted = g.group := by
  have h0 := group_yields (c := True) ho (L := L) t
  rw [h] at h0
  refine ⟨h0, ?_⟩
  unfold group at h
  cases hm : Res.mapList (findVariable o L) (t.attributesOf "var") with
  | throw => rw [hm] at h; cases h
  | ub => rw [hm] at h; cases h
  | ok l =>
    rw [hm] at h
    simp only at h
    split at h
    · cases h
    · obtain ⟨_, _, h3⟩ := Group.ofSoup_eq_ok.mp h
      rw [h3]
      refine ⟨?_, rfl⟩
      have := Res.mapList_forall₂ hm
      unfold Tag.Names
      rw [List.map_map]
      show _ = l.map (String.toList ∘ Var.name)
      clear hm h h3
      generalize t.attributesOf "var" = names at this
      clear * - this
      induction this with
      | nil => rfl
      | cons h1 _ ih => rw [List.map_cons, ← ih]; rw [findVariable_of h1]; rfl

theorem entry_of {tx : FloatText F} {f f' : Fn F} {t : Tag} (h : entry tx f t = .ok f') :
    ∃ e, t.Image e ∧ Fn.mutableSet e.1 (tx.parse e.2) f = .ok f' () := by
  unfold entry at h
  cases e1 : Res.mapList Text.atoSize (t.attributesOf "v") with
  | throw => rw [e1] at h; cases h
  | ub => rw [e1] at h; cases h
  | ok comb =>
    rw [e1] at h
    simp only at h
    cases e2 : t.access "D" with
    | throw => rw [e2] at h; cases h
    | ub => rw [e2] at h; cases h
    | ok d =>
      rw [e2] at h
      simp only at h
      cases e3 : Fn.mutableSet comb (tx.parse d) f with
      | throw => rw [e3] at h; cases h
      | ub => rw [e3] at h; cases h
      | ok f1 u =>
        rw [e3] at h
        cases h
        exact ⟨(comb, d), ⟨forall₂_mono (fun _ _ h => Text.atoSize_denotes h) (Res.mapList_forall₂ e1), access_of e2⟩, e3⟩

theorem set_wf {f f1 : Fn F} (hf : f.WF) {comb : List Nat} {x : F} (h : Fn.mutableSet comb x f = .ok f1 ()) : f1.WF := by
  rcases hf.mutableSet comb x with ⟨f2, g1, _, _, g2, _⟩ | ⟨g1, _⟩
  · rw [g1] at h; cases h; exact g2
  · rw [g1] at h; cases h

theorem entries_of {tx : FloatText F} {ts : List Tag} : ∀ {f f' : Fn F}, f.WF → Res.foldList (entry tx) f ts = .ok f' →
    ∃ l, List.Forall₂ Tag.Image ts l ∧ Drew tx l f f' := by
  induction ts with
  | nil => intro f f' hf h; cases h; exact ⟨[], .nil, hf, rfl, rfl, rfl, fun _ _ => rfl⟩
  | cons j js ih =>
    intro f f' hf h
    unfold Res.foldList at h
    cases e1 : entry tx f j with
    | throw => rw [e1] at h; cases h
    | ub => rw [e1] at h; cases h
    | ok f1 =>
      rw [e1] at h
      obtain ⟨e, h1, h2⟩ := entry_of e1
      obtain ⟨l, h3, h4⟩ := ih (set_wf hf h2) h
      exact ⟨e :: l, .cons h1 h3, Drew.step hf h2 (fun _ => h4)⟩

theorem valuesLine_of {tx : FloatText F} {n : Nat} {line : List Char} {f f' : Fn F} (h : Text.valuesLine tx n line f = .ok f' ()) :
    ∃ e : List Nat × List Char, (∃ ws, Spells (ws ++ [e.2]) line ∧ List.Forall₂ Denotes ws e.1) ∧
      Fn.mutableSet e.1 (tx.parse e.2) f = .ok f' () := by
  unfold Text.valuesLine Text.parseCombinationImage at h
  simp only at h
  obtain ⟨ws, hw, hs⟩ := Text.spells_words line [] (by simp)
  rw [hw] at h
  cases hl : ws.getLast? with
  | none => rw [hl] at h; cases h
  | some last =>
    rw [hl] at h
    simp only at h
    cases e1 : Res.mapList Text.atoSize ws.dropLast with
    | throw => rw [e1] at h; cases h
    | ub => rw [e1] at h; cases h
    | ok comb =>
      rw [e1] at h
      simp only at h
      split at h
      · cases h
      · refine ⟨(comb, last), ⟨ws.dropLast, ?_, forall₂_mono (fun _ _ h => Text.atoSize_denotes h) (Res.mapList_forall₂ e1)⟩, h⟩
        have : ws.dropLast ++ [last] = ws := List.dropLast_append_getLast? last hl
        rw [this]
        simpa using hs

theorem values_of {tx : FloatText F} {n : Nat} {ls : List (List Char)} : ∀ {f f' : Fn F}, f.WF →
    Text.onEach (Text.valuesLine tx n) ls f = .ok f' () →
    ∃ l : List (List Nat × List Char),
      List.Forall₂ (fun line e => ∃ ws, Spells (ws ++ [e.2]) line ∧ List.Forall₂ Denotes ws e.1) ls l ∧ Drew tx l f f' := by
  induction ls with
  | nil => intro f f' hf h; cases h; exact ⟨[], .nil, hf, rfl, rfl, rfl, fun _ _ => rfl⟩
  | cons line ls ih =>
    intro f f' hf h
    unfold Text.onEach at h
    cases e1 : Text.valuesLine tx n line f with
    | throw => rw [e1] at h; cases h
    | ub => rw [e1] at h; cases h
    | ok f1 u =>
      rw [e1] at h
      obtain ⟨e, h1, h2⟩ := valuesLine_of e1
      obtain ⟨l, h3, h4⟩ := ih (set_wf hf h2) h
      exact ⟨e :: l, .cons h1 h3, Drew.step hf h2 (fun _ => h4)⟩

theorem factor_of {tx : FloatText F} {files : List Char → Option (List Char)} {o : ImportOrder} (ho : o.Fair) {L : VarSet}
    (hL : ∀ v ∈ L, v.WF) {t : Tag} {f : Fn F} (h : factor tx files o L t = .ok f) :
    ∃ g sh, Known L g ∧ Formed tx g sh f ∧ t.Names (g.group.map Var.name) ∧
      match sh with
      | .equal => t.tryAttribute "Correlation" = some ['T']
      | .different => t.tryAttribute "Correlation" = some ['F']
      | .images l => t.tryAttribute "Correlation" = none ∧
        match t.tryAttribute "Source" with
        | none => List.Forall₂ Tag.Image (t.nestedOf "Distr_val") l
        | some name => ∃ content, files name = some content ∧ Tag.FileImages content l := by
  unfold factor at h
  cases e1 : group o L t with
  | throw => rw [e1] at h; cases h
  | ub => rw [e1] at h; cases h
  | ok g =>
    rw [e1] at h
    simp only at h
    obtain ⟨hk, hn, _⟩ := group_of ho e1
    obtain ⟨hg, hp⟩ := hk.wf hL
    cases h2 : t.tryAttribute "Correlation" with
    | none =>
      rw [h2] at h
      simp only at h
      unfold images at h
      cases h3 : t.tryAttribute "Source" with
      | none =>
        rw [h3] at h
        simp only at h
        obtain ⟨l, h4, h5⟩ := entries_of (Fn.ofGroup_wf hg hp) h
        exact ⟨g, .images l, hk, h5.formed (fun q => Fn.ofGroup_img g q) rfl, hn, rfl, h4⟩
      | some name =>
        rw [h3] at h
        simp only at h
        unfold Text.importValues at h
        cases h4 : files name with
        | none => rw [h4] at h; cases h
        | some content =>
          rw [h4] at h
          simp only at h
          cases h5 : Text.onEach (Text.valuesLine tx (Fn.ofGroup g : Fn F).vars.group.length) (Text.lines content)
              (Fn.ofGroup g : Fn F).clear with
          | throw => rw [h5] at h; cases h
          | ub => rw [h5] at h; cases h
          | ok f1 u =>
            rw [h5] at h
            cases h
            obtain ⟨l, h6, h7⟩ := values_of (Fn.ofGroup_wf hg hp).clear h5
            exact ⟨g, .images l, hk, h7.formed (fun q => Fn.clear_img _ q) rfl, hn, rfl, content, h4, Text.lines content,
              Text.hasLines_lines content, h6⟩
    | some x =>
      rw [h2] at h
      simp only at h
      split at h
      · rename_i ht
        exact ⟨g, .equal, hk, (hk.formed hL).1 h, hn, by rw [← ht]⟩
      · split at h
        · rename_i ht
          exact ⟨g, .different, hk, (hk.formed hL).2 h, hn, by rw [← ht]⟩
        · cases h

theorem kind_of {o : ImportOrder} (ho : o.Fair) {L : VarSet} {t : Tag} {k : ItemKind} (h : kind o L t = .ok k) :
    match k with
    | .const => t.tryAttribute "tunability" ≠ some ['Y']
    | .tunable none => t.tryAttribute "tunability" = some ['Y'] ∧ t.nestedOf "Share" = []
    | .tunable (some g) => t.tryAttribute "tunability" = some ['Y'] ∧ ∃ sh rest, t.nestedOf "Share" = sh :: rest ∧
        sh.Names (g.map Var.name) := by
  unfold kind at h
  split at h
  · rename_i hy
    cases h2 : t.nestedOf "Share" with
    | nil => rw [h2] at h; cases h; exact ⟨hy, rfl⟩
    | cons sh rest =>
      rw [h2] at h
      simp only at h
      cases h3 : group o L sh with
      | throw => rw [h3] at h; cases h
      | ub => rw [h3] at h; cases h
      | ok g =>
        rw [h3] at h
        cases h
        obtain ⟨_, h4, h5⟩ := group_of ho h3
        exact ⟨hy, sh, rest, rfl, by rw [h5]; exact h4⟩
  · rename_i hy
    cases h
    exact hy

theorem potential_of {tx : FloatText F} {files : List Char → Option (List Char)} {o : ImportOrder} (ho : o.Fair) {L : VarSet}
    (hL : ∀ v ∈ L, v.WF) {t : Tag} {x : Fn F × ItemKind} (h : potential tx files o L t = .ok x) :
    ∃ d, t.Says files d ∧ Made tx L d x := by
  have hI : Item L x := by
    have := potential_yields (c := False) (tx := tx) (files := files) ho hL (t := t) (fun h => h.elim)
    rw [h] at this
    exact this
  unfold potential at h
  cases e1 : factor tx files o L t with
  | throw => rw [e1] at h; cases h
  | ub => rw [e1] at h; cases h
  | ok shape =>
    rw [e1] at h
    simp only at h
    obtain ⟨g, sh, hk, hf, hn, hsh⟩ := factor_of ho hL e1
    cases e2 : t.tryAttribute "weight" with
    | none =>
      rw [e2] at h
      cases h
      refine ⟨⟨g.group.map Var.name, sh, none, false, none⟩, ⟨hn, hsh, e2.symm, by simp, by simp⟩,
        hI, Formed.drawn (d := ⟨g.group.map Var.name, sh, none, false, none⟩) hf rfl, hf.weight, rfl, rfl⟩
    | some w =>
      rw [e2] at h
      simp only at h
      cases e4 : Fn.exponential shape (tx.parse w) with
      | throw => rw [e4] at h; cases h
      | ub => rw [e4] at h; cases h
      | ok f =>
        rw [e4] at h
        simp only at h
        obtain ⟨hf', hw', hwf⟩ := hf.exponential e4
        have hdr : ∀ tu shr, f.Drawn tx ⟨g.group.map Var.name, sh, some w, tu, shr⟩ := by
          intro tu shr
          refine ⟨by rw [show f.vars = g from hf'.fv], fun q hq => ?_⟩
          rw [← hwf.sizes'] at hq
          exact ⟨_, hwf.findImage hq, hf'.images q hq⟩
        cases e5 : kind o L t with
        | throw => rw [e5] at h; cases h
        | ub => rw [e5] at h; cases h
        | ok k =>
          rw [e5] at h
          cases h
          have hkk := kind_of ho e5
          cases k with
          | const =>
            exact ⟨⟨g.group.map Var.name, sh, some w, false, none⟩, ⟨hn, hsh, e2.symm, ⟨(nomatch ·), fun h => absurd h.2 hkk⟩, (nomatch ·)⟩,
              hI, hdr _ _, hw', rfl, rfl⟩
          | tunable share =>
            cases share with
            | none =>
              exact ⟨⟨g.group.map Var.name, sh, some w, true, none⟩, ⟨hn, hsh, e2.symm, ⟨fun _ => ⟨rfl, hkk.1⟩, fun _ => rfl⟩, fun _ => hkk.2⟩,
                hI, hdr _ _, hw', rfl, rfl⟩
            | some gs =>
              exact ⟨⟨g.group.map Var.name, sh, some w, true, some (gs.map Var.name)⟩,
                ⟨hn, hsh, e2.symm, ⟨fun _ => ⟨rfl, hkk.1⟩, fun _ => rfl⟩, rfl, hkk.2⟩,
                hI, hdr _ _, hw', rfl, _, rfl, fun _ => Iff.rfl⟩

end XmlIn

end EFG
