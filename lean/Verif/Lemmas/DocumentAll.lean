import Verif.Lemmas.DocumentState
/- A document which was imported. -/

set_option linter.unusedSectionVars false

namespace EFG
variable {F : Type} [Arith F]

/-! ### Numbers -/

theorem span_unique {α : Type} {P : α → Prop} : ∀ {a b a' b' : List α}, a ++ b = a' ++ b' → (∀ c ∈ a, P c) → (∀ c ∈ a', P c) →
    (∀ c ∈ b.head?, ¬ P c) → (∀ c ∈ b'.head?, ¬ P c) → a = a' ∧ b = b'
  | [], b, [], b', h, _, _, _, _ => ⟨rfl, h⟩
  | [], b, c :: a', b', h, _, h2, h3, _ => by
    have : b = c :: (a' ++ b') := h
    exact absurd (h2 c (by simp)) (h3 c (by rw [this]; rfl))
  | c :: a, b, [], b', h, h1, _, _, h4 => by
    have : b' = c :: (a ++ b) := h.symm
    exact absurd (h1 c (by simp)) (h4 c (by rw [this]; rfl))
  | c :: a, b, c' :: a', b', h, h1, h2, h3, h4 => by
    have h5 : c = c' ∧ a ++ b = a' ++ b' := by simpa using h
    obtain ⟨h6, h7⟩ := span_unique h5.2 (fun x hx => h1 x (List.mem_cons_of_mem _ hx))
      (fun x hx => h2 x (List.mem_cons_of_mem _ hx)) h3 h4
    exact ⟨by rw [h5.1, h6], h7⟩

theorem Denotes.unique {t : List Char} {n n' : Nat} (h : Denotes t n) (h' : Denotes t n') : n = n' := by
  obtain ⟨ws, sign, ds, rest, h1, h2, h3, h4, h5, h6, v, h7, h8⟩ := h
  obtain ⟨ws', sign', ds', rest', g1, g2, g3, g4, g5, g6, v', g7, g8⟩ := h'
  have e0 : ws ++ (sign ++ ds ++ rest) = ws' ++ (sign' ++ ds' ++ rest') := by
    rw [← List.append_assoc, ← List.append_assoc, ← List.append_assoc, ← List.append_assoc, ← h1, ← g1]
  obtain ⟨_, e1⟩ := span_unique e0 h2 g2 h3 g3
  rw [List.append_assoc, List.append_assoc] at e1
  have e2 : sign = sign' ∧ ds ++ rest = ds' ++ rest' := by
    have aux : ∀ {a b : List Char} {c : Char}, (c = '-' ∨ c = '+') → (∀ c ∈ b.head?, c ≠ '-' ∧ c ≠ '+') → c :: a ≠ b := by
      intro a b c hc hb he
      have := hb c (by rw [← he]; rfl)
      rcases hc with hc | hc
      · exact this.1 hc
      · exact this.2 hc
    rcases h4 with rfl | rfl | ⟨rfl, h4⟩ <;> rcases g4 with rfl | rfl | ⟨rfl, g4⟩
    · exact ⟨rfl, by simpa using e1⟩
    · simp at e1
    · exact absurd e1 (aux (Or.inl rfl) g4)
    · simp at e1
    · exact ⟨rfl, by simpa using e1⟩
    · exact absurd e1 (aux (Or.inr rfl) g4)
    · exact absurd e1.symm (aux (Or.inl rfl) h4)
    · exact absurd e1.symm (aux (Or.inr rfl) h4)
    · exact ⟨rfl, by simpa using e1⟩
  obtain ⟨rfl, e3⟩ := e2
  obtain ⟨rfl, _⟩ := span_unique e3 h5 g5 h6 g6
  rw [h7] at g7
  subst g7
  split at h8
  · rename_i hs
    rw [if_pos hs] at g8
    omega
  · rename_i hs
    rw [if_neg hs] at g8
    omega

/-! ### Variables -/

/-- What the description of a variable adds. -/
structure AddsVar (sv : String → Nat → Prop) (so : String × Nat → Prop) (r r' : JsonIn.Read) : Prop where
  vars : ∃ v, r'.vars = r.vars ++ [v] ∧ sv v.name v.size ∧ v.WF ∧ (v.name, v.size) ∉ r.vars.map fun u => (u.name, u.size)
  evidences : (r'.evidences = r.evidences ∧ ∀ e, ¬ so e) ∨
    ∃ e, so e ∧ (∀ e', so e' → e' = e) ∧ r'.evidences = JsonIn.emplaceEvidence r.evidences e.1 e.2

theorem emplace_fresh {vs : VarSet} {v : Var} (h : ¬ VarSet.mem vs v = true) :
    VarSet.emplace vs v = vs ++ [v] ∧ (v.name, v.size) ∉ vs.map fun u => (u.name, u.size) := by
  refine ⟨by unfold VarSet.emplace; rw [if_neg h], ?_⟩
  intro hm
  obtain ⟨u, hu, he⟩ := List.mem_map.mp hm
  refine h (VarSet.mem_iff.mpr ⟨u, hu, ?_⟩)
  simp only [Prod.mk.injEq] at he
  simp [Var.eqv, he.1, he.2]

theorem JsonIn.oneVariable_of {o : ImportOrder} {r r' : Read} {j : Json} (h : oneVariable o r j = .ok r') :
    AddsVar j.SaysVar (fun e => j.SaysObserved e.1 e.2) r r' := by
  unfold oneVariable at h
  cases e1 : field j "name" with
  | throw => rw [e1] at h; cases h
  | ub => rw [e1] at h; cases h
  | ok name =>
    rw [e1] at h
    simp only at h
    have h1 := field_of e1
    cases e2 : field j "Size" with
    | throw => rw [e2] at h; cases h
    | ub => rw [e2] at h; cases h
    | ok size =>
      rw [e2] at h
      simp only at h
      cases e3 : Text.atoSize size with
      | throw => rw [e3] at h; cases h
      | ub => rw [e3] at h; cases h
      | ok n =>
        rw [e3] at h
        simp only at h
        cases e4 : makeVariable (o.fresh r.vars.length) n (String.ofList name) with
        | throw => rw [e4] at h; cases h
        | ub => rw [e4] at h; cases h
        | ok v =>
          rw [e4] at h
          simp only at h
          have hv : v.name = String.ofList name ∧ v.size = n ∧ v.WF := by
            unfold makeVariable at e4
            split at e4
            · cases e4
            · next h0 =>
              split at e4
              · cases e4
              · next h1 =>
                cases e4
                exact ⟨rfl, rfl, fun h => h0 (by simp only at h; rw [h]; rfl), Nat.pos_of_ne_zero h1⟩
          have hsv : j.SaysVar v.name v.size := by
            refine ⟨by rw [hv.1, String.toList_ofList]; exact h1, size, field_of e2, ?_⟩
            rw [hv.2.1]; exact Text.atoSize_denotes e3
          unfold addVariable at h
          split at h
          · cases h
          next hfresh =>
            obtain ⟨hm, hm'⟩ := emplace_fresh hfresh
            cases e5 : j.tryAccess "evidence" with
            | none =>
              rw [e5] at h
              cases h
              refine ⟨?_, Or.inl ⟨rfl, ?_⟩⟩
              · exact ⟨v, hm, hsv, hv.2.2, hm'⟩
              · rintro e ⟨_, t, ⟨x, hx, _⟩, _⟩
                rw [e5] at hx; cases hx
            | some x =>
              rw [e5] at h
              simp only at h
              cases e6 : x.toStr with
              | throw => rw [e6] at h; cases h
              | ub => rw [e6] at h; cases h
              | ok text =>
                rw [e6] at h
                simp only at h
                cases e7 : Text.atoSize text with
                | throw => rw [e7] at h; cases h
                | ub => rw [e7] at h; cases h
                | ok val =>
                  rw [e7] at h
                  cases h
                  refine ⟨?_, Or.inr ⟨(v.name, val), ⟨hsv.1, text, ⟨x, e5, hasText_of e6⟩, Text.atoSize_denotes e7⟩, ?_, rfl⟩⟩
                  · exact ⟨v, hm, hsv, hv.2.2, hm'⟩
                  · rintro ⟨name', k⟩ ⟨g1, t, g2, g3⟩
                    have g4 := field_unique g1 hsv.1
                    have g5 := field_unique g2 ⟨x, e5, hasText_of e6⟩
                    rw [g5] at g3
                    have g6 : k = val := g3.unique (Text.atoSize_denotes e7)
                    rw [g6]
                    have : name' = v.name := String.toList_inj.mp g4
                    rw [this]

theorem XmlIn.oneVariable_of {o : ImportOrder} {r r' : JsonIn.Read} {j : Tag} (h : oneVariable o r j = .ok r') :
    AddsVar j.SaysVar (fun e => j.SaysObserved e.1 e.2) r r' := by
  unfold oneVariable at h
  cases e1 : j.access "name" with
  | throw => rw [e1] at h; cases h
  | ub => rw [e1] at h; cases h
  | ok name =>
    rw [e1] at h
    simp only at h
    have h1 := access_of e1
    cases e2 : j.access "Size" with
    | throw => rw [e2] at h; cases h
    | ub => rw [e2] at h; cases h
    | ok size =>
      rw [e2] at h
      simp only at h
      cases e3 : Text.atoSize size with
      | throw => rw [e3] at h; cases h
      | ub => rw [e3] at h; cases h
      | ok n =>
        rw [e3] at h
        simp only at h
        cases e4 : makeVariable (o.fresh r.vars.length) n (String.ofList name) with
        | throw => rw [e4] at h; cases h
        | ub => rw [e4] at h; cases h
        | ok v =>
          rw [e4] at h
          simp only at h
          have hv : v.name = String.ofList name ∧ v.size = n ∧ v.WF := by
            unfold makeVariable at e4
            split at e4
            · cases e4
            · next h0 =>
              split at e4
              · cases e4
              · next h1 =>
                cases e4
                exact ⟨rfl, rfl, fun h => h0 (by simp only at h; rw [h]; rfl), Nat.pos_of_ne_zero h1⟩
          have hsv : j.SaysVar v.name v.size := by
            refine ⟨by rw [hv.1, String.toList_ofList]; exact h1, size, access_of e2, ?_⟩
            rw [hv.2.1]; exact Text.atoSize_denotes e3
          unfold addVariable at h
          split at h
          · cases h
          next hfresh =>
            obtain ⟨hm, hm'⟩ := emplace_fresh hfresh
            cases e5 : j.tryAttribute "evidence" with
            | none =>
              rw [e5] at h
              cases h
              refine ⟨?_, Or.inl ⟨rfl, ?_⟩⟩
              · exact ⟨v, hm, hsv, hv.2.2, hm'⟩
              · rintro e ⟨_, x, hx, _⟩
                rw [e5] at hx; cases hx
            | some text =>
              rw [e5] at h
              simp only at h
              cases e7 : Text.atoSize text with
              | throw => rw [e7] at h; cases h
              | ub => rw [e7] at h; cases h
              | ok val =>
                rw [e7] at h
                cases h
                refine ⟨?_, Or.inr ⟨(v.name, val), ⟨hsv.1, text, e5, Text.atoSize_denotes e7⟩, ?_, rfl⟩⟩
                · exact ⟨v, hm, hsv, hv.2.2, hm'⟩
                · rintro ⟨name', k⟩ ⟨g1, t, g2, g3⟩
                  have g1' : j.tryAttribute "name" = some name'.toList := g1
                  have g4 := hsv.1
                  rw [g1'] at g4
                  rw [e5] at g2
                  cases g2
                  have g6 : k = val := g3.unique (Text.atoSize_denotes e7)
                  rw [g6]
                  have : name' = v.name := String.toList_inj.mp (Option.some.inj g4)
                  rw [this]

theorem emplaceEvidence_mem {l : List (String × Nat)} {e e' : String × Nat} (h : e' ∈ JsonIn.emplaceEvidence l e.1 e.2) :
    e' ∈ l ∨ (e' = e ∧ e.1 ∉ l.map Prod.fst) := by
  unfold JsonIn.emplaceEvidence at h
  split at h
  · exact Or.inl h
  · rename_i hn
    rcases List.mem_append.mp h with h | h
    · exact Or.inl h
    · simp at h
      refine Or.inr ⟨h, ?_⟩
      intro hm
      apply hn
      obtain ⟨x, hx, hx'⟩ := List.mem_map.mp hm
      rw [List.any_eq_true]
      exact ⟨x, hx, by simpa using hx'⟩

theorem emplaceEvidence_spec (l : List (String × Nat)) (e : String × Nat) :
    (∀ e' ∈ l, e' ∈ JsonIn.emplaceEvidence l e.1 e.2) ∧ (e.1 ∉ l.map Prod.fst → e ∈ JsonIn.emplaceEvidence l e.1 e.2) ∧
      ((l.map Prod.fst).Nodup → ((JsonIn.emplaceEvidence l e.1 e.2).map Prod.fst).Nodup) := by
  unfold JsonIn.emplaceEvidence
  split
  · rename_i h
    refine ⟨fun _ h => h, ?_, id⟩
    intro hn
    rw [List.any_eq_true] at h
    obtain ⟨x, hx, hx'⟩ := h
    exact absurd (by rw [← (by simpa using hx' : x.1 = e.1)]; exact List.mem_map_of_mem hx) hn
  · rename_i h
    refine ⟨fun _ h => List.mem_append_left _ h, fun _ => by simp, ?_⟩
    intro hn
    rw [List.map_append, List.nodup_append]
    refine ⟨hn, by simp, ?_⟩
    intro a ha b hb hab
    subst hab
    simp at hb
    apply h
    obtain ⟨x, hx, hx'⟩ := List.mem_map.mp ha
    rw [List.any_eq_true]
    exact ⟨x, hx, by simpa using hx'.trans hb⟩

theorem variables_of {α : Type} {step : JsonIn.Read → α → Res JsonIn.Read} {sv : α → String → Nat → Prop}
    {so : α → String × Nat → Prop} (hstep : ∀ r x r', step r x = .ok r' → AddsVar (sv x) (so x) r r') {r' : JsonIn.Read} :
    ∀ {l : List α} {r : JsonIn.Read}, (r.evidences.map Prod.fst).Nodup → Res.foldList step r l = .ok r' →
    (∃ vs : List Var, r'.vars = r.vars ++ vs ∧ List.Forall₂ (fun x v => sv x v.name v.size ∧ v.WF) l vs ∧
      (vs.map fun u => (u.name, u.size)).Nodup ∧
      ∀ v ∈ vs, (v.name, v.size) ∉ r.vars.map fun u => (u.name, u.size)) ∧ (r'.evidences.map Prod.fst).Nodup ∧
      (∀ e ∈ r.evidences, e ∈ r'.evidences) ∧
      (∀ before x after, l = before ++ x :: after → ∀ name k, so x (name, k) → (∀ x' ∈ before, ∀ k', ¬ so x' (name, k')) →
        name ∉ r.evidences.map Prod.fst → (name, k) ∈ r'.evidences) ∧
      ∀ e ∈ r'.evidences, e ∈ r.evidences ∨ ∃ x ∈ l, so x e
  | [], r, hn, h => by
    cases h
    exact ⟨⟨[], by simp, .nil, by simp, by simp⟩, hn, fun _ h => h, fun b x a h => by simp at h, fun _ h => Or.inl h⟩
  | y :: l, r, hn, h => by
    unfold Res.foldList at h
    cases e1 : step r y with
    | throw => rw [e1] at h; cases h
    | ub => rw [e1] at h; cases h
    | ok r1 =>
      rw [e1] at h
      simp only at h
      obtain ⟨hv, he⟩ := hstep r y r1 e1
      have hn1 : (r1.evidences.map Prod.fst).Nodup ∧ (∀ e ∈ r.evidences, e ∈ r1.evidences) ∧
          (∀ e ∈ r1.evidences, e ∈ r.evidences ∨ so y e) ∧
          (∀ e, so y e → e.1 ∉ r.evidences.map Prod.fst → e ∈ r1.evidences) := by
        rcases he with ⟨he, hno⟩ | ⟨e, h1, h2, h3⟩
        · rw [he]
          exact ⟨hn, fun _ h => h, fun _ h => Or.inl h, fun e h => absurd h (hno e)⟩
        · rw [h3]
          obtain ⟨k1, k2, k3⟩ := emplaceEvidence_spec r.evidences e
          refine ⟨k3 hn, k1, ?_, ?_⟩
          · intro e' he'
            rcases emplaceEvidence_mem he' with h | ⟨rfl, _⟩
            · exact Or.inl h
            · exact Or.inr h1
          · intro e' he' hn'
            rw [h2 e' he'] at hn' ⊢
            exact k2 hn'
      obtain ⟨m1, m2, m3, m4⟩ := hn1
      obtain ⟨i1, i2, i3, i4, i5⟩ := variables_of hstep m1 h
      refine ⟨?_, i2, fun e he => i3 e (m2 e he), ?_, ?_⟩
      · obtain ⟨v, j1, j2, j3, j4⟩ := hv
        obtain ⟨vs, l1, l2, l3, l4⟩ := i1
        refine ⟨v :: vs, by rw [l1, j1]; simp, .cons ⟨j2, j3⟩ l2, ?_, ?_⟩
        · rw [List.map_cons, List.nodup_cons]
          refine ⟨?_, l3⟩
          intro hm
          obtain ⟨u, hu, he⟩ := List.mem_map.mp hm
          refine l4 u hu ?_
          rw [j1, he]
          simp
        · intro u hu
          rcases List.mem_cons.mp hu with rfl | hu
          · exact j4
          · intro hm
            refine l4 u hu ?_
            rw [j1, List.map_append]
            exact List.mem_append_left _ hm
      · intro before x after hl name k hx hb hname
        cases before with
        | nil =>
          simp only [List.nil_append, List.cons.injEq] at hl
          rw [← hl.1] at hx
          exact i3 _ (m4 _ hx hname)
        | cons b before =>
          simp only [List.cons_append, List.cons.injEq] at hl
          refine i4 before x after hl.2 name k hx (fun x' hx' => hb x' (List.mem_cons_of_mem _ hx')) ?_
          intro hm
          obtain ⟨e, he, rfl⟩ := List.mem_map.mp hm
          rcases m3 e he with h1 | h1
          · exact hname (List.mem_map_of_mem h1)
          · rw [hl.1] at h1
            exact hb b (by simp) e.2 h1
      · intro e he
        rcases i5 e he with h1 | ⟨x, hx, h1⟩
        · rcases m3 e h1 with h1 | h1
          · exact Or.inl h1
          · exact Or.inr ⟨y, by simp, h1⟩
        · exact Or.inr ⟨x, List.mem_cons_of_mem _ hx, h1⟩

/-! ### The model -/

theorem Fn.Drawn.weight {tx : FloatText F} {d : Draft} {f : Fn F} (h : f.Drawn tx d) (hf : f.WF) (w : Option F) :
    Fn.Drawn tx d { f with weight := w } := by
  refine ⟨h.names, fun q hq => ?_⟩
  obtain ⟨x, h1, h2⟩ := h.images q hq
  exact ⟨x, h1, h2⟩

theorem VarSet.same_names {g : Group} (hg : g.WF) {l : VarSet} (h : VarSet.same g.sorted l = true) (n : String) :
    n ∈ g.group.map Var.name ↔ n ∈ l.map Var.name := by
  have hn : g.sorted.Nodup := hg.perm.nodup_iff.mpr hg.distinct.nodup
  have h1 := (VarSet.same_iff hn).mp h
  exact ((hg.perm.symm.trans h1).map Var.name).mem_iff

open State

theorem State.Lodged.contains {tx : FloatText F} {L : List Var} {d : Draft} {x : Fn F × ItemKind} (hm : EFG.Made tx L d x)
    {inserts : Bool} {s : State F} (hr : Reach anyOp s) {p : Nat} (h : Lodged inserts s p x) {said : String → Nat → Prop}
    (hL : ∀ v ∈ L, said v.name v.size) : s.Contains tx said inserts p d := by
  obtain ⟨h0, h⟩ := h
  have hk := hm.kind
  have hv : ∀ f : Fn F, s.heap[p]? = some f → f.vars = x.1.vars → ∀ v ∈ f.vars.group, v ∈ s.vars ∧ said v.name v.size := by
    intro f hf hfx v hv
    exact ⟨(reach_inv hr).toCore.group_sub h0 hf v hv, hL v (hm.item.fresh.2 v (by rw [← hfx]; exact hv))⟩
  have const : (d.tunable = false ∨ inserts = false) → (d.tunable = false → d.share = none) →
      p ∈ s.consts ∧ s.heap[p]? = some x.1 → s.Contains tx said inserts p d := by
    rintro hd hsh ⟨h1, h2⟩
    refine ⟨h0, ⟨x.1, h2, hm.drawn, hv _ h2 rfl, fun _ => hm.weight⟩, fun _ => h1, ?_, ?_, ?_⟩
    · intro h3 h4
      rcases hd with h | h
      · rw [h] at h3; cases h3
      · rw [h] at h4; cases h4
    · intro h3 h4
      rcases hd with h | h
      · rw [h] at h3; cases h3
      · rw [h] at h4; cases h4
    · intro h3 l hl
      rcases hd with h | h
      · rw [hsh h] at hl; cases hl
      · rw [h] at h3; cases h3
  cases inserts with
  | false =>
    refine const (Or.inr rfl) ?_ h
    intro hd
    cases hx : x.2 with
    | const => rw [hx] at hk; exact hk.2
    | tunable share =>
      rw [hx] at hk
      cases share with
      | none => exact hk.2
      | some g => rw [hk.1] at hd; cases hd
  | true =>
    cases hx : x.2 with
    | const =>
      rw [hx] at hk h
      exact const (Or.inl hk.1) (fun _ => hk.2) h
    | tunable share =>
      rw [hx] at hk h
      cases share with
      | none =>
        simp only at h hk
        obtain ⟨h1, h2, h3⟩ := h
        refine ⟨h0, ⟨x.1, h2, hm.drawn, hv _ h2 rfl, fun _ => hm.weight⟩, ?_, fun _ _ => h1, fun _ _ _ => h3, ?_⟩
        · rintro (h | h)
          · rw [hk.1] at h; cases h
          · cases h
        · intro _ l hl
          rw [hk.2] at hl; cases hl
      | some g =>
        simp only at h hk
        obtain ⟨h1, ⟨w, h2⟩, c, h3, h4, ⟨q, h5, h6, f, h7, h8⟩, h9⟩ := h
        obtain ⟨ht, l, hl, hln⟩ := hk
        have hwf := factorReach_wf hm.item.fresh.1
        refine ⟨h0, ⟨_, h2, hm.drawn.weight hwf w, hv _ h2 rfl, ?_⟩, ?_, fun _ _ => h1, ?_, ?_⟩
        · rintro (h | h)
          · rw [hl] at h; cases h
          · cases h
        · rintro (h | h)
          · rw [ht] at h; cases h
          · cases h
        · intro _ _ h; rw [hl] at h; cases h
        · intro _ l' hl'
          rw [hl] at hl'
          cases hl'
          refine ⟨c, h3, h4, ⟨q, h5, h6, f, h7, fun n => ?_⟩, h9⟩
          have hq := (reach_inv hr).heapWF f (List.mem_of_getElem? h7)
          rw [VarSet.same_names hq.group h8 n]
          exact hln n

/-! ### An element describes one factor -/

theorem forall₂_unique {α β : Type} {r : α → β → Prop} (h : ∀ a b b', r a b → r a b' → b = b') :
    ∀ {l : List α} {m m' : List β}, List.Forall₂ r l m → List.Forall₂ r l m' → m = m'
  | _, _, _, .nil, .nil => rfl
  | _, _, _, .cons h1 h2, .cons h3 h4 => by rw [h _ _ _ h1 h3, forall₂_unique h h2 h4]

namespace JsonIn

theorem names_unique {j : Json} {l l' : List String} (h : j.Names l) (h' : j.Names l') : l = l' :=
  forall₂_unique (r := fun (x : Json) (s : String) => x.HasText s.toList)
    (fun _ _ _ h1 h2 => String.toList_inj.mp (text_unique h1 h2)) h h'

theorem image_unique {j : Json} {e e' : List Nat × List Char} (h : j.Image e) (h' : j.Image e') : e = e' := by
  obtain ⟨⟨v, h1, h2⟩, h3⟩ := h
  obtain ⟨⟨v', g1, g2⟩, g3⟩ := h'
  rw [h1] at g1
  cases g1
  refine Prod.ext (forall₂_unique ?_ h2 g2) (field_unique h3 g3)
  rintro x n n' ⟨t, k1, k2⟩ ⟨t', m1, m2⟩
  rw [text_unique m1 k1] at m2
  exact k2.unique m2

theorem says_unique {j : Json} {d d' : Draft} (h : j.Says d) (h' : j.Says d') : d = d' := by
  obtain ⟨names, shape, weight, tunable, share⟩ := d
  obtain ⟨names', shape', weight', tunable', share'⟩ := d'
  obtain ⟨⟨vs, a1, a2⟩, a3, a4, a5, a6⟩ := h
  obtain ⟨⟨vs', b1, b2⟩, b3, b4, b5, b6⟩ := h'
  simp only at *
  rw [a1] at b1
  cases b1
  have e1 := names_unique a2 b2
  have e2 : shape = shape' := by
    have no : ∀ {t : List Char}, j.Field "Correlation" t → j.tryAccess "Correlation" = none → False := by
      rintro t ⟨x, hx, _⟩ hn
      rw [hn] at hx; cases hx
    cases shape with
    | equal =>
      cases shape' with
      | equal => rfl
      | different => exact absurd (field_unique a3 b3) (by decide)
      | images l => exact (no a3 b3.1).elim
    | different =>
      cases shape' with
      | equal => exact absurd (field_unique a3 b3) (by decide)
      | different => rfl
      | images l => exact (no a3 b3.1).elim
    | images l =>
      cases shape' with
      | equal => exact (no b3 a3.1).elim
      | different => exact (no b3 a3.1).elim
      | images l' =>
        obtain ⟨_, v, k1, k2⟩ := a3
        obtain ⟨_, v', m1, m2⟩ := b3
        rw [k1] at m1
        cases m1
        rw [forall₂_unique (r := Json.Image) (fun _ _ _ h1 h2 => image_unique h1 h2) k2 m2]
  have e3 : weight = weight' := by
    cases weight with
    | none =>
      cases weight' with
      | none => rfl
      | some t =>
        obtain ⟨x, hx, _⟩ := b4
        rw [a4] at hx; cases hx
    | some t =>
      cases weight' with
      | none =>
        obtain ⟨x, hx, _⟩ := a4
        rw [b4] at hx; cases hx
      | some t' => rw [field_unique a4 b4]
  subst e3
  have e4 : tunable = tunable' := by
    rw [Bool.eq_iff_iff]
    exact a5.trans b5.symm
  subst e4
  have e5 : share = share' := by
    cases share with
    | none =>
      cases share' with
      | none => rfl
      | some l =>
        obtain ⟨h1, v, h2, _⟩ := b6
        rw [a6 h1] at h2; cases h2
    | some l =>
      cases share' with
      | none =>
        obtain ⟨h1, v, h2, _⟩ := a6
        rw [b6 h1] at h2; cases h2
      | some l' =>
        obtain ⟨_, v, h1, h2⟩ := a6
        obtain ⟨_, v', g1, g2⟩ := b6
        rw [h1] at g1
        cases g1
        rw [names_unique h2 g2]
  rw [e1, e2, e5]

end JsonIn

namespace XmlIn

theorem names_unique {t : Tag} {l l' : List String} (h : t.Names l) (h' : t.Names l') : l = l' := by
  have h1 : t.attributesOf "var" = l.map String.toList := h
  have h2 : t.attributesOf "var" = l'.map String.toList := h'
  rw [h1] at h2
  exact List.map_injective_iff.mpr (fun _ _ h => String.toList_inj.mp h) h2

theorem image_unique {t : Tag} {e e' : List Nat × List Char} (h : t.Image e) (h' : t.Image e') : e = e' := by
  obtain ⟨h1, h2⟩ := h
  obtain ⟨g1, g2⟩ := h'
  rw [h2] at g2
  exact Prod.ext (forall₂_unique (fun _ _ _ a b => a.unique b) h1 g1) (Option.some.inj g2)

theorem fileImages_unique {content : List Char} {l l' : List (List Nat × List Char)} (h : Tag.FileImages content l)
    (h' : Tag.FileImages content l') : l = l' := by
  obtain ⟨ls, h1, h2⟩ := h
  obtain ⟨ls', g1, g2⟩ := h'
  have : ls = ls' := (Text.lines_eq h1).symm.trans (Text.lines_eq g1)
  subst this
  refine forall₂_unique ?_ h2 g2
  rintro line e e' ⟨ws, a1, a2⟩ ⟨ws', b1, b2⟩
  have h3 := (Text.words_spells a1).symm.trans (Text.words_spells b1)
  obtain ⟨h4, h5⟩ := List.append_inj' h3 rfl
  subst h4
  exact Prod.ext (forall₂_unique (fun _ _ _ a b => a.unique b) a2 b2) (by simpa using h5)

theorem says_unique {files : List Char → Option (List Char)} {t : Tag} {d d' : Draft} (h : t.Says files d)
    (h' : t.Says files d') : d = d' := by
  obtain ⟨names, shape, weight, tunable, share⟩ := d
  obtain ⟨names', shape', weight', tunable', share'⟩ := d'
  obtain ⟨a2, a3, a4, a5, a6⟩ := h
  obtain ⟨b2, b3, b4, b5, b6⟩ := h'
  simp only at *
  have e1 := names_unique a2 b2
  have e2 : shape = shape' := by
    cases shape with
    | equal =>
      cases shape' with
      | equal => rfl
      | different => rw [a3] at b3; exact absurd (Option.some.inj b3) (by decide)
      | images l => simp only at a3; rw [a3] at b3; cases b3.1
    | different =>
      cases shape' with
      | equal => rw [a3] at b3; exact absurd (Option.some.inj b3) (by decide)
      | different => rfl
      | images l => simp only at a3; rw [a3] at b3; cases b3.1
    | images l =>
      cases shape' with
      | equal => simp only at b3; rw [b3] at a3; cases a3.1
      | different => simp only at b3; rw [b3] at a3; cases a3.1
      | images l' =>
        obtain ⟨_, a3⟩ := a3
        obtain ⟨_, b3⟩ := b3
        cases hs : t.tryAttribute "Source" with
        | none =>
          rw [hs] at a3 b3
          rw [forall₂_unique (r := Tag.Image) (fun _ _ _ h1 h2 => image_unique h1 h2) a3 b3]
        | some name =>
          rw [hs] at a3 b3
          obtain ⟨c, k1, k2⟩ := a3
          obtain ⟨c', m1, m2⟩ := b3
          rw [k1] at m1
          cases m1
          rw [fileImages_unique k2 m2]
  have e3 : weight = weight' := a4.trans b4.symm
  subst e3
  have e4 : tunable = tunable' := by
    rw [Bool.eq_iff_iff]
    exact a5.trans b5.symm
  subst e4
  have e5 : share = share' := by
    cases share with
    | none =>
      cases share' with
      | none => rfl
      | some l =>
        obtain ⟨h1, v, r, h2, _⟩ := b6
        rw [a6 h1] at h2; cases h2
    | some l =>
      cases share' with
      | none =>
        obtain ⟨h1, v, r, h2, _⟩ := a6
        rw [b6 h1] at h2; cases h2
      | some l' =>
        obtain ⟨_, v, r, h1, h2⟩ := a6
        obtain ⟨_, v', r', g1, g2⟩ := b6
        rw [h1] at g1
        cases g1
        rw [names_unique h2 g2]
  rw [e1, e2, e5]

end XmlIn

/-! ### The import -/

/-- The first evidence which is described for each name is set. -/
theorem told_of {α : Type} {s t : State F} {l : List α} {so : α → String × Nat → Prop} {evs : List (String × Nat)}
    (h1 : ∀ before x after, l = before ++ x :: after → ∀ name k, so x (name, k) → (∀ x' ∈ before, ∀ k', ¬ so x' (name, k')) →
      (name, k) ∈ evs) (h2 : ∀ e ∈ evs, ∃ x ∈ l, so x e)
    (h3 : ∀ name k, (name, k) ∈ evs → ∃ v, v.name = name ∧ (v, k) ∈ t.evidences)
    (h4 : ∀ v k, (v, k) ∈ s.evidences → v.name ∉ evs.map Prod.fst → (v, k) ∈ t.evidences)
    (h5 : ∀ v k, (v, k) ∈ t.evidences → (v, k) ∈ s.evidences ∨ (v.name, k) ∈ evs) : s.Told t (l.map so) := by
  refine ⟨?_, ?_, ?_⟩
  · intro before e after hl name k he hb
    obtain ⟨b', r, g1, g2, g3⟩ := List.map_eq_append_iff.mp hl
    cases r with
    | nil => cases g3
    | cons x a' =>
      rw [List.map_cons] at g3
      cases g3
      refine h3 name k (h1 b' x a' g1 name k he ?_)
      intro x' hx' k'
      exact hb (so x') (by rw [← g2]; exact List.mem_map_of_mem hx') k'
  · intro v k hv hno
    refine h4 v k hv ?_
    intro hm
    obtain ⟨e, he, he'⟩ := List.mem_map.mp hm
    obtain ⟨x, hx, hx'⟩ := h2 e he
    refine hno (so x) (List.mem_map_of_mem hx) e.2 ?_
    rw [← he']; exact hx'
  · intro v k hv
    rcases h5 v k hv with h | h
    · exact Or.inl h
    · obtain ⟨x, hx, hx'⟩ := h2 _ h
      exact Or.inr ⟨so x, List.mem_map_of_mem hx, hx'⟩

theorem forall₂_get {α β : Type} {r : α → β → Prop} : ∀ {l : List α} {m : List β}, List.Forall₂ r l m → ∀ {k : Nat} {a : α},
    l[k]? = some a → ∃ b, m[k]? = some b ∧ r a b
  | _, _, .nil, k, a, h => by cases h
  | _, _, .cons h1 h2, 0, a, h => by cases h; exact ⟨_, rfl, h1⟩
  | _, _, .cons h1 h2, k + 1, a, h => forall₂_get h2 (k := k) h

theorem forall₂_mem {α β : Type} {r : α → β → Prop} : ∀ {l : List α} {m : List β}, List.Forall₂ r l m → ∀ b ∈ m, ∃ a ∈ l, r a b
  | _, _, .nil, b, h => by cases h
  | _, _, .cons h1 h2, b, h => by
    rcases List.mem_cons.mp h with rfl | h
    · exact ⟨_, by simp, h1⟩
    · obtain ⟨a, ha, hab⟩ := forall₂_mem h2 b h
      exact ⟨a, List.mem_cons_of_mem _ ha, hab⟩

theorem declared_of {α : Type} {sv : α → String → Nat → Prop} {l : List α} {us : List Var}
    (h : List.Forall₂ (fun x v => sv x v.name v.size ∧ v.WF) l us) (hn : (us.map fun u => (u.name, u.size)).Nodup) :
    Declared sv l (us.map fun u => (u.name, u.size)) := by
  refine ⟨?_, hn, ?_⟩
  · rw [List.forall₂_map_right_iff]
    exact h.imp fun _ _ h => h.1
  · intro e he
    obtain ⟨u, hu, rfl⟩ := List.mem_map.mp he
    obtain ⟨x, _, hx⟩ := forall₂_mem h u hu
    exact hx.2

theorem JsonIn.import_of {s t : State F} (hr : Reach anyOp s) {tx : FloatText F} {o : ImportOrder} (ho : o.Fair) {inserts : Bool}
    {j : Json} (h : importJson tx o inserts j s = .ok t ()) : ∃ vs ps, j.tryAccess "Variables" = some vs ∧
      j.tryAccess "Potentials" = some ps ∧
      (∀ (k : Nat) x, ps.items[k]? = some x → ∃ d, x.Says d ∧
        t.Contains tx (fun name size => ∃ v ∈ vs.items, v.SaysVar name size) inserts (s.heap.length + k) d) ∧
      (∃ l, Declared Json.SaysVar vs.items l) ∧
      s.Told t (vs.items.map (fun v e => v.SaysObserved e.1 e.2)) := by
  unfold importJson at h
  cases e1 : j.index "Variables" with
  | throw => rw [e1] at h; cases h
  | ub => rw [e1] at h; cases h
  | ok vs =>
    rw [e1] at h
    simp only at h
    cases e2 : Res.foldList (oneVariable o) ⟨[], []⟩ vs.items with
    | throw => rw [e2] at h; cases h
    | ub => rw [e2] at h; cases h
    | ok r =>
      rw [e2] at h
      simp only at h
      cases e3 : j.index "Potentials" with
      | throw => rw [e3] at h; cases h
      | ub => rw [e3] at h; cases h
      | ok ps =>
        rw [e3] at h
        simp only at h
        unfold build at h
        cases e4 : potentials tx o r.vars inserts ps.items [] s with
        | throw s1 => rw [e4] at h; cases h
        | ub => rw [e4] at h; cases h
        | ok s1 pending =>
          rw [e4] at h
          simp only at h
          have hwf := Res.Yields.foldList (c := False) (P := Sized (fun _ => True)) (f := oneVariable o) (l := vs.items)
            (fun r hr v hv => oneVariable_yields hr (fun hc => hc.elim) (fun _ _ _ _ _ _ => trivial))
            (b := ⟨[], []⟩) (fun v hv => by cases hv)
          rw [e2] at hwf
          have hL : ∀ v ∈ r.vars, v.WF := fun v hv => (hwf v hv).1
          obtain ⟨k1, k2, _, k4, k5⟩ := variables_of (fun r x r' hx => oneVariable_of hx) (by simp) e2
          obtain ⟨xs, m1, m2⟩ := potentials_of e4
          have hx : ∀ x ∈ xs, Item r.vars x := by
            intro x hx
            obtain ⟨a, _, ha⟩ := forall₂_mem m1 x hx
            obtain ⟨d, _, hd⟩ := potential_of ho hL ha
            exact hd.item
          obtain ⟨n1, n2, n3, n4, n5⟩ := all_settles ho hx hr k2 m2 h
          obtain ⟨us, u1, u2, u3, _⟩ := k1
          refine ⟨vs, ps, index_of e1, index_of e3, ?_, ⟨_, declared_of u2 u3⟩, told_of
            (fun b x a hl name k hk hb => k4 b x a hl name k hk hb (by simp)) ?_ n3 n4 n5⟩
          · intro k x hk
            obtain ⟨y, hy, hy'⟩ := forall₂_get m1 hk
            obtain ⟨d, hd, hd'⟩ := potential_of ho hL hy'
            refine ⟨d, hd, (n2 k y hy).contains hd' n1 ?_⟩
            intro v hv
            rw [u1] at hv
            obtain ⟨x, hx, hx'⟩ := forall₂_mem u2 v hv
            exact ⟨x, hx, hx'.1⟩
          · intro e he
            rcases k5 e he with he | he
            · cases he
            · exact he

theorem XmlIn.import_of {s t : State F} (hr : Reach anyOp s) {tx : FloatText F} {files : List Char → Option (List Char)}
    {o : ImportOrder} (ho : o.Fair) {inserts : Bool}
    {root : Tag} (h : importXml tx files o inserts root s = .ok t ()) :
      (∀ (k : Nat) x, (root.nestedOf "Potential")[k]? = some x → ∃ d, x.Says files d ∧
        t.Contains tx (fun name size => ∃ v ∈ root.nestedOf "Variable", v.SaysVar name size) inserts (s.heap.length + k) d) ∧
      (∃ l, Declared Tag.SaysVar (root.nestedOf "Variable") l) ∧
      s.Told t ((root.nestedOf "Variable").map (fun v e => v.SaysObserved e.1 e.2)) := by
  unfold importXml at h
  cases e2 : Res.foldList (oneVariable o) ⟨[], []⟩ (root.nestedOf "Variable") with
  | throw => rw [e2] at h; cases h
  | ub => rw [e2] at h; cases h
  | ok r =>
    rw [e2] at h
    simp only at h
    unfold build at h
    cases e4 : potentials tx files o r.vars inserts (root.nestedOf "Potential") [] s with
    | throw s1 => rw [e4] at h; cases h
    | ub => rw [e4] at h; cases h
    | ok s1 pending =>
      rw [e4] at h
      simp only at h
      have hwf := Res.Yields.foldList (c := False) (P := Sized (fun _ => True)) (f := oneVariable o) (l := root.nestedOf "Variable")
        (fun r hr v hv => oneVariable_yields hr (fun hc => hc.elim) (fun _ _ _ _ => trivial))
        (b := ⟨[], []⟩) (fun v hv => by cases hv)
      rw [e2] at hwf
      have hL : ∀ v ∈ r.vars, v.WF := fun v hv => (hwf v hv).1
      obtain ⟨k1, k2, _, k4, k5⟩ := variables_of (fun r x r' hx => oneVariable_of hx) (by simp) e2
      obtain ⟨xs, m1, m2⟩ := potentials_of e4
      have hx : ∀ x ∈ xs, Item r.vars x := by
        intro x hx
        obtain ⟨a, _, ha⟩ := forall₂_mem m1 x hx
        obtain ⟨d, _, hd⟩ := potential_of ho hL ha
        exact hd.item
      obtain ⟨n1, n2, n3, n4, n5⟩ := JsonIn.all_settles ho hx hr k2 m2 h
      obtain ⟨us, u1, u2, u3, _⟩ := k1
      refine ⟨?_, ⟨_, declared_of u2 u3⟩, told_of (fun b x a hl name k hk hb => k4 b x a hl name k hk hb (by simp)) ?_ n3 n4 n5⟩
      · intro k x hk
        obtain ⟨y, hy, hy'⟩ := forall₂_get m1 hk
        obtain ⟨d, hd, hd'⟩ := potential_of ho hL hy'
        refine ⟨d, hd, (n2 k y hy).contains hd' n1 ?_⟩
        intro v hv
        rw [u1] at hv
        obtain ⟨x, hx, hx'⟩ := forall₂_mem u2 v hv
        exact ⟨x, hx, hx'.1⟩
      · intro e he
        rcases k5 e he with he | he
        · cases he
        · exact he

end EFG
