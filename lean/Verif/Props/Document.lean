import Verif.Lemmas.DocumentAll
import Verif.Props.Import
/- C55: the model after an import contains what the document says. -/

namespace EFG

section
variable {F : Type} [Arith F]

/-- C55: if the import of a json document returns then every element of "Potentials" describes one factor, and the model
has it in a place of its own, every element of "Variables" describes a variable, whatever the model was before and whatever else the document contains: on the variables
which are described, with the images, the weight and the group which are described. The evidences are the ones which
are described, and the ones of before for the other variables. -/
theorem C55_json {allowed : State F → GOp F → Prop} {s : State F} (h : Reach allowed s) {tx : FloatText F} {o : ImportOrder}
    (ho : o.Fair) {inserts : Bool} {j : Json} {t : State F} (ht : JsonIn.importJson tx o inserts j s = .ok t ()) :
    ∃ vs ps, j.tryAccess "Variables" = some vs ∧ j.tryAccess "Potentials" = some ps ∧
      (∀ (k : Nat) x, ps.items[k]? = some x → ∃ d, x.Says d ∧ (∀ d', x.Says d' → d' = d) ∧
        t.Contains tx (fun name size => ∃ v ∈ vs.items, v.SaysVar name size) inserts (s.heap.length + k) d) ∧
      (∃ l, Declared Json.SaysVar vs.items l) ∧ s.Told t (vs.items.map (fun v e => v.SaysObserved e.1 e.2)) := by
  obtain ⟨vs, ps, h1, h2, h3, h4⟩ := JsonIn.import_of (Ex.Reach.mono (fun _ _ _ => trivial) h) ho ht
  refine ⟨vs, ps, h1, h2, ?_, h4⟩
  intro k x hk
  obtain ⟨d, hd, hd'⟩ := h3 k x hk
  exact ⟨d, hd, fun d' h' => JsonIn.says_unique h' hd, hd'⟩

/-- C55: the same for an xml document, whose images can be in other files. -/
theorem C55_xml {allowed : State F → GOp F → Prop} {s : State F} (h : Reach allowed s) {tx : FloatText F}
    {files : List Char → Option (List Char)} {o : ImportOrder} (ho : o.Fair) {inserts : Bool} {root : Tag} {t : State F}
    (ht : XmlIn.importXml tx files o inserts root s = .ok t ()) :
    (∀ (k : Nat) x, (root.nestedOf "Potential")[k]? = some x → ∃ d, x.Says files d ∧ (∀ d', x.Says files d' → d' = d) ∧
      t.Contains tx (fun name size => ∃ v ∈ root.nestedOf "Variable", v.SaysVar name size) inserts (s.heap.length + k) d) ∧
    (∃ l, Declared Tag.SaysVar (root.nestedOf "Variable") l) ∧ s.Told t ((root.nestedOf "Variable").map (fun v e => v.SaysObserved e.1 e.2)) := by
  obtain ⟨h3, h4⟩ := XmlIn.import_of (Ex.Reach.mono (fun _ _ _ => trivial) h) ho ht
  refine ⟨?_, h4⟩
  intro k x hk
  obtain ⟨d, hd, hd'⟩ := h3 k x hk
  exact ⟨d, hd, fun d' h' => XmlIn.says_unique h' hd, hd'⟩

end

namespace Ex

theorem has_str (s : String) (h : s.toList.flatMap Json.escapeChar = s.toList) : (str s).HasText s.toList := ⟨s.toList, rfl, h.symm⟩

/-- The meaning of the third factor of the document. -/
def third : Draft := ⟨["C"], .images [([0], "1.5".toList)], some "4".toList, true, some ["A"]⟩

theorem denotes_digit {c : Char} (n : Nat) (h : c ∈ "0123456789".toList) (hb : ¬ Blank c) (hs : c ≠ '-' ∧ c ≠ '+')
    (hv : c.toNat - '0'.toNat = n) (hn : n < 10) : Denotes [c] n :=
  ⟨[], [], [c], [], by simp, by simp, by simpa using hb, Or.inr (Or.inr ⟨rfl, by simpa using hs⟩), by simpa using h, by simp, n,
    by simpa using hv, by simp; omega⟩

theorem third_says : (Json.obj [("Variables", str "C"), ("weight", str "4"), ("tunability", str "Y"), ("Share", str "A"),
      ("Distr_val", .arr [.obj [("v", str "0"), ("D", str "1.5")]])]).Says third where
  names := ⟨str "C", rfl, .cons (has_str _ (by decide +kernel)) .nil⟩
  shape := ⟨by decide +kernel, _, rfl, .cons ⟨⟨str "0", rfl, .cons ⟨_, has_str _ (by decide +kernel),
    denotes_digit 0 (by decide +kernel) (by unfold Blank; decide +kernel) (by decide +kernel) (by decide +kernel) (by omega)⟩ .nil⟩,
    ⟨str "1.5", rfl, has_str _ (by decide +kernel)⟩⟩ .nil⟩
  weight := ⟨str "4", rfl, has_str _ (by decide +kernel)⟩
  tunable := ⟨fun _ => ⟨rfl, ⟨str "Y", rfl, has_str _ (by decide +kernel)⟩⟩, fun _ => rfl⟩
  share := ⟨rfl, str "A", rfl, .cons (has_str _ (by decide +kernel)) .nil⟩

end Ex

/-- The document is read into the field. The factor 12 is the third one: it shares the weight of a factor on A. -/
example : Reach FromInside Ex.field ∧ Ex.reading.Fair ∧
    ∃ t, JsonIn.importJson Text.fixed Ex.reading true (Ex.document "C") Ex.field = .ok t () ∧
      t.Contains Text.fixed (fun name size => ∃ v ∈ [Ex.varJson "A" "2" [], Ex.varJson "B" " +2" [("evidence", Ex.str "1")],
        Ex.varJson "C" "2" []], v.SaysVar name size) true 12 Ex.third ∧
      (∃ v, v.name = "B" ∧ (v, 1) ∈ t.evidences) := by
  have h : JsonIn.importJson Text.fixed Ex.reading true (Ex.document "C") Ex.field = .ok (Ex.stateOf Ex.field
      (Ex.load true (Ex.document "C") Ex.field)) () := Ex.isOk_spec (by decide +kernel)
  obtain ⟨vs, ps, h1, h2, h3, _, h4⟩ := C55_json Ex.field_inside Ex.reading_fair h
  cases h1
  cases h2
  obtain ⟨d, _, h5, h6⟩ := h3 2 _ rfl
  rw [← h5 _ Ex.third_says] at h6
  have hl : Ex.field.heap.length = 10 := by decide +kernel
  rw [hl] at h6
  refine ⟨Ex.field_inside, Ex.reading_fair, _, h, h6, ?_⟩
  refine h4.told [_] _ [_] rfl "B" 1 ?_ ?_
  · exact ⟨⟨_, rfl, Ex.has_str _ (by decide +kernel)⟩, _, ⟨_, rfl, Ex.has_str _ (by decide +kernel)⟩,
      Ex.denotes_digit 1 (by decide +kernel) (by unfold Blank; decide +kernel) (by decide +kernel) (by decide +kernel) (by omega)⟩
  · intro e he k' hk
    rw [List.mem_singleton.mp he] at hk
    obtain ⟨_, t, ⟨x, hx, _⟩, _⟩ := hk
    have : (Ex.varJson "A" "2" []).tryAccess "evidence" = none := by decide +kernel
    rw [this] at hx; cases hx

namespace Ex

/-- The meaning of the first factor of the page: its images are in the file. -/
def first : Draft := ⟨["A", "B"], .images [([0, 1], "2".toList), ([1, 1], "2.5".toList)], none, false, none⟩

theorem spells_of (ws : List (List Char)) (line : List Char) (h : Text.words [] line = ws) : Spells ws line := by
  obtain ⟨ws', h1, h2⟩ := Text.spells_words line [] (by simp)
  rw [← h, h1]
  exact h2

theorem first_says : (Tag.mk [("Source", "images".toList), ("var", "A".toList), ("var", "B".toList)] []).Says disk first where
  names := by unfold Tag.Names; decide +kernel
  shape := by
    refine ⟨by decide +kernel, "0 1 2\n1  1 2.5".toList, by decide +kernel, ["0 1 2".toList, "1  1 2.5".toList], ?_, ?_⟩
    · exact ⟨by simp, by decide +kernel, by decide +kernel⟩
    · have d : ∀ (c : Char) (n : Nat), c ∈ "0123456789".toList → ¬ Blank c → (c ≠ '-' ∧ c ≠ '+') → c.toNat - '0'.toNat = n → n < 10 →
          Denotes [c] n := fun c n => denotes_digit n
      have d0 : Denotes "0".toList 0 := d '0' 0 (by decide +kernel) (by unfold Blank; decide +kernel) (by decide +kernel) (by decide +kernel) (by omega)
      have d1 : Denotes "1".toList 1 := d '1' 1 (by decide +kernel) (by unfold Blank; decide +kernel) (by decide +kernel) (by decide +kernel) (by omega)
      exact .cons ⟨["0".toList, "1".toList], spells_of _ _ (by decide +kernel), .cons d0 (.cons d1 .nil)⟩
        (.cons ⟨["1".toList, "1".toList], spells_of _ _ (by decide +kernel), .cons d1 (.cons d1 .nil)⟩ .nil)
  weight := by decide +kernel
  tunable := by simp [first]
  share := by simp [first]

end Ex

/-- The page is read into the path with an observed variable. Its first factor is the one in the file. -/
example : Reach Prudent (Ex.after (Ex.path ++ [.observe Ex.Z 1])) ∧ Ex.reading.Fair ∧
    ∃ t, XmlIn.importXml Text.fixed Ex.disk Ex.reading true (Ex.page "images") (Ex.after (Ex.path ++ [.observe Ex.Z 1])) = .ok t () ∧
      t.Contains Text.fixed (fun name size => ∃ v ∈ (Ex.page "images").nestedOf "Variable", v.SaysVar name size) true
        (Ex.after (Ex.path ++ [.observe Ex.Z 1])).heap.length Ex.first := by
  have h : XmlIn.importXml Text.fixed Ex.disk Ex.reading true (Ex.page "images") (Ex.after (Ex.path ++ [.observe Ex.Z 1])) =
      .ok (Ex.stateOf (Ex.after (Ex.path ++ [.observe Ex.Z 1])) (Ex.loadXml (Ex.page "images")
        (Ex.after (Ex.path ++ [.observe Ex.Z 1])))) () := Ex.isOk_spec (by decide +kernel)
  have hr : Reach Prudent (Ex.after (Ex.path ++ [.observe Ex.Z 1])) := Ex.after_prudent _ (by decide +kernel)
  obtain ⟨h3, _⟩ := C55_xml hr Ex.reading_fair h
  obtain ⟨d, _, h5, h6⟩ := h3 0 _ rfl
  rw [← h5 _ Ex.first_says] at h6
  exact ⟨hr, Ex.reading_fair, _, h, h6⟩

end EFG
