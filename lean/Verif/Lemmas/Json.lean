import Verif.Spec.Json
import Verif.Lemmas.Text
import Verif.Lemmas.Crf
/- Reading what was exported. -/

set_option linter.unusedSectionVars false

namespace EFG

namespace Json

theorem escape_plain {l : List Char} (h : ∀ c ∈ l, Plain c) : l.flatMap escapeChar = l := by
  induction l with
  | nil => rfl
  | cons c l ih =>
    obtain ⟨h1, h2, h3⟩ := h c (by simp)
    rw [List.flatMap_cons, ih (fun d hd => h d (by simp [hd]))]
    have : escapeChar c = [c] := by
      unfold escapeChar
      rw [if_neg h1, if_neg h2, if_neg (by omega), if_neg (by omega), if_neg (by omega), if_neg (by omega),
        if_neg (by omega), if_neg (by omega)]
    rw [this]; rfl

theorem toStr_plain {l : List Char} (h : ∀ c ∈ l, Plain c) : (Json.str l).toStr = .ok l := by
  show Res.ok _ = _
  rw [escape_plain h]

theorem array_items (l : List Json) : (array l).items = l := by
  unfold array
  cases l <;> rfl

end Json

theorem ofNat_plain (n : Nat) : ∀ c ∈ Text.ofNat n, Plain c := by
  intro c hc
  have h1 := (Text.writes_ofNat n).2.1 c hc
  have : ∀ c ∈ "0123456789".toList, Plain c := by decide
  exact this c h1

theorem toStr_ofNat (n : Nat) : (Json.str (Text.ofNat n)).toStr = .ok (Text.ofNat n) := Json.toStr_plain (ofNat_plain n)

namespace JsonIn
variable {F : Type} [Arith F]

/-! ### Variables -/

/-- The variable which is made from an exported one; `L` is the list of the exported variables. -/
def ren (o : ImportOrder) (L : List Var) (v : Var) : Var := ⟨o.fresh (L.idxOf v), v.name, v.size⟩

theorem ren_eqv (o : ImportOrder) (L : List Var) (u v : Var) : (ren o L u).eqv (ren o L v) = u.eqv v := rfl

theorem ren_inj {o : ImportOrder} (ho : o.Fair) {L : List Var} {u v : Var} (hu : u ∈ L) (h : ren o L u = ren o L v) :
    u = v := by
  have h1 : o.fresh (L.idxOf u) = o.fresh (L.idxOf v) := congrArg Var.addr h
  exact (List.idxOf_inj hu).mp (ho.fresh _ _ h1)

/-- The evidences of a list of exported variables. -/
def evs (X : List (Var × Option Nat)) : List (String × Nat) :=
  X.filterMap (fun e => e.2.map (fun x => (e.1.name, x)))

theorem oneVariable_ok {o : ImportOrder} {L : List Var} {done : List (Var × Option Nat)} {v : Var} {ev : Option Nat}
    {rest : List Var} (hL : L = done.map Prod.fst ++ v :: rest) (hd : Distinct L)
    (hn : ∀ u ∈ L, ∀ w ∈ L, u.name = w.name → u = w)
    (hname : v.name ≠ "" ∧ ∀ c ∈ v.name.toList, Plain c) (hsize : v.size < 2 ^ 31) (hpos : 0 < v.size)
    (hev : ∀ x ∈ ev, x < v.size) :
    oneVariable o ⟨(done.map Prod.fst).map (ren o L), evs done⟩ (JsonOut.oneVariable v ev) =
      .ok ⟨((done ++ [(v, ev)]).map Prod.fst).map (ren o L), evs (done ++ [(v, ev)])⟩ := by
  have hnd : L.Nodup := hd.nodup
  have hvL : v ∈ L := by rw [hL]; simp
  have hnot : v ∉ done.map Prod.fst := by
    rw [hL] at hnd
    intro hm
    exact (List.nodup_append.mp hnd).2.2 v hm v (by simp) rfl
  have hidx : L.idxOf v = done.length := by
    rw [hL, List.idxOf_append_of_notMem hnot]; simp
  have hf1 : field (JsonOut.oneVariable v ev) "name" = .ok v.name.toList := by
    have : (JsonOut.oneVariable v ev).access "name" = .ok (.str v.name.toList) := by cases ev <;> rfl
    unfold field
    rw [this]
    exact Json.toStr_plain hname.2
  have hf2 : field (JsonOut.oneVariable v ev) "Size" = .ok (Text.ofNat v.size) := by
    have : (JsonOut.oneVariable v ev).access "Size" = .ok (.str (Text.ofNat v.size)) := by cases ev <;> rfl
    unfold field
    rw [this]
    exact toStr_ofNat _
  have hmk : makeVariable (o.fresh ((done.map Prod.fst).map (ren o L)).length) v.size (String.ofList v.name.toList) =
      .ok (ren o L v) := by
    have h1 : v.name.length ≠ 0 := by
      intro h
      exact hname.1 (by
        rw [← String.toList_inj]
        rw [← String.length_toList] at h
        simpa using h)
    unfold makeVariable
    rw [String.ofList_toList, if_neg h1, if_neg (by omega)]
    unfold ren
    rw [hidx]
    simp
  have hmem : VarSet.mem ((done.map Prod.fst).map (ren o L)) (ren o L v) = false := by
    rw [VarSet.mem_eq_false]
    intro w hw
    obtain ⟨u, hu, rfl⟩ := List.mem_map.mp hw
    rw [ren_eqv]
    have huL : u ∈ L := by rw [hL]; exact List.mem_append_left _ hu
    cases he : u.eqv v with
    | false => rfl
    | true => exact absurd ((hd.eq_of_eqv huL hvL he) ▸ hu) hnot
  unfold oneVariable
  rw [hf1]
  simp only
  rw [hf2]
  simp only
  rw [Text.atoSize_ofNat hsize]
  simp only
  rw [hmk]
  simp only
  unfold addVariable
  rw [hmem, if_neg (by simp)]
  have hemp : VarSet.emplace ((done.map Prod.fst).map (ren o L)) (ren o L v) =
      ((done ++ [(v, ev)]).map Prod.fst).map (ren o L) := by
    unfold VarSet.emplace
    rw [hmem, if_neg (by simp)]
    simp
  cases ev with
  | none =>
    show Res.ok _ = _
    rw [hemp]
    simp [evs]
  | some x =>
    have : (JsonOut.oneVariable v (some x)).tryAccess "evidence" = some (.str (Text.ofNat x)) := rfl
    rw [this]
    simp only
    rw [toStr_ofNat]
    simp only
    rw [Text.atoSize_ofNat (by have := hev x rfl; omega)]
    simp only
    rw [hemp]
    have : emplaceEvidence (evs done) (ren o L v).name x = evs (done ++ [(v, some x)]) := by
      unfold emplaceEvidence
      rw [if_neg]
      · simp [evs, ren]
      · simp only [List.any_eq_true, not_exists, not_and]
        intro e he heq
        obtain ⟨d, hd', hde⟩ := List.mem_filterMap.mp he
        obtain ⟨y, hy, rfl⟩ := Option.map_eq_some_iff.mp hde
        simp only [beq_iff_eq] at heq
        have hdL : d.1 ∈ done.map Prod.fst := List.mem_map_of_mem hd'
        have := hn d.1 (by rw [hL]; exact List.mem_append_left _ hdL) v hvL heq
        exact hnot (this ▸ hdL)
    rw [this]

theorem variables_ok {o : ImportOrder} {L : List Var} (hd : Distinct L)
    (hn : ∀ u ∈ L, ∀ w ∈ L, u.name = w.name → u = w)
    (hname : ∀ v ∈ L, v.name ≠ "" ∧ ∀ c ∈ v.name.toList, Plain c) (hsize : ∀ v ∈ L, v.size < 2 ^ 31 ∧ 0 < v.size)
    (X : List (Var × Option Nat)) : ∀ {done : List (Var × Option Nat)}, L = (done ++ X).map Prod.fst →
    (∀ e ∈ X, ∀ x ∈ e.2, x < e.1.size) →
    Res.foldList (oneVariable o) ⟨(done.map Prod.fst).map (ren o L), evs done⟩
      (X.map (fun e => JsonOut.oneVariable e.1 e.2)) = .ok ⟨L.map (ren o L), evs (done ++ X)⟩ := by
  induction X with
  | nil =>
    intro done hL _
    rw [List.append_nil] at hL ⊢
    rw [List.map_nil, Res.foldList_nil, ← hL]
  | cons e X ih =>
    intro done hL hev
    obtain ⟨v, ev⟩ := e
    have hL' : L = done.map Prod.fst ++ v :: X.map Prod.fst := by rw [hL]; simp
    have hvL : v ∈ L := by rw [hL']; simp
    rw [List.map_cons]
    rw [Res.foldList_cons_ok (oneVariable_ok hL' hd hn (hname v hvL) (hsize v hvL).1 (hsize v hvL).2 (hev _ (by simp)))]
    rw [ih (done := done ++ [(v, ev)]) (by rw [hL]; simp) (fun e he => hev e (by simp [he]))]
    simp

/-! ### Groups -/

theorem findVariable_ok {o : ImportOrder} (ho : o.Fair) {L : List Var}
    (hn : ∀ u ∈ L, ∀ w ∈ L, u.name = w.name → u = w) {v : Var} (hv : v ∈ L)
    (hname : ∀ c ∈ v.name.toList, Plain c) :
    findVariable o (L.map (ren o L)) (.str v.name.toList) = .ok (ren o L v) := by
  unfold findVariable
  rw [Json.toStr_plain hname]
  simp only [String.ofList_toList]
  have hmem : ren o L v ∈ o.found (L.map (ren o L)) := (ho.found _).mem_iff.mpr (List.mem_map_of_mem hv)
  cases hf : (o.found (L.map (ren o L))).find? (fun w => w.name == v.name) with
  | none =>
    have := List.find?_eq_none.mp hf _ hmem
    simp [ren] at this
  | some w =>
    have h1 := List.find?_some hf
    have h2 := (ho.found _).mem_iff.mp (List.mem_of_find?_eq_some hf)
    obtain ⟨u, hu, rfl⟩ := List.mem_map.mp h2
    simp only [beq_iff_eq] at h1
    rw [hn u hu v hv h1]

theorem distinct_ren (o : ImportOrder) (L : List Var) {l : List Var} (h : Distinct l) : Distinct (l.map (ren o L)) := by
  unfold Distinct at h ⊢
  rw [List.pairwise_map]
  exact h

theorem group_ok {o : ImportOrder} (ho : o.Fair) {L : List Var}
    (hn : ∀ u ∈ L, ∀ w ∈ L, u.name = w.name → u = w) {l : List Var} (hl : ∀ v ∈ l, v ∈ L)
    (hname : ∀ v ∈ L, ∀ c ∈ v.name.toList, Plain c) (hd : Distinct l) (hlen : l.length = 1 ∨ l.length = 2) :
    group o (L.map (ren o L)) (JsonOut.group l) = .ok ⟨l.map (ren o L), l.map (ren o L)⟩ := by
  unfold group JsonOut.group
  rw [Json.array_items]
  have : Res.mapList (findVariable o (L.map (ren o L))) (l.map (fun v => Json.str v.name.toList)) =
      .ok (l.map (ren o L)) := by
    rw [Res.mapList_eq_ok, List.forall₂_map_left_iff, List.forall₂_map_right_iff, List.forall₂_same]
    intro v hv
    exact findVariable_ok ho hn (hl v hv) (hname v (hl v hv))
  rw [this]
  simp only [List.length_map]
  rw [if_neg (by omega), Group.ofSoup_eq_ok]
  exact ⟨by intro h; rw [List.map_eq_nil_iff] at h; subst h; simp at hlen, distinct_ren o L hd, rfl⟩

end JsonIn
end EFG
