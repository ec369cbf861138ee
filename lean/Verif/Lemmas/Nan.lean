import Verif.Lemmas.BeliefExact
/-
Where the products of the factors vanish the library divides by zero: what becomes NaN, and what stays a number.
-/

set_option linter.unusedSectionVars false

namespace EFG

namespace Ext
variable {K : Type} [Field K] [LinearOrder K] [FloatParams K]

theorem mul_nan (x : Ext K) : Arith.mul x .nan = .nan := by cases x <;> rfl

theorem nan_mul (x : Ext K) : Arith.mul .nan x = (.nan : Ext K) := rfl

theorem add_nan (x : Ext K) : Arith.add x .nan = .nan := by cases x <;> rfl

theorem nan_add (x : Ext K) : Arith.add .nan x = (.nan : Ext K) := rfl

theorem div_nan (x : Ext K) : Arith.div x .nan = .nan := by cases x <;> rfl

theorem nan_div (x : Ext K) : Arith.div .nan x = (.nan : Ext K) := rfl

theorem div_zero (x : Ext K) : Arith.div x (.val 0) = .nan := by
  cases x with
  | nan => rfl
  | val x =>
    change (if (0 : K) = 0 then (.nan : Ext K) else _) = .nan
    rw [if_pos rfl]

theorem foldl_add_nan {α : Type} (g : α → Ext K) (l : List α) (x : Ext K) (h : x = .nan ∨ ∃ a ∈ l, g a = .nan) :
    l.foldl (fun acc a => Arith.add acc (g a)) x = .nan := by
  induction l generalizing x with
  | nil =>
    rcases h with h | ⟨a, ha, _⟩
    · exact h
    · simp at ha
  | cons b l ih =>
    refine ih _ ?_
    rcases h with rfl | ⟨a, ha, hg⟩
    · exact Or.inl (nan_add _)
    · rcases List.mem_cons.1 ha with rfl | ha
      · exact Or.inl (by simp only [hg, add_nan])
      · exact Or.inr ⟨a, ha, hg⟩

theorem foldl_mul_nan {α : Type} (g : α → Ext K) (l : List α) (x : Ext K) (h : x = .nan ∨ ∃ a ∈ l, g a = .nan) :
    l.foldl (fun acc a => Arith.mul acc (g a)) x = .nan := by
  induction l generalizing x with
  | nil =>
    rcases h with h | ⟨a, ha, _⟩
    · exact h
    · simp at ha
  | cons b l ih =>
    refine ih _ ?_
    rcases h with rfl | ⟨a, ha, hg⟩
    · exact Or.inl (nan_mul _)
    · rcases List.mem_cons.1 ha with rfl | ha
      · exact Or.inl (by simp only [hg, mul_nan])
      · exact Or.inr ⟨a, ha, hg⟩

end Ext

namespace Fn
variable {K : Type} [Field K] [LinearOrder K] [IsStrictOrderedRing K] [FloatParams K]

/-- All the images of a unary factor are NaN. -/
def IsNan (u : Var) (f : Fn (Ext K)) : Prop := ∀ i < u.size, f.timg [i] = .nan

/-- Merging factors whose products are all zero, or all NaN. -/
theorem mergedUnaries_nan {v : Var} {fs : List (Fn (Ext K))} (hne : fs ≠ []) (hu : ∀ f ∈ fs, f.Unary v)
    (h : (∀ i < v.size, prodImg fs i = .val 0) ∨ ∃ f ∈ fs, f.IsNan v) :
    ∃ m, mergedUnaries fs = .ok m ∧ m.Unary v ∧ m.IsNan v := by
  obtain ⟨m, M, h1, h2, _, h4, h5⟩ := Fn.mergedUnaries_eq hne hu
  have hpos : 0 < v.size := by
    cases fs with
    | nil => exact absurd rfl hne
    | cons f fs => exact (hu f (by simp)).pos
  obtain ⟨n, hn⟩ := Nat.exists_eq_succ_of_ne_zero hpos.ne'
  refine ⟨m, h1, h2, fun i hi => ?_⟩
  rw [h5 i hi]
  rcases h with h | ⟨f, hf, hnan⟩
  · have hM : M = .val 0 := by
      have hl : (List.range v.size).map (prodImg fs) = ((List.range v.size).map (fun _ => (0 : K))).map Ext.val := by
        rw [List.map_map]
        exact List.map_congr_left (fun i hi => h i (by simpa using hi))
      rw [hl, hn, List.range_succ_eq_map] at h4
      simp only [List.map_cons, Arith.maxElement, Ext.maxFrom_val, Res.ok.injEq] at h4
      rw [← h4]
      congr 1
      rcases Ext.maxK_mem (0 : K) ((List.map Nat.succ (List.range n)).map (fun _ => (0 : K))) with h' | h'
      · exact h'
      · obtain ⟨_, _, he⟩ := List.mem_map.1 h'
        exact he.symm
    rw [hM, Ext.div_zero, Ext.mul_nan]
  · have hp : ∀ i < v.size, prodImg fs i = .nan := fun i hi =>
      Ext.foldl_mul_nan (fun f : Fn (Ext K) => f.timg [i]) fs _ (Or.inr ⟨f, hf, hnan i hi⟩)
    rw [hp i hi, Ext.nan_mul]

/-- A message computed from NaN. -/
theorem msgVal_nan {x : Var} {ms b : Fn (Ext K)} (hx : 0 < x.size) (h : ms.IsNan x) (r : Nat) :
    msgVal .sum x ms b r = .nan := by
  unfold msgVal
  refine Ext.foldl_add_nan (fun s => Arith.mul (ms.timg [s]) (bimg x b r s)) _ _ (Or.inr ⟨0, by simpa using hx, ?_⟩)
  rw [h 0 hx, Ext.nan_mul]

/-- The probabilities of a unary factor made of NaN. -/
theorem Unary.probabilities_nan {v : Var} {f : Fn (Ext K)} (h : f.Unary v) (hn : f.IsNan v) :
    f.probabilities = .ok (List.replicate v.size .nan) := by
  have hI : f.images = .ok ((List.range v.size).map (fun _ => .nan)) := by
    rw [h.images]
    congr 1
    exact List.map_congr_left (fun i hi => hn i (by simpa using hi))
  have hsum : Arith.sum ((List.range v.size).map (fun _ => (.nan : Ext K))) = .nan := by
    unfold Arith.sum
    exact Ext.foldl_add_nan id _ _ (Or.inr ⟨.nan, by simp [h.pos.ne'], rfl⟩)
  unfold Fn.probabilities
  rw [hI]
  simp only [hsum]
  rw [if_neg (by intro h; cases h)]
  simp only [List.map_map, Ext.div_nan, Res.ok.injEq]
  exact List.map_const' .. ▸ by simp

end Fn

namespace State
variable {K : Type} [Field K] [LinearOrder K] [IsStrictOrderedRing K] [FloatParams K]
variable {R : Type} [CommSemiring R]

/-- The merged unaries of a hidden variable: proportional to the product, or NaN where the product vanishes. -/
theorem merged_cases {s : State (Ext K)} (hs : Core s) (hsep : Separated s) (hf : Coherent s)
    (hevid : ∀ u v c k, u ∉ s.obs → s.dis u v = some c → AMap.find? s.evidences v = some k →
      ∃ m, c.message = some m ∧ IsEvid s c.factor v k m)
    (hnum : Numeric s) {u : Var} (hu : u ∈ s.hid) {mg : Fn (Ext K)} (hmg : s.mrg u = some mg) :
    (∃ c : K, 0 < c ∧ ∀ i < u.size, mg.timg [i] = .val (c * s.psiK u i)) ∨
      (mg.IsNan u ∧ ∀ i < u.size, s.psiK u i = 0) := by
  by_cases hne : ∃ i < u.size, s.psiK u i ≠ 0
  · exact Or.inl (merged_val hs hsep hf hevid hnum hu hmg hne)
  · push Not at hne
    obtain ⟨huv, huo⟩ := mem_hid.mp hu
    obtain ⟨ord, hord, hval⟩ := hf u huv huo mg hmg
    refine Or.inr ⟨?_, hne⟩
    obtain ⟨fs, hall, hprod, ⟨rfl, rfl⟩ | ⟨hfs, e⟩⟩ := mergedVal_prod hs hsep hevid hnum hu hord hval
    · have h0 := hs.posV u huv
      have h1 := hprod 0 h0
      rw [hne 0 h0] at h1
      simp only [Fn.prodImg, List.foldl_nil, Ext.one_eq, Ext.val.injEq] at h1
      exact absurd h1 one_ne_zero
    · obtain ⟨m, e1, _, e3⟩ := Fn.mergedUnaries_nan hfs hall
        (Or.inl (fun i hi => by rw [hprod i hi, hne i hi]))
      rw [e] at e1
      cases e1
      exact e3

/-- Merging the unary factors of a variable and some messages, each of which is a number or NaN. -/
theorem gathered_cases {s : State (Ext K)} (hs : Core s) {u : Var} {mg : Fn (Ext K)} (hmg : s.mrg u = some mg)
    {G : Nat → K} (hmv : (∃ c : K, 0 < c ∧ ∀ i < u.size, mg.timg [i] = .val (c * G i)) ∨ (mg.IsNan u ∧ ∀ i < u.size, G i = 0))
    {g : Var → Nat → K} {L : List Var}
    {ms : List (Fn (Ext K))} (hf : List.Forall₂ (fun w m => s.msg u w = some m) L ms) (hmu : ∀ m ∈ ms, m.Unary u)
    (hg : ∀ w ∈ L, ∃ m, s.msg u w = some m ∧ ((∃ c : K, 0 < c ∧ ∀ i < u.size, m.timg [i] = .val (c * g w i)) ∨
      (m.IsNan u ∧ ∀ i < u.size, g w i = 0)))
    (h0 : ∀ i < u.size, 0 ≤ G i * (L.map (fun w => g w i)).prod) :
    ∃ f, Fn.mergedUnaries (mg :: ms) = .ok f ∧ f.Unary u ∧
      ((∃ D : K, 0 < D ∧ (∀ i < u.size, f.timg [i] = .val (D * (G i * (L.map (fun w => g w i)).prod))) ∧
          ∃ i < u.size, G i * (L.map (fun w => g w i)).prod ≠ 0) ∨
        (f.IsNan u ∧ ∀ i < u.size, G i * (L.map (fun w => g w i)).prod = 0)) := by
  have hun : ∀ m ∈ mg :: ms, m.Unary u := by
    intro m hm
    rcases List.mem_cons.1 hm with rfl | hm
    · exact hs.mrgT _ _ hmg
    · exact hmu m hm
  have hmem : ∀ w ∈ L, ∀ m, s.msg u w = some m → m ∈ ms := by
    intro w hw m hm
    clear hmu hg h0 hun
    induction hf with
    | nil => simp at hw
    | @cons w' m' L ms h _ ih =>
      rcases List.mem_cons.1 hw with rfl | hw
      · rw [h] at hm; cases hm; simp
      · exact List.mem_cons_of_mem _ (ih hw)
  rcases hmv with ⟨c, hc, hmv⟩ | ⟨hnan, hz⟩
  swap
  · obtain ⟨f, e1, e2, e3⟩ := Fn.mergedUnaries_nan (by simp) hun (Or.inr ⟨mg, by simp, hnan⟩)
    exact ⟨f, e1, e2, Or.inr ⟨e3, fun i hi => by rw [hz i hi, zero_mul]⟩⟩
  by_cases hall : ∀ w ∈ L, ∃ m, s.msg u w = some m ∧ ∃ c : K, 0 < c ∧ ∀ i < u.size, m.timg [i] = .val (c * g w i)
  · by_cases hpos : ∃ i < u.size, G i * (L.map (fun w => g w i)).prod ≠ 0
    · obtain ⟨f, e1, e2, D, hD, e3, _⟩ := gathered_val hs hmg hc hmv hf hmu hall h0 hpos
      exact ⟨f, e1, e2, Or.inl ⟨D, hD, e3, hpos⟩⟩
    · push Not at hpos
      obtain ⟨C, hC, h1⟩ := messages_prod hf hall
      obtain ⟨f, e1, e2, e3⟩ := Fn.mergedUnaries_nan (fs := mg :: ms) (by simp) hun (Or.inl (by
        intro i hi
        obtain ⟨h2, h3⟩ := h1 i hi
        rw [Fn.prodImg_cons_val (hmv i hi) (Fn.prodImg_val h2) h2, h3]
        congr 1
        rw [mul_mul_mul_comm, hpos i hi, mul_zero]))
      exact ⟨f, e1, e2, Or.inr ⟨e3, hpos⟩⟩
  · push Not at hall
    obtain ⟨w, hw, hbad⟩ := hall
    obtain ⟨m, hm, hcase⟩ := hg w hw
    rcases hcase with ⟨c', hc', hval⟩ | ⟨hnan, hz⟩
    · obtain ⟨i, hi, hne⟩ := hbad m hm c' hc'
      exact absurd (hval i hi) hne
    · obtain ⟨f, e1, e2, e3⟩ := Fn.mergedUnaries_nan (by simp) hun
        (Or.inr ⟨m, List.mem_cons_of_mem _ (hmem w hw m hm), hnan⟩)
      refine ⟨f, e1, e2, Or.inr ⟨e3, fun i hi => ?_⟩⟩
      rw [List.prod_eq_zero (List.mem_map.2 ⟨w, hw, hz i hi⟩), mul_zero]

/-- The messages of the library which go towards a variable are proportional to the ones of the theory, or NaN. -/
theorem messages_cases (q : Quant .sum K R) {s : State (Ext K)} (hH : Healthy s) (hF : Faithful s) (hN : Numeric s)
    {nodes : List Var} {ts : List Topo} (hset : Setting s nodes ts) (hty : TypedMsgs s) (hex : Exact .sum s ts)
    {v : Var} (hv : v ∈ nodes)
    {μ : Var → Var → Nat → R} (hμ1 : ∀ u w, ¬s.adj u w → ∀ j, μ u w j = 1)
    (hfix : Tree.Fixed Var.size (s.psiR q) (s.edgeR q) s.hid (Tree.Toward s.adj v) μ) :
    ∀ u y, Tree.Toward s.adj v u y → ∃ m, s.msg y u = some m ∧
      ((∃ c : K, 0 < c ∧ ∀ j < y.size, m.timg [j] = .val (c * q.toK (μ u y j))) ∨
        (m.IsNan y ∧ ∀ j < y.size, q.toK (μ u y j) = 0)) := by
  have hs := hH.inv.toCore
  obtain ⟨r, hin, hr⟩ := hset.inward hs hex hv
  have hcl : ∀ u w, s.adj w u → u ∈ nodes → w ∈ nodes := fun u w h hu => hset.closed u hu w (hs.net.symA _ _ h.2.2)
  have main : ∀ k u y, Tree.Toward s.adj v u y → r u y = k → ∃ m, s.msg y u = some m ∧
      ((∃ c : K, 0 < c ∧ ∀ j < y.size, m.timg [j] = .val (c * q.toK (μ u y j))) ∨
        (m.IsNan y ∧ ∀ j < y.size, q.toK (μ u y j) = 0)) := by
    intro k
    induction k using Nat.strong_induction_on with
    | _ k ih =>
      intro u y huy hk
      obtain ⟨_, hun, hyn⟩ := huy.restrict (comp := fun u => u ∈ nodes) hv hcl
      have hadj := huy.adj
      have hsz : u.size = y.size := hH.flow.sq u y (hset.hid u hun) (hset.hid y hyn) hadj.2.2
      have huh : u ∈ s.hid := mem_hid.mpr ⟨(hs.act_vars hadj.2.2).1, hset.hid u hun⟩
      -- the update
      obtain ⟨rank, hrk⟩ := hex
      obtain ⟨t, ht, e1, e2⟩ := hset.topo.all u hun y hadj.2.2
      obtain ⟨m, hm, hsend, _⟩ := hrk t ht
      have hfrom := hset.topo.from_ t ht
      have hat := hset.at_ ht
      have hdeps := hsend.hasDeps hat
      obtain ⟨ms, d1, d2⟩ := depMessages_some (fun r hr => hat.depActive hr) hdeps
      obtain ⟨mg, deps, p, b1, b2, b3, b4⟩ := hsend
      rw [d1] at b2
      cases b2
      rw [e1] at b1 b3 hfrom
      rw [e2] at b3 hm
      rw [hfrom] at hm
      refine ⟨m, hm, ?_⟩
      -- the list of the senders
      set L := t.deps.map (·.from_) with hLdef
      have hown : ∀ r ∈ t.deps, r.owner = u := fun r hr => by rw [← e1]; exact ((hset.topo.deps t ht r).mp hr).1
      have hLnd : L.Nodup := by
        refine (List.nodup_map_iff_inj_on (hset.topo.depsNodup t ht)).mpr ?_
        intro r hr r' hr' h
        have := hown r hr
        have := hown r' hr'
        cases r; cases r'
        simp_all
      have hLmem : ∀ w, w ∈ L ↔ s.adj w u ∧ ¬w = y := by
        intro w
        rw [hLdef, List.mem_map]
        constructor
        · rintro ⟨r, hr, rfl⟩
          obtain ⟨_, g2, g3⟩ := (hset.topo.deps t ht r).mp hr
          rw [e1] at g3
          rw [e2] at g2
          exact ⟨hs.adj_symm (hset.act_adj hs hun g3), g2⟩
        · rintro ⟨g1, g2⟩
          refine ⟨⟨u, w⟩, ?_, rfl⟩
          rw [hset.topo.deps t ht, e1, e2]
          exact ⟨rfl, g2, hs.net.symA _ _ g1.2.2⟩
      have hf2 : List.Forall₂ (fun w m => s.msg u w = some m) L ms := by
        rw [hLdef, List.forall₂_map_left_iff]
        have : ∀ (l : List ConnRef) (ms : List (Fn (Ext K))), (∀ r ∈ l, r.owner = u) →
            List.Forall₂ (fun r m => s.msg r.owner r.from_ = some m) l ms →
            List.Forall₂ (fun r m => s.msg u r.from_ = some m) l ms := by
          intro l ms hl h
          induction h with
          | nil => exact .nil
          | cons h _ ih =>
            refine .cons ?_ (ih (fun r hr => hl r (by simp [hr])))
            rw [hl _ (by simp)] at h; exact h
        exact this _ _ hown d2
      have hmsu : ∀ m ∈ ms, m.Unary u := by
        intro m hm
        obtain ⟨w, _, h3⟩ := forall₂_mem_right hf2 hm
        exact hty u w m (hset.hid u hun) h3
      have hgv : ∀ w ∈ L, ∃ m, s.msg u w = some m ∧
          ((∃ c : K, 0 < c ∧ ∀ i < u.size, m.timg [i] = .val (c * q.toK (μ w u i))) ∨
            (m.IsNan u ∧ ∀ i < u.size, q.toK (μ w u i) = 0)) := by
        intro w hw
        obtain ⟨g1, g2⟩ := (hLmem w).mp hw
        have := hr w u y hun g1 hadj g2
        exact ih _ (by omega) w u (.step huy g1 g2) rfl
      -- the products
      set g : Nat → R := fun i => s.psiR q u i * (s.hid.map (fun w => if w = y then 1 else μ w u i)).prod with hgdef
      have hgK : ∀ i < u.size, q.toK (g i) = s.psiK u i * (L.map (fun w => q.toK (μ w u i))).prod := by
        intro i hi
        rw [hgdef]
        simp only
        rw [prod_neighbours hs hLnd (ex := fun w => w = y) hLmem (μ := fun w => μ w u) (fun w h => hμ1 w u h) i, q.mul, q.prod]
        unfold psiR
        rw [q.toK_ofK _ (hN.psiK_nonneg hs u hi)]
      obtain ⟨f, f1, f2, hcase⟩ := gathered_cases hs b1
        (merged_cases hs hH.sep hF.coh hF.evid hN huh b1) hf2 hmsu hgv
        (fun i hi => by rw [← hgK i hi]; exact q.nonneg _)
      -- the message
      obtain ⟨_, b, hb, hbin⟩ := hs.link _ _ _ b3
      have hbin' := hbin.symm
      unfold newMessage at b4
      rw [f1] at b4
      simp only at b4
      rw [deref_eq hb] at b4
      simp only at b4
      obtain ⟨m', g1, g2, _, g4⟩ := hbin'.message f2 .sum (by omega)
      rw [b4] at g1
      cases g1
      have hlnk : s.lnk u y = some p := by rw [hs.net.symL]; exact b3
      rcases hcase with ⟨D, hD, f3, _⟩ | ⟨hnan, hzero⟩
      · refine Or.inl ⟨D, hD, fun j hj => ?_⟩
        have himg : ∀ i j, s.imgB u y i j = (Fn.bimg u b i j).toK := by
          intro i j
          unfold imgB
          rw [hlnk]
          simp only
          rw [hb]
        rw [g4 j hj, if_pos (by omega)]
        have hbv : ∀ i < u.size, Fn.bimg u b j i = .val (s.imgB u y j i) := by
          intro i hi
          rw [himg]
          exact (hN.bin u y p b hlnk hb j (by omega) i (by omega)).1.eq
        have hfv : ∀ i < u.size, f.timg [i] = .val (D * q.toK (g i)) := by
          intro i hi
          rw [f3 i hi, hgK i hi]
        rw [Fn.msgVal_val (μ := fun i => D * q.toK (g i)) (φ := fun i => s.imgB u y j i) hfv hbv]
        congr 1
        rw [hfix u y huy j]
        refine q.red hD.le u.size g (fun i => s.edgeR q u y i j) (fun i => s.imgB u y j i) ?_ ?_
        · intro i hi
          unfold edgeR
          rw [if_pos hadj, q.toK_ofK _ (hN.imgB_nonneg u y (by omega) (by omega))]
        · intro hkind; cases hkind
      · refine Or.inr ⟨fun j hj => ?_, fun j hj => ?_⟩
        · rw [g4 j hj, if_pos (by omega), Fn.msgVal_nan (by omega) hnan]
        · rw [hfix u y huy j, q.eq_zero]
          refine Finset.sum_eq_zero (fun i hi => ?_)
          have hi : i < u.size := by simpa using hi
          have := hzero i hi
          rw [← hgK i hi, q.eq_zero] at this
          change g i * _ = 0
          rw [this, zero_mul]
  intro u y huy
  exact main _ u y huy rfl

end State
end EFG
