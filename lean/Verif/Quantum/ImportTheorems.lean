import Verif.Quantum.ImportRun

/-!
# Import of `t|ket⟩` circuits: the theorems (C99)
-/

namespace Lambeq
open Diagram
set_option linter.unusedSectionVars false
set_option linter.unusedSimpArgs false

namespace QBox
noncomputable section

/-- The bits that are not post-selected, in the order of the qubits that are measured into them. -/
def openBits (n : Nat) (ms post : List (Nat × Nat)) : List Nat :=
  ((List.range n).filterMap (fun q : Nat => ms.lookup q)).filter (fun b : Nat => decide (b ∉ post.map Prod.fst))

theorem lookup_of_mem {l : List (Nat × Nat)} (h : (l.map Prod.fst).Nodup) {q u : Nat} (hm : (q, u) ∈ l) : l.lookup q = some u := by
  induction l with
  | nil => cases hm
  | cons a l ih =>
    obtain ⟨x, y⟩ := a
    rw [List.map_cons, List.nodup_cons] at h
    rw [List.lookup_cons]
    rcases List.mem_cons.1 hm with e | hm'
    · cases e; simp
    · have : q ≠ x := by rintro rfl; exact h.1 (List.mem_map.2 ⟨_, hm', rfl⟩)
      rw [beq_false_of_ne this]
      exact ih h.2 hm'

theorem lookup_none_iff {l : List (Nat × Nat)} {q : Nat} : l.lookup q = none ↔ q ∉ l.map Prod.fst := by
  induction l with
  | nil => simp
  | cons a l ih =>
    obtain ⟨x, y⟩ := a
    rw [List.lookup_cons]
    by_cases h : q = x
    · subst h; simp
    · rw [beq_false_of_ne h]
      simp only [ih, List.map_cons, List.mem_cons, h, false_or]

section Measured
variable {ms post : List (Nat × Nat)} (hnd : (ms.map Prod.fst).Nodup)
include hnd

theorem mem_free {q : Nat} : q ∈ freeQubits post ms ↔ ∃ b, ms.lookup q = some b ∧ post.lookup b = none := by
  simp only [freeQubits, List.mem_map, List.mem_filter, Option.isNone_iff_eq_none]
  constructor
  · rintro ⟨m, ⟨h1, h2⟩, rfl⟩
    exact ⟨m.2, lookup_of_mem hnd h1, h2⟩
  · rintro ⟨b, h1, h2⟩
    exact ⟨(q, b), ⟨lookup_mem h1, h2⟩, rfl⟩

theorem fixed_nodup : ((fixedQubits post ms).map Prod.fst).Nodup := by
  have : ((fixedQubits post ms).map Prod.fst).Sublist (ms.map Prod.fst) := by
    clear hnd
    induction ms with
    | nil => exact List.Sublist.slnil
    | cons m ms ih =>
      unfold fixedQubits at ih ⊢
      rw [List.filterMap_cons]
      cases h : post.lookup m.2 with
      | none => simpa [h] using ih.cons _
      | some v => simpa [h] using ih
  exact this.nodup hnd

theorem fixed_lookup {q v : Nat} : (fixedQubits post ms).lookup q = some v ↔ ∃ b, ms.lookup q = some b ∧ post.lookup b = some v := by
  constructor
  · intro h
    have := lookup_mem h
    simp only [fixedQubits, List.mem_filterMap, Option.map_eq_some_iff, Prod.mk.injEq] at this
    obtain ⟨m, h1, w, h2, rfl, rfl⟩ := this
    exact ⟨m.2, lookup_of_mem hnd h1, h2⟩
  · rintro ⟨b, h1, h2⟩
    refine lookup_of_mem (fixed_nodup hnd) ?_
    simp only [fixedQubits, List.mem_filterMap, Option.map_eq_some_iff, Prod.mk.injEq]
    exact ⟨(q, b), lookup_mem h1, v, h2, rfl, rfl⟩

/-- The qubits of the wires that stay. -/
def keptQubits (post ms : List (Nat × Nat)) (R : List Nat) : List Nat :=
  R.filter (fun q => ((fixedQubits post ms).lookup q).isNone && decide (q ∈ freeQubits post ms))

theorem kept_iff {q : Nat} : (((fixedQubits post ms).lookup q).isNone && decide (q ∈ freeQubits post ms)) = true ↔ ∃ b, ms.lookup q = some b ∧ post.lookup b = none := by
  rw [Bool.and_eq_true, decide_eq_true_eq, mem_free hnd, Option.isNone_iff_eq_none]
  constructor
  · exact fun h => h.2
  · intro h
    refine ⟨?_, h⟩
    obtain ⟨b, h1, h2⟩ := h
    cases hf : (fixedQubits post ms).lookup q with
    | none => rfl
    | some v =>
      obtain ⟨b', h3, h4⟩ := (fixed_lookup hnd).1 hf
      cases h1.symm.trans h3
      rw [h2] at h4; cases h4

theorem kept_open (z β : Nat → Nat) (R : List Nat) :
    (keptQubits post ms R).length = ((R.filterMap (fun q : Nat => ms.lookup q)).filter (fun b : Nat => decide (b ∉ post.map Prod.fst))).length ∧
    ((keptQubits post ms R).map z = ((R.filterMap (fun q : Nat => ms.lookup q)).filter (fun b : Nat => decide (b ∉ post.map Prod.fst))).map β ↔
      ∀ q ∈ R, ∀ b, ms.lookup q = some b → post.lookup b = none → z q = β b) := by
  induction R with
  | nil => simp [keptQubits]
  | cons q R ih =>
    unfold keptQubits at ih ⊢
    rw [List.filter_cons, List.filterMap_cons]
    cases hm : ms.lookup q with
    | none =>
      rw [if_neg (by rw [kept_iff hnd]; rintro ⟨b, hb, _⟩; rw [hm] at hb; cases hb)]
      simp only
      refine ⟨ih.1, ih.2.trans ?_⟩
      simp [hm]
    | some b =>
      cases hp : post.lookup b with
      | none =>
        rw [if_pos (by rw [kept_iff hnd]; exact ⟨b, hm, hp⟩)]
        simp only
        rw [List.filter_cons, if_pos (by simpa using (lookup_none_iff.1 hp))]
        refine ⟨by simp only [List.length_cons, ih.1], ?_⟩
        rw [List.map_cons, List.map_cons, List.cons.injEq, ih.2]
        simp only [List.mem_cons, forall_eq_or_imp, hm, Option.some.injEq, forall_eq', hp, forall_const]
      | some v =>
        rw [if_neg (by rw [kept_iff hnd]; rintro ⟨b', hb, hb'⟩; rw [hm] at hb; cases hb; rw [hp] at hb'; cases hb')]
        simp only
        have hmem : b ∈ post.map Prod.fst := List.mem_map.2 ⟨_, lookup_mem hp, rfl⟩
        rw [List.filter_cons, if_neg (by simpa using hmem)]
        refine ⟨ih.1, ih.2.trans ?_⟩
        simp only [List.mem_cons, forall_eq_or_imp, hm, Option.some.injEq, forall_eq', hp, reduceCtorEq, false_imp_iff, true_and]

end Measured

theorem kept_wires (n : Nat) (ms post : List (Nat × Nat)) :
    (kept (fixedQubits post ms) (wires n (freeQubits post ms))).map Prod.fst = keptQubits post ms (List.range n) ∧
    (kept (fixedQubits post ms) (wires n (freeQubits post ms))).map Prod.snd = List.replicate (keptQubits post ms (List.range n)).length QOb.bit := by
  have h1 : kept (fixedQubits post ms) (wires n (freeQubits post ms)) = (keptQubits post ms (List.range n)).map (fun i : Nat => (i, QOb.bit)) := by
    rw [kept, wires, List.filter_map, keptQubits]
    have : (List.range n).filter ((fun w : Nat × QOb => ((fixedQubits post ms).lookup w.1).isNone && decide (w.2 = QOb.bit)) ∘ fun i : Nat => (i, if i ∈ freeQubits post ms then QOb.bit else QOb.qubit)) =
        (List.range n).filter (fun q => ((fixedQubits post ms).lookup q).isNone && decide (q ∈ freeQubits post ms)) := by
      refine List.filter_congr (fun i _ => ?_)
      by_cases hi : i ∈ freeQubits post ms <;> simp [hi]
    rw [this]
    refine List.map_congr_left (fun i hi => ?_)
    have := (List.mem_filter.1 hi).2
    rw [Bool.and_eq_true, decide_eq_true_eq] at this
    simp [this.2]
  rw [h1]
  simp [Function.comp_def, List.map_const']

theorem fixed_wires {n : Nat} {ms post : List (Nat × Nat)} (hnd : (ms.map Prod.fst).Nodup) (z : Nat → Nat) :
    (∀ p ∈ fixed (fixedQubits post ms) (wires n (freeQubits post ms)), z p.1 = p.2) ↔ ∀ q < n, ∀ b v, ms.lookup q = some b → post.lookup b = some v → z q = v := by
  simp only [fixed, wires, List.mem_filterMap, List.mem_map, List.mem_range, Option.map_eq_some_iff]
  constructor
  · intro h q hq b v h1 h2
    exact h (q, v) ⟨(q, _), ⟨q, hq, rfl⟩, v, (fixed_lookup hnd).2 ⟨b, h1, h2⟩, rfl⟩
  · rintro h p ⟨w, ⟨q, hq, rfl⟩, v, hv, rfl⟩
    obtain ⟨b, h1, h2⟩ := (fixed_lookup hnd).1 hv
    exact h q hq b v h1 h2

theorem openBits_perm {n : Nat} {ms post : List (Nat × Nat)} {k : Nat} (hnd : (ms.map Prod.fst).Nodup) (hlt : ∀ q ∈ ms.map Prod.fst, q < n) (hbits : (ms.map Prod.snd).Perm (List.range k)) :
    (openBits n ms post).Perm ((List.range k).filter (fun b : Nat => decide (b ∉ post.map Prod.fst))) := by
  have hsnd : (ms.map Prod.snd).Nodup := hbits.nodup_iff.2 List.nodup_range
  refine List.Perm.filter _ (List.Perm.trans ?_ hbits)
  rw [List.perm_ext_iff_of_nodup ?_ hsnd]
  · intro b
    rw [List.mem_filterMap, List.mem_map]
    constructor
    · rintro ⟨q, _, h⟩
      exact ⟨(q, b), lookup_mem h, rfl⟩
    · rintro ⟨m, hm, rfl⟩
      exact ⟨m.1, List.mem_range.2 (hlt _ (List.mem_map.2 ⟨m, hm, rfl⟩)), lookup_of_mem hnd hm⟩
  · refine List.Nodup.filterMap ?_ List.nodup_range
    intro q r b hq hr
    exact measured_unique' hsnd (lookup_mem hq) (lookup_mem hr)

theorem openBits_length {c : TkIn} {gs : List TkGateItem} {ms : List (Nat × Nat)} (h : Importable c gs ms) : (openBits c.nQubits ms c.post).length = c.nBits - c.post.length := by
  rw [(openBits_perm h.nodup h.lt h.bits).length_eq]
  have h1 := project_length (s := List.replicate c.nBits 0) (post := c.post) (by simpa using fun p hp => (h.postLt p hp).1) h.postNodup
  rw [project, List.length_map, List.length_replicate] at h1
  rw [← h1]
  congr 1
  refine List.filter_congr (fun i _ => ?_)
  by_cases hi : i ∈ c.post.map Prod.fst <;> simp [hi]

/-- Multiplication by a number in a mixed circuit. -/
theorem act_scalar (L : List QOb) (κ : ℂ) (v : List Nat → ℂ) (s : List Nat) (hs : s.length = L.length) : cqI.act ⟨L, scalar κ, []⟩ v s = v s * (κ * star κ) := by
  have := cqI.act_split ⟨L, scalar κ, []⟩ v (yl := s) (c := []) [] hs rfl
  rw [List.append_nil, List.append_nil] at this
  rw [this]
  show ∑ i ∈ cqI.idx [], v (s ++ (i ++ [])) * cqI.ten (scalar κ) i [] = _
  rw [Interp.idx, Finset.sum_singleton, (dbl_good (b := scalar κ) trivial rfl (by simp [QBox.dom, cod, sig])).2 [] (by show [] ∈ cqI.idx []; simp [Interp.idx]) [] (by show [] ∈ cqI.idx []; simp [Interp.idx])]
  simp only [List.append_nil]
  have ht : tnCat.interp.ten (scalar κ) [] [] = κ := by
    rw [tnCat_std.ten (b := scalar κ) rfl rfl]
    rfl
  exact congrArg (v s * ·) (by rw [show qOf (scalar κ).dom [] = [] from rfl, show qOf (scalar κ).cod [] = [] from rfl, show rOf (scalar κ).dom [] = [] from rfl, show rOf (scalar κ).cod [] = [] from rfl, ht])

theorem TkPure.dbl {b : QBox} (h : TkPure b) : Dbl b := by
  rcases h with g | g
  · exact dbl_good g.1 g.2.1 g.2.2
  · rw [g]; exact dbl_swap

/-- The imported diagram: its layers, its type and the diagonal of its value. -/
theorem import_all {c : TkIn} {gs : List TkGateItem} {ms : List (Nat × Nat)} (h : Importable c gs ms) :
    ∃ d, fromTk c = .ok d ∧ d.dom = [] ∧ d.cod = List.replicate (c.nBits - c.post.length) QOb.bit ∧ CQOK d ∧
      ∀ y, Bits (c.nBits - c.post.length) y → cqI.mat d [] y =
        (|c.scalar| * joint c.nQubits (tkState c.nQubits gs) (keptQubits c.post ms (List.range c.nQubits)) (fixed (fixedQubits c.post ms) (wires c.nQubits (freeQubits c.post ms))) y : ℝ) := by
  generalize hn : c.nQubits = n
  obtain ⟨ls, g1, g2, g3, g4⟩ := import_gates (n := n) c.post gs (by rw [← hn]; exact h.gates) (ms.map (fun m => TkItem.measure m.1 m.2)) [] ⟨[], qubits n, ketLayers 0 n⟩ rfl
  have hw0 : (wires n []).map Prod.snd = qubits n := by simp [wires, qubits, Function.comp_def, List.map_const']
  have hw0' : (wires n []).map Prod.fst = List.range n := by simp [wires, Function.comp_def]
  obtain ⟨lm, m1, m2, m3, m4⟩ := import_measures (n := n) c.post ms [] [] (by simp) (by simp) (by rw [← hn]; exact h.lt) h.nodup ⟨[], qubits n, ketLayers 0 n ++ ls⟩ hw0.symm
  rw [List.nil_append] at m1 m2 m4
  rw [List.nil_append] at m1
  obtain ⟨ds, e1, e2, e3, e4, e5, e6⟩ := end_boxes (n := n) (fixedQubits c.post ms) (by
      intro b hb
      simp only [fixedQubits, List.mem_filterMap, Option.map_eq_some_iff] at hb
      obtain ⟨m, _, v, hv, rfl⟩ := hb
      exact (h.postLt _ (lookup_mem hv)).2) 0 (wires n (freeQubits c.post ms)) (by simp [wires, Function.comp_def, List.range_eq_range']) (by
      intro w hw hs
      obtain ⟨v, hv⟩ := Option.isSome_iff_exists.1 hs
      obtain ⟨b, b1, b2⟩ := (fixed_lookup h.nodup).1 hv
      obtain ⟨i, _, rfl⟩ := List.mem_map.1 hw
      have : i ∉ freeQubits c.post ms := by
        rw [mem_free h.nodup]
        rintro ⟨b', h3, h4⟩
        cases b1.symm.trans h3
        rw [b2] at h4; cases h4
      simp [this])
  obtain ⟨k1, k2⟩ := kept_wires n ms c.post
  have hlen : (keptQubits c.post ms (List.range n)).length = c.nBits - c.post.length := by
    rw [(kept_open h.nodup (fun _ => 0) (fun _ => 0) (List.range n)).1, ← hn]
    exact openBits_length h
  rw [hlen] at k2
  rw [k2] at e3 e4
  -- the diagram before the scalar
  let D : Diagram QOb QBox := ⟨[], List.replicate (c.nBits - c.post.length) QOb.bit, ketLayers 0 n ++ ls ++ lm ++ (ds.foldr tensor (Diagram.id [])).layers⟩
  have hD : andThen ⟨[], (wires n (freeQubits c.post ms)).map Prod.snd, ketLayers 0 n ++ ls ++ lm⟩ (tensorN (Diagram.id [] :: ds)) = .ok D := by
    rw [andThen_ok_iff, tensorN_eq_foldr, List.foldr_cons, tensor_id_nil_left]
    exact ⟨e2.symm, by rw [e3]⟩
  have c1 : Chain ([] : List QOb) (ketLayers 0 n) (qubits n) := by have := chain_kets 0 n; rwa [Nat.zero_add] at this
  have hch : Chain D.dom D.layers D.cod := ((c1.append g2).append m2).append e4
  have hDbox : ∀ l ∈ D.layers, CQBox l.box ∧ Balanced l := by
    intro l hl
    simp only [D, List.mem_append] at hl
    rcases hl with ((hl | hl) | hl) | hl
    · rw [Balanced, (mem_ketLayers l hl).1]
      exact ⟨.inl (ket_pure _), by simp⟩
    · have hg := g3 l hl
      refine ⟨hg.imp id (fun g => .inr (.inr (.inr (.inr (.inl g))))), fun e => ?_⟩
      rcases hg with g | g
      · rw [e] at g; exact g.1.elim
      · rw [e] at g; cases g
    · rw [Balanced, m3 l hl]
      exact ⟨.inr (.inl rfl), by simp⟩
    · rcases e5 l hl with e | ⟨v, e⟩ <;> rw [Balanced, e]
      · exact ⟨.inr (.inr (.inr (.inl rfl))), by simp⟩
      · exact ⟨.inl ⟨trivial, rfl, by simp [QBox.dom, cod, sig]⟩, by simp⟩
  -- the value before the scalar
  have hpure : ∀ y, Bits n y → tnCat.interp.run (ketLayers 0 n ++ ls) (fun s => if s = [] then 1 else 0) y = tkState n gs y := by
    intro y hy
    rw [Interp.run_append, g4 _ y hy]
    refine applyItems_congr gs (fun z hz => ?_) hy
    have := run_kets 0 n (fun s => if s = [] then (1 : ℂ) else 0) [] z Bits.nil hz
    rw [List.nil_append] at this
    rw [this]; simp
  have hmid : ∀ s ∈ cqI.idx (qubits n), cqI.run (ketLayers 0 n ++ ls) (fun s => if s = [] then 1 else 0) s =
      tnCat.interp.run (ketLayers 0 n ++ ls) (fun s => if s = [] then 1 else 0) (qOf (qubits n) s) *
      star (tnCat.interp.run (ketLayers 0 n ++ ls) (fun s => if s = [] then 1 else 0) (rOf (qubits n) s)) := by
    refine (run_double (a := []) (ketLayers 0 n ++ ls) (by simp) (c1.append g2) ?_ ?_).2
    · intro l hl
      rcases List.mem_append.1 hl with hl | hl
      · rw [(mem_ketLayers l hl).1]
        exact dbl_good (ket_pure _).1 (ket_pure _).2.1 (ket_pure _).2.2
      · exact (g3 l hl).dbl
    · intro s hs
      obtain rfl : s = [] := by simpa [Interp.idx] using hs
      simp [qOf, rOf]
  have hdist0 : Dist n (tkState n gs) (wires n []) [] (cqI.run (ketLayers 0 n ++ ls) (fun s => if s = [] then 1 else 0)) := by
    intro y hy
    have hl : (wires n []).length = n := by simp [wires]
    rw [hl] at hy
    rw [hw0, hw0']
    obtain ⟨d1, d2, d3⟩ := diagIdx_qubits hy
    rw [hmid _ d1, d2, d3, hpure y hy]
    unfold joint
    rw [Finset.sum_eq_single y]
    · rw [if_pos]
      · rw [Complex.star_def, Complex.mul_conj]
      · refine ⟨eq_of_getD (n := n) (by simp) hy.1 (fun k hk => ?_), by simp⟩
        simp [List.getD_eq_getElem?_getD, hk]
    · intro z hz hne
      rw [if_neg]
      rintro ⟨hz', -⟩
      refine hne ?_
      have hz1 := (mem_allBits.1 hz).1
      rw [← hz']
      refine eq_of_getD (n := n) hz1 (by simp) (fun k hk => ?_)
      simp [List.getD_eq_getElem?_getD, hk]
    · intro hn; exact absurd (mem_allBits.2 hy) hn
  have hdist := e6 [] [] _ _ (m4 _ _ hdist0)
  rw [List.nil_append, List.nil_append, List.map_nil, map_extend_nil, ← Interp.run_append, ← Interp.run_append] at hdist
  have hval : ∀ y, Bits (c.nBits - c.post.length) y → cqI.mat D [] y = (joint n (tkState n gs) (keptQubits c.post ms (List.range n)) (fixed (fixedQubits c.post ms) (wires n (freeQubits c.post ms))) y : ℝ) := by
    intro y hy
    have hl : (kept (fixedQubits c.post ms) (wires n (freeQubits c.post ms))).length = c.nBits - c.post.length := by
      rw [← hlen, ← k1, List.length_map]
    have := hdist y (by rw [hl]; exact hy)
    rw [k1, k2, (diagIdx_bits _ y hy.1).1, ← List.append_assoc] at this
    exact this
  have hloop : importLoop c.post c.items ⟨[], qubits n, ketLayers 0 n⟩ [] = .ok (⟨[], (wires n (freeQubits c.post ms)).map Prod.snd, ketLayers 0 n ++ ls ++ lm⟩, fixedQubits c.post ms) := by
    rw [h.items, g1, m1]
  have hfrom : fromTk c = andThen (if c.scalar ≠ 1 then tensor D (ofBox (scalar ((Real.sqrt |c.scalar| : ℝ) : ℂ))) else D) (Diagram.id (List.replicate (c.nBits - c.post.length) QOb.bit)) := by
    unfold fromTk
    rw [hn, kets_ok (by rw [← hn]; exact h.qubits)]
    simp only [hloop, e1, hD, if_neg h.scalar]
  by_cases hs : c.scalar = 1
  · rw [if_neg (by simpa using hs)] at hfrom
    refine ⟨D, ?_, rfl, rfl, ⟨hch, hDbox⟩, ?_⟩
    · rw [hfrom, andThen_ok_iff]
      exact ⟨rfl, by simp [Diagram.id, D]⟩
    · intro y hy
      rw [hval y hy, hs]
      simp
  · rw [if_pos hs] at hfrom
    generalize hκ : ((Real.sqrt |c.scalar| : ℝ) : ℂ) = κ at hfrom
    let D' : Diagram QOb QBox := ⟨[], D.cod, D.layers ++ [⟨D.cod, scalar κ, []⟩]⟩
    have hten : tensor D (ofBox (scalar κ)) = D' := by
      rw [tensor_eq]
      have a1 : (ofBox (scalar κ) : Diagram QOb QBox).dom = [] := rfl
      have a2 : (ofBox (scalar κ) : Diagram QOb QBox).cod = [] := rfl
      rw [a1, a2, map_extend_nil]
      simp [D', D, ofBox, Layer.extend]
    rw [hten] at hfrom
    refine ⟨D', ?_, rfl, rfl, ⟨?_, ?_⟩, ?_⟩
    · rw [hfrom, andThen_ok_iff]
      exact ⟨rfl, by simp [Diagram.id, D', D]⟩
    · show Chain [] (D.layers ++ [⟨D.cod, scalar κ, []⟩]) D.cod
      refine hch.append ⟨?_, ?_⟩
      · show D.cod ++ [] ++ [] = D.cod
        simp
      · show D.cod ++ [] ++ [] = D.cod
        simp
    · intro l hl
      rcases List.mem_append.1 hl with hl | hl
      · exact hDbox l hl
      · rw [List.mem_singleton.1 hl]
        exact ⟨.inl ⟨trivial, rfl, by simp [QBox.dom, cod, sig]⟩, by simp [Balanced]⟩
    · intro y hy
      have : cqI.mat D' [] y = cqI.act ⟨D.cod, scalar κ, []⟩ (fun s => cqI.mat D [] s) y := by
        show cqI.run (D.layers ++ [⟨D.cod, scalar κ, []⟩]) _ y = _
        rw [Interp.run_append]; rfl
      rw [this, act_scalar _ _ _ _ (by rw [hy.1]; simp [D]), hval y hy, ← hκ, Complex.star_def, Complex.conj_ofReal, ← Complex.ofReal_mul, Real.mul_self_sqrt (abs_nonneg _)]
      push_cast
      ring

/-- **C99 (import).** Let a circuit of `t|ket⟩` consist of the operations that `from_tk` knows, and then of measurements of different qubits into all bits; some bits are post-selected. The import succeeds; it has no input
and one bit as output for each bit that is not post-selected; and the entry of `d.eval(mixed=True)` at the values of these bits, in the order of their qubits, is the absolute value of the scalar times the probability of
the values. -/
theorem C99_import_partial {c : TkIn} {gs : List TkGateItem} {ms : List (Nat × Nat)} (h : Importable c gs ms) :
    ∃ d F, fromTk c = .ok d ∧ d.dom = [] ∧ d.cod = List.replicate (c.nBits - c.post.length) QOb.bit ∧ eval d true = .ok F ∧
      (openBits c.nQubits ms c.post).Perm ((List.range c.nBits).filter (fun b : Nat => decide (b ∉ c.post.map Prod.fst))) ∧
      ∀ β, Bits c.nBits β → (∀ p ∈ c.post, β.getD p.1 0 = p.2) →
        F ((openBits c.nQubits ms c.post).map (fun b => β.getD b 0)) = (|c.scalar| * tkProb c.nQubits gs ms β : ℝ) := by
  obtain ⟨d, h1, h2, h3, h4, h5⟩ := import_all h
  obtain ⟨F, hF⟩ := C74_total h4
  refine ⟨d, F, h1, h2, h3, hF, openBits_perm h.nodup h.lt h.bits, ?_⟩
  intro β hβ hpost
  have hlen := openBits_length h
  generalize hy0 : (openBits c.nQubits ms c.post).map (fun b => β.getD b 0) = y
  have hy : Bits (c.nBits - c.post.length) y := by
    rw [← hy0]
    refine ⟨by rw [List.length_map, hlen], fun b hb => ?_⟩
    obtain ⟨i, _, rfl⟩ := List.mem_map.1 hb
    exact getD_bits hβ i
  have hidx : y ∈ cqI.idx d.cod := by
    rw [h3, cqI.mem_idx]
    clear hy0 hlen h3 h5 h2
    generalize c.nBits - c.post.length = k at hy
    induction k generalizing y with
    | zero => obtain rfl := hy.eq_nil; exact .nil
    | succ k ih =>
      obtain ⟨a, y, rfl, ha, hy'⟩ := hy.uncons
      exact .cons ha (ih y hy')
  have hev := eval_cq h4 hF [] (by rw [h2]; simp [Interp.idx]) y hidx
  rw [h5 y hy, h2, h3] at hev
  obtain ⟨b1, b2, b3, b4⟩ := diagIdx_bits (c.nBits - c.post.length) y hy.1
  have hfl : flat [] [] ++ flat (List.replicate (c.nBits - c.post.length) QOb.bit) y = y := by simp [flat, b2, b3, b4, cOf, qOf, rOf]
  rw [hfl] at hev
  rw [hev]
  congr 2
  unfold joint tkProb
  refine Finset.sum_congr rfl (fun z _ => if_congr ?_ rfl rfl)
  rw [← hy0, openBits, (kept_open h.nodup (fun q => z.getD q 0) (fun b => β.getD b 0) (List.range c.nQubits)).2, fixed_wires h.nodup (fun q => z.getD q 0)]
  constructor
  · rintro ⟨f1, f2⟩ m hm
    have hq := h.lt m.1 (List.mem_map.2 ⟨m, hm, rfl⟩)
    have hlk := lookup_of_mem h.nodup hm
    cases hp : c.post.lookup m.2 with
    | none => exact f1 m.1 (List.mem_range.2 hq) m.2 hlk hp
    | some v => rw [f2 m.1 hq m.2 v hlk hp, hpost _ (lookup_mem hp)]
  · intro hall
    refine ⟨fun q _ b hb _ => hall (q, b) (lookup_mem hb), fun q _ b v hb hv => ?_⟩
    rw [hall (q, b) (lookup_mem hb), hpost _ (lookup_mem hv)]

/-- **C99 (order).** If qubits further to the right are measured into later bits, the outputs are the bits that are not post-selected in their order. -/
theorem C99_ordered {c : TkIn} {gs : List TkGateItem} {ms : List (Nat × Nat)} (h : Importable c gs ms)
    (hord : ∀ m ∈ ms, ∀ m' ∈ ms, m.1 < m'.1 → m.2 < m'.2) : openBits c.nQubits ms c.post = (List.range c.nBits).filter (fun b : Nat => decide (b ∉ c.post.map Prod.fst)) := by
  refine List.Perm.eq_of_pairwise (le := (· < ·)) (fun a b _ _ h1 h2 => by omega) ?_ (List.pairwise_lt_range.filter _) (openBits_perm h.nodup h.lt h.bits)
  refine List.Pairwise.filter _ ?_
  rw [List.pairwise_filterMap]
  refine List.pairwise_lt_range.imp ?_
  intro q r hqr b hb b' hb'
  exact hord (q, b) (lookup_mem hb) (r, b') (lookup_mem hb') hqr

end
end QBox
end Lambeq
