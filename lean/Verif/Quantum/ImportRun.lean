import Verif.Quantum.ImportGates

/-!
# Import of `t|ket⟩` circuits: the phases of `from_tk`
-/

namespace Lambeq
open Diagram
set_option linter.unusedSectionVars false
set_option linter.unusedSimpArgs false

namespace QBox
noncomputable section

theorem putAt_ok_iff {d box r : Diagram QOb QBox} {i : Nat} : putAt d box i = .ok r ↔ d.cod = d.cod.take i ++ box.dom ++ d.cod.drop (i + box.dom.length) ∧
    r = ⟨d.dom, d.cod.take i ++ box.cod ++ d.cod.drop (i + box.dom.length), d.layers ++ box.layers.map (Layer.extend (d.cod.take i) (d.cod.drop (i + box.dom.length)))⟩ := by
  rw [← thenAt_ok_iff]
  unfold putAt thenAt
  rw [pySlice_nat_to, show ((i : Int) + (box.dom.length : Int)) = ((i + box.dom.length : Nat) : Int) by push_cast; rfl, pySlice_nat_from]

/-! ## Operations -/

theorem tkApply_congr (name : String) (ps : List ℝ) (args : List Nat) {n : Nat} {v w : List Nat → ℂ} (h : ∀ y, Bits n y → v y = w y) {y : List Nat} (hy : Bits n y) :
    tkApply name ps args v y = tkApply name ps args w y := by
  unfold tkApply applied
  split
  · split
    · exact h _ (tk_bits_set (tk_bits_set hy (getD_bits hy _)) (getD_bits hy _))
    · exact h _ hy
  · rw [h _ (tk_bits_set hy (by omega)), h _ (tk_bits_set hy (by omega)), h y hy]

theorem applyItems_congr (gs : List TkGateItem) {n : Nat} {v w : List Nat → ℂ} (h : ∀ y, Bits n y → v y = w y) {y : List Nat} (hy : Bits n y) :
    gs.foldl (fun v g => g.apply v) v y = gs.foldl (fun v g => g.apply v) w y := by
  induction gs generalizing v w with
  | nil => exact h y hy
  | cons g gs ih => exact ih (fun z hz => tkApply_congr _ _ _ h hz)

/-- The loop over the operations. -/
theorem import_gates {n : Nat} (post : List (Nat × Nat)) (gs : List TkGateItem) (hgs : ∀ g ∈ gs, g.OK n) (rest : List TkItem) (bras : List (Nat × Nat)) (d : Diagram QOb QBox) (hd : d.cod = qubits n) :
    ∃ ls, importLoop post (gs.map TkGateItem.item ++ rest) d bras = importLoop post rest ⟨d.dom, qubits n, d.layers ++ ls⟩ bras ∧ Chain (qubits n) ls (qubits n) ∧ (∀ l ∈ ls, TkPure l.box) ∧
      ∀ v y, Bits n y → tnCat.interp.run ls v y = gs.foldl (fun v g => g.apply v) v y := by
  induction gs generalizing d with
  | nil =>
    refine ⟨[], ?_, rfl, by simp, fun v y _ => rfl⟩
    obtain ⟨dd, dc, dl⟩ := d
    simp only at hd
    simp [hd]
  | cons g gs ih =>
    obtain ⟨box, off, e1, h⟩ := gate_ok (hgs g (by simp))
    have t1 : (qubits n).take off = qubits off := by simp [qubits, Nat.min_eq_left (show off ≤ n by have := h.fits; omega)]
    have t2 : (qubits n).drop (off + box.dom.length) = qubits (n - (off + box.dom.length)) := by simp [qubits]
    have hput := (putAt_ok_iff (d := d) (box := box) (i := off)).2 ⟨by
      rw [hd, t1, t2]
      conv_rhs => rw [h.dom]
      rw [qubits_len, qubits_append, qubits_append]
      congr 1
      have := h.fits; omega, rfl⟩
    rw [hd, t1, t2, h.cod] at hput
    have hq : qubits off ++ box.dom ++ qubits (n - (off + box.dom.length)) = qubits n := by
      rw [h.dom, qubits_len, qubits_append, qubits_append]
      congr 1
      have := h.fits; omega
    rw [hq] at hput
    obtain ⟨ls, i1, i2, i3, i4⟩ := ih (fun g hg => hgs g (List.mem_cons_of_mem _ hg)) ⟨d.dom, qubits n, d.layers ++ box.layers.map (Layer.extend (qubits off) (qubits (n - (off + box.dom.length))))⟩ rfl
    have hch := Chain.extend (qubits off) (qubits (n - (off + box.dom.length))) h.chain
    rw [hq] at hch
    refine ⟨box.layers.map (Layer.extend (qubits off) (qubits (n - (off + box.dom.length)))) ++ ls, ?_, hch.append i2, ?_, ?_⟩
    · rw [List.map_cons, List.cons_append]
      show (match boxAndOffset g.name g.params g.args with | .error e => _ | .ok (box, offset) => _) = _
      rw [e1]
      simp only
      rw [hput]
      simp only
      rw [i1, List.append_assoc]
    · intro l hl
      rcases List.mem_append.1 hl with hl | hl
      · obtain ⟨l', hl', rfl⟩ := List.mem_map.1 hl
        exact h.pure l' hl'
      · exact i3 l hl
    · intro v y hy
      rw [Interp.run_append, i4 _ y hy, List.foldl_cons]
      exact applyItems_congr gs (fun z hz => h.does v z hz) hy

/-! ## Qubits -/

theorem ketLayers_extend (k n : Nat) : (ketLayers k n).map (Layer.extend (qubits 1) []) = ketLayers (k + 1) n := by
  induction n generalizing k with
  | zero => rfl
  | succ n ih =>
    simp only [ketLayers, List.map_cons, ih, Layer.extend, List.append_nil, qubits_append]
    rw [Nat.add_comm 1 k]

theorem foldr_kets (n : Nat) : (List.replicate n (ofBox (ket false) : Diagram QOb QBox)).foldr tensor (Diagram.id []) = ⟨[], qubits n, ketLayers 0 n⟩ := by
  induction n with
  | zero => rfl
  | succ n ih =>
    rw [List.replicate_succ, List.foldr_cons, ih, tensor_eq]
    simp only [Diagram.mk.injEq]
    refine ⟨rfl, ?_, ?_⟩
    · show [QOb.qubit] ++ qubits n = _
      rw [Nat.add_comm n 1, ← qubits_append]; rfl
    · show [Layer.extend [] [] ⟨[], ket false, []⟩] ++ (ketLayers 0 n).map (Layer.extend (qubits 1) []) = _
      rw [ketLayers_extend]; rfl

theorem kets_ok {n : Nat} (hn : 0 < n) : kets n = .ok ⟨[], qubits n, ketLayers 0 n⟩ := by
  match n, hn with
  | 1, _ => rfl
  | n + 2, _ =>
    rw [kets, tensorN_eq_foldr, List.foldr_cons, foldr_kets, tensor_eq]
    simp only [Diagram.id, List.map_nil, List.nil_append]
    congr 2
    exact (List.map_congr_left (fun l _ => by cases l; simp [Layer.extend])).trans (List.map_id _)

/-! ## Wires -/

/-- The diagonal of `v` is the distribution of the wires `ws` together with post-selections. -/
def Dist (n : Nat) (ψ : List Nat → ℂ) (ws : List (Nat × QOb)) (post : List (Nat × Nat)) (v : List Nat → ℂ) : Prop :=
  ∀ y, Bits ws.length y → v (diagIdx (ws.map Prod.snd) y) = (joint n ψ (ws.map Prod.fst) post y : ℝ)

theorem Dist.mid {n : Nat} {ψ v : List Nat → ℂ} {wl wr : List (Nat × QOb)} {q : Nat} {post : List (Nat × Nat)} (h : Dist n ψ (wl ++ (q, QOb.qubit) :: wr) post v) {yl yr : List Nat} {u : Nat}
    (hyl : Bits wl.length yl) (hyr : Bits wr.length yr) (hu : u < 2) :
    v (diagIdx (wl.map Prod.snd) yl ++ ([3 * u] ++ diagIdx (wr.map Prod.snd) yr)) = (joint n ψ (wl.map Prod.fst ++ (q :: wr.map Prod.fst)) post (yl ++ (u :: yr)) : ℝ) := by
  have := h (yl ++ (u :: yr)) (by
    rw [List.length_append, List.length_cons]
    exact hyl.append (hyr.cons hu))
  rw [List.map_append, diagIdx_append (by rw [hyl.1, List.length_map])] at this
  simpa [diagIdx] using this

theorem Dist.measure {n : Nat} {ψ v : List Nat → ℂ} {wl wr : List (Nat × QOb)} {q : Nat} {post : List (Nat × Nat)} (h : Dist n ψ (wl ++ (q, QOb.qubit) :: wr) post v) :
    Dist n ψ (wl ++ (q, QOb.bit) :: wr) post (cqI.act ⟨wl.map Prod.snd, QBox.measure, wr.map Prod.snd⟩ v) := by
  intro y hy
  rw [List.length_append, List.length_cons] at hy
  obtain ⟨yl, y', rfl, hyl, hy'⟩ := hy.split
  obtain ⟨u, yr, rfl, hu, hyr⟩ := hy'.uncons
  simp only [List.map_append, List.map_cons]
  rw [diagIdx_append (by rw [hyl.1, List.length_map]), diagIdx, ← List.singleton_append, act_measure _ _ v (by rw [diagIdx_length (by rw [hyl.1, List.length_map])]) hu, h.mid hyl hyr hu]

theorem Dist.discard {n : Nat} {ψ v : List Nat → ℂ} {wl wr : List (Nat × QOb)} {q : Nat} {post : List (Nat × Nat)} (h : Dist n ψ (wl ++ (q, QOb.qubit) :: wr) post v) :
    Dist n ψ (wl ++ wr) post (cqI.act ⟨wl.map Prod.snd, QBox.discard, wr.map Prod.snd⟩ v) := by
  intro y hy
  rw [List.length_append] at hy
  obtain ⟨yl, yr, rfl, hyl, hyr⟩ := hy.split
  simp only [List.map_append]
  rw [diagIdx_append (by rw [hyl.1, List.length_map]), act_discard _ _ v (by rw [diagIdx_length (by rw [hyl.1, List.length_map])])]
  have h0 := h.mid hyl hyr (u := 0) (by omega)
  have h1 := h.mid hyl hyr (u := 1) (by omega)
  rw [Nat.mul_zero] at h0
  rw [Nat.mul_one] at h1
  rw [h0, h1, ← joint_sum ψ (wl.map Prod.fst) (wr.map Prod.fst) q post (yl := yl) (yr := yr) (by rw [hyl.1, List.length_map])]
  push_cast
  rfl

theorem Dist.bra {n : Nat} {ψ v : List Nat → ℂ} {wl wr : List (Nat × QOb)} {q : Nat} {post : List (Nat × Nat)} (h : Dist n ψ (wl ++ (q, QOb.qubit) :: wr) post v) (u : Bool) :
    Dist n ψ (wl ++ wr) (post ++ [(q, if u then 1 else 0)]) (cqI.act ⟨wl.map Prod.snd, QBox.bra u, wr.map Prod.snd⟩ v) := by
  intro y hy
  rw [List.length_append] at hy
  obtain ⟨yl, yr, rfl, hyl, hyr⟩ := hy.split
  simp only [List.map_append]
  rw [diagIdx_append (by rw [hyl.1, List.length_map]), act_bra _ _ v u (by rw [diagIdx_length (by rw [hyl.1, List.length_map])]), h.mid hyl hyr (by split <;> omega),
    joint_cons ψ _ _ q _ _ (by rw [hyl.1, List.length_map])]

/-! ## Measurements -/

/-- The wires when the qubits of `S` are measured. -/
def wires (n : Nat) (S : List Nat) : List (Nat × QOb) := (List.range n).map (fun i : Nat => (i, if i ∈ S then QOb.bit else QOb.qubit))

theorem range_split {n q : Nat} (hq : q < n) : List.range n = List.range q ++ q :: List.range' (q + 1) (n - (q + 1)) := by
  have h := List.range'_append (s := 0) (m := q) (n := n - q) (step := 1)
  rw [show q + (n - q) = n by omega] at h
  rw [List.range_eq_range', ← h, List.range_eq_range', show n - q = (n - (q + 1)) + 1 by omega, List.range'_succ]
  simp

/-- The part of the wires on the left of a qubit, and on its right. -/
def wiresL (q : Nat) (S : List Nat) : List (Nat × QOb) := wires q S
def wiresR (n q : Nat) (S : List Nat) : List (Nat × QOb) := (List.range' (q + 1) (n - (q + 1))).map (fun i : Nat => (i, if i ∈ S then QOb.bit else QOb.qubit))

theorem wires_split {n q : Nat} (hq : q < n) (S : List Nat) : wires n S = wiresL q S ++ (q, if q ∈ S then QOb.bit else QOb.qubit) :: wiresR n q S := by
  rw [wires, range_split hq, List.map_append, List.map_cons]; rfl

theorem wiresL_cons (q : Nat) (S : List Nat) : wiresL q (S ++ [q]) = wiresL q S := by
  refine List.map_congr_left (fun i hi => ?_)
  have : i ≠ q := by have := List.mem_range.1 hi; omega
  simp [this]

theorem wiresR_cons (n q : Nat) (S : List Nat) : wiresR n q (S ++ [q]) = wiresR n q S := by
  refine List.map_congr_left (fun i hi => ?_)
  have : i ≠ q := by have := List.mem_range'_1.1 hi; omega
  simp [this]

/-- The qubits that are measured, and those that are post-selected. -/
def freeQubits (post ms : List (Nat × Nat)) : List Nat := (ms.filter (fun m => (post.lookup m.2).isNone)).map Prod.fst
def fixedQubits (post ms : List (Nat × Nat)) : List (Nat × Nat) := ms.filterMap (fun m => (post.lookup m.2).map (fun v => (m.1, v)))

/-- The loop over the measurements. -/
theorem import_measures {n : Nat} (post : List (Nat × Nat)) (ms : List (Nat × Nat)) (S : List Nat) (bras : List (Nat × Nat)) (hS : ∀ q ∈ ms.map Prod.fst, q ∉ S) (hB : ∀ q ∈ ms.map Prod.fst, q ∉ bras.map Prod.fst)
    (hlt : ∀ q ∈ ms.map Prod.fst, q < n) (hnd : (ms.map Prod.fst).Nodup) (d : Diagram QOb QBox) (hd : d.cod = (wires n S).map Prod.snd) :
    ∃ ls, importLoop post (ms.map (fun m => TkItem.measure m.1 m.2)) d bras = .ok (⟨d.dom, (wires n (S ++ freeQubits post ms)).map Prod.snd, d.layers ++ ls⟩, bras ++ fixedQubits post ms) ∧
      Chain d.cod ls ((wires n (S ++ freeQubits post ms)).map Prod.snd) ∧ (∀ l ∈ ls, l.box = QBox.measure) ∧
      ∀ ψ v, Dist n ψ (wires n S) [] v → Dist n ψ (wires n (S ++ freeQubits post ms)) [] (cqI.run ls v) := by
  induction ms generalizing S bras d with
  | nil =>
    refine ⟨[], ?_, ?_, by simp, ?_⟩
    · obtain ⟨dd, dc, dl⟩ := d
      simp only at hd
      simp [importLoop, freeQubits, fixedQubits, hd]
    · simpa [freeQubits, Chain] using hd
    · intro ψ v h
      simpa [freeQubits, Interp.run] using h
  | cons m ms ih =>
    obtain ⟨q, b⟩ := m
    simp only [List.map_cons, List.mem_cons, forall_eq_or_imp, List.nodup_cons] at hS hB hlt hnd
    cases hp : post.lookup b with
    | some u =>
      obtain ⟨ls, e1, e2, e3, e4⟩ := ih S (bras ++ [(q, u)]) hS.2 (fun r hr hm => by
        rw [List.map_append, List.mem_append] at hm
        rcases hm with hm | hm
        · exact hB.2 r hr hm
        · simp at hm; subst hm; exact hnd.1 hr) hlt.2 hnd.2 d hd
      have f1 : freeQubits post ((q, b) :: ms) = freeQubits post ms := by simp [freeQubits, hp]
      have f2 : fixedQubits post ((q, b) :: ms) = (q, u) :: fixedQubits post ms := by simp [fixedQubits, hp]
      rw [f1, f2]
      refine ⟨ls, ?_, e2, e3, e4⟩
      rw [List.map_cons, importLoop]
      simp only [hp]
      rw [dictSet_new _ _ _ hB.1, e1]
      simp
    | none =>
      have f1 : freeQubits post ((q, b) :: ms) = q :: freeQubits post ms := by simp [freeQubits, hp]
      have f2 : fixedQubits post ((q, b) :: ms) = fixedQubits post ms := by simp [fixedQubits, hp]
      have hw : wires n S = wiresL q S ++ (q, QOb.qubit) :: wiresR n q S := by rw [wires_split hlt.1, if_neg hS.1]
      have hw' : wires n (S ++ [q]) = wiresL q S ++ (q, QOb.bit) :: wiresR n q S := by rw [wires_split hlt.1, if_pos (by simp), wiresL_cons, wiresR_cons]
      have hl : (wiresL q S).length = q := by simp [wiresL, wires]
      have c1 : d.cod = (wiresL q S).map Prod.snd ++ QOb.qubit :: (wiresR n q S).map Prod.snd := by rw [hd, hw]; simp
      have t1 : d.cod.take q = (wiresL q S).map Prod.snd := by rw [c1]; exact List.take_left' (by simp [hl])
      have t2 : d.cod.drop (q + 1) = (wiresR n q S).map Prod.snd := by
        rw [c1, ← List.singleton_append, ← List.append_assoc]
        exact List.drop_left' (by simp [hl])
      have hput := (putAt_ok_iff (d := d) (box := ofBox QBox.measure) (i := q)).2 ⟨by
        show d.cod = d.cod.take q ++ [QOb.qubit] ++ d.cod.drop (q + 1)
        rw [t1, t2, c1]; simp, rfl⟩
      have hdl : (ofBox QBox.measure : Diagram QOb QBox).dom.length = 1 := rfl
      rw [hdl, t1, t2] at hput
      have hcod : (wiresL q S).map Prod.snd ++ (ofBox QBox.measure : Diagram QOb QBox).cod ++ (wiresR n q S).map Prod.snd = (wires n (S ++ [q])).map Prod.snd := by
        rw [hw']
        show (wiresL q S).map Prod.snd ++ [QOb.bit] ++ (wiresR n q S).map Prod.snd = _
        simp
      rw [hcod] at hput
      have hlay : (ofBox QBox.measure : Diagram QOb QBox).layers.map (Layer.extend ((wiresL q S).map Prod.snd) ((wiresR n q S).map Prod.snd)) = [⟨(wiresL q S).map Prod.snd, QBox.measure, (wiresR n q S).map Prod.snd⟩] := by
        simp [ofBox, Layer.extend]
      rw [hlay] at hput
      obtain ⟨ls, e1, e2, e3, e4⟩ := ih (S ++ [q]) bras (fun r hr hm => by
        rw [List.mem_append, List.mem_singleton] at hm
        rcases hm with hm | hm
        · exact hS.2 r hr hm
        · subst hm; exact hnd.1 hr) hB.2 hlt.2 hnd.2 _ (rfl : (⟨d.dom, (wires n (S ++ [q])).map Prod.snd, d.layers ++ [⟨(wiresL q S).map Prod.snd, QBox.measure, (wiresR n q S).map Prod.snd⟩]⟩ : Diagram QOb QBox).cod = _)
      rw [f1, f2]
      have ha : S ++ q :: freeQubits post ms = (S ++ [q]) ++ freeQubits post ms := by simp
      rw [ha]
      refine ⟨⟨(wiresL q S).map Prod.snd, QBox.measure, (wiresR n q S).map Prod.snd⟩ :: ls, ?_, ⟨?_, ?_⟩, ?_, ?_⟩
      · rw [List.map_cons, importLoop]
        simp only [hp]
        rw [hput]
        simp only
        rw [e1]
        simp
      · show (wiresL q S).map Prod.snd ++ [QOb.qubit] ++ (wiresR n q S).map Prod.snd = _
        rw [c1]; simp
      · have : (⟨(wiresL q S).map Prod.snd, QBox.measure, (wiresR n q S).map Prod.snd⟩ : Layer QOb QBox).cod = (wires n (S ++ [q])).map Prod.snd := hcod
        rw [this]; exact e2
      · intro l hl
        rcases List.mem_cons.1 hl with rfl | hl
        · rfl
        · exact e3 l hl
      · intro ψ v h
        rw [Interp.run]
        refine e4 ψ _ ?_
        rw [hw] at h
        rw [hw']
        exact h.measure

/-! ## The end -/

/-- What stays of the wires, and what is post-selected. -/
def kept (bras : List (Nat × Nat)) (ws : List (Nat × QOb)) : List (Nat × QOb) := ws.filter (fun w => (bras.lookup w.1).isNone && decide (w.2 = QOb.bit))
def fixed (bras : List (Nat × Nat)) (ws : List (Nat × QOb)) : List (Nat × Nat) := ws.filterMap (fun w => (bras.lookup w.1).map (fun v => (w.1, v)))

theorem lookup_mem {l : List (Nat × Nat)} {q u : Nat} (h : l.lookup q = some u) : (q, u) ∈ l := by
  induction l with
  | nil => simp at h
  | cons a l ih =>
    obtain ⟨x, y⟩ := a
    rw [List.lookup_cons] at h
    split at h
    · rename_i he
      cases h
      rw [eq_of_beq he]; simp
    · exact List.mem_cons_of_mem _ (ih h)

/-- The boxes of the end: the qubits are post-selected or discarded, the bits stay. -/
theorem end_boxes {n : Nat} (bras : List (Nat × Nat)) (hb : ∀ b ∈ bras, b.2 < 2) (i : Nat) (ws : List (Nat × QOb)) (hi : ws.map Prod.fst = List.range' i ws.length)
    (hq : ∀ w ∈ ws, (bras.lookup w.1).isSome → w.2 = QOb.qubit) : ∃ ds, endBoxes bras i (ws.map Prod.snd) = .ok ds ∧ (ds.foldr tensor (Diagram.id [])).dom = ws.map Prod.snd ∧
      (ds.foldr tensor (Diagram.id [])).cod = (kept bras ws).map Prod.snd ∧ Chain (ws.map Prod.snd) (ds.foldr tensor (Diagram.id [])).layers ((kept bras ws).map Prod.snd) ∧
      (∀ l ∈ (ds.foldr tensor (Diagram.id [])).layers, l.box = QBox.discard ∨ ∃ u, l.box = QBox.bra u) ∧
      ∀ (K : List (Nat × QOb)) post ψ v, Dist n ψ (K ++ ws) post v →
        Dist n ψ (K ++ kept bras ws) (post ++ fixed bras ws) (cqI.run ((ds.foldr tensor (Diagram.id [])).layers.map (Layer.extend (K.map Prod.snd) [])) v) := by
  induction ws generalizing i with
  | nil =>
    refine ⟨[], rfl, rfl, rfl, rfl, by simp [Diagram.id], ?_⟩
    intro K post ψ v h
    simpa [kept, fixed, Diagram.id, Interp.run] using h
  | cons w ws ih =>
    obtain ⟨q, o⟩ := w
    rw [List.map_cons, List.length_cons, List.range'_succ, List.cons.injEq] at hi
    obtain ⟨rfl, hi⟩ := hi
    obtain ⟨ds, e1, e2, e3, e4, e5, e6⟩ := ih (q + 1) hi (fun w hw => hq w (List.mem_cons_of_mem _ hw))
    -- a box that eats the wire
    have eat : ∀ (b : QBox), b.dom = [QOb.qubit] → b.cod = [] → o = QOb.qubit → (b = QBox.discard ∨ ∃ u, b = QBox.bra u) → ∀ (F : List (Nat × Nat)), endBox bras q o = .ok (ofBox b) → kept bras ((q, o) :: ws) = kept bras ws →
        fixed bras ((q, o) :: ws) = F ++ fixed bras ws → (∀ (wl wr : List (Nat × QOb)) post ψ v, Dist n ψ (wl ++ (q, QOb.qubit) :: wr) post v → Dist n ψ (wl ++ wr) (post ++ F) (cqI.act ⟨wl.map Prod.snd, b, wr.map Prod.snd⟩ v)) →
        ∃ ds, endBoxes bras q (((q, o) :: ws).map Prod.snd) = .ok ds ∧ (ds.foldr tensor (Diagram.id [])).dom = ((q, o) :: ws).map Prod.snd ∧
      (ds.foldr tensor (Diagram.id [])).cod = (kept bras ((q, o) :: ws)).map Prod.snd ∧ Chain (((q, o) :: ws).map Prod.snd) (ds.foldr tensor (Diagram.id [])).layers ((kept bras ((q, o) :: ws)).map Prod.snd) ∧
      (∀ l ∈ (ds.foldr tensor (Diagram.id [])).layers, l.box = QBox.discard ∨ ∃ u, l.box = QBox.bra u) ∧
      ∀ (K : List (Nat × QOb)) post ψ v, Dist n ψ (K ++ (q, o) :: ws) post v →
        Dist n ψ (K ++ kept bras ((q, o) :: ws)) (post ++ fixed bras ((q, o) :: ws)) (cqI.run ((ds.foldr tensor (Diagram.id [])).layers.map (Layer.extend (K.map Prod.snd) [])) v) := by
      intro b hd hc ho hbox F hend hk hf hact
      subst ho
      have hlay : ((ofBox b :: ds).foldr tensor (Diagram.id [])).layers = ⟨[], b, ws.map Prod.snd⟩ :: (ds.foldr tensor (Diagram.id [])).layers := by
        rw [List.foldr_cons, tensor_layers, e2]
        have : (ofBox b : Diagram QOb QBox).cod = [] := hc
        rw [this]
        show Layer.extend [] (ws.map Prod.snd) ⟨[], b, []⟩ :: _ = _
        congr 1
        exact (List.map_congr_left (fun l _ => by cases l; simp [Layer.extend])).trans (List.map_id _)
      refine ⟨ofBox b :: ds, ?_, ?_, ?_, ?_, ?_, ?_⟩
      · rw [List.map_cons, endBoxes]
        simp only [hend, e1]
      · rw [List.foldr_cons, tensor_dom, e2]
        have : (ofBox b : Diagram QOb QBox).dom = [QOb.qubit] := hd
        rw [this]; rfl
      · rw [List.foldr_cons, tensor_cod, e3, hk]
        have : (ofBox b : Diagram QOb QBox).cod = [] := hc
        rw [this]; rfl
      · rw [hlay, hk]
        refine ⟨?_, ?_⟩
        · show [] ++ b.dom ++ ws.map Prod.snd = _
          rw [hd]; rfl
        · show Chain ([] ++ b.cod ++ ws.map Prod.snd) _ _
          rw [hc]; exact e4
      · rw [hlay]
        intro l hl
        rcases List.mem_cons.1 hl with rfl | hl
        · exact hbox
        · exact e5 l hl
      · intro K post ψ v h
        rw [hlay, hk, hf, List.map_cons, Interp.run, ← List.append_assoc]
        refine e6 K (post ++ F) ψ _ ?_
        have := hact K ws post ψ v h
        simpa [Layer.extend] using this
    cases hl : bras.lookup q with
    | some u =>
      have ho : o = QOb.qubit := hq (q, o) (by simp) (by simp [hl])
      have hu : u < 2 := by
        have : (q, u) ∈ bras := lookup_mem hl
        exact hb _ this
      rcases (by omega : u = 0 ∨ u = 1) with rfl | rfl
      · exact eat (QBox.bra false) rfl rfl ho (.inr ⟨_, rfl⟩) [(q, 0)] (by simp [endBox, hl]) (by simp [kept, hl]) (by simp [fixed, hl]) (fun wl wr post ψ v h => h.bra false)
      · exact eat (QBox.bra true) rfl rfl ho (.inr ⟨_, rfl⟩) [(q, 1)] (by simp [endBox, hl]) (by simp [kept, hl]) (by simp [fixed, hl]) (fun wl wr post ψ v h => h.bra true)
    | none =>
      cases o with
      | qubit =>
        refine eat QBox.discard rfl rfl rfl (.inl rfl) [] (by simp [endBox, hl]) (by simp [kept, hl]) (by simp [fixed, hl]) (fun wl wr post ψ v h => ?_)
        rw [List.append_nil]; exact h.discard
      | bit =>
        have hk : kept bras ((q, QOb.bit) :: ws) = (q, QOb.bit) :: kept bras ws := by simp [kept, hl]
        have hf : fixed bras ((q, QOb.bit) :: ws) = fixed bras ws := by simp [fixed, hl]
        have hlay : ((Diagram.id [QOb.bit] :: ds).foldr tensor (Diagram.id [])).layers = (ds.foldr tensor (Diagram.id [])).layers.map (Layer.extend [QOb.bit] []) := by
          rw [List.foldr_cons, tensor_layers]; rfl
        refine ⟨Diagram.id [.bit] :: ds, ?_, ?_, ?_, ?_, ?_, ?_⟩
        · rw [List.map_cons, endBoxes]
          simp [endBox, hl, e1]
        · rw [List.foldr_cons, tensor_dom, e2]; rfl
        · rw [List.foldr_cons, tensor_cod, e3, hk]; rfl
        · rw [hlay, hk]
          have := Chain.extend [QOb.bit] [] e4
          simpa using this
        · rw [hlay]
          intro l hl
          obtain ⟨l', hl', rfl⟩ := List.mem_map.1 hl
          exact e5 l' hl'
        · intro K post ψ v h
          rw [hlay, hk, hf, map_extend_extend]
          have := e6 (K ++ [(q, QOb.bit)]) post ψ v (by simpa using h)
          simpa using this

end
end QBox
end Lambeq
