import Verif.Training.TketModel

/-!
# The predictions of t|ket⟩ models (C100)

Models training/tket_model.py:97-112 as in `Verif.Training.TketModel`: what the predictions are on an exact backend.
-/

namespace Lambeq
namespace TketModel
open QBox Diagram Predict
set_option linter.unusedSectionVars false
set_option linter.unusedSimpArgs false

noncomputable section

theorem tensor_id_nil (d : Diagram QOb QBox) : tensor (Diagram.id []) d = d := by
  rw [tensor_eq]
  simp [Diagram.id, map_extend_nil]

theorem measureAll_eq (d : Diagram QOb QBox) : measureAll d = andThen d (copies QBox.measure d.cod.length) := by
  have h : ∀ k, (List.replicate k (ofBox measure : Diagram QOb QBox)).foldr tensor (Diagram.id []) = copies measure k := by
    intro k
    induction k with
    | zero => rfl
    | succ k ih => rw [List.replicate_succ, List.foldr_cons, ih]; rfl
  rw [measureAll, tensorN_eq_foldr, List.foldr_cons, h, tensor_id_nil]

theorem copies_measure (k : Nat) : (copies QBox.measure k).dom = qubits k ∧ (copies QBox.measure k).cod = List.replicate k QOb.bit ∧ (copies QBox.measure k).WT ∧
    ∀ l ∈ (copies QBox.measure k).layers, l.box = QBox.measure ∧ QOb.qubit ∉ l.left := by
  induction k with
  | zero => exact ⟨rfl, rfl, rfl, by simp [copies, Diagram.id]⟩
  | succ k ih =>
    obtain ⟨h1, h2, h3, h4⟩ := ih
    refine ⟨?_, ?_, ?_, ?_⟩
    · simp [copies, tensor_dom, h1, ofBox, qubits, List.replicate_succ]; rfl
    · simp [copies, tensor_cod, h2, ofBox, List.replicate_succ]; rfl
    · exact WT.tensor (WT.ofBox _) h3
    · intro l hl
      simp only [copies, tensor_layers, List.mem_append, List.mem_map] at hl
      rcases hl with ⟨l0, h0, rfl⟩ | ⟨l0, h0, rfl⟩
      · simp only [ofBox, List.mem_singleton] at h0
        subst h0
        exact ⟨rfl, by simp [Layer.extend]⟩
      · refine ⟨(h4 l0 h0).1, ?_⟩
        have h5 := (h4 l0 h0).2
        have : (ofBox measure : Diagram QOb QBox).cod = [QOb.bit] := rfl
        simp [Layer.extend, this, h5]

theorem measureAll_ok {d : Diagram QOb QBox} {k : Nat} (hc : d.cod = qubits k) : measureAll d = .ok ⟨d.dom, List.replicate k .bit, d.layers ++ (copies QBox.measure k).layers⟩ := by
  obtain ⟨h1, h2, h3, h4⟩ := copies_measure k
  rw [measureAll_eq, hc, qubits_length]
  exact andThen_ok_iff.2 ⟨by rw [hc, h1], by rw [h2]⟩

/-- Measurements from left to right: the qubits that are left get the next bits, in order. -/
theorem read_measures (ls : List (Layer QOb QBox)) {st st' : Info} (h : readLoop st ls = .ok st') (hl : ∀ l ∈ ls, l.box = QBox.measure ∧ QOb.qubit ∉ l.left)
    (hnd : st.avail.Nodup) (hdis : ∀ q ∈ st.avail, q ∉ st.bitmap.map Prod.fst) :
    st'.postmap = st.postmap ∧ ls.length ≤ st.avail.length ∧ st'.bitmap = st.bitmap ++ (st.avail.take ls.length).zip (List.range' st.bitmap.length ls.length) := by
  induction ls generalizing st with
  | nil => cases h; simp
  | cons l ls ih =>
    obtain ⟨h1, h2⟩ := hl l (by simp)
    have hcount : l.left.count QOb.qubit = 0 := List.count_eq_zero.2 h2
    rw [readLoop] at h
    cases hav : st.avail with
    | nil => simp [readStep, h1, hav, hcount] at h
    | cons q qs =>
      have h0 : st.avail[l.left.count QOb.qubit]? = some q := by rw [hcount, hav]; rfl
      simp only [readStep, h1, h0] at h
      have hq : q ∉ st.bitmap.map Prod.fst := hdis q (by rw [hav]; simp)
      rw [hav, List.erase_cons_head, dictSet_new _ _ _ hq] at h
      rw [hav] at hnd hdis
      obtain ⟨e1, e2, e3⟩ := ih h (fun l hl' => hl l (List.mem_cons_of_mem _ hl')) (List.nodup_cons.1 hnd).2 (by
        intro x hx hm
        simp only [List.map_append, List.map_cons, List.map_nil, List.mem_append, List.mem_singleton] at hm
        rcases hm with hm | rfl
        · exact hdis x (List.mem_cons_of_mem _ hx) hm
        · exact (List.nodup_cons.1 hnd).1 hx)
      refine ⟨e1, by simpa using e2, ?_⟩
      rw [e3]
      simp [List.range'_succ]

/-- Post-selections and discards: only post-selected qubits are measured. -/
theorem read_ends (ls : List (Layer QOb QBox)) {st st' : Info} (h : readLoop st ls = .ok st') (hl : ∀ l ∈ ls, l.box = discard ∨ ∃ v, l.box = bra v)
    (hs : st.avail.Pairwise (· < ·)) (hdis : ∀ q ∈ st.avail, q ∉ st.bitmap.map Prod.fst) (hsub : ∀ q ∈ st.bitmap.map Prod.fst, q ∈ st.postmap.map Prod.fst)
    (hpd : ∀ q ∈ st.avail, q ∉ st.postmap.map Prod.fst) :
    st'.avail.Pairwise (· < ·) ∧ (∀ q ∈ st'.avail, q ∉ st'.bitmap.map Prod.fst) ∧ (∀ q ∈ st'.bitmap.map Prod.fst, q ∈ st'.postmap.map Prod.fst) ∧
      ((∀ l ∈ ls, l.box = discard) → st'.postmap = st.postmap) := by
  induction ls generalizing st with
  | nil => cases h; exact ⟨hs, hdis, hsub, fun _ => rfl⟩
  | cons l ls ih =>
    rw [readLoop] at h
    have hnd : st.avail.Nodup := hs.imp (fun h => Nat.ne_of_lt h)
    cases h0 : st.avail[l.left.count QOb.qubit]? with
    | none =>
      rcases hl l (by simp) with h1 | ⟨v, h1⟩ <;> simp [readStep, h1, h0] at h
    | some q =>
      have hq : q ∈ st.avail := List.mem_of_getElem? h0
      have hsl : (st.avail.erase q).Sublist st.avail := List.erase_sublist
      have hne : ∀ x ∈ st.avail.erase q, x ≠ q := fun x hx => ((List.Nodup.mem_erase_iff hnd).1 hx).1
      rcases hl l (by simp) with h1 | ⟨v, h1⟩
      · simp only [readStep, h1, h0] at h
        obtain ⟨e1, e2, e3, e4⟩ := ih h (fun l hl' => hl l (List.mem_cons_of_mem _ hl')) (hs.sublist hsl) (fun x hx => hdis x (hsl.subset hx)) hsub (fun x hx => hpd x (hsl.subset hx))
        exact ⟨e1, e2, e3, fun ha => e4 (fun l hl' => ha l (List.mem_cons_of_mem _ hl'))⟩
      · simp only [readStep, h1, h0, dictSet_new _ _ _ (hdis q hq), dictSet_new _ _ _ (hpd q hq)] at h
        obtain ⟨e1, e2, e3, e4⟩ := ih h (fun l hl' => hl l (List.mem_cons_of_mem _ hl')) (hs.sublist hsl)
          (by
            intro x hx hm
            simp only [List.map_append, List.map_cons, List.map_nil, List.mem_append, List.mem_singleton] at hm
            rcases hm with hm | hm
            · exact hdis x (hsl.subset hx) hm
            · exact hne x hx hm)
          (by
            intro x hx
            simp only [List.map_append, List.map_cons, List.map_nil, List.mem_append, List.mem_singleton] at hx ⊢
            exact hx.imp_left (hsub x))
          (by
            intro x hx hm
            simp only [List.map_append, List.map_cons, List.map_nil, List.mem_append, List.mem_singleton] at hm
            rcases hm with hm | hm
            · exact hpd x (hsl.subset hx) hm
            · exact hne x hx hm)
        refine ⟨e1, e2, e3, fun ha => ?_⟩
        have := ha l (by simp)
        rw [h1] at this; cases this

theorem readLoop_append (as bs : List (Layer QOb QBox)) (st : Info) : readLoop st (as ++ bs) = match readLoop st as with | .error e => .error e | .ok st => readLoop st bs := by
  induction as generalizing st with
  | nil => rfl
  | cons l ls ih =>
    rw [List.cons_append, readLoop, readLoop]
    cases readStep st l with
    | error e => rfl
    | ok st => exact ih st

/-- After post-selections and discards, the open qubits are measured from left to right. -/
theorem order_measured {tl ms : List (Layer QOb QBox)} {n : Nat} {st0 st : Info} (h : readLoop st0 (tl ++ ms) = .ok st) (ht : ∀ l ∈ tl, l.box = discard ∨ ∃ v, l.box = bra v)
    (hm : ∀ l ∈ ms, l.box = QBox.measure ∧ QOb.qubit ∉ l.left) (ha : st0.avail = List.range n) (hb : st0.bitmap = []) (hp : st0.postmap = []) :
    (∀ m ∈ st.bitmap, ∀ m' ∈ st.bitmap, m.1 ∉ st.postmap.map Prod.fst → m'.1 ∉ st.postmap.map Prod.fst → m.1 < m'.1 → m.2 < m'.2) ∧
    ((∀ l ∈ tl, l.box = discard) → st.postmap = []) := by
  rw [readLoop_append] at h
  cases h1 : readLoop st0 tl with
  | error e => rw [h1] at h; cases h
  | ok st1 =>
    rw [h1] at h
    obtain ⟨e1, e2, e3, e4⟩ := read_ends tl h1 ht (by rw [ha]; exact List.pairwise_lt_range) (by rw [hb]; simp) (by rw [hb]; simp) (by rw [hp]; simp)
    obtain ⟨f1, f2, f3⟩ := read_measures ms h hm (e1.imp (fun h => Nat.ne_of_lt h)) e2
    refine ⟨?_, fun hd => by rw [f1, e4 hd, hp]⟩
    rw [f1, f3]
    have key : ∀ m ∈ st1.bitmap ++ (st1.avail.take ms.length).zip (List.range' st1.bitmap.length ms.length), m.1 ∉ st1.postmap.map Prod.fst →
        ∃ i, ∃ hi : i < st1.avail.length, m = (st1.avail[i], st1.bitmap.length + i) := by
      intro m hm hn
      rcases List.mem_append.1 hm with hm | hm
      · exact absurd (e3 _ (List.mem_map.2 ⟨m, hm, rfl⟩)) hn
      · obtain ⟨i, hi, rfl⟩ := List.mem_iff_getElem.1 hm
        have hi' : i < ms.length := by
          simp only [List.length_zip, List.length_take, List.length_range'] at hi
          omega
        exact ⟨i, by omega, by simp⟩
    intro m hm m' hm' hn hn' hlt
    obtain ⟨i, hi, rfl⟩ := key m hm hn
    obtain ⟨j, hj, rfl⟩ := key m' hm' hn'
    have hij : i < j := by
      by_contra hge
      rcases Nat.lt_or_ge j i with hji | hji
      · have := List.pairwise_iff_getElem.1 e1 j i hj hi hji
        simp only at hlt; omega
      · obtain rfl : i = j := by omega
        simp at hlt
    simp only; omega

theorem mixed_measured {d h : Diagram QOb QBox} {k : Nat} (hc : d.cod = qubits k) (hk : k ≠ 0) (hm : measureAll d = .ok h) : mixedDiagram h = true := by
  rw [measureAll_ok hc] at hm
  cases hm
  obtain ⟨k, rfl⟩ := Nat.exists_eq_succ_of_ne_zero hk
  have : QBox.measure ∈ Diagram.boxes (⟨d.dom, List.replicate (k + 1) .bit, d.layers ++ (copies QBox.measure (k + 1)).layers⟩ : Diagram QOb QBox) := by
    simp [Diagram.boxes, copies, tensor_layers, ofBox, Layer.extend]
  simp only [mixedDiagram, Bool.or_eq_true, List.any_eq_true]
  exact Or.inr ⟨_, this, rfl⟩

/-- The prediction from the exported circuit. -/
theorem forward_core {run : Nat → TkCircuit → Counts} {cfg : Config} {nw ns : Nat} (hw : nw ≠ 0) (hs : ns ≠ 0) {d h c : Diagram QOb QBox} {n k : Nat} {gs tl : List (Layer QOb QBox)} {tk : TkCircuit}
    {F G : List Nat → ℂ} (hdom : d.dom = []) (hcod : d.cod = qubits k) (hk : k ≠ 0) (hm : measureAll d = .ok h) (hexp : Exportable c n gs tl) (hc : c.cod = List.replicate k QOb.bit)
    (htc : toTk h = toTkCircuital c) (htk : toTk h = .ok tk) (hpost : ∀ m ∈ tk.measures, m.1 ∈ tk.postSelection.map Prod.fst → m.2 = m.1)
    (hord : ∀ m ∈ tk.measures, ∀ m' ∈ tk.measures, m.1 ∉ tk.postSelection.map Prod.fst → m'.1 ∉ tk.postSelection.map Prod.fst → m.1 < m'.1 → m.2 < m'.2)
    (hex : Exact tk (run (nShots cfg) tk)) (hF : eval h true = .ok F) (hG : eval c true = .ok G) (hFG : ∀ y, Bits k y → G y = F y) :
    ∃ p q, predict h = .ok q ∧ forward run cfg nw ns [d] = .ok (k, [p]) ∧ (∀ y, Bits k y → p y = q y) ∧ (PureQ d → ∀ p', predict d = .ok p' → ∀ y, Bits k y → p y = p' y) := by
  obtain ⟨F', result, f1, f2, f3⟩ := C51_backend_partial hexp hc (htc.symm.trans htk) hpost hord _ hex.len hex.nodup hex.prob
  cases hG.symm.trans f1
  rw [backendEval, htc.symm.trans htk] at f2
  have hone : one run cfg d = .ok (k, result) := by
    simp only [one, hm, htk]; exact f2
  have hmix := mixed_measured hcod hk hm
  have hh := hm
  rw [measureAll_ok hcod] at hh
  cases hh
  have hax : outAxes (⟨d.dom, List.replicate k .bit, d.layers ++ (copies QBox.measure k).layers⟩ : Diagram QOb QBox) = k := by
    simp [outAxes, hmix, hdom, axes, List.count_replicate]
  have hq : predict (⟨d.dom, List.replicate k .bit, d.layers ++ (copies QBox.measure k).layers⟩ : Diagram QOb QBox) = .ok (normaliseVector k F) := by
    rw [predict, C74_flag _ false hmix, hF]
    simp only [hmix, if_true, hax]
  have hrow : ∀ y, Bits k y → row (k, result) y = normaliseVector k F y := by
    intro y hy
    simp only [row, normaliseVector, if_neg hk]
    rw [f3 y hy, hFG y hy, Finset.sum_congr rfl (fun z hz => by rw [f3 z (mem_allBits.1 hz), hFG z (mem_allBits.1 hz)])]
  refine ⟨row (k, result), _, hq, (forward_one run cfg hw hs _ _ _).2 ⟨_, hone, rfl, rfl⟩, hrow, fun hpure p' hp' y hy => ?_⟩
  rw [hrow y hy]
  refine (C80_measured hpure hk hdom hcod ?_ hp' hq y hy).symm
  rw [measureAll_eq, hcod, qubits_length] at hm
  exact hm

/-- **C100 (prediction, circuital diagrams).** Let a diagram start with qubits in the state 0, go on with gates that `t|ket⟩` knows and end with post-selections and discards, and let each post-selected
qubit be measured into the bit with its own number. Then on an exact backend the prediction is that of the exact simulation of the measured diagram (C80); if nothing is discarded, it is the prediction of
`NumpyModel` for the diagram. -/
theorem C100_circuital_partial {run : Nat → TkCircuit → Counts} {cfg : Config} {nw ns : Nat} (hw : nw ≠ 0) (hs : ns ≠ 0) {d h : Diagram QOb QBox} {n k : Nat} {gs tl : List (Layer QOb QBox)} {tk : TkCircuit}
    (hl : d.layers = ketLayers 0 n ++ (gs ++ tl)) (hdom : d.dom = []) (hwt : d.WT) (hg : ∀ l ∈ gs, ExportGate l.box) (ht : ∀ l ∈ tl, l.box = discard ∨ ∃ v, l.box = bra v)
    (hcod : d.cod = qubits k) (hk : k ≠ 0) (hm : measureAll d = .ok h) (htk : toTk h = .ok tk) (hpost : ∀ m ∈ tk.measures, m.1 ∈ tk.postSelection.map Prod.fst → m.2 = m.1)
    (hex : Exact tk (run (nShots cfg) tk)) :
    ∃ p q, predict h = .ok q ∧ forward run cfg nw ns [d] = .ok (k, [p]) ∧ (∀ y, Bits k y → p y = q y) ∧ (PureQ d → ∀ p', predict d = .ok p' → ∀ y, Bits k y → p y = p' y) := by
  obtain ⟨c1, c2, c3, c4⟩ := copies_measure k
  have hh := hm
  rw [measureAll_ok hcod] at hh
  have hwth : h.WT := by
    have := hm
    rw [measureAll_eq, hcod, qubits_length] at this
    exact WT.andThen hwt c3 this
  cases hh
  have hexp : Exportable (⟨d.dom, List.replicate k .bit, d.layers ++ (copies QBox.measure k).layers⟩ : Diagram QOb QBox) n gs (tl ++ (copies QBox.measure k).layers) := by
    refine ⟨by simp [hl], hdom, hwth, hg, fun l hl => ?_⟩
    rcases List.mem_append.1 hl with h | h
    · exact .inr (ht l h)
    · exact .inl (c4 l h).1
  have htc : toTk (⟨d.dom, List.replicate k .bit, d.layers ++ (copies QBox.measure k).layers⟩ : Diagram QOb QBox) = toTkCircuital (⟨d.dom, List.replicate k .bit, d.layers ++ (copies QBox.measure k).layers⟩ : Diagram QOb QBox) := by
    rw [toTk, if_pos hexp.circuital]
  obtain ⟨ws, st0, st, tk', t1, t2, t3, t4, t5, s1, s2, s3, s4, -⟩ := export_all hexp
  cases t1.symm.trans (htc.symm.trans htk)
  obtain ⟨F, hF⟩ := C74_total hexp.cq
  refine forward_core hw hs hdom hcod hk hm hexp rfl htc htk hpost ?_ hex hF hF (fun _ _ => rfl)
  rw [t4, t5]
  exact (order_measured s4 ht c4 s1 s2 s3).1

/-- **C100 (prediction, without post-selection).** For such diagrams without post-selections the prediction on an exact backend is always that of the exact simulation of the measured diagram. -/
theorem C100_discard {run : Nat → TkCircuit → Counts} {cfg : Config} {nw ns : Nat} (hw : nw ≠ 0) (hs : ns ≠ 0) {d : Diagram QOb QBox} {n k : Nat} {gs tl : List (Layer QOb QBox)}
    (hl : d.layers = ketLayers 0 n ++ (gs ++ tl)) (hdom : d.dom = []) (hwt : d.WT) (hg : ∀ l ∈ gs, ExportGate l.box) (ht : ∀ l ∈ tl, l.box = discard)
    (hcod : d.cod = qubits k) (hk : k ≠ 0) (hex : ∀ tk, Exact tk (run (nShots cfg) tk)) :
    ∃ h p q, measureAll d = .ok h ∧ predict h = .ok q ∧ forward run cfg nw ns [d] = .ok (k, [p]) ∧ (∀ y, Bits k y → p y = q y) ∧ (PureQ d → ∀ p', predict d = .ok p' → ∀ y, Bits k y → p y = p' y) := by
  obtain ⟨c1, c2, c3, c4⟩ := copies_measure k
  have hm := measureAll_ok hcod
  have hwth : (⟨d.dom, List.replicate k .bit, d.layers ++ (copies QBox.measure k).layers⟩ : Diagram QOb QBox).WT := by
    have := hm
    rw [measureAll_eq, hcod, qubits_length] at this
    exact WT.andThen hwt c3 this
  have hexp : Exportable (⟨d.dom, List.replicate k .bit, d.layers ++ (copies QBox.measure k).layers⟩ : Diagram QOb QBox) n gs (tl ++ (copies QBox.measure k).layers) := by
    refine ⟨by simp [hl], hdom, hwth, hg, fun l hl => ?_⟩
    rcases List.mem_append.1 hl with h | h
    · exact .inr (.inl (ht l h))
    · exact .inl (c4 l h).1
  obtain ⟨ws, st0, st, tk, t1, t2, t3, t4, t5, s1, s2, s3, s4, -⟩ := export_all hexp
  have htk : toTk (⟨d.dom, List.replicate k .bit, d.layers ++ (copies QBox.measure k).layers⟩ : Diagram QOb QBox) = .ok tk := by
    rw [toTk, if_pos hexp.circuital, t1]
  have hp := (order_measured s4 (fun l hl => .inl (ht l hl)) c4 s1 s2 s3).2 ht
  obtain ⟨p, q, h1, h2, h3, h4⟩ := C100_circuital_partial hw hs hl hdom hwt hg (fun l hl => .inl (ht l hl)) hcod hk hm htk (by rw [t5, hp]; simp) (hex tk)
  exact ⟨_, p, q, hm, h1, h2, h3, h4⟩

/-- **C100 (prediction, other diagrams).** Let a diagram consist of gates that `t|ket⟩` knows, initialisations, post-selections and discards of single qubits, in any order, such that the measured
diagram is not circuital. If each post-selected qubit of the exported circuit is measured into the bit with its own number, and the others from left to right, then on an exact backend the prediction is that
of the exact simulation of the measured diagram; if nothing is discarded, it is the prediction of `NumpyModel` for the diagram. -/
theorem C100_compiled_partial {run : Nat → TkCircuit → Counts} {cfg : Config} {nw ns : Nat} (hw : nw ≠ 0) (hs : ns ≠ 0) {d h : Diagram QOb QBox} {k : Nat} {tk : TkCircuit}
    (hdom : d.dom = []) (hwt : d.WT) (hl : ∀ l ∈ d.layers, Prep l.box ∨ TkGate l.box) (hcod : d.cod = qubits k) (hk : k ≠ 0) (hm : measureAll d = .ok h) (hc : isCircuital h = false)
    (htk : toTk h = .ok tk) (hpost : ∀ m ∈ tk.measures, m.1 ∈ tk.postSelection.map Prod.fst → m.2 = m.1)
    (hord : ∀ m ∈ tk.measures, ∀ m' ∈ tk.measures, m.1 ∉ tk.postSelection.map Prod.fst → m'.1 ∉ tk.postSelection.map Prod.fst → m.1 < m'.1 → m.2 < m'.2)
    (hex : Exact tk (run (nShots cfg) tk)) :
    ∃ p q, predict h = .ok q ∧ forward run cfg nw ns [d] = .ok (k, [p]) ∧ (∀ y, Bits k y → p y = q y) ∧ (PureQ d → ∀ p', predict d = .ok p' → ∀ y, Bits k y → p y = p' y) := by
  obtain ⟨c1, c2, c3, c4⟩ := copies_measure k
  have hh := hm
  rw [measureAll_ok hcod] at hh
  have hwth : h.WT := by
    have := hm
    rw [measureAll_eq, hcod, qubits_length] at this
    exact WT.andThen hwt c3 this
  cases hh
  obtain ⟨c, n, gs, tl, F, G, e1, hexp, hcc, htc, hF, hG, hFG⟩ := compiled_exportable hwth (by simp [hdom]) (as := d.layers) (bs := (copies QBox.measure k).layers) rfl hl
    (fun l hl => .inr (.inr (.inr (c4 l hl).1))) hc
  simp only [List.count_replicate, beq_self_eq_true, if_true] at hcc hFG
  refine forward_core hw hs hdom hcod hk hm hexp hcc htc htk hpost hord hex hF hG (fun y hy => ?_)
  rw [hFG y hy]
  have h0 : (QOb.bit == QOb.qubit) = false := rfl
  simp [h0, hdom, sum_allBits_zero]

end
end TketModel
end Lambeq
