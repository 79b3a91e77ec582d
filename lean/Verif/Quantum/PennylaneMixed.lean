import Verif.Quantum.PennylaneTheorems
import Verif.Quantum.ExportRefuted

/-!
# PennyLane circuits: discarded qubits, examples and refutations (C95)
-/

namespace Lambeq
open Diagram
set_option linter.unusedSectionVars false
set_option linter.unusedSimpArgs false

namespace QBox
noncomputable section

variable {d : Diagram QOb QBox} {n : Nat} {gs tl : List (Layer QOb QBox)}

/-! ## Discarded qubits -/

/-- The end of a circuit with discarded qubits: qubits are discarded or post-selected on 0. -/
def IsDrop (b : QBox) : Prop := b = discard ∨ b = bra false

theorem isDrop_end (b : QBox) (h : IsDrop b) : b.isEnd = true := by rcases h with rfl | rfl <;> rfl

theorem isDrop_tail {b : QBox} (h : IsDrop b) : TailBox b := by
  rcases h with h | h
  · exact .inr (.inl h)
  · exact .inr (.inr ⟨_, h⟩)

theorem mem_dictSet {dct : List (Nat × Nat)} {q v : Nat} {p : Nat × Nat} (h : p ∈ dictSet dct q v) : p ∈ dct ∨ p.2 = v := by
  induction dct with
  | nil => simp [dictSet] at h; right; rw [h]
  | cons a dct ih =>
    simp only [dictSet] at h
    split at h
    · rcases List.mem_cons.1 h with rfl | h
      · exact .inr rfl
      · exact .inl (List.mem_cons_of_mem _ h)
    · rcases List.mem_cons.1 h with rfl | h
      · exact .inl (List.mem_cons_self ..)
      · exact (ih h).imp (List.mem_cons_of_mem _) id

theorem readLoop_zero {ls : List (Layer QOb QBox)} {st st' : Info} (h : readLoop st ls = .ok st') (hls : ∀ l ∈ ls, IsDrop l.box) (hp : ∀ p ∈ st.postmap, p.2 = 0) : ∀ p ∈ st'.postmap, p.2 = 0 := by
  induction ls generalizing st with
  | nil => cases h; exact hp
  | cons l ls ih =>
    obtain ⟨L, b, R⟩ := l
    have hb := hls _ (List.mem_cons_self ..)
    simp only at hb
    rw [readLoop] at h
    rcases hb with rfl | rfl
    · cases hs : readStep st ⟨L, discard, R⟩ with
      | error e => rw [hs] at h; cases h
      | ok s1 =>
        rw [hs] at h
        refine ih h (fun l hl => hls l (List.mem_cons_of_mem _ hl)) ?_
        rw [show readStep st ⟨L, discard, R⟩ = match st.avail[L.count .qubit]? with
          | none => .error .indexError
          | some q => .ok { st with avail := st.avail.erase q, discards := st.discards ++ [q] } from rfl] at hs
        split at hs
        · cases hs
        · cases hs; exact hp
    · cases hs : readStep st ⟨L, bra false, R⟩ with
      | error e => rw [hs] at h; cases h
      | ok s1 =>
        rw [hs] at h
        refine ih h (fun l hl => hls l (List.mem_cons_of_mem _ hl)) ?_
        rw [readStep_bra] at hs
        split at hs
        · cases hs
        · cases hs
          intro p hp'
          rcases mem_dictSet hp' with h1 | h1
          · exact hp p h1
          · rw [h1]; simp

theorem drop_qubits {ls : List (Layer QOb QBox)} {t c : List QOb} (h : Chain t ls c) (ht : ∀ o ∈ t, o = QOb.qubit) (hls : ∀ l ∈ ls, IsDrop l.box) : ∀ o ∈ c, o = QOb.qubit := by
  induction ls generalizing t with
  | nil => obtain rfl : t = c := h; exact ht
  | cons l ls ih =>
    refine ih h.2 ?_ (fun l hl => hls l (List.mem_cons_of_mem _ hl))
    obtain ⟨L, b, R⟩ := l
    have hb := hls _ (List.mem_cons_self ..)
    have h1 : L ++ b.dom ++ R = t := h.1
    intro o ho
    apply ht
    rw [← h1]
    have hc : b.cod = [] := by rcases hb with hb | hb <;> simp only at hb <;> rw [hb] <;> rfl
    have ho' : o ∈ L ++ b.cod ++ R := ho
    rw [hc] at ho'
    simp only [List.append_nil, List.mem_append] at ho' ⊢
    tauto

theorem flat_diag {k : Nat} {s : List Nat} (h : Bits k s) : flat (qubits k) (diagIdx (qubits k) s) = s ++ s := by
  have h2 := (diagIdx_qubits h).2.1
  have h3 := (diagIdx_qubits h).2.2
  have h1 : cOf (qubits k) (diagIdx (qubits k) s) = [] := by
    clear h2 h3
    induction k generalizing s with
    | zero => obtain rfl := h.eq_nil; rfl
    | succ k ih =>
      obtain ⟨a, s, rfl, ha, hs⟩ := h.uncons
      rw [show qubits (k + 1) = .qubit :: qubits k from List.replicate_succ, diagIdx, cOf, ih hs]
  rw [flat, h1, h2, h3, List.nil_append]

theorem joint_total (n : Nat) (ψ : List Nat → ℂ) (w : List Nat) (post : List (Nat × Nat)) :
    ∑ y ∈ allBits w.length, joint n ψ w post y = ∑ z ∈ allBits n, if ∀ p ∈ post, z.getD p.1 0 = p.2 then Complex.normSq (ψ z) else 0 := by
  unfold joint
  rw [Finset.sum_comm]
  refine Finset.sum_congr rfl (fun z hz => ?_)
  rw [Finset.sum_eq_single (w.map (fun q => z.getD q 0))]
  · exact if_congr ⟨fun h => h.2, fun h => ⟨rfl, h⟩⟩ rfl rfl
  · intro y _ hne
    rw [if_neg]
    rintro ⟨h, -⟩
    exact hne h.symm
  · intro hn
    exfalso
    apply hn
    rw [mem_allBits]
    refine ⟨by simp, fun b hb => ?_⟩
    obtain ⟨q, _, rfl⟩ := List.mem_map.1 hb
    exact getD_bits (mem_allBits.1 hz) q

theorem PlCirc.cq (h : PlCirc IsDrop d n gs tl) : CQOK d := by
  refine ⟨h.wt, fun l hl => ?_⟩
  rw [h.layers, List.mem_append, List.mem_append] at hl
  rcases hl with hl | hl | hl
  · rw [Balanced, (mem_ketLayers l hl).1]
    exact ⟨.inl (ket_pure _), by simp⟩
  · have hg := (h.gates l hl).pure
    refine ⟨hg.imp id (fun g => .inr (.inr (.inr (.inr (.inl g))))), fun e => ?_⟩
    rcases hg with g | g
    · rw [e] at g; exact g.1.elim
    · rw [e] at g; cases g
  · rcases h.tail l hl with e | e <;> rw [Balanced, e]
    · exact ⟨.inr (.inr (.inr (.inl rfl))), by simp⟩
    · exact ⟨cqBox_bra _, by simp⟩

theorem PlCirc.mixed (h : PlCirc IsDrop d n gs tl) (hd : ∃ l ∈ tl, l.box = discard) : mixedDiagram d = true := by
  obtain ⟨l, hl, e⟩ := hd
  have : d.boxes.any isMixed = true := by
    rw [List.any_eq_true]
    refine ⟨l.box, List.mem_map.2 ⟨l, ?_, rfl⟩, by rw [e]; rfl⟩
    rw [h.layers]; simp [hl]
  rw [mixedDiagram, this]
  simp

/-- **C95 (discarded qubits).** A circuit of the same kind that ends with discarded qubits and qubits post-selected on 0 (at least one of each): PennyLane gives one number. The product of the scalars is
not in it: the squared absolute value of this product times the number is the trace of `d.eval()`, which is the value itself if no qubit is open. -/
theorem C95_mixed_partial (h : PlCirc IsDrop d n gs tl) (ha : Apart gs) (hd : ∃ l ∈ tl, l.box = discard) (_hb : ∃ l ∈ tl, l.box = bra false) (probs : Bool) : ∃ (F : List Nat → ℂ) (x : ℝ), eval d false = .ok F ∧
    pennylane d probs = .ok ⟨[], [(x : ℂ)]⟩ ∧ ∑ s ∈ allBits d.cod.length, F (s ++ s) = (Complex.normSq (factor gs) * x : ℝ) := by
  obtain ⟨c3, c12, G, g1, g2, g3, g4⟩ := h.run isDrop_end
  have hmix := h.mixed hd
  obtain ⟨F, hF⟩ := C74_total h.cq
  generalize hcs : (G.filter (fun g => g.number.isNone)).map Gate.op = cs at g4
  rw [factor_gates g2] at g4
  let st0 : Info := ⟨List.range n, G, [], [], []⟩
  have hq : qubits n = ((List.range n).map (fun (i : Nat) => (i, QOb.qubit))).map Prod.snd := by simp [qubits, Function.comp_def, List.map_const']
  have hq' : List.range n = ((List.range n).map (fun (i : Nat) => (i, QOb.qubit))).map Prod.fst := by simp [Function.comp_def]
  have hinit : TailInv n ((List.range n).map (fun (i : Nat) => (i, QOb.qubit))) st0 := by
    refine ⟨by rw [← hq'], ?_, rfl, List.nodup_nil, by simp [st0], ?_, List.nodup_nil, by simp [st0]⟩
    · show List.range n = _
      rw [List.filter_eq_self.2 (by simp), ← hq']
    · intro q; simp [st0]
  have hmid : ∀ s ∈ cqI.idx (qubits n), cqI.run (ketLayers 0 n ++ gs) (fun s => if s = [] then 1 else 0) s =
      tnCat.interp.run (ketLayers 0 n ++ gs) (fun s => if s = [] then 1 else 0) (qOf (qubits n) s) *
      star (tnCat.interp.run (ketLayers 0 n ++ gs) (fun s => if s = [] then 1 else 0) (rOf (qubits n) s)) := by
    refine (run_double (a := []) (ketLayers 0 n ++ gs) (by simp) c12 ?_ ?_).2
    · intro l hl
      rcases List.mem_append.1 hl with hl | hl
      · rw [(mem_ketLayers l hl).1]
        exact dbl_good (ket_pure _).1 (ket_pure _).2.1 (ket_pure _).2.2
      · rcases (h.gates l hl).pure with g | g
        · exact dbl_good g.1 g.2.1 g.2.2
        · rw [g]; exact dbl_swap
    · intro s hs
      obtain rfl : s = [] := by simpa [Interp.idx] using hs
      simp [qOf, rOf]
  obtain ⟨ws, st, e1, e2, e3, e4, e5⟩ := tail_run (n := n) tl hinit (c := d.cod) (by rw [← hq]; exact c3) (fun l hl => isDrop_tail (h.tail l hl))
    (ψ := fun z => factor gs * plAll cs (fun y => if y = List.replicate n 0 then 1 else 0) z)
    (v := cqI.run (ketLayers 0 n ++ gs) (fun s => if s = [] then 1 else 0)) (by
      intro y hy
      rw [List.length_map, List.length_range] at hy
      rw [← hq, ← hq']
      obtain ⟨d1, d2, d3⟩ := diagIdx_qubits hy
      rw [hmid _ d1, d2, d3, g4 y hy]
      unfold joint
      rw [Finset.sum_eq_single y]
      · rw [if_pos]
        · rw [Complex.star_def, Complex.mul_conj]
        · refine ⟨eq_of_getD (n := n) (by simp) hy.1 (fun k hk => ?_), by simp [st0]⟩
          simp [List.getD_eq_getElem?_getD, hk]
      · intro z hz hne
        rw [if_neg]
        rintro ⟨hz', -⟩
        refine hne ?_
        have hz1 := (mem_allBits.1 hz).1
        rw [← hz']
        refine eq_of_getD (n := n) hz1 (by simp) (fun k hk => ?_)
        simp [List.getD_eq_getElem?_getD, hk]
      · intro hn; exact absurd (mem_allBits.2 hy) hn)
  have hzero := readLoop_zero e1 h.tail (by simp [st0])
  have hallq := drop_qubits c3 (fun o ho => (List.mem_replicate.1 ho).2) h.tail
  have hcod : d.cod = qubits d.cod.length := List.eq_replicate_of_mem hallq
  have hwl : d.cod.length = ws.length := by rw [e4, List.length_map]
  refine ⟨F, plZeros n (st.postmap.map Prod.fst) (plAll cs (fun y => if y = List.replicate n 0 then 1 else 0)), by rw [C74_flag d false hmix, hF], ?_, ?_⟩
  · have hg : st.gates = G := e3
    have hfit : ∀ c ∈ cs, PlOp.Fits c := by
      intro c hc
      rw [← hcs] at hc
      obtain ⟨g, hg, rfl⟩ := List.mem_map.1 hc
      exact g3 g (List.mem_of_mem_filter hg) (by simpa using (List.mem_filter.1 hg).2)
    have hto : toPennylane d probs = .ok ⟨n, cs, st.postmap, true, probs, factor gs⟩ := by
      unfold toPennylane
      rw [h.noMeasure isDrop_end, h.circuital isDrop_end, hmix]
      simp only [Bool.false_eq_true, if_false, if_true]
      unfold plFrom
      rw [g1 st e1]
      simp only
      rw [hg, takeScalars_apart G ((apart_gates g2).2 ha), factor_gates g2]
      simp only
      rw [plOps_fits _ (fun g hg => g3 g (List.mem_of_mem_filter hg) (by simpa using (List.mem_filter.1 hg).2)), hcs]
    unfold pennylane
    rw [hto]
    simp only
    unfold plEval
    rw [plRun_fits _ hfit]
    rfl
  · have hval : ∀ s ∈ allBits d.cod.length, F (s ++ s) = (joint n (fun z => factor gs * plAll cs (fun y => if y = List.replicate n 0 then 1 else 0) z) (ws.map Prod.fst) st.postmap s : ℝ) := by
      intro s hs
      have hb := mem_allBits.1 hs
      have h1 := e5 s (by rw [← hwl]; exact hb)
      rw [← e4] at h1
      have hrun : cqI.mat d [] (diagIdx d.cod s) = cqI.run tl (cqI.run (ketLayers 0 n ++ gs) (fun s => if s = [] then 1 else 0)) (diagIdx d.cod s) := by
        rw [← Interp.run_append, List.append_assoc, ← h.layers]
        rfl
      have hidx : diagIdx d.cod s ∈ cqI.idx d.cod := by rw [hcod]; exact (diagIdx_qubits hb).1
      have hev := eval_cq h.cq hF [] (by rw [h.dom]; simp [Interp.idx]) _ hidx
      rw [hrun, h1, h.dom] at hev
      rw [← hev, hcod, flat_diag hb]
      simp [flat, cOf, qOf, rOf]
    rw [Finset.sum_congr rfl hval, ← Complex.ofReal_sum, hwl]
    congr 1
    have := joint_total n (fun z => factor gs * plAll cs (fun y => if y = List.replicate n 0 then 1 else 0) z) (ws.map Prod.fst) st.postmap
    rw [List.length_map] at this
    rw [this, plZeros, Finset.mul_sum]
    refine Finset.sum_congr rfl (fun z _ => ?_)
    have hiff : (∀ p ∈ st.postmap, z.getD p.1 0 = p.2) ↔ ∀ q ∈ st.postmap.map Prod.fst, z.getD q 0 = 0 := by
      constructor
      · intro hh q hq
        obtain ⟨p, hp, rfl⟩ := List.mem_map.1 hq
        rw [hh p hp, hzero p hp]
      · intro hh p hp
        rw [hzero p hp]
        exact hh _ (List.mem_map.2 ⟨p, hp, rfl⟩)
    by_cases hc : ∀ p ∈ st.postmap, z.getD p.1 0 = p.2
    · rw [if_pos hc, if_pos (hiff.1 hc), Complex.normSq_mul]
    · rw [if_neg hc, if_neg (fun hh => hc (hiff.2 hh)), mul_zero]

/-! ## Examples -/

/-- A Bell pair with a scalar, the first qubit post-selected on 0. -/
def plBell : Diagram QOb QBox :=
  ⟨[], [.qubit], [⟨[], ket false, []⟩, ⟨[.qubit], ket false, []⟩, ⟨[], H, [.qubit]⟩, ⟨[], sqrt 2, [.qubit, .qubit]⟩, ⟨[], CX, []⟩, ⟨[], bra false, [.qubit]⟩]⟩

theorem plBell_circ : PlCirc IsBra plBell 2 [⟨[], H, [.qubit]⟩, ⟨[], sqrt 2, [.qubit, .qubit]⟩, ⟨[], CX, []⟩] [⟨[], bra false, [.qubit]⟩] := by
  refine ⟨rfl, rfl, by decide, ?_, ?_⟩
  · simp only [List.forall_mem_cons, List.not_mem_nil, false_imp_iff, implies_true, and_true]
    exact ⟨.inr (.inr (.inr ⟨H, [], _, _, rfl, .h⟩)), .inr (.inr (.inl ⟨_, rfl⟩)), .inr (.inr (.inr ⟨X, [1], _, _, rfl, .cx (by decide)⟩))⟩
  · simp only [List.forall_mem_cons, List.not_mem_nil, false_imp_iff, implies_true, and_true]
    exact ⟨_, rfl⟩

theorem plBell_apart : Apart [⟨[], H, [.qubit]⟩, ⟨[], sqrt 2, [.qubit, .qubit]⟩, ⟨[], CX, []⟩] := by
  simp [Apart, isNumber, numberOf, H, CX]

example : ∃ F, eval plBell false = .ok F ∧ pennylane plBell false = .ok ⟨[2], [F [0], F [1]]⟩ := C95_amplitudes_partial plBell_circ plBell_apart

example : ∃ F, eval plBell false = .ok F ∧ pennylane plBell true = .ok ⟨[2], [(Complex.normSq (F [0]) : ℂ), (Complex.normSq (F [1]) : ℂ)]⟩ := by
  refine C95_probabilities_partial plBell_circ plBell_apart ?_
  have : (2 : ℂ) ^ (1 / 2 : ℂ) = ((2 : ℝ) ^ (1 / 2 : ℝ) : ℝ) := by
    rw [Complex.ofReal_cpow (by norm_num)]
    norm_num
  simp only [factor, List.filterMap_cons, numberOf, H, CX, List.filterMap_nil, List.prod_cons, List.prod_nil, mul_one]
  rw [this, Complex.ofReal_im]

/-- A Bell pair, one qubit discarded, the other post-selected on 0. -/
example : PlCirc IsDrop ⟨[], [], [⟨[], ket false, []⟩, ⟨[.qubit], ket false, []⟩, ⟨[], H, [.qubit]⟩, ⟨[], CX, []⟩, ⟨[], discard, [.qubit]⟩, ⟨[], bra false, []⟩]⟩ 2
    [⟨[], H, [.qubit]⟩, ⟨[], CX, []⟩] [⟨[], discard, [.qubit]⟩, ⟨[], bra false, []⟩] ∧ Apart [⟨[], H, [.qubit]⟩, ⟨[], CX, []⟩] := by
  refine ⟨⟨rfl, rfl, by decide, ?_, ?_⟩, by simp [Apart, isNumber, numberOf, H, CX]⟩
  · simp only [List.forall_mem_cons, List.not_mem_nil, false_imp_iff, implies_true, and_true]
    exact ⟨.inr (.inr (.inr ⟨H, [], _, _, rfl, .h⟩)), .inr (.inr (.inr ⟨X, [1], _, _, rfl, .cx (by decide)⟩))⟩
  · simp only [List.forall_mem_cons, List.not_mem_nil, false_imp_iff, implies_true, and_true]
    exact ⟨.inl rfl, .inr rfl⟩

/-! ## Where it is wrong -/

/-- C95, refuted in general: with `probabilities`, if the product of the scalars is not real, evaluation raises (the amplitudes are still right). -/
theorem C95_refuted_complex (h : PlCirc IsBra d n gs tl) (ha : Apart gs) (hr : (factor gs).im ≠ 0) : pennylane d true = .error .runtimeError := by
  obtain ⟨ws, st, F, cs, e1, e2, e3, e4, e5, v, e6, e7⟩ := h.pure ha true
  unfold pennylane
  rw [e1]
  simp only
  unfold plEval
  rw [plRun_fits _ e2]
  simp only
  unfold plSelect
  simp only [Bool.false_eq_true, if_false, if_true, ne_eq, hr, not_false_eq_true]

/-- A measurement anywhere: `to_pennylane` raises `ValueError`. -/
theorem C95_measure (d : Diagram QOb QBox) (probs : Bool) (h : QBox.measure ∈ d.boxes) : toPennylane d probs = .error .valueError := by
  unfold toPennylane
  rw [List.any_eq_true.2 ⟨_, h, rfl⟩]
  rfl

/-- Gates on qubits in the state 0. -/
def plain (n : Nat) (gs : List (Layer QOb QBox)) : Diagram QOb QBox := ⟨[], qubits n, ketLayers 0 n ++ gs⟩

theorem plain_circuital (n : Nat) (gs : List (Layer QOb QBox)) (h : ∀ l ∈ gs, l.box.isGate = true) : numKets (plain n gs).layers = n ∧ isCircuital (plain n gs) = true ∧
    (plain n gs).boxes.any isMeasure = false := by
  have hf : ∀ l ∈ gs, l.box.isKet = false ∧ l.box.isEnd = false ∧ l.box.isMeasure = false := by
    intro l hl
    have := h l hl
    cases hb : l.box <;> rw [hb] at this <;> simp_all [isGate, isKet, isEnd, isMeasure]
  refine ⟨?_, ?_, ?_⟩
  · rw [numKets, plain, List.countP_append, List.countP_eq_length.2 (fun l hl => by rw [(mem_ketLayers l hl).1]; rfl), ketLayers_length,
      List.countP_eq_zero.2 (fun l hl => by simp [(hf l hl).1])]
    rfl
  · rw [C51_circuital]
    refine ⟨rfl, ketLayers 0 n, gs, rfl, fun l hl => ⟨by rw [(mem_ketLayers l hl).1]; rfl, (mem_ketLayers l hl).2⟩, fun l hl => (hf l hl).1, ?_⟩
    intro i k j li lk lj hik hkj hi hk hj hli hlj
    rw [(hf li (List.mem_of_getElem? hi)).2.1] at hli
    cases hli
  · rw [List.any_eq_false]
    intro b hb
    obtain ⟨l, hl, rfl⟩ := List.mem_map.1 hb
    rcases List.mem_append.1 (show l ∈ ketLayers 0 n ++ gs from hl) with hl | hl
    · rw [(mem_ketLayers l hl).1]; simp [isMeasure]
    · simp [(hf l hl).2.2]

/-- The conversion of one gate. -/
theorem plain_one (b : QBox) (n : Nat) (hb : b.isGate = true) {g : Gate} (hg : fromBox b 0 = .ok g) (hn : g.number = none) (hm : mixedDiagram (plain n [⟨[], b, []⟩]) = false) (probs : Bool) :
    toPennylane (plain n [⟨[], b, []⟩]) probs = if plSig g.gtype = none then .error .keyError else .ok ⟨n, [g.op], [], false, probs, 1⟩ := by
  obtain ⟨h1, h2, h3⟩ := plain_circuital n [⟨[], b, []⟩] (by simpa using hb)
  unfold toPennylane
  rw [h3, h2, hm]
  simp only [Bool.false_eq_true, if_false, if_true]
  unfold plFrom readoff
  rw [h2, h1]
  simp only [Bool.not_true, Bool.false_eq_true, if_false]
  rw [show (plain n [⟨[], b, []⟩]).layers = ketLayers 0 n ++ [⟨[], b, []⟩] from rfl, readLoop_kets, readLoop, readStep_gate (l := ⟨[], b, []⟩) hb hg]
  simp only [readLoop, List.nil_append, takeScalars, hn, plOps]
  by_cases hs : plSig g.gtype = none
  · simp [hs]
  · simp [hs, Gate.op]

/-- C95, refuted: `if gate.phase:` (pennylane.py:120) drops the phase 0, the operation is called without its parameter and raises when the circuit is evaluated. -/
theorem C95_refuted_zero (ax : Axis) (probs : Bool) : pennylane (plain 1 [⟨[], rot ax 0, []⟩]) probs = .error .typeError := by
  have hm : mixedDiagram (plain 1 [⟨[], rot ax 0, []⟩]) = false := by simp [mixedDiagram, plain, Diagram.boxes, ketLayers, isMixed, qubits]
  unfold pennylane
  rw [plain_one _ 1 rfl rfl (by cases ax <;> simp [Gate.number, nameHead]) hm]
  cases ax <;> simp [plSig, nameHead, plEval, plRun, Gate.op, plParams]

/-- C95, refuted: a controlled `Ry` has no phase for `from_box` (quantum.py:1602-1604), evaluation raises. -/
theorem C95_refuted_CRy (θ : ℝ) (probs : Bool) : pennylane (plain 2 [⟨[], controlled (rot .y θ) 1, []⟩]) probs = .error .typeError := by
  have hm : mixedDiagram (plain 2 [⟨[], controlled (rot .y θ) 1, []⟩]) = false := by simp [mixedDiagram, plain, Diagram.boxes, ketLayers, isMixed, qubits]
  unfold pennylane
  rw [plain_one _ 2 rfl rfl (by simp [Gate.number, nameHead]) hm]
  simp [plSig, nameHead, plEval, plRun, Gate.op, plParams]

/-- C95, refuted: there is no entry for gates with two controls. -/
theorem C95_refuted_CCX (probs : Bool) : pennylane (plain 3 [⟨[], CCX, []⟩]) probs = .error .keyError := by
  have hm : mixedDiagram (plain 3 [⟨[], CCX, []⟩]) = false := by simp [mixedDiagram, plain, Diagram.boxes, ketLayers, isMixed, qubits, CCX, CX, X]
  unfold pennylane
  rw [plain_one CCX 3 rfl (g := ⟨"CCX", [0, 1, 2], .none, false, some ([0, 1].mergeSort (· ≤ ·)), some 2⟩) rfl (by simp [Gate.number]) hm]
  simp [plSig]

theorem ten_one {b : QBox} (hd : b.dom = [.qubit]) (hc : b.cod = [.qubit]) {a : NdArray ℂ} (ha : b.array = .ok a) (hk : b.kind = BoxKind.other) (v : List Nat → ℂ) (y : Nat) :
    tnCat.interp.act ⟨[], b, []⟩ v [y] = v [0] * a.get [0, y] + v [1] * a.get [1, y] := by
  have := tnCat.interp.act_split ⟨[], b, []⟩ v (yl := []) (c := [y]) [] rfl (by show [y].length = b.cod.length; rw [hc]; rfl)
  rw [List.nil_append, List.append_nil] at this
  rw [this]
  show ∑ i ∈ tnCat.interp.idx b.dom, v ([] ++ (i ++ [])) * tnCat.interp.ten b i [y] = _
  have hidx : tnCat.interp.idx [QOb.qubit] = {[0], [1]} := by
    rw [idx_allBits]
    ext z
    rw [show [QOb.qubit].length = 1 from rfl, mem_allBits]
    constructor
    · intro hz
      obtain ⟨a, z, rfl, ha, hz⟩ := Bits.uncons (n := 0) hz
      rw [hz.eq_nil]
      rcases (by omega : a = 0 ∨ a = 1) with rfl | rfl <;> simp
    · intro hz
      simp only [Finset.mem_insert, Finset.mem_singleton] at hz
      rcases hz with rfl | rfl <;> exact ⟨rfl, by simp⟩
  rw [hd, hidx, Finset.sum_pair (by simp)]
  rw [tnCat_std.ten (b := b) hk ha, tnCat_std.ten (b := b) hk ha]
  rfl

/-- The adjoint of `S` on a qubit in the state 1. -/
def plAdjoint : Diagram QOb QBox := plain 1 [⟨[], X, []⟩, ⟨[], daggered S, []⟩]

/-- C95, refuted: the flag for the adjoint is not read (pennylane.py:118-142). For the adjoint of `S` on a qubit in the state 1, lambeq gives the amplitude `-i` and PennyLane gives `i`. -/
theorem C95_refuted_adjoint : ∃ F, eval plAdjoint false = .ok F ∧ F [1] = -Complex.I ∧ pennylane plAdjoint false = .ok ⟨[2], [0, Complex.I]⟩ := by
  have hok : PureOK plAdjoint := by
    refine ⟨by decide, ?_⟩
    simp only [plAdjoint, plain, ketLayers, List.nil_append, List.cons_append, List.forall_mem_cons, List.not_mem_nil, false_imp_iff, implies_true, and_true]
    exact ⟨.inl trivial, .inl oneQubit_X.1, .inl oneQubit_gates.2.1.1⟩
  have hm : mixedDiagram plAdjoint = false := by simp [mixedDiagram, plAdjoint, plain, Diagram.boxes, ketLayers, isMixed, qubits, X, S]
  obtain ⟨F, f1, f2⟩ := pureEval_spec hok
  refine ⟨F, by rw [eval, hm]; exact f1, ?_, ?_⟩
  · have := f2 [] [1] Bits.nil (by simp [plAdjoint, plain, qubits, Bits])
    rw [List.nil_append] at this
    rw [this]
    show tnCat.interp.act ⟨[], daggered S, []⟩ (tnCat.interp.act ⟨[], X, []⟩ (tnCat.interp.act ⟨[], ket false, []⟩ (fun s => if s = [] then 1 else 0))) [1] = _
    obtain ⟨a, ha, _, _⟩ := Good.array_ok (b := S) oneQubit_gates.2.1.1
    obtain ⟨a', ha', _, _⟩ := Good.array_ok (b := daggered S) oneQubit_gates.2.1.1
    have hget : a'.get [1, 1] = -Complex.I := by
      have := get_daggered (b := S) oneQubit_gates.2.1.1 ha ha' [1] [1] (by simp [S, QBox.dom, sig, Bits]) (by simp [S, QBox.cod, sig, Bits])
      rw [show ([1] ++ [1] : List Nat) = [1, 1] from rfl] at this
      rw [this]
      cases ha
      show star Complex.I = _
      simp
    rw [ten_one rfl rfl ha' rfl, ten_one rfl rfl (b := X) rfl rfl, ten_one rfl rfl (b := X) rfl rfl]
    have hk := fun z hz => run_kets 0 1 (fun s => if s = [] then (1 : ℂ) else 0) [] z Bits.nil hz
    have h0 := hk [0] (by simp [Bits])
    have h1 := hk [1] (by simp [Bits])
    simp only [ketLayers, Interp.run, List.nil_append] at h0 h1
    rw [show (⟨qubits 0, ket false, []⟩ : Layer QOb QBox) = ⟨[], ket false, []⟩ from rfl] at h0 h1
    rw [h0, h1, hget]
    simp [NdArray.get, ravel, qDims]
  · obtain ⟨h1, h2, h3⟩ := plain_circuital 1 [⟨[], X, []⟩, ⟨[], daggered S, []⟩] (by simp [X, S, isGate])
    unfold pennylane toPennylane
    rw [show plAdjoint.boxes.any isMeasure = false from h3, show isCircuital plAdjoint = true from h2, hm]
    simp only [Bool.false_eq_true, if_false, if_true]
    unfold plFrom readoff
    rw [show isCircuital plAdjoint = true from h2, show numKets plAdjoint.layers = 1 from h1]
    simp only [Bool.not_true, Bool.false_eq_true, if_false]
    rw [show plAdjoint.layers = ketLayers 0 1 ++ [⟨[], X, []⟩, ⟨[], daggered S, []⟩] from rfl, readLoop_kets, readLoop, readStep_X]
    simp only
    rw [readLoop, readStep_gate (l := ⟨[], daggered S, []⟩) rfl (g := ⟨"S", [0], .none, true, none, none⟩) rfl]
    simp [readLoop, takeScalars, Gate.number, plOps, plSig, plParams, plEval, plRun, plSelect]
    have hv : validStates 1 [] = [0, 1] := by decide
    rw [hv]
    simp [plTake, stateList, allIdx, List.range_succ, PlOp.apply, applied, plBase, ofMatrix, tkX, tkS, plShape]

/-- A qubit in the state 1. -/
def plKet : Diagram QOb QBox := ⟨[], [.qubit], [⟨[], ket true, []⟩]⟩

/-- C95, refuted: every preparation counts as the state 0. -/
theorem C95_refuted_ket : ∃ F, eval plKet false = .ok F ∧ F [0] = 0 ∧ F [1] = 1 ∧ pennylane plKet false = .ok ⟨[2], [1, 0]⟩ := by
  have hok : PureOK plKet := ⟨by decide, fun l hl => by rw [List.mem_singleton.1 hl]; exact .inl trivial⟩
  have hm : mixedDiagram plKet = false := by simp [mixedDiagram, plKet, Diagram.boxes, isMixed]
  obtain ⟨F, f1, f2⟩ := pureEval_spec hok
  have hF : ∀ y, y < 2 → F [y] = if y = 1 then 1 else 0 := by
    intro y hy
    have := f2 [] [y] Bits.nil ⟨rfl, by simpa using hy⟩
    rw [List.nil_append] at this
    rw [this]
    show tnCat.interp.act ⟨[], ket true, []⟩ (fun s => if s = [] then 1 else 0) [y] = _
    have h4 := tnCat.interp.act_split ⟨[], ket true, []⟩ (fun s => if s = [] then 1 else 0) (yl := []) (c := [y]) [] rfl rfl
    refine h4.trans ?_
    show ∑ i ∈ tnCat.interp.idx [], (if ([] ++ (i ++ [])) = ([] : List Nat) then (1 : ℂ) else 0) * tnCat.interp.ten (ket true) i [y] = _
    rw [Interp.idx, Finset.sum_singleton]
    show 1 * (⟨[2], [0, 1]⟩ : NdArray ℂ).get [y] = _
    rcases (by omega : y = 0 ∨ y = 1) with rfl | rfl <;> simp [NdArray.get, ravel]
  refine ⟨F, by rw [eval, hm]; exact f1, by rw [hF 0 (by decide)]; rfl, by rw [hF 1 (by decide)]; rfl, ?_⟩
  have hc : isCircuital plKet = true := by simp [isCircuital, plKet, numKets, isKet, endIdx]
  unfold pennylane toPennylane
  rw [hm, hc]
  unfold plFrom readoff
  rw [hc]
  have hv : validStates 1 [] = [0, 1] := by decide
  simp [plKet, Diagram.boxes, isMeasure, numKets, isKet, readLoop, readStep, takeScalars, plOps, plEval, plRun, plSelect, hv, plTake, stateList, allIdx, List.range_succ, plShape]

/-- Two qubits in the state 0, one discarded, the other post-selected on 1. -/
def plMixedOne : Diagram QOb QBox := ⟨[], [], [⟨[], ket false, []⟩, ⟨[.qubit], ket false, []⟩, ⟨[], discard, [.qubit]⟩, ⟨[], bra true, []⟩]⟩

/-- C95, refuted: with discarded qubits, a post-selection on 1 is made on 0 (pennylane.py:409-411). -/
theorem C95_refuted_mixed_one : mixedDiagram plMixedOne = true ∧ ∃ F, eval plMixedOne false = .ok F ∧ F [] = 0 ∧ pennylane plMixedOne false = .ok ⟨[], [1]⟩ := by
  have hm : mixedDiagram plMixedOne = true := by simp [mixedDiagram, plMixedOne, Diagram.boxes, isMixed]
  have hex : Exportable plMixedOne 2 [] [⟨[], discard, [.qubit]⟩, ⟨[], bra true, []⟩] := by
    refine ⟨rfl, rfl, by decide, by simp, ?_⟩
    simp only [List.forall_mem_cons, List.not_mem_nil, false_imp_iff, implies_true, and_true]
    exact ⟨.inr (.inl rfl), .inr (.inr ⟨_, rfl⟩)⟩
  obtain ⟨tk, F, e1, e2, e3, e4, e5, e6, e7, e8, e9, e10⟩ := C51_export hex (k := 0) rfl
  have htk : toTkCircuital plMixedOne = .ok ⟨2, 1, [], [(1, 0)], [(1, 1)], 1⟩ := by
    unfold toTkCircuital readoff
    rw [hex.circuital, hex.numKets]
    simp [readLoop, readStep, plMixedOne, dictSet, List.range_succ, addGates]
  cases htk.symm.trans e1
  refine ⟨hm, F, by rw [C74_flag _ _ hm, e2], ?_, ?_⟩
  · rw [e10 [1] [] (by simp [Bits]) Bits.nil (by simp) (by simp [openQubits])]
    have : TkCircuit.prob ⟨2, 1, [], [(1, 0)], [(1, 1)], 1⟩ [1] = 0 := by
      unfold TkCircuit.prob
      refine Finset.sum_eq_zero (fun y hy => ?_)
      rcases bits_two (mem_allBits.1 hy) with rfl | rfl | rfl | rfl <;> simp [TkCircuit.state]
    rw [this]; simp
  · unfold pennylane toPennylane
    rw [hm, hex.circuital]
    unfold plFrom readoff
    rw [hex.circuital, hex.numKets]
    have hz : plZeros 2 [1] (fun y => if y = [0, 0] then 1 else 0) = 1 := by
      unfold plZeros
      rw [Finset.sum_eq_single [0, 0]]
      · simp
      · intro y _ hne; simp [hne]
      · intro hn; exact absurd (mem_allBits.2 (by simp [Bits])) hn
    simp [plMixedOne, Diagram.boxes, isMeasure, readLoop, readStep, List.range_succ, dictSet, takeScalars, plOps, plEval, plRun, plSelect, hz, List.replicate]

end
end QBox
end Lambeq
