import Verif.Quantum.CircuitalInv

/-!
# Conversion to circuital form: the theorems (C84)
-/

namespace Lambeq
open Diagram
set_option linter.unusedSectionVars false
set_option linter.unusedSimpArgs false

namespace QBox
noncomputable section

/-- The layers that `to_circuital` handles: initialisations, post-selections and discards of one qubit, boxes with at most one input wire and as many
outputs as inputs, swaps of qubits with only qubits to their left, and one-qubit gates with controls that are all to the left, or with one or two controls
that are all to the right. -/
def Compilable (l : Layer QOb QBox) : Prop :=
  (∃ v, l.box = ket v) ∨ (∃ v, l.box = bra v) ∨ l.box = discard ∨
  (CQBox l.box ∧ l.box.dom.length ≤ 1 ∧ l.box.cod.length = l.box.dom.length) ∨
  (l.box = swap .qubit .qubit ∧ ∀ o ∈ l.left, o = QOb.qubit) ∨
  ∃ g ds, l.box = nest g ds ∧ OneQubit g ∧ g.isMixed = false ∧ g.ctrlDists = [] ∧ Stretchable ds

theorem gateLayer_small {l : Layer QOb QBox} (h1 : l.box.dom.length ≤ 1) (h2 : l.box.cod.length = l.box.dom.length) : GateLayer l := by
  refine ⟨.inl h1, h2, ?_, ?_⟩ <;> cases hb : l.box <;> first | rfl | (rw [hb] at h2; simp [dom, cod, sig] at h2)

theorem gateLayer_swap {l : Layer QOb QBox} (h : l.box = swap .qubit .qubit) (hl : ∀ o ∈ l.left, o = QOb.qubit) : GateLayer l :=
  ⟨.inr (.inl ⟨h, hl⟩), by rw [h]; rfl, by rw [h]; rfl, by rw [h]; rfl⟩

theorem gateLayer_nest {l : Layer QOb QBox} {g : QBox} {ds : List Int} (h : l.box = nest g ds) (hg : OneQubit g) (hm : g.isMixed = false) (hc : g.ctrlDists = [])
    (hs : Stretchable ds) : GateLayer l := by
  obtain ⟨t1, t2⟩ := nest_type hg ds
  have hsq : l.box.cod.length = l.box.dom.length := by rw [h, t1, t2]
  cases ds with
  | nil => exact gateLayer_small (by rw [h]; exact le_of_eq (by rw [show (nest g []).dom = _ from hg.dom]; rfl)) hsq
  | cons d ds => exact ⟨.inr (.inr ⟨g, d :: ds, h, hg, hm, hc, hs⟩), hsq, by rw [h]; rfl, by rw [h]; rfl⟩

theorem cqBox_nest {g : QBox} {ds : List Int} (hg : OneQubit g) (hm : g.isMixed = false) (hd : ∀ d ∈ ds, d ≠ 0) : CQBox (nest g ds) := by
  refine .inl ⟨nest_good hg ds hd, by rw [isMixed_nest, hm], ?_⟩
  obtain ⟨t1, t2⟩ := nest_type hg ds
  rw [t1, t2]
  intro o ho
  rcases List.mem_append.1 ho with ho | ho <;> exact (List.mem_replicate.1 ho).2

/-- The layers with their gates. -/
theorem Compilable.cases {l : Layer QOb QBox} (h : Compilable l) :
    (∃ v, l.box = ket v) ∨ (∃ v, l.box = bra v) ∨ l.box = discard ∨ (GateLayer l ∧ CQBox l.box) := by
  rcases h with h | h | h | ⟨h1, h2, h3⟩ | ⟨h1, h2⟩ | ⟨g, ds, h1, h2, h3, h4, h5⟩
  · exact .inl h
  · exact .inr (.inl h)
  · exact .inr (.inr (.inl h))
  · exact .inr (.inr (.inr ⟨gateLayer_small h2 h3, h1⟩))
  · exact .inr (.inr (.inr ⟨gateLayer_swap h1 h2, by rw [h1]; exact .inr (.inr (.inr (.inr (.inr (.inl rfl)))))⟩))
  · exact .inr (.inr (.inr ⟨gateLayer_nest h1 h2 h3 h4 h5, by rw [h1]; exact cqBox_nest h2 h3 h5.ne⟩))

theorem cqBox_prep (v : Bool) : CQBox (ket v) := .inl ⟨trivial, rfl, by simp [dom, cod, sig]⟩
theorem cqBox_bra (v : Bool) : CQBox (bra v) := .inl ⟨trivial, rfl, by simp [dom, cod, sig]⟩
theorem cqBox_discard : CQBox discard := .inr (.inr (.inr (.inl rfl)))

theorem oneQubit_X : OneQubit X := (GateOf.x).spec.1

theorem cqBox_X : CQBox X := cqBox_nest (ds := []) oneQubit_X rfl (by simp)

theorem Compilable.cqBox {l : Layer QOb QBox} (h : Compilable l) : CQBox l.box := by
  rcases h.cases with ⟨v, h⟩ | ⟨v, h⟩ | h | h
  · rw [h]; exact cqBox_prep v
  · rw [h]; exact cqBox_bra v
  · rw [h]; exact cqBox_discard
  · exact h.2

theorem nest_ne_swap {g : QBox} (hg : OneQubit g) (ds : List Int) (p q : QOb) : nest g ds ≠ swap p q := by
  cases ds with
  | nil =>
    intro h
    have := hg.dom
    rw [show g = swap p q from h] at this
    simp [dom, sig] at this
  | cons d ds => intro h; cases h

theorem GateLayer.balanced {l : Layer QOb QBox} (h : GateLayer l) : Balanced l := by
  intro hb
  rcases h.1 with h | ⟨h, -⟩ | ⟨g, ds, h, hg, -⟩
  · rw [hb] at h; simp [dom, sig] at h
  · rw [hb] at h; cases h
  · exact absurd (h.symm.trans hb) (nest_ne_swap hg ds _ _)

theorem Compilable.balanced {l : Layer QOb QBox} (h : Compilable l) : Balanced l := by
  rcases h.cases with ⟨v, h⟩ | ⟨v, h⟩ | h | h
  · intro hb; rw [h] at hb; cases hb
  · intro hb; rw [h] at hb; cases hb
  · intro hb; rw [h] at hb; cases hb
  · exact h.1.balanced

theorem mem_ketbra {l l' : Layer QOb QBox} (h : l' ∈ ketbraLayer l) :
    (l'.box = ket false ∧ ∃ v, l.box = ket v) ∨ (l'.box = bra false ∧ ∃ v, l.box = bra v) ∨ l'.box = X ∧ (l.box = ket true ∨ l.box = bra true) ∨
    (l' = l ∧ (∀ v, l.box ≠ ket v) ∧ ∀ v, l.box ≠ bra v) := by
  obtain ⟨L, b, R⟩ := l
  cases b with
  | ket v => cases v <;> simp [ketbraLayer] at h ⊢
             · rw [h]
             · rcases h with rfl | rfl <;> simp
  | bra v => cases v <;> simp [ketbraLayer] at h ⊢
             · rw [h]
             · rcases h with rfl | rfl <;> simp
  | _ => simp [ketbraLayer] at h; simp [h]

theorem ketbra_circ {ls : List (Layer QOb QBox)} (h : ∀ l ∈ ls, Compilable l) : ∀ l ∈ ls.flatMap ketbraLayer, CircLayer l := by
  intro l' hl'
  obtain ⟨l, hl, hl'⟩ := List.mem_flatMap.1 hl'
  rcases mem_ketbra hl' with ⟨h1, -⟩ | ⟨h1, -⟩ | ⟨h1, -⟩ | ⟨rfl, h1, h2⟩
  · exact .inl h1
  · exact .inr (.inl h1)
  · exact .inr (.inr (.inr (gateLayer_small (by rw [h1]; rfl) (by rw [h1]; rfl))))
  · rcases (h l' hl).cases with ⟨v, h3⟩ | ⟨v, h3⟩ | h3 | h3
    · exact absurd h3 (h1 v)
    · exact absurd h3 (h2 v)
    · exact .inr (.inr (.inl h3))
    · exact .inr (.inr (.inr h3.1))

theorem assemble_chain {ls : List (Layer QOb QBox)} {a c : List QOb} (hc : Chain a ls c) (hne : ls ≠ []) : assemble ls = .ok ⟨a, c, ls⟩ := by
  have key : ∀ (ls acc : List (Layer QOb QBox)) (m : List QOb), Chain m ls c →
      ls.foldlM (fun (d : Diagram QOb QBox) l => andThen d ⟨l.dom, l.cod, [l]⟩) (⟨a, m, acc⟩ : Diagram QOb QBox) = (.ok ⟨a, c, acc ++ ls⟩ : Except PyErr _) := by
    intro ls
    induction ls with
    | nil => intro acc m hm; rw [show m = c from hm, List.append_nil]; rfl
    | cons l ls ih =>
      intro acc m hm
      obtain ⟨rfl, hm⟩ := hm
      rw [List.foldlM_cons]
      have : andThen (⟨a, l.dom, acc⟩ : Diagram QOb QBox) ⟨l.dom, l.cod, [l]⟩ = .ok ⟨a, l.cod, acc ++ [l]⟩ := andThen_ok_iff.2 ⟨rfl, rfl⟩
      rw [this]
      show ls.foldlM _ _ = _
      rw [ih _ _ hm, List.append_assoc]
      rfl
  cases ls with
  | nil => exact absurd rfl hne
  | cons l ls =>
    obtain ⟨rfl, hc⟩ := hc
    exact key ls [l] l.cod hc

theorem toCircuital_spec {d : Diagram QOb QBox} (hw : d.WT) (hd : ∀ o ∈ d.dom, o = QOb.qubit) (hl : ∀ l ∈ d.layers, Compilable l) (hne : d.dom ≠ [] ∨ d.layers ≠ []) :
    ∃ n gs ps rest, toCircuital d = .ok ⟨[], List.replicate (d.cod.count .bit) .bit, ketLayers 0 n ++ (gs ++ ps)⟩ ∧
      Chain [] (ketLayers 0 n ++ (gs ++ ps)) (List.replicate (d.cod.count .bit) .bit) ∧ (∀ l ∈ gs, GateLayer l) ∧ (∀ l ∈ ps, PostLayer l) ∧
      gs = (circLoop [] [] [] (((initPart d.dom).layers ++ (d.layers ++ rest)).flatMap ketbraLayer)).2.1 ∧ (∀ l ∈ rest, l.box = discard) ∧
      (∀ l ∈ (initPart d.dom).layers, l.box = ket false) ∧
      (∀ l ∈ (initPart d.dom).layers ++ (d.layers ++ rest), Compilable l) ∧
      ∀ y ∈ cqI.idx (List.replicate (d.cod.count .bit) QOb.bit), cqI.run (ketLayers 0 n ++ (gs ++ ps)) (fun z => if z = [] then 1 else 0) y =
        ∑ z ∈ cqI.idx d.cod, cqI.mat d (List.replicate d.dom.length 0) z * if cOf d.cod z = y ∧ qOf d.cod z = rOf d.cod z then 1 else 0 := by
  obtain ⟨e, ks, ds, e1, e2, e3, e4, e5, e6, e7, e8, rfl, -, e9⟩ := initAndDiscard_spec hw hd
  have hcomp : ∀ l ∈ (initPart d.dom).layers ++ (d.layers ++ ds), Compilable l := by
    intro l hl'
    rcases List.mem_append.1 hl' with h | h
    · exact .inl ⟨false, e6 l h⟩
    · rcases List.mem_append.1 h with h | h
      · exact hl l h
      · exact .inr (.inr (.inl (e7 l h)))
  have hw' : Chain [] e.layers (List.replicate (d.cod.count .bit) .bit) := by rw [← e4, ← e5]; exact e3
  obtain ⟨k1, k2⟩ := ketbra_all hw'
  have hne2 : e.layers.flatMap ketbraLayer ≠ [] := by
    have h0 : e.layers ≠ [] := by
      rw [e2]
      rcases hne with h | h
      · simp [e8 h]
      · simp [h]
    cases he : e.layers with
    | nil => exact absurd he h0
    | cons l ls =>
      rw [List.flatMap_cons]
      have : ketbraLayer l ≠ [] := by unfold ketbraLayer; split <;> simp
      simp [this]
  rw [e2] at k1 k2 hne2
  obtain ⟨n, m, r1, r2, r3, r4, r5, r6, r7⟩ := circLoop_spec [] [] [] (((initPart d.dom).layers ++ (d.layers ++ ds)).flatMap ketbraLayer) 0 [] _ _ rfl rfl k1 rfl
    (by simp) (ketbra_circ hcomp) (by simp)
  generalize hres : circLoop [] [] [] (((initPart d.dom).layers ++ (d.layers ++ ds)).flatMap ketbraLayer) = res at r1 r2 r3 r4 r5 r6 r7
  obtain ⟨kk, gs, post⟩ := res
  simp only at r1 r2 r3 r4 r5 r6 r7
  have hpost : ∃ ps, sortPost gs post = .ok ps ∧ Chain m ps (List.replicate (d.cod.count .bit) .bit) ∧ (∀ l ∈ ps, PostLayer l) ∧
      (∀ (V : List Nat → ℂ), ∀ y ∈ cqI.idx (List.replicate (d.cod.count .bit) QOb.bit), cqI.run ps V y = cqI.run post V y) ∧ (post ≠ [] → ps ≠ []) := by
    unfold sortPost
    cases hlast : gs.getLast? with
    | none => exact ⟨post, rfl, r3, r5, fun _ _ _ => rfl, fun h => h⟩
    | some last =>
      have := chain_last r2 hlast
      obtain ⟨ps, c1, c2, c3, c4, c5⟩ := construct_spec (last := last) (post := post) (by rw [this]; exact r3) r5
      rw [this] at c2
      exact ⟨ps, c1, c2, c3, c4, fun h h0 => h (List.length_eq_zero_iff.1 (by rw [← c5, h0]; rfl))⟩
  obtain ⟨ps, p1, p2, p3, p4, p5⟩ := hpost
  have hkets : Chain [] (ketLayers 0 n) (qubits n) := by
    have := chain_kets 0 n
    rw [Nat.zero_add] at this
    exact this
  have hchain : Chain [] (ketLayers 0 n ++ (gs ++ ps)) (List.replicate (d.cod.count .bit) .bit) := hkets.append (r2.append p2)
  refine ⟨n, gs, ps, ds, ?_, hchain, r4, p3, by rw [hres], e7, e6, hcomp, fun y hy => ?_⟩
  · unfold toCircuital
    simp only [e1, e2, hres, p1, r1]
    refine assemble_chain hchain ?_
    have := r7 (.inr (.inr (.inr hne2)))
    rcases this with h | h | h
    · cases n with
      | zero => exact absurd rfl h
      | succ n => simp [ketLayers]
    · simp [h]
    · simp [p5 h]
  · rw [cqI.run_append, cqI.run_append, p4 _ y hy]
    have h1 := r6 y hy
    rw [show cqI.run (ketLayers 0 n) (fun z => if z = [] then 1 else 0) = zeroState n from rfl, h1]
    have h2 := k2 (fun z => if z = [] then 1 else 0) y hy
    refine (show _ = _ from h2).trans ?_
    rw [← e9 y hy, Interp.mat, e2]

theorem ketLayers_box (k n : Nat) : ∀ l ∈ ketLayers k n, l.box = ket false ∧ l.right = [] := by
  induction n generalizing k with
  | zero => intro l hl; cases hl
  | succ n ih =>
    intro l hl
    rcases List.mem_cons.1 hl with rfl | hl
    · exact ⟨rfl, rfl⟩
    · exact ih _ l hl

theorem SameKind.cqBox {b b' : QBox} (h : SameKind b b') (hb : CQBox b) : CQBox b' := by
  rcases h with rfl | ⟨g, ds, ds', rfl, rfl, hg, -, -, h1, h2, -⟩
  · exact hb
  · exact cqBox_nest hg h2 h1

theorem zeros_flat (n : Nat) : flat (qubits n) (List.replicate n 0) = List.replicate n 0 ++ List.replicate n 0 := by
  have : cOf (qubits n) (List.replicate n 0) = [] ∧ qOf (qubits n) (List.replicate n 0) = List.replicate n 0 ∧ rOf (qubits n) (List.replicate n 0) = List.replicate n 0 := by
    induction n with
    | zero => exact ⟨rfl, rfl, rfl⟩
    | succ n ih =>
      refine ⟨ih.1, ?_, ?_⟩
      · show 0 / 2 :: qOf (qubits n) (List.replicate n 0) = _
        rw [ih.2.1]; rfl
      · show 0 % 2 :: rOf (qubits n) (List.replicate n 0) = _
        rw [ih.2.2]; rfl
  rw [flat, this.1, this.2.1, this.2.2]; rfl

/-- **C84 (conversion to circuital form).** `to_circuital` of a well-typed circuit on qubits with the boxes above returns a circuital diagram: no inputs,
initialisations first, then the gates, then discards and post-selections, only bits as outputs. Its value (by mixed evaluation) at the outcome `y` is the
value of the original circuit for inputs 0, with the output qubits traced out. -/
theorem C84_to_circuital {d : Diagram QOb QBox} (hw : d.WT) (hd : ∀ o ∈ d.dom, o = QOb.qubit) (hl : ∀ l ∈ d.layers, Compilable l) (hne : d.dom ≠ [] ∨ d.layers ≠ []) :
    ∃ c F G, toCircuital d = .ok c ∧ isCircuital c = true ∧ c.WT ∧ c.dom = [] ∧ c.cod = List.replicate (d.cod.count .bit) .bit ∧
      eval d true = .ok F ∧ eval c true = .ok G ∧
      ∀ y, Bits (d.cod.count .bit) y → G y = ∑ s ∈ allBits (d.cod.count .qubit), F ((List.replicate d.dom.length 0 ++ List.replicate d.dom.length 0) ++ (y ++ (s ++ s))) := by
  obtain ⟨n, gs, ps, rest, e1, e2, e3, e4, e5, e6, e7, e8, e9⟩ := toCircuital_spec hw hd hl hne
  have hgs : ∀ l ∈ gs, CQBox l.box := by
    rw [e5]
    refine circLoop_inv (P := CQBox) (fun b b' h hb => h.cqBox hb) [] [] [] _ (by simp) (fun l hl => ?_)
    refine ⟨(ketbra_circ e8 l hl).pullable, ?_⟩
    obtain ⟨l0, h0, hl'⟩ := List.mem_flatMap.1 hl
    rcases mem_ketbra hl' with ⟨h1, -⟩ | ⟨h1, -⟩ | ⟨h1, -⟩ | ⟨rfl, h1, h2⟩
    · rw [h1]; exact .inl rfl
    · rw [h1]; exact .inr (.inl rfl)
    · rw [h1]; exact .inr (.inr cqBox_X)
    · exact .inr (.inr (e8 l h0).cqBox)
  have hcq : CQOK (⟨[], List.replicate (d.cod.count .bit) .bit, ketLayers 0 n ++ (gs ++ ps)⟩ : Diagram QOb QBox) := by
    refine ⟨e2, fun l hl => ?_⟩
    rcases List.mem_append.1 hl with h | h
    · rw [Balanced, (ketLayers_box 0 n l h).1]; exact ⟨cqBox_prep false, fun h => by cases h⟩
    · rcases List.mem_append.1 h with h | h
      · exact ⟨hgs l h, (e3 l h).balanced⟩
      · rcases e4 l h with h | h
        · rw [Balanced, h]; exact ⟨cqBox_bra false, fun h => by cases h⟩
        · rw [Balanced, h]; exact ⟨cqBox_discard, fun h => by cases h⟩
  have hdcq : CQOK d := ⟨hw, fun l h => ⟨(hl l h).cqBox, (hl l h).balanced⟩⟩
  obtain ⟨F, hF⟩ := C74_total hdcq
  obtain ⟨G, hG⟩ := C74_total hcq
  refine ⟨_, F, G, e1, ?_, e2, rfl, rfl, hF, hG, fun y hy => ?_⟩
  · rw [C51_circuital]
    refine ⟨rfl, ketLayers 0 n, gs ++ ps, rfl, fun l hl => ⟨by rw [(ketLayers_box 0 n l hl).1]; rfl, (ketLayers_box 0 n l hl).2⟩, fun l hl => ?_, ?_⟩
    · rcases List.mem_append.1 hl with h | h
      · exact (e3 l h).2.2.1
      · rcases e4 l h with h | h <;> rw [h] <;> rfl
    · intro i k j li lk lj hik hkj hi hk hj hli hlj
      have hi' : gs.length ≤ i := by
        by_contra hc
        rw [List.getElem?_append_left (by omega)] at hi
        have := (e3 li (List.mem_of_getElem? hi)).2.2.2
        rw [this] at hli; cases hli
      rw [List.getElem?_append_right (by omega)] at hk
      left
      rcases e4 lk (List.mem_of_getElem? hk) with h | h <;> rw [h] <;> rfl
  · have hb : (List.replicate (d.cod.count QOb.bit) QOb.bit).count .bit = d.cod.count .bit ∧ (List.replicate (d.cod.count QOb.bit) QOb.bit).count .qubit = 0 := by simp [List.count_replicate]
    obtain ⟨m1, a1, a2, a3⟩ := enc_spec (t := List.replicate (d.cod.count QOb.bit) QOb.bit) (c := y) (q := []) (r := []) (by rw [hb.1]; exact hy) (by rw [hb.2]; exact Bits.nil) (by rw [hb.2]; exact Bits.nil)
    have m0 : [] ∈ cqI.idx ([] : List QOb) := by simp [Interp.idx]
    have hg := eval_cq hcq hG [] m0 _ m1
    have hflat : flat (List.replicate (d.cod.count QOb.bit) QOb.bit) (enc (List.replicate (d.cod.count QOb.bit) QOb.bit) y [] []) = y := by
      rw [flat, a1, a2, a3]; simp
    have hencY : enc (List.replicate (d.cod.count QOb.bit) QOb.bit) y [] [] = y := by
      have : ∀ (k : Nat) (y : List Nat), y.length = k → enc (List.replicate k QOb.bit) y [] [] = y := by
        intro k
        induction k with
        | zero => intro y hy; rw [List.length_eq_zero_iff.1 hy]; rfl
        | succ k ih =>
          intro y hy
          cases y with
          | nil => simp at hy
          | cons a y => rw [List.replicate_succ, enc, ih y (by simpa using hy)]
      exact this _ y hy.1
    simp only at hg
    rw [hflat] at hg
    rw [hencY] at hg m1
    refine (show G y = _ from hg).trans ?_
    refine (show _ = _ from e9 y m1).trans ?_
    have hdq : d.dom = qubits d.dom.length := List.eq_replicate_iff.2 ⟨rfl, hd⟩
    have hz : List.replicate d.dom.length 0 ∈ cqI.idx d.dom := by
      rw [hdq, qubits_length]
      refine (cqI.mem_idx _ _).2 ?_
      generalize d.dom.length = n
      induction n with
      | zero => exact .nil
      | succ n ih => exact .cons (by show 0 < 4; omega) ih
    have hval : ∀ z ∈ cqI.idx d.cod, cqI.mat d (List.replicate d.dom.length 0) z =
        F ((List.replicate d.dom.length 0 ++ List.replicate d.dom.length 0) ++ (cOf d.cod z ++ (qOf d.cod z ++ rOf d.cod z))) := by
      intro z hz'
      rw [← eval_cq hdcq hF _ hz z hz']
      congr 2
      conv_lhs => rw [hdq, qubits_length]
      rw [zeros_flat]
    rw [Finset.sum_congr rfl (fun z hz => by rw [hval z hz])]
    refine (sum_cq d.cod (fun c q r => F ((List.replicate d.dom.length 0 ++ List.replicate d.dom.length 0) ++ (c ++ (q ++ r))) * if c = y ∧ q = r then 1 else 0)).trans ?_
    rw [Finset.sum_eq_single y]
    · refine Finset.sum_congr rfl (fun q hq => ?_)
      rw [Finset.sum_eq_single q]
      · simp
      · intro r _ hne; simp [Ne.symm hne]
      · intro h; exact absurd hq h
    · intro c _ hne
      refine Finset.sum_eq_zero (fun q _ => Finset.sum_eq_zero (fun r _ => by simp [hne]))
    · intro h; exact absurd (mem_allBits.2 hy) h

/-! ## Export of circuits that are not circuital -/

/-- Initialisation, post-selection and discarding of a qubit. -/
def Prep (b : QBox) : Prop := (∃ v, b = ket v) ∨ (∃ v, b = bra v) ∨ b = discard

/-- The gates that `t|ket⟩` knows, with controls that are all to the left, or with one or two controls that are all to the right. -/
def TkGate (b : QBox) : Prop :=
  b = swap .qubit .qubit ∨ (∃ c, b = scalar c) ∨ (∃ c, b = sqrt c) ∨ ∃ g ds t ps dg, b = nest g ds ∧ GateOf g ds t ps dg ∧ Stretchable ds

theorem TkGate.export {b : QBox} (h : TkGate b) : ExportGate b := by
  rcases h with h | h | h | ⟨g, ds, t, ps, dg, h1, h2, -⟩
  · exact .inl h
  · exact .inr (.inl h)
  · exact .inr (.inr (.inl h))
  · exact .inr (.inr (.inr ⟨g, ds, t, ps, dg, h1, h2⟩))

theorem GateOf.plain {g : QBox} {ds : List Int} {t : String} {ps : List ℝ} {dg : Bool} (h : GateOf g ds t ps dg) : g.ctrlDists = [] := by
  cases h <;> rfl

theorem GateOf.dists {g : QBox} {ds : List Int} {t : String} {ps : List ℝ} {dg : Bool} (h : GateOf g ds t ps dg) {ds' : List Int} (hl : ds'.length = ds.length)
    (hd : ∀ d ∈ ds', d ≠ 0) : GateOf g ds' t ps dg := by
  cases h
  case cx => obtain ⟨d, rfl⟩ := List.length_eq_one_iff.1 hl; exact .cx (hd d (by simp))
  case cz => obtain ⟨d, rfl⟩ := List.length_eq_one_iff.1 hl; exact .cz (hd d (by simp))
  case crx h1 h2 => obtain ⟨d, rfl⟩ := List.length_eq_one_iff.1 hl; exact .crx (hd d (by simp)) h2
  case crz h1 h2 => obtain ⟨d, rfl⟩ := List.length_eq_one_iff.1 hl; exact .crz (hd d (by simp)) h2
  case ccx =>
    match ds', hl with
    | [d, d'], _ => exact .ccx (hd d (by simp)) (hd d' (by simp))
  all_goals
    obtain rfl := List.length_eq_zero_iff.1 hl
    constructor
  all_goals assumption

theorem SameKind.exportGate {b b' : QBox} (h : SameKind b b') (hb : ExportGate b ∨ b = measure) : ExportGate b' ∨ b' = measure := by
  rcases h with rfl | ⟨g, ds, ds', rfl, rfl, hg, h1, h2, h3, h4, h5⟩
  · exact hb
  · cases ds with
    | nil => exact absurd rfl h1
    | cons d ds =>
      rcases hb with (hb | ⟨c, hb⟩ | ⟨c, hb⟩ | ⟨g0, ds0, t, ps, dg, hb, h6⟩) | hb
      · cases hb
      · cases hb
      · cases hb
      · obtain ⟨a1, a2⟩ := baseGate_nest h6.plain ds0
        obtain ⟨b1, b2⟩ := baseGate_nest h5 (d :: ds)
        rw [hb] at b1 b2
        rw [a1] at b1
        rw [a2] at b2
        subst b1 b2
        exact .inl (.inr (.inr (.inr ⟨g0, ds', t, ps, dg, rfl, h6.dists h2 h3⟩)))
      · cases hb

/-- Before the measurements all wires are qubits. -/
theorem left_qubits {ls : List (Layer QOb QBox)} {a c : List QOb} (hc : Chain a ls c) (ha : ∀ o ∈ a, o = QOb.qubit) (hl : ∀ l ∈ ls, Prep l.box ∨ TkGate l.box) :
    ∀ l ∈ ls, ∀ o ∈ l.left, o = QOb.qubit := by
  induction ls generalizing a with
  | nil => intro l hl'; cases hl'
  | cons l ls ih =>
    obtain ⟨rfl, hc⟩ := hc
    have hleft : ∀ o ∈ l.left, o = QOb.qubit := fun o ho => ha o (by simp [Layer.dom, ho])
    have hright : ∀ o ∈ l.right, o = QOb.qubit := fun o ho => ha o (by simp [Layer.dom, ho])
    have hcod : ∀ o ∈ l.box.cod, o = QOb.qubit := by
      rcases hl l (by simp) with (⟨v, h⟩ | ⟨v, h⟩ | h) | h
      · rw [h]; simp [cod, sig]
      · rw [h]; simp [cod, sig]
      · rw [h]; simp [cod, sig]
      · rcases h.export.pure with ⟨-, -, h⟩ | h
        · exact fun o ho => h o (by simp [ho])
        · rw [h]; simp [cod, sig]
    intro l' hl'
    rcases List.mem_cons.1 hl' with rfl | hl'
    · exact hleft
    · refine ih hc (fun o ho => ?_) (fun l hl' => hl l (List.mem_cons_of_mem _ hl')) l' hl'
      have ho : o ∈ l.left ++ l.box.cod ++ l.right := ho
      simp only [List.mem_append] at ho
      rcases ho with (ho | ho) | ho
      · exact hleft o ho
      · exact hcod o ho
      · exact hright o ho

theorem compilable_gate {l : Layer QOb QBox} (h : TkGate l.box) (hl : ∀ o ∈ l.left, o = QOb.qubit) : Compilable l := by
  rcases h with h | ⟨c, h⟩ | ⟨c, h⟩ | ⟨g, ds, t, ps, dg, h1, h2, h3⟩
  · exact .inr (.inr (.inr (.inr (.inl ⟨h, hl⟩))))
  · exact .inr (.inr (.inr (.inl (by rw [h]; exact ⟨.inl ⟨trivial, rfl, by simp [dom, cod, sig]⟩, by simp [dom, sig], by simp [dom, cod, sig]⟩))))
  · exact .inr (.inr (.inr (.inl (by rw [h]; exact ⟨.inl ⟨trivial, rfl, by simp [dom, cod, sig]⟩, by simp [dom, sig], by simp [dom, cod, sig]⟩))))
  · exact .inr (.inr (.inr (.inr (.inr ⟨g, ds, h1, h2.spec.1, h2.notMixed, h2.plain, h3⟩))))

theorem Prep.compilable {l : Layer QOb QBox} (h : Prep l.box) : Compilable l := by
  rcases h with h | h | h
  · exact .inl h
  · exact .inr (.inl h)
  · exact .inr (.inr (.inl h))

theorem split_measures {ls : List (Layer QOb QBox)} (h : ∀ l ∈ ls, ExportGate l.box ∨ l.box = measure) (hk : ∀ l ∈ ls, GateLayer l) (ho : ls.Pairwise MeasLast) :
    ∃ gs ms, ls = gs ++ ms ∧ (∀ l ∈ gs, ExportGate l.box) ∧ ∀ l ∈ ms, l.box = measure := by
  induction ls with
  | nil => exact ⟨[], [], rfl, by simp, by simp⟩
  | cons l ls ih =>
    obtain ⟨o1, o2⟩ := List.pairwise_cons.1 ho
    rcases h l (by simp) with hl | hl
    · obtain ⟨gs, ms, rfl, h1, h2⟩ := ih (fun l hl => h l (List.mem_cons_of_mem _ hl)) (fun l hl => hk l (List.mem_cons_of_mem _ hl)) o2
      refine ⟨l :: gs, ms, rfl, fun l' hl' => ?_, h2⟩
      rcases List.mem_cons.1 hl' with rfl | hl'
      · exact hl
      · exact h1 l' hl'
    · refine ⟨[], l :: ls, rfl, by simp, fun l' hl' => ?_⟩
      rcases List.mem_cons.1 hl' with rfl | hl'
      · exact hl
      · rcases h l' (List.mem_cons_of_mem _ hl') with h' | h'
        · have g := hk l' (List.mem_cons_of_mem _ hl')
          rcases o1 l' hl' (by rw [hl]; rfl) with h3 | h3 | h3
          · have := h'.isGate
            cases hb : l'.box <;> rw [hb] at h3 this <;> simp_all [isMeasure, QBox.isGate]
          · rw [g.2.2.2] at h3; cases h3
          · rw [g.2.2.1] at h3; cases h3
        · exact h'

theorem tailKind {bs rest : List (Layer QOb QBox)} (hb : ∀ l ∈ bs, l.box = ket false ∨ l.box = bra false ∨ l.box = discard ∨ l.box = measure)
    (hr : ∀ l ∈ rest, l.box = discard) {b : Layer QOb QBox} (h : b ∈ (bs ++ rest).flatMap ketbraLayer) :
    b.box.isMeasure = true ∨ b.box.isEnd = true ∨ b.box.isKet = true := by
  obtain ⟨l, h0, hl⟩ := List.mem_flatMap.1 h
  have hl2 : l.box = ket false ∨ l.box = bra false ∨ l.box = discard ∨ l.box = measure := by
    rcases List.mem_append.1 h0 with h0 | h0
    · exact hb l h0
    · exact .inr (.inr (.inl (hr l h0)))
  rcases mem_ketbra hl with ⟨h2, -⟩ | ⟨h2, -⟩ | ⟨-, h2⟩ | ⟨rfl, -⟩
  · rw [h2]; exact .inr (.inr rfl)
  · rw [h2]; exact .inr (.inl rfl)
  · exfalso
    rcases h2 with h2 | h2 <;> rw [h2] at hl2 <;> simp at hl2
  · rcases hl2 with h | h | h | h <;> rw [h]
    · exact .inr (.inr rfl)
    · exact .inr (.inl rfl)
    · exact .inr (.inl rfl)
    · exact .inl rfl

/-- What `to_circuital` returns for such a circuit can be exported, and has the same values. -/
theorem compiled_exportable {d : Diagram QOb QBox} (hw : d.WT) (hd : ∀ o ∈ d.dom, o = QOb.qubit) {as bs : List (Layer QOb QBox)} (hl : d.layers = as ++ bs)
    (ha : ∀ l ∈ as, Prep l.box ∨ TkGate l.box) (hb : ∀ l ∈ bs, l.box = ket false ∨ l.box = bra false ∨ l.box = discard ∨ l.box = measure)
    (hc : isCircuital d = false) :
    ∃ c n gs tl F G, toCircuital d = .ok c ∧ Exportable c n gs tl ∧ c.cod = List.replicate (d.cod.count .bit) .bit ∧ toTk d = toTkCircuital c ∧ eval d true = .ok F ∧ eval c true = .ok G ∧
      ∀ y, Bits (d.cod.count .bit) y → G y = ∑ s ∈ allBits (d.cod.count .qubit), F ((List.replicate d.dom.length 0 ++ List.replicate d.dom.length 0) ++ (y ++ (s ++ s))) := by
  have hcomp : ∀ l ∈ d.layers, Compilable l := by
    intro l h
    rw [hl] at h
    rcases List.mem_append.1 h with h | h
    · rcases ha l h with h' | h'
      · exact h'.compilable
      · have hch : Chain d.dom (as ++ bs) d.cod := by rw [← hl]; exact hw
        obtain ⟨m, h1, -⟩ := chain_append_iff.1 hch
        exact compilable_gate h' (left_qubits h1 hd ha l h)
    · rcases hb l h with h' | h' | h' | h'
      · exact .inl ⟨_, h'⟩
      · exact .inr (.inl ⟨_, h'⟩)
      · exact .inr (.inr (.inl h'))
      · exact .inr (.inr (.inr (.inl (by rw [h']; exact ⟨.inr (.inl rfl), by simp [dom, sig], by simp [dom, cod, sig]⟩))))
  have hne : d.dom ≠ [] ∨ d.layers ≠ [] := by
    by_contra h
    push_neg at h
    rw [(C51_circuital d).2 ⟨h.1, [], [], h.2, by simp, by simp, by simp⟩] at hc
    cases hc
  obtain ⟨n, gs, ps, rest, e1, e2, e3, e4, e5, e6, e7, e8, e9⟩ := toCircuital_spec hw hd hcomp hne
  obtain ⟨c, F, G, f1, -, f3, f4, f5, f6, f7, f8⟩ := C84_to_circuital hw hd hcomp hne
  cases e1.symm.trans f1
  have hbox : ∀ l ∈ (initPart d.dom).layers ++ (d.layers ++ rest), Prep l.box ∨ TkGate l.box ∨ l.box = measure := by
    intro l h
    rcases List.mem_append.1 h with h | h
    · exact .inl (.inl ⟨_, e7 l h⟩)
    · rcases List.mem_append.1 h with h | h
      · rw [hl] at h
        rcases List.mem_append.1 h with h | h
        · exact (ha l h).imp_right .inl
        · rcases hb l h with h' | h' | h' | h'
          · exact .inl (.inl ⟨_, h'⟩)
          · exact .inl (.inr (.inl ⟨_, h'⟩))
          · exact .inl (.inr (.inr h'))
          · exact .inr (.inr h')
      · exact .inl (.inr (.inr (e6 l h)))
  have hgates : ∀ l ∈ gs, ExportGate l.box ∨ l.box = measure := by
    rw [e5]
    refine circLoop_inv (P := fun b => ExportGate b ∨ b = measure) (fun b b' h hb => h.exportGate hb) [] [] [] _ (by simp) (fun l hl => ?_)
    refine ⟨(ketbra_circ e8 l hl).pullable, ?_⟩
    obtain ⟨l0, h0, hl'⟩ := List.mem_flatMap.1 hl
    rcases mem_ketbra hl' with ⟨h1, -⟩ | ⟨h1, -⟩ | ⟨h1, -⟩ | ⟨rfl, h1, h2⟩
    · rw [h1]; exact .inl rfl
    · rw [h1]; exact .inr (.inl rfl)
    · rw [h1]; exact .inr (.inr (.inl (.inr (.inr (.inr ⟨X, [], _, _, _, rfl, .x⟩)))))
    · rcases hbox l h0 with (⟨v, h3⟩ | ⟨v, h3⟩ | h3) | h3 | h3
      · exact absurd h3 (h1 v)
      · exact absurd h3 (h2 v)
      · rw [h3]; exact .inr (.inl rfl)
      · exact .inr (.inr (.inl h3.export))
      · exact .inr (.inr (.inr h3))
  have horder : gs.Pairwise MeasLast := by
    rw [e5]
    refine circLoop_order [] [] [] _ (fun l hl => (ketbra_circ e8 l (by simpa using hl)).pullable) ?_
    rw [List.nil_append, ← List.append_assoc, hl, ← List.append_assoc, List.append_assoc, List.flatMap_append]
    refine List.pairwise_append.2 ⟨?_, ?_, ?_⟩
    · refine List.Pairwise.imp_of_mem (fun {a b} h1 _ (_ : True) hm => ?_) (List.pairwise_of_forall (fun _ _ => trivial))
      exfalso
      obtain ⟨l0, h0, hl'⟩ := List.mem_flatMap.1 h1
      rcases mem_ketbra hl' with ⟨h2, -⟩ | ⟨h2, -⟩ | ⟨h2, -⟩ | ⟨rfl, -⟩
      · rw [h2] at hm; cases hm
      · rw [h2] at hm; cases hm
      · rw [h2] at hm; cases hm
      · rcases List.mem_append.1 h0 with h0 | h0
        · rw [e7 a h0] at hm; cases hm
        · rcases ha a h0 with (⟨v, h⟩ | ⟨v, h⟩ | h) | h
          · rw [h] at hm; cases hm
          · rw [h] at hm; cases hm
          · rw [h] at hm; cases hm
          · have := h.export.isGate
            cases hbx : a.box <;> rw [hbx] at this hm <;> simp_all [isMeasure, QBox.isGate]
    · refine List.Pairwise.imp_of_mem (fun {a b} _ h1 (_ : True) _ => ?_) (List.pairwise_of_forall (fun _ _ => trivial))
      exact tailKind hb e6 h1
    · intro a _ b h1 _
      exact tailKind hb e6 h1
  obtain ⟨gs', ms, rfl, g1, g2⟩ := split_measures hgates e3 horder
  have hexp : Exportable (⟨[], List.replicate (d.cod.count .bit) .bit, ketLayers 0 n ++ ((gs' ++ ms) ++ ps)⟩ : Diagram QOb QBox) n gs' (ms ++ ps) := by
    refine ⟨by simp, rfl, e2, g1, fun l hl => ?_⟩
    rcases List.mem_append.1 hl with h | h
    · exact .inl (g2 l h)
    · rcases e4 l h with h | h
      · exact .inr (.inr ⟨_, h⟩)
      · exact .inr (.inl h)
  exact ⟨_, n, gs', ms ++ ps, F, G, e1, hexp, rfl, by rw [toTk, hc, e1]; rfl, f6, f7, f8⟩

/-- **C84 (export of any circuit).** Let a circuit on qubits consist of the gates that `t|ket⟩` knows, initialisations, post-selections and discards of single
qubits, followed by measurements (and initialisations with 0, post-selections of 0 and discards). If it is not circuital then `to_tk` succeeds, and the
returned circuit, run on a quantum computer, gives the values of the original circuit (with inputs 0 and output qubits traced out): for every assignment `β` of
its bits that agrees with the post-selections and with the output `y`, the scalar times the probability of `β` is the value at `y`. -/
theorem C84_to_tk {d : Diagram QOb QBox} (hw : d.WT) (hd : ∀ o ∈ d.dom, o = QOb.qubit) {as bs : List (Layer QOb QBox)} (hl : d.layers = as ++ bs)
    (ha : ∀ l ∈ as, Prep l.box ∨ TkGate l.box) (hb : ∀ l ∈ bs, l.box = ket false ∨ l.box = bra false ∨ l.box = discard ∨ l.box = measure)
    (hc : isCircuital d = false) :
    ∃ tk F, toTk d = .ok tk ∧ eval d true = .ok F ∧
      tk.measures.map Prod.snd = List.range tk.nBits ∧ (tk.measures.map Prod.fst).Nodup ∧ (∀ q ∈ tk.measures.map Prod.fst, q < tk.nQubits) ∧
      (tk.postSelection.map Prod.fst).Nodup ∧ (∀ q ∈ tk.postSelection.map Prod.fst, q ∈ tk.measures.map Prod.fst) ∧
      (openQubits tk).length = d.cod.count .bit ∧
      ∀ β y, Bits tk.nBits β → Bits (d.cod.count .bit) y →
        (∀ p ∈ tk.postSelection, ∀ i, (p.1, i) ∈ tk.measures → β.getD i 0 = p.2) →
        (∀ j q i, (openQubits tk)[j]? = some q → (q, i) ∈ tk.measures → β.getD i 0 = y.getD j 0) →
        ∑ s ∈ allBits (d.cod.count .qubit), F ((List.replicate d.dom.length 0 ++ List.replicate d.dom.length 0) ++ (y ++ (s ++ s))) = (tk.scalar * tk.prob β : ℝ) := by
  obtain ⟨c, n, gs, tl, F, G, e1, hexp, hcod, htk, f6, f7, f8⟩ := compiled_exportable hw hd hl ha hb hc
  obtain ⟨tk, G', t1, t2, t3, t4, t5, t6, t7, t8, t9, t10⟩ := C51_export hexp hcod
  cases t2.symm.trans f7
  refine ⟨tk, F, htk.trans t1, f6, t4, t5, by rw [t3]; exact t6, t7, t8, t9, fun β y hβ hy h1 h2 => ?_⟩
  rw [← f8 y hy]
  exact t10 β y hβ hy h1 h2

end
end QBox
end Lambeq
