import Verif.Quantum.MixedEval
import Verif.Quantum.Structural

/-!
# Mixed evaluation of circuits (C74): the theorems

The value of a circuit with bits and qubits has one axis for each bit and two for each qubit of the domain and of the codomain: first the bits `c`,
then the qubits `q`, then the second copies `r` of the qubits.
-/

namespace Lambeq
open Diagram
set_option linter.unusedSectionVars false
set_option linter.unusedSimpArgs false

theorem TnCat.expandLoop_layers {O B R : Type} [BoxSig B O] [DecidableEq O] (C : TnCat O B R) (ls : List (Layer O B)) (acc diag : Diagram O B)
    (h : C.expandLoop acc ls = .ok diag) :
    diag.layers = acc.layers ++ (ls.map (fun l => ((C.decompose l.box).getD (ofBox l.box)).layers.map (Layer.extend l.left l.right))).flatten := by
  induction ls generalizing acc with
  | nil => cases h; simp
  | cons l ls ih =>
    rw [TnCat.expandLoop] at h
    split at h
    · cases h
    · rename_i acc' ha
      rw [ih acc' h]
      obtain ⟨_, rfl⟩ := andThen_ok_iff.1 ha
      simp [tensor_layers, Diagram.id, Layer.extend, Function.comp_def]

namespace QBox
noncomputable section

/-- A circuit that mixed evaluation handles. -/
structure CQOK (d : Diagram QOb QBox) : Prop where
  wt : d.WT
  boxes : ∀ l ∈ d.layers, CQBox l.box ∧ Balanced l

theorem cqBox_controlled {u : QBox} {k : Int} (h : CQBox (controlled u k)) :
    (controlled u k).Good ∧ (controlled u k).isMixed = false ∧ u.isMixed = false ∧ CQBox (controlled u 1) := by
  rcases h with ⟨hg, hm, hq⟩ | h | h | h | h | h | h | ⟨h, a, ha, hsh⟩
  · refine ⟨hg, hm, hm, .inl ⟨⟨by decide, hg.2⟩, hm, ?_⟩⟩
    intro o ho
    rcases List.mem_append.1 ho with ho | ho <;> exact (List.mem_replicate.1 ho).2
  all_goals first | cases ha | cases h

theorem qubits_controlled (u : QBox) (k : Int) : ∀ o ∈ (controlled u k).dom ++ (controlled u k).cod, o = QOb.qubit := by
  intro o ho
  rcases List.mem_append.1 ho with ho | ho <;> exact (List.mem_replicate.1 ho).2

/-- The decomposition of a controlled gate denotes the mixed tensor of the gate. -/
theorem cq_dec_sem {u : QBox} {k : Int} (h : CQBox (controlled u k)) {e : Diagram QOb QBox} (he : decompose u k = .ok e) :
    ∀ x ∈ cqI.idx e.dom, ∀ y ∈ cqI.idx e.cod, cqI.mat e x y = cqI.ten (controlled u k) x y := by
  obtain ⟨hg, hm, hmu, h1⟩ := cqBox_controlled h
  obtain ⟨e', he', hdom, hcod, hw, hbx, _⟩ := decompose_spec u k hg.1
  obtain rfl : e = e' := by rw [he] at he'; exact Except.ok.inj he'
  have hd := dbl_good hg hm (qubits_controlled u k)
  have hd1 : Dbl (controlled u 1) := dbl_good (b := controlled u 1) ⟨by decide, hg.2⟩ hmu (qubits_controlled u 1)
  have hb : ∀ l ∈ e.layers, Dbl l.box := by
    intro l hl
    rcases hbx l.box (List.mem_map.2 ⟨l, hl, rfl⟩) with h | h <;> rw [h]
    · exact hd1
    · exact dbl_swap
  have hq : ∀ o ∈ e.dom, o = QOb.qubit := by rw [hdom]; exact fun o ho => hd.1 o (List.mem_append_left _ ho)
  intro x hx y hy
  rw [(mat_double hw hq hb).2 x hx y hy]
  obtain ⟨_, x2, x3⟩ := bits_of hx
  obtain ⟨_, y2, y3⟩ := bits_of hy
  have hq' := (mat_double hw hq hb).1
  rw [(count_qubits hq).2] at x2 x3
  rw [(count_qubits hq').2] at y2 y3
  rw [dec_sem hg he _ ((mem_idxQ dim_tn).2 x2) _ ((mem_idxQ dim_tn).2 y2), dec_sem hg he _ ((mem_idxQ dim_tn).2 x3) _ ((mem_idxQ dim_tn).2 y3)]
  rw [hdom] at hx ⊢
  rw [hcod] at hy ⊢
  exact (hd.2 x hx y hy).symm

theorem decompose_none {b : QBox} (hb : ∀ u k, b ≠ controlled u k) : tnCat.decompose b = none := by
  cases b with
  | controlled u k => exact absurd rfl (hb u k)
  | _ => rfl

theorem cqEval_spec {d : Diagram QOb QBox} (h : CQOK d) :
    ∃ F, cqEval d = .ok F ∧ ∀ x ∈ cqI.idx d.dom, ∀ y ∈ cqI.idx d.cod, F (flat d.dom x ++ flat d.cod y) = cqI.mat d x y := by
  have hdt : ∀ l ∈ d.layers, tnCat.DecTyped l.box := by
    intro l hl
    refine tnCat_std.decTyped _ (fun u k e => ?_)
    have := (h.boxes l hl).1
    rw [e] at this
    exact (cqBox_controlled this).1.1
  obtain ⟨diag, g1, g2, g3, g4, _, g6⟩ := tnCat.expandLoop_spec d.layers (Diagram.id d.dom) d.cod rfl h.wt hdt
  have g2 : diag.dom = d.dom := g2
  have hlay := tnCat.expandLoop_layers _ _ _ g1
  have hb : ∀ l ∈ diag.layers, CQBox l.box ∧ Balanced l := by
    intro l hl
    rw [hlay] at hl
    simp only [Diagram.id, List.nil_append, List.mem_flatten, List.mem_map] at hl
    obtain ⟨ls, ⟨m, hm, rfl⟩, hl⟩ := hl
    obtain ⟨l0, hl0, rfl⟩ := List.mem_map.1 hl
    have hbm := h.boxes m hm
    by_cases hc : ∃ u k, m.box = controlled u k
    · obtain ⟨u, k, e⟩ := hc
      rw [e] at hbm hl0
      obtain ⟨hg, hmx, hmu, h1⟩ := cqBox_controlled hbm.1
      obtain ⟨e0, he0, hd0⟩ := tnCat_std.dec (u := u) hg.1
      rw [he0] at hl0
      obtain ⟨e1, he1, _, _, _, hbx, _⟩ := decompose_spec u k hg.1
      obtain rfl : e0 = e1 := by rw [hd0] at he1; exact Except.ok.inj he1
      have hb0 : l0.box = controlled u 1 ∨ l0.box = swap .qubit .qubit := hbx l0.box (List.mem_map.2 ⟨l0, hl0, rfl⟩)
      have : (Layer.extend m.left m.right l0).box = l0.box := rfl
      rw [this]
      refine ⟨?_, fun hs => ?_⟩
      · rcases hb0 with hb0 | hb0 <;> rw [hb0]
        · exact h1
        · exact .inr (.inr (.inr (.inr (.inr (.inl rfl)))))
      · rw [this] at hs
        rcases hb0 with hb0 | hb0 <;> rw [hb0] at hs <;> cases hs
    · rw [decompose_none (fun u k e => hc ⟨u, k, e⟩)] at hl0
      simp only [Option.getD_none, ofBox, List.mem_singleton] at hl0
      subst hl0
      refine ⟨hbm.1, fun hs => ?_⟩
      have := hbm.2 hs
      simpa [Layer.extend] using this
  have hch : Chain d.dom diag.layers d.cod := by
    have : Chain diag.dom diag.layers diag.cod := g4
    rwa [g2, g3] at this
  obtain ⟨st', e1, i1, v1⟩ := cqLoop_spec diag.layers (cqInit_inv d.dom) hch hb
  refine ⟨st'.net.contract (TnCat.inLegs (axes d.dom) ++ (st'.c ++ (st'.q1 ++ st'.q2))), ?_, fun x hx y hy => ?_⟩
  · simp only [cqEval, cqTn, g1, g2, e1]
    rfl
  · have hlx : (TnCat.inLegs (axes d.dom)).length = (flat d.dom x).length := by rw [(flat_bits hx).1]; simp [TnCat.inLegs, axes]
    have hv := v1 (flat d.dom x) y hlx hy
    obtain ⟨y1, y2, y3⟩ := bits_of hy
    rw [CQState.V, Net.P] at hv
    simp only [List.map_append, map_fst_zip' _ _ (i1.lc.trans y1.1.symm), map_snd_zip' _ _ (i1.lc.trans y1.1.symm),
      map_fst_zip' _ _ (i1.l1.trans y2.1.symm), map_snd_zip' _ _ (i1.l1.trans y2.1.symm),
      map_fst_zip' _ _ (i1.l2.trans y3.1.symm), map_snd_zip' _ _ (i1.l2.trans y3.1.symm)] at hv
    rw [Net.W] at hv
    refine hv.trans ?_
    rw [Interp.mat]
    refine Eq.trans (cqI.run_congr hch (fun z hz => cqInit_V hx hz) y hy) (g6 cqI ?_ _ y hy)
    intro l hl e he
    by_cases hc : ∃ u k, l.box = controlled u k
    · obtain ⟨u, k, e'⟩ := hc
      have hbm := (h.boxes l hl).1
      rw [e'] at hbm he ⊢
      obtain ⟨hg, _⟩ := cqBox_controlled hbm
      obtain ⟨e0, he0, hd0⟩ := tnCat_std.dec (u := u) hg.1
      obtain rfl : e = e0 := by rw [he] at he0; exact Option.some.inj he0
      exact cq_dec_sem hbm hd0
    · rw [decompose_none (fun u k e => hc ⟨u, k, e⟩)] at he; cases he

/-! ## Plumbing -/

theorem flat_enc {t : List QOb} {c q r : List Nat} (hc : Bits (t.count .bit) c) (hq : Bits (t.count .qubit) q) (hr : Bits (t.count .qubit) r) :
    flat t (enc t c q r) = c ++ (q ++ r) := by
  obtain ⟨_, h1, h2, h3⟩ := enc_spec hc hq hr
  rw [flat, h1, h2, h3]

theorem exists_flat {t : List QOb} {w : List Nat} (h : Bits (axes t) w) : ∃ s ∈ cqI.idx t, flat t s = w := by
  obtain ⟨c, w, rfl, hc, hw⟩ := h.split
  obtain ⟨q, r, rfl, hq, hr⟩ := hw.split
  exact ⟨enc t c q r, (enc_spec hc hq hr).1, flat_enc hc hq hr⟩

theorem CQOK.comp {f g h : Diagram QOb QBox} (hf : CQOK f) (hg : CQOK g) (hc : andThen f g = .ok h) : CQOK h := by
  obtain ⟨h1, rfl⟩ := andThen_ok_iff.1 hc
  refine ⟨TnCat.chain_append hf.wt (h1 ▸ hg.wt), fun l hl => ?_⟩
  rcases List.mem_append.1 hl with hl | hl
  exacts [hf.boxes l hl, hg.boxes l hl]

/-- Circuits side by side: the second has no swaps of bits, or the codomain of the first has as many bits as qubits. -/
theorem CQOK.tensor {f g : Diagram QOb QBox} (hf : CQOK f) (hg : CQOK g)
    (hs : (∀ l ∈ g.layers, l.box ≠ swap .bit .bit) ∨ f.cod.count .bit = f.cod.count .qubit) : CQOK (tensor f g) := by
  refine ⟨?_, fun l hl => ?_⟩
  · rw [Diagram.WT, tensor_dom, tensor_cod, tensor_layers]
    have h1 := TnCat.chain_extend [] g.dom hf.wt
    have h2 := TnCat.chain_extend f.cod [] hg.wt
    simp only [List.nil_append, List.append_nil] at h1 h2
    exact TnCat.chain_append h1 h2
  · rw [tensor_layers] at hl
    rcases List.mem_append.1 hl with hl | hl
    · obtain ⟨l', h', rfl⟩ := List.mem_map.1 hl
      refine ⟨(hf.boxes l' h').1, fun e => ?_⟩
      have := (hf.boxes l' h').2 e
      simpa [Layer.extend] using this
    · obtain ⟨l', h', rfl⟩ := List.mem_map.1 hl
      refine ⟨(hg.boxes l' h').1, fun e => ?_⟩
      have := (hg.boxes l' h').2 e
      rcases hs with hs | hs
      · exact absurd e (hs l' h')
      · simpa [Layer.extend, List.count_append, hs] using this

theorem CQOK.ofId (t : List QOb) : CQOK (Diagram.id t) := ⟨rfl, by simp [Diagram.id]⟩

theorem CQOK.ofBox {b : QBox} (h : CQBox b) : CQOK (ofBox b : Diagram QOb QBox) :=
  ⟨by simp [Diagram.ofBox, Diagram.WT, Chain, Layer.dom, Layer.cod], by simpa [Diagram.ofBox, Balanced] using h⟩

/-! ## C74 -/

/-- **C74 (totality).** -/
theorem C74_total {d : Diagram QOb QBox} (h : CQOK d) : ∃ F, eval d true = .ok F := let ⟨F, f, _⟩ := cqEval_spec h; ⟨F, f⟩

/-- A circuit that has mixed boxes, or both bits and qubits at its ends, is evaluated as a mixed circuit whatever the flag. -/
theorem C74_flag (d : Diagram QOb QBox) (m : Bool) (h : mixedDiagram d = true) : eval d m = eval d true := by
  cases m <;> simp [eval, h]

theorem eval_cq {d : Diagram QOb QBox} (h : CQOK d) {F : List Nat → ℂ} (hF : eval d true = .ok F) :
    ∀ x ∈ cqI.idx d.dom, ∀ y ∈ cqI.idx d.cod, F (flat d.dom x ++ flat d.cod y) = cqI.mat d x y := by
  obtain ⟨G, g1, g2⟩ := cqEval_spec h
  cases g1.symm.trans hF
  exact g2

/-- **C74 (identity).** -/
theorem C74_id (t : List QOb) {F : List Nat → ℂ} (hF : eval (Diagram.id t) true = .ok F) :
    ∀ x y, Bits (axes t) x → Bits (axes t) y → F (x ++ y) = if x = y then 1 else 0 := by
  intro x y hx hy
  obtain ⟨s, hs, rfl⟩ := exists_flat hx
  obtain ⟨s', hs', rfl⟩ := exists_flat hy
  refine (eval_cq (CQOK.ofId t) hF s hs s' hs').trans ?_
  show (if s' = s then (1 : ℂ) else 0) = _
  refine if_congr ⟨fun h => by rw [h], fun h => ?_⟩ rfl rfl
  obtain ⟨x1, x2, x3⟩ := bits_of hs
  obtain ⟨y1, y2, y3⟩ := bits_of hs'
  obtain ⟨e1, e⟩ := List.append_inj h (by rw [x1.1, y1.1])
  obtain ⟨e2, e3⟩ := List.append_inj e (by rw [x2.1, y2.1])
  exact (of_inj hs hs' e1 e2 e3).symm

/-- **C74 (composition).** `f >> g` evaluates to the product of the values, summed over all the axes of the wires between them. -/
theorem C74_comp {f g h : Diagram QOb QBox} (hf : CQOK f) (hg : CQOK g) (hc : andThen f g = .ok h) {F G H : List Nat → ℂ}
    (hF : eval f true = .ok F) (hG : eval g true = .ok G) (hH : eval h true = .ok H) :
    ∀ x z, Bits (axes f.dom) x → Bits (axes g.cod) z → H (x ++ z) = ∑ y ∈ allBits (axes f.cod), F (x ++ y) * G (y ++ z) := by
  intro x z hx hz
  obtain ⟨h1, e⟩ := andThen_ok_iff.1 hc
  have hdom : h.dom = f.dom := by rw [e]
  have hcod : h.cod = g.cod := by rw [e]
  obtain ⟨s, hs, rfl⟩ := exists_flat hx
  obtain ⟨s', hs', rfl⟩ := exists_flat hz
  have := eval_cq (hf.comp hg hc) hH s (by rw [hdom]; exact hs) s' (by rw [hcod]; exact hs')
  rw [hdom, hcod] at this
  rw [this, cqI.mat_comp hg.wt hc s hs']
  have hsum := sum_flat f.cod (fun y => F (flat f.dom s ++ y) * G (y ++ flat g.cod s'))
  refine Eq.trans ?_ hsum
  refine Finset.sum_congr rfl (fun y hy => ?_)
  rw [eval_cq hf hF s hs y hy]
  have hy' : y ∈ cqI.idx g.dom := by rw [← h1]; exact hy
  have := eval_cq hg hG y hy' s' hs'
  rw [← h1] at this
  rw [this]

/-- **C74 (tensor).** `f @ g` evaluates to the product of the values, with the bits, the qubits and their second copies of the two circuits
side by side. -/
theorem C74_tensor {f g : Diagram QOb QBox} (hf : CQOK f) (hg : CQOK g) (hfg : CQOK (tensor f g)) {F G H : List Nat → ℂ}
    (hF : eval f true = .ok F) (hG : eval g true = .ok G) (hH : eval (tensor f g) true = .ok H) :
    ∀ c q r c' q' r' d s t d' s' t', Bits (f.dom.count .bit) c → Bits (f.dom.count .qubit) q → Bits (f.dom.count .qubit) r →
      Bits (g.dom.count .bit) c' → Bits (g.dom.count .qubit) q' → Bits (g.dom.count .qubit) r' →
      Bits (f.cod.count .bit) d → Bits (f.cod.count .qubit) s → Bits (f.cod.count .qubit) t →
      Bits (g.cod.count .bit) d' → Bits (g.cod.count .qubit) s' → Bits (g.cod.count .qubit) t' →
      H (((c ++ c') ++ ((q ++ q') ++ (r ++ r'))) ++ ((d ++ d') ++ ((s ++ s') ++ (t ++ t')))) =
        F ((c ++ (q ++ r)) ++ (d ++ (s ++ t))) * G ((c' ++ (q' ++ r')) ++ (d' ++ (s' ++ t'))) := by
  intro c q r c' q' r' d s t d' s' t' hc hq hr hc' hq' hr' hd hs ht hd' hs' ht'
  obtain ⟨m1, a1, a2, a3⟩ := enc_spec hc hq hr
  obtain ⟨m2, b1, b2, b3⟩ := enc_spec hc' hq' hr'
  obtain ⟨m3, c1, c2, c3⟩ := enc_spec hd hs ht
  obtain ⟨m4, d1, d2, d3⟩ := enc_spec hd' hs' ht'
  have key := eval_cq hfg hH (enc f.dom c q r ++ enc g.dom c' q' r') (by rw [tensor_dom]; exact cqI.append_mem m1 m2)
    (enc f.cod d s t ++ enc g.cod d' s' t') (by rw [tensor_cod]; exact cqI.append_mem m3 m4)
  obtain ⟨e1, e2, e3⟩ := of_append (t := f.dom) (t' := g.dom) (s := enc f.dom c q r) (s' := enc g.dom c' q' r') (cqI.length_of_mem m1)
  obtain ⟨f1, f2, f3⟩ := of_append (t := f.cod) (t' := g.cod) (s := enc f.cod d s t) (s' := enc g.cod d' s' t') (cqI.length_of_mem m3)
  rw [tensor_dom, tensor_cod, flat, flat, e1, e2, e3, f1, f2, f3, a1, a2, a3, b1, b2, b3, c1, c2, c3, d1, d2, d3,
    cqI.mat_tensor hf.wt hg.wt m1 m2 m3 m4] at key
  rw [key, ← eval_cq hf hF _ m1 _ m3, ← eval_cq hg hG _ m2 _ m4, flat_enc hc hq hr, flat_enc hd hs ht, flat_enc hc' hq' hr', flat_enc hd' hs' ht']

/-! ## The boxes -/

theorem eval_box {b : QBox} (h : CQBox b) {F : List Nat → ℂ} (hF : eval (ofBox b) true = .ok F) {c q r d s t : List Nat}
    (hc : Bits (b.dom.count .bit) c) (hq : Bits (b.dom.count .qubit) q) (hr : Bits (b.dom.count .qubit) r)
    (hd : Bits (b.cod.count .bit) d) (hs : Bits (b.cod.count .qubit) s) (ht : Bits (b.cod.count .qubit) t) :
    F ((c ++ (q ++ r)) ++ (d ++ (s ++ t))) = cqI.ten b (enc b.dom c q r) (enc b.cod d s t) := by
  obtain ⟨m1, a1, a2, a3⟩ := enc_spec hc hq hr
  obtain ⟨m2, b1, b2, b3⟩ := enc_spec hd hs ht
  rw [← cqI.mat_ofBox b m1 m2, ← flat_enc hc hq hr, ← flat_enc hd hs ht]
  exact eval_cq (CQOK.ofBox h) hF _ m1 _ m2

/-- **C74 (pure boxes).** A pure box acts on both copies of its qubits, on the second with the conjugate of its array. -/
theorem C74_box {b : QBox} (hg : b.Good) (hm : b.isMixed = false) (hb : ∀ o ∈ b.dom ++ b.cod, o = QOb.qubit) {F : List Nat → ℂ}
    (hF : eval (ofBox b) true = .ok F) : ∃ a, b.array = .ok a ∧ ∀ q r s t, Bits b.dom.length q → Bits b.dom.length r → Bits b.cod.length s → Bits b.cod.length t →
      F ((q ++ r) ++ (s ++ t)) = a.get (q ++ s) * star (a.get (r ++ t)) := by
  obtain ⟨a, ea, _⟩ := hg.array_ok
  refine ⟨a, ea, fun q r s t hq hr hs ht => ?_⟩
  have hdq := count_qubits (t := b.dom) (fun o ho => hb o (List.mem_append_left _ ho))
  have hcq := count_qubits (t := b.cod) (fun o ho => hb o (List.mem_append_right _ ho))
  have n0 : Bits (b.dom.count .bit) [] := by rw [hdq.1]; exact Bits.nil
  have n1 : Bits (b.cod.count .bit) [] := by rw [hcq.1]; exact Bits.nil
  rw [← hdq.2] at hq hr
  rw [← hcq.2] at hs ht
  have h := eval_box (.inl ⟨hg, hm, hb⟩) hF n0 hq hr n1 hs ht
  simp only [List.nil_append] at h
  obtain ⟨m1, a1, a2, a3⟩ := enc_spec n0 hq hr
  obtain ⟨m2, b1, b2, b3⟩ := enc_spec n1 hs ht
  rw [h, (dbl_good hg hm hb).2 _ m1 _ m2, a2, a3, b2, b3, tnCat_std.ten hg.kind ea, tnCat_std.ten hg.kind ea]

theorem get_copyArray_three {a b c : Nat} (ha : a < 2) (hb : b < 2) (hc : c < 2) : (copyArray ℂ 3 2).get [a, b, c] = if a = c ∧ b = c then 1 else 0 := by
  rw [copyArray, NdArray.get_ofFn (List.replicate 3 2) _ (show InShape (List.replicate 3 2) [a, b, c] from .cons ha (.cons hb (.cons hc .nil)))]
  refine if_congr ?_ rfl rfl
  exact ⟨fun h => ⟨h a (by simp) c (by simp), h b (by simp) c (by simp)⟩, fun ⟨h1, h2⟩ => by subst h1; subst h2; simp⟩

/-- **C74 (Measure).** Measuring keeps the diagonal: outcome `c` from both copies equal to `c`. -/
theorem C74_measure {F : List Nat → ℂ} (hF : eval (ofBox measure) true = .ok F) :
    ∀ q r c, q < 2 → r < 2 → c < 2 → F [q, r, c] = if q = c ∧ r = c then 1 else 0 := by
  intro q r c hq hr hc
  have h := eval_box (b := measure) (.inr (.inl rfl)) hF (c := []) (q := [q]) (r := [r]) (d := [c]) (s := []) (t := []) Bits.nil (Bits.one hq) (Bits.one hr)
    (Bits.one hc) Bits.nil Bits.nil
  refine h.trans ?_
  show (copyArray ℂ 3 2).get [(2 * q + r) / 2, (2 * q + r) % 2, c] = _
  rw [show (2 * q + r) / 2 = q by omega, show (2 * q + r) % 2 = r by omega, get_copyArray_three hq hr hc]

/-- **C74 (Encode).** Encoding prepares the basis state of the bit. -/
theorem C74_encode {F : List Nat → ℂ} (hF : eval (ofBox encode) true = .ok F) :
    ∀ q r c, q < 2 → r < 2 → c < 2 → F [c, q, r] = if q = c ∧ r = c then 1 else 0 := by
  intro q r c hq hr hc
  have h := eval_box (b := encode) (.inr (.inr (.inl rfl))) hF (c := [c]) (q := []) (r := []) (d := []) (s := [q]) (t := [r]) (Bits.one hc) Bits.nil Bits.nil
    Bits.nil (Bits.one hq) (Bits.one hr)
  refine h.trans ?_
  show (copyArray ℂ 3 2).get [c, (2 * q + r) / 2, (2 * q + r) % 2] = _
  rw [show (2 * q + r) / 2 = q by omega, show (2 * q + r) % 2 = r by omega, get_copyArray_three hc hq hr]
  exact if_congr (by omega) rfl rfl

/-- **C74 (Discard).** Discarding pairs the two copies of the qubit. -/
theorem C74_discard {F : List Nat → ℂ} (hF : eval (ofBox discard) true = .ok F) :
    ∀ q r, q < 2 → r < 2 → F [q, r] = if q = r then 1 else 0 := by
  intro q r hq hr
  have h := eval_box (b := discard) (.inr (.inr (.inr (.inl rfl)))) hF (c := []) (q := [q]) (r := [r]) (d := []) (s := []) (t := []) Bits.nil (Bits.one hq) (Bits.one hr)
    Bits.nil Bits.nil Bits.nil
  refine h.trans ?_
  show (copyArray ℂ 2 2).get [(2 * q + r) / 2, (2 * q + r) % 2] = _
  rw [show (2 * q + r) / 2 = q by omega, show (2 * q + r) % 2 = r by omega, TnCat.get_copyArray_two _ _ _ hq hr]
  exact if_congr eq_comm rfl rfl

/-- **C74 (MixedState).** The (unnormalised) maximally mixed state. -/
theorem C74_mixedState {F : List Nat → ℂ} (hF : eval (ofBox mixedState) true = .ok F) :
    ∀ q r, q < 2 → r < 2 → F [q, r] = if q = r then 1 else 0 := by
  intro q r hq hr
  have h := eval_box (b := mixedState) (.inr (.inr (.inr (.inr (.inl rfl))))) hF (c := []) (q := []) (r := []) (d := []) (s := [q]) (t := [r]) Bits.nil Bits.nil Bits.nil
    Bits.nil (Bits.one hq) (Bits.one hr)
  refine h.trans ?_
  show (copyArray ℂ 2 2).get [(2 * q + r) / 2, (2 * q + r) % 2] = _
  rw [show (2 * q + r) / 2 = q by omega, show (2 * q + r) % 2 = r by omega, TnCat.get_copyArray_two _ _ _ hq hr]
  exact if_congr eq_comm rfl rfl

/-- **C74 (mixed boxes).** A box made with `is_mixed=True` has its data as value, with the axes in the order bits, qubits, second copies of the
qubits for the domain and then for the codomain. -/
theorem C74_mixedBox {b : QBox} {a : NdArray ℂ} (hm : b.isMixed = true) (ha : b.mixedData = some a) (hs : a.shape = List.replicate (axes b.dom + axes b.cod) 2)
    {F : List Nat → ℂ} (hF : eval (ofBox b) true = .ok F) :
    ∀ x y, Bits (axes b.dom) x → Bits (axes b.cod) y → F (x ++ y) = a.get (x ++ y) := by
  intro x y hx hy
  obtain ⟨s, m1, rfl⟩ := exists_flat hx
  obtain ⟨s', m2, rfl⟩ := exists_flat hy
  refine (eval_cq (CQOK.ofBox (.inr (.inr (.inr (.inr (.inr (.inr (.inr ⟨hm, a, ha, hs⟩)))))))) hF s m1 s' m2).trans ?_
  rw [cqI.mat_ofBox b m1 m2]
  have h1 : cqTen b s s' = cqVal b (cOf b.dom s) (qOf b.dom s) (rOf b.dom s) (cOf b.cod s') (qOf b.cod s') (rOf b.cod s') := by
    cases b <;> first | rfl | cases hm
  have h2 : b.cqNode = .ok a := by cases b <;> first | (cases ha; done) | (simp only [cqNode, mixedNode, ha])
  show cqTen b s s' = _
  rw [h1, cqVal, if_pos hm, h2]
  rfl

/-- A channel from bit to bit that always gives 1. -/
def toOne : QBox := gen "one" [.bit] [.bit] (some ⟨[2, 2], [0, 1, 0, 1]⟩) 0 true false

/-- **C74 (refuted: the dagger of a mixed box).** The value of the dagger of a box made with `is_mixed=True` is the value of the box itself, not its
adjoint. -/
theorem C74_mixed_dagger_refuted : ∃ F, eval (ofBox toOne.dagger) true = .ok F ∧ F [0, 1] = 1 ∧ F [1, 0] = 0 := by
  have hs : (⟨[2, 2], [0, 1, 0, 1]⟩ : NdArray ℂ).shape = List.replicate (axes toOne.dagger.dom + axes toOne.dagger.cod) 2 := rfl
  obtain ⟨F, hF⟩ := C74_total (CQOK.ofBox (b := toOne.dagger) (.inr (.inr (.inr (.inr (.inr (.inr (.inr ⟨rfl, _, rfl, hs⟩))))))))
  have h := C74_mixedBox (b := toOne.dagger) rfl rfl hs hF
  refine ⟨F, hF, ?_, ?_⟩
  · exact (h [0] [1] (Bits.one (by decide)) (Bits.one (by decide))).trans (by simp [NdArray.get, ravel])
  · exact (h [1] [0] (Bits.one (by decide)) (Bits.one (by decide))).trans (by simp [NdArray.get, ravel])

/-- **C74 (swaps).** -/
theorem C74_swap {F : List Nat → ℂ} (hF : eval (ofBox (swap .qubit .qubit)) true = .ok F) :
    ∀ q q' r r' s s' t t', q < 2 → q' < 2 → r < 2 → r' < 2 → s < 2 → s' < 2 → t < 2 → t' < 2 →
      F [q, q', r, r', s, s', t, t'] = if s = q' ∧ s' = q ∧ t = r' ∧ t' = r then 1 else 0 := by
  intro q q' r r' s s' t t' h1 h2 h3 h4 h5 h6 h7 h8
  have h := eval_box (b := swap .qubit .qubit) (.inr (.inr (.inr (.inr (.inr (.inl rfl)))))) hF (c := []) (q := [q, q']) (r := [r, r']) (d := []) (s := [s, s']) (t := [t, t'])
    Bits.nil ((Bits.one h2).cons h1) ((Bits.one h4).cons h3) Bits.nil ((Bits.one h6).cons h5) ((Bits.one h8).cons h7)
  refine h.trans ?_
  show (if [2 * s + t, 2 * s' + t'] = [2 * q + r, 2 * q' + r'].reverse then (1 : ℂ) else 0) = _
  refine if_congr ?_ rfl rfl
  simp only [List.reverse_cons, List.reverse_nil, List.nil_append, List.cons_append, List.cons.injEq, and_true]
  omega

/-! ## Pure circuits, measurements and partial traces -/

/-- A pure circuit on qubits. -/
structure PureQ (d : Diagram QOb QBox) : Prop where
  wt : d.WT
  dom : ∀ o ∈ d.dom, o = QOb.qubit
  boxes : ∀ l ∈ d.layers, (l.box.Good ∧ l.box.isMixed = false ∧ ∀ o ∈ l.box.dom ++ l.box.cod, o = QOb.qubit) ∨ l.box = swap .qubit .qubit

theorem PureQ.pure {d : Diagram QOb QBox} (h : PureQ d) : PureOK d :=
  ⟨h.wt, fun l hl => (h.boxes l hl).imp (fun g => g.1) (fun g => ⟨_, _, g⟩)⟩

theorem PureQ.cq {d : Diagram QOb QBox} (h : PureQ d) : CQOK d :=
  ⟨h.wt, fun l hl => by
    refine ⟨(h.boxes l hl).imp id (fun g => .inr (.inr (.inr (.inr (.inl g))))), fun e => ?_⟩
    rcases h.boxes l hl with g | g
    · rw [e] at g; exact g.1.elim
    · rw [e] at g; cases g⟩

theorem PureQ.dbl {d : Diagram QOb QBox} (h : PureQ d) : ∀ l ∈ d.layers, Dbl l.box := by
  intro l hl
  rcases h.boxes l hl with g | g
  · exact dbl_good g.1 g.2.1 g.2.2
  · rw [g]; exact dbl_swap

theorem PureQ.cod {d : Diagram QOb QBox} (h : PureQ d) : ∀ o ∈ d.cod, o = QOb.qubit := (mat_double h.wt h.dom h.dbl).1

/-- **C74 (pure circuits).** `eval(mixed=True)` of a pure circuit is its value times the conjugate of its value. -/
theorem C74_pure {d : Diagram QOb QBox} (h : PureQ d) {F G : List Nat → ℂ} (hF : eval d true = .ok F) (hG : eval d false = .ok G) :
    ∀ q r s t, Bits d.dom.length q → Bits d.dom.length r → Bits d.cod.length s → Bits d.cod.length t →
      F ((q ++ r) ++ (s ++ t)) = G (q ++ s) * star (G (r ++ t)) := by
  have hmix : mixedDiagram d = false := by
    simp only [mixedDiagram, Bool.or_eq_false_iff, Bool.and_eq_false_iff, decide_eq_false_iff_not, List.any_eq_false]
    refine ⟨.inl (fun hb => ?_), fun b hb => ?_⟩
    · rcases List.mem_append.1 hb with hb | hb
      · exact absurd (h.dom _ hb) (by decide)
      · exact absurd (h.cod _ hb) (by decide)
    · obtain ⟨l, hl, rfl⟩ := List.mem_map.1 hb
      rcases h.boxes l hl with g | g
      · rw [g.2.1]; simp
      · rw [g]; simp [isMixed]
  have hG' : pureEval d = .ok G := by
    rw [eval, hmix] at hG; simpa using hG
  obtain ⟨G', g1, g2⟩ := pureEval_spec h.pure
  cases g1.symm.trans hG'
  intro q r s t hq hr hs ht
  have hdq := count_qubits h.dom
  have hcq := count_qubits h.cod
  have n0 : Bits (d.dom.count .bit) [] := by rw [hdq.1]; exact Bits.nil
  have n1 : Bits (d.cod.count .bit) [] := by rw [hcq.1]; exact Bits.nil
  have hq' := hdq.2 ▸ hq
  have hr' := hdq.2 ▸ hr
  have hs' := hcq.2 ▸ hs
  have ht' := hcq.2 ▸ ht
  obtain ⟨m1, a1, a2, a3⟩ := enc_spec n0 hq' hr'
  obtain ⟨m2, b1, b2, b3⟩ := enc_spec n1 hs' ht'
  have key := eval_cq h.cq hF _ m1 _ m2
  rw [flat_enc n0 hq' hr', flat_enc n1 hs' ht', (mat_double h.wt h.dom h.dbl).2 _ m1 _ m2, a2, a3, b2, b3] at key
  rw [g2 q s hq hs, g2 r t hr ht]
  exact key

theorem ite_mul_ite {p q : Prop} [Decidable p] [Decidable q] : ((if p then (1 : ℂ) else 0) * if q then 1 else 0) = if p ∧ q then 1 else 0 := by
  by_cases hp : p <;> by_cases hq : q <;> simp [hp, hq]

theorem cOf_qubits (n : Nat) (s : List Nat) : cOf (qubits n) s = [] := allQubit_cOf (fun _ ho => (List.mem_replicate.1 ho).2) s

/-- `n` copies of a box side by side. -/
def copies (b : QBox) : Nat → Diagram QOb QBox
  | 0 => Diagram.id []
  | n + 1 => tensor (Diagram.ofBox b) (copies b n)

theorem mem_copies {b : QBox} {n : Nat} : ∀ l ∈ (copies b n).layers, l.box = b := by
  induction n with
  | zero => simp [copies, Diagram.id]
  | succ n ih =>
    intro l hl
    rw [copies, tensor_layers] at hl
    rcases List.mem_append.1 hl with hl | hl
    · obtain ⟨m, hm, rfl⟩ := List.mem_map.1 hl
      simp only [Diagram.ofBox, List.mem_singleton] at hm
      rw [hm]; rfl
    · obtain ⟨m, hm, rfl⟩ := List.mem_map.1 hl
      exact ih m hm

theorem copies_ok {b : QBox} (h : CQBox b) (hs : b ≠ swap .bit .bit) (n : Nat) : CQOK (copies b n) := by
  induction n with
  | zero => exact CQOK.ofId []
  | succ n ih => exact (CQOK.ofBox h).tensor ih (.inl (fun l hl e => hs (by rw [mem_copies l hl] at e; exact e)))

theorem copies_type {b : QBox} {x y : List QOb} (hd : b.dom = x) (hc : b.cod = y) (n : Nat) :
    (copies b n).dom = (List.replicate n x).flatten ∧ (copies b n).cod = (List.replicate n y).flatten := by
  induction n with
  | zero => exact ⟨rfl, rfl⟩
  | succ n ih =>
    have h1 : (Diagram.ofBox b : Diagram QOb QBox).dom = x := hd
    have h2 : (Diagram.ofBox b : Diagram QOb QBox).cod = y := hc
    rw [copies, tensor_dom, tensor_cod, ih.1, ih.2, h1, h2]
    simp [List.replicate_succ]

theorem flatten_single {α : Type} (n : Nat) (a : α) : (List.replicate n [a]).flatten = List.replicate n a := by
  induction n with
  | zero => rfl
  | succ n ih => simp [List.replicate_succ, ih]

theorem flatten_nil (α : Type) (n : Nat) : (List.replicate n ([] : List α)).flatten = [] := by
  induction n with
  | zero => rfl
  | succ n ih => simp [List.replicate_succ, ih]

theorem measures_type (n : Nat) : (copies measure n).dom = qubits n ∧ (copies measure n).cod = List.replicate n .bit := by
  obtain ⟨h1, h2⟩ := copies_type (b := measure) rfl rfl n
  exact ⟨h1.trans (flatten_single n _), h2.trans (flatten_single n _)⟩

theorem discards_type (n : Nat) : (copies discard n).dom = qubits n ∧ (copies discard n).cod = [] := by
  obtain ⟨h1, h2⟩ := copies_type (b := discard) rfl rfl n
  exact ⟨h1.trans (flatten_single n _), h2.trans (flatten_nil _ n)⟩

theorem count_qubits_rep (n : Nat) : (qubits n).count .bit = 0 ∧ (qubits n).count .qubit = n := by
  have := count_qubits (t := qubits n) (fun o ho => (List.mem_replicate.1 ho).2)
  rw [qubits_length] at this
  exact this

theorem mat_measures {n : Nat} {x y : List Nat} (hx : x ∈ cqI.idx (qubits n)) (hy : y ∈ cqI.idx (List.replicate n QOb.bit)) :
    cqI.mat (copies measure n) x y = if qOf (qubits n) x = y ∧ rOf (qubits n) x = y then 1 else 0 := by
  induction n generalizing x y with
  | zero =>
    obtain rfl : x = [] := by simpa [qubits, Interp.idx] using hx
    obtain rfl : y = [] := by simpa [Interp.idx] using hy
    simp [copies, Interp.mat, Interp.run, Diagram.id, qOf, rOf]
  | succ n ih =>
    obtain ⟨a, x, rfl, ha, hx⟩ := idx_cons (o := .qubit) (t := qubits n) hx
    obtain ⟨b, y, rfl, hb, hy⟩ := idx_cons (o := .bit) (t := List.replicate n .bit) hy
    have ha4 : a < 4 := ha
    have hb2 : b < 2 := hb
    have m1 : [a] ∈ cqI.idx [QOb.qubit] := (cqI.mem_idx _ _).2 (.cons ha .nil)
    have m2 : [b] ∈ cqI.idx [QOb.bit] := (cqI.mem_idx _ _).2 (.cons hb .nil)
    have := cqI.mat_tensor (f := Diagram.ofBox measure) (g := copies measure n) (CQOK.ofBox (.inr (.inl rfl))).wt (copies_ok (.inr (.inl rfl)) (by simp) n).wt
      (x1 := [a]) (x2 := x) (y1 := [b]) (y2 := y) m1 (by rw [(measures_type n).1]; exact hx) m2 (by rw [(measures_type n).2]; exact hy)
    rw [copies]
    refine this.trans ?_
    rw [cqI.mat_ofBox measure m1 m2, ih hx hy]
    have e : cqI.ten measure [a] [b] = if a / 2 = b ∧ a % 2 = b then 1 else 0 := by
      show (copyArray ℂ 3 2).get [a / 2, a % 2, b] = _
      exact get_copyArray_three (by omega) (by omega) hb2
    rw [e]
    have eq : qOf (qubits (n + 1)) (a :: x) = a / 2 :: qOf (qubits n) x := rfl
    have er : rOf (qubits (n + 1)) (a :: x) = a % 2 :: rOf (qubits n) x := rfl
    rw [eq, er, ite_mul_ite]
    refine if_congr ?_ rfl rfl
    simp only [List.cons.injEq]
    tauto

theorem mat_discards {n : Nat} {x : List Nat} (hx : x ∈ cqI.idx (qubits n)) :
    cqI.mat (copies discard n) x [] = if qOf (qubits n) x = rOf (qubits n) x then 1 else 0 := by
  induction n generalizing x with
  | zero =>
    obtain rfl : x = [] := by simpa [qubits, Interp.idx] using hx
    simp [copies, Interp.mat, Interp.run, Diagram.id, qOf, rOf]
  | succ n ih =>
    obtain ⟨a, x, rfl, ha, hx⟩ := idx_cons (o := .qubit) (t := qubits n) hx
    have ha4 : a < 4 := ha
    have m1 : [a] ∈ cqI.idx [QOb.qubit] := (cqI.mem_idx _ _).2 (.cons ha .nil)
    have m0 : [] ∈ cqI.idx ([] : List QOb) := by simp [Interp.idx]
    have := cqI.mat_tensor (f := Diagram.ofBox discard) (g := copies discard n) (CQOK.ofBox (.inr (.inr (.inr (.inl rfl))))).wt
      (copies_ok (.inr (.inr (.inr (.inl rfl)))) (by simp) n).wt
      (x1 := [a]) (x2 := x) (y1 := []) (y2 := []) m1 (by rw [(discards_type n).1]; exact hx) m0 (by rw [(discards_type n).2]; exact m0)
    rw [copies]
    refine this.trans ?_
    rw [cqI.mat_ofBox discard m1 m0, ih hx]
    have e : cqI.ten discard [a] [] = if a / 2 = a % 2 then 1 else 0 := by
      show (copyArray ℂ 2 2).get [a / 2, a % 2] = _
      rw [TnCat.get_copyArray_two _ _ _ (by omega) (by omega)]
      exact if_congr eq_comm rfl rfl
    rw [e]
    have eq : qOf (qubits (n + 1)) (a :: x) = a / 2 :: qOf (qubits n) x := rfl
    have er : rOf (qubits (n + 1)) (a :: x) = a % 2 :: rOf (qubits n) x := rfl
    rw [eq, er, ite_mul_ite]
    refine if_congr ?_ rfl rfl
    simp only [List.cons.injEq]

theorem mat_then_id_tensor {f g h : Diagram QOb QBox} {t u : List QOb} (hg : CQOK g) (hgs : CQOK (Diagram.tensor (Diagram.id t) g)) (hcod : f.cod = t ++ u) (hgd : g.dom = u)
    (hc : andThen f (Diagram.tensor (Diagram.id t) g) = .ok h) {x y z : List Nat} (hy : y ∈ cqI.idx t) (hz : z ∈ cqI.idx g.cod) :
    cqI.mat h x (y ++ z) = ∑ w ∈ cqI.idx u, cqI.mat f x (y ++ w) * cqI.mat g w z := by
  rw [cqI.mat_comp hgs.wt hc x (by rw [tensor_cod]; exact cqI.append_mem hy hz), hcod, cqI.sum_idx_append, Finset.sum_eq_single y]
  · refine Finset.sum_congr rfl (fun w hw => ?_)
    rw [cqI.mat_tensor (CQOK.ofId t).wt hg.wt (x1 := y) (x2 := w) (y1 := y) (y2 := z) hy (by rw [hgd]; exact hw) hy hz]
    show _ * ((if y = y then 1 else 0) * _) = _
    rw [if_pos rfl, one_mul]
  · intro y' hy' hne
    refine Finset.sum_eq_zero (fun w hw => ?_)
    rw [cqI.mat_tensor (CQOK.ofId t).wt hg.wt (x1 := y') (x2 := w) (y1 := y) (y2 := z) hy' (by rw [hgd]; exact hw) hy hz]
    show _ * ((if y = y' then 1 else 0) * _) = _
    rw [if_neg (fun e => hne e.symm), zero_mul, mul_zero]
  · exact fun hn => absurd hy hn

/-- **C74 (measuring).** Measuring the last `n` qubits of any circuit keeps the entries in which both copies of these qubits equal the outcome. -/
theorem C74_measure_all {f h : Diagram QOb QBox} (hf : CQOK f) (t : List QOb) (n : Nat) (hcod : f.cod = t ++ qubits n)
    (hc : andThen f (Diagram.tensor (Diagram.id t) (copies measure n)) = .ok h) {F H : List Nat → ℂ} (hF : eval f true = .ok F) (hH : eval h true = .ok H) :
    ∀ x c q r m, Bits (axes f.dom) x → Bits (t.count .bit) c → Bits (t.count .qubit) q → Bits (t.count .qubit) r → Bits n m →
      H (x ++ ((c ++ m) ++ (q ++ r))) = F (x ++ (c ++ ((q ++ m) ++ (r ++ m)))) := by
  intro x c q r m hx hc' hq hr hm
  have hM : CQOK (copies measure n) := copies_ok (.inr (.inl rfl)) (by simp) n
  have hT : CQOK (Diagram.tensor (Diagram.id t) (copies measure n)) := (CQOK.ofId t).tensor hM (.inl (fun l hl e => by rw [mem_copies l hl] at e; cases e))
  have hch := hf.comp hT hc
  obtain ⟨_, e⟩ := andThen_ok_iff.1 hc
  have hdom : h.dom = f.dom := by rw [e]
  have hcodh : h.cod = t ++ List.replicate n .bit := by rw [e]; simp [tensor_cod, (measures_type n).2]; rfl
  obtain ⟨s, hs, rfl⟩ := exists_flat hx
  obtain ⟨k1, k2, k3⟩ : (List.replicate n QOb.bit).count .bit = n ∧ (List.replicate n QOb.bit).count .qubit = 0 ∧ True := by simp [List.count_replicate]
  obtain ⟨m1, a1, a2, a3⟩ := enc_spec hc' hq hr
  obtain ⟨m2, b1, b2, b3⟩ := enc_spec (t := List.replicate n QOb.bit) (c := m) (q := []) (r := []) (by rw [k1]; exact hm) (by rw [k2]; exact Bits.nil) (by rw [k2]; exact Bits.nil)
  obtain ⟨m3, c1, c2, c3⟩ := enc_spec (t := qubits n) (c := []) (q := m) (r := m) (by rw [(count_qubits_rep n).1]; exact Bits.nil)
    (by rw [(count_qubits_rep n).2]; exact hm) (by rw [(count_qubits_rep n).2]; exact hm)
  have key := eval_cq hch hH s (by rw [hdom]; exact hs) (enc t c q r ++ enc (List.replicate n .bit) m [] []) (by rw [hcodh]; exact cqI.append_mem m1 m2)
  obtain ⟨e1, e2, e3⟩ := of_append (t := t) (t' := List.replicate n .bit) (s := enc t c q r) (s' := enc (List.replicate n .bit) m [] []) (cqI.length_of_mem m1)
  rw [hdom, hcodh, flat, flat, e1, e2, e3, a1, a2, a3, b1, b2, b3, List.append_nil, List.append_nil] at key
  refine key.trans ?_
  rw [mat_then_id_tensor hM hT hcod (measures_type n).1 hc m1 (by rw [(measures_type n).2]; exact m2)]
  have hy : enc (List.replicate n .bit) m [] [] = m := by
    have : ∀ n m, Bits n m → enc (List.replicate n .bit) m [] [] = m := by
      intro n
      induction n with
      | zero => intro m hm; rw [hm.eq_nil]; rfl
      | succ n ih =>
        intro m hm
        obtain ⟨a, m, rfl, _, hm⟩ := hm.uncons
        rw [List.replicate_succ, enc, ih m hm]
    exact this n m hm
  rw [Finset.sum_eq_single (enc (qubits n) [] m m)]
  · rw [mat_measures m3 m2, c2, c3, hy, if_pos ⟨rfl, rfl⟩, mul_one]
    have := eval_cq hf hF s hs (enc t c q r ++ enc (qubits n) [] m m) (by rw [hcod]; exact cqI.append_mem m1 m3)
    obtain ⟨e1, e2, e3⟩ := of_append (t := t) (t' := qubits n) (s := enc t c q r) (s' := enc (qubits n) [] m m) (cqI.length_of_mem m1)
    rw [hcod, flat, flat, e1, e2, e3, a1, a2, a3, c1, c2, c3, List.append_nil] at this
    exact this.symm
  · intro w hw hne
    rw [mat_measures hw m2, hy, if_neg, mul_zero]
    rintro ⟨h1, h2⟩
    exact hne (of_inj hw m3 (by rw [cOf_qubits, cOf_qubits]) (by rw [h1, c2]) (by rw [h2, c3]))
  · exact fun hn => absurd m3 hn

/-- **C74 (partial trace).** Discarding the last `n` qubits of any circuit sums over the equal values of their two copies. -/
theorem C74_discard_all {f h : Diagram QOb QBox} (hf : CQOK f) (t : List QOb) (n : Nat) (hcod : f.cod = t ++ qubits n)
    (hc : andThen f (Diagram.tensor (Diagram.id t) (copies discard n)) = .ok h) {F H : List Nat → ℂ} (hF : eval f true = .ok F) (hH : eval h true = .ok H) :
    ∀ x c q r, Bits (axes f.dom) x → Bits (t.count .bit) c → Bits (t.count .qubit) q → Bits (t.count .qubit) r →
      H (x ++ (c ++ (q ++ r))) = ∑ m ∈ allBits n, F (x ++ (c ++ ((q ++ m) ++ (r ++ m)))) := by
  intro x c q r hx hc' hq hr
  have hM : CQOK (copies discard n) := copies_ok (.inr (.inr (.inr (.inl rfl)))) (by simp) n
  have hT : CQOK (Diagram.tensor (Diagram.id t) (copies discard n)) := (CQOK.ofId t).tensor hM (.inl (fun l hl e => by rw [mem_copies l hl] at e; cases e))
  have hch := hf.comp hT hc
  obtain ⟨_, e⟩ := andThen_ok_iff.1 hc
  have hdom : h.dom = f.dom := by rw [e]
  have hcodh : h.cod = t := by rw [e]; simp [tensor_cod, (discards_type n).2]; rfl
  obtain ⟨s, hs, rfl⟩ := exists_flat hx
  obtain ⟨m1, a1, a2, a3⟩ := enc_spec hc' hq hr
  have key := eval_cq hch hH s (by rw [hdom]; exact hs) (enc t c q r) (by rw [hcodh]; exact m1)
  rw [hdom, hcodh, flat_enc hc' hq hr] at key
  refine key.trans ?_
  have := mat_then_id_tensor hM hT hcod (discards_type n).1 hc (x := s) m1 (z := []) (by rw [(discards_type n).2]; simp [Interp.idx])
  rw [List.append_nil] at this
  rw [this]
  have hsum := sum_cq (qubits n) (fun _ q' r' => F (flat f.dom s ++ (c ++ ((q ++ q') ++ (r ++ r')))) * if q' = r' then 1 else 0)
  rw [(count_qubits_rep n).1, (count_qubits_rep n).2, sum_allBits_zero] at hsum
  have hr2 : ∀ m ∈ allBits n, F (flat f.dom s ++ (c ++ ((q ++ m) ++ (r ++ m)))) =
      ∑ r' ∈ allBits n, F (flat f.dom s ++ (c ++ ((q ++ m) ++ (r ++ r')))) * if m = r' then 1 else 0 := by
    intro m hm
    rw [sum_allBits_pick (mem_allBits.1 hm)]
    · simp
    · intro z _ hz
      rw [if_neg (fun e => hz e.symm), mul_zero]
  rw [Finset.sum_congr rfl hr2, ← hsum]
  refine Finset.sum_congr rfl (fun w hw => ?_)
  rw [mat_discards hw]
  congr 1
  have := eval_cq hf hF s hs (enc t c q r ++ w) (by rw [hcod]; exact cqI.append_mem m1 hw)
  obtain ⟨e1, e2, e3⟩ := of_append (t := t) (t' := qubits n) (s := enc t c q r) (s' := w) (cqI.length_of_mem m1)
  rw [hcod, flat, flat, e1, e2, e3, a1, a2, a3, cOf_qubits, List.append_nil] at this
  exact this.symm

/-- **C74 (Born rule).** Measuring all qubits of a pure circuit without inputs gives the squared absolute values of its amplitudes. -/
theorem C74_born {f h : Diagram QOb QBox} (hf : PureQ f) (n : Nat) (hdom : f.dom = []) (hcod : f.cod = qubits n) (hc : andThen f (copies measure n) = .ok h)
    {G H : List Nat → ℂ} (hG : eval f false = .ok G) (hH : eval h true = .ok H) :
    ∀ m, Bits n m → H m = ((Complex.normSq (G m) : ℝ) : ℂ) := by
  intro m hm
  obtain ⟨F, hF⟩ := C74_total hf.cq
  have hid : Diagram.tensor (Diagram.id []) (copies measure n) = copies measure n := by
    ext1
    · simp [tensor_dom, Diagram.id]
    · simp [tensor_cod, Diagram.id]
    · rw [tensor_layers]
      have : ∀ l : Layer QOb QBox, Layer.extend [] [] l = l := fun l => by simp [Layer.extend]
      simp [Diagram.id, funext this]
  have h1 := C74_measure_all hf.cq [] n (by rw [hcod]; rfl) (by rw [hid]; exact hc) hF hH [] [] [] [] m (by rw [hdom]; exact Bits.nil) Bits.nil Bits.nil Bits.nil hm
  have h2 := C74_pure hf hF hG [] [] m m (by rw [hdom]; exact Bits.nil) (by rw [hdom]; exact Bits.nil) (by rw [hcod, qubits_length]; exact hm) (by rw [hcod, qubits_length]; exact hm)
  simp only [List.nil_append, List.append_nil] at h1 h2
  rw [h1, h2]
  exact Complex.mul_conj (G m)

/-! ## What fails -/

theorem expand_plain (ls : List (Layer QOb QBox)) (acc : Diagram QOb QBox) (c : List QOb) (hacc : acc.WT) (hc : Chain acc.cod ls c)
    (hb : ∀ l ∈ ls, ∀ u k, l.box ≠ controlled u k) : ∃ diag, tnCat.expandLoop acc ls = .ok diag ∧ diag.dom = acc.dom ∧ diag.layers = acc.layers ++ ls := by
  obtain ⟨diag, g1, g2, g3⟩ := tnCat.expandLoop_spec ls acc c hacc hc (fun l hl => tnCat_std.decTyped _ (fun u k e => absurd e (hb l hl u k)))
  refine ⟨diag, g1, g2, ?_⟩
  rw [tnCat.expandLoop_layers _ _ _ g1]
  congr 1
  clear g1 g2 g3 hc
  induction ls with
  | nil => rfl
  | cons l ls ih =>
    rw [List.map_cons, List.flatten_cons, ih (fun m hm => hb m (List.mem_cons_of_mem _ hm)), decompose_none (hb l (by simp))]
    simp [ofBox, Layer.extend]

/-- Mixed evaluation of a circuit without controlled gates. -/
theorem cqEval_plain {d : Diagram QOb QBox} (hw : d.WT) (hb : ∀ l ∈ d.layers, ∀ u k, l.box ≠ controlled u k) :
    eval d true = match cqLoop (cqInit d.dom) d.layers with
      | .error e => .error e
      | .ok st => .ok (st.net.contract ((List.range (axes d.dom)).map (fun k => ⟨k, 0⟩) ++ (st.c ++ (st.q1 ++ st.q2)))) := by
  obtain ⟨diag, g1, g2, g3⟩ := expand_plain d.layers (Diagram.id d.dom) d.cod rfl hw hb
  have g2 : diag.dom = d.dom := g2
  have g3 : diag.layers = d.layers := g3
  simp only [eval, Bool.not_true, Bool.false_and, Bool.false_eq_true, if_false, cqEval, cqTn, g1, g2, g3]
  cases cqLoop (cqInit d.dom) d.layers <;> rfl

/-- **C74 (refuted: swaps of bits next to qubits).** The swap of two bits uses the number of qubits to its left as the offset of the bits
(quantum.py:517-519): a swap of bits to the right of a qubit raises `IndexError`. -/
theorem C74_bitSwap_refuted : eval (Diagram.tensor (Diagram.id [.qubit]) (ofBox (swap .bit .bit))) true = .error .indexError := by
  rw [cqEval_plain (by decide) (by simp [tensor_layers, Diagram.id, ofBox, Layer.extend])]
  simp [tensor_layers, tensor_dom, Diagram.id, ofBox, Layer.extend, cqLoop, cqStep, classicalSwap, swapLegs, cqInit, List.range_succ, List.count_cons]
  rfl

/-- **C74 (refuted: swaps of bits next to bits).** A swap of the second and third of three bits swaps the first and the second instead. -/
theorem C74_bitSwap_wrong_refuted : ∃ F, eval (Diagram.tensor (Diagram.id [.bit]) (ofBox (swap .bit .bit))) true = .ok F ∧
    F [0, 1, 0, 1, 0, 0] = 1 ∧ F [0, 1, 0, 0, 0, 1] = 0 := by
  have hok : CQOK (Diagram.tensor (ofBox (swap .bit .bit)) (Diagram.id [.bit])) :=
    (CQOK.ofBox (.inr (.inr (.inr (.inr (.inr (.inr (.inl rfl)))))))).tensor (CQOK.ofId _) (.inl (by simp [Diagram.id]))
  obtain ⟨F, hF⟩ := C74_total hok
  have he : eval (Diagram.tensor (Diagram.id [.bit]) (ofBox (swap .bit .bit))) true = eval (Diagram.tensor (ofBox (swap .bit .bit)) (Diagram.id [.bit])) true := by
    rw [cqEval_plain (by decide) (by simp [tensor_layers, Diagram.id, ofBox, Layer.extend]), cqEval_plain (by decide) (by simp [tensor_layers, Diagram.id, ofBox, Layer.extend])]
    simp [tensor_layers, tensor_dom, Diagram.id, ofBox, Layer.extend, cqLoop, cqStep, classicalSwap, swapLegs, cqInit, List.range_succ, List.count_cons]
    rfl
  obtain ⟨G, hG⟩ := C74_total (CQOK.ofBox (b := swap .bit .bit) (.inr (.inr (.inr (.inr (.inr (.inr (.inl rfl))))))))
  obtain ⟨I, hI⟩ := C74_total (CQOK.ofId [.bit])
  have b0 : Bits 1 [0] := Bits.one (by decide)
  have b1 : Bits 1 [1] := Bits.one (by decide)
  have b01 : Bits 2 [0, 1] := b1.cons (by decide)
  have b10 : Bits 2 [1, 0] := b0.cons (by decide)
  have b00 : Bits 2 [0, 0] := b0.cons (by decide)
  have n : Bits 0 [] := Bits.nil
  have ht := C74_tensor (CQOK.ofBox (b := swap .bit .bit) (.inr (.inr (.inr (.inr (.inr (.inr (.inl rfl)))))))) (CQOK.ofId [.bit]) hok hG hI hF
  have hg := fun (c d : List Nat) (hc : Bits 2 c) (hd : Bits 2 d) =>
    eval_box (b := swap .bit .bit) (.inr (.inr (.inr (.inr (.inr (.inr (.inl rfl))))))) hG (c := c) (q := []) (r := []) (d := d) (s := []) (t := []) hc n n hd n n
  have hi := C74_id [.bit] hI
  refine ⟨F, by rw [he]; exact hF, ?_, ?_⟩
  · refine (ht [0, 1] [] [] [0] [] [] [1, 0] [] [] [0] [] [] b01 n n b0 n n b10 n n b0 n n).trans ?_
    rw [hg [0, 1] [1, 0] b01 b10]
    refine Eq.trans (congrArg₂ (· * ·) ?_ (hi [0] [0] b0 b0)) (mul_one _)
    show (if [1, 0] = [0, 1].reverse then (1 : ℂ) else 0) = 1
    simp
  · refine (ht [0, 1] [] [] [0] [] [] [0, 0] [] [] [1] [] [] b01 n n b0 n n b00 n n b1 n n).trans ?_
    refine Eq.trans (congrArg₂ (· * ·) rfl (hi [0] [1] b0 b1)) ?_
    simp

/-- **C74 (refuted: swaps of a bit with a qubit).** Such a swap is treated as a swap of two qubits: `IndexError`. -/
theorem C74_mixedSwap_refuted : eval (ofBox (swap .bit .qubit)) true = .error .indexError ∧ eval (ofBox (swap .qubit .bit)) true = .error .indexError := by
  constructor <;>
  · rw [cqEval_plain (by decide) (by simp [ofBox])]
    simp [ofBox, cqLoop, cqStep, classicalSwap, isDiscard, isMixed, swapLegs, cqInit, List.range_succ, List.count_cons, BoxSig.dom, dom, sig]

/-- **C74 (refuted: classical states).** `Bit(b)` is treated as a state of a qubit: a circuit that uses it as a bit raises `IndexError`. -/
theorem C74_bit_refuted (b : Bool) : ∃ d, andThen (ofBox (bit b)) (ofBox encode) = .ok d ∧ eval d true = .error .indexError := by
  refine ⟨_, rfl, ?_⟩
  rw [cqEval_plain (by cases b <;> decide) (by simp [ofBox])]
  simp [ofBox, cqLoop, cqStep, classicalSwap, isDiscard, isMixed, getLegs, cqInit, BoxSig.dom, dom, cod, sig, array, mixedNode, TnCat.legsOf, alternate, TnCat.connectAll,
    copyArray, NdArray.ofFn]

/-! ## Examples -/

/-- A Bell pair, one half measured and one half discarded: the outcome is uniform. -/
def bellMeasured : Diagram QOb QBox :=
  ⟨[], [.bit], [⟨[], ket false, []⟩, ⟨[.qubit], ket false, []⟩, ⟨[], H, [.qubit]⟩, ⟨[], CX, []⟩, ⟨[], measure, [.qubit]⟩, ⟨[.bit], discard, []⟩]⟩

example : CQOK bellMeasured := by
  have hX : X.Good := ⟨_, rfl, rfl, fun _ => rfl, by decide⟩
  refine ⟨by decide, ?_⟩
  simp only [bellMeasured, List.forall_mem_cons, List.not_mem_nil, false_imp_iff, implies_true, and_true]
  refine ⟨⟨.inl ⟨trivial, rfl, by simp [dom, cod, sig]⟩, by simp [Balanced]⟩, ⟨.inl ⟨trivial, rfl, by simp [dom, cod, sig]⟩, by simp [Balanced]⟩,
    ⟨.inl ⟨good_H, rfl, by simp [dom, cod, sig, H]⟩, by simp [Balanced, H]⟩, ⟨.inl ⟨⟨by decide, hX, rfl⟩, rfl, qubits_controlled X 1⟩, by simp [Balanced, CX]⟩,
    ⟨.inr (.inl rfl), by simp [Balanced]⟩, ⟨.inr (.inr (.inr (.inl rfl))), by simp [Balanced]⟩⟩

/-- A Bell pair: it satisfies the hypotheses of `C74_pure` and, with two measurements, of `C74_born`. -/
def bellPair : Diagram QOb QBox := ⟨[], [.qubit, .qubit], [⟨[], ket false, []⟩, ⟨[.qubit], ket false, []⟩, ⟨[], H, [.qubit]⟩, ⟨[], CX, []⟩]⟩

example : PureQ bellPair ∧ ∃ h, andThen bellPair (copies measure 2) = .ok h := by
  have hX : X.Good := ⟨_, rfl, rfl, fun _ => rfl, by decide⟩
  refine ⟨⟨by decide, by simp [bellPair], ?_⟩, _, andThen_ok_iff.2 ⟨by decide, rfl⟩⟩
  simp only [bellPair, List.forall_mem_cons, List.not_mem_nil, false_imp_iff, implies_true, and_true]
  exact ⟨.inl ⟨trivial, rfl, by simp [dom, cod, sig]⟩, .inl ⟨trivial, rfl, by simp [dom, cod, sig]⟩,
    .inl ⟨good_H, rfl, by simp [dom, cod, sig, H]⟩, .inl ⟨⟨by decide, hX, rfl⟩, rfl, qubits_controlled X 1⟩⟩

/-- A controlled gate at distance two inside a circuit with bits. -/
example : CQOK (Diagram.tensor (ofBox encode) (ofBox (controlled X (-2)))) := by
  have hX : X.Good := ⟨_, rfl, rfl, fun _ => rfl, by decide⟩
  exact (CQOK.ofBox (.inr (.inr (.inl rfl)))).tensor (CQOK.ofBox (.inl ⟨⟨by decide, hX, rfl⟩, rfl, qubits_controlled X (-2)⟩)) (.inl (by simp [ofBox]))

end
end QBox
end Lambeq
