import Verif.Quantum.MixedStep

/-!
# Mixed evaluation of circuits (C74): the value of a circuit
-/

namespace Lambeq
open Diagram
set_option linter.unusedSectionVars false
set_option linter.unusedSimpArgs false

namespace QBox
noncomputable section

/-- The boxes of mixed circuits: pure boxes with an array on qubits, the four boxes between bits and qubits, boxes made with `is_mixed=True` and an
array with one axis per bit and two per qubit, and swaps of two qubits or of two bits. -/
def CQBox (b : QBox) : Prop :=
  (b.Good ∧ b.isMixed = false ∧ ∀ o ∈ b.dom ++ b.cod, o = QOb.qubit) ∨ b = measure ∨ b = encode ∨ b = discard ∨ b = mixedState ∨
  b = swap .qubit .qubit ∨ b = swap .bit .bit ∨
  (b.isMixed = true ∧ ∃ a, b.mixedData = some a ∧ a.shape = List.replicate (axes b.dom + axes b.cod) 2)

/-- The swaps of bits that are handled correctly: those with the same number of bits and qubits to their left. -/
def Balanced (l : Layer QOb QBox) : Prop := l.box = swap .bit .bit → l.left.count .bit = l.left.count .qubit

theorem cqStep_ok {st : CQState} {inp : List Leg} {l : Layer QOb QBox} (hinv : CQInv st inp l.dom) (hb : CQBox l.box) (hs : Balanced l) : StepOK st inp l := by
  obtain ⟨left, b, right⟩ := l
  have hi : CQInv st inp (left ++ b.dom ++ right) := hinv
  rcases hb with ⟨hg, hm, hq⟩ | h | h | h | h | h | h | ⟨h, a, ha, hsh⟩
  · obtain ⟨a, ea, oka, hsa⟩ := hg.array_ok
    exact step_pure hi hm hg.kind hq ea oka hsa
  · obtain rfl : b = measure := h
    exact step_node hi rfl rfl rfl rfl
  · obtain rfl : b = encode := h
    exact step_node hi rfl rfl rfl rfl
  · exact step_discard hinv h
  · obtain rfl : b = mixedState := h
    exact step_node hi rfl rfl rfl rfl
  · exact step_qswap hinv h
  · exact step_cswap hinv h (hs h)
  · change b.isMixed = true at h
    change b.mixedData = some a at ha
    refine step_node hi h ?_ (a := a) ?_ hsh
    · cases b <;> first | rfl | cases ha
    · cases b <;> first | (cases ha; done) | (simp only [mixedNode, ha])

theorem cqLoop_spec {st : CQState} {inp : List Leg} {t c : List QOb} (ls : List (Layer QOb QBox)) (hinv : CQInv st inp t) (hc : Chain t ls c)
    (hb : ∀ l ∈ ls, CQBox l.box ∧ Balanced l) :
    ∃ st', cqLoop st ls = .ok st' ∧ CQInv st' inp c ∧
      ∀ x s, inp.length = x.length → s ∈ cqI.idx c → st'.V inp x c s = cqI.run ls (st.V inp x t) s := by
  induction ls generalizing st t with
  | nil =>
    obtain rfl : t = c := hc
    exact ⟨st, rfl, hinv, fun _ _ _ _ => rfl⟩
  | cons l ls ih =>
    obtain ⟨h1, h2⟩ := hc
    subst h1
    obtain ⟨st1, e1, i1, v1⟩ := cqStep_ok hinv (hb l (by simp)).1 (hb l (by simp)).2
    obtain ⟨st2, e2, i2, v2⟩ := ih i1 h2 (fun m hm => hb m (List.mem_cons_of_mem _ hm))
    refine ⟨st2, by rw [cqLoop, e1]; exact e2, i2, fun x s hx hs => ?_⟩
    rw [v2 x s hx hs]
    exact cqI.run_congr h2 (fun y hy => v1 x y hx hy) s hs

theorem cqInit_legs (dom : List QOb) : (cqInit dom).c ++ ((cqInit dom).q1 ++ (cqInit dom).q2) = TnCat.outLegs (axes dom) := by
  simp only [cqInit, TnCat.outLegs, axes, List.range_add, List.map_append, List.map_map, Function.comp_def, Nat.add_assoc]

theorem legOK_initial (k : Nat) : ∀ l ∈ TnCat.outLegs k, LegOK (TnCat.initial (List.replicate k 2) : Net ℂ) l ∧ (TnCat.initial (List.replicate k 2) : Net ℂ).legDim l = 2 := by
  intro l hl
  obtain ⟨i, hi, rfl⟩ := List.mem_map.1 hl
  have hi := List.mem_range.1 hi
  have e : (TnCat.initial (List.replicate k 2) : Net ℂ).nodes[i]? = some (copyArray ℂ 2 2) := by
    simp [TnCat.initial, List.getElem?_replicate, hi]
  refine ⟨⟨copyArray ℂ 2 2, e, by simp [copyArray, NdArray.ofFn]⟩, ?_⟩
  simp [Net.legDim, e, copyArray, NdArray.ofFn]

theorem cqInit_inv (dom : List QOb) : CQInv (cqInit dom) (TnCat.inLegs (axes dom)) dom := by
  refine ⟨by simp [cqInit, TnCat.initial], ?_, ?_, by simp [cqInit], by simp [cqInit], by simp [cqInit]⟩
  · intro l hl
    obtain ⟨k, hk, rfl⟩ := List.mem_map.1 hl
    simpa [cqInit, TnCat.initial, axes] using List.mem_range.1 hk
  · intro l hl
    rw [cqInit_legs] at hl
    exact legOK_initial _ l hl

theorem cqInit_V {dom : List QOb} {x s : List Nat} (hx : x ∈ cqI.idx dom) (hs : s ∈ cqI.idx dom) :
    (cqInit dom).V (TnCat.inLegs (axes dom)) (flat dom x) dom s = if s = x then 1 else 0 := by
  obtain ⟨h1, h2, h3⟩ := bits_of hs
  have lc : (cqInit dom).c.length = (cOf dom s).length := by rw [h1.1]; simp [cqInit]
  have l1 : (cqInit dom).q1.length = (qOf dom s).length := by rw [h2.1]; simp [cqInit]
  have l2 : (cqInit dom).q2.length = (rOf dom s).length := by rw [h3.1]; simp [cqInit]
  rw [CQState.V, Net.P]
  simp only [List.map_append, map_fst_zip' _ _ lc, map_snd_zip' _ _ lc, map_fst_zip' _ _ l1, map_snd_zip' _ _ l1, map_fst_zip' _ _ l2, map_snd_zip' _ _ l2]
  rw [cqInit_legs]
  have := TnCat.initial_W (R := ℂ) (List.replicate (axes dom) 2) (flat dom x) (flat dom s) ((bits_iff _ _).1 (flat_bits hx)) ((bits_iff _ _).1 (flat_bits hs))
  rw [List.length_replicate] at this
  refine this.trans (if_congr ?_ rfl rfl)
  refine ⟨fun h => ?_, fun h => by rw [h]⟩
  obtain ⟨g1, g2, g3⟩ := bits_of hx
  obtain ⟨e1, e2⟩ := List.append_inj h (by rw [h1.1, g1.1])
  obtain ⟨e2, e3⟩ := List.append_inj e2 (by rw [h2.1, g2.1])
  exact of_inj hs hx e1 e2 e3

/-! ## Pure circuits -/

/-- The tensor of the box for mixed evaluation is the product of its tensor with the conjugate of its tensor. -/
def Dbl (b : QBox) : Prop := (∀ o ∈ b.dom ++ b.cod, o = QOb.qubit) ∧ ∀ k ∈ cqI.idx b.dom, ∀ o ∈ cqI.idx b.cod,
  cqI.ten b k o = tnCat.interp.ten b (qOf b.dom k) (qOf b.cod o) * star (tnCat.interp.ten b (rOf b.dom k) (rOf b.cod o))

theorem dbl_good {b : QBox} (hg : b.Good) (hm : b.isMixed = false) (hq : ∀ o ∈ b.dom ++ b.cod, o = QOb.qubit) : Dbl b := by
  refine ⟨hq, fun k _ o _ => ?_⟩
  obtain ⟨a, ea, _⟩ := hg.array_ok
  have : cqTen b k o = cqVal b (cOf b.dom k) (qOf b.dom k) (rOf b.dom k) (cOf b.cod o) (qOf b.cod o) (rOf b.cod o) := by
    cases b <;> first | rfl | exact hg.elim
  show cqTen b k o = _
  rw [this, cqVal, if_neg (by simp [hm]), ea, tnCat_std.ten hg.kind ea, tnCat_std.ten hg.kind ea]

theorem dbl_swap : Dbl (swap .qubit .qubit) := by
  refine ⟨by simp [dom, cod, sig], fun k hk o ho => ?_⟩
  obtain ⟨a, k, rfl, ha, hk⟩ := idx_cons hk
  obtain ⟨b, k, rfl, hb, hk⟩ := idx_cons hk
  obtain ⟨c, o, rfl, hc, ho⟩ := idx_cons ho
  obtain ⟨d, o, rfl, hd, ho⟩ := idx_cons ho
  obtain rfl : k = [] := by simpa [Interp.idx] using hk
  obtain rfl : o = [] := by simpa [Interp.idx] using ho
  have h4 : cqDim .qubit = 4 := rfl
  rw [h4] at ha hb hc hd
  show (if [c, d] = [a, b].reverse then (1 : ℂ) else 0) = (if [c / 2, d / 2] = [a / 2, b / 2].reverse then 1 else 0) *
    star (if [c % 2, d % 2] = [a % 2, b % 2].reverse then 1 else 0)
  simp only [List.reverse_cons, List.reverse_nil, List.nil_append, List.cons_append, List.cons.injEq, and_true]
  have : (c = b ∧ d = a) ↔ (c / 2 = b / 2 ∧ d / 2 = a / 2) ∧ (c % 2 = b % 2 ∧ d % 2 = a % 2) := by omega
  by_cases h1 : c / 2 = b / 2 ∧ d / 2 = a / 2 <;> by_cases h2 : c % 2 = b % 2 ∧ d % 2 = a % 2 <;> simp only [this, h1, h2, if_true, if_false, and_true, true_and, and_false, false_and, star_one, star_zero, mul_one, mul_zero, zero_mul]

theorem act_double {l : Layer QOb QBox} (hl : ∀ o ∈ l.left ++ l.right, o = QOb.qubit) (hb : Dbl l.box) {f g v : List Nat → ℂ}
    (hv : ∀ s ∈ cqI.idx l.dom, v s = f (qOf l.dom s) * star (g (rOf l.dom s))) :
    ∀ s ∈ cqI.idx l.cod, cqI.act l v s = tnCat.interp.act l f (qOf l.cod s) * star (tnCat.interp.act l g (rOf l.cod s)) := by
  obtain ⟨left, b, right⟩ := l
  intro s hs
  rw [Layer.cod, List.append_assoc] at hs
  obtain ⟨sl, s2, rfl, h1, h2⟩ := cqI.mem_append hs
  obtain ⟨so, sr, rfl, h3, h4⟩ := cqI.mem_append h2
  change sl ∈ cqI.idx left at h1
  change so ∈ cqI.idx b.cod at h3
  change sr ∈ cqI.idx right at h4
  have hdq := count_qubits (t := b.dom) (fun o ho => hb.1 o (List.mem_append_left _ ho))
  have hcq := count_qubits (t := b.cod) (fun o ho => hb.1 o (List.mem_append_right _ ho))
  have hlq := count_qubits (t := left) (fun o ho => hl o (List.mem_append_left _ ho))
  obtain ⟨a1, a2, a3⟩ := of_append (t := left) (t' := b.cod ++ right) (s := sl) (s' := so ++ sr) (cqI.length_of_mem h1)
  obtain ⟨b1, b2, b3⟩ := of_append (t := b.cod) (t' := right) (s := so) (s' := sr) (cqI.length_of_mem h3)
  obtain ⟨_, c2, c3⟩ := bits_of h1
  obtain ⟨_, d2, d3⟩ := bits_of h3
  have hcodd : Layer.cod (⟨left, b, right⟩ : Layer QOb QBox) = left ++ (b.cod ++ right) := List.append_assoc _ _ _
  have hdomm : Layer.dom (⟨left, b, right⟩ : Layer QOb QBox) = left ++ (b.dom ++ right) := List.append_assoc _ _ _
  rw [hcodd, a2, a3, b2, b3]
  rw [cqI.act_split _ _ _ (cqI.length_of_mem h1) (cqI.length_of_mem h3),
    tnCat.interp.act_split _ _ _ (by rw [c2.1]; exact hlq.2) (by rw [d2.1]; exact hcq.2),
    tnCat.interp.act_split _ _ _ (by rw [c3.1]; exact hlq.2) (by rw [d3.1]; exact hcq.2)]
  change ∑ k ∈ cqI.idx b.dom, v (sl ++ (k ++ sr)) * cqI.ten b k so = (∑ i ∈ tnCat.interp.idx b.dom, f (qOf left sl ++ (i ++ qOf right sr)) * tnCat.interp.ten b i (qOf b.cod so)) *
    star (∑ i ∈ tnCat.interp.idx b.dom, g (rOf left sl ++ (i ++ rOf right sr)) * tnCat.interp.ten b i (rOf b.cod so))
  rw [idx_allBits, star_sum, Finset.sum_mul_sum]
  have := sum_cq b.dom (fun _ q r => f (qOf left sl ++ (q ++ qOf right sr)) * tnCat.interp.ten b q (qOf b.cod so) *
    star (g (rOf left sl ++ (r ++ rOf right sr)) * tnCat.interp.ten b r (rOf b.cod so)))
  rw [hdq.1, hdq.2, sum_allBits_zero] at this
  rw [← this]
  refine Finset.sum_congr rfl (fun k hk => ?_)
  have hmem : sl ++ (k ++ sr) ∈ cqI.idx (left ++ (b.dom ++ right)) := cqI.append_mem h1 (cqI.append_mem hk h4)
  obtain ⟨e1, e2, e3⟩ := of_append (t := left) (t' := b.dom ++ right) (s := sl) (s' := k ++ sr) (cqI.length_of_mem h1)
  obtain ⟨f1, f2, f3⟩ := of_append (t := b.dom) (t' := right) (s := k) (s' := sr) (cqI.length_of_mem hk)
  have hv' := hv (sl ++ (k ++ sr)) (by rw [hdomm]; exact hmem)
  rw [hdomm, e2, e3, f2, f3] at hv'
  rw [hv', hb.2 k hk so h3, star_mul']
  ring

theorem run_double {a c : List QOb} (ls : List (Layer QOb QBox)) (ha : ∀ o ∈ a, o = QOb.qubit) (hc : Chain a ls c) (hb : ∀ l ∈ ls, Dbl l.box) {f g v : List Nat → ℂ}
    (hv : ∀ s ∈ cqI.idx a, v s = f (qOf a s) * star (g (rOf a s))) :
    (∀ o ∈ c, o = QOb.qubit) ∧ ∀ s ∈ cqI.idx c, cqI.run ls v s = tnCat.interp.run ls f (qOf c s) * star (tnCat.interp.run ls g (rOf c s)) := by
  induction ls generalizing a f g v with
  | nil =>
    obtain rfl : a = c := hc
    exact ⟨ha, hv⟩
  | cons l ls ih =>
    obtain ⟨h1, h2⟩ := hc
    subst h1
    have hbl := hb l (by simp)
    obtain ⟨left, b, right⟩ := l
    have hleft : ∀ o ∈ left ++ right, o = QOb.qubit := fun o ho => ha o (by
      have := List.mem_append.1 ho
      simp only [Layer.dom, List.mem_append]; tauto)
    refine ih (a := Layer.cod ⟨left, b, right⟩) ?_ h2 (fun m hm => hb m (List.mem_cons_of_mem _ hm)) (act_double hleft hbl hv)
    intro o ho
    simp only [Layer.cod, List.mem_append] at ho
    rcases ho with (ho | ho) | ho
    · exact hleft o (List.mem_append_left _ ho)
    · exact hbl.1 o (List.mem_append_right _ ho)
    · exact hleft o (List.mem_append_right _ ho)

theorem allQubit_cOf {t : List QOb} (h : ∀ o ∈ t, o = QOb.qubit) (s : List Nat) : cOf t s = [] := by
  induction t generalizing s with
  | nil => rfl
  | cons o t ih =>
    obtain rfl := h o (by simp)
    cases s with
    | nil => rfl
    | cons a s => exact ih (fun o ho => h o (List.mem_cons_of_mem _ ho)) s

/-- The mixed matrix of a pure circuit is the product of its matrix with the conjugate of its matrix. -/
theorem mat_double {d : Diagram QOb QBox} (hw : d.WT) (hq : ∀ o ∈ d.dom, o = QOb.qubit) (hb : ∀ l ∈ d.layers, Dbl l.box) :
    (∀ o ∈ d.cod, o = QOb.qubit) ∧ ∀ x ∈ cqI.idx d.dom, ∀ y ∈ cqI.idx d.cod,
      cqI.mat d x y = tnCat.interp.mat d (qOf d.dom x) (qOf d.cod y) * star (tnCat.interp.mat d (rOf d.dom x) (rOf d.cod y)) := by
  have key : ∀ x ∈ cqI.idx d.dom, ∀ s ∈ cqI.idx d.dom, (if s = x then (1 : ℂ) else 0) =
      (if qOf d.dom s = qOf d.dom x then 1 else 0) * star (if rOf d.dom s = rOf d.dom x then 1 else 0) := by
    intro x hx s hs
    by_cases h : s = x
    · subst h; simp
    · rw [if_neg h]
      by_cases h1 : qOf d.dom s = qOf d.dom x
      · have h2 : rOf d.dom s ≠ rOf d.dom x := fun h2 => h (of_inj hs hx (by rw [allQubit_cOf hq, allQubit_cOf hq]) h1 h2)
        simp [h1, h2]
      · simp [h1]
  refine ⟨(run_double d.layers hq hw hb (f := fun _ => 0) (g := fun _ => 0) (v := fun _ => 0) (by simp)).1, fun x hx y hy => ?_⟩
  exact (run_double d.layers hq hw hb (f := fun z => if z = qOf d.dom x then 1 else 0) (g := fun z => if z = rOf d.dom x then 1 else 0) (key x hx)).2 y hy

end
end QBox
end Lambeq
