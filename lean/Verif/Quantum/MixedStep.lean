import Verif.Quantum.MixedProps

/-!
# Mixed evaluation of circuits (C74): one round of the loop
-/

namespace Lambeq
open Diagram
set_option linter.unusedSectionVars false
set_option linter.unusedSimpArgs false

namespace QBox
noncomputable section

/-- One round keeps the invariant and acts on the contraction as the layer does. -/
def StepOK (st : CQState) (inp : List Leg) (l : Layer QOb QBox) : Prop :=
  ∃ st', cqStep st l = .ok st' ∧ CQInv st' inp l.cod ∧
    ∀ x s, inp.length = x.length → s ∈ cqI.idx l.cod → st'.V inp x l.cod s = cqI.act l (st.V inp x l.dom) s

theorem StepOK.mk {st : CQState} {inp : List Leg} {left right D C : List QOb} {b : QBox} (hD : b.dom = D) (hC : b.cod = C) (st' : CQState)
    (e : cqStep st ⟨left, b, right⟩ = .ok st') (hinv : CQInv st' inp (left ++ C ++ right))
    (h : ∀ x sl so sr, inp.length = x.length → sl ∈ cqI.idx left → so ∈ cqI.idx C → sr ∈ cqI.idx right →
      st'.V inp x (left ++ C ++ right) (sl ++ (so ++ sr)) = ∑ k ∈ cqI.idx D, st.V inp x (left ++ D ++ right) (sl ++ (k ++ sr)) * cqI.ten b k so) :
    StepOK st inp ⟨left, b, right⟩ := by
  subst hD; subst hC
  refine ⟨st', e, hinv, fun x s hx hs => ?_⟩
  rw [Layer.cod, List.append_assoc] at hs
  obtain ⟨sl, s2, rfl, h1, h2⟩ := cqI.mem_append hs
  obtain ⟨so, sr, rfl, h3, h4⟩ := cqI.mem_append h2
  rw [cqI.act_split _ _ _ (cqI.length_of_mem h1) (cqI.length_of_mem h3)]
  exact h x sl so sr hx h1 h3 h4

/-- The invariant of the state at a layer. -/
theorem CQInv.at {st : CQState} {inp : List Leg} {left right D : List QOb} {b : QBox} (hD : b.dom = D) (h : CQInv st inp (Layer.dom ⟨left, b, right⟩)) :
    CQInv st inp (left ++ D ++ right) := by subst hD; exact h

theorem mem3 {α : Type} {a b c a' b' c' a'' b'' c'' : List α} {x : α} :
    x ∈ a ++ b ++ c ++ (a' ++ b' ++ c' ++ (a'' ++ b'' ++ c'')) ↔ x ∈ a ∨ x ∈ b ∨ x ∈ c ∨ x ∈ a' ∨ x ∈ b' ∨ x ∈ c' ∨ x ∈ a'' ∨ x ∈ b'' ∨ x ∈ c'' := by
  simp only [List.mem_append]; tauto

theorem step_cswap {st : CQState} {inp : List Leg} {l : Layer QOb QBox} (hinv : CQInv st inp l.dom) (hb : l.box = swap .bit .bit)
    (hcount : l.left.count .bit = l.left.count .qubit) : StepOK st inp l := by
  obtain ⟨left, box, right⟩ := l
  obtain rfl : box = swap .bit .bit := hb
  replace hinv := hinv.at (D := [.bit, .bit]) rfl
  obtain ⟨cl, cm, cr, pl, pm, pr, rl, rm, rr, e, h1, h2, h3, h4, h5, h6, h7, h8, h9⟩ := hinv.split
  obtain ⟨n, c, q1, q2⟩ := st
  simp only [CQState.mk.injEq, true_and] at e
  obtain ⟨rfl, rfl, rfl⟩ := e
  obtain ⟨a, b, rfl⟩ : ∃ a b, cm = [a, b] := List.length_eq_two.1 h2
  refine StepOK.mk (D := [.bit, .bit]) (C := [.bit, .bit]) rfl rfl ⟨n, cl ++ [b, a] ++ cr, pl ++ pm ++ pr, rl ++ rm ++ rr⟩ ?_ ⟨hinv.hconns, hinv.hinp, fun x hx => hinv.hleg x ?_, ?_, ?_, ?_⟩ ?_
  · simp only [cqStep, classicalSwap, if_true]
    rw [swapLegs_ok cl cr a b (h1.trans hcount)]
  · rw [mem3] at hx ⊢
    simp only [List.mem_cons, List.not_mem_nil, or_false] at hx ⊢
    tauto
  · have := hinv.lc; simpa using this
  · exact hinv.l1
  · exact hinv.l2
  · intro x sl so sr hx hl ho hr
    rw [sum_swap .bit .bit _ ho]
    obtain ⟨u, s, rfl, hu, hs⟩ := idx_cons ho
    obtain ⟨v, s, rfl, hv, hs⟩ := idx_cons hs
    obtain rfl : s = [] := by simpa [Interp.idx] using hs
    rw [V_split n inp x hx hl ho cl [b, a] cr pl pm pr rl rm rr h1 rfl h4 h5 h7 h8, show [u, v].reverse = [v, u] from rfl,
      V_split n inp x hx hl ((cqI.mem_idx _ _).2 (.cons hv (.cons hu .nil))) cl [a, b] cr pl pm pr rl rm rr h1 rfl h4 h5 h7 h8]
    obtain rfl : pm = [] := List.length_eq_zero_iff.1 h5
    obtain rfl : rm = [] := List.length_eq_zero_iff.1 h8
    refine Net.P_congr inp x hx (fun _ => Iff.rfl) (fun e => ?_)
    simp [flat, cOf, qOf, rOf]
    tauto

theorem step_qswap {st : CQState} {inp : List Leg} {l : Layer QOb QBox} (hinv : CQInv st inp l.dom) (hb : l.box = swap .qubit .qubit) : StepOK st inp l := by
  obtain ⟨left, box, right⟩ := l
  obtain rfl : box = swap .qubit .qubit := hb
  replace hinv := hinv.at (D := [.qubit, .qubit]) rfl
  obtain ⟨cl, cm, cr, pl, pm, pr, rl, rm, rr, e, h1, h2, h3, h4, h5, h6, h7, h8, h9⟩ := hinv.split
  obtain ⟨n, c, q1, q2⟩ := st
  simp only [CQState.mk.injEq, true_and] at e
  obtain ⟨rfl, rfl, rfl⟩ := e
  obtain ⟨a, b, rfl⟩ : ∃ a b, pm = [a, b] := List.length_eq_two.1 h5
  obtain ⟨a', b', rfl⟩ : ∃ a b, rm = [a, b] := List.length_eq_two.1 h8
  refine StepOK.mk (D := [.qubit, .qubit]) (C := [.qubit, .qubit]) rfl rfl ⟨n, cl ++ cm ++ cr, pl ++ [b, a] ++ pr, rl ++ [b', a'] ++ rr⟩ ?_ ⟨hinv.hconns, hinv.hinp, fun x hx => hinv.hleg x ?_, ?_, ?_, ?_⟩ ?_
  · simp only [cqStep, classicalSwap, isDiscard, isMixed, if_false, Bool.false_eq_true]
    rw [swapLegs_ok pl pr a b h4, swapLegs_ok rl rr a' b' h7]
  · rw [mem3] at hx ⊢
    simp only [List.mem_cons, List.not_mem_nil, or_false] at hx ⊢
    tauto
  · exact hinv.lc
  · have := hinv.l1; simpa using this
  · have := hinv.l2; simpa using this
  · intro x sl so sr hx hl ho hr
    rw [sum_swap .qubit .qubit _ ho]
    obtain ⟨u, s, rfl, hu, hs⟩ := idx_cons ho
    obtain ⟨v, s, rfl, hv, hs⟩ := idx_cons hs
    obtain rfl : s = [] := by simpa [Interp.idx] using hs
    rw [V_split n inp x hx hl ho cl cm cr pl [b, a] pr rl [b', a'] rr h1 h2 h4 rfl h7 rfl, show [u, v].reverse = [v, u] from rfl,
      V_split n inp x hx hl ((cqI.mem_idx _ _).2 (.cons hv (.cons hu .nil))) cl cm cr pl [a, b] pr rl [a', b'] rr h1 h2 h4 rfl h7 rfl]
    obtain rfl : cm = [] := List.length_eq_zero_iff.1 h2
    refine Net.P_congr inp x hx (fun _ => Iff.rfl) (fun e => ?_)
    simp [flat, cOf, qOf, rOf]
    tauto

theorem step_discard {st : CQState} {inp : List Leg} {l : Layer QOb QBox} (hinv : CQInv st inp l.dom) (hb : l.box = discard) : StepOK st inp l := by
  obtain ⟨left, box, right⟩ := l
  obtain rfl : box = discard := hb
  replace hinv := hinv.at (D := [.qubit]) rfl
  obtain ⟨cl, cm, cr, pl, pm, pr, rl, rm, rr, e, h1, h2, h3, h4, h5, h6, h7, h8, h9⟩ := hinv.split
  obtain ⟨n, c, q1, q2⟩ := st
  simp only [CQState.mk.injEq, true_and] at e
  obtain ⟨rfl, rfl, rfl⟩ := e
  obtain rfl : cm = [] := List.length_eq_zero_iff.1 h2
  obtain ⟨a, rfl⟩ : ∃ a, pm = [a] := List.length_eq_one_iff.1 h5
  obtain ⟨b, rfl⟩ : ∃ a, rm = [a] := List.length_eq_one_iff.1 h8
  have ha := hinv.hleg a (by simp)
  have hb := hinv.hleg b (by simp)
  refine StepOK.mk (D := [.qubit]) (C := []) rfl rfl ⟨⟨n.nodes, n.conns ++ [(a, b)]⟩, cl ++ [] ++ cr, pl ++ [] ++ pr, rl ++ [] ++ rr⟩ ?_ ⟨?_, hinv.hinp, fun x hx => ?_, ?_, ?_, ?_⟩ ?_
  · simp only [cqStep, classicalSwap, isDiscard, if_true, if_false, Bool.false_eq_true]
    have e1 : (pl ++ [a] ++ pr)[left.count .qubit]? = some a := by rw [← h4]; simp
    have e2 : (rl ++ [b] ++ rr)[left.count .qubit]? = some b := by rw [← h7]; simp
    simp only [e1, e2, Net.connect, ha.2, hb.2, if_true, List.append_nil]
    have e3 : ∀ {u v : List Leg} {w : Leg}, u.length = left.count .qubit → (u ++ [w] ++ v).eraseIdx (left.count .qubit) = u ++ v := by
      intro u v w h
      rw [← h, List.append_assoc, List.eraseIdx_append_of_length_le (le_refl _)]
      simp
    rw [e3 h4, e3 h7]
  · intro c hc
    rcases List.mem_append.1 hc with hc | hc
    · exact hinv.hconns c hc
    · obtain rfl := List.mem_singleton.1 hc
      exact ⟨ha.1.lt, hb.1.lt⟩
  · have := hinv.hleg x (by
      rw [mem3] at hx ⊢
      simp only [List.mem_cons, List.not_mem_nil, or_false, false_or] at hx ⊢
      tauto)
    exact this
  · have := hinv.lc; simpa using this
  · simp [h4, h6]
  · simp [h7, h9]
  · intro x sl so sr hx hl ho hr
    obtain rfl : so = [] := by simpa [Interp.idx] using ho
    rw [V_split _ inp x hx hl (m := []) (k := []) ho cl [] cr pl [] pr rl [] rr h1 rfl h4 rfl h7 rfl, P_cup n inp _ a b ha.1 ha.2 hb.1 hb.2 x hx]
    have hs : ∀ g : List Nat → ℂ, ∑ k ∈ cqI.idx [.qubit], g k = g [0] + g [1] + g [2] + g [3] := by
      intro g
      rw [Interp.sum_idx_cons]
      simp [cqI, cqDim, Finset.sum_range_succ, Interp.idx]
    have hm : ∀ i, i < 4 → [i] ∈ cqI.idx [.qubit] := fun i hi => (cqI.mem_idx _ _).2 (.cons hi .nil)
    have ht : ∀ i, i < 4 → cqI.ten discard [i] [] = if i % 2 = i / 2 then 1 else 0 := by
      intro i hi
      exact TnCat.get_copyArray_two 2 (i / 2) (i % 2) (by omega) (by omega)
    rw [hs, ht 0 (by omega), ht 1 (by omega), ht 2 (by omega), ht 3 (by omega)]
    simp only [Nat.reduceDiv, Nat.reduceMod, if_true, mul_one, Nat.one_ne_zero, Nat.zero_ne_one, if_false, mul_zero, add_zero]
    rw [V_split n inp x hx hl (hm 0 (by omega)) cl [] cr pl [a] pr rl [b] rr h1 rfl h4 rfl h7 rfl,
      V_split n inp x hx hl (hm 3 (by omega)) cl [] cr pl [a] pr rl [b] rr h1 rfl h4 rfl h7 rfl]
    rfl

theorem mem_alternate {xs ys : List (Leg × Leg)} (h : xs.length = ys.length) (e : Leg × Leg) : e ∈ alternate xs ys ↔ e ∈ xs ∨ e ∈ ys := by
  induction xs generalizing ys with
  | nil => cases ys <;> simp_all [alternate]
  | cons x xs ih =>
    cases ys with
    | nil => simp at h
    | cons y ys =>
      have := ih (ys := ys) (by simpa using h)
      simp only [alternate, List.zip_cons_cons, List.flatMap_cons, List.mem_append, List.mem_cons, List.not_mem_nil, or_false] at this ⊢
      rw [this]
      tauto

theorem length_legsOf (m i j : Nat) : (TnCat.legsOf m i j).length = j - i := by simp [TnCat.legsOf]

theorem legsOf_append (m : Nat) {i j k : Nat} (h : i ≤ j) (h' : j ≤ k) : TnCat.legsOf m i k = TnCat.legsOf m i j ++ TnCat.legsOf m j k := by
  unfold TnCat.legsOf
  rw [show k - i = (j - i) + (k - j) by omega, List.range_add, List.map_append, List.map_map]
  congr 1
  refine List.map_congr_left (fun x _ => ?_)
  simp only [Function.comp_apply, Leg.mk.injEq, true_and]
  omega

theorem legOK_new (n : Net ℂ) (a : NdArray ℂ) (cs : List (Leg × Leg)) {k i j : Nat} (hj : j ≤ k) (hs : a.shape = List.replicate k 2) {l : Leg}
    (h : l ∈ TnCat.legsOf n.nodes.length i j) : LegOK (⟨n.nodes ++ [a], cs⟩ : Net ℂ) l ∧ (⟨n.nodes ++ [a], cs⟩ : Net ℂ).legDim l = 2 := by
  obtain ⟨x, hx, rfl⟩ := List.mem_map.1 h
  have hx := List.mem_range.1 hx
  refine ⟨⟨a, by simp, by rw [hs]; simp; omega⟩, ?_⟩
  rw [TnCat.legDim_new, hs, List.getD_eq_getElem?_getD, List.getElem?_replicate, if_pos (by omega)]
  rfl

theorem legOK_old {n : Net ℂ} (a : NdArray ℂ) (cs : List (Leg × Leg)) {l : Leg} (h : LegOK n l ∧ n.legDim l = 2) :
    LegOK (⟨n.nodes ++ [a], cs⟩ : Net ℂ) l ∧ (⟨n.nodes ++ [a], cs⟩ : Net ℂ).legDim l = 2 :=
  ⟨TnCat.LegOK.mono _ _ h.1, by rw [TnCat.legDim_old _ _ h.1.lt, h.2]⟩

theorem sum_flat (t : List QOb) (g : List Nat → ℂ) :
    ∑ k ∈ cqI.idx t, g (flat t k) = ∑ i ∈ shapeIdx (List.replicate (t.count .bit + (t.count .qubit + t.count .qubit)) 2), g i := by
  show _ = ∑ i ∈ allBits _, g i
  rw [sum_allBits_add]
  simp only [sum_allBits_add]
  exact sum_cq t (fun c q r => g (c ++ (q ++ r)))

theorem flat_bits {t : List QOb} {s : List Nat} (h : s ∈ cqI.idx t) : Bits (t.count .bit + (t.count .qubit + t.count .qubit)) (flat t s) :=
  let ⟨h1, h2, h3⟩ := bits_of h
  h1.append (h2.append h3)

/-- The number of axes of a type. -/
def axes (t : List QOb) : Nat := t.count .bit + (t.count .qubit + t.count .qubit)

theorem step_node {st : CQState} {inp : List Leg} {left right : List QOb} {b : QBox} (hinv : CQInv st inp (left ++ b.dom ++ right)) {a : NdArray ℂ}
    (hm : b.isMixed = true) (hd : b.isDiscard = false) (ha : b.mixedNode = .ok a) (hs : a.shape = List.replicate (axes b.dom + axes b.cod) 2) :
    StepOK st inp ⟨left, b, right⟩ := by
  obtain ⟨cl, cm, cr, pl, pm, pr, rl, rm, rr, e, h1, h2, h3, h4, h5, h6, h7, h8, h9⟩ := hinv.split
  obtain ⟨n, c, q1, q2⟩ := st
  simp only [CQState.mk.injEq, true_and] at e
  obtain ⟨rfl, rfl, rfl⟩ := e
  have hsw : b.classicalSwap = false := by cases b <;> first | rfl | simp [isMixed] at hm
  have hten : ∀ k o, cqI.ten b k o = a.get (flat b.dom k ++ flat b.cod o) := by
    intro k o
    have hn : b.cqNode = .ok a := by rw [← ha]; cases b <;> first | rfl | simp [isDiscard] at hd
    have : cqTen b k o = cqVal b (cOf b.dom k) (qOf b.dom k) (rOf b.dom k) (cOf b.cod o) (qOf b.cod o) (rOf b.cod o) := by
      cases b <;> first | rfl | simp [isMixed] at hm
    show cqTen b k o = _
    rw [this, cqVal, if_pos hm, hn]
    rfl
  have hlen : a.shape.length = axes b.dom + axes b.cod := by rw [hs, List.length_replicate]
  -- abbreviations
  obtain ⟨cd, hcd⟩ : ∃ m, m = b.dom.count .bit := ⟨_, rfl⟩
  obtain ⟨qd, hqd⟩ : ∃ m, m = b.dom.count .qubit := ⟨_, rfl⟩
  obtain ⟨cc, hcc⟩ : ∃ m, m = b.cod.count .bit := ⟨_, rfl⟩
  obtain ⟨qc, hqc⟩ : ∃ m, m = b.cod.count .qubit := ⟨_, rfl⟩
  have haxd : axes b.dom = cd + (qd + qd) := by rw [axes, ← hcd, ← hqd]
  have haxc : axes b.cod = cc + (qc + qc) := by rw [axes, ← hcc, ← hqc]
  rw [haxd, haxc] at hlen hs
  rw [← hcd] at h2
  rw [← hqd] at h5 h8
  set m := n.nodes.length with hmdef
  set K := cm.zip (TnCat.legsOf m 0 cd) ++ alternate (pm.zip (TnCat.legsOf m cd (cd + qd))) (rm.zip (TnCat.legsOf m (cd + qd) (cd + 2 * qd))) with hK
  have hKmem : ∀ e, e ∈ K ↔ e ∈ (cm ++ (pm ++ rm)).zip (TnCat.legsOf m 0 (cd + (qd + qd))) := by
    intro e
    rw [legsOf_append m (Nat.zero_le cd) (by omega), legsOf_append m (i := cd) (j := cd + qd) (by omega) (by omega),
      zip_append' (by rw [length_legsOf, h2]; omega), zip_append' (by rw [length_legsOf, h5]; omega), hK, List.mem_append, mem_alternate, List.mem_append, List.mem_append,
      show cd + 2 * qd = cd + (qd + qd) by omega]
    simp only [List.length_zip, length_legsOf, h5, h8]
    omega
  have hold : ∀ y ∈ cm ++ (pm ++ rm), LegOK n y ∧ n.legDim y = 2 := fun y hy => hinv.hleg y (by
    rw [mem3]; simp only [List.mem_append] at hy; tauto)
  have hconn : TnCat.connectAll ⟨n.nodes ++ [a], n.conns⟩ K = .ok ⟨n.nodes ++ [a], n.conns ++ K⟩ := by
    refine connectAll_ok _ _ (fun p hp => ?_)
    have hp := (hKmem p).1 hp
    have q1 := List.of_mem_zip hp
    rw [(legOK_old a n.conns (hold p.1 q1.1)).2, (legOK_new n a n.conns (k := cd + (qd + qd) + (cc + (qc + qc))) (by omega) hs q1.2).2]
  refine StepOK.mk rfl rfl ⟨⟨n.nodes ++ [a], n.conns ++ K⟩, cl ++ TnCat.legsOf m (cd + 2 * qd) (cd + 2 * qd + cc) ++ cr,
    pl ++ TnCat.legsOf m (cd + 2 * qd + cc) (cd + 2 * qd + cc + qc) ++ pr, rl ++ TnCat.legsOf m (cd + 2 * qd + cc + qc) (cd + 2 * qd + cc + (qc + qc)) ++ rr⟩ ?_ ⟨?_, ?_, ?_, ?_, ?_, ?_⟩ ?_
  · simp only [cqStep, hsw, hd, hm, ha, Bool.false_eq_true, if_false, if_true, ← hcd, ← hqd, ← hcc, ← hqc]
    rw [if_neg (by omega), getLegs_ok cl cm cr h1 h2, getLegs_ok pl pm pr h4 h5, getLegs_ok rl rm rr h7 h8]
    simp only [← hmdef]
    rw [← hK, hconn]
    simp only [(take_split cl cm cr h1 h2).1, (take_split cl cm cr h1 h2).2, (take_split pl pm pr h4 h5).1, (take_split pl pm pr h4 h5).2,
      (take_split rl rm rr h7 h8).1, (take_split rl rm rr h7 h8).2]
    rw [show min (cd + 2 * qd) a.shape.length = cd + 2 * qd by omega, show min (cd + 2 * qd + cc) a.shape.length = cd + 2 * qd + cc by omega,
      show min (cd + 2 * qd + cc + qc) a.shape.length = cd + 2 * qd + cc + qc by omega, show a.shape.length = cd + 2 * qd + cc + (qc + qc) by omega]
  · intro p hp
    simp only [List.length_append, List.length_cons, List.length_nil]
    rcases List.mem_append.1 hp with hp | hp
    · have := hinv.hconns p hp; simp only at this; omega
    · have q1 := List.of_mem_zip ((hKmem p).1 hp)
      have q2 := (hold p.1 q1.1).1.lt
      obtain ⟨y, hy, e⟩ := List.mem_map.1 q1.2
      rw [← e]
      simp only
      omega
  · intro y hy
    have := hinv.hinp y hy
    simp only [List.length_append, List.length_cons, List.length_nil] at this ⊢
    omega
  · intro y hy
    rw [mem3] at hy
    rcases hy with hy | hy | hy | hy | hy | hy | hy | hy | hy
    · exact legOK_old a _ (hinv.hleg y (by rw [mem3]; tauto))
    · exact legOK_new n a _ (k := cd + (qd + qd) + (cc + (qc + qc))) (by omega) hs hy
    · exact legOK_old a _ (hinv.hleg y (by rw [mem3]; tauto))
    · exact legOK_old a _ (hinv.hleg y (by rw [mem3]; tauto))
    · exact legOK_new n a _ (k := cd + (qd + qd) + (cc + (qc + qc))) (by omega) hs hy
    · exact legOK_old a _ (hinv.hleg y (by rw [mem3]; tauto))
    · exact legOK_old a _ (hinv.hleg y (by rw [mem3]; tauto))
    · exact legOK_new n a _ (k := cd + (qd + qd) + (cc + (qc + qc))) (by omega) hs hy
    · exact legOK_old a _ (hinv.hleg y (by rw [mem3]; tauto))
  · simp only [List.length_append, List.count_append, length_legsOf, h1, h3, ← hcc]; omega
  · simp only [List.length_append, List.count_append, length_legsOf, h4, h6, ← hqc]; omega
  · simp only [List.length_append, List.count_append, length_legsOf, h7, h9, ← hqc]; omega
  · intro x sl so sr hx hl ho hr
    rw [V_split _ inp x hx hl ho cl _ cr pl _ pr rl _ rr h1 (by rw [length_legsOf, ← hcc]; omega) h4 (by rw [length_legsOf, ← hqc]; omega) h7
      (by rw [length_legsOf, ← hqc]; omega)]
    have hfo : InShape (List.replicate (cc + (qc + qc)) 2) (flat b.cod so) := by
      have := flat_bits ho; rw [← hcc, ← hqc] at this; exact (bits_iff _ _).1 this
    have key := P_addNode n inp (cm ++ (pm ++ rm)) (restOf left right cl cr pl pr rl rr sl sr) a (List.replicate (cd + (qd + qd)) 2) (List.replicate (cc + (qc + qc)) 2)
      (by rw [hs, List.replicate_append_replicate]) hinv.hconns hinv.hinp (fun y hy => (hold y hy).1.lt)
      (by
        intro y hy
        simp only [restOf, List.mem_append] at hy
        have hin : ∀ (u : List Leg) (w : List Nat), y ∈ u.zip w → y.1 ∈ u := fun u w h => (List.of_mem_zip h).1
        have : y.1 ∈ cl ∨ y.1 ∈ cr ∨ y.1 ∈ pl ∨ y.1 ∈ pr ∨ y.1 ∈ rl ∨ y.1 ∈ rr := by
          rcases hy with h | h | h | h | h | h
          · exact .inl (hin _ _ h)
          · exact .inr (.inl (hin _ _ h))
          · exact .inr (.inr (.inl (hin _ _ h)))
          · exact .inr (.inr (.inr (.inl (hin _ _ h))))
          · exact .inr (.inr (.inr (.inr (.inl (hin _ _ h)))))
          · exact .inr (.inr (.inr (.inr (.inr (hin _ _ h)))))
        exact (hinv.hleg y.1 (by rw [mem3]; tauto)).1.lt)
      (by simp [h2, h5, h8]) x (flat b.cod so) hx hfo
    refine Eq.trans ?_ (key.trans ?_)
    · refine Net.P_congr inp x hx (fun p => ?_) (fun p => ?_)
      · simp only [List.mem_append, hKmem, List.length_replicate]
        rfl
      · have E : TnCat.legsOf m (cd + (qd + qd)) a.shape.length = TnCat.legsOf m (cd + 2 * qd) (cd + 2 * qd + cc) ++
            (TnCat.legsOf m (cd + 2 * qd + cc) (cd + 2 * qd + cc + qc) ++ TnCat.legsOf m (cd + 2 * qd + cc + qc) (cd + 2 * qd + cc + (qc + qc))) := by
          rw [← legsOf_append m (by omega) (by omega), ← legsOf_append m (by omega) (by omega)]
          congr 1
          · omega
          · omega
        rw [List.length_replicate, ← hmdef, E]
    · have hsum := sum_flat b.dom (fun i => n.P inp x ((cm ++ (pm ++ rm)).zip i ++ restOf left right cl cr pl pr rl rr sl sr) * a.get (i ++ flat b.cod so))
      rw [← hcd, ← hqd] at hsum
      rw [← hsum]
      refine Finset.sum_congr rfl (fun k hk => ?_)
      rw [V_split n inp x hx hl hk cl cm cr pl pm pr rl rm rr h1 (h2.trans hcd) h4 (h5.trans hqd) h7 (h8.trans hqd), hten]

theorem count_qubits {t : List QOb} (h : ∀ o ∈ t, o = .qubit) : t.count .bit = 0 ∧ t.count .qubit = t.length := by
  refine ⟨List.count_eq_zero.2 (fun hb => by have := h _ hb; cases this), List.count_eq_length.2 (fun o ho => (h o ho).symm)⟩

theorem restOf_old {st : CQState} {inp : List Leg} {t left right : List QOb} {cl cm cr pl pm pr rl rm rr : List Leg} {n : Net ℂ}
    (hinv : CQInv ⟨n, cl ++ cm ++ cr, pl ++ pm ++ pr, rl ++ rm ++ rr⟩ inp t) (sl sr : List Nat) :
    ∀ y ∈ restOf left right cl cr pl pr rl rr sl sr, LegOK n y.1 := by
  intro y hy
  simp only [restOf, List.mem_append] at hy
  have hin : ∀ (u : List Leg) (w : List Nat), y ∈ u.zip w → y.1 ∈ u := fun u w h => (List.of_mem_zip h).1
  have : y.1 ∈ cl ∨ y.1 ∈ cr ∨ y.1 ∈ pl ∨ y.1 ∈ pr ∨ y.1 ∈ rl ∨ y.1 ∈ rr := by
    rcases hy with h | h | h | h | h | h
    · exact .inl (hin _ _ h)
    · exact .inr (.inl (hin _ _ h))
    · exact .inr (.inr (.inl (hin _ _ h)))
    · exact .inr (.inr (.inr (.inl (hin _ _ h))))
    · exact .inr (.inr (.inr (.inr (.inl (hin _ _ h)))))
    · exact .inr (.inr (.inr (.inr (.inr (hin _ _ h)))))
  exact (hinv.hleg y.1 (by rw [mem3]; tauto)).1

theorem step_pure {st : CQState} {inp : List Leg} {left right : List QOb} {b : QBox} (hinv : CQInv st inp (left ++ b.dom ++ right)) {a : NdArray ℂ}
    (hm : b.isMixed = false) (hk : b.kind = .other) (hq : ∀ o ∈ b.dom ++ b.cod, o = .qubit) (ha : b.array = .ok a) (hok : a.OK)
    (hs : a.shape = List.replicate (b.dom.length + b.cod.length) 2) :
    StepOK st inp ⟨left, b, right⟩ := by
  obtain ⟨cl, cm, cr, pl, pm, pr, rl, rm, rr, e, h1, h2, h3, h4, h5, h6, h7, h8, h9⟩ := hinv.split
  obtain ⟨n, c, q1, q2⟩ := st
  simp only [CQState.mk.injEq, true_and] at e
  obtain ⟨rfl, rfl, rfl⟩ := e
  have hdq := count_qubits (t := b.dom) (fun o ho => hq o (List.mem_append_left _ ho))
  have hcq := count_qubits (t := b.cod) (fun o ho => hq o (List.mem_append_right _ ho))
  have hsw : b.classicalSwap = false := by cases b <;> first | rfl | simp [kind] at hk
  have hd : b.isDiscard = false := by cases b <;> first | rfl | simp [isMixed] at hm
  have hten : ∀ k o, cqI.ten b k o = a.get (qOf b.dom k ++ qOf b.cod o) * star (a.get (rOf b.dom k ++ rOf b.cod o)) := by
    intro k o
    have : cqTen b k o = cqVal b (cOf b.dom k) (qOf b.dom k) (rOf b.dom k) (cOf b.cod o) (qOf b.cod o) (rOf b.cod o) := by
      cases b <;> first | rfl | simp [kind] at hk
    show cqTen b k o = _
    rw [this, cqVal, if_neg (by simp [hm]), ha]
  obtain rfl : cm = [] := List.length_eq_zero_iff.1 (h2.trans hdq.1)
  obtain ⟨d, hdd⟩ : ∃ m, m = b.dom.length := ⟨_, rfl⟩
  obtain ⟨k, hkk⟩ : ∃ m, m = b.cod.length := ⟨_, rfl⟩
  rw [hdq.2, ← hdd] at h5 h8
  rw [← hdd, ← hkk] at hs
  have hlen : a.shape.length = d + k := by rw [hs, List.length_replicate]
  set m := n.nodes.length with hmdef
  set n1 : Net ℂ := ⟨n.nodes ++ [a], n.conns ++ pm.zip (TnCat.legsOf m 0 d)⟩ with hn1
  set n2 : Net ℂ := ⟨n1.nodes ++ [a.conj], n1.conns ++ rm.zip (TnCat.legsOf (m + 1) 0 d)⟩ with hn2
  have hm1 : n1.nodes.length = m + 1 := by simp [hn1, hmdef]
  have hsc : a.conj.shape = List.replicate (d + k) 2 := hs
  set K := alternate (pm.zip (TnCat.legsOf m 0 d)) (rm.zip (TnCat.legsOf (m + 1) 0 d)) with hK
  have hKmem : ∀ e, e ∈ K ↔ e ∈ pm.zip (TnCat.legsOf m 0 d) ∨ e ∈ rm.zip (TnCat.legsOf (m + 1) 0 d) := by
    intro e
    rw [hK, mem_alternate (by simp [length_legsOf, h5, h8])]
  have hnodes : n.nodes ++ [a, a.conj] = n2.nodes := by simp [hn2, hn1]
  have hold : ∀ y, y ∈ cl ∨ y ∈ cr ∨ y ∈ pl ∨ y ∈ pm ∨ y ∈ pr ∨ y ∈ rl ∨ y ∈ rm ∨ y ∈ rr → LegOK n y ∧ n.legDim y = 2 :=
    fun y hy => hinv.hleg y (by rw [mem3]; tauto)
  -- legs of the new net
  have up : ∀ cs y, LegOK n y ∧ n.legDim y = 2 → LegOK ⟨n2.nodes, cs⟩ y ∧ Net.legDim ⟨n2.nodes, cs⟩ y = 2 := by
    intro cs y hy
    have := legOK_old (n := n1) a.conj cs (legOK_old (n := n) a (n.conns ++ pm.zip (TnCat.legsOf m 0 d)) hy)
    exact this
  have new1 : ∀ cs y i j, j ≤ d + k → y ∈ TnCat.legsOf m i j → LegOK ⟨n2.nodes, cs⟩ y ∧ Net.legDim ⟨n2.nodes, cs⟩ y = 2 := by
    intro cs y i j hj hy
    exact legOK_old (n := n1) a.conj cs (legOK_new n a (n.conns ++ pm.zip (TnCat.legsOf m 0 d)) hj hs hy)
  have new2 : ∀ cs y i j, j ≤ d + k → y ∈ TnCat.legsOf (m + 1) i j → LegOK ⟨n2.nodes, cs⟩ y ∧ Net.legDim ⟨n2.nodes, cs⟩ y = 2 := by
    intro cs y i j hj hy
    rw [← hm1] at hy
    exact legOK_new n1 a.conj cs hj hsc hy
  have hconn : TnCat.connectAll ⟨n.nodes ++ [a, a.conj], n.conns⟩ K = .ok ⟨n2.nodes, n.conns ++ K⟩ := by
    rw [hnodes]
    refine connectAll_ok _ _ (fun p hp => ?_)
    rcases (hKmem p).1 hp with hp | hp
    · have q1 := List.of_mem_zip hp
      rw [(up n.conns p.1 (hold p.1 (by tauto))).2, (new1 n.conns p.2 0 d (by omega) q1.2).2]
    · have q1 := List.of_mem_zip hp
      rw [(up n.conns p.1 (hold p.1 (by tauto))).2, (new2 n.conns p.2 0 d (by omega) q1.2).2]
  have hc1 : ∀ c ∈ n1.conns, c.1.node < n1.nodes.length ∧ c.2.node < n1.nodes.length := by
    intro p hp
    rw [hm1]
    rcases List.mem_append.1 hp with hp | hp
    · have := hinv.hconns p hp; simp only at this; omega
    · have q1 := List.of_mem_zip hp
      have q2 := (hold p.1 (by tauto)).1.lt
      obtain ⟨y, hy, e⟩ := List.mem_map.1 q1.2
      rw [← e]
      simp only
      omega
  refine StepOK.mk rfl rfl ⟨⟨n2.nodes, n.conns ++ K⟩, cl ++ [] ++ cr, pl ++ TnCat.legsOf m d (d + k) ++ pr, rl ++ TnCat.legsOf (m + 1) d (d + k) ++ rr⟩
    ?_ ⟨?_, ?_, ?_, ?_, ?_, ?_⟩ ?_
  · have hbr : cqStep ⟨n, cl ++ [] ++ cr, pl ++ pm ++ pr, rl ++ rm ++ rr⟩ ⟨left, b, right⟩ = (match b.array with
      | .error e => .error e
      | .ok a =>
        match getLegs (pl ++ pm ++ pr) (left.count .qubit) b.dom.length, getLegs (rl ++ rm ++ rr) (left.count .qubit) b.dom.length with
        | .ok l1, .ok l2 =>
          match TnCat.connectAll ⟨n.nodes ++ [a, a.conj], n.conns⟩ (alternate (l1.zip (TnCat.legsOf m 0 b.dom.length)) (l2.zip (TnCat.legsOf (m + 1) 0 b.dom.length))) with
          | .error e => .error e
          | .ok n => .ok ⟨n, cl ++ [] ++ cr, (pl ++ pm ++ pr).take (left.count .qubit) ++ TnCat.legsOf m b.dom.length a.shape.length ++ (pl ++ pm ++ pr).drop (left.count .qubit + b.dom.length),
              (rl ++ rm ++ rr).take (left.count .qubit) ++ TnCat.legsOf (m + 1) b.dom.length a.shape.length ++ (rl ++ rm ++ rr).drop (left.count .qubit + b.dom.length)⟩
        | .error e, _ => .error e
        | _, .error e => .error e) := by
      unfold cqStep
      simp only [hsw, hd, hm, Bool.false_eq_true, if_false]
      cases b <;> first | rfl | simp [kind] at hk
    rw [hbr, ha]
    simp only [← hdd, getLegs_ok pl pm pr h4 h5, getLegs_ok rl rm rr h7 h8]
    rw [← hK, hconn]
    simp only [(take_split pl pm pr h4 h5).1, (take_split pl pm pr h4 h5).2, (take_split rl rm rr h7 h8).1, (take_split rl rm rr h7 h8).2, hlen]
  · intro p hp
    have hlen2 : n2.nodes.length = m + 2 := by simp [hn2, hm1]
    show p.1.node < n2.nodes.length ∧ p.2.node < n2.nodes.length
    rw [hlen2]
    rcases List.mem_append.1 hp with hp | hp
    · have := hinv.hconns p hp; simp only at this; omega
    · rcases (hKmem p).1 hp with hp | hp
      · have q1 := List.of_mem_zip hp
        have q2 := (hold p.1 (by tauto)).1.lt
        obtain ⟨y, hy, e⟩ := List.mem_map.1 q1.2
        rw [← e]; simp only; omega
      · have q1 := List.of_mem_zip hp
        have q2 := (hold p.1 (by tauto)).1.lt
        obtain ⟨y, hy, e⟩ := List.mem_map.1 q1.2
        rw [← e]; simp only; omega
  · intro y hy
    have := hinv.hinp y hy
    show y.node < n2.nodes.length
    have hlen2 : n2.nodes.length = m + 2 := by simp [hn2, hm1]
    simp only at this
    omega
  · intro y hy
    rw [mem3] at hy
    rcases hy with hy | hy | hy | hy | hy | hy | hy | hy | hy
    · exact up _ y (hold y (by tauto))
    · simp at hy
    · exact up _ y (hold y (by tauto))
    · exact up _ y (hold y (by tauto))
    · exact new1 _ y _ _ (by omega) hy
    · exact up _ y (hold y (by tauto))
    · exact up _ y (hold y (by tauto))
    · exact new2 _ y _ _ (by omega) hy
    · exact up _ y (hold y (by tauto))
  · simp only [List.length_append, List.count_append, h1, h3, hcq.1, List.length_nil]
  · simp only [List.length_append, List.count_append, length_legsOf, h4, h6, hcq.2, ← hkk]; omega
  · simp only [List.length_append, List.count_append, length_legsOf, h7, h9, hcq.2, ← hkk]; omega
  · intro x sl so sr hx hl ho hr
    obtain ⟨o1, o2, o3⟩ := bits_of ho
    rw [hcq.1] at o1
    rw [hcq.2, ← hkk] at o2 o3
    have hco := o1.eq_nil
    rw [V_split _ inp x hx hl ho cl [] cr pl _ pr rl _ rr h1 hcq.1.symm h4 (by rw [length_legsOf, hcq.2, ← hkk]; omega) h7
      (by rw [length_legsOf, hcq.2, ← hkk]; omega)]
    set rest := restOf left right cl cr pl pr rl rr sl sr with hrest
    have hro : ∀ y ∈ rest, LegOK n y.1 := restOf_old (st := ⟨n, [], [], []⟩) hinv sl sr
    set u := qOf b.cod so with hu
    set v := rOf b.cod so with hv
    have E1 : Net.P ⟨n2.nodes, n.conns ++ K⟩ inp x (([] ++ (TnCat.legsOf m d (d + k) ++ TnCat.legsOf (m + 1) d (d + k))).zip (flat b.cod so) ++ rest) =
        Net.P n2 inp x ((TnCat.legsOf (m + 1) d (d + k)).zip v ++ ((TnCat.legsOf m d (d + k)).zip u ++ rest)) := by
      refine Net.P_congr inp x hx (fun p => ?_) (fun p => ?_)
      · simp only [List.mem_append, hKmem, hn1]
        tauto
      · rw [flat, hco, List.nil_append, List.nil_append, zip_append' (by rw [length_legsOf, o2.1]; omega)]
        simp only [List.mem_append]
        tauto
    rw [E1]
    have key2 := P_addNode n1 inp rm ((TnCat.legsOf m d (d + k)).zip u ++ rest) a.conj (List.replicate d 2) (List.replicate k 2)
      (by rw [hsc, List.replicate_append_replicate]) hc1
      (fun y hy => by have := hinv.hinp y hy; simp only at this; rw [hm1]; omega)
      (fun y hy => by have := (hold y (by tauto)).1.lt; rw [hm1]; omega)
      (fun y hy => by
        rw [hm1]
        rcases List.mem_append.1 hy with hy | hy
        · obtain ⟨z, hz, e⟩ := List.mem_map.1 (List.of_mem_zip hy).1
          rw [← e]; simp only; omega
        · have := (hro y hy).lt; omega)
      (by simp [h8]) x v hx ((bits_iff _ _).1 o3)
    have hl2 : a.conj.shape.length = d + k := by rw [hsc, List.length_replicate]
    rw [List.length_replicate, hm1, hl2] at key2
    rw [← hn2] at key2
    rw [key2]
    have key1 : ∀ j, Bits d j → n1.P inp x (rm.zip j ++ ((TnCat.legsOf m d (d + k)).zip u ++ rest)) =
        ∑ i ∈ shapeIdx (List.replicate d 2), n.P inp x (pm.zip i ++ (rm.zip j ++ rest)) * a.get (i ++ u) := by
      intro j hj
      have key1 := P_addNode n inp pm (rm.zip j ++ rest) a (List.replicate d 2) (List.replicate k 2)
        (by rw [hs, List.replicate_append_replicate]) hinv.hconns hinv.hinp
        (fun y hy => (hold y (by tauto)).1.lt)
        (fun y hy => by
          rcases List.mem_append.1 hy with hy | hy
          · have := (List.of_mem_zip hy).1
            exact (hold y.1 (by tauto)).1.lt
          · exact (hro y hy).lt)
        (by simp [h5]) x u hx ((bits_iff _ _).1 o2)
      rw [List.length_replicate, hlen] at key1
      rw [← key1]
      refine Net.P_congr inp x hx (fun p => Iff.rfl) (fun p => ?_)
      simp only [List.mem_append]
      tauto
    have hrhs : ∀ q ∈ cqI.idx b.dom, CQState.V ⟨n, cl ++ [] ++ cr, pl ++ pm ++ pr, rl ++ rm ++ rr⟩ inp x (left ++ b.dom ++ right) (sl ++ (q ++ sr)) * cqI.ten b q so =
        n.P inp x (pm.zip (qOf b.dom q) ++ (rm.zip (rOf b.dom q) ++ rest)) * (a.get (qOf b.dom q ++ u) * star (a.get (rOf b.dom q ++ v))) := by
      intro q hq
      obtain ⟨q1, q2, q3⟩ := bits_of hq
      rw [hdq.1] at q1
      rw [hdq.2, ← hdd] at q2 q3
      rw [V_split n inp x hx hl hq cl [] cr pl pm pr rl rm rr h1 hdq.1.symm h4 (by rw [h5, hdq.2, hdd]) h7 (by rw [h8, hdq.2, hdd]), hten, flat, q1.eq_nil,
        List.nil_append, List.nil_append, zip_append' (by rw [h5, q2.1]), List.append_assoc]
    rw [Finset.sum_congr rfl hrhs, sum_cq b.dom (fun _ q r => n.P inp x (pm.zip q ++ (rm.zip r ++ rest)) * (a.get (q ++ u) * star (a.get (r ++ v)))), hdq.1,
      sum_allBits_zero, hdq.2, ← hdd, Finset.sum_comm]
    refine Finset.sum_congr rfl (fun j hj => ?_)
    have hj := mem_allBits.1 hj
    rw [key1 j hj, Finset.sum_mul]
    refine Finset.sum_congr rfl (fun i hi => ?_)
    have hjv : InShape a.shape (j ++ v) := by rw [hs]; exact (bits_iff _ _).1 (hj.append o3)
    rw [NdArray.get_conj a hok hjv]
    ring

end
end QBox
end Lambeq
