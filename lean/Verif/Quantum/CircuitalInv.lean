import Verif.Quantum.CircuitalSort

/-!
# Conversion to circuital form: the gates, the initialisation and the discards (C84)
-/

namespace Lambeq
open Diagram
set_option linter.unusedSectionVars false
set_option linter.unusedSimpArgs false

namespace QBox
noncomputable section

/-! ## What the loop does to gates -/

theorem pull_mem {ls : List (Layer QOb QBox)} (h : ∀ l ∈ ls, Pullable l) (p : Nat) : ∀ l' ∈ (pull p ls).1, Pullable l' ∧ ∃ l ∈ ls, SameKind l.box l'.box := by
  induction ls generalizing p with
  | nil => intro l' hl'; cases hl'
  | cons l ls ih =>
    intro l' hl'
    rcases List.mem_append.1 hl' with hl' | hl'
    · obtain ⟨k1, k2⟩ := pullStep_kind (h l (by simp)) p l' hl'
      exact ⟨k1, l, by simp, k2⟩
    · obtain ⟨k1, l2, k2, k3⟩ := ih (fun l hl => h l (List.mem_cons_of_mem _ hl)) _ l' hl'
      exact ⟨k1, l2, List.mem_cons_of_mem _ k2, k3⟩

/-- Every property of boxes that does not depend on the distances of controls is preserved. -/
theorem circLoop_inv {P : QBox → Prop} (hP : ∀ b b', SameKind b b' → P b → P b') (kets gates post rest : List (Layer QOb QBox)) :
    (∀ l ∈ gates, Pullable l ∧ P l.box) → (∀ l ∈ rest, Pullable l ∧ (l.box.isKet = true ∨ l.box.isEnd = true ∨ P l.box)) →
    ∀ l ∈ (circLoop kets gates post rest).2.1, P l.box := by
  induction kets, gates, post, rest using circLoop.induct with
  | case1 kets gates post => intro h1 _ l hl; rw [circLoop] at hl; exact (h1 l hl).2
  | case2 kets gates post l rest hket ih =>
    intro h1 h2
    rw [circLoop, if_pos hket]
    refine ih (fun l' hl' => ?_) (fun l hl => h2 l (List.mem_cons_of_mem _ hl))
    obtain ⟨k1, l2, k2, k3⟩ := pull_mem (fun l hl => (h1 l hl).1) _ l' hl'
    exact ⟨k1, hP _ _ k3 (h1 l2 k2).2⟩
  | case3 kets gates post l rest hket hend ih =>
    intro h1 h2
    rw [circLoop, if_neg hket, if_pos hend]
    refine ih h1 (fun l' hl' => ?_)
    obtain ⟨k1, l2, k2, k3⟩ := pull_mem (fun l hl => (h2 l (List.mem_cons_of_mem _ hl)).1) _ l' hl'
    refine ⟨k1, ?_⟩
    rw [k3.kind.1, k3.kind.2.1]
    rcases (h2 l2 (List.mem_cons_of_mem _ k2)).2 with h | h | h
    · exact .inl h
    · exact .inr (.inl h)
    · exact .inr (.inr (hP _ _ k3 h))
  | case4 kets gates post l rest hket hend ih =>
    intro h1 h2
    rw [circLoop, if_neg hket, if_neg hend]
    refine ih (fun l' hl' => ?_) (fun l hl => h2 l (List.mem_cons_of_mem _ hl))
    rcases List.mem_append.1 hl' with hl' | hl'
    · exact h1 l' hl'
    · rw [List.mem_singleton.1 hl']
      obtain ⟨k1, k2⟩ := h2 l (by simp)
      rcases k2 with k2 | k2 | k2
      · exact absurd k2 hket
      · exact absurd k2 hend
      · exact ⟨k1, k2⟩

/-- After a measurement there are only measurements, post-selections, discards and initialisations. -/
def MeasLast (l l' : Layer QOb QBox) : Prop := l.box.isMeasure = true → l'.box.isMeasure = true ∨ l'.box.isEnd = true ∨ l'.box.isKet = true

theorem MeasLast.kind {a b a' b' : Layer QOb QBox} (h : MeasLast a b) (h1 : SameKind a.box a'.box) (h2 : SameKind b.box b'.box) : MeasLast a' b' := by
  unfold MeasLast at *
  rw [h1.kind.2.2, h2.kind.1, h2.kind.2.1, h2.kind.2.2]
  exact h

theorem SameKind.refl (b : QBox) : SameKind b b := .inl rfl

theorem pull_order {ls : List (Layer QOb QBox)} (h : ∀ l ∈ ls, Pullable l) (ho : ls.Pairwise MeasLast) (p : Nat) : (pull p ls).1.Pairwise MeasLast := by
  induction ls generalizing p with
  | nil => exact List.Pairwise.nil
  | cons l ls ih =>
    have hl := List.pairwise_cons.1 ho
    have h' : ∀ l ∈ ls, Pullable l := fun l hl => h l (List.mem_cons_of_mem _ hl)
    refine List.pairwise_append.2 ⟨?_, ih h' hl.2 _, ?_⟩
    · refine List.Pairwise.imp_of_mem (fun {a b} ha hb (_ : True) hm => .inl ?_) (List.pairwise_of_forall (fun _ _ => trivial))
      obtain ⟨-, k1⟩ := pullStep_kind (h l (by simp)) p a ha
      obtain ⟨-, k2⟩ := pullStep_kind (h l (by simp)) p b hb
      rw [k2.kind.2.2, ← k1.kind.2.2]; exact hm
    · intro a ha b hb
      obtain ⟨-, k1⟩ := pullStep_kind (h l (by simp)) p a ha
      obtain ⟨-, l2, k2, k3⟩ := pull_mem h' _ b hb
      exact (hl.1 l2 k2).kind k1 k3

theorem circLoop_order (kets gates post rest : List (Layer QOb QBox)) : (∀ l ∈ gates ++ rest, Pullable l) → (gates ++ rest).Pairwise MeasLast →
    (circLoop kets gates post rest).2.1.Pairwise MeasLast := by
  induction kets, gates, post, rest using circLoop.induct with
  | case1 kets gates post => intro _ h; rw [circLoop]; rw [List.append_nil] at h; exact h
  | case2 kets gates post l rest hket ih =>
    intro h1 h2
    rw [circLoop, if_pos hket]
    have hg : ∀ l ∈ gates, Pullable l := fun l hl => h1 l (List.mem_append_left _ hl)
    obtain ⟨a1, a2, a3⟩ := List.pairwise_append.1 h2
    refine ih (fun l' hl' => ?_) (List.pairwise_append.2 ⟨pull_order hg a1 _, (List.pairwise_cons.1 a2).2, fun a ha b hb => ?_⟩)
    · rcases List.mem_append.1 hl' with hl' | hl'
      · exact (pull_mem hg _ l' hl').1
      · exact h1 l' (by simp [hl'])
    · obtain ⟨-, l2, k2, k3⟩ := pull_mem hg _ a ha
      exact (a3 l2 k2 b (List.mem_cons_of_mem _ hb)).kind k3 (.refl _)
  | case3 kets gates post l rest hket hend ih =>
    intro h1 h2
    rw [circLoop, if_neg hket, if_pos hend]
    have hr : ∀ l ∈ rest, Pullable l := fun l hl => h1 l (by simp [hl])
    obtain ⟨a1, a2, a3⟩ := List.pairwise_append.1 h2
    refine ih (fun l' hl' => ?_) (List.pairwise_append.2 ⟨a1, pull_order hr (List.pairwise_cons.1 a2).2 _, fun a ha b hb => ?_⟩)
    · rcases List.mem_append.1 hl' with hl' | hl'
      · exact h1 l' (by simp [hl'])
      · exact (pull_mem hr _ l' hl').1
    · obtain ⟨-, l2, k2, k3⟩ := pull_mem hr _ b hb
      exact (a3 a ha l2 (List.mem_cons_of_mem _ k2)).kind (.refl _) k3
  | case4 kets gates post l rest hket hend ih =>
    intro h1 h2
    rw [circLoop, if_neg hket, if_neg hend]
    exact ih (fun l' hl' => h1 l' (by simpa using hl')) (by simpa using h2)

/-! ## Kets and bras of 1 -/

theorem ketVal_eq (b : Bool) {s : Nat} (hs : s < 4) : ketVal b s = if s = (if b then 3 else 0) then 1 else 0 := by
  show cqVal (ket b) [] [] [] [] [s / 2] [s % 2] = _
  simp only [cqVal, isMixed, array]
  interval_cases s <;> cases b <;> simp [NdArray.get, ravel]

theorem endVal_bra (b : Bool) {s : Nat} (hs : s < 4) : endVal (bra b) s = if s = (if b then 3 else 0) then 1 else 0 := by
  show cqVal (bra b) [] [s / 2] [s % 2] [] [] [] = _
  simp only [cqVal, isMixed, array]
  interval_cases s <;> cases b <;> simp [NdArray.get, ravel]

theorem ten_X {i s : Nat} (hi : i < 4) (hs : s < 4) : cqI.ten X [i] [s] = if i + s = 3 then 1 else 0 := by
  show cqVal X [] [i / 2] [i % 2] [] [s / 2] [s % 2] = _
  simp only [cqVal, isMixed, array, X, TBox.array, qDims, NdArray.reshape]
  interval_cases i <;> interval_cases s <;> simp [NdArray.get, ravel]

theorem act_X (L R : List QOb) (V : List Nat → ℂ) {yl yr : List Nat} {s : Nat} (hl : yl.length = L.length) (hs : s < 4) :
    cqI.act ⟨L, X, R⟩ V (yl ++ s :: yr) = V (yl ++ (3 - s) :: yr) := by
  have h := cqI.act_split ⟨L, X, R⟩ V (yl := yl) (c := [s]) yr hl rfl
  refine (show cqI.act ⟨L, X, R⟩ V (yl ++ ([s] ++ yr)) = _ from h).trans ?_
  show ∑ i ∈ cqI.idx [QOb.qubit], _ = _
  rw [cqI.sum_idx_cons, Finset.sum_eq_single (3 - s)]
  · rw [sum_cqIdx_nil]
    show V _ * cqI.ten X [3 - s] [s] = _
    rw [ten_X (by omega) hs, if_pos (by omega), mul_one]
    simp
  · intro i hi hne
    rw [sum_cqIdx_nil]
    show V _ * cqI.ten X [i] [s] = _
    rw [ten_X (Finset.mem_range.1 hi) hs, if_neg (by omega), mul_zero]
  · intro h
    exact absurd (Finset.mem_range.2 (show 3 - s < 4 by omega)) h

theorem ketbra_layer (l : Layer QOb QBox) : Chain l.dom (ketbraLayer l) l.cod ∧ ∀ (V : List Nat → ℂ), ∀ y ∈ cqI.idx l.cod, cqI.run (ketbraLayer l) V y = cqI.act l V y := by
  obtain ⟨L, b, R⟩ := l
  have other : ketbraLayer ⟨L, b, R⟩ = [⟨L, b, R⟩] → Chain (Layer.dom ⟨L, b, R⟩) (ketbraLayer ⟨L, b, R⟩) (Layer.cod ⟨L, b, R⟩) ∧
      ∀ (V : List Nat → ℂ), ∀ y ∈ cqI.idx (Layer.cod ⟨L, b, R⟩), cqI.run (ketbraLayer ⟨L, b, R⟩) V y = cqI.act ⟨L, b, R⟩ V y := by
    intro h
    rw [h]
    exact ⟨⟨rfl, rfl⟩, fun V y _ => rfl⟩
  cases b with
  | ket v =>
    cases v with
    | false => exact other rfl
    | true =>
      refine ⟨⟨rfl, rfl, rfl⟩, fun V y hy => ?_⟩
      have hy : y ∈ cqI.idx (L ++ [.qubit] ++ R) := hy
      rw [List.append_assoc] at hy
      obtain ⟨yl, y2, rfl, m1, m2⟩ := cqI.mem_append hy
      obtain ⟨s, yr, rfl, hs, -⟩ := idx_cons m2
      have hs : s < 4 := hs
      have k1 := cqI.length_of_mem m1
      show cqI.act ⟨L, X, R⟩ (cqI.act ⟨L, ket false, R⟩ V) _ = _
      rw [act_X L R _ k1 hs, act_ket false L R V k1, act_ket true L R V k1, ketVal_eq _ hs, ketVal_eq _ (by omega)]
      congr 1
      refine if_congr ?_ rfl rfl
      simp; omega
  | bra v =>
    cases v with
    | false => exact other rfl
    | true =>
      refine ⟨⟨rfl, rfl, rfl⟩, fun V y hy => ?_⟩
      have hy : y ∈ cqI.idx (L ++ [] ++ R) := hy
      rw [List.append_nil] at hy
      obtain ⟨yl, yr, rfl, m1, m2⟩ := cqI.mem_append hy
      have k1 := cqI.length_of_mem m1
      show cqI.act ⟨L, bra false, R⟩ (cqI.act ⟨L, X, R⟩ V) _ = _
      rw [act_end (b := bra false) rfl rfl _ k1, act_end (b := bra true) rfl rfl _ k1]
      have e1 : ∀ s ∈ Finset.range 4, endVal (bra false) s * cqI.act ⟨L, X, R⟩ V (yl ++ s :: yr) = if s = 0 then V (yl ++ 3 :: yr) else 0 := by
        intro s hs
        rw [endVal_bra _ (Finset.mem_range.1 hs), act_X L R V k1 (Finset.mem_range.1 hs)]
        by_cases h : s = 0 <;> simp [h]
      have e2 : ∀ s ∈ Finset.range 4, endVal (bra true) s * V (yl ++ s :: yr) = if s = 3 then V (yl ++ 3 :: yr) else 0 := by
        intro s hs
        rw [endVal_bra _ (Finset.mem_range.1 hs)]
        by_cases h : s = 3 <;> simp [h]
      rw [Finset.sum_congr rfl e1, Finset.sum_congr rfl e2, Finset.sum_ite_eq', Finset.sum_ite_eq']
      simp
  | gen => exact other rfl
  | selfConj => exact other rfl
  | swap => exact other rfl
  | controlled => exact other rfl
  | rot => exact other rfl
  | scalar => exact other rfl
  | sqrt => exact other rfl
  | daggered => exact other rfl
  | bit => exact other rfl
  | discard => exact other rfl
  | mixedState => exact other rfl
  | measure => exact other rfl
  | encode => exact other rfl

theorem ketbra_all {a c : List QOb} {ls : List (Layer QOb QBox)} (hc : Chain a ls c) : Chain a (ls.flatMap ketbraLayer) c ∧
    ∀ (V : List Nat → ℂ), ∀ y ∈ cqI.idx c, cqI.run (ls.flatMap ketbraLayer) V y = cqI.run ls V y := by
  induction ls generalizing a with
  | nil => exact ⟨hc, fun _ _ _ => rfl⟩
  | cons l ls ih =>
    obtain ⟨rfl, hc⟩ := hc
    obtain ⟨k1, k2⟩ := ketbra_layer l
    obtain ⟨i1, i2⟩ := ih hc
    refine ⟨k1.append i1, fun V y hy => ?_⟩
    rw [List.flatMap_cons, cqI.run_append, i2 _ y hy]
    exact cqI.run_congr hc (fun z hz => k2 V z hz) y hy

/-! ## Initialisation and discards -/

theorem tensor_id_left (d : Diagram QOb QBox) : tensor (Diagram.id []) d = d := by
  obtain ⟨a, c, ls⟩ := d
  have h : ls.map (Layer.extend [] []) = ls := by
    conv_rhs => rw [← List.map_id ls]
    exact List.map_congr_left (fun l _ => by simp [Layer.extend])
  have h1 := tensor_layers (Diagram.id ([] : List QOb)) (⟨a, c, ls⟩ : Diagram QOb QBox)
  have h2 := tensor_dom (Diagram.id ([] : List QOb)) (⟨a, c, ls⟩ : Diagram QOb QBox)
  have h3 := tensor_cod (Diagram.id ([] : List QOb)) (⟨a, c, ls⟩ : Diagram QOb QBox)
  generalize tensor (Diagram.id ([] : List QOb)) (⟨a, c, ls⟩ : Diagram QOb QBox) = e at *
  obtain ⟨a', c', ls'⟩ := e
  simp only [Diagram.id, List.map_nil, List.nil_append] at h1 h2 h3
  subst h1 h2 h3
  congr 1

theorem initPart_qubits (n : Nat) : initPart (qubits n) = (List.replicate n (ofBox (ket false))).foldr tensor (Diagram.id []) := by
  rw [initPart, tensorN_eq_foldr, List.foldr_cons, tensor_id_left]
  congr 1
  simp [qubits]

theorem discardPart_nil : discardPart [] = Diagram.id [] := by
  rw [discardPart, tensorN_eq_foldr, List.foldr_cons, tensor_id_left]; rfl

theorem discardPart_cons (o : QOb) (t : List QOb) : discardPart (o :: t) = tensor (match o with | .qubit => ofBox discard | .bit => Diagram.id [.bit]) (discardPart t) := by
  rw [discardPart, discardPart, tensorN_eq_foldr, tensorN_eq_foldr, List.foldr_cons, List.foldr_cons, tensor_id_left, tensor_id_left]; rfl

theorem initPart_spec (n : Nat) : (initPart (qubits n)).WT ∧ (initPart (qubits n)).dom = [] ∧ (initPart (qubits n)).cod = qubits n ∧
    (∀ l ∈ (initPart (qubits n)).layers, l.box = ket false) ∧ (n ≠ 0 → (initPart (qubits n)).layers ≠ []) ∧
    ∀ y ∈ cqI.idx (qubits n), cqI.mat (initPart (qubits n)) [] y = if y = List.replicate n 0 then 1 else 0 := by
  induction n with
  | zero =>
    rw [initPart_qubits]
    refine ⟨rfl, rfl, rfl, by simp [Diagram.id], by simp, fun y hy => ?_⟩
    rw [List.replicate_zero]
    rfl
  | succ n ih =>
    have e : initPart (qubits (n + 1)) = tensor (ofBox (ket false)) (initPart (qubits n)) := by
      rw [initPart_qubits, initPart_qubits]; rfl
    obtain ⟨i1, i2, i3, i4, i5, i6⟩ := ih
    have hb : (ofBox (ket false) : Diagram QOb QBox).WT := ⟨rfl, rfl⟩
    rw [e]
    refine ⟨hb.tensor i1, ?_, ?_, ?_, ?_, ?_⟩
    · rw [tensor_dom, i2]; rfl
    · rw [tensor_cod, i3]; rfl
    · intro l hl
      rw [tensor_layers] at hl
      rcases List.mem_append.1 hl with hl | hl
      · obtain ⟨l', hl', rfl⟩ := List.mem_map.1 hl
        rw [List.mem_singleton.1 hl']; rfl
      · obtain ⟨l', hl', rfl⟩ := List.mem_map.1 hl
        exact i4 l' hl'
    · intro _ h
      rw [tensor_layers] at h
      simp [ofBox] at h
    · intro y hy
      obtain ⟨s, y, rfl, hs, hy⟩ := idx_cons (o := .qubit) (t := qubits n) hy
      have hs : s < 4 := hs
      have m0 : [] ∈ cqI.idx ([] : List QOb) := by simp [Interp.idx]
      have m1 : [s] ∈ cqI.idx [QOb.qubit] := (cqI.mem_idx _ _).2 (.cons hs .nil)
      have := cqI.mat_tensor (f := ofBox (ket false)) (g := initPart (qubits n)) hb i1 (x1 := []) (x2 := []) (y1 := [s]) (y2 := y) m0 (by rw [i2]; exact m0) m1 (by rw [i3]; exact hy)
      refine this.trans ?_
      rw [cqI.mat_ofBox (ket false) m0 m1, i6 y hy]
      have : cqI.ten (ket false) [] [s] = ketVal false s := rfl
      rw [this, ketVal_eq _ hs, ite_mul_ite]
      refine if_congr ?_ rfl rfl
      rw [List.replicate_succ, List.cons.injEq]
      simp

theorem discardPart_spec (t : List QOb) : (discardPart t).WT ∧ (discardPart t).dom = t ∧ (discardPart t).cod = List.replicate (t.count .bit) .bit ∧
    (∀ l ∈ (discardPart t).layers, l.box = discard) ∧
    ∀ x ∈ cqI.idx t, ∀ y ∈ cqI.idx (List.replicate (t.count QOb.bit) .bit), cqI.mat (discardPart t) x y = if cOf t x = y ∧ qOf t x = rOf t x then 1 else 0 := by
  induction t with
  | nil =>
    rw [discardPart_nil]
    refine ⟨rfl, rfl, rfl, by simp [Diagram.id], fun x hx y hy => ?_⟩
    obtain rfl : x = [] := by simpa [Interp.idx] using hx
    obtain rfl : y = [] := by simpa [Interp.idx] using hy
    simp [Interp.mat, Interp.run, Diagram.id, cOf, qOf, rOf]
  | cons o t ih =>
    obtain ⟨i1, i2, i3, i4, i5⟩ := ih
    have m0 : [] ∈ cqI.idx ([] : List QOb) := by simp [Interp.idx]
    rw [discardPart_cons]
    cases o with
    | bit =>
      refine ⟨WT.tensor (f := Diagram.id [QOb.bit]) rfl i1, ?_, ?_, ?_, ?_⟩
      · rw [tensor_dom, i2]; rfl
      · rw [tensor_cod, i3, (count_cons_bit t).1, List.replicate_succ]; rfl
      · intro l hl
        rw [tensor_layers] at hl
        rcases List.mem_append.1 hl with hl | hl
        · simp [Diagram.id] at hl
        · obtain ⟨l', hl', rfl⟩ := List.mem_map.1 hl
          exact i4 l' hl'
      · intro x hx y hy
        obtain ⟨a, x, rfl, ha, hx⟩ := idx_cons hx
        rw [(count_cons_bit t).1, List.replicate_succ] at hy
        obtain ⟨b, y, rfl, hb, hy⟩ := idx_cons hy
        have := cqI.mat_tensor (f := Diagram.id [QOb.bit]) (g := discardPart t) rfl i1 (x1 := [a]) (x2 := x) (y1 := [b]) (y2 := y)
          ((cqI.mem_idx _ _).2 (.cons ha .nil)) (by rw [i2]; exact hx) ((cqI.mem_idx _ _).2 (.cons hb .nil)) (by rw [i3]; exact hy)
        refine this.trans ?_
        rw [i5 x hx y hy, cqI.mat_id, ite_mul_ite]
        refine if_congr ?_ rfl rfl
        show _ ↔ a :: cOf t x = b :: y ∧ qOf t x = rOf t x
        rw [List.cons.injEq, List.cons.injEq]
        constructor
        · rintro ⟨⟨h1, -⟩, h2, h3⟩; exact ⟨⟨h1.symm, h2⟩, h3⟩
        · rintro ⟨⟨h1, h2⟩, h3⟩; exact ⟨⟨h1.symm, rfl⟩, h2, h3⟩
    | qubit =>
      have hb : (ofBox discard : Diagram QOb QBox).WT := (CQOK.ofBox (.inr (.inr (.inr (.inl rfl))))).wt
      refine ⟨hb.tensor i1, ?_, ?_, ?_, ?_⟩
      · rw [tensor_dom, i2]; rfl
      · rw [tensor_cod, i3, (count_cons_qubit t).1]; rfl
      · intro l hl
        rw [tensor_layers] at hl
        rcases List.mem_append.1 hl with hl | hl
        · obtain ⟨l', hl', rfl⟩ := List.mem_map.1 hl
          rw [List.mem_singleton.1 hl']; rfl
        · obtain ⟨l', hl', rfl⟩ := List.mem_map.1 hl
          exact i4 l' hl'
      · intro x hx y hy
        obtain ⟨a, x, rfl, ha, hx⟩ := idx_cons hx
        have ha4 : a < 4 := ha
        rw [(count_cons_qubit t).1] at hy
        have m1 : [a] ∈ cqI.idx [QOb.qubit] := (cqI.mem_idx _ _).2 (.cons ha .nil)
        have := cqI.mat_tensor (f := ofBox discard) (g := discardPart t) hb i1 (x1 := [a]) (x2 := x) (y1 := []) (y2 := y)
          m1 (by rw [i2]; exact hx) m0 (by rw [i3]; exact hy)
        refine this.trans ?_
        rw [cqI.mat_ofBox discard m1 m0, i5 x hx y hy]
        have e : cqI.ten discard [a] [] = if a / 2 = a % 2 then 1 else 0 := by
          show (copyArray ℂ 2 2).get [a / 2, a % 2] = _
          rw [TnCat.get_copyArray_two _ _ _ (by omega) (by omega)]
          exact if_congr eq_comm rfl rfl
        rw [e, ite_mul_ite]
        refine if_congr ?_ rfl rfl
        show _ ↔ cOf t x = y ∧ a / 2 :: qOf t x = a % 2 :: rOf t x
        rw [List.cons.injEq]
        tauto

theorem discardPart_bits (n : Nat) : (discardPart (List.replicate n QOb.bit)).layers = [] := by
  induction n with
  | zero => rw [List.replicate_zero, discardPart_nil]; rfl
  | succ n ih =>
    rw [List.replicate_succ, discardPart_cons, tensor_layers, ih]
    rfl

/-- `init_and_discard`: the domain is initialised with 0, the qubits of the codomain are discarded. -/
theorem initAndDiscard_spec {d : Diagram QOb QBox} (hw : d.WT) (hd : ∀ o ∈ d.dom, o = QOb.qubit) :
    ∃ e ks ds, initAndDiscard d = .ok e ∧ e.layers = ks ++ (d.layers ++ ds) ∧ e.WT ∧ e.dom = [] ∧ e.cod = List.replicate (d.cod.count .bit) .bit ∧
      (∀ l ∈ ks, l.box = ket false) ∧ (∀ l ∈ ds, l.box = discard) ∧ (d.dom ≠ [] → ks ≠ []) ∧ ks = (initPart d.dom).layers ∧ ds = (discardPart d.cod).layers ∧
      ∀ y ∈ cqI.idx (List.replicate (d.cod.count .bit) QOb.bit), cqI.mat e [] y =
        ∑ z ∈ cqI.idx d.cod, cqI.mat d (List.replicate d.dom.length 0) z * if cOf d.cod z = y ∧ qOf d.cod z = rOf d.cod z then 1 else 0 := by
  have hdq : d.dom = qubits d.dom.length := List.eq_replicate_iff.2 ⟨rfl, hd⟩
  obtain ⟨i1, i2, i3, i4, i5, i6⟩ := initPart_spec d.dom.length
  rw [← hdq] at i1 i2 i3 i4 i5 i6
  obtain ⟨k1, k2, k3, k4, k5⟩ := discardPart_spec d.cod
  have hc1 : ∃ c, (if d.dom ≠ [] then andThen (initPart d.dom) d else .ok d) = .ok c ∧ c = ⟨[], d.cod, (initPart d.dom).layers ++ d.layers⟩ := by
    by_cases h : d.dom = []
    · refine ⟨d, by rw [if_neg (by simp [h])], ?_⟩
      have : (initPart d.dom).layers = [] := by rw [h]; rfl
      rw [this, List.nil_append, ← h]
    · refine ⟨_, ?_, rfl⟩
      rw [if_pos h, andThen_ok_iff]
      exact ⟨i3, by rw [i2]⟩
  obtain ⟨c, hc, rfl⟩ := hc1
  refine ⟨⟨[], List.replicate (d.cod.count .bit) .bit, (initPart d.dom).layers ++ (d.layers ++ (discardPart d.cod).layers)⟩, _, _, ?_, rfl, ?_, rfl, rfl, i4, k4,
    fun h => i5 (fun h0 => h (List.length_eq_zero_iff.1 h0)), rfl, rfl, fun y hy => ?_⟩
  · unfold initAndDiscard
    rw [hc]
    show (if d.cod ≠ List.replicate d.cod.length QOb.bit then andThen _ (discardPart d.cod) else _) = _
    by_cases h : d.cod = List.replicate d.cod.length QOb.bit
    · rw [if_neg (by simpa using h)]
      have e1 : (discardPart d.cod).layers = [] := by rw [h]; exact discardPart_bits _
      have e2 : List.replicate (d.cod.count QOb.bit) QOb.bit = d.cod := by
        conv_rhs => rw [h]
        congr 1
        rw [h, List.count_replicate_self, List.length_replicate]
      rw [e1, e2, List.append_nil]
    · rw [if_pos h, andThen_ok_iff]
      exact ⟨k2.symm, by rw [k3, List.append_assoc]⟩
  · refine Chain.append (b := d.dom) ?_ (Chain.append (b := d.cod) hw ?_)
    · have := i1; unfold WT at this; rw [i2, i3] at this; exact this
    · have := k1; unfold WT at this; rw [k2, k3] at this; exact this
  · unfold Interp.mat
    rw [cqI.run_append, cqI.run_append]
    have hw' : Chain d.dom d.layers d.cod := hw
    have hk1 : Chain d.cod (discardPart d.cod).layers (List.replicate (d.cod.count .bit) .bit) := by
      have := k1; unfold WT at this; rw [k2, k3] at this; exact this
    have hrun := cqI.run_eq_mat (d := discardPart d.cod) k1 (cqI.run d.layers (cqI.run (initPart d.dom).layers fun z => if z = [] then 1 else 0)) (y := y) (by rw [k3]; exact hy)
    rw [hrun, k2]
    refine Finset.sum_congr rfl (fun z hz => ?_)
    rw [k5 z hz y hy]
    congr 1
    refine cqI.run_congr hw' (fun x hx => ?_) z hz
    exact i6 x hx

end
end QBox
end Lambeq
