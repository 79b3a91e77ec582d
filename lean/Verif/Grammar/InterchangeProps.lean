import Verif.Grammar.Normal
import Verif.Grammar.Semantics
import Verif.Grammar.SwapProps

/-!
# Interchange: C24
-/

namespace Lambeq
open Diagram
set_option linter.unusedSectionVars false
set_option linter.unusedSimpArgs false

section Generic
variable {O B : Type} [BoxSig B O]

/-- Splitting an equation of lists at a known length. -/
theorem split_at {α : Type} {a x b y : List α} (h : a ++ x = b ++ y) (hl : b.length ≤ a.length) :
    ∃ m, a = b ++ m ∧ y = m ++ x := by
  rcases List.append_eq_append_iff.1 h with ⟨m, h1, h2⟩ | ⟨m, h1, h2⟩
  · have : m = [] := by
      have := congrArg List.length h1
      simp at this
      exact List.eq_nil_of_length_eq_zero (by omega)
    subst this
    exact ⟨[], by simpa using h1.symm, by simpa using h2.symm⟩
  · exact ⟨m, h1, h2⟩

/-- `ls'` may replace `ls` between the types `a` and `c`: it is well typed and acts in the same way on every
vector in every interpretation. -/
structure Same (a c : List O) (ls ls' : List (Layer O B)) : Prop where
  chain : Chain a ls' c
  run : ∀ {R : Type} [CommSemiring R] (I : Interp O B R) (v : List Nat → R), ∀ y ∈ I.idx c,
    I.run ls v y = I.run ls' v y

namespace Same
variable {a c : List O} {ls ls' ls'' : List (Layer O B)}

theorem refl (h : Chain a ls c) : Same a c ls ls := ⟨h, fun _ _ _ _ => rfl⟩
theorem trans (h : Same a c ls ls') (h' : Same a c ls' ls'') : Same a c ls ls'' :=
  ⟨h'.chain, fun I v y hy => (h.run I v y hy).trans (h'.run I v y hy)⟩
theorem symm (hc : Chain a ls c) (h : Same a c ls ls') : Same a c ls' ls :=
  ⟨hc, fun I v y hy => (h.run I v y hy).symm⟩
end Same

theorem chain_append' {a c : List O} {p q : List (Layer O B)} :
    Chain a (p ++ q) c ↔ ∃ b, Chain a p b ∧ Chain b q c := by
  induction p generalizing a with
  | nil =>
    constructor
    · intro h; exact ⟨a, rfl, h⟩
    · rintro ⟨b, rfl, h⟩; exact h
  | cons l p ih =>
    constructor
    · rintro ⟨h1, h2⟩
      obtain ⟨b, h3, h4⟩ := ih.1 h2
      exact ⟨b, ⟨h1, h3⟩, h4⟩
    · rintro ⟨b, ⟨h1, h2⟩, h3⟩
      exact ⟨h1, ih.2 ⟨b, h2, h3⟩⟩

/-- Replacing a middle segment. -/
theorem Same.context {a b c d : List O} {p m m' s : List (Layer O B)}
    (hp : Chain a p b) (h : Same b c m m') (hs : Chain c s d) :
    Same a d (p ++ m ++ s) (p ++ m' ++ s) := by
  refine ⟨?_, ?_⟩
  · exact chain_append'.2 ⟨c, chain_append'.2 ⟨b, hp, h.chain⟩, hs⟩
  · intro R _ I v y hy
    rw [I.run_append, I.run_append, I.run_append, I.run_append]
    exact I.run_congr hs (fun z hz => h.run I _ z hz) y hy

/-- The exchange law in both directions. -/
theorem same_exchange (l1 m r : List O) (b0 b1 : B) :
    Same (l1 ++ (BoxSig.dom b1 ++ (m ++ (BoxSig.dom b0 ++ r)))) (l1 ++ (BoxSig.cod b1 ++ (m ++ (BoxSig.cod b0 ++ r))))
      [⟨l1 ++ (BoxSig.dom b1 ++ m), b0, r⟩, ⟨l1, b1, m ++ (BoxSig.cod b0 ++ r)⟩]
      [⟨l1, b1, m ++ (BoxSig.dom b0 ++ r)⟩, ⟨l1 ++ (BoxSig.cod b1 ++ m), b0, r⟩] := by
  refine ⟨?_, ?_⟩
  · simp [Chain, Layer.dom, Layer.cod]
  · intro R _ I v y hy
    exact I.act_exchange l1 m r b0 b1 v y hy

theorem chain_exchange (l1 m r : List O) (b0 b1 : B) :
    Chain (l1 ++ (BoxSig.dom b1 ++ (m ++ (BoxSig.dom b0 ++ r))))
      [⟨l1 ++ (BoxSig.dom b1 ++ m), b0, r⟩, ⟨l1, b1, m ++ (BoxSig.cod b0 ++ r)⟩]
      (l1 ++ (BoxSig.cod b1 ++ (m ++ (BoxSig.cod b0 ++ r)))) := by
  simp [Chain, Layer.dom, Layer.cod]

/-- What `exchange` returns when the upper box is to the right of the lower one. -/
theorem exchange_right {a b : Layer O B} (h : a.cod = b.dom)
    (hr : b.left.length + (BoxSig.dom b.box).length ≤ a.left.length) :
    ∃ m, a.left = b.left ++ (BoxSig.dom b.box ++ m) ∧ b.right = m ++ (BoxSig.cod a.box ++ a.right) := by
  rw [Layer.cod, Layer.dom] at h
  obtain ⟨m, h1, h2⟩ := split_at (by simpa [List.append_assoc] using h :
    a.left ++ (BoxSig.cod a.box ++ a.right) = (b.left ++ BoxSig.dom b.box) ++ b.right) (by simpa using hr)
  exact ⟨m, by simpa using h1, h2⟩

/-- What `exchange` returns when the upper box is to the left of the lower one. -/
theorem exchange_left {a b : Layer O B} (h : a.cod = b.dom)
    (hr : a.left.length + (BoxSig.cod a.box).length ≤ b.left.length) :
    ∃ m, b.left = a.left ++ (BoxSig.cod a.box ++ m) ∧ a.right = m ++ (BoxSig.dom b.box ++ b.right) := by
  rw [Layer.cod, Layer.dom] at h
  obtain ⟨m, h1, h2⟩ := split_at (by simpa [List.append_assoc] using h.symm :
    b.left ++ (BoxSig.dom b.box ++ b.right) = (a.left ++ BoxSig.cod a.box) ++ a.right) (by simpa using hr)
  exact ⟨m, by simpa using h1, h2⟩

/-- Upper box right of the lower one: the equation for `exchange` and its effect. -/
theorem exchange_right_eq {a b : Layer O B} (h : a.cod = b.dom)
    (hr : b.left.length + (BoxSig.dom b.box).length ≤ a.left.length) (left : Bool)
    (hl : left = false ∨ ¬ (a.left.length + (BoxSig.cod a.box).length ≤ b.left.length)) :
    ∃ m, a.left = b.left ++ (BoxSig.dom b.box ++ m) ∧ b.right = m ++ (BoxSig.cod a.box ++ a.right) ∧
      exchange left a b = .ok (⟨b.left, b.box, m ++ (BoxSig.dom a.box ++ a.right)⟩,
        ⟨b.left ++ (BoxSig.cod b.box ++ m), a.box, a.right⟩) := by
  obtain ⟨m, h1, h2⟩ := exchange_right h hr
  refine ⟨m, h1, h2, ?_⟩
  have e : (left && decide (b.left.length ≥ a.left.length + (BoxSig.cod a.box).length)) = false := by
    rcases hl with rfl | hl
    · rfl
    · simp; intro _; omega
  have e2 : a.left.drop (b.left ++ BoxSig.dom b.box).length = m := by
    rw [h1, ← List.append_assoc, List.drop_left]
  have e3 : a.left.length ≥ b.left.length + (BoxSig.dom b.box).length := hr
  simp only [exchange, e, Bool.false_eq_true, if_false, e3, if_true, e2, List.append_assoc]

theorem exchange_left_eq {a b : Layer O B} (h : a.cod = b.dom)
    (hr : a.left.length + (BoxSig.cod a.box).length ≤ b.left.length) (left : Bool)
    (hl : left = true ∨ ¬ (b.left.length + (BoxSig.dom b.box).length ≤ a.left.length)) :
    ∃ m, b.left = a.left ++ (BoxSig.cod a.box ++ m) ∧ a.right = m ++ (BoxSig.dom b.box ++ b.right) ∧
      exchange left a b = .ok (⟨a.left ++ (BoxSig.dom a.box ++ m), b.box, b.right⟩,
        ⟨a.left, a.box, m ++ (BoxSig.cod b.box ++ b.right)⟩) := by
  obtain ⟨m, h1, h2⟩ := exchange_left h hr
  refine ⟨m, h1, h2, ?_⟩
  have e2 : b.left.drop (a.left ++ BoxSig.cod a.box).length = m := by
    rw [h1, ← List.append_assoc, List.drop_left]
  have e3 : b.left.length ≥ a.left.length + (BoxSig.cod a.box).length := hr
  cases left with
  | true => simp only [exchange, e3, decide_true, Bool.true_and, if_true, e2, List.append_assoc]
  | false =>
    have : ¬ (a.left.length ≥ b.left.length + (BoxSig.dom b.box).length) := by
      rcases hl with hl | hl
      · cases hl
      · exact hl
    simp only [exchange, Bool.false_and, Bool.false_eq_true, if_false, this, e3, if_true, e2, List.append_assoc]

theorem exchange_ok {a b l1 l0 : Layer O B} {left : Bool} (h : a.cod = b.dom)
    (he : exchange left a b = .ok (l1, l0)) :
    l1.box = b.box ∧ l0.box = a.box ∧ Same a.dom b.cod [a, b] [l1, l0] := by
  by_cases hL : a.left.length + (BoxSig.cod a.box).length ≤ b.left.length
  · by_cases hl : left = true ∨ ¬ (b.left.length + (BoxSig.dom b.box).length ≤ a.left.length)
    · obtain ⟨m, h1, h2, h3⟩ := exchange_left_eq h hL left hl
      rw [h3] at he
      injection he with he
      injection he with e1 e2
      subst e1 e2
      refine ⟨rfl, rfl, ?_⟩
      obtain ⟨al, ab, ar⟩ := a
      obtain ⟨bl, bb, br⟩ := b
      dsimp only at h1 h2 ⊢
      subst h1 h2
      have := (same_exchange al m br bb ab)
      have h' := Same.symm (chain_exchange al m br bb ab) this
      simpa [Layer.dom, Layer.cod] using h'
    · simp only [not_or, not_not] at hl
      obtain ⟨m, h1, h2, h3⟩ := exchange_right_eq h hl.2 left (Or.inl (by simpa using hl.1))
      rw [h3] at he
      injection he with he
      injection he with e1 e2
      subst e1 e2
      refine ⟨rfl, rfl, ?_⟩
      obtain ⟨al, ab, ar⟩ := a
      obtain ⟨bl, bb, br⟩ := b
      dsimp only at h1 h2 ⊢
      subst h1 h2
      have := (same_exchange bl m ar ab bb)
      simpa [Layer.dom, Layer.cod] using this
  · by_cases hR : b.left.length + (BoxSig.dom b.box).length ≤ a.left.length
    · obtain ⟨m, h1, h2, h3⟩ := exchange_right_eq h hR left (Or.inr hL)
      rw [h3] at he
      injection he with he
      injection he with e1 e2
      subst e1 e2
      refine ⟨rfl, rfl, ?_⟩
      obtain ⟨al, ab, ar⟩ := a
      obtain ⟨bl, bb, br⟩ := b
      dsimp only at h1 h2 ⊢
      subst h1 h2
      have := (same_exchange bl m ar ab bb)
      simpa [Layer.dom, Layer.cod] using this
    · have e1 : ¬ (b.left.length ≥ a.left.length + (BoxSig.cod a.box).length) := hL
      have e2 : ¬ (a.left.length ≥ b.left.length + (BoxSig.dom b.box).length) := hR
      simp [exchange, e1, e2] at he

theorem exchange_error_iff {a b : Layer O B} {left : Bool} {e : PyErr} :
    exchange left a b = .error e ↔ e = .interchangerError ∧
      ¬ (b.left.length + (BoxSig.dom b.box).length ≤ a.left.length) ∧
      ¬ (a.left.length + (BoxSig.cod a.box).length ≤ b.left.length) := by
  by_cases hL : a.left.length + (BoxSig.cod a.box).length ≤ b.left.length <;>
  by_cases hR : b.left.length + (BoxSig.dom b.box).length ≤ a.left.length <;>
  cases left <;> simp [exchange, hL, hR, eq_comm]

/-! ### Whole diagrams -/

/-- The diagrams have the same domain and codomain, `d'` is well typed and means the same as `d`. -/
structure SameD (d d' : Diagram O B) : Prop where
  dom : d'.dom = d.dom
  cod : d'.cod = d.cod
  same : Same d.dom d.cod d.layers d'.layers

namespace SameD
variable {d d' d'' : Diagram O B}
theorem wt (h : SameD d d') : d'.WT := by
  rw [WT, h.dom, h.cod]; exact h.same.chain
theorem refl (h : d.WT) : SameD d d := ⟨rfl, rfl, .refl h⟩
theorem trans (h : SameD d d') (h' : SameD d' d'') : SameD d d'' := by
  refine ⟨h'.dom.trans h.dom, h'.cod.trans h.cod, h.same.trans ?_⟩
  have := h'.same
  rw [h.dom, h.cod] at this
  exact this
theorem sameMap (h : SameD d d') {R : Type} [CommSemiring R] (I : Interp O B R) : I.SameMap d d' :=
  ⟨h.dom.symm, h.cod.symm, fun _ _ y hy => h.same.run I _ y hy⟩
end SameD

theorem interchangeAdj_ok {d d' : Diagram O B} {left : Bool} {i : Nat} (h : d.WT)
    (he : interchangeAdj left d i = .ok d') :
    SameD d d' ∧ ∃ p x y s, d.boxes = p ++ [x, y] ++ s ∧ d'.boxes = p ++ [y, x] ++ s ∧ p.length = i := by
  rw [interchangeAdj] at he
  cases ha : d.layers[i]? with
  | none => rw [ha] at he; simp at he
  | some a =>
    cases hb : d.layers[i + 1]? with
    | none => rw [ha, hb] at he; simp at he
    | some b =>
      rw [ha, hb] at he
      dsimp only at he
      cases hx : exchange left a b with
      | error e => rw [hx] at he; simp at he
      | ok p =>
        obtain ⟨l1, l0⟩ := p
        rw [hx] at he
        injection he with he
        subst he
        have hsplit : d.layers = d.layers.take i ++ [a, b] ++ d.layers.drop (i + 2) := by
          obtain ⟨hi, ea⟩ := List.getElem?_eq_some_iff.1 ha
          obtain ⟨hi', eb⟩ := List.getElem?_eq_some_iff.1 hb
          have h1 : d.layers.drop i = a :: b :: d.layers.drop (i + 2) := by
            rw [List.drop_eq_getElem_cons hi, List.drop_eq_getElem_cons hi', ea, eb]
          conv_lhs => rw [← List.take_append_drop i d.layers, h1]
          simp
        have hlen : (d.layers.take i).length = i := by
          obtain ⟨hi, ea⟩ := List.getElem?_eq_some_iff.1 ha
          simp; omega
        have hch : Chain d.dom (d.layers.take i ++ [a, b] ++ d.layers.drop (i + 2)) d.cod := hsplit ▸ h
        obtain ⟨t2, h12, h3⟩ := chain_append'.1 hch
        obtain ⟨t1, h1, h2⟩ := chain_append'.1 h12
        obtain ⟨e1, e2, e3⟩ : a.dom = t1 ∧ b.dom = a.cod ∧ b.cod = t2 := by
          obtain ⟨e1, e2, e3⟩ := h2; exact ⟨e1, e2, e3⟩
        subst e1 e3
        obtain ⟨hb1, hb2, hs⟩ := exchange_ok e2.symm hx
        refine ⟨⟨rfl, rfl, ?_⟩, ?_⟩
        · have := Same.context h1 hs h3
          rw [← hsplit] at this
          exact this
        · refine ⟨(d.layers.take i).map (·.box), a.box, b.box, (d.layers.drop (i + 2)).map (·.box), ?_, ?_, ?_⟩
          · rw [Diagram.boxes]
            conv_lhs => rw [hsplit]
            simp
          · simp [Diagram.boxes, hb1, hb2]
          · simpa using hlen

/-- Moving the element at position `i` to position `j`. -/
def moveTo {α : Type} (l : List α) (i j : Nat) : List α :=
  match l[i]? with
  | some x => (l.eraseIdx i).insertIdx j x
  | none => l

theorem insertIdx_len {α : Type} (p s : List α) (x : α) : (p ++ s).insertIdx p.length x = p ++ x :: s := by
  induction p with
  | nil => simp
  | cons a p ih => simp [List.insertIdx_succ_cons, ih]

theorem moveTo_eq {α : Type} (p m s : List α) (x : α) :
    moveTo (p ++ [x] ++ m ++ s) p.length (p.length + m.length) = p ++ m ++ [x] ++ s := by
  have h1 : (p ++ [x] ++ m ++ s)[p.length]? = some x := by simp
  have h2 : (p ++ [x] ++ m ++ s).eraseIdx p.length = (p ++ m) ++ s := by
    rw [show p ++ [x] ++ m ++ s = p ++ (x :: (m ++ s)) by simp, List.eraseIdx_append_of_length_le (by simp)]
    simp
  rw [moveTo, h1]
  dsimp only
  rw [h2, show p.length + m.length = (p ++ m).length by simp, insertIdx_len]
  simp

theorem moveTo_eq' {α : Type} (p m s : List α) (x : α) :
    moveTo (p ++ m ++ [x] ++ s) (p.length + m.length) p.length = p ++ [x] ++ m ++ s := by
  have h1 : (p ++ m ++ [x] ++ s)[p.length + m.length]? = some x := by
    rw [show p.length + m.length = (p ++ m).length by simp]; simp
  have h2 : (p ++ m ++ [x] ++ s).eraseIdx (p.length + m.length) = p ++ (m ++ s) := by
    rw [show p.length + m.length = (p ++ m).length by simp,
      show p ++ m ++ [x] ++ s = (p ++ m) ++ (x :: s) by simp, List.eraseIdx_append_of_length_le (by simp)]
    simp
  rw [moveTo, h1]
  dsimp only
  rw [h2, insertIdx_len]
  simp

/-- Moving down by `n` adjacent exchanges. -/
theorem moveDown_ok {d d' : Diagram O B} {left : Bool} (n : Nat) (i : Nat) (h : d.WT)
    (he : (List.range n).foldlM (fun r k => interchangeAdj left r (i + k)) d = .ok d') (hi : i < d.layers.length) :
    SameD d d' ∧ ∃ p x m s, d.boxes = p ++ [x] ++ m ++ s ∧ d'.boxes = p ++ m ++ [x] ++ s ∧ p.length = i ∧ m.length = n := by
  induction n generalizing d' with
  | zero =>
    rw [List.range_zero, List.foldlM_nil] at he
    cases he
    refine ⟨.refl h, d.boxes.take i, d.boxes[i]'(by simpa [Diagram.boxes] using hi), [], d.boxes.drop (i + 1), ?_, ?_, ?_, rfl⟩
    · simp
    · simp
    · simp [Diagram.boxes]; omega
  | succ n ih =>
    rw [List.range_succ, List.foldlM_append] at he
    cases hm : (List.range n).foldlM (fun r k => interchangeAdj left r (i + k)) d with
    | error e => rw [hm] at he; simp [bind, Except.bind] at he
    | ok d1 =>
      rw [hm] at he
      obtain ⟨hs, p, x, m, s, e1, e2, e3, e4⟩ := ih hm
      have he : interchangeAdj left d1 (i + n) = .ok d' := by
        rw [ok_bind, List.foldlM_cons] at he
        simp only [bind, Except.bind, List.foldlM_nil] at he
        cases hq : interchangeAdj left d1 (i + n) with
        | error e => rw [hq] at he; simp at he
        | ok q => rw [hq] at he; simpa [pure, Except.pure] using he
      obtain ⟨hs', p', x', y', s', f1, f2, f3⟩ := interchangeAdj_ok hs.wt he
      refine ⟨hs.trans hs', ?_⟩
      have : p ++ m ++ ([x] ++ s) = p' ++ ([x', y'] ++ s') := by
        rw [← List.append_assoc, ← e2, f1, List.append_assoc]
      obtain ⟨g1, g2⟩ := List.append_inj this (by simp; omega)
      subst g1
      have g3 : x = x' ∧ s = y' :: s' := by simpa using g2
      obtain ⟨rfl, rfl⟩ := g3
      exact ⟨p, x, m ++ [y'], s', by simp [e1], by simp [f2], e3, by simp [e4]⟩

/-- Moving up by `n` adjacent exchanges. -/
theorem moveUp_ok {d d' : Diagram O B} {left : Bool} (n : Nat) (i : Nat) (h : d.WT) (hn : n ≤ i)
    (he : (List.range n).foldlM (fun r k => interchangeAdj left r (i - k - 1)) d = .ok d') (hi : i < d.layers.length) :
    SameD d d' ∧ ∃ p x m s, d.boxes = p ++ m ++ [x] ++ s ∧ d'.boxes = p ++ [x] ++ m ++ s ∧ p.length + n = i ∧ m.length = n := by
  induction n generalizing d' with
  | zero =>
    rw [List.range_zero, List.foldlM_nil] at he
    cases he
    refine ⟨.refl h, d.boxes.take i, d.boxes[i]'(by simpa [Diagram.boxes] using hi), [], d.boxes.drop (i + 1), ?_, ?_, ?_, rfl⟩
    · simp
    · simp
    · simp [Diagram.boxes]; omega
  | succ n ih =>
    rw [List.range_succ, List.foldlM_append] at he
    cases hm : (List.range n).foldlM (fun r k => interchangeAdj left r (i - k - 1)) d with
    | error e => rw [hm] at he; simp [bind, Except.bind] at he
    | ok d1 =>
      rw [hm] at he
      obtain ⟨hs, p, x, m, s, e1, e2, e3, e4⟩ := ih (by omega) hm
      have he : interchangeAdj left d1 (i - n - 1) = .ok d' := by
        rw [ok_bind, List.foldlM_cons] at he
        simp only [bind, Except.bind, List.foldlM_nil] at he
        cases hq : interchangeAdj left d1 (i - n - 1) with
        | error e => rw [hq] at he; simp at he
        | ok q => rw [hq] at he; simpa [pure, Except.pure] using he
      obtain ⟨hs', p', x', y', s', f1, f2, f3⟩ := interchangeAdj_ok hs.wt he
      refine ⟨hs.trans hs', ?_⟩
      have : p ++ ([x] ++ m ++ s) = (p' ++ [x']) ++ ([y'] ++ s') := by
        rw [← List.append_assoc, ← List.append_assoc, ← e2, f1]; simp
      obtain ⟨g1, g2⟩ := List.append_inj this (by simp; omega)
      have g3 : x = y' ∧ m ++ s = s' := by simpa using g2
      obtain ⟨rfl, rfl⟩ := g3
      exact ⟨p', x, x' :: m, s, by simp [e1, g1], by simp [f2], by omega, by simp [e4]⟩

theorem interchangeN_ok {d d' : Diagram O B} {left : Bool} {i j : Nat} (h : d.WT)
    (he : interchangeN d i j left = .ok d') :
    SameD d d' ∧ d'.boxes = moveTo d.boxes i j := by
  rw [interchangeN] at he
  by_cases hij : ¬ (i < d.layers.length) ∨ ¬ (j < d.layers.length)
  · rw [if_pos hij] at he; simp at he
  rw [if_neg hij] at he
  simp only [not_or, not_not] at hij
  obtain ⟨hi, hj⟩ := hij
  by_cases h1 : i = j
  · rw [if_pos h1] at he
    cases he
    subst h1
    refine ⟨.refl h, ?_⟩
    have := moveTo_eq (d.boxes.take i) [] (d.boxes.drop (i + 1)) (d.boxes[i]'(by simpa [Diagram.boxes] using hi))
    have hl : (d.boxes.take i).length = i := by simp [Diagram.boxes]; omega
    rw [hl] at this
    simpa using this.symm
  rw [if_neg h1] at he
  by_cases h2 : j + 1 < i
  · rw [if_pos h2] at he
    obtain ⟨hs, p, x, m, s, e1, e2, e3, e4⟩ := moveUp_ok (i - j) i h (by omega) he hi
    refine ⟨hs, ?_⟩
    rw [e1, e2, ← moveTo_eq', e4, e3, show p.length = j by omega]
  rw [if_neg h2] at he
  by_cases h3 : i + 1 < j
  · rw [if_pos h3] at he
    obtain ⟨hs, p, x, m, s, e1, e2, e3, e4⟩ := moveDown_ok (j - i) i h he hi
    refine ⟨hs, ?_⟩
    rw [e1, e2, ← moveTo_eq, e4, e3, show i + (j - i) = j by omega]
  rw [if_neg h3] at he
  obtain ⟨hs, p, x, y, s, e1, e2, e3⟩ := interchangeAdj_ok h he
  refine ⟨hs, ?_⟩
  rcases Nat.lt_or_gt_of_ne h1 with hlt | hgt
  · have hj' : j = i + 1 := by omega
    subst hj'
    have hp : p.length = i := by omega
    have := moveTo_eq p [y] s x
    rw [hp] at this
    rw [e1, e2]
    simpa using this.symm
  · have hj' : i = j + 1 := by omega
    subst hj'
    have hp : p.length = j := by omega
    have := moveTo_eq' p [x] s y
    rw [hp] at this
    rw [e1, e2]
    simpa using this.symm

theorem interchangeAdj_err {d : Diagram O B} {left : Bool} {i : Nat} {e : PyErr} (hi : i + 1 < d.layers.length)
    (he : interchangeAdj left d i = .error e) : e = .interchangerError := by
  rw [interchangeAdj, List.getElem?_eq_getElem (by omega), List.getElem?_eq_getElem hi] at he
  dsimp only at he
  split at he
  · simp at he
  · next e' hx =>
    injection he with he
    subst he
    exact (exchange_error_iff.1 hx).1

theorem interchangeAdj_len {d d' : Diagram O B} {left : Bool} {i : Nat}
    (he : interchangeAdj left d i = .ok d') : d'.layers.length = d.layers.length := by
  rw [interchangeAdj] at he
  split at he
  · next a b ha hb =>
    obtain ⟨hb, -⟩ := List.getElem?_eq_some_iff.1 hb
    split at he
    · injection he with he; subst he; simp; omega
    · simp at he
  · simp at he

theorem foldAdj_err {left : Bool} (f : Nat → Nat) (ks : List Nat) {d : Diagram O B} {e : PyErr}
    (hf : ∀ k ∈ ks, f k + 1 < d.layers.length)
    (he : ks.foldlM (fun r k => interchangeAdj left r (f k)) d = .error e) : e = .interchangerError := by
  induction ks generalizing d with
  | nil => rw [List.foldlM_nil] at he; cases he
  | cons k ks ih =>
    rw [List.foldlM_cons] at he
    cases hq : interchangeAdj left d (f k) with
    | error e' =>
      rw [hq] at he
      simp only [bind, Except.bind] at he
      injection he with he
      subst he
      exact interchangeAdj_err (hf k (by simp)) hq
    | ok q =>
      rw [hq] at he
      simp only [bind, Except.bind] at he
      refine ih (d := q) ?_ he
      intro k' hk'
      rw [interchangeAdj_len hq]
      exact hf k' (List.mem_cons_of_mem _ hk')

/-- **C24.** For every well-typed diagram, all integers `i`, `j` and both values of `left`:
- `interchange` raises `IndexError` exactly when an index is out of range, and otherwise can only raise
  `InterchangerError`;
- for neighbouring indices it raises exactly when the boxes are connected, i.e. neither box is entirely to one
  side of the other on the wires between them;
- if it returns, the result is well typed with the same domain and codomain, its boxes are the boxes of `d`
  with box number `i` moved to position `j`, and it denotes the same matrix in every interpretation of the
  boxes, over every commutative semiring. -/
theorem C24_interchange (d : Diagram O B) (hd : d.WT) (i j : Int) (left : Bool) :
    (interchange d i j left = .error .indexError ↔
      ¬ (0 ≤ i ∧ i < d.layers.length ∧ 0 ≤ j ∧ j < d.layers.length))
    ∧ (∀ e, interchange d i j left = .error e → e = .indexError ∨ e = .interchangerError)
    ∧ (∀ (k : Nat) (a b : Layer O B), d.layers[k]? = some a → d.layers[k + 1]? = some b →
        (interchange d k (k + 1) left = .error .interchangerError ↔
          ¬ (b.left.length + (BoxSig.dom b.box).length ≤ a.left.length) ∧
          ¬ (a.left.length + (BoxSig.cod a.box).length ≤ b.left.length))
        ∧ interchange d (k + 1) k left = interchange d k (k + 1) left)
    ∧ (∀ d', interchange d i j left = .ok d' →
        d'.WT ∧ d'.dom = d.dom ∧ d'.cod = d.cod ∧ d'.boxes = moveTo d.boxes i.toNat j.toNat
        ∧ d'.boxes.Perm d.boxes
        ∧ ∀ {R : Type} [CommSemiring R] (I : Interp O B R), I.SameMap d d') := by
  have herr : ∀ e, interchangeN d i.toNat j.toNat left = .error e → i.toNat < d.layers.length →
      j.toNat < d.layers.length → e = .interchangerError := by
    intro e he h1 h2
    rw [interchangeN, if_neg (by simp [h1, h2])] at he
    split at he
    · simp at he
    · split at he
      · refine foldAdj_err (fun k => i.toNat - k - 1) _ ?_ he
        intro k hk
        simp only [List.mem_range] at hk
        omega
      · split at he
        · refine foldAdj_err (fun k => i.toNat + k) _ ?_ he
          intro k hk
          simp only [List.mem_range] at hk
          omega
        · exact interchangeAdj_err (by omega) he
  refine ⟨?_, ?_, ?_, ?_⟩
  · constructor
    · intro he hr
      obtain ⟨h1, h2, h3, h4⟩ := hr
      rw [interchange, if_neg (by omega)] at he
      have := herr _ he (by omega) (by omega)
      cases this
    · intro hr
      rw [interchange]
      by_cases h : i < 0 ∨ j < 0
      · rw [if_pos h]
      · rw [if_neg h, interchangeN, if_pos (by omega)]
  · intro e he
    rw [interchange] at he
    by_cases h : i < 0 ∨ j < 0
    · rw [if_pos h] at he; injection he with he; exact Or.inl he.symm
    · rw [if_neg h] at he
      by_cases h' : i.toNat < d.layers.length ∧ j.toNat < d.layers.length
      · exact Or.inr (herr _ he h'.1 h'.2)
      · rw [interchangeN, if_pos (by omega)] at he
        injection he with he; exact Or.inl he.symm
  · intro k a b ha hb
    obtain ⟨hk, -⟩ := List.getElem?_eq_some_iff.1 ha
    obtain ⟨hk', -⟩ := List.getElem?_eq_some_iff.1 hb
    have e1 : interchange d k (k + 1) left = interchangeAdj left d k := by
      rw [interchange, if_neg (by omega), interchangeN, if_neg (by omega), if_neg (by omega), if_neg (by omega),
        if_neg (by omega)]
      congr 1; omega
    have e2 : interchange d (k + 1) k left = interchangeAdj left d k := by
      rw [interchange, if_neg (by omega), interchangeN, if_neg (by omega), if_neg (by omega), if_neg (by omega),
        if_neg (by omega)]
      congr 1; omega
    refine ⟨?_, by rw [e1, e2]⟩
    rw [e1, interchangeAdj, ha, hb]
    dsimp only
    cases hx : exchange left a b with
    | ok p => 
      simp only [reduceCtorEq, false_iff]
      intro hc
      have := (exchange_error_iff (left := left) (e := .interchangerError)).2 ⟨rfl, hc⟩
      rw [hx] at this; cases this
    | error e =>
      obtain ⟨rfl, hc⟩ := exchange_error_iff.1 hx
      simp [hc]
  · intro d' he
    rw [interchange] at he
    by_cases h : i < 0 ∨ j < 0
    · rw [if_pos h] at he; cases he
    · rw [if_neg h] at he
      obtain ⟨h1, h2⟩ := interchangeN_ok hd he
      refine ⟨h1.wt, h1.dom, h1.cod, h2, ?_, fun I => h1.sameMap I⟩
      rw [h2, moveTo]
      split
      · next x hx =>
        have hj : j.toNat ≤ (d.boxes.eraseIdx i.toNat).length := by
          obtain ⟨hi, -⟩ := List.getElem?_eq_some_iff.1 hx
          by_cases hjj : j.toNat < d.layers.length
          · rw [List.length_eraseIdx_of_lt hi]
            simp [Diagram.boxes]; omega
          · rw [interchangeN, if_pos (by omega)] at he; cases he
        refine (List.perm_insertIdx x _ hj).trans ?_
        obtain ⟨hi, ex⟩ := List.getElem?_eq_some_iff.1 hx
        rw [← ex]
        exact List.getElem_cons_eraseIdx_perm hi
      · exact List.Perm.refl _

end Generic

/-- Non-vacuity: two words side by side can be interchanged, and the moved diagram differs. -/
example : let d : GDiagram := ⟨[], [⟨"n", 0⟩, ⟨"s", 0⟩], [⟨[], .word "a" [⟨"n", 0⟩] 0, []⟩, ⟨[⟨"n", 0⟩], .word "b" [⟨"s", 0⟩] 0, []⟩]⟩
    d.WT ∧ (interchange d 0 1 false).toOption ≠ none ∧ (interchange d 0 1 false).toOption ≠ some d := by
  decide

end Lambeq
