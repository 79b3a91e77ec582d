import Verif.Grammar.InterchangeProps

/-!
# Snake removal and normal forms: C25, C26
-/

namespace Lambeq
open Diagram
set_option linter.unusedSectionVars false
set_option linter.unusedSimpArgs false

section Generic
variable {O B : Type} [BoxSig B O]

theorem interchangeN_up {d : Diagram O B} {i j : Nat} {left : Bool} (hi : i < d.layers.length) (hj : j ≤ i) :
    interchangeN d i j left = (List.range (i - j)).foldlM (fun r k => interchangeAdj left r (i - k - 1)) d := by
  rw [interchangeN, if_neg (by omega)]
  by_cases h1 : i = j
  · subst h1; simp [pure, Except.pure]
  rw [if_neg h1]
  by_cases h2 : j + 1 < i
  · rw [if_pos h2]
  rw [if_neg h2, if_neg (by omega)]
  have e : i - j = 1 := by omega
  rw [e]
  have e2 : min i j = i - 0 - 1 := by omega
  rw [e2, show List.range 1 = [0] from rfl, List.foldlM_cons]
  cases interchangeAdj left d (i - 0 - 1) <;> rfl

theorem interchangeN_down {d : Diagram O B} {i j : Nat} {left : Bool} (hi : j < d.layers.length) (hj : i ≤ j) :
    interchangeN d i j left = (List.range (j - i)).foldlM (fun r k => interchangeAdj left r (i + k)) d := by
  rw [interchangeN, if_neg (by omega)]
  by_cases h1 : i = j
  · subst h1; simp [pure, Except.pure]
  rw [if_neg h1, if_neg (by omega)]
  by_cases h2 : i + 1 < j
  · rw [if_pos h2]
  rw [if_neg h2]
  have e : j - i = 1 := by omega
  rw [e]
  have e2 : min i j = i + 0 := by omega
  rw [e2, show List.range 1 = [0] from rfl, List.foldlM_cons]
  cases interchangeAdj left d (i + 0) <;> rfl

theorem interchangeAdj_eq {D C : List O} {P S : List (Layer O B)} {a b l1 l0 : Layer O B} {left : Bool}
    (he : exchange left a b = .ok (l1, l0)) {i : Nat} (hi : i = P.length) :
    interchangeAdj left ⟨D, C, P ++ [a, b] ++ S⟩ i = .ok ⟨D, C, P ++ [l1, l0] ++ S⟩ := by
  subst hi
  have h1 : (P ++ [a, b] ++ S)[P.length]? = some a := by simp
  have h2 : (P ++ [a, b] ++ S)[P.length + 1]? = some b := by
    rw [List.append_assoc, List.getElem?_append_right (by omega)]; simp
  rw [interchangeAdj]
  dsimp only
  rw [h1, h2]
  dsimp only
  rw [he]
  dsimp only
  have h3 : (P ++ [a, b] ++ S).take P.length = P := by simp
  have h4 : (P ++ [a, b] ++ S).drop (P.length + 2) = S := by
    rw [show P.length + 2 = (P ++ [a, b]).length by simp, List.drop_left]
  rw [h3, h4]

/-- The two facts kept about every intermediate diagram. -/
structure Moved (d d' : Diagram O B) : Prop extends SameD d d' where
  perm : d'.boxes.Perm d.boxes

namespace Moved
variable {d d' d'' : Diagram O B}
theorem refl (h : d.WT) : Moved d d := ⟨.refl h, .refl _⟩
theorem trans (h : Moved d d') (h' : Moved d' d'') : Moved d d'' := ⟨h.toSameD.trans h'.toSameD, h'.perm.trans h.perm⟩
end Moved

theorem interchangeAdj_moved {d d' : Diagram O B} {left : Bool} {i : Nat} (h : d.WT)
    (he : interchangeAdj left d i = .ok d') : Moved d d' := by
  obtain ⟨h1, p, x, y, s, e1, e2, -⟩ := interchangeAdj_ok h he
  refine ⟨h1, ?_⟩
  rw [e1, e2]
  exact ((List.Perm.swap x y []).append_left p).append_right s

theorem chain_mid {D C : List O} {P S : List (Layer O B)} {a b : Layer O B}
    (h : (⟨D, C, P ++ [a, b] ++ S⟩ : Diagram O B).WT) : a.cod = b.dom := by
  obtain ⟨t2, h12, -⟩ := chain_append'.1 h
  obtain ⟨t1, -, h2⟩ := chain_append'.1 h12
  exact h2.2.1.symm

/-- Move a box up past boxes that all lie to its right. -/
theorem move_up {D C : List O} {x : Layer O B} (A : List (Layer O B)) {P S : List (Layer O B)}
    (h : (⟨D, C, P ++ A ++ [x] ++ S⟩ : Diagram O B).WT)
    (hA : ∀ a ∈ A, x.left.length + (BoxSig.dom x.box).length ≤ a.left.length) :
    ∃ x' A', interchangeN ⟨D, C, P ++ A ++ [x] ++ S⟩ (P.length + A.length) P.length false
        = .ok ⟨D, C, P ++ [x'] ++ A' ++ S⟩
      ∧ Moved (⟨D, C, P ++ A ++ [x] ++ S⟩ : Diagram O B) ⟨D, C, P ++ [x'] ++ A' ++ S⟩
      ∧ List.Forall₂ (fun a a' => a'.box = a.box ∧
          a'.left.length + (BoxSig.dom x.box).length = a.left.length + (BoxSig.cod x.box).length) A A' := by
  rw [interchangeN_up (by simp) (by omega), Nat.add_sub_cancel_left]
  induction A using List.reverseRecOn generalizing x S with
  | nil => exact ⟨x, [], by simp [pure, Except.pure], by simpa using Moved.refl h, .nil⟩
  | append_singleton A a ih =>
    have e0 : P ++ (A ++ [a]) ++ [x] ++ S = (P ++ A) ++ [a, x] ++ S := by simp
    rw [e0] at h ⊢
    obtain ⟨m, h1, h2, h3⟩ := exchange_right_eq (chain_mid h) (hA a (by simp)) false (Or.inl rfl)
    have hadj := interchangeAdj_eq (D := D) (C := C) (P := P ++ A) (S := S) h3
      (i := P.length + (A ++ [a]).length - 0 - 1) (by simp)
    have hm := interchangeAdj_moved h hadj
    have e1 : (P ++ A) ++ [(⟨x.left, x.box, m ++ (BoxSig.dom a.box ++ a.right)⟩ : Layer O B),
        ⟨x.left ++ (BoxSig.cod x.box ++ m), a.box, a.right⟩] ++ S =
        P ++ A ++ [⟨x.left, x.box, m ++ (BoxSig.dom a.box ++ a.right)⟩] ++
          (⟨x.left ++ (BoxSig.cod x.box ++ m), a.box, a.right⟩ :: S) := by simp
    rw [e1] at hadj hm
    obtain ⟨x', A', f1, f2, f3⟩ := ih (x := ⟨x.left, x.box, m ++ (BoxSig.dom a.box ++ a.right)⟩) hm.wt
      (fun b hb => hA b (by simp [hb]))
    refine ⟨x', A' ++ [⟨x.left ++ (BoxSig.cod x.box ++ m), a.box, a.right⟩], ?_, ?_, ?_⟩
    · rw [List.length_append, List.length_singleton, List.range_succ_eq_map, List.foldlM_cons]
      rw [List.length_append, List.length_singleton] at hadj
      rw [hadj, ok_bind, List.foldlM_map]
      have e2 : ∀ k, P.length + (A.length + 1) - (k + 1) - 1 = P.length + A.length - k - 1 := by omega
      simp only [Nat.succ_eq_add_one, e2]
      rw [f1]
      simp
    · have := hm.trans f2
      simpa using this
    · refine List.rel_append f3 (.cons ⟨rfl, ?_⟩ .nil)
      rw [h1]
      simp; omega

/-- Move a box down past boxes that all lie to its right. -/
theorem move_down {D C : List O} {x : Layer O B} (A : List (Layer O B)) {P S : List (Layer O B)}
    (h : (⟨D, C, P ++ [x] ++ A ++ S⟩ : Diagram O B).WT)
    (hA : ∀ a ∈ A, x.left.length + (BoxSig.cod x.box).length ≤ a.left.length ∧
      ¬ (a.left.length + (BoxSig.dom a.box).length ≤ x.left.length)) :
    ∃ x' A', interchangeN ⟨D, C, P ++ [x] ++ A ++ S⟩ P.length (P.length + A.length) false
        = .ok ⟨D, C, P ++ A' ++ [x'] ++ S⟩
      ∧ Moved (⟨D, C, P ++ [x] ++ A ++ S⟩ : Diagram O B) ⟨D, C, P ++ A' ++ [x'] ++ S⟩
      ∧ List.Forall₂ (fun a a' => a'.box = a.box ∧
          a'.left.length + (BoxSig.cod x.box).length = a.left.length + (BoxSig.dom x.box).length) A A' := by
  rw [interchangeN_down (by simp; omega) (by omega), Nat.add_sub_cancel_left]
  induction A generalizing x P with
  | nil => exact ⟨x, [], by simp [pure, Except.pure], by simpa using Moved.refl h, .nil⟩
  | cons a A ih =>
    have e0 : P ++ [x] ++ (a :: A) ++ S = P ++ [x, a] ++ (A ++ S) := by simp
    rw [e0] at h ⊢
    obtain ⟨m, h1, h2, h3⟩ := exchange_left_eq (chain_mid h) (hA a (by simp)).1 false (Or.inr (hA a (by simp)).2)
    have hadj := interchangeAdj_eq (D := D) (C := C) (P := P) (S := A ++ S) h3
      (i := P.length + 0) (by simp)
    have hm := interchangeAdj_moved h hadj
    have e1 : P ++ [(⟨x.left ++ (BoxSig.dom x.box ++ m), a.box, a.right⟩ : Layer O B),
        ⟨x.left, x.box, m ++ (BoxSig.cod a.box ++ a.right)⟩] ++ (A ++ S) =
        (P ++ [(⟨x.left ++ (BoxSig.dom x.box ++ m), a.box, a.right⟩ : Layer O B)]) ++
          [⟨x.left, x.box, m ++ (BoxSig.cod a.box ++ a.right)⟩] ++ A ++ S := by simp
    rw [e1] at hadj hm
    obtain ⟨x', A', f1, f2, f3⟩ := ih (x := ⟨x.left, x.box, m ++ (BoxSig.cod a.box ++ a.right)⟩) hm.wt
      (fun b hb => hA b (by simp [hb]))
    refine ⟨x', ⟨x.left ++ (BoxSig.dom x.box ++ m), a.box, a.right⟩ :: A', ?_, ?_, ?_⟩
    · rw [List.length_cons, List.range_succ_eq_map, List.foldlM_cons]
      rw [hadj, ok_bind, List.foldlM_map]
      have e2 : ∀ k, P.length + (k + 1) = (P ++ [(⟨x.left ++ (BoxSig.dom x.box ++ m), a.box, a.right⟩ : Layer O B)]).length + k := by
        intro k; simp; omega
      simp only [Nat.succ_eq_add_one, e2]
      rw [f1]
      simp
    · have := hm.trans f2
      simpa using this
    · refine .cons ⟨rfl, ?_⟩ f3
      rw [h1]
      simp; omega

end Generic

/-! ### Following a wire -/

namespace GDiagram

/-- The wire `j` passes the layers in `M`: those tagged `true` lie to its left, those tagged `false` to its right. -/
def Follow : Nat → List (Bool × GLayer) → Nat → Prop
  | j, [], j' => j = j'
  | j, (true, l) :: M, j' => l.left.length + l.box.dom.length ≤ j ∧ Follow (j + l.box.cod.length - l.box.dom.length) M j'
  | j, (false, l) :: M, j' => j < l.left.length ∧ Follow j M j'

/-- Positions of the entries with tag `t`, counted from `i`. -/
def tagIdx (t : Bool) : Nat → List (Bool × GLayer) → List Nat
  | _, [] => []
  | i, (b, _) :: M => if b = t then i :: tagIdx t (i + 1) M else tagIdx t (i + 1) M

theorem tagIdx_append (t : Bool) (i : Nat) (M N : List (Bool × GLayer)) :
    tagIdx t i (M ++ N) = tagIdx t i M ++ tagIdx t (i + M.length) N := by
  induction M generalizing i with
  | nil => simp [tagIdx]
  | cons x M ih =>
    obtain ⟨b, l⟩ := x
    by_cases h : b = t
    · simp [tagIdx, h, ih, Nat.add_comm, Nat.add_left_comm]
    · simp [tagIdx, h, ih, Nat.add_comm, Nat.add_left_comm]

theorem tagIdx_lt {t : Bool} {i : Nat} {M : List (Bool × GLayer)} {k : Nat} (h : k ∈ tagIdx t i M) :
    i ≤ k ∧ k < i + M.length := by
  induction M generalizing i with
  | nil => simp [tagIdx] at h
  | cons x M ih =>
    obtain ⟨b, l⟩ := x
    by_cases hb : b = t
    · simp only [tagIdx, hb, if_true, List.mem_cons] at h
      rcases h with rfl | h
      · simp
      · have := ih h; simp; omega
    · simp only [tagIdx, hb, if_false] at h
      have := ih h; simp; omega

theorem Follow.append {j j' : Nat} {M N : List (Bool × GLayer)} :
    Follow j (M ++ N) j' ↔ ∃ k, Follow j M k ∧ Follow k N j' := by
  induction M generalizing j with
  | nil => simp [Follow]
  | cons x M ih =>
    obtain ⟨b, l⟩ := x
    cases b <;> simp [Follow, ih, and_assoc]

theorem followWire_spec (ls : List GLayer) (i j : Nat) :
    ∃ M, ls.take M.length = M.map (·.2) ∧ M.length ≤ ls.length ∧ (followWire ls i j).1 = i + M.length
      ∧ Follow j M (followWire ls i j).2.1
      ∧ (followWire ls i j).2.2.1 = tagIdx true i M ∧ (followWire ls i j).2.2.2 = tagIdx false i M := by
  induction ls generalizing i j with
  | nil => exact ⟨[], rfl, Nat.le_refl _, rfl, rfl, rfl, rfl⟩
  | cons l ls ih =>
    rw [followWire]
    by_cases h1 : l.left.length ≤ j ∧ j < l.left.length + l.box.dom.length
    · simp only [h1, and_self, if_true]
      exact ⟨[], by simp, by simp, by simp, rfl, rfl, rfl⟩
    · simp only [h1, if_false]
      by_cases h2 : l.left.length ≤ j
      · simp only [h2, if_true]
        obtain ⟨M, e1, e2, e3, e4, e5, e6⟩ := ih (i + 1) (j + l.box.cod.length - l.box.dom.length)
        refine ⟨(true, l) :: M, by simp [e1], by simp [e2], by rw [e3]; simp; omega, ⟨by omega, e4⟩, ?_, ?_⟩
        · simp [tagIdx, e5]
        · simp [tagIdx, e6]
      · simp only [h2, if_false]
        obtain ⟨M, e1, e2, e3, e4, e5, e6⟩ := ih (i + 1) j
        refine ⟨(false, l) :: M, by simp [e1], by simp [e2], by rw [e3]; simp; omega, ⟨by omega, e4⟩, ?_, ?_⟩
        · simp [tagIdx, e5]
        · simp [tagIdx, e6]

theorem range'_map_succ (a n b : Nat) (h : a + n ≤ b) :
    (List.range' a n).map (fun r => if r < b then r + 1 else r) = List.range' (a + 1) n := by
  induction n generalizing a with
  | zero => rfl
  | succ n ih =>
    rw [List.range'_succ, List.range'_succ, List.map_cons, ih (a + 1) (by omega), if_pos (by omega)]

/-- First loop for a left snake. -/
theorem unsnakeLL_ok {D C : Ty} {S : List GLayer} (M : List (Bool × GLayer)) {P : List GLayer} {cap : GLayer}
    {Rs : List GLayer} {j' : Nat}
    (h : (⟨D, C, P ++ (cap :: Rs) ++ (M.map (·.2) ++ S)⟩ : GDiagram).WT)
    (hR : ∀ r ∈ Rs, cap.left.length < r.left.length) (hM : Follow cap.left.length M j') :
    ∃ P' cap' Rs', unsnakeLL (tagIdx true (P.length + 1 + Rs.length) M) ⟨D, C, P ++ (cap :: Rs) ++ (M.map (·.2) ++ S)⟩
        P.length (List.range' (P.length + 1) Rs.length ++ tagIdx false (P.length + 1 + Rs.length) M)
        = .ok (⟨D, C, P' ++ (cap' :: Rs') ++ S⟩, P'.length, List.range' (P'.length + 1) Rs'.length)
      ∧ Moved (⟨D, C, P ++ (cap :: Rs) ++ (M.map (·.2) ++ S)⟩ : GDiagram) ⟨D, C, P' ++ (cap' :: Rs') ++ S⟩
      ∧ cap'.box = cap.box ∧ cap'.left.length = j' ∧ (∀ r ∈ Rs', j' < r.left.length)
      ∧ P'.length + Rs'.length = P.length + Rs.length + M.length := by
  induction M generalizing P cap Rs with
  | nil =>
    refine ⟨P, cap, Rs, ?_, ?_, rfl, hM, ?_, by simp⟩
    · simp [tagIdx, unsnakeLL]
    · simpa using Moved.refl h
    · obtain rfl : cap.left.length = j' := hM
      exact hR
  | cons x M ih =>
    obtain ⟨t, l⟩ := x
    cases t with
    | false =>
      obtain ⟨h1, h2⟩ := hM
      have e : P ++ (cap :: Rs) ++ (List.map (·.2) ((false, l) :: M) ++ S) = P ++ (cap :: (Rs ++ [l])) ++ (M.map (·.2) ++ S) := by
        simp
      rw [e] at h ⊢
      obtain ⟨P', cap', Rs', g1, g2, g3, g4, g5, g6⟩ := ih h (by
        intro r hr
        simp only [List.mem_append, List.mem_singleton] at hr
        rcases hr with hr | rfl
        · exact hR r hr
        · exact h1) h2
      refine ⟨P', cap', Rs', ?_, g2, g3, g4, g5, by simp at g6 ⊢; omega⟩
      rw [← g1]
      simp only [tagIdx, Bool.false_eq_true, if_false, if_true, List.length_append, List.length_singleton,
        List.range'_concat, Nat.one_mul, Nat.add_assoc, List.append_assoc, List.singleton_append]
    | true =>
      obtain ⟨h1, h2⟩ := hM
      have e : P ++ (cap :: Rs) ++ (List.map (·.2) ((true, l) :: M) ++ S) = P ++ (cap :: Rs) ++ [l] ++ (M.map (·.2) ++ S) := by
        simp
      rw [e] at h ⊢
      have hA : ∀ a ∈ cap :: Rs, l.left.length + (BoxSig.dom l.box).length ≤ a.left.length := by
        intro a ha
        rcases List.mem_cons.1 ha with rfl | ha
        · exact h1
        · have := hR a ha
          have h1' : l.left.length + (BoxSig.dom l.box).length ≤ cap.left.length := h1
          omega
      obtain ⟨x', A', f1, f2, f3⟩ := move_up (cap :: Rs) h hA
      cases f3 with
      | @cons _ cap1 _ Rs1 k1 k2 =>
        have e1 : P ++ [x'] ++ (cap1 :: Rs1) ++ (M.map (·.2) ++ S) = (P ++ [x']) ++ (cap1 :: Rs1) ++ (M.map (·.2) ++ S) := rfl
        have hlen : Rs1.length = Rs.length := k2.length_eq.symm
        have hcap : cap1.left.length = cap.left.length + l.box.cod.length - l.box.dom.length := by
          have := k1.2
          have h3 : cap1.left.length + l.box.dom.length = cap.left.length + l.box.cod.length := this
          omega
        have hR1 : ∀ r ∈ Rs1, cap1.left.length < r.left.length := by
          intro r hr
          obtain ⟨n, hn, rfl⟩ := List.mem_iff_getElem.1 hr
          have hn' : n < Rs.length := by omega
          have := (List.forall₂_iff_get.1 k2).2 n hn' hn
          have h4 := hR (Rs[n]) (List.getElem_mem hn')
          have h5 := this.2
          have h6 : (Rs1[n]).left.length + l.box.dom.length = (Rs[n]).left.length + l.box.cod.length := h5
          have h7 : cap1.left.length + l.box.dom.length = cap.left.length + l.box.cod.length := k1.2
          omega
        obtain ⟨P', cap', Rs', g1, g2, g3, g4, g5, g6⟩ := ih (P := P ++ [x']) (cap := cap1) (Rs := Rs1) f2.wt hR1
          (by rw [hcap]; exact h2)
        refine ⟨P', cap', Rs', ?_, f2.trans g2, g3.trans k1.1, g4, g5, by simp at g6 ⊢; omega⟩
        rw [← g1]
        simp only [tagIdx, if_true, Bool.true_eq_false, if_false, reduceCtorEq]
        rw [unsnakeLL]
        have e2 : P.length + 1 + Rs.length = P.length + (cap :: Rs).length := by simp; omega
        rw [e2, f1]
        dsimp only
        have e3 : (P ++ [x']).length + 1 + Rs1.length = P.length + (cap :: Rs).length + 1 := by simp; omega
        rw [e3, hlen]
        congr 1
        · simp
        · rw [List.map_append, range'_map_succ _ _ _ (by simp; omega)]
          congr 1
          · simp
          · conv_rhs => rw [← List.map_id (tagIdx false _ M)]
            apply List.map_congr_left
            intro k hk
            have := tagIdx_lt hk
            rw [if_neg (by omega)]; rfl

/-- Second loop for a left snake. -/
theorem unsnakeLR_ok {D C : Ty} {cup : GLayer} (Rs : List GLayer) {Q S : List GLayer}
    (h : (⟨D, C, Q ++ Rs ++ [cup] ++ S⟩ : GDiagram).WT)
    (hR : ∀ r ∈ Rs, cup.left.length + cup.box.dom.length ≤ r.left.length) :
    ∃ cup' S', unsnakeLR (List.range' Q.length Rs.length).reverse ⟨D, C, Q ++ Rs ++ [cup] ++ S⟩ (Q.length + Rs.length)
        = .ok (⟨D, C, Q ++ [cup'] ++ S'⟩, Q.length)
      ∧ Moved (⟨D, C, Q ++ Rs ++ [cup] ++ S⟩ : GDiagram) ⟨D, C, Q ++ [cup'] ++ S'⟩
      ∧ cup'.box = cup.box ∧ cup'.left = cup.left := by
  induction Rs using List.reverseRecOn generalizing cup S with
  | nil => exact ⟨cup, S, by simp [unsnakeLR], by simpa using Moved.refl h, rfl, rfl⟩
  | append_singleton Rs r ih =>
    have e0 : Q ++ (Rs ++ [r]) ++ [cup] ++ S = (Q ++ Rs) ++ [r, cup] ++ S := by simp
    rw [e0] at h ⊢
    obtain ⟨m, h1, h2, h3⟩ := exchange_right_eq (chain_mid h) (hR r (by simp)) false (Or.inl rfl)
    have hadj := interchangeAdj_eq (D := D) (C := C) (P := Q ++ Rs) (S := S) h3 (i := Q.length + Rs.length + 0) (by simp)
    have hm := interchangeAdj_moved h hadj
    have e1 : (Q ++ Rs) ++ [(⟨cup.left, cup.box, m ++ (BoxSig.dom r.box ++ r.right)⟩ : GLayer),
        ⟨cup.left ++ (BoxSig.cod cup.box ++ m), r.box, r.right⟩] ++ S =
        Q ++ Rs ++ [⟨cup.left, cup.box, m ++ (BoxSig.dom r.box ++ r.right)⟩] ++
          (⟨cup.left ++ (BoxSig.cod cup.box ++ m), r.box, r.right⟩ :: S) := by simp
    rw [e1] at hadj hm
    obtain ⟨cup', S', f1, f2, f3, f4⟩ := ih (cup := ⟨cup.left, cup.box, m ++ (BoxSig.dom r.box ++ r.right)⟩) hm.wt
      (fun b hb => hR b (by simp [hb]))
    refine ⟨cup', S', ?_, hm.trans f2, f3, f4⟩
    rw [List.length_append, List.length_singleton, List.range'_concat, List.reverse_append, Nat.one_mul]
    simp only [List.reverse_singleton, List.singleton_append]
    rw [unsnakeLR, interchangeN_down (by simp) (by omega)]
    rw [show Q.length + (Rs.length + 1) - (Q.length + Rs.length) = 1 by omega, show List.range 1 = [0] from rfl,
      List.foldlM_cons, hadj, ok_bind]
    simp only [List.foldlM_nil, pure, Except.pure]
    rw [show Q.length + (Rs.length + 1) - 1 = Q.length + Rs.length by omega]
    exact f1

/-- First loop for a right snake: the boxes to the left of the wire are moved below the cup, last one first. -/
theorem unsnakeRL_ok {D C : Ty} (M : List (Bool × GLayer)) {Q Rs S : List GLayer} {cup : GLayer} {j j' : Nat}
    (h : (⟨D, C, Q ++ M.map (·.2) ++ (Rs ++ [cup]) ++ S⟩ : GDiagram).WT)
    (hR : ∀ r ∈ Rs, j' < r.left.length) (hcup : cup.left.length = j') (hcd : 0 < cup.box.dom.length)
    (hM : Follow j M j') :
    ∃ Rs' cup' S', unsnakeRL (tagIdx true Q.length M).reverse ⟨D, C, Q ++ M.map (·.2) ++ (Rs ++ [cup]) ++ S⟩
        (Q.length + M.length + Rs.length)
        (tagIdx false Q.length M ++ List.range' (Q.length + M.length) Rs.length)
        = .ok (⟨D, C, Q ++ (Rs' ++ [cup']) ++ S'⟩, Q.length + Rs'.length, List.range' Q.length Rs'.length)
      ∧ Moved (⟨D, C, Q ++ M.map (·.2) ++ (Rs ++ [cup]) ++ S⟩ : GDiagram) ⟨D, C, Q ++ (Rs' ++ [cup']) ++ S'⟩
      ∧ cup'.box = cup.box ∧ cup'.left.length = j ∧ (∀ r ∈ Rs', j < r.left.length) := by
  induction M using List.reverseRecOn generalizing Rs S cup j' with
  | nil =>
    obtain rfl : j = j' := hM
    exact ⟨Rs, cup, S, by simp [tagIdx, unsnakeRL], by simpa using Moved.refl h, rfl, hcup, hR⟩
  | append_singleton M x ih =>
    obtain ⟨t, l⟩ := x
    obtain ⟨k, hk1, hk2⟩ := Follow.append.1 hM
    cases t with
    | false =>
      obtain ⟨hk3, rfl⟩ := hk2
      have e : Q ++ List.map (·.2) (M ++ [(false, l)]) ++ (Rs ++ [cup]) ++ S = Q ++ M.map (·.2) ++ ((l :: Rs) ++ [cup]) ++ S := by
        simp
      rw [e] at h ⊢
      obtain ⟨Rs', cup', S', g1, g2, g3, g4, g5⟩ := ih h (by
        intro r hr
        rcases List.mem_cons.1 hr with rfl | hr
        · exact hk3
        · exact hR r hr) hcup hcd hk1
      refine ⟨Rs', cup', S', ?_, g2, g3, g4, g5⟩
      rw [← g1, tagIdx_append, tagIdx_append]
      simp only [tagIdx, Bool.false_eq_true, if_false, if_true, List.append_nil, List.length_append,
        List.length_singleton, List.length_cons, List.append_assoc, List.singleton_append, List.range'_succ,
        Nat.add_assoc, Nat.add_comm 1, List.length_nil, Nat.zero_add]
    | true =>
      obtain ⟨hk3, hk4⟩ := hk2
      have hk4 : k + l.box.cod.length - l.box.dom.length = j' := hk4
      have e : Q ++ List.map (·.2) (M ++ [(true, l)]) ++ (Rs ++ [cup]) ++ S = (Q ++ M.map (·.2)) ++ [l] ++ (Rs ++ [cup]) ++ S := by
        simp
      rw [e] at h ⊢
      have hA : ∀ a ∈ Rs ++ [cup], l.left.length + (BoxSig.cod l.box).length ≤ a.left.length ∧
          ¬ (a.left.length + (BoxSig.dom a.box).length ≤ l.left.length) := by
        intro a ha
        have e1 : (BoxSig.cod l.box).length = l.box.cod.length := rfl
        rcases List.mem_append.1 ha with ha | ha
        · have := hR a ha
          omega
        · obtain rfl := List.mem_singleton.1 ha
          have e2 : (BoxSig.dom a.box).length = a.box.dom.length := rfl
          omega
      obtain ⟨x', A', f1, f2, f3⟩ := move_down (Rs ++ [cup]) h hA
      obtain ⟨Rs1, A2, hA1, hA2, rfl⟩ : ∃ u v, List.Forall₂ (fun a a' => a'.box = a.box ∧
          a'.left.length + (BoxSig.cod l.box).length = a.left.length + (BoxSig.dom l.box).length) Rs u ∧
          List.Forall₂ (fun a a' => a'.box = a.box ∧
          a'.left.length + (BoxSig.cod l.box).length = a.left.length + (BoxSig.dom l.box).length) [cup] v ∧ A' = u ++ v := by
        refine ⟨A'.take Rs.length, A'.drop Rs.length, ?_, ?_, by simp⟩
        · have := List.forall₂_take Rs.length f3; simpa using this
        · have := List.forall₂_drop Rs.length f3; simpa using this
      cases hA2 with
      | @cons _ cup1 _ nl k1 k2 =>
        cases k2
        have hlen : Rs1.length = Rs.length := hA1.length_eq.symm
        have hcup1 : cup1.left.length = k := by
          have : cup1.left.length + l.box.cod.length = cup.left.length + l.box.dom.length := k1.2
          omega
        have hR1 : ∀ r ∈ Rs1, k < r.left.length := by
          intro r hr
          obtain ⟨n, hn, rfl⟩ := List.mem_iff_getElem.1 hr
          have hn' : n < Rs.length := by omega
          have := (List.forall₂_iff_get.1 hA1).2 n hn' hn
          have h4 := hR (Rs[n]) (List.getElem_mem hn')
          have h6 : (Rs1[n]).left.length + l.box.cod.length = (Rs[n]).left.length + l.box.dom.length := this.2
          omega
        have e1 : (Q ++ M.map (·.2)) ++ (Rs1 ++ [cup1]) ++ [x'] ++ S = Q ++ M.map (·.2) ++ (Rs1 ++ [cup1]) ++ (x' :: S) := by simp
        rw [e1] at f1 f2
        obtain ⟨Rs', cup', S', g1, g2, g3, g4, g5⟩ := ih (Rs := Rs1) (cup := cup1) f2.wt hR1 hcup1
          (by rw [k1.1]; exact hcd) hk1
        refine ⟨Rs', cup', S', ?_, f2.trans g2, g3.trans k1.1, g4, g5⟩
        rw [← g1, tagIdx_append, tagIdx_append]
        simp only [tagIdx, if_true, Bool.true_eq_false, if_false, List.append_nil, List.reverse_append,
          List.reverse_singleton, List.singleton_append, reduceCtorEq]
        rw [unsnakeRL]
        have e2 : Q.length + M.length = (Q ++ M.map (·.2)).length := by simp
        have e3 : Q.length + (M ++ [(true, l)]).length + Rs.length = (Q ++ M.map (·.2)).length + (Rs ++ [cup]).length := by
          simp; omega
        rw [e3, e2, f1]
        dsimp only
        have e4 : (Q ++ M.map (·.2)).length + (Rs ++ [cup]).length - 1 = (Q ++ M.map (·.2)).length + Rs1.length := by
          simp; omega
        rw [e4]
        congr 1
        rw [List.map_append]
        congr 1
        · conv_rhs => rw [← List.map_id (tagIdx false _ M)]
          apply List.map_congr_left
          intro k hk
          have := tagIdx_lt hk
          rw [if_neg (by simp; omega)]; rfl
        · rw [hlen]
          rw [show Q.length + (M ++ [(true, l)]).length = (Q ++ M.map (·.2)).length + 1 by simp; omega]
          generalize (Q ++ M.map (·.2)).length = q
          generalize Rs.length = n
          have : ∀ a, q < a → (List.range' a n).map (fun r => if r > q then r - 1 else r) = List.range' (a - 1) n := by
            induction n with
            | zero => intros; rfl
            | succ n ih =>
              intro a ha
              rw [List.range'_succ, List.range'_succ, List.map_cons, ih (a + 1) (by omega), if_pos (by omega)]
              congr 2; omega
          rw [this (q + 1) (by omega)]
          simp

/-- Second loop for a right snake. -/
theorem unsnakeRR_ok {D C : Ty} (Rs : List GLayer) {P : List GLayer} {cap : GLayer} {S : List GLayer}
    (h : (⟨D, C, P ++ [cap] ++ Rs ++ S⟩ : GDiagram).WT)
    (hR : ∀ r ∈ Rs, cap.left.length + cap.box.cod.length ≤ r.left.length) (hcc : 0 < cap.box.cod.length) :
    ∃ P' cap', unsnakeRR (List.range' (P.length + 1) Rs.length) ⟨D, C, P ++ [cap] ++ Rs ++ S⟩ P.length
        = .ok (⟨D, C, P' ++ [cap'] ++ S⟩, P'.length)
      ∧ Moved (⟨D, C, P ++ [cap] ++ Rs ++ S⟩ : GDiagram) ⟨D, C, P' ++ [cap'] ++ S⟩
      ∧ cap'.box = cap.box ∧ cap'.left = cap.left ∧ P'.length = P.length + Rs.length := by
  induction Rs generalizing P cap with
  | nil => exact ⟨P, cap, by simp [unsnakeRR], by simpa using Moved.refl h, rfl, rfl, by simp⟩
  | cons r Rs ih =>
    have e0 : P ++ [cap] ++ (r :: Rs) ++ S = P ++ [cap, r] ++ (Rs ++ S) := by simp
    rw [e0] at h ⊢
    have hr := hR r (by simp)
    have hr' : cap.left.length + (BoxSig.cod cap.box).length ≤ r.left.length := hr
    obtain ⟨m, h1, h2, h3⟩ := exchange_left_eq (chain_mid h) hr' false (Or.inr (by omega))
    have hadj := interchangeAdj_eq (D := D) (C := C) (P := P) (S := Rs ++ S) h3 (i := P.length + 1 - 0 - 1) (by simp)
    have hm := interchangeAdj_moved h hadj
    have e1 : P ++ [(⟨cap.left ++ (BoxSig.dom cap.box ++ m), r.box, r.right⟩ : GLayer),
        ⟨cap.left, cap.box, m ++ (BoxSig.cod r.box ++ r.right)⟩] ++ (Rs ++ S) =
        (P ++ [(⟨cap.left ++ (BoxSig.dom cap.box ++ m), r.box, r.right⟩ : GLayer)]) ++
          [⟨cap.left, cap.box, m ++ (BoxSig.cod r.box ++ r.right)⟩] ++ Rs ++ S := by simp
    rw [e1] at hadj hm
    obtain ⟨P', cap', f1, f2, f3, f4, f5⟩ := ih (cap := ⟨cap.left, cap.box, m ++ (BoxSig.cod r.box ++ r.right)⟩) hm.wt
      (fun b hb => hR b (by simp [hb])) hcc
    refine ⟨P', cap', ?_, hm.trans f2, f3, f4, by simp at f5 ⊢; omega⟩
    rw [List.length_cons, List.range'_succ, unsnakeRR, interchangeN_up (by simp) (by omega),
      show P.length + 1 - P.length = 1 by omega, show List.range 1 = [0] from rfl,
      List.foldlM_cons, hadj, ok_bind]
    simp only [List.foldlM_nil, pure, Except.pure]
    rw [List.length_append, List.length_singleton] at f1
    exact f1

/-! ### Finding a snake -/

/-- Specification: a cap one of whose wires runs, past the boxes in `M`, into a cup such that the two bend the wire
back and forth: the left wire of the cap into the right leg of the cup, or the right wire into the left leg. -/
structure IsSnake (d : GDiagram) (left : Bool) (P : List GLayer) (cap : GLayer) (M : List (Bool × GLayer)) (cup : GLayer)
    (S : List GLayer) : Prop where
  layers : d.layers = P ++ cap :: (M.map (·.2) ++ cup :: S)
  isCap : ∃ a b r, cap.box = .cap a b r
  isCup : ∃ a b r, cup.box = .cup a b r
  follow : if left then Follow cap.left.length M (cup.left.length + 1) else Follow (cap.left.length + 1) M cup.left.length

def HasSnake (d : GDiagram) : Prop := ∃ left P cap M cup S, IsSnake d left P cap M cup S

theorem isCap_iff {b : Box} : isCap b = true ↔ ∃ x y r, b = .cap x y r := by
  cases b <;> simp [isCap]
theorem isCup_iff {b : Box} : isCup b = true ↔ ∃ x y r, b = .cup x y r := by
  cases b <;> simp [isCup]

theorem followWire_of {M : List (Bool × GLayer)} {j j' i : Nat} {cup : GLayer} {S : List GLayer} (h : Follow j M j')
    (h1 : cup.left.length ≤ j') (h2 : j' < cup.left.length + cup.box.dom.length) :
    followWire (M.map (·.2) ++ cup :: S) i j = (i + M.length, j', tagIdx true i M, tagIdx false i M) := by
  induction M generalizing i j with
  | nil =>
    obtain rfl : j = j' := h
    simp [followWire, h1, h2, tagIdx]
  | cons x M ih =>
    obtain ⟨t, l⟩ := x
    cases t with
    | true =>
      obtain ⟨h3, h4⟩ := h
      rw [List.map_cons, List.cons_append, followWire, if_neg (by dsimp only; omega), if_pos (by dsimp only; omega), ih h4]
      simp [tagIdx]; omega
    | false =>
      obtain ⟨h3, h4⟩ := h
      rw [List.map_cons, List.cons_append, followWire, if_neg (by dsimp only; omega), if_neg (by dsimp only; omega), ih h4]
      simp [tagIdx]; omega

/-- What the result of `trySnake` means. -/
theorem trySnake_some {d : GDiagram} {c off : Nat} {left : Bool} {s : Snake} {cap : GLayer}
    (hc : d.layers[c]? = some cap) (hoff : off = cap.left.length) (hcap : isCap cap.box = true)
    (h : trySnake d c off left = some s) :
    ∃ P M cup S, IsSnake d left P cap M cup S ∧ P.length = c ∧
      s = ⟨c + 1 + M.length, c, tagIdx true (c + 1) M, tagIdx false (c + 1) M, left⟩ := by
  obtain ⟨hlt, hget⟩ := List.getElem?_eq_some_iff.1 hc
  rw [trySnake] at h
  obtain ⟨M, e1, e2, e3, e4, e5, e6⟩ := followWire_spec (d.layers.drop (c + 1)) (c + 1) (if left then off else off + 1)
  rw [e3, e5, e6] at h
  generalize (followWire (d.layers.drop (c + 1)) (c + 1) (if left then off else off + 1)).2.1 = jj at h e4
  cases hx : d.layers[c + 1 + M.length]? with
  | none => rw [hx] at h; cases h
  | some cup =>
    rw [hx] at h
    dsimp only at h
    split at h
    · cases h
    · next hcond =>
      injection h with h
      simp only [Bool.or_eq_true, Bool.not_eq_true', not_or, Bool.not_eq_false, Bool.and_eq_true, decide_eq_true_eq,
        not_and, not_not] at hcond
      obtain ⟨⟨hcup, hl⟩, hr⟩ := hcond
      refine ⟨d.layers.take c, M, cup, d.layers.drop (c + 1 + M.length + 1), ⟨?_, isCap_iff.1 hcap, isCup_iff.1 hcup, ?_⟩, ?_, h.symm⟩
      · rw [← e1]
        obtain ⟨hlt2, hget2⟩ := List.getElem?_eq_some_iff.1 hx
        have : cup :: d.layers.drop (c + 1 + M.length + 1) = (d.layers.drop (c + 1)).drop M.length := by
          rw [List.drop_drop, List.drop_eq_getElem_cons hlt2, hget2]
        rw [this, List.take_append_drop, ← hget, ← List.drop_eq_getElem_cons hlt, List.take_append_drop]
      · cases left
        · have := hr rfl
          simp only [Bool.false_eq_true, if_false] at e4 this ⊢
          rw [← hoff, this]; exact e4
        · have := hl rfl
          simp only [if_true] at e4 this ⊢
          rw [← hoff, this]; exact e4
      · simp; omega

theorem findSnakeFrom_some {d : GDiagram} {l : List Nat} {s : Snake} (h : findSnakeFrom d l = some s) :
    ∃ left P cap M cup S, IsSnake d left P cap M cup S ∧
      s = ⟨P.length + 1 + M.length, P.length, tagIdx true (P.length + 1) M, tagIdx false (P.length + 1) M, left⟩ := by
  induction l with
  | nil => cases h
  | cons c l ih =>
    rw [findSnakeFrom] at h
    cases hc : d.layers[c]? with
    | none => rw [hc] at h; cases h
    | some cap =>
      rw [hc] at h
      dsimp only at h
      by_cases hcap : isCap cap.box = true
      · simp only [hcap, Bool.not_true, Bool.false_eq_true, if_false] at h
        cases h1 : trySnake d c cap.left.length true with
        | some s' =>
          rw [h1] at h
          injection h with h
          subst h
          obtain ⟨P, M, cup, S, g1, rfl, g3⟩ := trySnake_some hc rfl hcap h1
          exact ⟨_, P, cap, M, cup, S, g1, g3⟩
        | none =>
          rw [h1] at h
          dsimp only at h
          cases h2 : trySnake d c cap.left.length false with
          | some s' =>
            rw [h2] at h
            injection h with h
            subst h
            obtain ⟨P, M, cup, S, g1, rfl, g3⟩ := trySnake_some hc rfl hcap h2
            exact ⟨_, P, cap, M, cup, S, g1, g3⟩
          | none =>
            rw [h2] at h
            exact ih h
      · simp only [hcap, Bool.not_false, if_true] at h
        exact ih h

theorem trySnake_none {d : GDiagram} {left : Bool} {P : List GLayer} {cap : GLayer} {M : List (Bool × GLayer)} {cup : GLayer}
    {S : List GLayer} (h : IsSnake d left P cap M cup S) : trySnake d P.length cap.left.length left ≠ none := by
  obtain ⟨x, y, r, hcup⟩ := h.isCup
  have hd : cup.box.dom.length = 2 := by rw [hcup]; simp [Box.dom]
  have hdrop : d.layers.drop (P.length + 1) = M.map (·.2) ++ cup :: S := by
    rw [h.layers, show P.length + 1 = (P ++ [cap]).length by simp,
      show P ++ cap :: (M.map (·.2) ++ cup :: S) = (P ++ [cap]) ++ (M.map (·.2) ++ cup :: S) by simp, List.drop_left]
  have hget : d.layers[P.length + 1 + M.length]? = some cup := by
    have := congrArg (·[M.length]?) hdrop
    simpa [List.getElem?_drop] using this
  have hf := h.follow
  rw [trySnake]
  rw [hdrop]
  cases left
  · simp only [Bool.false_eq_true, if_false] at hf ⊢
    rw [followWire_of hf (by omega) (by omega)]
    dsimp only
    rw [hget]
    simp [hcup, isCup]
  · simp only [if_true] at hf ⊢
    rw [followWire_of hf (by omega) (by omega)]
    dsimp only
    rw [hget]
    simp [hcup, isCup]

theorem findSnakeFrom_none {d : GDiagram} {l : List Nat} (hl : ∀ c ∈ l, c < d.layers.length)
    {left : Bool} {P : List GLayer} {cap : GLayer} {M : List (Bool × GLayer)} {cup : GLayer}
    {S : List GLayer} (h : IsSnake d left P cap M cup S) (hP : P.length ∈ l) : findSnakeFrom d l ≠ none := by
  induction l with
  | nil => cases hP
  | cons c l ih =>
    rw [findSnakeFrom]
    have hc : d.layers[c]? = some (d.layers[c]'(hl c (by simp))) := by simp
    rw [hc]
    dsimp only
    by_cases hcP : P.length = c
    · have e : d.layers[c]'(hl c (by simp)) = cap := by
        have : d.layers[P.length]? = some cap := by rw [h.layers]; simp
        rw [hcP] at this
        exact (List.getElem?_eq_some_iff.1 this).2
      rw [e, if_neg (by rw [isCap_iff.2 h.isCap]; simp)]
      have := trySnake_none h
      rw [hcP] at this
      split
      · simp
      · split
        · simp
        · cases left <;> contradiction
    · have := ih (fun c hc => hl c (by simp [hc])) (by
        rcases List.mem_cons.1 hP with h | h
        · exact absurd h hcP
        · exact h)
      split
      · exact this
      · split
        · simp
        · split
          · simp
          · exact this

/-- `find_snake` finds a snake exactly when there is one. -/
theorem findSnake_none_iff {d : GDiagram} : findSnake d = none ↔ ¬ HasSnake d := by
  constructor
  · rintro h ⟨left, P, cap, M, cup, S, hs⟩
    refine findSnakeFrom_none (fun c hc => List.mem_range.1 hc) hs ?_ h
    rw [hs.layers]; simp
  · intro h
    cases hf : findSnake d with
    | none => rfl
    | some s =>
      obtain ⟨left, P, cap, M, cup, S, hs, -⟩ := findSnakeFrom_some hf
      exact absurd ⟨left, P, cap, M, cup, S, hs⟩ h

/-! ### The snake equations -/

/-- Specification: the tensors of cups and caps satisfy the two snake (yanking) equations. -/
def SnakeEqs {R : Type} [CommSemiring R] (I : Interp Ob Box R) : Prop :=
  ∀ a b rev, (Box.cap a b rev).Valid →
    (∀ p < I.dim b, ∀ k < I.dim b,
      ∑ q ∈ Finset.range (I.dim a), I.ten (.cap a b rev) [] [q, k] * I.ten (.cup b a rev) [p, q] [] = if p = k then 1 else 0)
    ∧ (∀ p < I.dim a, ∀ k < I.dim a,
      ∑ q ∈ Finset.range (I.dim b), I.ten (.cap a b rev) [] [k, q] * I.ten (.cup b a rev) [q, p] [] = if p = k then 1 else 0)

/-- Cups and caps of the same orientation that share a wire. -/
theorem adjoint_unique {a b x : Ob} {rev : Bool} (h1 : (Box.cap a b rev).Valid) (h2 : (Box.cup x a rev).Valid) : x = b := by
  cases rev <;>
    simp [Box.Valid, Box.capAdjoint, Box.cupAdjoint, Ty.r, Ty.l, Ty.rotate, Ty.rotOb] at h1 h2 <;>
    obtain ⟨xn, xz⟩ := x <;> obtain ⟨an, az⟩ := a <;> obtain ⟨bn, bz⟩ := b <;>
    simp_all
theorem adjoint_unique' {a b y : Ob} {rev : Bool} (h1 : (Box.cap a b rev).Valid) (h2 : (Box.cup b y rev).Valid) : y = a := by
  cases rev <;>
    simp [Box.Valid, Box.capAdjoint, Box.cupAdjoint, Ty.r, Ty.l, Ty.rotate, Ty.rotOb] at h1 h2 <;>
    obtain ⟨xn, xz⟩ := y <;> obtain ⟨an, az⟩ := a <;> obtain ⟨bn, bz⟩ := b <;>
    simp_all

/-- One call of `unsnake` succeeds and brings the cap and the cup next to each other before cutting them out. -/
theorem unsnake_ok {d : GDiagram} (hd : d.WT) {left : Bool} {P : List GLayer} {cap : GLayer} {M : List (Bool × GLayer)}
    {cup : GLayer} {S : List GLayer} (h : IsSnake d left P cap M cup S) :
    ∃ P' cap' cup' S', unsnake d ⟨P.length + 1 + M.length, P.length, tagIdx true (P.length + 1) M,
        tagIdx false (P.length + 1) M, left⟩ = .ok ⟨d.dom, d.cod, P' ++ S'⟩
      ∧ Moved d ⟨d.dom, d.cod, P' ++ [cap', cup'] ++ S'⟩ ∧ cap'.box = cap.box ∧ cup'.box = cup.box
      ∧ (if left then cup'.left.length + 1 = cap'.left.length else cup'.left.length = cap'.left.length + 1) := by
  obtain ⟨D, C, ls⟩ := d
  have hl : ls = P ++ cap :: (M.map (·.2) ++ cup :: S) := h.layers
  subst hl
  obtain ⟨xa, xb, xr, hcup⟩ := h.isCup
  obtain ⟨ya, yb, yr, hcap⟩ := h.isCap
  have hd2 : cup.box.dom.length = 2 := by rw [hcup]; simp [Box.dom]
  have hc2 : cap.box.cod.length = 2 := by rw [hcap]; simp [Box.cod]
  have hf := h.follow
  have hcut : ∀ (P' : List GLayer) (c1 c2 : GLayer) (S' : List GLayer),
      cutSnake ⟨D, C, P' ++ [c1, c2] ++ S'⟩ P'.length (P'.length + 1) = ⟨D, C, P' ++ S'⟩ := by
    intro P' c1 c2 S'
    rw [cutSnake]
    dsimp only
    have e1 : (P' ++ [c1, c2] ++ S').take P'.length = P' := by simp
    have e2 : (P' ++ [c1, c2] ++ S').drop (P'.length + 1 + 1) = S' := by
      rw [show P'.length + 1 + 1 = (P' ++ [c1, c2]).length by simp, List.drop_left]
    rw [e1, e2]
  cases left with
  | true =>
    simp only [if_true] at hf ⊢
    have e0 : P ++ cap :: (M.map (·.2) ++ cup :: S) = P ++ (cap :: []) ++ (M.map (·.2) ++ (cup :: S)) := by simp
    rw [e0] at hd ⊢
    obtain ⟨P', cap', Rs', g1, g2, g3, g4, g5, g6⟩ := unsnakeLL_ok M hd (by simp) hf
    have e1 : P' ++ (cap' :: Rs') ++ (cup :: S) = (P' ++ [cap']) ++ Rs' ++ [cup] ++ S := by simp
    rw [e1] at g1 g2
    obtain ⟨cup', S', k1, k2, k3, k4⟩ := unsnakeLR_ok Rs' g2.wt (by
      intro r hr
      have := g5 r hr
      omega)
    have e2 : (P' ++ [cap']) ++ [cup'] ++ S' = P' ++ [cap', cup'] ++ S' := by simp
    rw [e2] at k1 k2
    refine ⟨P', cap', cup', S', ?_, g2.trans k2, g3, k3, by rw [k4, g4]⟩
    rw [unsnake]
    simp only [if_true]
    simp only [List.length_nil, Nat.add_zero, List.range'_zero, List.nil_append] at g1
    rw [g1]
    dsimp only
    rw [List.length_append, List.length_singleton] at k1
    have e3 : P.length + 1 + M.length = P'.length + 1 + Rs'.length := by simp at g6; omega
    rw [e3, k1]
    dsimp only
    rw [hcut]
  | false =>
    simp only [Bool.false_eq_true, if_false] at hf ⊢
    have e0 : P ++ cap :: (M.map (·.2) ++ cup :: S) = (P ++ [cap]) ++ M.map (·.2) ++ ([] ++ [cup]) ++ S := by simp
    rw [e0] at hd ⊢
    obtain ⟨Rs', cup', S', g1, g2, g3, g4, g5⟩ := unsnakeRL_ok M hd (by simp) rfl (by omega) hf
    have e1 : (P ++ [cap]) ++ (Rs' ++ [cup']) ++ S' = P ++ [cap] ++ Rs' ++ (cup' :: S') := by simp
    rw [e1] at g1 g2
    obtain ⟨P', cap', k1, k2, k3, k4, k5⟩ := unsnakeRR_ok Rs' g2.wt (by
      intro r hr
      have := g5 r hr
      omega) (by omega)
    have e2 : P' ++ [cap'] ++ (cup' :: S') = P' ++ [cap', cup'] ++ S' := by simp
    rw [e2] at k1 k2
    refine ⟨P', cap', cup', S', ?_, g2.trans k2, k3, g3, by rw [k4, g4]⟩
    rw [unsnake]
    simp only [Bool.false_eq_true, if_false]
    simp only [List.length_nil, Nat.add_zero, List.range'_zero, List.append_nil, List.length_append,
      List.length_singleton] at g1
    rw [g1]
    dsimp only
    rw [k1]
    dsimp only
    rw [show P.length + 1 + Rs'.length = P'.length + 1 by omega, hcut]

theorem snake_left_run {R : Type} [CommSemiring R] (I : Interp Ob Box R) (hI : SnakeEqs I) {a b : Ob} {rev : Bool}
    (hv : (Box.cap a b rev).Valid) (L Rt : Ty) (v : List Nat → R) {y : List Nat} (hy : y ∈ I.idx (L ++ ([b] ++ Rt))) :
    I.run [⟨L ++ [b], .cap a b rev, Rt⟩, ⟨L, .cup b a rev, b :: Rt⟩] v y = v y := by
  obtain ⟨yl, y2, rfl, h1, h2⟩ := I.mem_append hy
  obtain ⟨yk, yr, rfl, h3, h4⟩ := I.mem_append h2
  have : ∃ k, k < I.dim b ∧ yk = [k] := by
    rw [I.mem_idx] at h3
    cases h3 with
    | cons h5 h6 => cases h6; exact ⟨_, h5, rfl⟩
  obtain ⟨k, hk, rfl⟩ := this
  rw [Interp.run, Interp.run, Interp.run]
  have e := I.act_split ⟨L, .cup b a rev, b :: Rt⟩ (I.act ⟨L ++ [b], .cap a b rev, Rt⟩ v) (yl := yl) (c := []) ([k] ++ yr)
    (I.length_of_mem h1) (by simp [BoxSig.cod, Box.cod])
  rw [List.nil_append] at e
  rw [e]
  have hdom : (BoxSig.dom (O := Ob) (Box.cup b a rev)) = [b, a] := by simp [BoxSig.dom, Box.dom]
  have hdom2 : (BoxSig.dom (O := Ob) (Box.cap a b rev)) = [] := by simp [BoxSig.dom, Box.dom]
  dsimp only
  rw [hdom, I.sum_idx_cons]
  have e2 : ∀ p q, I.act ⟨L ++ [b], .cap a b rev, Rt⟩ v (yl ++ (([p, q] : List Nat) ++ ([k] ++ yr)))
      = v (yl ++ ([p] ++ yr)) * I.ten (.cap a b rev) [] [q, k] := by
    intro p q
    have := I.act_split ⟨L ++ [b], .cap a b rev, Rt⟩ v (yl := yl ++ [p]) (c := [q, k]) yr
      (by simp [I.length_of_mem h1]) (by simp [BoxSig.cod, Box.cod])
    dsimp only at this
    rw [hdom2] at this
    simp only [Interp.idx, Finset.sum_singleton, List.nil_append, List.append_assoc] at this
    rw [← this]
    simp
  have e3 : ∀ p ∈ Finset.range (I.dim b), (∑ y ∈ I.idx [a], I.act ⟨L ++ [b], .cap a b rev, Rt⟩ v (yl ++ (p :: y ++ ([k] ++ yr))) *
      I.ten (.cup b a rev) (p :: y) []) = v (yl ++ ([p] ++ yr)) * (if p = k then 1 else 0) := by
    intro p hp
    rw [I.sum_idx_cons]
    simp only [Interp.idx, Finset.sum_singleton]
    rw [← (hI a b rev hv).1 p (Finset.mem_range.1 hp) k hk, Finset.mul_sum]
    refine Finset.sum_congr rfl (fun q _ => ?_)
    rw [e2]; ring
  rw [Finset.sum_congr rfl e3]
  simp [Finset.sum_ite_eq', hk]

theorem snake_right_run {R : Type} [CommSemiring R] (I : Interp Ob Box R) (hI : SnakeEqs I) {a b : Ob} {rev : Bool}
    (hv : (Box.cap a b rev).Valid) (L Rt : Ty) (v : List Nat → R) {y : List Nat} (hy : y ∈ I.idx (L ++ ([a] ++ Rt))) :
    I.run [⟨L, .cap a b rev, a :: Rt⟩, ⟨L ++ [a], .cup b a rev, Rt⟩] v y = v y := by
  obtain ⟨yl, y2, rfl, h1, h2⟩ := I.mem_append hy
  obtain ⟨yk, yr, rfl, h3, h4⟩ := I.mem_append h2
  have : ∃ k, k < I.dim a ∧ yk = [k] := by
    rw [I.mem_idx] at h3
    cases h3 with
    | cons h5 h6 => cases h6; exact ⟨_, h5, rfl⟩
  obtain ⟨k, hk, rfl⟩ := this
  rw [Interp.run, Interp.run, Interp.run]
  have e := I.act_split ⟨L ++ [a], .cup b a rev, Rt⟩ (I.act ⟨L, .cap a b rev, a :: Rt⟩ v) (yl := yl ++ [k]) (c := []) yr
    (by simp [I.length_of_mem h1]) (by simp [BoxSig.cod, Box.cod])
  rw [List.nil_append, List.append_assoc] at e
  rw [e]
  have hdom : (BoxSig.dom (O := Ob) (Box.cup b a rev)) = [b, a] := by simp [BoxSig.dom, Box.dom]
  have hdom2 : (BoxSig.dom (O := Ob) (Box.cap a b rev)) = [] := by simp [BoxSig.dom, Box.dom]
  dsimp only
  rw [hdom, I.sum_idx_cons]
  have e2 : ∀ q p, I.act ⟨L, .cap a b rev, a :: Rt⟩ v (yl ++ [k] ++ (([q, p] : List Nat) ++ yr))
      = v (yl ++ ([p] ++ yr)) * I.ten (.cap a b rev) [] [k, q] := by
    intro q p
    have := I.act_split ⟨L, .cap a b rev, a :: Rt⟩ v (yl := yl) (c := [k, q]) ([p] ++ yr)
      (by simp [I.length_of_mem h1]) (by simp [BoxSig.cod, Box.cod])
    dsimp only at this
    rw [hdom2] at this
    simp only [Interp.idx, Finset.sum_singleton, List.nil_append, List.append_assoc] at this
    rw [← this]
    simp
  have e3 : ∀ q ∈ Finset.range (I.dim b), (∑ y ∈ I.idx [a], I.act ⟨L, .cap a b rev, a :: Rt⟩ v (yl ++ [k] ++ (q :: y ++ yr)) *
      I.ten (.cup b a rev) (q :: y) []) = ∑ p ∈ Finset.range (I.dim a),
        v (yl ++ ([p] ++ yr)) * (I.ten (.cap a b rev) [] [k, q] * I.ten (.cup b a rev) [q, p] []) := by
    intro q hq
    rw [I.sum_idx_cons]
    simp only [Interp.idx, Finset.sum_singleton]
    refine Finset.sum_congr rfl (fun p _ => ?_)
    rw [e2]; ring
  rw [Finset.sum_congr rfl e3, Finset.sum_comm]
  have e4 : ∀ p ∈ Finset.range (I.dim a), (∑ q ∈ Finset.range (I.dim b),
        v (yl ++ ([p] ++ yr)) * (I.ten (.cap a b rev) [] [k, q] * I.ten (.cup b a rev) [q, p] []))
        = v (yl ++ ([p] ++ yr)) * (if p = k then 1 else 0) := by
    intro p hp
    rw [← (hI a b rev hv).2 p (Finset.mem_range.1 hp) k hk, Finset.mul_sum]
  rw [Finset.sum_congr rfl e4]
  simp [Finset.sum_ite_eq', hk]

/-- An adjacent snake can be cut out. -/
theorem cut_ok {D C : Ty} {P S : List GLayer} {cap cup : GLayer} (h : (⟨D, C, P ++ [cap, cup] ++ S⟩ : GDiagram).WT)
    {a b x y : Ob} {rev left : Bool} (h1 : cap.box = .cap a b rev) (h2 : cup.box = .cup x y rev)
    (hv1 : cap.box.Valid) (hv2 : cup.box.Valid)
    (hl : if left then cup.left.length + 1 = cap.left.length else cup.left.length = cap.left.length + 1) :
    (⟨D, C, P ++ S⟩ : GDiagram).WT ∧ ∀ {R : Type} [CommSemiring R] (I : Interp Ob Box R), SnakeEqs I →
      ∀ v, ∀ z ∈ I.idx C, I.run (P ++ [cap, cup] ++ S) v z = I.run (P ++ S) v z := by
  obtain ⟨t2, h12, h3⟩ := chain_append'.1 h
  obtain ⟨t1, hP, hm⟩ := chain_append'.1 h12
  obtain ⟨hm1, hm2, hm3⟩ := hm
  have hm3 : cup.cod = t2 := hm3
  obtain ⟨cl, cb, cr⟩ := cap
  obtain ⟨ul, ub, ur⟩ := cup
  dsimp only at h1 h2 hv1 hv2 hl
  subst h1 h2
  simp only [Layer.dom, Layer.cod, BoxSig.dom, BoxSig.cod, Box.dom, Box.cod, List.append_nil] at hm1 hm2 hm3
  replace hm1 := hm1.symm
  replace hm2 := hm2.symm
  cases left with
  | true =>
    simp only [if_true] at hl
    obtain ⟨m, e1, e2⟩ := split_at (by simpa using hm2 : cl ++ (a :: b :: cr) = ul ++ (x :: y :: ur)) (by omega)
    subst e1
    have : ∃ c, m = [c] := by
      match m, hl with
      | [], hl => simp at hl
      | [c], _ => exact ⟨c, rfl⟩
      | c :: c' :: m, hl => simp at hl
    obtain ⟨c, rfl⟩ := this
    simp only [List.singleton_append, List.cons.injEq] at e2
    obtain ⟨rfl, rfl, rfl⟩ := e2
    obtain rfl : x = b := adjoint_unique hv1 hv2
    have et : t1 = t2 := by rw [hm1, ← hm3]; simp
    subst et
    refine ⟨chain_append'.2 ⟨t1, hP, h3⟩, ?_⟩
    intro R _ I hI v z hz
    rw [I.run_append, I.run_append, I.run_append]
    refine I.run_congr h3 (fun w hw => ?_) z hz
    exact snake_left_run I hI hv1 ul cr _ (by rw [hm1] at hw; simpa using hw)
  | false =>
    simp only [Bool.false_eq_true, if_false] at hl
    obtain ⟨m, e1, e2⟩ := split_at (by simpa using hm2.symm : ul ++ (x :: y :: ur) = cl ++ (a :: b :: cr)) (by omega)
    have e1 : ul = cl ++ m := e1
    subst e1
    have : ∃ c, m = [c] := by
      match m, hl with
      | [], hl => simp at hl
      | [c], _ => exact ⟨c, rfl⟩
      | c :: c' :: m, hl => simp at hl
    obtain ⟨c, rfl⟩ := this
    simp only [List.singleton_append, List.cons.injEq] at e2
    obtain ⟨rfl, rfl, rfl⟩ := e2
    obtain rfl : y = a := adjoint_unique' hv1 hv2
    have et : t1 = t2 := by rw [hm1, ← hm3]; simp [Layer.cod, BoxSig.cod, Box.cod]
    subst et
    refine ⟨chain_append'.2 ⟨t1, hP, h3⟩, ?_⟩
    intro R _ I hI v z hz
    rw [I.run_append, I.run_append, I.run_append]
    refine I.run_congr h3 (fun w hw => ?_) z hz
    exact snake_right_run I hI hv1 cl ur _ (by rw [hm1] at hw; simpa using hw)

/-- All cups and caps of the diagram have the orientation `rev`. -/
def OneOrientation (d : GDiagram) (rev : Bool) : Prop :=
  ∀ b ∈ d.boxes, ∀ x y r, b = .cup x y r ∨ b = .cap x y r → r = rev

theorem snakeLoop_ok (n : Nat) {d : GDiagram} {rev : Bool} (hn : d.layers.length < n) (hd : d.WT)
    (hv : ∀ b ∈ d.boxes, b.Valid) (ho : OneOrientation d rev) :
    ∃ (d' : GDiagram) (pairs : List (Box × Box)), snakeLoop n d = .ok d' ∧ d'.WT ∧ d'.dom = d.dom ∧ d'.cod = d.cod ∧ ¬ HasSnake d'
      ∧ d.boxes.Perm (d'.boxes ++ pairs.flatMap (fun p => [p.1, p.2]))
      ∧ (∀ p ∈ pairs, isCap p.1 = true ∧ isCup p.2 = true)
      ∧ ∀ {R : Type} [CommSemiring R] (I : Interp Ob Box R), SnakeEqs I → I.SameMap d d' := by
  induction n generalizing d with
  | zero => omega
  | succ n ih =>
    rw [snakeLoop]
    cases hf : findSnake d with
    | none => exact ⟨d, [], rfl, hd, rfl, rfl, findSnake_none_iff.1 hf, by simp, by simp, fun I _ => ⟨rfl, rfl, fun _ _ _ _ => rfl⟩⟩
    | some s =>
      dsimp only
      obtain ⟨left, P, cap, M, cup, S, hs, rfl⟩ := findSnakeFrom_some hf
      obtain ⟨P', cap', cup', S', g1, g2, g3, g4, g5⟩ := unsnake_ok hd hs
      obtain ⟨ca, cb, cr, hcap⟩ := hs.isCap
      obtain ⟨ua, ub, ur, hcup⟩ := hs.isCup
      have hcapm : cap.box ∈ d.boxes := by
        rw [Diagram.boxes, hs.layers]; simp
      have hcupm : cup.box ∈ d.boxes := by
        rw [Diagram.boxes, hs.layers]; simp
      obtain rfl : cr = rev := ho _ hcapm ca cb cr (Or.inr hcap)
      obtain rfl : ur = cr := ho _ hcupm ua ub ur (Or.inl hcup)
      obtain ⟨k1, k2⟩ := cut_ok g2.wt (g3.trans hcap) (g4.trans hcup) (by rw [g3]; exact hv _ hcapm)
        (by rw [g4]; exact hv _ hcupm) g5
      have hperm : d.boxes.Perm ((⟨d.dom, d.cod, P' ++ S'⟩ : GDiagram).boxes ++ [cap'.box, cup'.box]) := by
        refine g2.perm.symm.trans ?_
        simp only [Diagram.boxes, List.map_append, List.map_cons, List.map_nil, List.append_assoc]
        exact List.Perm.append_left _ List.perm_append_comm
      have hsub : ∀ b ∈ (⟨d.dom, d.cod, P' ++ S'⟩ : GDiagram).boxes, b ∈ d.boxes := fun b hb =>
        hperm.mem_iff.2 (List.mem_append_left _ hb)
      have hlen : (P' ++ S').length + 2 = d.layers.length := by
        have := g2.perm.length_eq
        simp [Diagram.boxes] at this ⊢
        omega
      obtain ⟨d', pairs, f1, f2, f3, f4, f5, f6, f7, f8⟩ := ih (d := ⟨d.dom, d.cod, P' ++ S'⟩)
        (by dsimp only; omega) k1 (fun b hb => hv b (hsub b hb)) (fun b hb => ho b (hsub b hb))
      refine ⟨d', (cap'.box, cup'.box) :: pairs, ?_, f2, f3, f4, f5, ?_, ?_, ?_⟩
      · rw [g1]; exact f1
      · refine hperm.trans ?_
        refine (List.Perm.append_right _ f6).trans ?_
        simp only [List.flatMap_cons, List.append_assoc]
        exact List.Perm.append_left _ List.perm_append_comm
      · intro p hp
        rcases List.mem_cons.1 hp with rfl | hp
        · dsimp only
          rw [g3, g4]
          exact ⟨isCap_iff.2 hs.isCap, isCup_iff.2 hs.isCup⟩
        · exact f7 p hp
      · intro R _ I hI
        obtain ⟨m1, m2, m3⟩ := f8 I hI
        obtain ⟨l1, l2, l3⟩ := g2.toSameD.sameMap I
        refine ⟨m1, m2, fun x hx y hy => (l3 x hx y hy).trans ?_⟩
        rw [← m3 x hx y hy]
        exact k2 I hI _ y hy

/-- **C25.** `remove_snakes` on a well-typed diagram (with at most one of the two orientations of cups and caps):
it terminates without an exception; the result is well typed with the same domain and codomain; no cap leads
straight into a cup any more; exactly some cap/cup pairs have been removed, every other box is kept; and the
result denotes the same linear map under every interpretation whose cups and caps satisfy the snake equations.
Missing from the full statement: diagrams that mix orientations, where the claim is false
(`C25_refuted_mixed_orientation`). -/
theorem C25_remove_snakes_partial (d : GDiagram) (rev : Bool) (hd : d.WT) (hv : d.Valid) (ho : OneOrientation d rev) :
    ∃ (d' : GDiagram) (pairs : List (Box × Box)), removeSnakes d = .ok d' ∧ d'.WT ∧ d'.dom = d.dom ∧ d'.cod = d.cod ∧ ¬ HasSnake d'
      ∧ d.boxes.Perm (d'.boxes ++ pairs.flatMap (fun p => [p.1, p.2]))
      ∧ (∀ p ∈ pairs, isCap p.1 = true ∧ isCup p.2 = true)
      ∧ ∀ {R : Type} [CommSemiring R] (I : Interp Ob Box R), SnakeEqs I → I.SameMap d d' := by
  refine snakeLoop_ok _ (Nat.lt_succ_self _) hd ?_ ho
  intro b hb
  simp only [Diagram.boxes, List.mem_map] at hb
  obtain ⟨l, hl, rfl⟩ := hb
  exact hv l hl

/-- The standard interpretation: dimensions depend on the name only, cups and caps are Kronecker deltas. -/
def deltaInterp (dim : String → Nat) : Interp Ob Box Nat where
  dim o := dim o.name
  ten b i o := match b with
    | .cap _ _ _ => match o with | [p, q] => if p = q then 1 else 0 | _ => 0
    | .cup _ _ _ => match i with | [p, q] => if p = q then 1 else 0 | _ => 0
    | _ => 1

/-- The hypothesis of the last clause is met by the interpretation lambeq uses for tensor networks. -/
theorem deltaInterp_snakeEqs (dim : String → Nat) : SnakeEqs (deltaInterp dim) := by
  intro a b rev hv
  have hab : dim a.name = dim b.name := by
    cases rev <;> simp [Box.Valid, Box.capAdjoint, Ty.r, Ty.l, Ty.rotate, Ty.rotOb] at hv <;> rw [hv]
  refine ⟨?_, ?_⟩
  · intro p hp k hk
    simp only [deltaInterp] at hp hk ⊢
    rw [hab]
    by_cases h : p = k
    · subst h
      rw [if_pos rfl, Finset.sum_eq_single p]
      · simp
      · intro q _ hq; simp [hq]
      · intro h; exact absurd (Finset.mem_range.2 hp) h
    · rw [if_neg h]
      refine Finset.sum_eq_zero (fun q _ => ?_)
      by_cases hq : q = k
      · subst hq; simp [h]
      · simp [hq]
  · intro p hp k hk
    simp only [deltaInterp] at hp hk ⊢
    rw [← hab]
    by_cases h : p = k
    · subst h
      rw [if_pos rfl, Finset.sum_eq_single p]
      · simp
      · intro q _ hq; simp [hq]
      · intro h; exact absurd (Finset.mem_range.2 hp) h
    · rw [if_neg h]
      refine Finset.sum_eq_zero (fun q _ => ?_)
      by_cases hq : q = p
      · subst hq; simp [Ne.symm h]
      · simp [hq]

/-- Non-vacuity: `Id(n) @ Cap(n.r, n) >> f @ ... >> Cup(n, n.r) @ Id(n)` with a box in between meets the hypotheses,
contains a snake, and loses it. -/
example :
    let n : Ob := ⟨"n", 0⟩; let nr : Ob := ⟨"n", 1⟩
    let d : GDiagram := ⟨[n], [n], [⟨[n], .cap nr n false, []⟩, ⟨[n, nr, n], .word "w" [] 0, []⟩, ⟨[], .cup n nr false, [n]⟩]⟩
    d.WT ∧ d.Valid ∧ OneOrientation d false ∧ d.layers.length = 3 ∧
      removeSnakes d = .ok ⟨[n], [n], [⟨[n], .word "w" [] 0, []⟩]⟩ := by
  refine ⟨by decide, ?_, ?_, rfl, by decide⟩
  · intro l hl
    simp only [List.mem_cons, List.not_mem_nil, or_false] at hl
    rcases hl with rfl | rfl | rfl <;> simp [Box.Valid] <;> decide
  · intro b hb x y r h
    simp only [Diagram.boxes, List.map_cons, List.map_nil, List.mem_cons, List.not_mem_nil, or_false] at hb
    rcases hb with rfl | rfl | rfl <;> rcases h with h | h <;> cases h <;> rfl

/-- **C25, refuted in general.** `find_snake` does not look at `is_reversed`: for
`Id(n.r.r) @ Cap(n.r, n) >> Cup(n.r.r, n.r, is_reversed=True) @ Id(n)`, well typed with valid boxes,
`remove_snakes` returns the diagram without layers from `n.r.r` to `n`. -/
theorem C25_refuted_mixed_orientation :
    ∃ d d' : GDiagram, d.WT ∧ d.Valid ∧ removeSnakes d = .ok d' ∧ ¬ d'.WT := by
  refine ⟨⟨[⟨"n", 2⟩], [⟨"n", 0⟩], [⟨[⟨"n", 2⟩], .cap ⟨"n", 1⟩ ⟨"n", 0⟩ false, []⟩, ⟨[], .cup ⟨"n", 2⟩ ⟨"n", 1⟩ true, [⟨"n", 0⟩]⟩]⟩,
    ⟨[⟨"n", 2⟩], [⟨"n", 0⟩], []⟩, by decide, ?_, by decide, by decide⟩
  intro l hl
  simp only [List.mem_cons, List.not_mem_nil, or_false] at hl
  rcases hl with rfl | rfl <;> simp [Box.Valid] <;> decide

end GDiagram
end Lambeq
