import Verif.Grammar.StructuralProps

/-!
# Compound swaps, cups, caps: C12, C13
-/

namespace Lambeq
set_option linter.unusedSimpArgs false
open Diagram

theorem ok_bind {α β : Type} (a : α) (f : α → Except PyErr β) :
    (Except.ok a >>= f) = f a := rfl
theorem err_bind {α β : Type} (e : PyErr) (f : α → Except PyErr β) :
    ((Except.error e : Except PyErr α) >>= f) = .error e := rfl

namespace GDiagram

theorem thenAt_eq {d g : GDiagram} (A T : Ty) (h : d.cod = A ++ g.dom ++ T) :
    thenAt d g (A.length : Nat) =
      .ok ⟨d.dom, A ++ g.cod ++ T, d.layers ++ g.layers.map (Layer.extend A T)⟩ := by
  rw [thenAt_ok_iff]
  have e1 : d.cod.take A.length = A := by rw [h]; simp
  have e2 : d.cod.drop (A.length + g.dom.length) = T := by
    rw [h, ← List.length_append, List.drop_left]
  rw [e1, e2]
  exact ⟨h, rfl⟩

theorem mkSwapInner_aux (A : Ty) (ob : Ob) (left L0 L1 T : Ty) (d : GDiagram)
    (hl : left = L0 ++ L1) (h : d.cod = A ++ L0 ++ ob :: T) :
    ∃ d' ls, (List.range L0.length).reverse.foldlM (fun (d : GDiagram) i =>
        match left[i]? with
        | some x => thenAt d (ofBox (.swap x ob)) ((A.length + i : Nat) : Int)
        | none => .error .indexError) d = .ok d' ∧ SwapExt d d' ls
      ∧ d'.cod = A ++ ob :: L0 ++ T ∧ ls.length = L0.length
      ∧ (∀ {α : Type} (A' R' T' : List α) (x' : α), A'.length = A.length → R'.length = L0.length →
          routeWires ls (A' ++ R' ++ x' :: T') = A' ++ x' :: R' ++ T') := by
  induction hn : L0.length generalizing L0 L1 T d with
  | zero =>
    have : L0 = [] := List.eq_nil_of_length_eq_zero hn
    subst this
    refine ⟨d, [], rfl, SwapExt.refl d, by simpa using h, rfl, ?_⟩
    intro α A' R' T' x' _ hR
    have : R' = [] := List.eq_nil_of_length_eq_zero hR
    subst this; simp [routeWires]
  | succ n ih =>
    obtain ⟨R0, y, rfl⟩ : ∃ R0 y, L0 = R0 ++ [y] := by
      rcases List.eq_nil_or_concat L0 with h0 | ⟨R0, y, h0⟩
      · subst h0; simp at hn
      · exact ⟨R0, y, by simpa using h0⟩
    have hR0 : R0.length = n := by simpa using hn
    rw [List.range_succ]
    simp only [List.reverse_append, List.reverse_cons, List.reverse_nil, List.nil_append,
      List.singleton_append, List.foldlM_cons]
    have hget : left[n]? = some y := by
      rw [hl, ← hR0]; simp
    rw [hget]
    simp only
    have hstep := thenAt_eq (d := d) (g := ofBox (.swap y ob)) (A ++ R0) T
      (by rw [h]; simp [ofBox, Box.dom])
    rw [show A.length + n = (A ++ R0).length by simp [hR0], hstep]
    obtain ⟨d', ls, h1, h2, h3, h5, h4⟩ := ih R0 (y :: L1) (y :: T)
      ⟨d.dom, A ++ R0 ++ ob :: y :: T, d.layers ++ [⟨A ++ R0, .swap y ob, T⟩]⟩ (by simp [hl]) (by simp) hR0
    refine ⟨d', ⟨A ++ R0, .swap y ob, T⟩ :: ls, ?_, ?_, by rw [h3]; simp, by simp [h5], ?_⟩
    · rw [ok_bind]; simpa [ofBox, Box.cod, Layer.extend] using h1
    · refine ⟨h2.dom, by rw [h2.layers]; simp, ⟨?_, ?_⟩, ?_⟩
      · rw [h]; simp [Layer.dom, Box.dom]
      · have := h2.chain
        simp only [Layer.cod, Box.sig_cod, Box.cod]
        simpa using this
      · intro l hl
        rcases List.mem_cons.1 hl with rfl | hl
        · exact ⟨y, ob, rfl⟩
        · exact h2.swaps l hl
    · intro α A' R' T' x' hA hR
      obtain ⟨R0', y', rfl⟩ : ∃ R0 y, R' = R0 ++ [y] := by
        rcases List.eq_nil_or_concat R' with h0 | ⟨R0, y, h0⟩
        · subst h0; simp at hR
        · exact ⟨R0, y, by simpa using h0⟩
      have hR0' : R0'.length = n := by simpa using hR
      simp only [routeWires]
      have := swapAdj_append (A' ++ R0') T' y' x'
      have e : (A ++ R0).length = (A' ++ R0').length := by simp [hA, hR0, hR0']
      rw [e, show A' ++ (R0' ++ [y']) ++ x' :: T' = A' ++ R0' ++ y' :: x' :: T' by simp, this,
        h4 A' R0' (y' :: T') x' hA hR0']
      simp

theorem mkSwapInner_eq (A left T : Ty) (ob : Ob) (d : GDiagram) (h : d.cod = A ++ left ++ ob :: T) :
    ∃ d' ls, mkSwapInner left A.length ob d = .ok d' ∧ SwapExt d d' ls
      ∧ d'.cod = A ++ ob :: left ++ T ∧ ls.length = left.length
      ∧ (∀ {α : Type} (A' R' T' : List α) (x' : α), A'.length = A.length → R'.length = left.length →
          routeWires ls (A' ++ R' ++ x' :: T') = A' ++ x' :: R' ++ T') :=
  mkSwapInner_aux A ob left left [] T d (by simp) h

theorem mkSwap_loop (left : Ty) : ∀ (R A : Ty) (d : GDiagram), d.cod = A ++ left ++ R →
    ∃ d' ls, (R.zipIdx A.length).foldlM (fun d obs => mkSwapInner left obs.2 obs.1 d) d = .ok d'
      ∧ SwapExt d d' ls ∧ d'.cod = A ++ R ++ left ∧ ls.length = left.length * R.length
      ∧ (∀ {α : Type} (A' L' R' : List α), A'.length = A.length → L'.length = left.length →
          R'.length = R.length → routeWires ls (A' ++ L' ++ R') = A' ++ R' ++ L') := by
  intro R
  induction R with
  | nil =>
    intro A d h
    refine ⟨d, [], rfl, SwapExt.refl d, by simpa using h, by simp, ?_⟩
    intro α A' L' R' _ _ hR
    have : R' = [] := List.eq_nil_of_length_eq_zero hR
    subst this; simp [routeWires]
  | cons ob R ih =>
    intro A d h
    obtain ⟨d1, l1, a1, a2, a3, a4, a5⟩ := mkSwapInner_eq A left R ob d h
    obtain ⟨d2, l2, b1, b2, b3, b4, b5⟩ := ih (A ++ [ob]) d1 (by rw [a3]; simp)
    refine ⟨d2, l1 ++ l2, ?_, a2.trans b2, by rw [b3]; simp, ?_, ?_⟩
    · simp only [List.zipIdx_cons, List.foldlM_cons]
      rw [a1, ok_bind]
      simpa using b1
    · simp [a4, b4, Nat.mul_add]; omega
    · intro α A' L' R' hA hL hR
      rcases R' with _ | ⟨x', R'⟩
      · simp at hR
      · rw [routeWires_append, a5 A' L' R' x' hA hL]
        have := b5 (A' ++ [x']) L' R' (by simp [hA]) hL (by simpa using hR)
        simpa using this

/-- **C12.** `Swap(a, b)` for arbitrary types never raises and is a well-typed diagram from `a @ b` to
`b @ a`, made of `|a| * |b|` adjacent swaps, whose effect on arbitrary wire labels is to move the block
of `a` after the block of `b`, keeping the order inside each block. -/
theorem C12_swap (a b : Ty) : ∃ d, mkSwap a b = .ok d ∧ d.dom = a ++ b ∧ d.cod = b ++ a ∧ d.WT
    ∧ OnlySwaps d.layers ∧ d.layers.length = a.length * b.length
    ∧ (∀ {α : Type} (la lb : List α), la.length = a.length → lb.length = b.length →
        routeWires d.layers (la ++ lb) = lb ++ la) := by
  by_cases h : a.length = 1 ∧ b.length = 1
  · obtain ⟨x, rfl⟩ := List.length_eq_one_iff.1 h.1
    obtain ⟨y, rfl⟩ := List.length_eq_one_iff.1 h.2
    refine ⟨ofBox (.swap x y), rfl, rfl, rfl, WT.ofBox _, ?_, rfl, ?_⟩
    · intro l hl
      simp [ofBox] at hl
      exact ⟨x, y, by rw [hl]; rfl⟩
    · intro α la lb ha hb
      obtain ⟨p, rfl⟩ := List.length_eq_one_iff.1 ha
      obtain ⟨q, rfl⟩ := List.length_eq_one_iff.1 hb
      rfl
  · obtain ⟨d, ls, e1, e2, e3, e4, e5⟩ := mkSwap_loop a b [] (Diagram.id (a ++ b)) (by simp [Diagram.id])
    have hly : d.layers = ls := by simpa [Diagram.id] using e2.layers
    have hd : d.dom = a ++ b := by simpa [Diagram.id] using e2.dom
    have hc : d.cod = b ++ a := by simpa using e3
    refine ⟨d, ?_, hd, hc, ?_, ?_, ?_, ?_⟩
    · unfold mkSwap
      split
      · simp at h
      · exact e1
    · have := e2.chain
      unfold WT; rw [hd, hly]; simpa [Diagram.id] using this
    · rw [hly]; exact e2.swaps
    · rw [hly]; exact e4
    · intro α la lb ha hb
      rw [hly]
      simpa using e5 [] la lb rfl ha hb

/-- Non-vacuity of C12: a 2×3 swap with six atomic swaps. -/
example : ∃ d, mkSwap [⟨"a",0⟩,⟨"b",1⟩] [⟨"c",0⟩,⟨"d",0⟩,⟨"e",-1⟩] = .ok d ∧ d.layers.length = 6 ∧
    d.cod = [⟨"c",0⟩,⟨"d",0⟩,⟨"e",-1⟩,⟨"a",0⟩,⟨"b",1⟩] := ⟨_, rfl, rfl, rfl⟩

/-! ### C13 -/

/-- Specification: nested cups, the innermost pair first. Each pair is `(left wire, right wire)`. -/
def nestedCups : List (Ob × Ob) → List GLayer
  | [] => []
  | (a, b) :: ps => ⟨(ps.map (·.1)).reverse, .cup a b false, ps.map (·.2)⟩ :: nestedCups ps

/-- Specification: nested caps, the outermost pair first; `pre` lists the pairs already created. -/
def nestedCaps : List (Ob × Ob) → List (Ob × Ob) → List GLayer
  | _, [] => []
  | pre, (a, b) :: ps =>
    ⟨pre.map (·.1), .cap a b false, (pre.map (·.2)).reverse⟩ :: nestedCaps (pre ++ [(a, b)]) ps

theorem atomicCup_ok {a b : Ob} (h : a = Ty.rotOb (-1) b) : Box.atomicCup a b false = .ok (.cup a b false) := by
  simp [Box.atomicCup, Box.cupAdjoint, Ty.l_singleton, h]

theorem atomicCap_ok {a b : Ob} (h : a = Ty.rotOb 1 b) : Box.atomicCap a b false = .ok (.cap a b false) := by
  simp [Box.atomicCap, Box.capAdjoint, Ty.r_singleton, h]

theorem cup_loop (n : Nat) : ∀ (ps : List (Ob × Ob)) (k : Nat) (d : GDiagram), ps.length + k = n →
    (∀ p ∈ ps, p.1 = Ty.rotOb (-1) p.2) → d.cod = (ps.map (·.1)).reverse ++ ps.map (·.2) →
    (ps.zipIdx k).foldlM (fun (d : GDiagram) x =>
      match Box.atomicCup x.1.1 x.1.2 false with
      | .ok b => thenAt d (ofBox b) ((n : Int) - 1 - x.2)
      | .error e => .error e) d = .ok ⟨d.dom, [], d.layers ++ nestedCups ps⟩ := by
  intro ps
  induction ps with
  | nil =>
    intro k d _ _ hc
    rcases d with ⟨dd, dc, dl⟩
    simp at hc; subst hc
    simp [nestedCups]; rfl
  | cons p ps ih =>
    intro k d hn hp hc
    obtain ⟨a, b⟩ := p
    simp only [List.zipIdx_cons, List.foldlM_cons]
    rw [atomicCup_ok (hp (a, b) (by simp))]
    simp only
    have hidx : (n : Int) - 1 - k = (((ps.map (·.1)).reverse).length : Nat) := by
      simp at hn ⊢; omega
    rw [hidx, thenAt_eq (d := d) (g := ofBox (.cup a b false)) ((ps.map (·.1)).reverse) (ps.map (·.2))
      (by rw [hc]; simp [ofBox, Box.dom]), ok_bind]
    have := ih (k + 1) ⟨d.dom, (ps.map (·.1)).reverse ++ (ofBox (.cup a b false) : GDiagram).cod ++ ps.map (·.2),
      d.layers ++ (ofBox (.cup a b false) : GDiagram).layers.map (Layer.extend ((ps.map (·.1)).reverse) (ps.map (·.2)))⟩
      (by simp at hn; omega) (fun p hp' => hp p (by simp [hp'])) (by simp [ofBox, Box.cod])
    rw [this]
    simp [nestedCups, ofBox, Layer.extend]

theorem cap_loop : ∀ (ps pre : List (Ob × Ob)) (d : GDiagram),
    (∀ p ∈ ps, p.1 = Ty.rotOb 1 p.2) → d.cod = pre.map (·.1) ++ (pre.map (·.2)).reverse →
    (ps.zipIdx pre.length).foldlM (fun (d : GDiagram) x =>
      match Box.atomicCap x.1.1 x.1.2 false with
      | .ok b => thenAt d (ofBox b) (x.2 : Int)
      | .error e => .error e) d =
        .ok ⟨d.dom, (pre ++ ps).map (·.1) ++ ((pre ++ ps).map (·.2)).reverse, d.layers ++ nestedCaps pre ps⟩ := by
  intro ps
  induction ps with
  | nil =>
    intro pre d _ hc
    rcases d with ⟨dd, dc, dl⟩
    simp at hc; subst hc
    simp [nestedCaps]; rfl
  | cons p ps ih =>
    intro pre d hp hc
    obtain ⟨a, b⟩ := p
    simp only [List.zipIdx_cons, List.foldlM_cons]
    rw [atomicCap_ok (hp (a, b) (by simp))]
    simp only
    have hidx : ((pre.length : Nat) : Int) = ((pre.map (·.1)).length : Nat) := by simp
    rw [hidx, thenAt_eq (d := d) (g := ofBox (.cap a b false)) (pre.map (·.1)) ((pre.map (·.2)).reverse)
      (by rw [hc]; simp [ofBox, Box.dom]), ok_bind]
    have := ih (pre ++ [(a, b)]) ⟨d.dom, pre.map (·.1) ++ (ofBox (.cap a b false) : GDiagram).cod ++ (pre.map (·.2)).reverse,
      d.layers ++ (ofBox (.cap a b false) : GDiagram).layers.map (Layer.extend (pre.map (·.1)) ((pre.map (·.2)).reverse))⟩
      (fun p hp' => hp p (by simp [hp'])) (by simp [ofBox, Box.cod])
    rw [List.length_append] at this
    simp only [List.length_singleton] at this
    rw [this]
    simp [nestedCaps, ofBox, Layer.extend]

theorem cup_pairs (t : Ty) : (Ty.l t).reverse.zip t = t.map (fun o => (Ty.rotOb (-1) o, o)) := by
  have : (Ty.l t).reverse = t.map (Ty.rotOb (-1)) := by simp [Ty.l, Ty.rotate]
  rw [this]; clear this
  induction t with
  | nil => rfl
  | cons a t ih => simp [ih]

theorem cap_pairs (t : Ty) : (Ty.r t).zip t.reverse = t.reverse.map (fun o => (Ty.rotOb 1 o, o)) := by
  have : (Ty.r t) = t.reverse.map (Ty.rotOb 1) := by simp [Ty.r, Ty.rotate]
  rw [this]
  generalize t.reverse = u
  induction u with
  | nil => rfl
  | cons a t ih => simp [ih]

/-- Closed form of a compound cup. -/
theorem mkCup_l (t : Ty) : mkCup (Ty.l t) t false =
    .ok ⟨Ty.l t ++ t, [], nestedCups (t.map (fun o => (Ty.rotOb (-1) o, o)))⟩ := by
  unfold mkCup
  split
  · rename_i l r h
    rw [Ty.l_singleton] at h
    have h : Ty.rotOb (-1) r = l := by simpa using h
    subst h
    rw [atomicCup_ok rfl, Ty.l_singleton]
    simp [Except.map, ofBox, nestedCups, Box.dom, Box.cod]
  · rename_i t _ _ _
    simp only [Box.cupAdjoint, Bool.false_eq_true, if_false, decide_true, not_true_eq_false]
    rw [cup_pairs]
    have := cup_loop (Ty.l t).length (t.map (fun o => (Ty.rotOb (-1) o, o))) 0 (Diagram.id (Ty.l t ++ t))
      (by simp) (by simp) (by simp [Diagram.id, Function.comp_def, Ty.l, Ty.rotate])
    refine Eq.trans this ?_
    simp [Diagram.id]

theorem mkCup_r (t : Ty) : mkCup t (Ty.r t) false =
    .ok ⟨t ++ Ty.r t, [], nestedCups ((Ty.r t).map (fun o => (Ty.rotOb (-1) o, o)))⟩ := by
  have := mkCup_l (Ty.r t)
  rwa [Ty.r_l] at this

/-- Closed form of a compound cap. -/
theorem mkCap_r (t : Ty) : mkCap (Ty.r t) t false =
    .ok ⟨[], Ty.r t ++ t, nestedCaps [] (t.reverse.map (fun o => (Ty.rotOb 1 o, o)))⟩ := by
  unfold mkCap
  split
  · rename_i l r h
    rw [Ty.r_singleton] at h
    have h : Ty.rotOb 1 r = l := by simpa using h
    subst h
    rw [atomicCap_ok rfl, Ty.r_singleton]
    simp [Except.map, ofBox, nestedCaps, Box.dom, Box.cod]
  · rename_i t _ _ _
    simp only [Box.capAdjoint, Bool.false_eq_true, if_false, decide_true, not_true_eq_false]
    rw [cap_pairs]
    have := cap_loop (t.reverse.map (fun o => (Ty.rotOb 1 o, o))) [] (Diagram.id [])
      (by simp) (by simp [Diagram.id])
    simp only [List.length_nil] at this
    refine Eq.trans this ?_
    simp [Diagram.id, Function.comp_def, Ty.r, Ty.rotate]

theorem mkCap_l (t : Ty) : mkCap t (Ty.l t) false =
    .ok ⟨[], t ++ Ty.l t, nestedCaps [] ((Ty.l t).reverse.map (fun o => (Ty.rotOb 1 o, o)))⟩ := by
  have := mkCap_r (Ty.l t)
  rwa [Ty.l_r] at this

theorem nestedCups_chain (ps : List (Ob × Ob)) :
    Chain ((ps.map (·.1)).reverse ++ ps.map (·.2)) (nestedCups ps) ([] : Ty) := by
  induction ps with
  | nil => rfl
  | cons p ps ih =>
    obtain ⟨a, b⟩ := p
    refine ⟨by simp [Layer.dom, Box.dom], ?_⟩
    simpa [Layer.cod, Box.cod] using ih

theorem nestedCaps_chain (ps pre : List (Ob × Ob)) :
    Chain (pre.map (·.1) ++ (pre.map (·.2)).reverse) (nestedCaps pre ps)
      ((pre ++ ps).map (·.1) ++ ((pre ++ ps).map (·.2)).reverse : Ty) := by
  induction ps generalizing pre with
  | nil => simp [nestedCaps, Chain]
  | cons p ps ih =>
    obtain ⟨a, b⟩ := p
    refine ⟨by simp [Layer.dom, Box.dom], ?_⟩
    have := ih (pre ++ [(a, b)])
    simpa [Layer.cod, Box.cod] using this

theorem nestedCups_valid (ps : List (Ob × Ob)) (h : ∀ p ∈ ps, p.1 = Ty.rotOb (-1) p.2) :
    ∀ l ∈ nestedCups ps, ∃ a b, l.box = .cup a b false ∧ [a] = Ty.l [b] := by
  induction ps with
  | nil => simp [nestedCups]
  | cons p ps ih =>
    intro l hl
    rcases List.mem_cons.1 hl with rfl | hl
    · exact ⟨p.1, p.2, rfl, by rw [Ty.l_singleton, h p (by simp)]⟩
    · exact ih (fun p hp => h p (by simp [hp])) l hl

theorem nestedCaps_valid (ps pre : List (Ob × Ob)) (h : ∀ p ∈ ps, p.1 = Ty.rotOb 1 p.2) :
    ∀ l ∈ nestedCaps pre ps, ∃ a b, l.box = .cap a b false ∧ [a] = Ty.r [b] := by
  induction ps generalizing pre with
  | nil => simp [nestedCaps]
  | cons p ps ih =>
    intro l hl
    rcases List.mem_cons.1 hl with rfl | hl
    · exact ⟨p.1, p.2, rfl, by rw [Ty.r_singleton, h p (by simp)]⟩
    · exact ih _ (fun p hp => h p (by simp [hp])) l hl

theorem nestedCups_length (ps : List (Ob × Ob)) : (nestedCups ps).length = ps.length := by
  induction ps with
  | nil => rfl
  | cons p ps ih => simp [nestedCups, ih]

theorem nestedCaps_length (ps pre : List (Ob × Ob)) : (nestedCaps pre ps).length = ps.length := by
  induction ps generalizing pre with
  | nil => rfl
  | cons p ps ih => simp [nestedCaps, ih]

theorem mkCup_not_adj (a b : Ty) (h : a ≠ Ty.l b) : mkCup a b false = .error .valueError := by
  unfold mkCup
  split
  · rename_i l r
    simp [Box.atomicCup, Box.cupAdjoint, h, Except.map]
  · simp [Box.cupAdjoint, h]

theorem mkCap_not_adj (a b : Ty) (h : a ≠ Ty.r b) : mkCap a b false = .error .valueError := by
  unfold mkCap
  split
  · rename_i l r
    simp [Box.atomicCap, Box.capAdjoint, h, Except.map]
  · simp [Box.capAdjoint, h]

/-- **C13 (cups).** `Cup(a, b)` succeeds exactly when `a == b.l`, otherwise it raises `ValueError`.
When it succeeds, the result is a well-typed diagram from `a @ b` to the empty type, of `len(b)` atomic
cups, each passing the adjointness check, joining wire `len(a)-1-i` of `a` with wire `i` of `b`
(nested, innermost first). -/
theorem C13_cups (a b : Ty) :
    (a ≠ Ty.l b → mkCup a b false = .error .valueError) ∧
    (a = Ty.l b → ∃ d, mkCup a b false = .ok d ∧ d.dom = a ++ b ∧ d.cod = [] ∧ d.WT
      ∧ d.layers = nestedCups (a.reverse.zip b) ∧ d.layers.length = b.length
      ∧ ∀ l ∈ d.layers, ∃ x y, l.box = .cup x y false ∧ [x] = Ty.l [y]) := by
  refine ⟨mkCup_not_adj a b, ?_⟩
  rintro rfl
  refine ⟨_, mkCup_l b, rfl, rfl, ?_, by rw [cup_pairs], by simp [nestedCups_length], ?_⟩
  · have := nestedCups_chain (b.map (fun o => (Ty.rotOb (-1) o, o)))
    simpa [WT, Function.comp_def, Ty.l, Ty.rotate] using this
  · exact nestedCups_valid _ (by simp)

/-- **C13 (caps).** As `C13_cups`, with `Cap(a, b)` defined exactly when `a == b.r`. -/
theorem C13_caps (a b : Ty) :
    (a ≠ Ty.r b → mkCap a b false = .error .valueError) ∧
    (a = Ty.r b → ∃ d, mkCap a b false = .ok d ∧ d.dom = [] ∧ d.cod = a ++ b ∧ d.WT
      ∧ d.layers = nestedCaps [] (a.zip b.reverse) ∧ d.layers.length = b.length
      ∧ ∀ l ∈ d.layers, ∃ x y, l.box = .cap x y false ∧ [x] = Ty.r [y]) := by
  refine ⟨mkCap_not_adj a b, ?_⟩
  rintro rfl
  refine ⟨_, mkCap_r b, rfl, rfl, ?_, by rw [cap_pairs], by simp [nestedCaps_length], ?_⟩
  · have := nestedCaps_chain (b.reverse.map (fun o => (Ty.rotOb 1 o, o))) []
    simpa [WT, Function.comp_def, Ty.r, Ty.rotate] using this
  · exact nestedCaps_valid _ _ (by simp)

/-- Both documented uses are covered: `cups(t, t.r)`, `cups(t.l, t)`, `caps(t, t.l)`, `caps(t.r, t)`
never raise, for every type. -/
theorem C13_documented_uses (t : Ty) :
    (∃ d, mkCup t (Ty.r t) false = .ok d) ∧ (∃ d, mkCup (Ty.l t) t false = .ok d) ∧
    (∃ d, mkCap t (Ty.l t) false = .ok d) ∧ (∃ d, mkCap (Ty.r t) t false = .ok d) :=
  ⟨⟨_, mkCup_r t⟩, ⟨_, mkCup_l t⟩, ⟨_, mkCap_l t⟩, ⟨_, mkCap_r t⟩⟩

/-- **C13, refuted part.** With `is_reversed=True` the compound constructors raise `ValueError` for
*every* pair of types of length at least two, adjoint or not: the recursive calls drop the flag
(grammar.py:1465, 1592). -/
theorem C13_reversed_compound_refuted (a b : Ty) (h : 2 ≤ a.length) :
    mkCup a b true = .error .valueError ∧ mkCap a b true = .error .valueError := by
  constructor
  · unfold mkCup
    split
    · simp at h
    · split
      · rfl
      · rename_i _ _ _ hadj
        have hadj : a = Ty.r b := by simpa [Box.cupAdjoint] using hadj
        subst hadj
        have hr : (Ty.r b).reverse.zip b = b.map (fun o => (Ty.rotOb 1 o, o)) := by
          have : (Ty.r b).reverse = b.map (Ty.rotOb 1) := by simp [Ty.r, Ty.rotate]
          rw [this]; clear * -
          induction b with
          | nil => rfl
          | cons a t ih => simp [ih]
        rw [hr]
        rcases b with _ | ⟨x, b⟩
        · simp at h
        · simp only [List.map_cons, List.zipIdx_cons, List.foldlM_cons]
          have : Box.atomicCup (Ty.rotOb 1 x) x false = .error .valueError := by
            simp [Box.atomicCup, Box.cupAdjoint, Ty.l_singleton, Ty.rotOb]
          rw [this]; rfl
  · unfold mkCap
    split
    · simp at h
    · split
      · rfl
      · rename_i _ _ _ hadj
        have hadj : a = Ty.l b := by simpa [Box.capAdjoint] using hadj
        subst hadj
        rcases List.eq_nil_or_concat b with rfl | ⟨b0, x, rfl⟩
        · simp at h
        · simp only [List.concat_eq_append, Ty.l_append, Ty.l_singleton, List.singleton_append, List.reverse_append,
            List.reverse_singleton, List.zip_cons_cons, List.zipIdx_cons, List.foldlM_cons]
          have : Box.atomicCap (Ty.rotOb (-1) x) x false = .error .valueError := by
            simp [Box.atomicCap, Box.capAdjoint, Ty.r_singleton, Ty.rotOb]
          rw [this]; rfl

/-- The refutation is about adjoint arguments too: `Cup(t.r, t, is_reversed=True)` is documented to
work and does for atomic `t`. -/
example : (∃ d, mkCup (Ty.r [⟨"n",0⟩]) [⟨"n",0⟩] true = .ok d) ∧
    mkCup (Ty.r [⟨"n",0⟩,⟨"s",0⟩]) [⟨"n",0⟩,⟨"s",0⟩] true = .error .valueError :=
  ⟨⟨_, rfl⟩, rfl⟩

/-- Non-vacuity of C13: a compound cup with two atomic cups. -/
example : ∃ d, mkCup [⟨"s",-1⟩,⟨"n",0⟩] [⟨"n",1⟩,⟨"s",0⟩] false = .ok d ∧ d.layers.length = 2 := ⟨_, rfl, rfl⟩

end GDiagram
end Lambeq
