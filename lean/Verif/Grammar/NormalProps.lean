import Verif.Grammar.SnakeProps
import Mathlib.Data.Set.Finite.Basic
import Mathlib.Data.Set.Finite.List
import Mathlib.Data.Set.Finite.Lattice
import Mathlib.Data.Finset.Card
import Mathlib.Order.Interval.Finset.Nat
import Mathlib.Data.List.Permutation

/-!
# Normal forms: C26
-/

namespace Lambeq
open Diagram
set_option linter.unusedSectionVars false
set_option linter.unusedSimpArgs false

section Generic
variable {O B : Type} [BoxSig B O]

/-- There are finitely many ways to stack given boxes, in a given order, on a given type. -/
theorem finite_chains (bs : List B) (a c : List O) :
    {ls : List (Layer O B) | Chain a ls c ∧ ls.map (·.box) = bs}.Finite := by
  induction bs generalizing a with
  | nil =>
    refine (Set.finite_singleton []).subset ?_
    rintro ls ⟨-, h⟩
    simpa using h
  | cons b bs ih =>
    let mk : Nat → Layer O B := fun k => ⟨a.take k, b, a.drop (k + (BoxSig.dom b).length)⟩
    have : {ls : List (Layer O B) | Chain a ls c ∧ ls.map (·.box) = b :: bs} ⊆
        ⋃ k ∈ Set.Iic a.length, (fun ls => mk k :: ls) '' {ls | Chain (mk k).cod ls c ∧ ls.map (·.box) = bs} := by
      rintro ls ⟨h, hb⟩
      cases ls with
      | nil => simp at hb
      | cons l ls =>
        simp only [List.map_cons, List.cons.injEq] at hb
        obtain ⟨h1, h2⟩ := h
        have hk : l = mk l.left.length := by
          obtain ⟨ll, lb, lr⟩ := l
          obtain ⟨rfl, -⟩ := hb
          simp only [Layer.dom] at h1
          dsimp only [mk]
          congr 1
          · rw [← h1]; simp
          · rw [← h1, ← List.length_append, List.drop_left]
        simp only [Set.mem_iUnion, Set.mem_image, Set.mem_ofPred_eq, Set.mem_Iic]
        refine ⟨l.left.length, ?_, ls, ⟨?_, hb.2⟩, ?_⟩
        · rw [← h1]; simp [Layer.dom]
        · rw [← hk]; exact h2
        · rw [← hk]
    exact ((Set.finite_Iic a.length).biUnion (fun k _ => (ih _).image _)).subset this

/-- Finitely many diagrams can be reached by moving boxes. -/
theorem finite_moved (d : Diagram O B) : {d' | Moved d d'}.Finite := by
  have : {d' | Moved d d'} ⊆ ⋃ bs ∈ {bs : List B | bs.Perm d.boxes},
      (fun ls => (⟨d.dom, d.cod, ls⟩ : Diagram O B)) '' {ls | Chain d.dom ls d.cod ∧ ls.map (·.box) = bs} := by
    intro d' h
    simp only [Set.mem_iUnion, Set.mem_image, Set.mem_ofPred_eq]
    refine ⟨d'.boxes, h.perm, d'.layers, ⟨h.same.chain, rfl⟩, ?_⟩
    rw [← h.dom, ← h.cod]
  refine Set.Finite.subset ?_ this
  refine Set.Finite.biUnion ?_ (fun bs _ => (finite_chains bs _ _).image _)
  classical
  refine (List.finite_toSet d.boxes.permutations).subset ?_
  intro bs h
  exact List.mem_permutations.2 h

variable [DecidableEq O] [DecidableEq B]

/-- Specification: no box can be moved up (resp. down) past its neighbour in the direction `left`. -/
def Irreducible (left : Bool) (d : Diagram O B) : Prop :=
  ∀ i a b, d.layers[i]? = some a → d.layers[i + 1]? = some b →
    if left then b.left.length < a.left.length + (BoxSig.cod a.box).length
    else a.left.length < b.left.length + (BoxSig.dom b.box).length

theorem canMove_false {left : Bool} {a b : Layer O B} : canMove left a b = false ↔
    if left then b.left.length < a.left.length + (BoxSig.cod a.box).length
    else a.left.length < b.left.length + (BoxSig.dom b.box).length := by
  cases left <;> simp [canMove]

theorem nfStep_ok {left : Bool} {d : Diagram O B} {c : List (Diagram O B)} {fl : Bool} {i : Nat} (hd : d.WT)
    (hi : i + 1 < d.layers.length) :
    (nfStep left ((d, c), fl) i = .error .notImplementedError)
    ∨ (nfStep left ((d, c), fl) i = .ok ((d, c), fl) ∧ ∀ a b, d.layers[i]? = some a → d.layers[i + 1]? = some b →
        canMove left a b = false)
    ∨ ∃ d', nfStep left ((d, c), fl) i = .ok ((d', d' :: c), true) ∧ Moved d d' ∧ d' ∉ c := by
  rw [nfStep]
  dsimp only
  have h1 : d.layers[i]? = some d.layers[i] := by simp [show i < d.layers.length by omega]
  have h2 : d.layers[i + 1]? = some d.layers[i + 1] := by simp [hi]
  rw [h1, h2]
  dsimp only
  by_cases hc : canMove left d.layers[i] d.layers[i + 1] = true
  · rw [if_pos hc]
    have e : interchangeN d i (i + 1) left = interchangeAdj left d i := by
      rw [interchangeN, if_neg (by omega), if_neg (by omega), if_neg (by omega), if_neg (by omega)]
      congr 1; omega
    rw [e]
    cases hx : interchangeAdj left d i with
    | error er =>
      exfalso
      rw [interchangeAdj, h1, h2] at hx
      dsimp only at hx
      cases hy : exchange left d.layers[i] d.layers[i + 1] with
      | ok p => rw [hy] at hx; cases hx
      | error e' =>
        obtain ⟨-, h3⟩ := exchange_error_iff.1 hy
        have hc' := hc
        simp only [canMove, Bool.or_eq_true, Bool.and_eq_true, decide_eq_true_eq, Bool.not_eq_true'] at hc'
        omega
    | ok d' =>
      dsimp only
      by_cases hm : d' ∈ c
      · rw [if_pos hm]; exact Or.inl rfl
      · rw [if_neg hm]; exact Or.inr (Or.inr ⟨d', rfl, interchangeAdj_moved hd hx, hm⟩)
  · rw [if_neg hc]
    refine Or.inr (Or.inl ⟨rfl, ?_⟩)
    intro a b ha hb
    injection ha with ha
    injection hb with hb
    subst ha hb
    simpa using hc

theorem moved_length {d d' : Diagram O B} (h : Moved d d') : d'.layers.length = d.layers.length := by
  have := h.perm.length_eq
  simpa [Diagram.boxes] using this

/-- One pass over the diagram. -/
theorem nfPass_ok {left : Bool} {d0 d : Diagram O B} {c : List (Diagram O B)} {fl : Bool} (is : List Nat)
    (hi : ∀ i ∈ is, i + 1 < d0.layers.length) (hd : Moved d0 d) (hc : c.Nodup) (hcm : ∀ x ∈ c, Moved d0 x) :
    (is.foldlM (nfStep left) ((d, c), fl) = .error .notImplementedError)
    ∨ ∃ d' c' fl', is.foldlM (nfStep left) ((d, c), fl) = .ok ((d', c'), fl') ∧ Moved d0 d' ∧ c'.Nodup
      ∧ (∀ x ∈ c', Moved d0 x) ∧ c.length ≤ c'.length
      ∧ ((fl' = fl ∧ d' = d ∧ c' = c ∧ ∀ i ∈ is, ∀ a b, d.layers[i]? = some a → d.layers[i + 1]? = some b →
            canMove left a b = false)
        ∨ (fl' = true ∧ c.length < c'.length)) := by
  induction is generalizing d c fl with
  | nil => exact Or.inr ⟨d, c, fl, rfl, hd, hc, hcm, Nat.le_refl _, Or.inl ⟨rfl, rfl, rfl, by simp⟩⟩
  | cons i is ih =>
    rw [List.foldlM_cons]
    rcases nfStep_ok (left := left) (c := c) (fl := fl) hd.wt (i := i) (by rw [moved_length hd]; exact hi i (by simp)) with
      h | ⟨h, hn⟩ | ⟨d', h, hm, hnc⟩
    · exact Or.inl (by rw [h]; rfl)
    · rw [h, ok_bind]
      rcases ih (fun i hi' => hi i (by simp [hi'])) hd hc hcm with h' | ⟨d', c', fl', h1, h2, h3, h4, h5, h6⟩
      · exact Or.inl h'
      · refine Or.inr ⟨d', c', fl', h1, h2, h3, h4, h5, ?_⟩
        rcases h6 with ⟨g1, g2, g3, g4⟩ | h6
        · refine Or.inl ⟨g1, g2, g3, ?_⟩
          intro j hj
          rcases List.mem_cons.1 hj with rfl | hj
          · exact hn
          · exact g4 j hj
        · exact Or.inr h6
    · rw [h, ok_bind]
      rcases ih (fl := true) (fun i hi' => hi i (by simp [hi'])) (hd.trans hm) (List.nodup_cons.2 ⟨hnc, hc⟩)
        (by intro x hx
            rcases List.mem_cons.1 hx with rfl | hx
            · exact hd.trans hm
            · exact hcm x hx) with h' | ⟨d'', c', fl', h1, h2, h3, h4, h5, h6⟩
      · exact Or.inl h'
      · simp only [List.length_cons] at h5 h6
        refine Or.inr ⟨d'', c', fl', h1, h2, h3, h4, by omega, Or.inr ⟨?_, by omega⟩⟩
        rcases h6 with ⟨g1, -⟩ | ⟨g1, -⟩ <;> exact g1

/-- The loop ends within a number of passes that depends on the diagram only. -/
theorem nfLoop_ok (left : Bool) (d0 : Diagram O B) (K : Nat)
    (hK : ∀ c : List (Diagram O B), c.Nodup → (∀ x ∈ c, Moved d0 x) → c.length ≤ K)
    (n : Nat) {d : Diagram O B} {c : List (Diagram O B)} (hd : Moved d0 d) (hc : c.Nodup) (hcm : ∀ x ∈ c, Moved d0 x)
    (hn : K < n + c.length) :
    nfLoop left n (d, c) = some (.error .notImplementedError)
    ∨ ∃ d', nfLoop left n (d, c) = some (.ok d') ∧ Moved d0 d' ∧ Irreducible left d' := by
  induction n generalizing d c with
  | zero => have := hK c hc hcm; omega
  | succ n ih =>
    rw [nfLoop]
    dsimp only
    rcases nfPass_ok (left := left) (fl := false) (List.range (d.layers.length - 1)) (by
      intro i hi
      rw [← moved_length hd]
      have := List.mem_range.1 hi
      omega) hd hc hcm with h | ⟨d', c', fl', h1, h2, h3, h4, h5, h6⟩
    · rw [h]; exact Or.inl rfl
    · rw [h1]
      dsimp only
      rcases h6 with ⟨rfl, rfl, rfl, g⟩ | ⟨rfl, hlt⟩
      · refine Or.inr ⟨d', by simp, h2, ?_⟩
        intro i a b ha hb
        have hi : i < d'.layers.length - 1 := by
          have := (List.getElem?_eq_some_iff.1 hb).1
          omega
        exact canMove_false.1 (g i (List.mem_range.2 hi) a b ha hb)
      · rw [if_pos rfl]
        exact ih h2 h3 h4 (by omega)

theorem exists_bound (d0 : Diagram O B) :
    ∃ K, ∀ c : List (Diagram O B), c.Nodup → (∀ x ∈ c, Moved d0 x) → c.length ≤ K := by
  have hf := finite_moved d0
  refine ⟨hf.toFinset.card, ?_⟩
  intro c hc hm
  rw [← List.toFinset_card_of_nodup hc]
  refine Finset.card_le_card ?_
  intro x hx
  rw [Set.Finite.mem_toFinset]
  exact hm x (by simpa using hx)

end Generic

namespace GDiagram

/-- **C26.** `normal_form` on a well-typed diagram (with at most one orientation of cups and caps, see C25) always
terminates: from some number of passes on, the result no longer depends on the bound, and is either
`NotImplementedError` or a diagram that is well typed, has the same domain and codomain, admits no further move
in the requested direction, has the boxes of `d` up to removed cap/cup pairs, and denotes the same linear map
under every interpretation satisfying the snake equations. -/
theorem C26_normal_form_partial (d : GDiagram) (left : Bool) (rev : Bool) (hd : d.WT) (hv : d.Valid)
    (ho : OneOrientation d rev) :
    ∃ N, ∀ n, N ≤ n → normalForm n left d = some (.error .notImplementedError) ∨
      ∃ (d' : GDiagram) (pairs : List (Box × Box)), normalForm n left d = some (.ok d') ∧ d'.WT ∧ d'.dom = d.dom
        ∧ d'.cod = d.cod ∧ Irreducible left d'
        ∧ d.boxes.Perm (d'.boxes ++ pairs.flatMap (fun p => [p.1, p.2]))
        ∧ (∀ p ∈ pairs, isCap p.1 = true ∧ isCup p.2 = true)
        ∧ ∀ {R : Type} [CommSemiring R] (I : Interp Ob Box R), SnakeEqs I → I.SameMap d d' := by
  obtain ⟨d1, pairs, h1, h2, h3, h4, h5, h6, h7, h8⟩ := C25_remove_snakes_partial d rev hd hv ho
  obtain ⟨K, hK⟩ := exists_bound d1
  refine ⟨K + 1, fun n hn => ?_⟩
  rw [normalForm, h1]
  dsimp only
  rcases nfLoop_ok left d1 K hK n (Moved.refl h2) List.nodup_nil (by simp) (by simp; omega) with h | ⟨d', g1, g2, g3⟩
  · exact Or.inl h
  · refine Or.inr ⟨d', pairs, g1, g2.wt, g2.dom.trans h3, g2.cod.trans h4, g3,
      h6.trans (List.Perm.append_right _ g2.perm.symm), h7, ?_⟩
    intro R _ I hI
    obtain ⟨m1, m2, m3⟩ := h8 I hI
    obtain ⟨l1, l2, l3⟩ := g2.toSameD.sameMap I
    refine ⟨m1.trans l1, m2.trans l2, fun x hx y hy => ?_⟩
    exact (m3 x hx y hy).trans (l3 x (by rw [← m1]; exact hx) y (by rw [← m2]; exact hy))

theorem chain_end_unique {a c c' : Ty} {ls : List GLayer} (h : Chain a ls c) (h' : Chain a ls c') : c = c' := by
  induction ls generalizing a with
  | nil => exact Eq.trans (Eq.symm h) h'
  | cons l ls ih => exact ih h.2 h'.2
theorem chain_start_unique {a a' c : Ty} {ls : List GLayer} (h : Chain a ls c) (h' : Chain a' ls c) : a = a' := by
  cases ls with
  | nil => exact Eq.trans h (Eq.symm h')
  | cons l ls => exact h.1.symm.trans h'.1

theorem leadingWords_foldl {c : Ty} (ls : List GLayer) (acc : GDiagram) (ha : acc.WT) (hl : Chain acc.cod ls c) :
    let ws := (leadingWords ls).1.foldl (fun acc b => tensor acc (ofBox b)) acc
    ws.WT ∧ ws.dom = acc.dom ∧ ws.layers = acc.layers ++ ls.take (leadingWords ls).1.length
      ∧ (leadingWords ls).1.length ≤ ls.length := by
  induction ls generalizing acc with
  | nil => simp [leadingWords, ha]
  | cons l ls ih =>
    obtain ⟨ll, lb, lr⟩ := l
    cases lb with
    | word n t z =>
      rw [leadingWords]
      dsimp only
      by_cases hr : lr.isEmpty = true
      · rw [if_pos hr]
        obtain ⟨h1, h2⟩ := hl
        have hr' : lr = [] := by simpa using hr
        subst hr'
        have h1' : ll = acc.cod := by simpa [Layer.dom, BoxSig.dom, Box.dom] using h1
        subst h1'
        have hacc : tensor acc (ofBox (.word n t z)) = ⟨acc.dom, acc.cod ++ t, acc.layers ++ [⟨acc.cod, .word n t z, []⟩]⟩ := by
          have hex : (Layer.extend [] [] : GLayer → GLayer) = _root_.id := by funext l; simp [Layer.extend]
          simp [tensor, tensorN, tensorStep, ofBox, BoxSig.dom, BoxSig.cod, Box.dom, Box.cod, hex]
          simp [Layer.extend]
        have hWT : (⟨acc.dom, acc.cod ++ t, acc.layers ++ [⟨acc.cod, .word n t z, []⟩]⟩ : GDiagram).WT := by
          refine chain_append'.2 ⟨acc.cod, ha, ?_⟩
          simp [Chain, Layer.dom, Layer.cod, BoxSig.dom, BoxSig.cod, Box.dom, Box.cod]
        have hc : Chain (acc.cod ++ t) ls c := by
          simpa [Layer.cod, BoxSig.cod, Box.cod] using h2
        obtain ⟨g1, g2, g3, g4⟩ := ih ⟨acc.dom, acc.cod ++ t, acc.layers ++ [⟨acc.cod, .word n t z, []⟩]⟩ hWT hc
        dsimp only [List.foldl_cons]
        rw [hacc]
        refine ⟨g1, g2, ?_, by simpa using g4⟩
        rw [g3]
        simp
      · rw [if_neg hr]
        simp [ha]
    | _ => simp [leadingWords, ha]

/-- **C26 for `pregroup_normal_form`.** On a well-typed diagram without inputs (as produced by the parsers) it
always terminates, and either raises `NotImplementedError` or returns a well-typed diagram with the same domain
and codomain and the same meaning. For diagrams with inputs see `C26_refuted_pregroup_normal_form_inputs`. -/
theorem C26_pregroup_normal_form_partial (d : GDiagram) (rev : Bool) (hd : d.WT) (hv : d.Valid)
    (ho : OneOrientation d rev) (hdom : d.dom = []) :
    ∃ N, ∀ n, N ≤ n → pregroupNormalForm n d = some (.error .notImplementedError) ∨
      ∃ d', pregroupNormalForm n d = some (.ok d') ∧ d'.WT ∧ d'.dom = d.dom ∧ d'.cod = d.cod
        ∧ ∀ {R : Type} [CommSemiring R] (I : Interp Ob Box R), SnakeEqs I → I.SameMap d d' := by
  have hid : (Diagram.id [] : GDiagram).WT := rfl
  have hch : Chain (Diagram.id [] : GDiagram).cod d.layers d.cod := by
    rw [WT, hdom] at hd; exact hd
  obtain ⟨w1, w2, w3, w4⟩ := leadingWords_foldl d.layers (Diagram.id []) hid hch
  generalize hws : (leadingWords d.layers).1.foldl (fun acc b => tensor acc (ofBox b)) (Diagram.id [] : GDiagram) = ws at w1 w2 w3
  generalize hk : (leadingWords d.layers).1.length = k at w3 w4
  have w3' : ws.layers = d.layers.take k := by rw [w3]; rfl
  have hlen : ws.layers.length = k := by rw [w3']; simp [w4]
  obtain ⟨a, b, s1, s2, s3⟩ := (C09_slices d hd).2 k w4
  obtain ⟨b', s4, s5, s6⟩ := (C09_slices d hd).1 k d.layers.length w4 (Nat.le_refl _)
  have hb : b = b' := by
    rw [slice_none_stop, s4] at s2; injection s2 with s2; exact s2.symm
  subst hb
  have s6' : b.layers = d.layers.drop k := by
    rw [s6, List.take_of_length_le (by simp)]
  obtain ⟨c1, c2⟩ := andThen_ok_iff.1 s3
  have hbcod : b.cod = d.cod := by rw [c2]
  have hmid : ws.cod = b.dom := by
    have hd' : Chain d.dom (d.layers.take k ++ d.layers.drop k) d.cod := by
      rw [List.take_append_drop]; exact hd
    obtain ⟨t, t1, t2⟩ := chain_append'.1 hd'
    have e1 : ws.cod = t := by
      have : Chain ws.dom ws.layers ws.cod := w1
      rw [w2, w3'] at this
      rw [hdom] at t1
      exact chain_end_unique this t1
    have e2 : b.dom = t := by
      have : Chain b.dom b.layers b.cod := s5
      rw [hbcod, s6'] at this
      exact chain_start_unique this t2
    rw [e1, e2]
  have hcomp : andThen ws b = .ok d := by
    refine andThen_ok_iff.2 ⟨hmid, ?_⟩
    rw [w3', s6', List.take_append_drop, w2, hbcod]
    obtain ⟨dd, dc, dl⟩ := d
    dsimp only at hdom
    subst hdom
    rfl
  have hsubw : ∀ x ∈ ws.boxes, x ∈ d.boxes := by
    intro x hx
    simp only [Diagram.boxes, w3', List.mem_map] at hx ⊢
    obtain ⟨l, hl, rfl⟩ := hx
    exact ⟨l, List.mem_of_mem_take hl, rfl⟩
  have hsubb : ∀ x ∈ b.boxes, x ∈ d.boxes := by
    intro x hx
    simp only [Diagram.boxes, s6', List.mem_map] at hx ⊢
    obtain ⟨l, hl, rfl⟩ := hx
    exact ⟨l, List.mem_of_mem_drop hl, rfl⟩
  have hvw : GDiagram.Valid ws := by
    intro l hl; rw [w3'] at hl; exact hv l (List.mem_of_mem_take hl)
  have hvb : GDiagram.Valid b := by
    intro l hl; rw [s6'] at hl; exact hv l (List.mem_of_mem_drop hl)
  obtain ⟨N0, h0⟩ := C26_normal_form_partial d false rev hd hv ho
  obtain ⟨N1, h1⟩ := C26_normal_form_partial ws false rev w1 hvw (fun x hx => ho x (hsubw x hx))
  obtain ⟨N2, h2⟩ := C26_normal_form_partial b false rev s5 hvb (fun x hx => ho x (hsubb x hx))
  refine ⟨N0 + N1 + N2, fun n hn => ?_⟩
  rw [pregroupNormalForm]
  rw [hws, hlen, s2]
  dsimp only
  split
  · rcases h0 n (by omega) with h | ⟨d', pairs, g1, g2, g3, g4, -, -, -, g5⟩
    · exact Or.inl h
    · exact Or.inr ⟨d', g1, g2, g3, g4, g5⟩
  · rcases h1 n (by omega) with h | ⟨w', pairs, g1, g2, g3, g4, -, -, -, g5⟩
    · rw [h]
      exact Or.inl rfl
    · rw [g1]
      rcases h2 n (by omega) with h | ⟨b', pairs', f1, f2, f3, f4, -, -, -, f5⟩
      · rw [h]; exact Or.inl rfl
      · rw [f1]
        dsimp only
        refine Or.inr ⟨⟨w'.dom, b'.cod, w'.layers ++ b'.layers⟩, ?_, ?_, ?_, ?_, ?_⟩
        · congr 1
          exact andThen_ok_iff.2 ⟨by rw [f3, g4, hmid], rfl⟩
        · refine chain_append'.2 ⟨w'.cod, g2, ?_⟩
          rw [g4, hmid, ← f3]; exact f2
        · dsimp only; rw [g3, w2, hdom]; rfl
        · dsimp only; rw [f4, hbcod]
        · intro R _ I hI
          obtain ⟨m1, m2, m3⟩ := g5 I hI
          obtain ⟨l1, l2, l3⟩ := f5 I hI
          have hc' : andThen w' b' = .ok ⟨w'.dom, b'.cod, w'.layers ++ b'.layers⟩ :=
            andThen_ok_iff.2 ⟨by rw [f3, g4, hmid], rfl⟩
          refine ⟨by dsimp only; rw [g3, w2, hdom]; rfl, by dsimp only; rw [f4, hbcod], ?_⟩
          intro x hx y hy
          rw [I.mat_comp s5 hcomp x (by rw [hbcod]; exact hy),
            I.mat_comp f2 hc' x (by rw [f4, hbcod]; exact hy), g4]
          refine Finset.sum_congr rfl (fun z hz => ?_)
          rw [m3 x (by rw [w2]; rw [hdom] at hx; exact hx) z hz, l3 z (by rw [← hmid]; exact hz) y (by rw [hbcod]; exact hy)]

/-- Non-vacuity: `Alice @ runs >> Cup @ Id(s)`, whose pregroup normal form exists. -/
example :
    let n : Ob := ⟨"n", 0⟩; let nr : Ob := ⟨"n", 1⟩; let t : Ob := ⟨"s", 0⟩
    let d : GDiagram := ⟨[], [t], [⟨[], .word "Alice" [n] 0, []⟩, ⟨[n], .word "runs" [nr, t] 0, []⟩, ⟨[], .cup n nr false, [t]⟩]⟩
    d.WT ∧ d.Valid ∧ OneOrientation d false ∧ d.dom = [] ∧ pregroupNormalForm 5 d = some (.ok d) := by
  refine ⟨by decide, ?_, ?_, rfl, by decide +kernel⟩
  · intro l hl
    simp only [List.mem_cons, List.not_mem_nil, or_false] at hl
    rcases hl with rfl | rfl | rfl <;> simp [Box.Valid] <;> decide
  · intro b hb x y r h
    simp only [Diagram.boxes, List.map_cons, List.map_nil, List.mem_cons, List.not_mem_nil, or_false] at hb
    rcases hb with rfl | rfl | rfl <;> rcases h with h | h <;> cases h <;> rfl

/-- **C26, refuted for `pregroup_normal_form` of diagrams with inputs**: for `Id(n) @ Word('w', n)` the words are
normalised without the input wire and the final composition raises `ValueError`. -/
theorem C26_refuted_pregroup_normal_form_inputs :
    ∃ d : GDiagram, d.WT ∧ d.Valid ∧ OneOrientation d false ∧ ∀ n, 2 ≤ n → pregroupNormalForm n d = some (.error .valueError) := by
  refine ⟨⟨[⟨"n", 0⟩], [⟨"n", 0⟩, ⟨"n", 0⟩], [⟨[⟨"n", 0⟩], .word "w" [⟨"n", 0⟩] 0, []⟩]⟩, by decide, ?_, ?_, ?_⟩
  · intro l hl
    simp only [List.mem_cons, List.not_mem_nil, or_false] at hl
    subst hl
    simp [Box.Valid]
  · intro b hb x y r h
    simp only [Diagram.boxes, List.map_cons, List.map_nil, List.mem_cons, List.not_mem_nil, or_false] at hb
    subst hb
    rcases h with h | h <;> cases h
  · intro n hn
    obtain ⟨m, rfl⟩ : ∃ m, n = m + 2 := ⟨n - 2, by omega⟩
    rfl

/-- `NotImplementedError` does occur: two scalars can be exchanged for ever. -/
example : normalForm 5 false (⟨[], [], [⟨[], .word "a" [] 0, []⟩, ⟨[], .word "b" [] 0, []⟩]⟩ : GDiagram)
    = some (.error .notImplementedError) := by decide +kernel

end GDiagram
end Lambeq
