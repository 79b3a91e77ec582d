import Verif.Grammar.ConstructProps

/-!
# Wiring of `create_pregroup_diagram`: C16
-/

namespace Lambeq
open Diagram
set_option linter.unusedSimpArgs false
namespace GDiagram

/-- Specification: drawing the cups one after the other on the wires `live` (numbered by their position under the
words) leaves the wires `rest`; each cup joins two wires that have become neighbours. The list `spots` records
for each cup the wires to its left and to its right. -/
inductive Joins : List Nat → List (Nat × Nat) → List (List Nat × List Nat) → List Nat → Prop
  | nil (live) : Joins live [] [] live
  | cons {A B cups spots rest} (s e : Nat) : Joins (A ++ B) cups spots rest →
      Joins (A ++ s :: e :: B) ((s, e) :: cups) ((A, B) :: spots) rest

/-- The morphism list that asks for these cups. -/
def cupMorphs (cups : List (Nat × Nat)) : List (Morph × Int × Int) := cups.map (fun p => (.cup, (p.1 : Int), (p.2 : Int)))

/-- Every live wire is where the offset correction says it is. -/
def OffsetInv (live : List Nat) (before : List (Morph × Int × Int)) : Prop :=
  live.Pairwise (· < ·) ∧ ∀ (A : List Nat) (x : Nat) (B : List Nat), live = A ++ x :: B → morphOffset before (x : Int) = A.length

theorem OffsetInv.step {A B : List Nat} {s e : Nat} {before : List (Morph × Int × Int)}
    (h : OffsetInv (A ++ s :: e :: B) before) : OffsetInv (A ++ B) (before ++ [(.cup, (s : Int), (e : Int))]) := by
  obtain ⟨h1, h2⟩ := h
  have hs := List.pairwise_append.1 h1
  have hs2 := List.pairwise_cons.1 hs.2.1
  have hs3 := List.pairwise_cons.1 hs2.2
  have hoff : ∀ x : Nat, morphOffset (before ++ [(Morph.cup, (s : Int), (e : Int))]) x
      = morphOffset before x - (if s < x then 2 else 0) := by
    intro x
    simp only [morphOffset, List.filter_append, List.length_append]
    by_cases hx : s < x
    · simp [hx]; omega
    · simp [hx]
  refine ⟨?_, ?_⟩
  · refine List.pairwise_append.2 ⟨hs.1, hs3.2, fun a ha b hb => hs.2.2 a ha b (by simp [hb])⟩
  · intro A' x B' he
    rw [hoff]
    rcases List.append_eq_append_iff.1 he with ⟨m, e1, e2⟩ | ⟨m, e1, e2⟩
    · -- `x` is in `B`
      have hx : x ∈ B := by rw [e2]; simp
      have := hs2.1 x (by simp [hx])
      rw [if_pos this, h2 (A ++ s :: e :: m) x B' (by rw [e2]; simp)]
      rw [e1]
      simp; omega
    · cases m with
      | nil =>
        simp only [List.nil_append] at e2
        have hx : x ∈ B := by rw [← e2]; simp
        have := hs2.1 x (by simp [hx])
        rw [if_pos this, h2 (A ++ s :: e :: []) x B' (by rw [← e2]; simp)]
        rw [e1]
        simp
      | cons y m =>
        simp only [List.cons_append, List.cons.injEq] at e2
        obtain ⟨rfl, e2⟩ := e2
        have hx : x ∈ A := by rw [e1]; simp
        have := hs.2.2 x hx s (by simp)
        rw [if_neg (by omega), h2 A' x (m ++ s :: e :: B) (by rw [e1]; simp)]
        simp

/-- The layer that a cup on wires `s`, `e` should become. -/
def cupLayer (types : Ty) (sp : List Nat × List Nat) (c : Nat × Nat) (l : GLayer) : Prop :=
  ∃ x y, types[c.1]? = some x ∧ types[c.2]? = some y ∧ l.box = .cup x y false ∧
    l.left.map some = sp.1.map (fun i => types[i]?) ∧ l.right.map some = sp.2.map (fun i => types[i]?)

theorem map_some_append {l : Ty} {types : Ty} {A B : List Nat} (h : l.map some = (A ++ B).map (fun i => types[i]?)) :
    ∃ a b, l = a ++ b ∧ a.length = A.length ∧ a.map some = A.map (fun i => types[i]?) ∧ b.map some = B.map (fun i => types[i]?) := by
  rw [List.map_append] at h
  obtain ⟨a, b, rfl, h1, h2⟩ := List.map_eq_append_iff.1 h
  exact ⟨a, b, rfl, by simpa using congrArg List.length h1, h1, h2⟩

theorem place_cups (types : Ty) {live : List Nat} {cups : List (Nat × Nat)} {spots : List (List Nat × List Nat)}
    {rest : List Nat} (hj : Joins live cups spots rest) :
    ∀ (before : List (Morph × Int × Int)) (d : GDiagram), OffsetInv live before → d.cod.map some = live.map (fun i => types[i]?) →
      (∀ c ∈ cups, ∃ x y, types[c.1]? = some x ∧ types[c.2]? = some y ∧ [x] = Ty.l [y]) →
      ∃ bs d' ls, morphBoxes types before (cupMorphs cups) = .ok bs ∧ bs.foldlM placeStep d = .ok d'
        ∧ d'.dom = d.dom ∧ d'.layers = d.layers ++ ls ∧ d'.cod.map some = rest.map (fun i => types[i]?)
        ∧ List.Forall₂ (fun (p : (Nat × Nat) × (List Nat × List Nat)) l => cupLayer types p.2 p.1 l) (cups.zip spots) ls := by
  induction hj with
  | nil live =>
    intro before d _ hc _
    exact ⟨[], d, [], rfl, rfl, rfl, by simp, hc, .nil⟩
  | @cons A B cups spots rest s e hj ih =>
    intro before d hinv hc hadj
    obtain ⟨x, y, hx, hy, hxy⟩ := hadj (s, e) (by simp)
    have hoff : morphOffset before (s : Int) = A.length := hinv.2 A s (e :: B) rfl
    obtain ⟨a, b0, hcod, hal, ha, hb0⟩ := map_some_append hc
    have : ∃ b, b0 = x :: y :: b ∧ b.map some = B.map (fun i => types[i]?) := by
      match b0, hb0 with
      | [], h => simp at h
      | [_], h => simp at h
      | u :: v :: b, h =>
        simp only [List.map_cons, List.cons.injEq] at h
        obtain ⟨h1, h2, h3⟩ := h
        have e1 : types[s]? = some x := hx
        have e2 : types[e]? = some y := hy
        rw [e1] at h1; rw [e2] at h2
        injection h1 with h1; injection h2 with h2
        subst h1 h2
        exact ⟨b, rfl, h3⟩
    obtain ⟨b, rfl, hb⟩ := this
    have hmb : morphBox types (.cup, (s : Int), (e : Int)) = .ok (ofBox (.cup x y false)) := by
      unfold morphBox
      dsimp only
      rw [pySlice_one (by omega) (by simpa using hx), pySlice_one (by omega) (by simpa using hy)]
      simp [mkCup, Box.atomicCup, Box.cupAdjoint, hxy, Except.map]
    have hplace : placeStep d (ofBox (.cup x y false), morphOffset before (s : Int))
        = .ok ⟨d.dom, a ++ b, d.layers ++ [⟨a, .cup x y false, b⟩]⟩ := by
      unfold placeStep
      dsimp only
      rw [hoff, pySlice_nat_to, show ((A.length : Int) + ((ofBox (.cup x y false) : GDiagram).dom.length : Int))
        = ((A.length + 2 : Nat) : Int) by simp [ofBox, BoxSig.dom, Box.dom], pySlice_nat_from, hcod, ← hal]
      have e1 : (a ++ x :: y :: b).take a.length = a := by simp
      have e2 : (a ++ x :: y :: b).drop (a.length + 2) = b := by
        rw [show a ++ x :: y :: b = (a ++ [x, y]) ++ b by simp, show a.length + 2 = (a ++ [x, y]).length by simp, List.drop_left]
      rw [e1, e2, andThen_eq_ok (by simp [tensor_eq, Diagram.id, ofBox, BoxSig.dom, Box.dom, hcod])]
      simp [tensor_eq, Diagram.id, ofBox, BoxSig.dom, BoxSig.cod, Box.dom, Box.cod, Layer.extend]
    obtain ⟨bs, d', ls, g1, g2, g3, g4, g5, g7⟩ := ih (before ++ [(.cup, (s : Int), (e : Int))])
      ⟨d.dom, a ++ b, d.layers ++ [⟨a, .cup x y false, b⟩]⟩ hinv.step (by simp [ha, hb]) (fun c hc => hadj c (by simp [hc]))
    refine ⟨(ofBox (.cup x y false), morphOffset before (s : Int)) :: bs, d', ⟨a, .cup x y false, b⟩ :: ls, ?_, ?_, g3, ?_, g5, ?_⟩
    · rw [cupMorphs, List.map_cons, morphBoxes, hmb]
      dsimp only
      rw [cupMorphs] at g1
      rw [g1]
    · rw [List.foldlM_cons, hplace, ok_bind, g2]
    · rw [g4]; simp
    · rw [List.zip_cons_cons]
      exact .cons ⟨x, y, hx, hy, rfl, ha, hb⟩ g7

/-- **C16, wiring.** If the cups can be drawn one after the other without crossings on the wires of the words, and
the joined types are adjoint, then `create_pregroup_diagram` succeeds, the words come first, and the `k`-th cup
layer joins exactly the two requested wires: to its left and right are precisely the wires still present there,
and the codomain consists of the wires never joined. -/
theorem C16_wiring (words : List (String × Ty × Int)) (cups : List (Nat × Nat)) (spots : List (List Nat × List Nat))
    (rest : List Nat)
    (hj : Joins (List.range (words.map (·.2.1)).flatten.length) cups spots rest)
    (hadj : ∀ c ∈ cups, ∃ x y, (words.map (·.2.1)).flatten[c.1]? = some x ∧ (words.map (·.2.1)).flatten[c.2]? = some y
      ∧ [x] = Ty.l [y]) :
    ∃ d wl ls, createPregroupDiagram words (cupMorphs cups) = .ok d ∧ d.layers = wl ++ ls
      ∧ List.Forall₂ WordLayer words wl
      ∧ List.Forall₂ (fun (p : (Nat × Nat) × (List Nat × List Nat)) l => cupLayer (words.map (·.2.1)).flatten p.2 p.1 l)
          (cups.zip spots) ls
      ∧ d.cod.map some = rest.map (fun i => (words.map (·.2.1)).flatten[i]?) := by
  generalize htypes : (words.map (·.2.1)).flatten = types at *
  obtain ⟨r, wl, w1, w2, w3, w4, w5, w6⟩ := place_words words (Diagram.id []) (WT.id [])
  have hcod : r.cod = types := by rw [w6, htypes]; rfl
  have hinv : OffsetInv (List.range types.length) [] := by
    refine ⟨List.pairwise_lt_range, ?_⟩
    intro A x B h
    have h1 : (List.range types.length)[A.length]? = some x := by rw [h]; simp
    have h2 : A.length = x := by
      rw [List.getElem?_eq_some_iff] at h1
      obtain ⟨_, h3⟩ := h1
      simpa using h3
    simp [morphOffset, h2]
  obtain ⟨bs, d', ls, g1, g2, g3, g4, g5, g7⟩ := place_cups types hj [] r hinv (by
    rw [hcod]
    apply List.ext_getElem?
    intro i
    by_cases hi : i < types.length
    · simp [hi]
    · simp [hi]) hadj
  have w1' : (wordBoxes [] words).foldlM placeStep (Diagram.id []) = .ok r := w1
  refine ⟨d', wl, ls, ?_, ?_, w5, g7, g5⟩
  · unfold createPregroupDiagram
    rw [htypes, g1]
    dsimp only
    rw [List.foldlM_append, w1', ok_bind, g2]
  · rw [g4, w4]; rfl

/-- Non-vacuity: nested and sequential cups, `she goes home` with the cups drawn right to left, and a nested pair. -/
example :
    let n : Ob := ⟨"n", 0⟩; let nr : Ob := ⟨"n", 1⟩; let nl : Ob := ⟨"n", -1⟩; let s : Ob := ⟨"s", 0⟩
    let words : List (String × Ty × Int) := [("she", [n], 0), ("goes", [nr, s, nl], 0), ("home", [n], 0)]
    Joins (List.range 5) [(3, 4), (0, 1)] [([0, 1, 2], []), ([], [2])] [2]
      ∧ (createPregroupDiagram words (cupMorphs [(3, 4), (0, 1)])).toOption.map (·.cod) = some [s] := by
  refine ⟨?_, by decide +kernel⟩
  have h1 : Joins ([] ++ 0 :: 1 :: [2]) [(0, 1)] [([], [2])] [2] := .cons 0 1 (.nil _)
  exact Joins.cons (A := [0, 1, 2]) (B := []) 3 4 h1

end GDiagram
end Lambeq
