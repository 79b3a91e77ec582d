import Verif.Ansatz.SplitProps
import Verif.Rewrite.Substitution

/-!
# Splitting boxes: theorems

C54: `MPSAnsatz` and `SpiderAnsatz`.
-/

namespace Lambeq
open Diagram
open GDiagram
open DRewrite (tensorN_cons tensorN_nil mkCup_mat)
set_option linter.unusedSectionVars false
set_option linter.unusedSimpArgs false
namespace Split

/-! ## Windows -/

theorem windows_flatten {α : Type} (s : Nat) (c : List α) (K : Nat) :
    ((List.range K).map (fun i => (c.drop (i * s)).take s)).flatten = c.take (K * s) := by
  induction K with
  | zero => simp
  | succ K ih =>
    rw [List.range_succ, List.map_append, List.flatten_append, ih]
    simp only [List.map_cons, List.map_nil, List.flatten_cons, List.flatten_nil, List.append_nil]
    rw [Nat.succ_mul, List.take_add]

theorem mpsWindows_flatten (m : Nat) (hm : 3 ≤ m) (name : String) (cod : Ty) : ((mpsWindows m name cod).map Prod.snd).flatten = cod := by
  have h : ((cod.length + (m - 2) - 1) / (m - 2)) * (m - 2) ≥ cod.length := by
    have := Nat.div_add_mod (cod.length + (m - 2) - 1) (m - 2)
    have h2 := Nat.mod_lt (cod.length + (m - 2) - 1) (show 0 < m - 2 by omega)
    rw [Nat.mul_comm] at this
    omega
  rw [mpsWindows, List.map_map]
  exact (windows_flatten (m - 2) cod _).trans (List.take_of_length_le h)

theorem mpsWindows_ne (m : Nat) (hm : 3 ≤ m) (name : String) (cod : Ty) (hc : cod ≠ []) : mpsWindows m name cod ≠ [] := by
  intro h
  have := mpsWindows_flatten m hm name cod
  rw [h] at this
  exact hc this.symm

theorem mpsBoxes_len (m : Nat) (hm : 3 ≤ m) : ∀ (l : Ty) (ws : List (String × Ty)), l.length ≤ 1 → (∀ w ∈ ws, w.2.length ≤ m - 2) →
    ∀ p ∈ mpsBoxes l ws, p.2.length ≤ m
  | _, [], _, _, p, hp => by simp [mpsBoxes] at hp
  | l, [(n, c)], hl, hw, p, hp => by
    simp only [mpsBoxes, List.mem_singleton] at hp
    subst hp
    have := hw _ (List.mem_singleton.2 rfl)
    simp at this ⊢; omega
  | l, (n, c) :: w :: ws, hl, hw, p, hp => by
    simp only [mpsBoxes, List.mem_cons] at hp
    rcases hp with rfl | hp
    · have := hw _ (List.mem_cons_self ..)
      simp at this ⊢; omega
    · exact mpsBoxes_len m hm [bondR] (w :: ws) (by simp) (fun x hx => hw x (List.mem_cons_of_mem _ hx)) p hp

theorem mpsWord_eq (m : Nat) (hm : 3 ≤ m) (name : String) (cod : Ty) (hc : cod ≠ []) :
    mpsWord m name cod = andThen (boxRow (mpsBoxes [] (mpsWindows m name cod))) (cupRow (mpsWindows m name cod)) := by
  have hne := mpsWindows_ne m hm name cod hc
  have hb : ((pyRange0 cod.length (m - 2)).zipIdx.map fun p =>
      (pieceName name p.2, Ty.r [bond] ++ pySlice cod (some (p.1 : Nat)) (some (p.1 + (m - 2) : Nat)) ++ [bond])) =
      (mpsWindows m name cod).map (fun p => (p.1, [bondR] ++ p.2 ++ [bond])) := by
    rw [pyRange0, zipIdx_range_map, mpsWindows, List.map_map]
    refine List.map_congr_left (fun i _ => ?_)
    have := pySlice_nat_nat cod (i * (m - 2)) (i * (m - 2) + (m - 2))
    simp only [Function.comp]
    rw [this, Nat.add_sub_cancel_left]
    rfl
  unfold mpsWord
  simp only [mkCup_bond]
  rw [hb]
  generalize mpsWindows m name cod = ws at hne
  have hcups : ((ws.map (fun p => (p.1, [bondR] ++ p.2 ++ [bond]))).flatMap
      (fun p => [(Diagram.id (pySlice p.2 (some 1) (some (-1))) : GDiagram), ofBox cupBox])) =
      ws.flatMap (fun p => [Diagram.id p.2, ofBox cupBox]) := by
    rw [List.flatMap_map]
    congr 1
    funext p
    have := slice_mid bondR bond p.2
    simp only [List.cons_append, List.nil_append]
    rw [this]
  show (if ws.map (fun p => (p.1, [bondR] ++ p.2 ++ [bond])) = [] then _ else _) = _
  rw [if_neg (by simpa using hne), hcups, tensorN_cons, tensor_id_nil_left, cups_eq ws hne, trim_boxes ws hne, wordRow_eq]

/-! ## Overlapping windows -/

theorem spWindows_exists (s : Nat) (hs : 0 < s) (nm : Nat → String) : ∀ (L : Nat) (a : Ob) (c : Ty), c.length = L → ∀ k : Nat,
    ∃ ps, (List.range ((c.length + s - 1) / s)).map (fun i => (nm (k + i), ((a :: c).drop (i * s)).take (s + 1))) = spBoxes a ps ∧ spWires ps = c := by
  intro L
  induction L using Nat.strongRecOn with
  | _ L ih =>
    intro a c hL k
    by_cases hc : c = []
    · subst hc
      refine ⟨[], ?_, rfl⟩
      have : (0 + s - 1) / s = 0 := Nat.div_eq_of_lt (by omega)
      simp only [List.length_nil, this, List.range_zero, List.map_nil, spBoxes]
    · have hpos : 0 < c.length := List.length_pos_of_ne_nil hc
      have hK : (c.length + s - 1) / s = (c.length - s + s - 1) / s + 1 := by
        by_cases h : s ≤ c.length
        · rw [show c.length + s - 1 = (c.length - s + s - 1) + s by omega, Nat.add_div_right _ hs]
        · have h1 : (c.length - s + s - 1) / s = 0 := Nat.div_eq_of_lt (by omega)
          have h2 : (c.length + s - 1) / s = 1 := by
            rw [show c.length + s - 1 = (c.length - 1) + s by omega, Nat.add_div_right _ hs, Nat.div_eq_of_lt (by omega)]
          rw [h1, h2]
      have htake : c.take s ≠ [] := by
        intro h
        have := congrArg List.length h
        rw [List.length_take, List.length_nil] at this
        omega
      obtain ⟨mid, b, hmb⟩ : ∃ mid b, c.take s = mid ++ [b] := ⟨(c.take s).dropLast, (c.take s).getLast htake, (List.dropLast_append_getLast htake).symm⟩
      obtain ⟨ps, hp1, hp2⟩ := ih (c.drop s).length (by simp; omega) b (c.drop s) rfl (k + 1)
      have hrest : ∀ i < (c.length - s + s - 1) / s, (a :: c).drop ((i + 1) * s) = (b :: c.drop s).drop (i * s) := by
        intro i hi
        have hle : s ≤ c.length := by
          by_contra h
          have h1 : (c.length - s + s - 1) / s = 0 := Nat.div_eq_of_lt (by omega)
          omega
        have hml : mid.length + 1 = s := by
          have := congrArg List.length hmb
          simp at this
          omega
        have : (a :: c).drop s = b :: c.drop s := by
          conv_lhs => rw [← List.take_append_drop s c, hmb]
          rw [show a :: (mid ++ [b] ++ c.drop s) = (a :: mid) ++ (b :: c.drop s) by simp]
          exact List.drop_left' (by simpa using hml)
        rw [← this, List.drop_drop]
        congr 1
        ring
      refine ⟨(nm k, mid, b) :: ps, ?_, ?_⟩
      · rw [hK, List.range_succ_eq_map, List.map_cons, List.map_map, spBoxes, ← hp1]
        congr 1
        · simp [hmb]
        · rw [List.length_drop]
          refine List.map_congr_left (fun i hi => ?_)
          rw [List.mem_range] at hi
          simp only [Function.comp, Nat.succ_eq_add_one]
          rw [hrest i hi, show k + (i + 1) = k + 1 + i by omega]
      · show mid ++ [b] ++ spWires ps = c
        rw [hp2, ← hmb, List.take_append_drop]

theorem spiderWindows_eq (m : Nat) (hm : 2 ≤ m) (name : String) (a : Ob) (c : Ty) : ∃ ps, spiderWindows m name (a :: c) = spBoxes a ps ∧ spWires ps = c := by
  obtain ⟨ps, h1, h2⟩ := spWindows_exists (m - 1) (by omega) (pieceName name) c.length a c rfl 0
  refine ⟨ps, ?_, h2⟩
  rw [← h1, spiderWindows]
  simp only [List.length_cons, Nat.add_sub_cancel, Nat.zero_add, show m - 1 + 1 = m by omega]

theorem spidersOf_eq : ∀ (a : Ob) (ps : List (String × Ty × Ob)),
    spidersOf (spBoxes a ps) = .ok (ps.flatMap (fun p => [Diagram.id p.2.1, ofBox (.spider p.2.2 2 1)]))
  | _, [] => rfl
  | a, (n, mid, b) :: ps => by
    have h1 : pySlice (a :: (mid ++ [b])) (some (-1)) none = [b] := slice_last (a :: mid) b
    rw [spBoxes, spidersOf]
    simp only [h1, slice_mid, mkSpider_atom, spidersOf_eq b ps]
    rfl

theorem plainLast_cons (x y : GDiagram) (l : List GDiagram) : plainLast (x :: y :: l) = x :: plainLast (y :: l) := by
  simp only [plainLast, List.getLast?_cons_cons, List.dropLast]
  cases hb : (y :: l).getLast? with
  | none => simp at hb
  | some p => rfl

theorem plainLast_spRow (ps : List (String × Ty × Ob)) (h : ps ≠ []) :
    (tensorN (plainLast (ps.flatMap (fun p => [Diagram.id p.2.1, ofBox (.spider p.2.2 2 1)]))) : GDiagram) = spRow ps := by
  induction ps with
  | nil => exact absurd rfl h
  | cons p ps ih =>
    obtain ⟨n, mid, b⟩ := p
    cases ps with
    | nil =>
      simp only [List.flatMap_cons, List.flatMap_nil, List.append_nil]
      rw [plainLast_cons, tensorN_cons]
      show tensor _ (tensorN [Diagram.id [b]]) = _
      rw [tensorN_cons, tensorN_nil, tensor_id_nil_right, spRow]
    | cons q qs =>
      have := ih (by simp)
      rw [spRow, ← this]
      simp only [List.flatMap_cons, List.cons_append, List.nil_append]
      rw [plainLast_cons, tensorN_cons, plainLast_cons, tensorN_cons]

theorem spiderWord_eq (m : Nat) (hm : 2 ≤ m) (name : String) (a : Ob) (c : Ty) (ps : List (String × Ty × Ob)) (h : spiderWindows m name (a :: c) = spBoxes a ps)
    (hne : ps ≠ []) : spiderWord m name (a :: c) = andThen (boxRow (spBoxes a ps)) (tensor (Diagram.id [a]) (spRow ps)) := by
  have hb : ((pyRange0 ((a :: c).length - 1) (m - 1)).zipIdx.map fun p =>
      (pieceName name p.2, pySlice (a :: c) (some (p.1 : Nat)) (some (p.1 + (m - 1) + 1 : Nat)))) = spBoxes a ps := by
    rw [← h, pyRange0, zipIdx_range_map, spiderWindows]
    refine List.map_congr_left (fun i _ => ?_)
    have := pySlice_nat_nat (a :: c) (i * (m - 1)) (i * (m - 1) + (m - 1) + 1)
    rw [this]
    congr 2
    omega
  unfold spiderWord
  simp only
  rw [hb, spidersOf_eq]
  have h1 : pySlice (a :: c) none (some 1) = [a] := by
    have := pySlice_nat_to (a :: c) 1
    simpa using this
  show andThen (wordRow (spBoxes a ps)) (tensorN (Diagram.id [] :: plainLast (Diagram.id (pySlice (a :: c) none (some 1)) ::
    ps.flatMap (fun p => [Diagram.id p.2.1, ofBox (.spider p.2.2 2 1)])))) = _
  rw [h1, wordRow_eq, tensorN_cons, tensor_id_nil_left]
  obtain ⟨p, qs, rfl⟩ : ∃ p qs, ps = p :: qs := by
    cases ps with
    | nil => exact absurd rfl hne
    | cons p qs => exact ⟨p, qs, rfl⟩
  rw [← plainLast_spRow (p :: qs) hne]
  simp only [List.flatMap_cons, List.cons_append, List.nil_append]
  rw [plainLast_cons, tensorN_cons]

/-! ## Specification -/

/-- A box that is not structural, possibly daggered. -/
def Plain : Box → Prop
  | .gen _ _ _ _ => True
  | .word _ _ _ => True
  | .daggered b => Plain b
  | _ => False

/-- The number of wires of a box: the order of its tensor. -/
def order (b : Box) : Nat := b.dom.length + b.cod.length

/-- The result of a constructor call that did not raise. -/
def Legal (A : SplitAnsatz) : Prop := match A.kind with
  | .mps => 3 ≤ A.maxOrder
  | .spider => 2 ≤ A.maxOrder

theorem plain_rotate (z : Int) (b : Box) : (Plain (b.rotate z) ↔ Plain b) ∧ order (b.rotate z) = order b := by
  have hr : ∀ t : Ty, (Ty.rotate z t).length = t.length := by intro t; unfold Ty.rotate; split <;> simp
  induction b with
  | gen n d c z0 => exact ⟨Iff.rfl, by simp [order, Box.rotate, Box.dom, Box.cod, hr]⟩
  | word n c z0 => exact ⟨Iff.rfl, by simp [order, Box.rotate, Box.dom, Box.cod, hr]⟩
  | cup l r rev => unfold Box.rotate; split <;> exact ⟨Iff.rfl, rfl⟩
  | cap l r rev => unfold Box.rotate; split <;> exact ⟨Iff.rfl, rfl⟩
  | swap l r => unfold Box.rotate; split <;> exact ⟨Iff.rfl, rfl⟩
  | spider t n m => exact ⟨Iff.rfl, by simp [order, Box.rotate, Box.dom, Box.cod]⟩
  | daggered b ih => exact ⟨ih.1, by have := ih.2; simp only [order, Box.rotate, Box.dom, Box.cod] at this ⊢; omega⟩

theorem plain_dagger (b : Box) : (Plain b.dagger ↔ Plain b) ∧ order b.dagger = order b := by
  cases b with
  | daggered b => exact ⟨Iff.rfl, by simp only [order, Box.dagger, Box.dom, Box.cod]; omega⟩
  | gen n d c z0 => exact ⟨Iff.rfl, by simp only [order, Box.dagger, Box.dom, Box.cod]; omega⟩
  | word n c z0 => exact ⟨Iff.rfl, by simp only [order, Box.dagger, Box.dom, Box.cod]; omega⟩
  | cup => exact ⟨Iff.rfl, rfl⟩
  | cap => exact ⟨Iff.rfl, rfl⟩
  | swap => exact ⟨Iff.rfl, rfl⟩
  | spider => exact ⟨Iff.rfl, by simp only [order, Box.dagger, Box.dom, Box.cod]; omega⟩

/-! ## Words -/

section
variable {R : Type} [CommSemiring R]

theorem mpsWord_spec (m : Nat) (hm : 3 ≤ m) (name : String) (cod : Ty) (hc : cod ≠ []) :
    ∃ d cups, mpsWord m name cod = .ok d ∧ WF d ∧ d.dom = [] ∧ d.cod = cod ∧
      d.boxes = (mpsBoxes [] (mpsWindows m name cod)).map (fun p => Box.word p.1 p.2 0) ++ cups ∧ (∀ b ∈ cups, b = cupBox) ∧
      ∀ {R : Type} [CommSemiring R] (I : Interp Ob Box R), Compact I → ∀ y ∈ I.idx cod,
        I.mat d [] y = mpsVal I (List.zipWith (fun p w => (Box.word p.1 p.2 0, w.2.length)) (mpsBoxes [] (mpsWindows m name cod)) (mpsWindows m name cod)) [] y := by
  have hne := mpsWindows_ne m hm name cod hc
  have hfl := mpsWindows_flatten m hm name cod
  rw [mpsWord_eq m hm name cod hc]
  generalize mpsWindows m name cod = ws at hne hfl
  obtain ⟨c1, c2, c3, c4⟩ := cupRow_spec ws hne
  obtain ⟨b1, b2, b3⟩ := boxRow_wf (mpsBoxes [] ws)
  have hj : (boxRow (mpsBoxes [] ws)).cod = (cupRow ws).dom := by rw [b3, c4]; rfl
  have hok := andThen_eq_ok hj
  refine ⟨_, (cupRow ws).boxes, hok, wf_andThen ⟨b1.1, b1.2⟩ c1 hok, b2, by rw [← hfl]; exact c2, ?_, c3, ?_⟩
  · rw [← boxRow_boxes]; simp [boxes]
  · intro R _ I hI y hy
    rw [← hfl] at hy
    rw [I.mat_comp c1.1 hok [] (by rw [c2]; exact hy), hj, ← mps_value hI ws hne [] (lv := []) (by simp [Interp.idx]) hy]
    simp

theorem spiderWord_spec (m : Nat) (hm : 2 ≤ m) (name : String) (cod : Ty) (hc : 2 ≤ cod.length) :
    ∃ d spiders, spiderWord m name cod = .ok d ∧ WF d ∧ d.dom = [] ∧ d.cod = cod ∧
      d.boxes = (spiderWindows m name cod).map (fun p => Box.word p.1 p.2 0) ++ spiders ∧ (∀ b ∈ spiders, ∃ t, b = .spider t 2 1) ∧
      ∀ {R : Type} [CommSemiring R] (I : Interp Ob Box R), CopyLaw I → ∀ y ∈ I.idx cod,
        I.mat d [] y = overlapVal I ((spiderWindows m name cod).map (fun p => (Box.word p.1 p.2 0, p.2.length))) y := by
  obtain ⟨a, c, rfl⟩ : ∃ a c, cod = a :: c := by
    cases cod with
    | nil => simp at hc
    | cons a c => exact ⟨a, c, rfl⟩
  obtain ⟨ps, h1, h2⟩ := spiderWindows_eq m hm name a c
  have hne : ps ≠ [] := by
    rintro rfl
    rw [← h2] at hc
    simp [spWires] at hc
  rw [spiderWord_eq m hm name a c ps h1 hne, h1]
  obtain ⟨c1, c2, c3, c4⟩ := spRow_spec ps hne
  obtain ⟨b1, b2, b3⟩ := boxRow_wf (spBoxes a ps)
  have wS : WF (tensor (Diagram.id [a]) (spRow ps)) := wf_tensor (wf_id _) c1
  have hj : (boxRow (spBoxes a ps)).cod = (tensor (Diagram.id [a]) (spRow ps)).dom := by rw [b3, c4, tensor_dom]; rfl
  have hok := andThen_eq_ok hj
  have hcod : (tensor (Diagram.id [a]) (spRow ps)).cod = a :: c := by rw [tensor_cod, c2, h2]; rfl
  refine ⟨_, (tensor (Diagram.id [a]) (spRow ps)).boxes, hok, wf_andThen ⟨b1.1, b1.2⟩ wS hok, b2, hcod, ?_, ?_, ?_⟩
  · rw [← boxRow_boxes]; simp [boxes]
  · intro b hb
    refine c3 b ?_
    simpa [boxes, tensor_layers, Diagram.id, Layer.extend, Function.comp_def] using hb
  · intro R _ I hS y hy
    obtain ⟨y1, y2, rfl, hy1, hy2⟩ := I.mem_append (a := [a]) (b := c) hy
    obtain ⟨i, rfl, hi⟩ : ∃ i, y1 = [i] ∧ i < I.dim a := by
      rw [I.mem_idx] at hy1
      cases hy1 with | cons h1 h2 => cases h2; exact ⟨_, rfl, h1⟩
    have hy2' : y2 ∈ I.idx (spWires ps) := by rw [h2]; exact hy2
    rw [I.mat_comp wS.1 hok [] (by rw [hcod]; exact hy), hj, tensor_dom, I.sum_idx_append, Finset.sum_eq_single [i]]
    · have := spider_value hS ps hne a hi hy2'
      rw [List.singleton_append, ← this]
      refine Finset.sum_congr rfl (fun z hz => ?_)
      have e := I.mat_tensor (wf_id [a]).1 c1.1 (x1 := [i]) (x2 := z) (y1 := [i]) (y2 := y2) hy1 hz hy1 (by rw [c2]; exact hy2')
      rw [List.singleton_append, List.singleton_append] at e
      rw [List.singleton_append, e, I.mat_id, if_pos rfl, one_mul]
    · intro u hu hne'
      refine Finset.sum_eq_zero (fun z hz => ?_)
      rw [I.mat_tensor (wf_id [a]).1 c1.1 (x1 := u) (x2 := z) (y1 := [i]) (y2 := y2) hu hz hy1 (by rw [c2]; exact hy2'), I.mat_id,
        if_neg (fun e => hne' e.symm)]
      ring
    · intro hn; exact absurd hy1 hn

end

/-! ## Boxes with inputs -/

theorem functorOf_id (rec : Box → Except PyErr GDiagram) : ∀ n, (functorOf rec).ob n = [⟨n, 0⟩] := fun _ => rfl

/-- Diagrams of structural boxes are not changed. -/
theorem functorOf_structural (rec : Box → Except PyErr GDiagram) (c : GDiagram) (hc : c.WT) (hv : c.Valid) (hs : ∀ l ∈ c.layers, ∃ x y, l.box = .cup x y false) :
    (functorOf rec).onDiagram c = .ok c := by
  obtain ⟨r, parts, h1, h2, h3, _, _, h6, h7⟩ := Rewrite.onDiagram_total (functorOf_id rec) c hc hv
    (fun l hl b0 hb => by obtain ⟨x, y, e⟩ := hs l hl; rw [e] at hb; cases hb)
  rw [h1]
  have : ∀ (ls : List GLayer) (parts : List GDiagram), (∀ l ∈ ls, ∃ x y, l.box = .cup x y false) →
      List.Forall₂ (fun (l : GLayer) p => Rewrite.Img (functorOf rec) l.box p ∧ p.dom = l.box.dom ∧ p.cod = l.box.cod) ls parts →
      (List.zipWith (fun (l : GLayer) (p : GDiagram) => p.layers.map (Layer.extend l.left l.right)) ls parts).flatten = ls := by
    intro ls parts hs h
    induction h with
    | nil => rfl
    | @cons l p ls parts hp _ ih =>
      obtain ⟨x, y, e⟩ := hs l (by simp)
      have hp1 := hp.1
      rw [e] at hp1
      cases hp1
      rw [List.zipWith_cons_cons, List.flatten_cons, ih (fun l hl => hs l (by simp [hl]))]
      rcases l with ⟨a, b, c⟩
      simp only at e
      subst e
      simp [ofBox, Layer.extend]
  rw [this _ _ hs h6] at h7
  rcases r with ⟨a, b, ls⟩
  rcases c with ⟨a', b', ls'⟩
  simp only at h2 h3 h7
  rw [h2, h3, h7]

/-- The box without inputs that the box is turned into. -/
def uncurried (left : Bool) (b : Box) : Box :=
  .gen (Rewrite.boxName b) [] (if left then Ty.r b.dom ++ b.cod else b.cod ++ Ty.l b.dom) 0

theorem collapse_value (left : Bool) (b : Box) (w : GDiagram) (wf : WF w)
    (wd : w.dom = []) (wc : w.cod = (uncurried left b).cod) :
    ∃ d cups, (∀ rec : Box → Except PyErr GDiagram, rec (uncurried left b) = .ok w →
      (do let d ← Rewrite.collapseRewrite left b; (functorOf rec).onDiagram d) = .ok d) ∧ WF d ∧ d.dom = b.dom ∧ d.cod = b.cod ∧
      d.boxes = w.boxes ++ cups ∧ cups.length = b.dom.length ∧ (∀ x ∈ cups, ∃ l r, x = .cup l r false) ∧
      ∀ {R : Type} [CommSemiring R] (I : Interp Ob Box R), Compact I → ∀ x ∈ I.idx b.dom, ∀ y ∈ I.idx b.cod,
        I.mat d x y = I.mat w [] (if left then x.reverse ++ y else y ++ x.reverse) := by
  have hF : ∀ rec : Box → Except PyErr GDiagram, rec (uncurried left b) = .ok w → (functorOf rec).onDiagram (ofBox (uncurried left b)) = .ok w := by
    intro rec hw
    rw [Functor.C18_generator]
    unfold uncurried Functor.onBox
    simp only [ne_eq, not_true_eq_false, if_false]
    have : (functorOf rec).ar (uncurried left b) = .ok w := hw
    unfold uncurried at this
    rw [this, ok_bind]
    exact Rewrite.check_id (functorOf_id rec) wd wc
  have hid : ∀ (rec : Box → Except PyErr GDiagram) (t : Ty), (functorOf rec).onDiagram (Diagram.id t) = .ok (Diagram.id t) := by
    intro rec t
    rw [((functorOf rec).C18_functorial (Diagram.id t) (Diagram.id t) (WT.id t) (WT.id t) t).1, Rewrite.onTy_id (functorOf_id rec)]
  cases left with
  | true =>
    obtain ⟨c, p1, p2, p3, p4, p5, p6, p7⟩ := (C13_cups b.dom (Ty.r b.dom)).2 (Rewrite.lr _).symm
    have wc' : w.cod = Ty.r b.dom ++ b.cod := wc
    have hFc : ∀ rec : Box → Except PyErr GDiagram, (functorOf rec).onDiagram c = .ok c := fun rec => functorOf_structural rec c p4 (mkCup_wf p1).2 (fun l hl => by
      obtain ⟨x, y, e, _⟩ := p7 l hl; exact ⟨x, y, e⟩)
    set nb : Box := uncurried true b with hnb
    have hcod : (tensor (Diagram.id b.dom) (ofBox nb)).cod = (tensor c (Diagram.id b.cod)).dom := by
      rw [tensor_cod, tensor_dom, p2, List.append_assoc]; rfl
    have hok := andThen_eq_ok hcod
    have w1 : (tensor (Diagram.id b.dom) (ofBox nb)).WT := (wf_tensor (wf_id _) (wf_ofBox (b := nb) trivial)).1
    have w2 : WF (tensor c (Diagram.id b.cod)) := wf_tensor ⟨p4, (mkCup_wf p1).2⟩ (wf_id _)
    have w3 : WF (tensor (Diagram.id b.dom) w) := wf_tensor (wf_id _) wf
    have hcod' : (tensor (Diagram.id b.dom) w).cod = (tensor c (Diagram.id b.cod)).dom := by
      rw [tensor_cod, tensor_dom, p2, wc', List.append_assoc]; rfl
    have hok' := andThen_eq_ok hcod'
    refine ⟨_, c.boxes, ?_, wf_andThen w3 w2 hok', ?_, ?_, ?_, ?_, ?_, ?_⟩
    · intro rec hw
      simp only [Rewrite.collapseRewrite, if_true]
      rw [p1, ok_bind]
      have hok2 : andThen (tensor (Diagram.id b.dom) (ofBox (.gen (Rewrite.boxName b) [] (Ty.r b.dom ++ b.cod) 0))) (tensor c (Diagram.id b.cod)) = _ := hok
      rw [hok2, ok_bind, ((functorOf rec).C18_functorial _ _ w1 w2.1 []).2.1 _ hok,
        ((functorOf rec).C18_functorial _ _ (WT.id _) (WT.ofBox nb) []).2.2, hid, ok_bind, hF rec hw, ok_bind, ok_bind,
        ((functorOf rec).C18_functorial _ _ p4 (WT.id _) []).2.2, hid, hFc, ok_bind, ok_bind, ok_bind]
      exact hok'
    · rw [tensor_dom, wd]; simp [Diagram.id]
    · rw [tensor_cod, p3]; simp [Diagram.id]
    · simp [boxes, tensor_layers, Diagram.id, Function.comp_def, Layer.extend]
    · simp [boxes, p6]
    · intro x hx
      obtain ⟨l, hl, rfl⟩ := List.mem_map.1 hx
      obtain ⟨p, q, hpq, _⟩ := p7 l hl
      exact ⟨p, q, hpq⟩
    · intro R _ I hI x hx y hy
      obtain ⟨_, _, _, _, _, q6⟩ := mkCup_mat hI p1
      have h0 : ([] : List Nat) ∈ I.idx w.dom := by rw [wd]; simp [Interp.idx]
      have h0' : ([] : List Nat) ∈ I.idx c.cod := by rw [p3]; simp [Interp.idx]
      have hxr : x.reverse ∈ I.idx (Ty.r b.dom) := hI.mem_reverse (z := 1) (by decide) hx
      rw [if_pos rfl, I.mat_comp w2.1 hok' x (by rw [tensor_cod, p3]; exact hy), tensor_cod, wc', I.sum_idx_append, Finset.sum_eq_single x]
      · rw [I.sum_idx_append, Finset.sum_eq_single x.reverse, Finset.sum_eq_single y]
        · have e1 := I.mat_tensor (wf_id b.dom).1 wf.1 (x1 := x) (x2 := []) (y1 := x) (y2 := x.reverse ++ y) hx h0 hx (by rw [wc']; exact I.append_mem hxr hy)
          have e2 := I.mat_tensor p4 (wf_id b.cod).1 (x1 := x ++ x.reverse) (x2 := y) (y1 := []) (y2 := y) (by rw [p2]; exact I.append_mem hx hxr) hy h0' hy
          rw [List.append_nil] at e1
          rw [List.nil_append, List.append_assoc] at e2
          rw [e1, e2, q6 x hx _ hxr, I.mat_id, I.mat_id]
          simp
        · intro v hv hne
          have e2 := I.mat_tensor p4 (wf_id b.cod).1 (x1 := x ++ x.reverse) (x2 := v) (y1 := []) (y2 := y) (by rw [p2]; exact I.append_mem hx hxr) hv h0' hy
          rw [List.nil_append, List.append_assoc] at e2
          rw [e2, I.mat_id, if_neg (fun e => hne e.symm)]; ring
        · intro hn; exact absurd hy hn
        · intro u hu hne
          refine Finset.sum_eq_zero (fun v hv => ?_)
          have e2 := I.mat_tensor p4 (wf_id b.cod).1 (x1 := x ++ u) (x2 := v) (y1 := []) (y2 := y) (by rw [p2]; exact I.append_mem hx hu) hv h0' hy
          rw [List.nil_append, List.append_assoc] at e2
          rw [e2, q6 x hx u hu, if_neg (fun e => hne e.symm)]; ring
        · intro hn; exact absurd hxr hn
      · intro u hu hne
        refine Finset.sum_eq_zero (fun v hv => ?_)
        have e1 := I.mat_tensor (wf_id b.dom).1 wf.1 (x1 := x) (x2 := []) (y1 := u) (y2 := v) hx h0 hu (by rw [wc']; exact hv)
        rw [List.append_nil] at e1
        rw [e1, I.mat_id, if_neg hne]; ring
      · intro hn; exact absurd hx hn
  | false =>
    obtain ⟨c, p1, p2, p3, p4, p5, p6, p7⟩ := (C13_cups (Ty.l b.dom) b.dom).2 rfl
    have wc' : w.cod = b.cod ++ Ty.l b.dom := wc
    have hFc : ∀ rec : Box → Except PyErr GDiagram, (functorOf rec).onDiagram c = .ok c := fun rec => functorOf_structural rec c p4 (mkCup_wf p1).2 (fun l hl => by
      obtain ⟨x, y, e, _⟩ := p7 l hl; exact ⟨x, y, e⟩)
    set nb : Box := uncurried false b with hnb
    have hcod : (tensor (ofBox nb) (Diagram.id b.dom)).cod = (tensor (Diagram.id b.cod) c).dom := by
      rw [tensor_cod, tensor_dom, p2, ← List.append_assoc]; rfl
    have hok := andThen_eq_ok hcod
    have w1 : (tensor (ofBox nb) (Diagram.id b.dom)).WT := (wf_tensor (wf_ofBox (b := nb) trivial) (wf_id _)).1
    have w2 : WF (tensor (Diagram.id b.cod) c) := wf_tensor (wf_id _) ⟨p4, (mkCup_wf p1).2⟩
    have w3 : WF (tensor w (Diagram.id b.dom)) := wf_tensor wf (wf_id _)
    have hcod' : (tensor w (Diagram.id b.dom)).cod = (tensor (Diagram.id b.cod) c).dom := by
      rw [tensor_cod, tensor_dom, p2, wc', ← List.append_assoc]; rfl
    have hok' := andThen_eq_ok hcod'
    refine ⟨_, c.boxes, ?_, wf_andThen w3 w2 hok', ?_, ?_, ?_, ?_, ?_, ?_⟩
    · intro rec hw
      simp only [Rewrite.collapseRewrite, Bool.false_eq_true, if_false]
      rw [p1, ok_bind]
      have hok2 : andThen (tensor (ofBox (.gen (Rewrite.boxName b) [] (b.cod ++ Ty.l b.dom) 0)) (Diagram.id b.dom)) (tensor (Diagram.id b.cod) c) = _ := hok
      rw [hok2, ok_bind, ((functorOf rec).C18_functorial _ _ w1 w2.1 []).2.1 _ hok,
        ((functorOf rec).C18_functorial _ _ (WT.ofBox nb) (WT.id _) []).2.2, hF rec hw, ok_bind, hid, ok_bind, ok_bind,
        ((functorOf rec).C18_functorial _ _ (WT.id _) p4 []).2.2, hid, ok_bind, hFc, ok_bind, ok_bind]
      exact hok'
    · rw [tensor_dom, wd]; simp [Diagram.id]
    · rw [tensor_cod, p3]; simp [Diagram.id]
    · simp [boxes, tensor_layers, Diagram.id, Function.comp_def, Layer.extend]
    · simp [boxes, p6]
    · intro x hx
      obtain ⟨l, hl, rfl⟩ := List.mem_map.1 hx
      obtain ⟨p, q, hpq, _⟩ := p7 l hl
      exact ⟨p, q, hpq⟩
    · intro R _ I hI x hx y hy
      obtain ⟨_, _, _, _, _, q6⟩ := mkCup_mat hI p1
      have h0 : ([] : List Nat) ∈ I.idx w.dom := by rw [wd]; simp [Interp.idx]
      have h0' : ([] : List Nat) ∈ I.idx c.cod := by rw [p3]; simp [Interp.idx]
      have hxr : x.reverse ∈ I.idx (Ty.l b.dom) := hI.mem_reverse (z := -1) (by decide) hx
      rw [if_neg (by simp), I.mat_comp w2.1 hok' x (by rw [tensor_cod, p3]; simpa [Diagram.id] using hy), tensor_cod, wc', List.append_assoc, I.sum_idx_append, Finset.sum_eq_single y]
      · rw [I.sum_idx_append, Finset.sum_eq_single x.reverse, Finset.sum_eq_single x]
        · have e1 := I.mat_tensor wf.1 (wf_id b.dom).1 (x1 := []) (x2 := x) (y1 := y ++ x.reverse) (y2 := x) h0 hx (by rw [wc']; exact I.append_mem hy hxr) hx
          have e2 := I.mat_tensor (wf_id b.cod).1 p4 (x1 := y) (x2 := x.reverse ++ x) (y1 := y) (y2 := []) hy (by rw [p2]; exact I.append_mem hxr hx) hy h0'
          rw [List.nil_append, List.append_assoc] at e1
          rw [List.append_nil] at e2
          rw [e1, e2, q6 _ hxr x hx, I.mat_id, I.mat_id]
          simp
        · intro v hv hne
          have e1 := I.mat_tensor wf.1 (wf_id b.dom).1 (x1 := []) (x2 := x) (y1 := y ++ x.reverse) (y2 := v) h0 hx (by rw [wc']; exact I.append_mem hy hxr) hv
          rw [List.nil_append, List.append_assoc] at e1
          rw [e1, I.mat_id, if_neg hne]; ring
        · intro hn; exact absurd hx hn
        · intro u hu hne
          refine Finset.sum_eq_zero (fun v hv => ?_)
          have hv' : v ∈ I.idx b.dom := hv
          have e1 := I.mat_tensor wf.1 (wf_id b.dom).1 (x1 := []) (x2 := x) (y1 := y ++ u) (y2 := v) h0 hx (by rw [wc']; exact I.append_mem hy hu) hv
          have e2 := I.mat_tensor (wf_id b.cod).1 p4 (x1 := y) (x2 := u ++ v) (y1 := y) (y2 := []) hy (by rw [p2]; exact I.append_mem hu hv) hy h0'
          rw [List.nil_append, List.append_assoc] at e1
          rw [List.append_nil] at e2
          rw [e1, e2, q6 u hu v hv', I.mat_id, I.mat_id]
          by_cases hvx : v = x
          · rw [hvx, if_neg (show ¬ u.reverse = x from fun e => hne (by rw [← e, List.reverse_reverse]))]; ring
          · rw [if_neg hvx]; ring
        · intro hn; exact absurd hxr hn
      · intro u hu hne
        refine Finset.sum_eq_zero (fun v hv => ?_)
        have hv' : v ∈ I.idx (Ty.l b.dom ++ b.dom) := hv
        have e2 := I.mat_tensor (wf_id b.cod).1 p4 (x1 := u) (x2 := v) (y1 := y) (y2 := []) hu (by rw [p2]; exact hv') hy h0'
        rw [List.append_nil] at e2
        rw [e2, I.mat_id, if_neg (fun e => hne e.symm)]; ring
      · intro hn; exact absurd hy hn

/-! ## Theorems -/

theorem arWith_word (A : SplitAnsatz) (rec : Box → Except PyErr GDiagram) (b : Box) (h : b.dom = []) (ho : A.maxOrder < order b) :
    A.arWith rec b = match A.kind with
      | .mps => mpsWord A.maxOrder (Rewrite.boxName b) b.cod
      | .spider => spiderWord A.maxOrder (Rewrite.boxName b) b.cod := by
  unfold SplitAnsatz.arWith
  rw [if_neg (by unfold order at ho; omega), if_neg (by simpa using h)]
  rfl

theorem mpsVal_word_lens (A : SplitAnsatz) (hA : A.kind = .mps) (hl : Legal A) (name : String) (cod : Ty) :
    ∀ p ∈ mpsBoxes [] (mpsWindows A.maxOrder name cod), p.2.length ≤ A.maxOrder := by
  have hm : 3 ≤ A.maxOrder := by simpa [Legal, hA] using hl
  refine mpsBoxes_len A.maxOrder hm [] _ (by simp) ?_
  intro w hw
  simp only [mpsWindows, List.mem_map, List.mem_range] at hw
  obtain ⟨i, _, rfl⟩ := hw
  simp

/-- **C54 (constructors).** The constructors accept exactly the bounds 3 (`MPSAnsatz`) and 2 (`SpiderAnsatz`) and larger, and `MPSAnsatz` refuses an object
map that gives its bond type a dimension. -/
theorem C54_constructors (kind : Kind) (keys : List String) (maxOrder : Int) (left : Bool) :
    (∀ A, SplitAnsatz.mk' kind keys maxOrder left = .ok A → Legal A ∧ A.kind = kind ∧ (A.maxOrder : Int) = maxOrder ∧ A.left = left) ∧
    (SplitAnsatz.mk' kind keys maxOrder left = .error .valueError ↔
      (kind = .mps ∧ (maxOrder < 3 ∨ "B" ∈ keys)) ∨ (kind = .spider ∧ maxOrder < 2)) ∧
    ((∃ A, SplitAnsatz.mk' kind keys maxOrder left = .ok A) ∨ SplitAnsatz.mk' kind keys maxOrder left = .error .valueError) := by
  cases kind with
  | mps =>
    simp only [SplitAnsatz.mk']
    by_cases h : maxOrder < 3
    · simp [h]
    · by_cases hb : "B" ∈ keys
      · simp [h, hb]
      · simp only [h, hb, if_false]
        refine ⟨?_, by simp, .inl ⟨_, rfl⟩⟩
        rintro A hA
        cases hA
        exact ⟨by simp [Legal]; omega, rfl, by simp; omega, rfl⟩
  | spider =>
    simp only [SplitAnsatz.mk']
    by_cases h : maxOrder < 2
    · simp [h]
    · simp only [h, if_false]
      refine ⟨?_, by simp, .inl ⟨_, rfl⟩⟩
      rintro A hA
      cases hA
      exact ⟨by simp [Legal]; omega, rfl, by simp; omega, rfl⟩

/-- **C54 (small boxes).** A box with at most `max_order` wires is only renamed. -/
theorem C54_small (A : SplitAnsatz) (b : Box) (h : order b ≤ A.maxOrder) :
    A.ar b = .ok (ofBox (.gen (Rewrite.boxName b ++ "_0") b.dom b.cod b.z)) := by
  unfold SplitAnsatz.ar SplitAnsatz.arWith
  rw [if_pos (show b.dom.length + b.cod.length ≤ A.maxOrder from h)]
  have : pieceName (Rewrite.boxName b) 0 = Rewrite.boxName b ++ "_0" := by
    simp only [pieceName, String.append_assoc]
    congr 1
  rw [this]

/-- **C54 (matrix product states).** `MPSAnsatz` replaces a box without inputs and with more than `max_order` wires by the words `name_0`, `name_1`, … whose own
wires, `max_order - 2` at a time, are the wires of the box and whose neighbours are joined by a bond; no word has more than `max_order` wires. The result has the
type of the box, and its tensor is the contraction of the words along the bonds. -/
theorem C54_mps (A : SplitAnsatz) (hl : Legal A) (hA : A.kind = .mps) (b : Box) (hb : b.dom = []) (ho : A.maxOrder < order b) :
    let ws := mpsWindows A.maxOrder (Rewrite.boxName b) b.cod
    ∃ d cups, A.ar b = .ok d ∧ WF d ∧ d.dom = [] ∧ d.cod = b.cod ∧ (ws.map Prod.snd).flatten = b.cod ∧
      d.boxes = (mpsBoxes [] ws).map (fun p => Box.word p.1 p.2 0) ++ cups ∧ (∀ x ∈ cups, x = .cup ⟨"B", 0⟩ ⟨"B", 1⟩ false) ∧
      (∀ x ∈ d.boxes, Plain x → order x ≤ A.maxOrder) ∧
      ∀ {R : Type} [CommSemiring R] (I : Interp Ob Box R), Compact I → ∀ y ∈ I.idx b.cod,
        I.mat d [] y = mpsVal I (List.zipWith (fun p w => (Box.word p.1 p.2 0, w.2.length)) (mpsBoxes [] ws) ws) [] y := by
  intro ws
  have hm : 3 ≤ A.maxOrder := by simpa [Legal, hA] using hl
  have hc : b.cod ≠ [] := by
    intro h
    simp [order, hb, h] at ho
  obtain ⟨d, cups, h1, h2, h3, h4, h5, h6, h7⟩ := mpsWord_spec A.maxOrder hm (Rewrite.boxName b) b.cod hc
  refine ⟨d, cups, ?_, h2, h3, h4, mpsWindows_flatten _ hm _ _, h5, h6, ?_, h7⟩
  · rw [SplitAnsatz.ar, arWith_word A _ b hb ho, hA]; exact h1
  · intro x hx hp
    rw [h5, List.mem_append, List.mem_map] at hx
    rcases hx with ⟨p, hp', rfl⟩ | hx
    · simpa [order, Box.dom, Box.cod] using mpsVal_word_lens A hA hl _ _ p hp'
    · rw [h6 x hx] at hp; exact hp.elim

/-- **C54 (spiders).** `SpiderAnsatz` replaces a box without inputs and with more than `max_order` wires by the words `name_0`, `name_1`, … on windows of
`max_order` wires, where neighbouring windows share one wire, joined by spiders on the shared wires. The result has the type of the box, and its tensor is the
product of the entries of the words. -/
theorem C54_spider (A : SplitAnsatz) (hl : Legal A) (hA : A.kind = .spider) (b : Box) (hb : b.dom = []) (ho : A.maxOrder < order b) :
    let ws := spiderWindows A.maxOrder (Rewrite.boxName b) b.cod
    ∃ d spiders, A.ar b = .ok d ∧ WF d ∧ d.dom = [] ∧ d.cod = b.cod ∧
      d.boxes = ws.map (fun p => Box.word p.1 p.2 0) ++ spiders ∧ (∀ x ∈ spiders, ∃ t, x = .spider t 2 1) ∧
      (∀ x ∈ d.boxes, Plain x → order x ≤ A.maxOrder) ∧
      ∀ {R : Type} [CommSemiring R] (I : Interp Ob Box R), CopyLaw I → ∀ y ∈ I.idx b.cod,
        I.mat d [] y = overlapVal I (ws.map (fun p => (Box.word p.1 p.2 0, p.2.length))) y := by
  intro ws
  have hm : 2 ≤ A.maxOrder := by simpa [Legal, hA] using hl
  have hc : 2 ≤ b.cod.length := by
    simp [order, hb] at ho
    omega
  obtain ⟨d, sps, h1, h2, h3, h4, h5, h6, h7⟩ := spiderWord_spec A.maxOrder hm (Rewrite.boxName b) b.cod hc
  refine ⟨d, sps, ?_, h2, h3, h4, h5, h6, ?_, h7⟩
  · rw [SplitAnsatz.ar, arWith_word A _ b hb ho, hA]; exact h1
  · intro x hx hp
    rw [h5, List.mem_append, List.mem_map] at hx
    rcases hx with ⟨p, hp', rfl⟩ | hx
    · simp only [spiderWindows, List.mem_map, List.mem_range] at hp'
      obtain ⟨i, _, rfl⟩ := hp'
      simp [order, Box.dom, Box.cod]
    · obtain ⟨t, rfl⟩ := h6 x hx; exact hp.elim

theorem word_good (A : SplitAnsatz) (hl : Legal A) (b : Box) (hb : b.dom = []) (ho : A.maxOrder < order b) :
    ∃ d, (∀ rec, A.arWith rec b = .ok d) ∧ A.ar b = .ok d ∧ WF d ∧ d.dom = [] ∧ d.cod = b.cod ∧ ∀ x ∈ d.boxes, Plain x → order x ≤ A.maxOrder := by
  have key : ∀ d, A.ar b = .ok d → ∀ rec, A.arWith rec b = .ok d := by
    intro d h rec
    rw [← h, SplitAnsatz.ar, arWith_word A _ b hb ho, arWith_word A _ b hb ho]
  cases hk : A.kind with
  | mps =>
    obtain ⟨d, cups, h1, h2, h3, h4, _, _, _, h5, _⟩ := C54_mps A hl hk b hb ho
    exact ⟨d, key d h1, h1, h2, h3, h4, h5⟩
  | spider =>
    obtain ⟨d, sps, h1, h2, h3, h4, _, _, h5, _⟩ := C54_spider A hl hk b hb ho
    exact ⟨d, key d h1, h1, h2, h3, h4, h5⟩

theorem uncurried_order (left : Bool) (b : Box) : (uncurried left b).dom = [] ∧ order (uncurried left b) = order b := by
  have hr : ∀ (z : Int) (t : Ty), (Ty.rotate z t).length = t.length := by intro z t; unfold Ty.rotate; split <;> simp
  cases left <;> simp [uncurried, order, Box.dom, Box.cod, Ty.l, Ty.r, hr] <;> omega

theorem curried_good (A : SplitAnsatz) (hl : Legal A) (b : Box) (hb : b.dom ≠ []) (ho : A.maxOrder < order b) :
    ∃ w d cups, A.ar (uncurried A.left b) = .ok w ∧ A.ar b = .ok d ∧ A.arWith A.ar b = .ok d ∧ WF d ∧ d.dom = b.dom ∧ d.cod = b.cod ∧
      d.boxes = w.boxes ++ cups ∧ cups.length = b.dom.length ∧ (∀ x ∈ cups, ∃ l r, x = .cup l r false) ∧
      (∀ x ∈ d.boxes, Plain x → order x ≤ A.maxOrder) ∧
      ∀ {R : Type} [CommSemiring R] (I : Interp Ob Box R), Compact I → ∀ x ∈ I.idx b.dom, ∀ y ∈ I.idx b.cod,
        I.mat d x y = I.mat w [] (if A.left then x.reverse ++ y else y ++ x.reverse) := by
  obtain ⟨u1, u2⟩ := uncurried_order A.left b
  obtain ⟨w, w1, w2, w3, w4, w5, w6⟩ := word_good A hl (uncurried A.left b) u1 (by rw [u2]; exact ho)
  obtain ⟨d, cups, h1, h2, h3, h4, h5, h6, h7, h8⟩ := collapse_value A.left b w w3 w4 w5
  have hstep : ∀ rec, rec (uncurried A.left b) = .ok w → A.arWith rec b = .ok d := by
    intro rec hr
    rw [SplitAnsatz.arWith, if_neg (by unfold order at ho; omega), if_pos hb]
    exact h1 rec hr
  refine ⟨w, d, cups, w2, hstep _ (w1 _), hstep _ w2, h2, h3, h4, h5, h6, h7, ?_, h8⟩
  intro x hx hp
  rw [h5, List.mem_append] at hx
  rcases hx with hx | hx
  · exact w6 x hx hp
  · obtain ⟨l, r, rfl⟩ := h7 x hx
    exact hp.elim

/-- **C54 (inputs).** A box with inputs and more than `max_order` wires is replaced by the pieces of the box in which the inputs have become outputs – to
the left or to the right of the outputs, as the ansatz was told – followed by cups: its tensor is that of the pieces. -/
theorem C54_uncurry (A : SplitAnsatz) (hl : Legal A) (b : Box) (hb : b.dom ≠ []) (ho : A.maxOrder < order b) :
    ∃ w d cups, A.ar (.gen (Rewrite.boxName b) [] (if A.left then Ty.r b.dom ++ b.cod else b.cod ++ Ty.l b.dom) 0) = .ok w ∧ A.ar b = .ok d ∧
      WF d ∧ d.dom = b.dom ∧ d.cod = b.cod ∧ d.boxes = w.boxes ++ cups ∧ cups.length = b.dom.length ∧ (∀ x ∈ cups, ∃ l r, x = .cup l r false) ∧
      (∀ x ∈ d.boxes, Plain x → order x ≤ A.maxOrder) ∧
      ∀ {R : Type} [CommSemiring R] (I : Interp Ob Box R), Compact I → ∀ x ∈ I.idx b.dom, ∀ y ∈ I.idx b.cod,
        I.mat d x y = I.mat w [] (if A.left then x.reverse ++ y else y ++ x.reverse) := by
  obtain ⟨w, d, cups, h1, h2, _, h3⟩ := curried_good A hl b hb ho
  exact ⟨w, d, cups, h1, h2, h3⟩

/-- **C54 (recursion).** The recursive call of `split_functor` inside `_split_ar` is answered by `_split_ar`: the model does not cut it off. -/
theorem C54_recursion (A : SplitAnsatz) (hl : Legal A) (b : Box) : A.arWith A.ar b = A.ar b := by
  by_cases ho : order b ≤ A.maxOrder
  · rw [C54_small A b ho, SplitAnsatz.arWith, if_pos (show b.dom.length + b.cod.length ≤ A.maxOrder from ho)]
    have : pieceName (Rewrite.boxName b) 0 = Rewrite.boxName b ++ "_0" := by
      simp only [pieceName, String.append_assoc]
      congr 1
    rw [this]
  · push Not at ho
    by_cases hb : b.dom = []
    · obtain ⟨d, h1, h2, _⟩ := word_good A hl b hb ho
      rw [h1, h2]
    · obtain ⟨w, d, cups, _, h2, h3, _⟩ := curried_good A hl b hb ho
      rw [h2, h3]

theorem ar_good (A : SplitAnsatz) (hl : Legal A) (b : Box) :
    ∃ d, A.ar b = .ok d ∧ WF d ∧ d.dom = b.dom ∧ d.cod = b.cod ∧ ∀ x ∈ d.boxes, Plain x → order x ≤ A.maxOrder := by
  by_cases ho : order b ≤ A.maxOrder
  · refine ⟨_, C54_small A b ho, wf_ofBox trivial, rfl, rfl, ?_⟩
    intro x hx _
    have : x = .gen (Rewrite.boxName b ++ "_0") b.dom b.cod b.z := by simpa [ofBox, boxes] using hx
    subst this
    exact ho
  · push Not at ho
    by_cases hb : b.dom = []
    · obtain ⟨d, _, h2, h3, h4, h5, h6⟩ := word_good A hl b hb ho
      exact ⟨d, h2, h3, by rw [h4, hb], h5, h6⟩
    · obtain ⟨w, d, cups, _, h2, _, h3, h4, h5, _, _, _, h6, _⟩ := curried_good A hl b hb ho
      exact ⟨d, h2, h3, h4, h5, h6⟩

theorem img_unique {F : Functor} {b : Box} {p q : GDiagram} (h : Rewrite.Img F b p) (h' : Rewrite.Img F b q) : p = q := by
  induction h generalizing q with
  | gen n d c z p h => cases h' with | gen _ _ _ _ q h' => rw [h] at h'; cases h'; rfl
  | word n c z p h => cases h' with | word _ _ _ q h' => rw [h] at h'; cases h'; rfl
  | cup => cases h'; rfl
  | cap => cases h'; rfl
  | swap => cases h'; rfl
  | spider => cases h'; rfl
  | daggered b p _ ih => cases h' with | daggered _ q h' => rw [ih h']

theorem img_order {F : Functor} {m : Nat} {b : Box} {p : GDiagram} (h : Rewrite.Img F b p)
    (hF : ∀ b0 d, Rewrite.seen b = some b0 → F.ar b0 = .ok d → ∀ x ∈ d.boxes, Plain x → order x ≤ m) :
    ∀ x ∈ p.boxes, Plain x → order x ≤ m := by
  have hrot : ∀ (z : Int) (d : GDiagram), (∀ x ∈ d.boxes, Plain x → order x ≤ m) → ∀ x ∈ (d.rotate z).boxes, Plain x → order x ≤ m := by
    intro z d hd x hx hp
    simp only [boxes, GDiagram.rotate, List.map_map, List.mem_map, Function.comp] at hx
    obtain ⟨l, hl, rfl⟩ := hx
    have e : (GLayer.rotate z l).box = l.box.rotate z := by unfold GLayer.rotate; split <;> rfl
    rw [e] at hp ⊢
    rw [(plain_rotate z l.box).2]
    exact hd _ (List.mem_map.2 ⟨l, hl, rfl⟩) ((plain_rotate z l.box).1.1 hp)
  induction h with
  | gen n d c z p h => exact hrot z p (hF _ p rfl h)
  | word n c z p h => exact hrot z p (hF _ p rfl h)
  | cup => intro x hx hp; rw [show x = _ by simpa [ofBox, boxes] using hx] at hp; exact hp.elim
  | cap => intro x hx hp; rw [show x = _ by simpa [ofBox, boxes] using hx] at hp; exact hp.elim
  | swap => intro x hx hp; rw [show x = _ by simpa [ofBox, boxes] using hx] at hp; exact hp.elim
  | spider => intro x hx hp; rw [show x = _ by simpa [ofBox, boxes] using hx] at hp; exact hp.elim
  | daggered b p _ ih =>
    intro x hx hp
    have : x ∈ p.boxes.map Box.dagger ∨ x ∈ p.boxes := by
      simp only [GDiagram.dagger, daggerWith] at hx
      split at hx
      · exact .inr hx
      · left
        simp only [boxes, List.map_map, List.map_reverse, List.mem_reverse, List.mem_map, Function.comp] at hx
        obtain ⟨l, hl, rfl⟩ := hx
        exact List.mem_map.2 ⟨l.box, List.mem_map.2 ⟨l, hl, rfl⟩, rfl⟩
    rcases this with h | h
    · obtain ⟨y, hy, rfl⟩ := List.mem_map.1 h
      rw [(plain_dagger y).2]
      exact ih hF y hy ((plain_dagger y).1.1 hp)
    · exact ih hF x h hp

/-- **C54 (diagrams).** For every well-formed diagram, splitting succeeds, keeps domain and codomain, and leaves no box with more than `max_order` wires other
than structural ones. The tensor of the result is that of the given diagram, with the tensor of each box that of its pieces. -/
theorem C54_diagram (A : SplitAnsatz) (hl : Legal A) (d : GDiagram) (hd : d.WT) (hv : d.Valid) :
    ∃ r, A.functor.onDiagram d = .ok r ∧ r.WT ∧ r.Valid ∧ r.dom = d.dom ∧ r.cod = d.cod ∧ (∀ x ∈ r.boxes, Plain x → order x ≤ A.maxOrder) ∧
      ∀ {R : Type} [CommSemiring R] (I J : Interp Ob Box R), I.dim = J.dim →
        (∀ b ∈ d.boxes, ∀ p, A.functor.onBox b = .ok p → ∀ x ∈ I.idx b.dom, ∀ y ∈ I.idx b.cod, J.ten b x y = I.mat p x y) →
        ∀ x, ∀ y ∈ I.idx d.cod, I.mat r x y = J.mat d x y := by
  have hgood : ∀ l ∈ d.layers, ∀ b0, Rewrite.seen l.box = some b0 → Rewrite.ArGood A.functor b0 := by
    intro l _ b0 hb
    obtain ⟨r, h1, h2, h3, h4, _⟩ := ar_good A hl b0
    exact ⟨r, h1, h3, h4, h2.1, h2.2⟩
  obtain ⟨r, parts, h1, h2, h3, h4, h5, h6, h7⟩ := Rewrite.onDiagram_total (F := A.functor) (fun _ => rfl) d hd hv hgood
  refine ⟨r, h1, h4, h5, h2, h3, ?_, ?_⟩
  · intro x hx hp
    have : ∀ (ls : List GLayer) (parts : List GDiagram),
        List.Forall₂ (fun (l : GLayer) p => Rewrite.Img A.functor l.box p ∧ p.dom = l.box.dom ∧ p.cod = l.box.cod) ls parts →
        ∀ l ∈ (List.zipWith (fun (l : GLayer) (p : GDiagram) => p.layers.map (Layer.extend l.left l.right)) ls parts).flatten, Plain l.box → order l.box ≤ A.maxOrder := by
      intro ls parts h
      induction h with
      | nil => simp
      | @cons l p ls parts hp _ ih =>
        intro k hk hpk
        rw [List.zipWith_cons_cons, List.flatten_cons, List.mem_append, List.mem_map] at hk
        rcases hk with ⟨l', hl', rfl⟩ | hk
        · refine img_order hp.1 ?_ l'.box (List.mem_map.2 ⟨l', hl', rfl⟩) hpk
          intro b0 e hb he
          obtain ⟨r, i1, _, _, _, i5⟩ := ar_good A hl b0
          have he : A.ar b0 = .ok e := he
          rw [i1] at he
          cases he
          exact i5
        · exact ih k hk hpk
    obtain ⟨l, hl', rfl⟩ := List.mem_map.1 hx
    rw [h7] at hl'
    exact this _ _ h6 l hl' hp
  · intro R _ I J hdim hJ x y hy
    rw [Interp.mat, h7, Interp.mat]
    refine Interp.mat_subst hdim hd parts ?_ _ y hy
    have : ∀ (ls : List GLayer) (parts : List GDiagram), (∀ l ∈ ls, l ∈ d.layers) →
        List.Forall₂ (fun (l : GLayer) p => Rewrite.Img A.functor l.box p ∧ p.dom = l.box.dom ∧ p.cod = l.box.cod) ls parts →
        List.Forall₂ (fun (l : GLayer) p => p.WT ∧ p.dom = BoxSig.dom l.box ∧ p.cod = BoxSig.cod l.box ∧
          ∀ x ∈ I.idx p.dom, ∀ y ∈ I.idx p.cod, I.mat p x y = J.ten l.box x y) ls parts := by
      intro ls parts hsub h
      induction h with
      | nil => exact .nil
      | @cons l p ls parts hp _ ih =>
        refine .cons ?_ (ih (fun l hl => hsub l (by simp [hl])))
        have hmem := hsub l (by simp)
        obtain ⟨q, q1, q2, q3, q4, q5, q6⟩ := Rewrite.onBox_total (F := A.functor) (fun _ => rfl) l.box (hv l hmem) (hgood l hmem)
        obtain rfl := img_unique hp.1 q2
        refine ⟨q5, q3, q4, ?_⟩
        intro x hx y hy
        exact (hJ l.box (List.mem_map.2 ⟨l, hmem, rfl⟩) _ q1 x (by rw [← q3]; exact hx) y (by rw [← q4]; exact hy)).symm
    exact this _ _ (fun _ h => h) h6

/-- The usual interpretation satisfies the law of spiders. -/
theorem std_copy {R : Type} [CommSemiring R] (dim : String → Nat) (T : String → Ty → Ty → List Nat → List Nat → R) : CopyLaw (stdInterp dim T) := by
  intro t i hi j hj k hk
  show (if ∀ a ∈ [i, j] ++ [k], ∀ b ∈ [i, j] ++ [k], a = b then (1 : R) else 0) = _
  refine if_congr ?_ rfl rfl
  simp only [List.cons_append, List.nil_append, List.mem_cons, List.not_mem_nil, or_false]
  constructor
  · intro h; exact ⟨h i (.inl rfl) j (.inr (.inl rfl)), h j (.inr (.inl rfl)) k (.inr (.inr rfl))⟩
  · rintro ⟨rfl, rfl⟩ a (rfl | rfl | rfl) b (rfl | rfl | rfl) <;> rfl

/-- **C54, refuted: different boxes get different pieces.** A word of type `n @ n @ n` and one of the same name and type `n @ n @ n @ n` share the piece `a_0` of
type `n @ n` under `SpiderAnsatz(max_order=2)`, and words of five and of six wires share `a_0` under `MPSAnsatz(max_order=3)`: the pieces are numbered, but the
type of the whole is not part of their name. -/
theorem C54_refuted_shared : ∃ (A A' : SplitAnsatz) (b b' c c' : Box) (d d' e e' : GDiagram) (x y : Box), Legal A ∧ Legal A' ∧ A.kind = .spider ∧ A'.kind = .mps ∧
    b.cod ≠ b'.cod ∧ c.cod ≠ c'.cod ∧ A.ar b = .ok d ∧ A.ar b' = .ok d' ∧ Plain x ∧ x ∈ d.boxes ∧ x ∈ d'.boxes ∧
    A'.ar c = .ok e ∧ A'.ar c' = .ok e' ∧ Plain y ∧ y ∈ e.boxes ∧ y ∈ e'.boxes := by
  let n : Ob := ⟨"n", 0⟩
  let A : SplitAnsatz := ⟨.spider, 2, true⟩
  let A' : SplitAnsatz := ⟨.mps, 3, true⟩
  let b : Nat → Box := fun k => .word "a" (List.replicate k n) 0
  have hA : Legal A := Nat.le_refl 2
  have hA' : Legal A' := Nat.le_refl 3
  obtain ⟨d, s1, h1, _, _, _, h2, _⟩ := C54_spider A hA rfl (b 3) rfl (by decide)
  obtain ⟨d', s2, h1', _, _, _, h2', _⟩ := C54_spider A hA rfl (b 4) rfl (by decide)
  obtain ⟨e, s3, g1, _, _, _, _, g2, _⟩ := C54_mps A' hA' rfl (b 5) rfl (by decide)
  obtain ⟨e', s4, g1', _, _, _, _, g2', _⟩ := C54_mps A' hA' rfl (b 6) rfl (by decide)
  refine ⟨A, A', b 3, b 4, b 5, b 6, d, d', e, e', .word "a_0" [n, n] 0, .word "a_0" [n, bond] 0, hA, hA', rfl, rfl, by decide, by decide, h1, h1', trivial, ?_, ?_,
    g1, g1', trivial, ?_, ?_⟩
  · rw [h2]; exact List.mem_append_left _ (by decide +kernel)
  · rw [h2']; exact List.mem_append_left _ (by decide +kernel)
  · rw [g2]; exact List.mem_append_left _ (by decide +kernel)
  · rw [g2']; exact List.mem_append_left _ (by decide +kernel)

/-! ## Examples -/

example : Legal ⟨.mps, 3, true⟩ ∧ Legal ⟨.spider, 2, false⟩ ∧ SplitAnsatz.mk' .mps ["n", "s"] 3 true = .ok ⟨.mps, 3, true⟩ ∧
    SplitAnsatz.mk' .mps ["n", "B"] 3 true = .error .valueError ∧ SplitAnsatz.mk' .spider ["n", "B"] 1 true = .error .valueError := by
  exact ⟨Nat.le_refl 3, Nat.le_refl 2, rfl, rfl, rfl⟩

/-- The words of a transitive verb: `likes_0 : n.r @ B`, `likes_1 : B.r @ s @ B`, `likes_2 : B.r @ n.l`. -/
example : mpsBoxes [] (mpsWindows 3 "likes" [⟨"n", 1⟩, ⟨"s", 0⟩, ⟨"n", -1⟩, ⟨"n", 0⟩]) =
    [("likes_0", [⟨"n", 1⟩, bond]), ("likes_1", [bondR, ⟨"s", 0⟩, bond]), ("likes_2", [bondR, ⟨"n", -1⟩, bond]), ("likes_3", [bondR, ⟨"n", 0⟩])] := by
  decide +kernel

example : spiderWindows 2 "likes" [⟨"n", 1⟩, ⟨"s", 0⟩, ⟨"n", -1⟩] = [("likes_0", [⟨"n", 1⟩, ⟨"s", 0⟩]), ("likes_1", [⟨"s", 0⟩, ⟨"n", -1⟩])] := by decide +kernel

example : spiderWindows 3 "w" (List.replicate 6 ⟨"n", 0⟩) = [("w_0", List.replicate 3 ⟨"n", 0⟩), ("w_1", List.replicate 3 ⟨"n", 0⟩), ("w_2", List.replicate 2 ⟨"n", 0⟩)] := by
  decide +kernel

/-- The hypotheses of the theorems on boxes are met by boxes of the grammar. -/
example : let A : SplitAnsatz := ⟨.mps, 3, true⟩
    (Box.word "likes" [⟨"n", 1⟩, ⟨"s", 0⟩, ⟨"n", -1⟩, ⟨"n", 0⟩] 0).dom = [] ∧ A.maxOrder < order (.word "likes" [⟨"n", 1⟩, ⟨"s", 0⟩, ⟨"n", -1⟩, ⟨"n", 0⟩] 0) ∧
    (Box.gen "f" [⟨"n", 0⟩, ⟨"n", 0⟩] [⟨"s", 0⟩, ⟨"n", 0⟩] 0).dom ≠ [] ∧ A.maxOrder < order (.gen "f" [⟨"n", 0⟩, ⟨"n", 0⟩] [⟨"s", 0⟩, ⟨"n", 0⟩] 0) ∧
    Compact (stdInterp (R := ℕ) (fun _ => 2) (fun _ _ _ _ _ => 1)) ∧ CopyLaw (stdInterp (R := ℕ) (fun _ => 2) (fun _ _ _ _ _ => 1)) := by
  exact ⟨rfl, by decide, by decide, by decide, stdInterp_compact _ _, std_copy _ _⟩

end Split
end Lambeq
