import Verif.Convert.Discopy

namespace Lambeq
namespace Discopy
open Diagram
set_option linter.unusedSimpArgs false

theorem windLoop_eq (z : Int) (n : Nat) (o : DOb) : windLoop z n o = ⟨o.name, o.z + (if z > 0 then (n : Int) else -n)⟩ := by
  induction n generalizing o with
  | zero => simp [windLoop]
  | succ n ih =>
    rw [windLoop, ih]
    by_cases h : z > 0 <;> simp only [h, if_true, if_false, DOb.l, DOb.r] <;> congr 1 <;> push_cast <;> omega

theorem obL2D_eq (o : Ob) : obL2D o = ⟨o.name, o.z⟩ := by
  rw [obL2D, wind, windLoop_eq]
  congr 1
  split <;> simp only [] <;> omega

theorem unwindLoop_name (n : Nat) (o : DOb) : (unwindLoop n o).name = o.name := by
  induction n generalizing o with
  | zero => rfl
  | succ n ih => rw [unwindLoop, ih]; split <;> rfl

theorem unwind_name (o : DOb) : (unwind o).name = o.name := by
  rw [unwind]; split
  · rfl
  · exact unwindLoop_name _ _

theorem obD2L_eq (o : DOb) : obD2L o = ⟨o.name, o.z⟩ := by
  rw [obD2L, unwind_name]; simp [Ty.rotOb]

theorem tyL2D_eq (t : Ty) : tyL2D t = t.map (fun o => ⟨o.name, o.z⟩) := by
  induction t with
  | nil => rfl
  | cons o t ih => rw [tyL2D, ih, obL2D_eq]; rfl

theorem tyD2L_eq (t : List DOb) : tyD2L t = t.map (fun o => ⟨o.name, o.z⟩) := by
  induction t with
  | nil => rfl
  | cons o t ih => rw [tyD2L, ih, obD2L_eq]; rfl

theorem tyD2L_tyL2D (t : Ty) : tyD2L (tyL2D t) = t := by
  rw [tyD2L_eq, tyL2D_eq, List.map_map]
  exact List.map_id _
theorem tyL2D_tyD2L (t : List DOb) : tyL2D (tyD2L t) = t := by
  rw [tyD2L_eq, tyL2D_eq, List.map_map]
  exact List.map_id _
theorem obD2L_obL2D (o : Ob) : obD2L (obL2D o) = o := by rw [obD2L_eq, obL2D_eq]
theorem obL2D_obD2L (o : DOb) : obL2D (obD2L o) = o := by rw [obD2L_eq, obL2D_eq]
theorem tyL2D_append (a b : Ty) : tyL2D (a ++ b) = tyL2D a ++ tyL2D b := by simp [tyL2D_eq]
theorem tyD2L_append (a b : List DOb) : tyD2L (a ++ b) = tyD2L a ++ tyD2L b := by simp [tyD2L_eq]

/-- The loop over the layers. -/
theorem convLayers_eq {O B O' B' : Type} [BoxSig B O] [BoxSig B' O'] [DecidableEq O'] {ty : List O → List O'} {bx : B → Except PyErr (Diagram O' B')}
    (hty : ∀ a b, ty (a ++ b) = ty a ++ ty b) (β : B → B') (ls : List (Layer O B))
    (hb : ∀ l ∈ ls, bx l.box = .ok (ofBox (β l.box)) ∧ BoxSig.dom (β l.box) = ty (BoxSig.dom l.box) ∧ BoxSig.cod (β l.box) = ty (BoxSig.cod l.box))
    {a c : List O} (hc : Chain a ls c) (D : Diagram O' B') (hD : D.cod = ty a) :
    convLayers ty bx D ls = .ok ⟨D.dom, ty c, D.layers ++ ls.map (fun l => ⟨ty l.left, β l.box, ty l.right⟩)⟩ := by
  induction ls generalizing a D with
  | nil =>
    obtain rfl : a = c := hc
    simp [convLayers, ← hD]
  | cons l ls ih =>
    obtain ⟨h1, h2⟩ := hc
    obtain ⟨b1, b2, b3⟩ := hb l (by simp)
    rw [convLayers, b1]
    have hT : tensor (tensor (id (ty l.left)) (ofBox (β l.box))) (id (ty l.right)) = (⟨ty l.dom, ty l.cod, [⟨ty l.left, β l.box, ty l.right⟩]⟩ : Diagram O' B') := by
      simp [tensor_eq, Diagram.id, ofBox, b2, b3, Layer.dom, Layer.cod, hty, Layer.extend]
    simp only [hT]
    rw [andThen_eq_ok (by rw [hD, ← h1])]
    have := ih (fun l' hl => hb l' (List.mem_cons_of_mem _ hl)) h2 ⟨D.dom, ty l.cod, D.layers ++ [⟨ty l.left, β l.box, ty l.right⟩]⟩ rfl
    simp only [this]
    simp

/-- The image of a chain is a chain. -/
theorem chain_map {O B O' B' : Type} [BoxSig B O] [BoxSig B' O'] {ty : List O → List O'} (hty : ∀ a b, ty (a ++ b) = ty a ++ ty b) (β : B → B') (ls : List (Layer O B))
    (hb : ∀ l ∈ ls, BoxSig.dom (β l.box) = ty (BoxSig.dom l.box) ∧ BoxSig.cod (β l.box) = ty (BoxSig.cod l.box)) {a c : List O} (hc : Chain a ls c) :
    Chain (ty a) (ls.map (fun l => (⟨ty l.left, β l.box, ty l.right⟩ : Layer O' B'))) (ty c) := by
  induction ls generalizing a with
  | nil => obtain rfl : a = c := hc; exact rfl
  | cons l ls ih =>
    obtain ⟨e1, e2⟩ := hb l (by simp)
    refine ⟨?_, ?_⟩
    · rw [← hc.1]; simp only [Layer.dom, e1, hty]
    · have := ih (fun l' hl => hb l' (List.mem_cons_of_mem _ hl)) hc.2
      simp only [Layer.cod, hty] at this
      simp only [Layer.cod, e2]
      exact this

/-! ## Boxes -/

/-- The DisCoPy box with the same name, type and flags. -/
def imageBox : Box → DBox
  | .gen n d c z => .box n (tyL2D d) (tyL2D c) z false
  | .word n c z => .word n [] (tyL2D c) z false
  | .cup l r _ => .cup (obL2D l) (obL2D r)
  | .cap l r _ => .cap (obL2D l) (obL2D r)
  | .swap l r => .swap (obL2D l) (obL2D r)
  | .spider t n m => .spider n m (obL2D t)
  | .daggered b => (imageBox b).dagger

theorem adjoint_of {l r : Ob} (h : l = ⟨r.name, r.z + 1⟩ ∨ l = ⟨r.name, r.z - 1⟩) : DAdjoint (obL2D l) (obL2D r) := by
  rw [obL2D_eq, obL2D_eq]
  rcases h with rfl | rfl
  · right; rfl
  · left; simp [DOb.r]

theorem cup_adj {l r : Ob} {v : Bool} (h : Box.cupAdjoint [l] [r] v = true) : l = ⟨r.name, r.z + 1⟩ ∨ l = ⟨r.name, r.z - 1⟩ := by
  cases v <;> simp [Box.cupAdjoint, Ty.l, Ty.r, Ty.rotate, Ty.rotOb] at h
  · right; rw [h]; rfl
  · left; exact h

theorem cap_adj {l r : Ob} {v : Bool} (h : Box.capAdjoint [l] [r] v = true) : l = ⟨r.name, r.z + 1⟩ ∨ l = ⟨r.name, r.z - 1⟩ := by
  cases v <;> simp [Box.capAdjoint, Ty.l, Ty.r, Ty.rotate, Ty.rotOb] at h
  · left; exact h
  · right; rw [h]; rfl

theorem boxL2D_eq {b : Box} (h : b.Valid) : boxL2D b = .ok (imageBox b) := by
  induction b with
  | gen | word | swap | spider => rfl
  | cup l r v => rw [boxL2D, if_pos (adjoint_of (cup_adj h))]; rfl
  | cap l r v => rw [boxL2D, if_pos (adjoint_of (cap_adj h))]; rfl
  | daggered b ih => rw [boxL2D, ih h]; rfl

theorem dom_cod_dagger (b : DBox) : b.dagger.dom = b.cod ∧ b.dagger.cod = b.dom := by cases b <;> exact ⟨rfl, rfl⟩
theorem ddagger_ddagger (b : DBox) : b.dagger.dagger = b := by cases b <;> simp [DBox.dagger]

theorem replicate_tyL2D (n : Nat) (t : Ob) : tyL2D (List.replicate n t) = List.replicate n (obL2D t) := by simp [tyL2D_eq, obL2D_eq]
theorem replicate_tyD2L (n : Nat) (t : DOb) : tyD2L (List.replicate n t) = List.replicate n (obD2L t) := by simp [tyD2L_eq, obD2L_eq]

theorem imageBox_dom_cod (b : Box) : (imageBox b).dom = tyL2D b.dom ∧ (imageBox b).cod = tyL2D b.cod := by
  induction b with
  | gen | word | cup | cap | swap => exact ⟨rfl, rfl⟩
  | spider t n m => exact ⟨(replicate_tyL2D n t).symm, (replicate_tyL2D m t).symm⟩
  | daggered b ih => rw [imageBox, (dom_cod_dagger _).1, (dom_cod_dagger _).2]; exact ⟨ih.2, ih.1⟩

theorem imageBox_dagger (b : Box) : imageBox b.dagger = (imageBox b).dagger := by
  cases b with
  | daggered b => rw [imageBox, ddagger_ddagger]; rfl
  | _ => rfl

/-- Back again: the flag of a cup or cap is the right one. -/
theorem boxD2L_image {b : Box} (h : b.Valid) (s : b.Simple) : boxD2L (imageBox b) = .ok b := by
  have plain : ∀ b : Box, b.Valid → (∀ b', b ≠ .daggered b') → plainD2L (imageBox b) = .ok b := by
    intro b h hn
    cases b with
    | gen n d c z => simp [imageBox, plainD2L, tyD2L_tyL2D]
    | word n c z => simp [imageBox, plainD2L, tyD2L_tyL2D]
    | swap l r => simp [imageBox, plainD2L, obD2L_obL2D]
    | spider t n m => simp [imageBox, plainD2L, obD2L_obL2D]
    | cup l r v =>
      simp only [imageBox, plainD2L, obD2L_obL2D]
      have hv : decide ([l] = Ty.r [r]) = v := by
        cases v <;> simp [Box.Valid, Box.cupAdjoint, Ty.l, Ty.r, Ty.rotate, Ty.rotOb] at h ⊢
        · rw [h]; simp
        · exact h
      rw [hv]
      exact if_pos h
    | cap l r v =>
      simp only [imageBox, plainD2L, obD2L_obL2D]
      have hv : decide ([l] = Ty.l [r]) = v := by
        cases v <;> simp [Box.Valid, Box.capAdjoint, Ty.l, Ty.r, Ty.rotate, Ty.rotOb] at h ⊢
        · rw [h]; simp
        · exact h
      rw [hv]
      exact if_pos h
    | daggered b => exact absurd rfl (hn b)
  cases b with
  | daggered b =>
    have e : imageBox (.daggered b) = (imageBox b).dagger := rfl
    cases b with
    | gen n d c z =>
      rw [boxD2L, e, if_pos (by rfl), ddagger_ddagger, plain (.gen n d c z) trivial (by rintro _ ⟨⟩)]; rfl
    | word n c z =>
      rw [boxD2L, e, if_pos (by rfl), ddagger_ddagger, plain (.word n c z) trivial (by rintro _ ⟨⟩)]; rfl
    | _ => cases s
  | gen n d c z => rw [boxD2L, if_neg (by simp [imageBox, DBox.isDagger])]; exact plain _ h (by rintro _ ⟨⟩)
  | word n c z => rw [boxD2L, if_neg (by simp [imageBox, DBox.isDagger])]; exact plain _ h (by rintro _ ⟨⟩)
  | swap l r => rw [boxD2L, if_neg (by simp [imageBox, DBox.isDagger])]; exact plain _ h (by rintro _ ⟨⟩)
  | spider t n m => rw [boxD2L, if_neg (by simp [imageBox, DBox.isDagger])]; exact plain _ h (by rintro _ ⟨⟩)
  | cup l r v => rw [boxD2L, if_neg (by simp [imageBox, DBox.isDagger])]; exact plain _ h (by rintro _ ⟨⟩)
  | cap l r v => rw [boxD2L, if_neg (by simp [imageBox, DBox.isDagger])]; exact plain _ h (by rintro _ ⟨⟩)

/-! ## The other direction -/

/-- Boxes that DisCoPy can have made: cups and caps of adjoints; words without an input (daggered words without an output). -/
def DBox.Ok : DBox → Prop
  | .cup l r => DAdjoint l r
  | .cap l r => DAdjoint l r
  | .word _ d c _ g => (if g = true then c else d) = []
  | _ => True

/-- The lambeq box. -/
def preBox : DBox → Box
  | .box n d c z false => .gen n (tyD2L d) (tyD2L c) z
  | .box n d c z true => .daggered (.gen n (tyD2L c) (tyD2L d) z)
  | .word n _ c z false => .word n (tyD2L c) z
  | .word n d _ z true => .daggered (.word n (tyD2L d) z)
  | .cup l r => .cup (obD2L l) (obD2L r) (decide (l = r.r))
  | .cap l r => .cap (obD2L l) (obD2L r) (decide (l = r.l))
  | .swap l r => .swap (obD2L l) (obD2L r)
  | .spider n m t => .spider (obD2L t) n m

theorem flag_r (l r : DOb) : decide ([obD2L l] = Ty.r [obD2L r]) = decide (l = r.r) := by
  rw [obD2L_eq, obD2L_eq]
  rcases l with ⟨a, b⟩; rcases r with ⟨c, d⟩
  simp [Ty.r, Ty.rotate, Ty.rotOb, DOb.r]
theorem flag_l (l r : DOb) : decide ([obD2L l] = Ty.l [obD2L r]) = decide (l = r.l) := by
  rw [obD2L_eq, obD2L_eq]
  rcases l with ⟨a, b⟩; rcases r with ⟨c, d⟩
  simp [Ty.l, Ty.rotate, Ty.rotOb, DOb.l, Int.sub_eq_add_neg]

theorem pre_valid {b : DBox} (h : b.Ok) : (preBox b).Valid := by
  cases b with
  | box n d c z g => cases g <;> trivial
  | word n d c z g => cases g <;> trivial
  | swap | spider => trivial
  | cup l r =>
    show Box.cupAdjoint [obD2L l] [obD2L r] (decide (l = r.r)) = true
    rw [Box.cupAdjoint, flag_r]
    by_cases e : l = r.r
    · simp [e]
    · rcases h with h | h
      · rw [if_neg (by simpa using e), flag_l, ← h]; simp [DOb.r, DOb.l]
      · exact absurd h e
  | cap l r =>
    show Box.capAdjoint [obD2L l] [obD2L r] (decide (l = r.l)) = true
    rw [Box.capAdjoint, flag_l]
    by_cases e : l = r.l
    · simp [e]
    · rcases h with h | h
      · exact absurd (by rw [← h]; simp [DOb.r, DOb.l]) e
      · rw [if_neg (by simpa using e), flag_r]; simp [h]

theorem pre_simple (b : DBox) : (preBox b).Simple := by
  cases b with
  | box n d c z g => cases g <;> trivial
  | word n d c z g => cases g <;> trivial
  | _ => trivial

theorem image_pre {b : DBox} (h : b.Ok) : imageBox (preBox b) = b := by
  cases b with
  | box n d c z g => cases g <;> simp [preBox, imageBox, tyL2D_tyD2L, DBox.dagger]
  | word n d c z g => cases g <;> simp [DBox.Ok] at h <;> simp [preBox, imageBox, tyL2D_tyD2L, DBox.dagger, h]
  | cup l r => simp [preBox, imageBox, obL2D_obD2L]
  | cap l r => simp [preBox, imageBox, obL2D_obD2L]
  | swap l r => simp [preBox, imageBox, obL2D_obD2L]
  | spider n m t => simp [preBox, imageBox, obL2D_obD2L]

theorem boxD2L_eq {b : DBox} (h : b.Ok) : boxD2L b = .ok (preBox b) := by
  have := boxD2L_image (pre_valid h) (pre_simple b)
  rwa [image_pre h] at this

theorem pre_dom_cod {b : DBox} (h : b.Ok) : (preBox b).dom = tyD2L b.dom ∧ (preBox b).cod = tyD2L b.cod := by
  have := imageBox_dom_cod (preBox b)
  rw [image_pre h] at this
  rw [this.1, this.2, tyD2L_tyL2D, tyD2L_tyL2D]
  exact ⟨rfl, rfl⟩

end Discopy
end Lambeq
