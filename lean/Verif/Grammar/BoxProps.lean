import Verif.Grammar.Box
import Verif.Grammar.DiagramProps

/-!
# Dagger (C07) and rotation (C08) of diagrams
-/

namespace Lambeq
set_option linter.unusedSimpArgs false

namespace Box

@[simp] theorem sig_dom (b : Box) : BoxSig.dom b = b.dom := rfl
@[simp] theorem sig_cod (b : Box) : BoxSig.cod b = b.cod := rfl

theorem cupAdjoint_atom (l r : Ob) (rev : Bool) :
    cupAdjoint [l] [r] rev = true ↔ l.name = r.name ∧ l.z = r.z + (if rev then 1 else -1) := by
  cases l; cases r; cases rev <;>
    simp [cupAdjoint, Ty.l_singleton, Ty.r_singleton, Ty.rotOb]

theorem capAdjoint_atom (l r : Ob) (rev : Bool) :
    capAdjoint [l] [r] rev = true ↔ l.name = r.name ∧ l.z = r.z + (if rev then -1 else 1) := by
  cases l; cases r; cases rev <;>
    simp [capAdjoint, Ty.l_singleton, Ty.r_singleton, Ty.rotOb]

theorem Valid.dagger {b : Box} (h : b.Valid) : b.dagger.Valid := by
  cases b with
  | cup l r rev =>
    simp only [Box.dagger, Valid, capAdjoint_atom, cupAdjoint_atom] at *
    cases rev <;> simpa using h
  | cap l r rev =>
    simp only [Box.dagger, Valid, capAdjoint_atom, cupAdjoint_atom] at *
    cases rev <;> simpa using h
  | _ => first | exact h | trivial

theorem daggerPy_eq {b : Box} (h : b.Valid) : b.daggerPy = .ok b.dagger := by
  have h' := h.dagger
  cases b with
  | cup l r rev => simp only [Box.dagger, Valid] at h'; simp [daggerPy, atomicCap, h', Box.dagger]
  | cap l r rev => simp only [Box.dagger, Valid] at h'; simp [daggerPy, atomicCup, h', Box.dagger]
  | _ => rfl

theorem Valid.rotate {b : Box} (z : Int) (h : b.Valid) : (b.rotate z).Valid := by
  induction b with
  | cup l r rev =>
    simp only [Box.rotate]
    simp only [Valid, cupAdjoint_atom] at h
    split <;> simp only [Valid, cupAdjoint_atom] <;> cases rev <;> simp [Ty.rotOb] at * <;> grind
  | cap l r rev =>
    simp only [Box.rotate]
    simp only [Valid, capAdjoint_atom] at h
    split <;> simp only [Valid, capAdjoint_atom] <;> cases rev <;> simp [Ty.rotOb] at * <;> grind
  | swap l r => simp only [Box.rotate]; split <;> trivial
  | daggered b ih => exact ih h
  | _ => trivial

theorem rotatePy_eq {b : Box} (z : Int) (h : b.Valid) : b.rotatePy z = .ok (b.rotate z) := by
  induction b with
  | cup l r rev =>
    have h' := h.rotate z
    simp only [Box.rotate] at h' ⊢
    simp only [rotatePy, atomicCup]
    by_cases hz : z % 2 = 1
    · simp only [hz, if_true] at h' ⊢
      have : decide (((if rev then 1 else 0) + z) % 2 = 1) = !rev := by
        cases rev <;> simp <;> omega
      rw [this]; simp only [Valid] at h'; rw [if_pos h']
    · simp only [hz, if_false] at h' ⊢
      have : decide (((if rev then 1 else 0) + z) % 2 = 1) = rev := by
        cases rev <;> simp <;> omega
      rw [this]; simp only [Valid] at h'; rw [if_pos h']
  | cap l r rev =>
    have h' := h.rotate z
    simp only [Box.rotate] at h' ⊢
    simp only [rotatePy, atomicCap]
    by_cases hz : z % 2 = 1
    · simp only [hz, if_true] at h' ⊢
      have : decide (((if rev then 1 else 0) + z) % 2 = 1) = !rev := by
        cases rev <;> simp <;> omega
      rw [this]; simp only [Valid] at h'; rw [if_pos h']
    · simp only [hz, if_false] at h' ⊢
      have : decide (((if rev then 1 else 0) + z) % 2 = 1) = rev := by
        cases rev <;> simp <;> omega
      rw [this]; simp only [Valid] at h'; rw [if_pos h']
  | swap l r => simp only [rotatePy, Box.rotate]; split <;> rfl
  | spider t n m => simp [rotatePy, Box.rotate]
  | daggered b ih => simp [rotatePy, Box.rotate, ih h]
  | _ => rfl

theorem dagger_dom_cod (b : Box) : b.dagger.dom = b.cod ∧ b.dagger.cod = b.dom := by
  cases b <;> simp [dagger, dom, cod]

theorem dagger_dagger {b : Box} (h : b.Simple) : b.dagger.dagger = b := by
  cases b with
  | daggered b => cases b <;> first | rfl | exact absurd h (by simp [Simple])
  | _ => simp [dagger]

theorem Simple.dagger {b : Box} (h : b.Simple) : b.dagger.Simple := by
  cases b with
  | daggered b => cases b <;> first | trivial | exact absurd h (by simp [Simple])
  | _ => simp [Box.dagger, Simple]

theorem rotate_replicate (z : Int) (n : Nat) (t : Ob) :
    Ty.rotate z (List.replicate n t) = List.replicate n (Ty.rotOb z t) := by
  unfold Ty.rotate; split <;> simp

theorem rotate_dom_cod (z : Int) (b : Box) :
    (b.rotate z).dom = Ty.rotate z b.dom ∧ (b.rotate z).cod = Ty.rotate z b.cod := by
  induction b with
  | gen n d c z0 => simp [rotate, dom, cod]
  | word n c z0 => simp [rotate, dom, cod]
  | cup l r rev => by_cases hz : z % 2 = 1 <;> simp [rotate, dom, cod, Ty.rotate, hz]
  | cap l r rev => by_cases hz : z % 2 = 1 <;> simp [rotate, dom, cod, Ty.rotate, hz]
  | swap l r => by_cases hz : z % 2 = 1 <;> simp [rotate, dom, cod, Ty.rotate, hz]
  | spider t n m => simp [rotate, dom, cod, rotate_replicate]
  | daggered b ih => simp [rotate, dom, cod, ih.1, ih.2]

theorem rotate_rotate (m n : Int) (b : Box) : (b.rotate m).rotate n = b.rotate (m + n) := by
  induction b with
  | gen nm d c z0 => simp [rotate, Ty.rotate_rotate, Int.add_assoc]
  | word nm c z0 => simp [rotate, Ty.rotate_rotate, Int.add_assoc]
  | spider t i o => simp [rotate, Ty.rotOb_add]
  | daggered b ih => simp [rotate, ih]
  | cup l r rev =>
    rcases Ty.odd_or_even m with hm | hm <;> rcases Ty.odd_or_even n with hn | hn
    · simp [rotate, hm, hn, show ¬ (m + n) % 2 = 1 by omega, Ty.rotOb_add]
    · simp [rotate, hm, hn, show (m + n) % 2 = 1 by omega, Ty.rotOb_add]
    · simp [rotate, hm, hn, show (m + n) % 2 = 1 by omega, Ty.rotOb_add]
    · simp [rotate, hm, hn, show ¬ (m + n) % 2 = 1 by omega, Ty.rotOb_add]
  | cap l r rev =>
    rcases Ty.odd_or_even m with hm | hm <;> rcases Ty.odd_or_even n with hn | hn
    · simp [rotate, hm, hn, show ¬ (m + n) % 2 = 1 by omega, Ty.rotOb_add]
    · simp [rotate, hm, hn, show (m + n) % 2 = 1 by omega, Ty.rotOb_add]
    · simp [rotate, hm, hn, show (m + n) % 2 = 1 by omega, Ty.rotOb_add]
    · simp [rotate, hm, hn, show ¬ (m + n) % 2 = 1 by omega, Ty.rotOb_add]
  | swap l r =>
    rcases Ty.odd_or_even m with hm | hm <;> rcases Ty.odd_or_even n with hn | hn
    · simp [rotate, hm, hn, show ¬ (m + n) % 2 = 1 by omega, Ty.rotOb_add]
    · simp [rotate, hm, hn, show (m + n) % 2 = 1 by omega, Ty.rotOb_add]
    · simp [rotate, hm, hn, show (m + n) % 2 = 1 by omega, Ty.rotOb_add]
    · simp [rotate, hm, hn, show ¬ (m + n) % 2 = 1 by omega, Ty.rotOb_add]

theorem rotate_zero (b : Box) : b.rotate 0 = b := by
  induction b with
  | daggered b ih => simp [rotate, ih]
  | _ => simp [rotate, Ty.rotOb]

theorem rotate_dagger (z : Int) (b : Box) : (b.rotate z).dagger = b.dagger.rotate z := by
  cases b with
  | cup l r rev => by_cases hz : z % 2 = 1 <;> simp [rotate, dagger, hz]
  | cap l r rev => by_cases hz : z % 2 = 1 <;> simp [rotate, dagger, hz]
  | swap l r => by_cases hz : z % 2 = 1 <;> simp [rotate, dagger, hz]
  | _ => simp [rotate, dagger]

end Box

namespace Diagram

variable {O B : Type} [BoxSig B O]

theorem chain_dagger (bdag : B → B)
    (hb : ∀ b, BoxSig.dom (bdag b) = BoxSig.cod b ∧ BoxSig.cod (bdag b) = BoxSig.dom b)
    {a c : List O} {ls : List (Layer O B)} (h : Chain a ls c) :
    Chain c (ls.reverse.map (fun l => { l with box := bdag l.box })) a := by
  induction ls generalizing a with
  | nil => cases h; rfl
  | cons l ls ih =>
    rw [List.reverse_cons, List.map_append]
    refine (ih h.2).append ?_
    refine ⟨?_, ?_⟩
    · simp [Layer.dom, Layer.cod, (hb l.box).1]
    · rw [← h.1]; simp [Chain, Layer.dom, Layer.cod, (hb l.box).2]

theorem daggerWith_dom_cod (bdag : B → B) (d : Diagram O B) (h : d.WT) :
    (d.daggerWith bdag).dom = d.cod ∧ (d.daggerWith bdag).cod = d.dom
    ∧ (d.daggerWith bdag).layers = d.layers.reverse.map (fun l => { l with box := bdag l.box }) := by
  unfold daggerWith
  cases hl : d.layers with
  | nil =>
    have : d.dom = d.cod := by unfold WT at h; rw [hl] at h; exact h
    simp [hl, this]
  | cons a t => simp

theorem daggerWith_eq (bdag : B → B) (d : Diagram O B) (h : d.WT) :
    d.daggerWith bdag = ⟨d.cod, d.dom, d.layers.reverse.map (fun l => { l with box := bdag l.box })⟩ := by
  have := daggerWith_dom_cod bdag d h
  ext1
  · exact this.1
  · exact this.2.1
  · exact this.2.2

theorem WT.daggerWith (bdag : B → B)
    (hb : ∀ b, BoxSig.dom (bdag b) = BoxSig.cod b ∧ BoxSig.cod (bdag b) = BoxSig.dom b)
    {d : Diagram O B} (h : d.WT) : (d.daggerWith bdag).WT := by
  rw [daggerWith_eq bdag d h]
  exact chain_dagger bdag hb h

end Diagram

open Diagram

namespace GDiagram

theorem wt_dagger {d : GDiagram} (h : d.WT) : d.dagger.WT :=
  WT.daggerWith Box.dagger Box.dagger_dom_cod h

theorem layer_rotate_dom (z : Int) (l : GLayer) :
    (GLayer.rotate z l).dom = Ty.rotate z l.dom ∧ (GLayer.rotate z l).cod = Ty.rotate z l.cod := by
  unfold GLayer.rotate
  have h := Box.rotate_dom_cod z l.box
  split <;> rename_i hz <;>
    simp [Layer.dom, Layer.cod, Ty.rotate_append, hz, h.1, h.2, List.append_assoc]

theorem chain_rotate (z : Int) {a c : Ty} {ls : List GLayer} (h : Chain a ls c) :
    Chain (Ty.rotate z a) (ls.map (GLayer.rotate z)) (Ty.rotate z c) := by
  induction ls generalizing a with
  | nil => cases h; rfl
  | cons l ls ih =>
    refine ⟨?_, ?_⟩
    · rw [(layer_rotate_dom z l).1, h.1]
    · rw [(layer_rotate_dom z l).2]; exact ih h.2

theorem wt_rotate (z : Int) {d : GDiagram} (h : d.WT) : (d.rotate z).WT := chain_rotate z h

theorem mapM_ok {α β : Type} (f : α → Except PyErr β) (g : α → β) (l : List α)
    (h : ∀ a ∈ l, f a = .ok (g a)) : l.mapM f = .ok (l.map g) := by
  induction l with
  | nil => rfl
  | cons a t ih =>
    simp only [List.mapM_cons, h a (by simp), ih (fun b hb => h b (by simp [hb])), List.map_cons]
    rfl

end GDiagram

/-- **C07** Dagger: swaps domain and codomain, keeps well-typedness, reverses composition, is
involutive; and the constructor checks of the daggered cups/caps never raise. -/
theorem C07_dagger (f g : GDiagram) (hf : f.WT) (hg : g.WT) :
    f.dagger.dom = f.cod ∧ f.dagger.cod = f.dom ∧ f.dagger.WT
    ∧ (∀ r : GDiagram, andThen f g = .ok r → andThen g.dagger f.dagger = .ok r.dagger)
    ∧ ((∀ l ∈ f.layers, l.box.Simple) → f.dagger.dagger = f)
    ∧ (f.Valid → f.daggerPy = .ok f.dagger ∧ f.dagger.Valid) := by
  have e := daggerWith_dom_cod Box.dagger f hf
  refine ⟨e.1, e.2.1, GDiagram.wt_dagger hf, ?_, ?_, ?_⟩
  · intro r hr
    have hrw := WT.andThen hf hg hr
    obtain ⟨h1, rfl⟩ := andThen_ok_iff.1 hr
    rw [GDiagram.dagger, GDiagram.dagger, GDiagram.dagger, daggerWith_eq _ _ hf,
      daggerWith_eq _ _ hg, daggerWith_eq _ _ hrw, andThen_eq_ok (by exact h1.symm)]
    simp
  · intro hs
    have hd := GDiagram.wt_dagger hf
    rw [GDiagram.dagger, daggerWith_eq _ _ hd, GDiagram.dagger, e.1, e.2.1, e.2.2]
    rw [← List.map_reverse, List.reverse_reverse, List.map_map]
    have : f.layers.map ((fun l : GLayer => { l with box := l.box.dagger }) ∘
        fun l : GLayer => { l with box := l.box.dagger }) = f.layers := by
      conv => rhs; rw [← List.map_id f.layers]
      apply List.map_congr_left
      intro l hl
      simp [Box.dagger_dagger (hs l hl)]
    simp only [this]
  · intro hv
    constructor
    · unfold GDiagram.daggerPy GDiagram.dagger daggerWith
      split
      · rfl
      · rw [GDiagram.mapM_ok _ (fun l : GLayer => { l with box := l.box.dagger })]
        intro l hl
        rw [Box.daggerPy_eq (hv l (by simpa using hl))]
        rfl
    · intro l hl
      rw [GDiagram.dagger, e.2.2] at hl
      simp only [List.mem_map, List.mem_reverse] at hl
      obtain ⟨l0, h0, rfl⟩ := hl
      exact (hv l0 h0).dagger

/-- **C07** Dagger of a tensor product, up to the interchange law. (Because a diagram is a sequence of
layers, `(f@g).dagger()` puts `g`'s layers first; it equals the other sequentialisation of
`f.dagger() @ g.dagger()`.) -/
theorem C07_dagger_tensor (f g : GDiagram) (hf : f.WT) (hg : g.WT) :
    andThen (tensor (Diagram.id f.cod) g.dagger) (tensor f.dagger (Diagram.id g.dom))
      = .ok (GDiagram.dagger (tensor f g)) := by
  have ef := daggerWith_eq Box.dagger f hf
  have eg := daggerWith_eq Box.dagger g hg
  rw [GDiagram.dagger, GDiagram.dagger, GDiagram.dagger, ef, eg,
    daggerWith_eq _ _ (hf.tensor hg), andThen_eq_ok (by simp [tensor_cod, tensor_dom, Diagram.id])]
  simp [tensor_eq, Diagram.id, Function.comp_def, Layer.extend]

/-- **C08** Rotation is an action of the integers on diagrams, preserves well-typedness, rotates
domain and codomain, commutes with composition and dagger, and never makes a cup or cap fail its
constructor check. -/
theorem C08_rotate (f g : GDiagram) (hf : f.WT) (m n : Int) :
    (f.rotate m).rotate n = f.rotate (m + n) ∧ f.rotate 0 = f
    ∧ (f.rotate (-1)).rotate 1 = f ∧ (f.rotate 1).rotate (-1) = f
    ∧ (f.rotate n).dom = Ty.rotate n f.dom ∧ (f.rotate n).cod = Ty.rotate n f.cod
    ∧ (f.rotate n).WT
    ∧ (∀ r : GDiagram, andThen f g = .ok r → andThen (f.rotate n) (g.rotate n) = .ok (r.rotate n))
    ∧ (f.rotate n).dagger = f.dagger.rotate n
    ∧ (f.Valid → f.rotatePy n = .ok (f.rotate n) ∧ (f.rotate n).Valid) := by
  have hadd : ∀ m n : Int, (f.rotate m).rotate n = f.rotate (m + n) := by
    intro m n
    unfold GDiagram.rotate
    simp only [Ty.rotate_rotate, List.map_map]
    congr 1
    apply List.map_congr_left
    intro l _
    simp only [Function.comp_apply, GLayer.rotate]
    rcases Ty.odd_or_even m with hm | hm <;> rcases Ty.odd_or_even n with hn | hn
    · simp [hm, hn, show ¬ (m + n) % 2 = 1 by omega, Ty.rotate_rotate, Box.rotate_rotate]
    · simp [hm, hn, show (m + n) % 2 = 1 by omega, Ty.rotate_rotate, Box.rotate_rotate]
    · simp [hm, hn, show (m + n) % 2 = 1 by omega, Ty.rotate_rotate, Box.rotate_rotate]
    · simp [hm, hn, show ¬ (m + n) % 2 = 1 by omega, Ty.rotate_rotate, Box.rotate_rotate]
  have h0 : f.rotate 0 = f := by
    unfold GDiagram.rotate
    ext1 <;> simp
    conv => rhs; rw [← List.map_id f.layers]
    apply List.map_congr_left
    intro l _
    simp [GLayer.rotate, Box.rotate_zero]
  refine ⟨hadd m n, h0, by rw [hadd]; exact h0, by rw [hadd]; exact h0, rfl, rfl,
    GDiagram.wt_rotate n hf, ?_, ?_, ?_⟩
  · intro r hr
    obtain ⟨h1, rfl⟩ := andThen_ok_iff.1 hr
    rw [andThen_eq_ok (by simp [GDiagram.rotate, h1])]
    simp [GDiagram.rotate]
  · unfold GDiagram.dagger daggerWith GDiagram.rotate
    cases hl : f.layers with
    | nil => simp [hl]
    | cons a t =>
      simp only [List.map_cons, List.isEmpty_cons, Bool.false_eq_true, if_false]
      congr 1
      rw [← List.map_cons (f := GLayer.rotate n), ← List.map_reverse, List.map_map, List.map_map]
      apply List.map_congr_left
      intro l _
      simp only [Function.comp_apply, GLayer.rotate]
      split <;> simp [Box.rotate_dagger]
  · intro hv
    constructor
    · unfold GDiagram.rotatePy
      rw [GDiagram.mapM_ok _ (GLayer.rotate n)]
      · rfl
      · intro l hl
        rw [Box.rotatePy_eq n (hv l hl)]
        simp only [Except.map, GLayer.rotate]
    · intro l hl
      simp only [GDiagram.rotate, List.mem_map] at hl
      obtain ⟨l0, h0, rfl⟩ := hl
      have := (hv l0 h0).rotate n
      simp only [GLayer.rotate]
      split <;> exact this

/-- Non-vacuity for C05-C10: a snake `n -> n` is well typed, valid and simple. -/
def snakeExample : GDiagram :=
  ⟨[⟨"n", 0⟩], [⟨"n", 0⟩],
    [⟨[⟨"n", 0⟩], .cap ⟨"n", 1⟩ ⟨"n", 0⟩ false, []⟩, ⟨[], .cup ⟨"n", 0⟩ ⟨"n", 1⟩ false, [⟨"n", 0⟩]⟩]⟩

example : snakeExample.WT ∧ snakeExample.Valid ∧ (∀ l ∈ snakeExample.layers, l.box.Simple)
    ∧ snakeExample.rotate 1 ≠ snakeExample ∧ snakeExample.dagger ≠ snakeExample := by
  refine ⟨by decide, ?_, ?_, by decide, by decide⟩
  · intro l hl
    simp [snakeExample] at hl
    rcases hl with rfl | rfl <;> (simp only [Box.Valid]; decide)
  · intro l hl
    simp [snakeExample] at hl
    rcases hl with rfl | rfl <;> trivial

/-- **C10 refuted**: a partial reverse slice of a well-typed diagram is ill typed, because
grammar.py:1003 uses the full `cod`/`dom` of the diagram. Here `d[0::-1]` of a two-layer diagram. -/
theorem C10_partial_reverse_refuted :
    ∃ d : GDiagram, d.WT ∧ d.Valid ∧ ¬ (d.sliceRevWith Box.dagger (some 0) none).WT := by
  refine ⟨snakeExample, by decide, ?_, by decide⟩
  intro l hl
  simp [snakeExample] at hl
  rcases hl with rfl | rfl <;> (simp only [Box.Valid]; decide)

end Lambeq
