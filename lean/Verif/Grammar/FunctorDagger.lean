import Verif.Grammar.FunctorProps

/-!
# Functors, dagger and rotation: C19
-/

namespace Lambeq
set_option linter.unusedSimpArgs false
open Diagram

/-- Cups, caps, swaps and spiders (also under a dagger). -/
def Box.Structural : Box → Prop
  | .gen _ _ _ _ => False
  | .word _ _ _ => False
  | .daggered b => Box.Structural b
  | _ => True

namespace GDiagram

theorem mkCup_small {a b : Ty} {rev : Bool} {d : GDiagram} (hl : a.length ≤ 1) (h : mkCup a b rev = .ok d) :
    (a = [] ∧ b = [] ∧ d = Diagram.id []) ∨
    (∃ l r, a = [l] ∧ b = [r] ∧ Box.cupAdjoint [l] [r] rev = true ∧ d = ofBox (.cup l r rev)) := by
  cases rev with
  | true => exact mkCup_true_cases h
  | false =>
    by_cases hab : a = Ty.l b
    · have hlen : a.length = b.length := by rw [hab]; simp
      rcases a with _ | ⟨x, _ | ⟨x', a⟩⟩
      · have hb : b = [] := List.eq_nil_of_length_eq_zero (by simpa using hlen.symm)
        subst hb
        refine Or.inl ⟨rfl, rfl, ?_⟩
        have : (Except.ok (Diagram.id []) : Except PyErr GDiagram) = .ok d := by rw [← h]; rfl
        injection this with this; exact this.symm
      · obtain ⟨y, rfl⟩ := List.length_eq_one_iff.1 hlen.symm
        have hc : Box.cupAdjoint [x] [y] false = true := by simpa [Box.cupAdjoint] using hab
        refine Or.inr ⟨x, y, rfl, rfl, hc, ?_⟩
        simp [mkCup, Box.atomicCup, hc, Except.map] at h
        exact h.symm
      · simp at hl
    · rw [(C13_cups a b).1 hab] at h; simp at h

theorem mkCap_small {a b : Ty} {rev : Bool} {d : GDiagram} (hl : a.length ≤ 1) (h : mkCap a b rev = .ok d) :
    (a = [] ∧ b = [] ∧ d = Diagram.id []) ∨
    (∃ l r, a = [l] ∧ b = [r] ∧ Box.capAdjoint [l] [r] rev = true ∧ d = ofBox (.cap l r rev)) := by
  cases rev with
  | true => exact mkCap_true_cases h
  | false =>
    by_cases hab : a = Ty.r b
    · have hlen : a.length = b.length := by rw [hab]; simp
      rcases a with _ | ⟨x, _ | ⟨x', a⟩⟩
      · have hb : b = [] := List.eq_nil_of_length_eq_zero (by simpa using hlen.symm)
        subst hb
        refine Or.inl ⟨rfl, rfl, ?_⟩
        have : (Except.ok (Diagram.id []) : Except PyErr GDiagram) = .ok d := by rw [← h]; rfl
        injection this with this; exact this.symm
      · obtain ⟨y, rfl⟩ := List.length_eq_one_iff.1 hlen.symm
        have hc : Box.capAdjoint [x] [y] false = true := by simpa [Box.capAdjoint] using hab
        refine Or.inr ⟨x, y, rfl, rfl, hc, ?_⟩
        simp [mkCap, Box.atomicCap, hc, Except.map] at h
        exact h.symm
      · simp at hl
    · rw [(C13_caps a b).1 hab] at h; simp at h

theorem mkCup_atom {x y : Ob} {rev : Bool} (h : Box.cupAdjoint [x] [y] rev = true) :
    mkCup [x] [y] rev = .ok (ofBox (.cup x y rev)) := by
  simp [mkCup, Box.atomicCup, h, Except.map]

theorem mkCap_atom {x y : Ob} {rev : Bool} (h : Box.capAdjoint [x] [y] rev = true) :
    mkCap [x] [y] rev = .ok (ofBox (.cap x y rev)) := by
  simp [mkCap, Box.atomicCap, h, Except.map]

theorem mkSpider_nil (m n : Nat) : GDiagram.mkSpider [] m n = .ok (Diagram.id []) := by
  unfold GDiagram.mkSpider
  simp only [List.length_nil, Nat.zero_mul]
  have q1 : GDiagram.strideList 0 0 = [] := rfl
  have q2 : GDiagram.strideList n 0 = [] := by
    have := GDiagram.strideList_eq n 0
    simp only [Nat.mul_zero] at this
    rw [this]; simp [grid]
  have q3 : Ty.rep [] m = [] := by simp [Ty.rep]
  rw [q1, q2, q3]
  rfl

theorem dagger_ofBox (b : Box) : GDiagram.dagger (ofBox b) = ofBox b.dagger := by
  have := Box.dagger_dom_cod b
  simp [GDiagram.dagger, daggerWith, ofBox, this.1, this.2]

theorem rotate_ofBox (z : Int) (b : Box) : GDiagram.rotate z (ofBox b) = ofBox (b.rotate z) := by
  have := Box.rotate_dom_cod z b
  simp [GDiagram.rotate, ofBox, GLayer.rotate, this.1, this.2]

theorem dagger_id (t : Ty) : GDiagram.dagger (Diagram.id t) = Diagram.id t := rfl
theorem rotate_id (z : Int) (t : Ty) : GDiagram.rotate z (Diagram.id t) = Diagram.id (Ty.rotate z t) := rfl

theorem dagger_layers {d : GDiagram} (h : d.WT) :
    (GDiagram.dagger d).layers = d.layers.reverse.map (fun l => { l with box := l.box.dagger }) :=
  (daggerWith_dom_cod Box.dagger d h).2.2

end GDiagram

namespace Functor
variable (F : Functor)

/-- The user's `ar` returns diagrams whose daggered boxes come from the `dagger` method. -/
def ArSimple : Prop := ∀ b r, F.ar b = .ok r → ∀ l ∈ r.layers, l.box.Simple

/-- Every atomic type is mapped to at most one wire. -/
def ObAtomic : Prop := ∀ n, (F.ob n).length ≤ 1

theorem obAtom_length (o : Ob) : (F.obAtom o).length = (F.ob o.name).length := by
  rw [obAtom_eq]; simp

theorem rotatePy_ok {d : GDiagram} (hw : d.WT) (hv : d.Valid) (z : Int) :
    d.rotatePy z = .ok (d.rotate z) :=
  ((C08_rotate d d hw z z).2.2.2.2.2.2.2.2.2 hv).1

/-- Characterisation of the image of a plain box of any winding number. -/
theorem onBox_gen (hF : F.ArWF) (n : String) (d c : Ty) (z : Int) (r : GDiagram) :
    F.onBox (.gen n d c z) = .ok r ↔
      ∃ r0, F.ar (.gen n (Ty.rotate (-z) d) (Ty.rotate (-z) c) 0) = .ok r0
        ∧ r0.dom = F.onTy (Ty.rotate (-z) d) ∧ r0.cod = F.onTy (Ty.rotate (-z) c)
        ∧ r = r0.rotate z := by
  simp only [onBox, bind_ok_iff]
  by_cases hz : z = 0
  · subst hz
    simp only [ne_eq, not_true_eq_false, if_false, Int.neg_zero, Ty.rotate_zero]
    constructor
    · rintro ⟨a, h1, h2⟩
      obtain ⟨rfl, h3, h4⟩ := F.check_ok_iff.1 h2
      exact ⟨a, h1, h3, h4, ((C08_rotate a a (hF _ _ h1 trivial).1 0 0).2.1).symm⟩
    · rintro ⟨r0, h1, h2, h3, rfl⟩
      rw [(C08_rotate r0 r0 (hF _ _ h1 trivial).1 0 0).2.1]
      exact ⟨r0, h1, F.check_ok_iff.2 ⟨rfl, h2, h3⟩⟩
  · simp only [ne_eq, hz, not_false_eq_true, if_true, bind_ok_iff]
    rw [show z + -z = 0 by omega]
    constructor
    · rintro ⟨a, ⟨r0, h1, h2⟩, h3⟩
      obtain ⟨e1, e2, e3⟩ := F.onBox0_ok h1
      obtain ⟨rfl, _⟩ := F.check_ok_iff.1 h3
      obtain ⟨w, v⟩ := hF _ _ e1 trivial
      rw [rotatePy_ok w v] at h2
      injection h2 with h2
      exact ⟨r0, e1, e2, e3, h2.symm⟩
    · rintro ⟨r0, h1, h2, h3, rfl⟩
      obtain ⟨w, v⟩ := hF _ _ h1 trivial
      refine ⟨r0.rotate z, ⟨r0, ?_, rotatePy_ok w v z⟩, ?_⟩
      · simp only [onBox0, bind_ok_iff]
        exact ⟨r0, h1, F.check_ok_iff.2 ⟨rfl, h2, h3⟩⟩
      · rw [check_ok_iff]
        refine ⟨rfl, ?_, ?_⟩
        · simp only [GDiagram.rotate, h2]; rw [F.onTy_rotate, Ty.rotate_rotate, show -z + z = 0 by omega, Ty.rotate_zero]
        · simp only [GDiagram.rotate, h3]; rw [F.onTy_rotate, Ty.rotate_rotate, show -z + z = 0 by omega, Ty.rotate_zero]

theorem onBox_word (hF : F.ArWF) (n : String) (c : Ty) (z : Int) (r : GDiagram) :
    F.onBox (.word n c z) = .ok r ↔
      ∃ r0, F.ar (.word n (Ty.rotate (-z) c) 0) = .ok r0
        ∧ r0.dom = [] ∧ r0.cod = F.onTy (Ty.rotate (-z) c)
        ∧ r = r0.rotate z := by
  simp only [onBox, bind_ok_iff]
  by_cases hz : z = 0
  · subst hz
    simp only [ne_eq, not_true_eq_false, if_false, Int.neg_zero, Ty.rotate_zero]
    constructor
    · rintro ⟨a, h1, h2⟩
      obtain ⟨rfl, h3, h4⟩ := F.check_ok_iff.1 h2
      exact ⟨a, h1, h3, h4, ((C08_rotate a a (hF _ _ h1 trivial).1 0 0).2.1).symm⟩
    · rintro ⟨r0, h1, h2, h3, rfl⟩
      rw [(C08_rotate r0 r0 (hF _ _ h1 trivial).1 0 0).2.1]
      exact ⟨r0, h1, F.check_ok_iff.2 ⟨rfl, h2, h3⟩⟩
  · simp only [ne_eq, hz, not_false_eq_true, if_true, bind_ok_iff]
    rw [show z + -z = 0 by omega]
    constructor
    · rintro ⟨a, ⟨r0, h1, h2⟩, h3⟩
      obtain ⟨e1, e2, e3⟩ := F.onBox0_ok h1
      obtain ⟨rfl, _⟩ := F.check_ok_iff.1 h3
      obtain ⟨w, v⟩ := hF _ _ e1 trivial
      rw [rotatePy_ok w v] at h2
      injection h2 with h2
      exact ⟨r0, e1, e2, e3, h2.symm⟩
    · rintro ⟨r0, h1, h2, h3, rfl⟩
      obtain ⟨w, v⟩ := hF _ _ h1 trivial
      refine ⟨r0.rotate z, ⟨r0, ?_, rotatePy_ok w v z⟩, ?_⟩
      · simp only [onBox0, bind_ok_iff]
        exact ⟨r0, h1, F.check_ok_iff.2 ⟨rfl, h2, h3⟩⟩
      · rw [check_ok_iff]
        refine ⟨rfl, ?_, ?_⟩
        · simp only [GDiagram.rotate, h2]; simp
        · simp only [GDiagram.rotate, h3]; rw [F.onTy_rotate, Ty.rotate_rotate, show -z + z = 0 by omega, Ty.rotate_zero]

theorem onBox_daggered (hF : F.ArWF) (b : Box) {r : GDiagram} (h : F.onBox b = .ok r) :
    F.onBox (.daggered b) = .ok r.dagger := by
  obtain ⟨w, v⟩ := F.onBox_wf hF h
  obtain ⟨t1, t2⟩ := F.onBox_type h
  simp only [onBox, h, ok_bind, (GDiagram.daggerPy_ok w v).1]
  have := daggerWith_dom_cod Box.dagger r w
  exact F.check_ok_iff.2 ⟨rfl, by rw [← t2]; exact this.1, by rw [← t1]; exact this.2.1⟩

theorem onBox_daggered_inv (hF : F.ArWF) (b : Box) {r : GDiagram} (h : F.onBox (.daggered b) = .ok r) :
    ∃ r', F.onBox b = .ok r' ∧ r = r'.dagger := by
  simp only [onBox, bind_ok_iff] at h
  obtain ⟨a, h1, a', h2, h3⟩ := h
  obtain ⟨rfl, _⟩ := F.check_ok_iff.1 h3
  obtain ⟨w, v⟩ := F.onBox_wf hF h1
  rw [(GDiagram.daggerPy_ok w v).1] at h2
  injection h2 with h2
  exact ⟨a, h1, h2.symm⟩

/-- Rotation keeps boxes simple. -/
theorem simple_rotate {b : Box} (z : Int) (h : b.Simple) : (b.rotate z).Simple := by
  cases b with
  | daggered b => cases b <;> trivial
  | cup l r rev => simp only [Box.rotate]; split <;> trivial
  | cap l r rev => simp only [Box.rotate]; split <;> trivial
  | swap l r => simp only [Box.rotate]; split <;> trivial
  | _ => trivial

theorem simple_rotate_d {d : GDiagram} (z : Int) (h : ∀ l ∈ d.layers, l.box.Simple) :
    ∀ l ∈ (d.rotate z).layers, l.box.Simple := by
  intro l hl
  obtain ⟨l0, h0, rfl⟩ := List.mem_map.1 hl
  have : (GLayer.rotate z l0).box = l0.box.rotate z := by unfold GLayer.rotate; split <;> rfl
  rw [this]; exact simple_rotate z (h l0 h0)

/-- Images of boxes and words commute with dagger; images of structural boxes do if types stay atomic. -/
theorem onBox_dagger (hF : F.ArWF) (hS : F.ArSimple) {b : Box} (hb : b.Simple)
    (hst : F.ObAtomic ∨ ¬ b.Structural) {r : GDiagram} (h : F.onBox b = .ok r) :
    F.onBox b.dagger = .ok r.dagger := by
  have hat : ∀ o, b.Structural → (F.onTy [o]).length ≤ 1 := by
    intro o hs
    rcases hst with h1 | h1
    · rw [onTy_singleton, obAtom_length]; exact h1 _
    · exact absurd hs h1
  cases b with
  | gen n d c z => exact F.onBox_daggered hF _ h
  | word n c z => exact F.onBox_daggered hF _ h
  | cup l r' rev =>
    simp only [onBox, bind_ok_iff] at h
    obtain ⟨a, h1, h2⟩ := h
    obtain ⟨rfl, t1, t2⟩ := F.check_ok_iff.1 h2
    simp only [Box.dagger, onBox]
    rcases GDiagram.mkCup_small (hat l trivial) h1 with ⟨e1, e2, rfl⟩ | ⟨x, y, e1, e2, e3, rfl⟩
    · rw [e1, e2]
      have : GDiagram.mkCap [] [] (!rev) = .ok (Diagram.id []) := by cases rev <;> rfl
      rw [this, ok_bind, check_ok_iff]
      exact ⟨rfl, t2, t1⟩
    · rw [e1, e2]
      have hv : (Box.cup x y rev).Valid := e3
      have hv' := hv.dagger
      rw [GDiagram.mkCap_atom hv', ok_bind, check_ok_iff, GDiagram.dagger_ofBox]
      exact ⟨rfl, t2, t1⟩
  | cap l r' rev =>
    simp only [onBox, bind_ok_iff] at h
    obtain ⟨a, h1, h2⟩ := h
    obtain ⟨rfl, t1, t2⟩ := F.check_ok_iff.1 h2
    simp only [Box.dagger, onBox]
    rcases GDiagram.mkCap_small (hat l trivial) h1 with ⟨e1, e2, rfl⟩ | ⟨x, y, e1, e2, e3, rfl⟩
    · rw [e1, e2]
      have : GDiagram.mkCup [] [] (!rev) = .ok (Diagram.id []) := by cases rev <;> rfl
      rw [this, ok_bind, check_ok_iff]
      exact ⟨rfl, t2, t1⟩
    · rw [e1, e2]
      have hv : (Box.cap x y rev).Valid := e3
      have hv' := hv.dagger
      rw [GDiagram.mkCup_atom hv', ok_bind, check_ok_iff, GDiagram.dagger_ofBox]
      exact ⟨rfl, t2, t1⟩
  | swap l r' =>
    simp only [onBox, bind_ok_iff] at h
    obtain ⟨a, h1, h2⟩ := h
    obtain ⟨rfl, t1, t2⟩ := F.check_ok_iff.1 h2
    simp only [Box.dagger, onBox]
    have hl := hat l trivial
    have hr := hat r' trivial
    generalize hA : F.onTy [l] = A at *
    generalize hB : F.onTy [r'] = B at *
    have key : GDiagram.mkSwap B A = .ok a.dagger := by
      rcases A with _ | ⟨x, _ | ⟨x', A⟩⟩ <;> rcases B with _ | ⟨y, _ | ⟨y', B⟩⟩ <;>
        first
          | (simp at hl; done)
          | (simp at hr; done)
          | (have : a = _ := (Except.ok.inj h1).symm
             subst this
             rfl)
    rw [key, ok_bind, check_ok_iff]
    refine ⟨rfl, ?_, ?_⟩
    · rw [← t2]; exact (daggerWith_dom_cod Box.dagger a (GDiagram.mkSwap_wf h1).1).1
    · rw [← t1]; exact (daggerWith_dom_cod Box.dagger a (GDiagram.mkSwap_wf h1).1).2.1
  | spider t i o =>
    simp only [onBox, bind_ok_iff] at h
    obtain ⟨a, h1, h2⟩ := h
    obtain ⟨rfl, t1, t2⟩ := F.check_ok_iff.1 h2
    simp only [Box.dagger, onBox]
    have hl := hat t trivial
    have key : GDiagram.mkSpider (F.onTy [t]) o i = .ok a.dagger := by
      generalize F.onTy [t] = A at *
      rcases A with _ | ⟨x, _ | ⟨x', A⟩⟩
      · rw [GDiagram.mkSpider_nil] at h1 ⊢
        injection h1 with h1; subst h1; rfl
      · have : a = _ := (Except.ok.inj h1).symm
        subst this
        rfl
      · simp at hl
    rw [key, ok_bind, check_ok_iff]
    refine ⟨rfl, ?_, ?_⟩
    · rw [← t2]; exact (daggerWith_dom_cod Box.dagger a (GDiagram.mkSpider_wf h1).1).1
    · rw [← t1]; exact (daggerWith_dom_cod Box.dagger a (GDiagram.mkSpider_wf h1).1).2.1
  | daggered b =>
    obtain ⟨r', h1, rfl⟩ := F.onBox_daggered_inv hF b h
    simp only [Box.dagger]
    obtain ⟨w, v⟩ := F.onBox_wf hF h1
    have hs : ∀ l ∈ r'.layers, l.box.Simple := by
      cases b with
      | gen n d c z =>
        obtain ⟨r0, e1, _, _, rfl⟩ := (F.onBox_gen hF n d c z r').1 h1
        exact simple_rotate_d z (hS _ _ e1)
      | word n c z =>
        obtain ⟨r0, e1, _, _, rfl⟩ := (F.onBox_word hF n c z r').1 h1
        exact simple_rotate_d z (hS _ _ e1)
      | _ => exact absurd hb (by simp [Box.Simple])
    rw [(C07_dagger r' r' w w).2.2.2.2.1 hs]
    exact h1

theorem dagger_extend (a b : Ty) (l : GLayer) :
    ({ Layer.extend a b l with box := (Layer.extend a b l).box.dagger } : GLayer)
      = Layer.extend a b { l with box := l.box.dagger } := rfl

theorem layersImage_dagger (hF : F.ArWF) (ls : List GLayer)
    (hb : ∀ l ∈ ls, ∀ r, F.onBox l.box = .ok r → F.onBox l.box.dagger = .ok r.dagger)
    {out : List GLayer} (h : F.layersImage ls = .ok out) :
    F.layersImage (ls.reverse.map (fun l => { l with box := l.box.dagger })) =
      .ok (out.reverse.map (fun l => { l with box := l.box.dagger })) := by
  induction ls generalizing out with
  | nil =>
    have : out = [] := by simpa [layersImage] using h.symm
    subst this; rfl
  | cons l ls ih =>
    simp only [layersImage, bind_ok_iff] at h
    obtain ⟨x, h1, y, h2, h3⟩ := h
    injection h3 with h3; subst h3
    unfold layerImage at h1
    cases hb1 : F.onBox l.box with
    | error e => rw [hb1] at h1; simp [Except.map] at h1
    | ok r =>
      rw [hb1] at h1
      have h1 : r.layers.map (Layer.extend (F.onTy l.left) (F.onTy l.right)) = x := by
        simpa [Except.map] using h1
      subst h1
      have hd := hb l (by simp) r hb1
      obtain ⟨w, v⟩ := F.onBox_wf hF hb1
      rw [List.reverse_cons, List.map_append, F.layersImage_append,
        ih (fun l hl => hb l (by simp [hl])) h2, ok_bind]
      simp only [List.map_cons, List.map_nil, layersImage, layerImage, hd, Except.map, ok_bind, List.append_nil]
      rw [GDiagram.dagger_layers w]
      simp only [List.reverse_append, List.map_append, List.map_map, ← List.map_reverse, Function.comp_def,
        dagger_extend]

/-- **C19 (dagger).** If `F(d) = r` then `F(d.dagger()) = r.dagger()`, for well-typed `d` and a
well-formed user map, provided `d` has no cups, caps, swaps or spiders, or every atomic type is mapped to
at most one wire. (`_partial`: without the proviso the equation fails, see below.) -/
theorem C19_dagger_partial (hF : F.ArWF) (hS : F.ArSimple) (d r : GDiagram) (hd : d.WT)
    (hs : ∀ l ∈ d.layers, l.box.Simple)
    (hst : F.ObAtomic ∨ ∀ l ∈ d.layers, ¬ l.box.Structural)
    (h : F.onDiagram d = .ok r) : F.onDiagram d.dagger = .ok r.dagger := by
  have hw := GDiagram.wt_dagger hd
  obtain ⟨_, _, hwf⟩ := F.C17_arrows d r h
  obtain ⟨rw1, _⟩ := hwf hd hF
  rw [F.onDiagram_eq hd] at h
  cases ho : F.layersImage d.layers with
  | error e => rw [ho] at h; simp [Except.map] at h
  | ok out =>
    rw [ho] at h
    have h : (⟨F.onTy d.dom, F.onTy d.cod, out⟩ : GDiagram) = r := by simpa [Except.map] using h
    rw [F.onDiagram_eq hw]
    have e := daggerWith_dom_cod Box.dagger d hd
    have e' : d.dagger = d.daggerWith Box.dagger := rfl
    rw [e', e.1, e.2.1, e.2.2, F.layersImage_dagger hF d.layers ?_ ho]
    · have e2 := daggerWith_eq Box.dagger r rw1
      rw [show r.dagger = r.daggerWith Box.dagger from rfl, e2, ← h]; rfl
    · intro l hl r' hr'
      refine F.onBox_dagger hF hS (hs l hl) ?_ hr'
      rcases hst with h1 | h1
      · exact Or.inl h1
      · exact Or.inr (h1 l hl)

/-! ### Rotation -/

theorem rot_single (z : Int) (o : Ob) : Ty.rotate z [o] = [Ty.rotOb z o] := by
  unfold Ty.rotate; split <;> simp

theorem check_rotate (z : Int) {b : Box} {r : GDiagram} (h : r.dom = F.onTy b.dom ∧ r.cod = F.onTy b.cod) :
    F.check (b.rotate z).dom (b.rotate z).cod (r.rotate z) = .ok (r.rotate z) := by
  have := Box.rotate_dom_cod z b
  rw [check_ok_iff, this.1, this.2, F.onTy_rotate, F.onTy_rotate, ← h.1, ← h.2]
  exact ⟨rfl, rfl, rfl⟩

theorem onBox_rotate (hF : F.ArWF) {b : Box} (z : Int)
    (hst : F.ObAtomic ∨ ¬ b.Structural) {r : GDiagram} (h : F.onBox b = .ok r) :
    F.onBox (b.rotate z) = .ok (r.rotate z) := by
  have rt : ∀ (o : Ob), F.onTy [Ty.rotOb z o] = Ty.rotate z (F.onTy [o]) := by
    intro o; rw [onTy_singleton, onTy_singleton, obAtom_rot]
  induction b generalizing r with
  | gen n d c z0 =>
    obtain ⟨r0, e1, e2, e3, rfl⟩ := (F.onBox_gen hF n d c z0 r).1 h
    have w := (hF _ _ e1 trivial).1
    simp only [Box.rotate]
    rw [F.onBox_gen hF]
    refine ⟨r0, ?_, ?_, ?_, ?_⟩
    · rw [Ty.rotate_rotate, Ty.rotate_rotate, show z + -(z0 + z) = -z0 by omega]; exact e1
    · rw [Ty.rotate_rotate, show z + -(z0 + z) = -z0 by omega]; exact e2
    · rw [Ty.rotate_rotate, show z + -(z0 + z) = -z0 by omega]; exact e3
    · exact (C08_rotate r0 r0 w z0 z).1
  | word n c z0 =>
    obtain ⟨r0, e1, e2, e3, rfl⟩ := (F.onBox_word hF n c z0 r).1 h
    have w := (hF _ _ e1 trivial).1
    simp only [Box.rotate]
    rw [F.onBox_word hF]
    refine ⟨r0, ?_, e2, ?_, ?_⟩
    · rw [Ty.rotate_rotate, show z + -(z0 + z) = -z0 by omega]; exact e1
    · rw [Ty.rotate_rotate, show z + -(z0 + z) = -z0 by omega]; exact e3
    · exact (C08_rotate r0 r0 w z0 z).1
  | daggered b ih =>
    obtain ⟨r', h1, rfl⟩ := F.onBox_daggered_inv hF b h
    have := ih hst h1
    have w := (F.onBox_wf hF h1).1
    rw [← (C08_rotate r' r' w z z).2.2.2.2.2.2.2.2.1]
    exact F.onBox_daggered hF _ this
  | cup l r' rev =>
    have hat : ∀ o, (F.onTy [o]).length ≤ 1 := by
      intro o; rw [onTy_singleton, obAtom_length]
      exact hst.elim (fun h => h _) (fun h => absurd trivial h)
    have hty := F.check_rotate z (F.onBox_type h)
    simp only [onBox, bind_ok_iff] at h
    obtain ⟨a, h1, h2⟩ := h
    obtain ⟨rfl, t1, t2⟩ := F.check_ok_iff.1 h2
    have key : (if z % 2 = 1 then GDiagram.mkCup (Ty.rotate z (F.onTy [r'])) (Ty.rotate z (F.onTy [l])) (!rev)
        else GDiagram.mkCup (Ty.rotate z (F.onTy [l])) (Ty.rotate z (F.onTy [r'])) rev) = .ok (a.rotate z) := by
      rcases GDiagram.mkCup_small (hat l) h1 with ⟨e1, e2, rfl⟩ | ⟨x, y, e1, e2, e3, rfl⟩
      · have k : ∀ v, GDiagram.mkCup [] [] v = .ok (Diagram.id []) := by intro v; cases v <;> rfl
        rw [e1, e2]; simp only [Ty.rotate_nil, k, GDiagram.rotate_id]; split <;> rfl
      · have hv : (Box.cup x y rev).Valid := e3
        have hv' := hv.rotate z
        rw [GDiagram.rotate_ofBox, e1, e2, rot_single, rot_single]
        by_cases hz : z % 2 = 1
        · simp only [Box.rotate, hz, if_true] at hv' ⊢
          exact GDiagram.mkCup_atom hv'
        · simp only [Box.rotate, hz, if_false] at hv' ⊢
          exact GDiagram.mkCup_atom hv'
    by_cases hz : z % 2 = 1
    · rw [if_pos hz] at key
      simp only [Box.rotate, hz, if_true] at hty ⊢
      simp only [onBox, rt, key, ok_bind]; exact hty
    · rw [if_neg hz] at key
      simp only [Box.rotate, hz, if_false] at hty ⊢
      simp only [onBox, rt, key, ok_bind]; exact hty
  | cap l r' rev =>
    have hat : ∀ o, (F.onTy [o]).length ≤ 1 := by
      intro o; rw [onTy_singleton, obAtom_length]
      exact hst.elim (fun h => h _) (fun h => absurd trivial h)
    have hty := F.check_rotate z (F.onBox_type h)
    simp only [onBox, bind_ok_iff] at h
    obtain ⟨a, h1, h2⟩ := h
    obtain ⟨rfl, t1, t2⟩ := F.check_ok_iff.1 h2
    have key : (if z % 2 = 1 then GDiagram.mkCap (Ty.rotate z (F.onTy [r'])) (Ty.rotate z (F.onTy [l])) (!rev)
        else GDiagram.mkCap (Ty.rotate z (F.onTy [l])) (Ty.rotate z (F.onTy [r'])) rev) = .ok (a.rotate z) := by
      rcases GDiagram.mkCap_small (hat l) h1 with ⟨e1, e2, rfl⟩ | ⟨x, y, e1, e2, e3, rfl⟩
      · have k : ∀ v, GDiagram.mkCap [] [] v = .ok (Diagram.id []) := by intro v; cases v <;> rfl
        rw [e1, e2]; simp only [Ty.rotate_nil, k, GDiagram.rotate_id]; split <;> rfl
      · have hv : (Box.cap x y rev).Valid := e3
        have hv' := hv.rotate z
        rw [GDiagram.rotate_ofBox, e1, e2, rot_single, rot_single]
        by_cases hz : z % 2 = 1
        · simp only [Box.rotate, hz, if_true] at hv' ⊢
          exact GDiagram.mkCap_atom hv'
        · simp only [Box.rotate, hz, if_false] at hv' ⊢
          exact GDiagram.mkCap_atom hv'
    by_cases hz : z % 2 = 1
    · rw [if_pos hz] at key
      simp only [Box.rotate, hz, if_true] at hty ⊢
      simp only [onBox, rt, key, ok_bind]; exact hty
    · rw [if_neg hz] at key
      simp only [Box.rotate, hz, if_false] at hty ⊢
      simp only [onBox, rt, key, ok_bind]; exact hty
  | swap l r' =>
    have hat : ∀ o, (F.onTy [o]).length ≤ 1 := by
      intro o; rw [onTy_singleton, obAtom_length]
      exact hst.elim (fun h => h _) (fun h => absurd trivial h)
    have hty := F.check_rotate z (F.onBox_type h)
    simp only [onBox, bind_ok_iff] at h
    obtain ⟨a, h1, h2⟩ := h
    obtain ⟨rfl, t1, t2⟩ := F.check_ok_iff.1 h2
    have hl := hat l
    have hr := hat r'
    have key : (if z % 2 = 1 then GDiagram.mkSwap (Ty.rotate z (F.onTy [r'])) (Ty.rotate z (F.onTy [l]))
        else GDiagram.mkSwap (Ty.rotate z (F.onTy [l])) (Ty.rotate z (F.onTy [r']))) = .ok (a.rotate z) := by
      clear t1 t2 h2 hty
      generalize F.onTy [l] = A at *
      generalize F.onTy [r'] = B at *
      rcases A with _ | ⟨x, _ | ⟨x', A⟩⟩ <;> rcases B with _ | ⟨y, _ | ⟨y', B⟩⟩ <;>
        first
          | (simp at hl; done)
          | (simp at hr; done)
          | (obtain rfl := Except.ok.inj h1
             simp only [rot_single, Ty.rotate_nil]
             by_cases hz : z % 2 = 1 <;> simp [hz, GDiagram.rotate, GLayer.rotate,
               Box.rotate, ofBox, Box.dom, Box.cod, Diagram.id, rot_single, Ty.rotate, GDiagram.mkSwap] <;> rfl)
    by_cases hz : z % 2 = 1
    · rw [if_pos hz] at key
      simp only [Box.rotate, hz, if_true] at hty ⊢
      simp only [onBox, rt, key, ok_bind]; exact hty
    · rw [if_neg hz] at key
      simp only [Box.rotate, hz, if_false] at hty ⊢
      simp only [onBox, rt, key, ok_bind]; exact hty
  | spider t i o =>
    have hat : ∀ o, (F.onTy [o]).length ≤ 1 := by
      intro o; rw [onTy_singleton, obAtom_length]
      exact hst.elim (fun h => h _) (fun h => absurd trivial h)
    have hty := F.check_rotate z (F.onBox_type h)
    simp only [onBox, bind_ok_iff] at h
    obtain ⟨a, h1, h2⟩ := h
    obtain ⟨rfl, t1, t2⟩ := F.check_ok_iff.1 h2
    have hl := hat t
    have key : GDiagram.mkSpider (Ty.rotate z (F.onTy [t])) i o = .ok (a.rotate z) := by
      clear t1 t2 h2 hty
      generalize F.onTy [t] = A at *
      rcases A with _ | ⟨x, _ | ⟨x', A⟩⟩
      · rw [GDiagram.mkSpider_nil] at h1
        obtain rfl := Except.ok.inj h1
        simp [GDiagram.mkSpider_nil, GDiagram.rotate_id]
      · obtain rfl := Except.ok.inj h1
        rw [rot_single, GDiagram.rotate_ofBox]; rfl
      · simp at hl
    simp only [Box.rotate] at hty ⊢
    simp only [onBox, rt, key, ok_bind]; exact hty

theorem rotate_extend (z : Int) (a b : Ty) (l : GLayer) :
    GLayer.rotate z (Layer.extend a b l) =
      if z % 2 = 1 then Layer.extend (Ty.rotate z b) (Ty.rotate z a) (GLayer.rotate z l)
      else Layer.extend (Ty.rotate z a) (Ty.rotate z b) (GLayer.rotate z l) := by
  by_cases hz : z % 2 = 1 <;> simp [GLayer.rotate, Layer.extend, hz, Ty.rotate_append]

theorem layersImage_rotate (z : Int) (ls : List GLayer)
    (hb : ∀ l ∈ ls, ∀ r, F.onBox l.box = .ok r → F.onBox (l.box.rotate z) = .ok (r.rotate z))
    {out : List GLayer} (h : F.layersImage ls = .ok out) :
    F.layersImage (ls.map (GLayer.rotate z)) = .ok (out.map (GLayer.rotate z)) := by
  induction ls generalizing out with
  | nil =>
    have : out = [] := by simpa [layersImage] using h.symm
    subst this; rfl
  | cons l ls ih =>
    simp only [layersImage, bind_ok_iff] at h
    obtain ⟨x, h1, y, h2, h3⟩ := h
    injection h3 with h3; subst h3
    unfold layerImage at h1
    cases hb1 : F.onBox l.box with
    | error e => rw [hb1] at h1; simp [Except.map] at h1
    | ok r =>
      rw [hb1] at h1
      have h1 : r.layers.map (Layer.extend (F.onTy l.left) (F.onTy l.right)) = x := by
        simpa [Except.map] using h1
      subst h1
      have hd := hb l (by simp) r hb1
      have e : (GLayer.rotate z l).box = l.box.rotate z := by unfold GLayer.rotate; split <;> rfl
      simp only [List.map_cons, layersImage, layerImage, e, hd, Except.map, ok_bind,
        ih (fun l hl => hb l (by simp [hl])) h2]
      congr 1
      rw [List.map_append, List.map_map]
      congr 1
      simp only [GDiagram.rotate, List.map_map]
      apply List.map_congr_left
      intro l' _
      simp only [Function.comp, rotate_extend]
      by_cases hz : z % 2 = 1 <;> simp [GLayer.rotate, hz, F.onTy_rotate]

/-- **C19 (rotation).** If `F(d) = r` then `F(d.rotate(z)) = r.rotate(z)` for every integer `z`, under the
same proviso as `C19_dagger_partial`; in particular `F(d.l) = F(d).l` and `F(d.r) = F(d).r`. -/
theorem C19_rotate_partial (hF : F.ArWF) (z : Int) (d r : GDiagram) (hd : d.WT)
    (hst : F.ObAtomic ∨ ∀ l ∈ d.layers, ¬ l.box.Structural)
    (h : F.onDiagram d = .ok r) : F.onDiagram (d.rotate z) = .ok (r.rotate z) := by
  have hw := GDiagram.wt_rotate z hd
  rw [F.onDiagram_eq hd] at h
  cases ho : F.layersImage d.layers with
  | error e => rw [ho] at h; simp [Except.map] at h
  | ok out =>
    rw [ho] at h
    have h : (⟨F.onTy d.dom, F.onTy d.cod, out⟩ : GDiagram) = r := by simpa [Except.map] using h
    rw [F.onDiagram_eq hw]
    have : (d.rotate z).layers = d.layers.map (GLayer.rotate z) := rfl
    rw [this, F.layersImage_rotate z d.layers ?_ ho]
    · subst h; simp [Except.map, GDiagram.rotate, F.onTy_rotate]
    · intro l hl r' hr'
      refine F.onBox_rotate hF z ?_ hr'
      rcases hst with h1 | h1
      · exact Or.inl h1
      · exact Or.inr (h1 l hl)

/-- **C19, refuted part.** A functor sending an atomic type to two wires does not commute with dagger
on a swap (the layers come out in another order) and is not even defined on the dagger of a cap,
although it is defined on the cap. -/
theorem C19_compound_refuted :
    (∃ r r', doubling.onDiagram (ofBox (.swap ⟨"n", 0⟩ ⟨"s", 0⟩)) = .ok r
      ∧ doubling.onDiagram (GDiagram.dagger (ofBox (.swap ⟨"n", 0⟩ ⟨"s", 0⟩))) = .ok r' ∧ r' ≠ r.dagger)
    ∧ (∃ r, doubling.onDiagram (ofBox (.cap ⟨"n", 1⟩ ⟨"n", 0⟩ false)) = .ok r)
    ∧ doubling.onDiagram (GDiagram.dagger (ofBox (.cap ⟨"n", 1⟩ ⟨"n", 0⟩ false))) = .error .valueError := by
  refine ⟨⟨_, _, rfl, rfl, ?_⟩, ⟨_, rfl⟩, rfl⟩
  decide

end Functor
end Lambeq
