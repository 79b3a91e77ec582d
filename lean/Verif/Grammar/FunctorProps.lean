import Verif.Grammar.Functor

/-!
# Functor properties: C17, C18, C19, C20
-/

namespace Lambeq
set_option linter.unusedSimpArgs false
open Diagram

namespace Functor
variable (F : Functor)

/-! ### Types -/

@[simp] theorem onTy_nil : F.onTy [] = [] := rfl

theorem onTy_append (a b : Ty) : F.onTy (a ++ b) = F.onTy a ++ F.onTy b := by
  simp [onTy]

theorem onTy_cons (o : Ob) (t : Ty) : F.onTy (o :: t) = F.obAtom o ++ F.onTy t := by
  simp [onTy]

theorem onTy_singleton (o : Ob) : F.onTy [o] = F.obAtom o := by simp [onTy]

theorem obAtom_eq (o : Ob) : F.obAtom o = Ty.rotate o.z (F.ob o.name) := by
  unfold obAtom
  split
  · rfl
  · rename_i h
    have : o.z = 0 := by simpa using h
    rw [this, Ty.rotate_zero]

theorem obAtom_rot (z : Int) (o : Ob) : F.obAtom (Ty.rotOb z o) = Ty.rotate z (F.obAtom o) := by
  rw [obAtom_eq, obAtom_eq, Ty.rotate_rotate]; rfl

theorem onTy_rotate (z : Int) (t : Ty) : F.onTy (Ty.rotate z t) = Ty.rotate z (F.onTy t) := by
  induction t with
  | nil => simp
  | cons o t ih =>
    have h1 : (o :: t) = [o] ++ t := rfl
    rw [h1, Ty.rotate_append, F.onTy_append, Ty.rotate_append]
    have h2 : Ty.rotate z [o] = [Ty.rotOb z o] := by
      unfold Ty.rotate; split <;> simp
    split
    · rw [F.onTy_append, ih, h2, onTy_singleton, onTy_singleton, obAtom_rot]
    · rw [F.onTy_append, ih, h2, onTy_singleton, onTy_singleton, obAtom_rot]

/-! ### Boxes -/

theorem check_ok_iff {dom cod : Ty} {d r : GDiagram} :
    F.check dom cod d = .ok r ↔ d = r ∧ r.dom = F.onTy dom ∧ r.cod = F.onTy cod := by
  unfold check
  split
  · rename_i h
    constructor
    · intro h'; simp at h'
    · rintro ⟨rfl, h1, h2⟩
      rcases h with h | h
      · exact absurd h2 h
      · exact absurd h1 h
  · rename_i h
    simp only [not_or, Decidable.not_not] at h
    constructor
    · intro h'; injection h' with h'; subst h'; exact ⟨rfl, h.2, h.1⟩
    · rintro ⟨rfl, _, _⟩; rfl

theorem bind_ok_iff {α β : Type} {x : Except PyErr α} {f : α → Except PyErr β} {r : β} :
    (x >>= f) = .ok r ↔ ∃ a, x = .ok a ∧ f a = .ok r := by
  cases x with
  | ok a => simp [bind, Except.bind]
  | error e => simp [bind, Except.bind]

theorem onBox_type {b : Box} {r : GDiagram} (h : F.onBox b = .ok r) :
    r.dom = F.onTy b.dom ∧ r.cod = F.onTy b.cod := by
  cases b <;> simp only [onBox, bind_ok_iff] at h
  case daggered b =>
    obtain ⟨a, _, a', _, h⟩ := h
    exact (F.check_ok_iff.1 h).2
  all_goals
    obtain ⟨a, _, h⟩ := h
    exact (F.check_ok_iff.1 h).2

/-- The user's `ar` returns well-formed diagrams (which every diagram built through the API is). -/
def ArWF : Prop := ∀ b r, F.ar b = .ok r → b.Valid → r.WT ∧ r.Valid

end Functor

namespace GDiagram

theorem daggerPy_ok {d : GDiagram} (h : d.WT) (hv : d.Valid) :
    d.daggerPy = .ok d.dagger ∧ d.dagger.Valid ∧ d.dagger.WT :=
  ⟨((C07_dagger d d h h).2.2.2.2.2 hv).1, ((C07_dagger d d h h).2.2.2.2.2 hv).2, wt_dagger h⟩

theorem mkCup_true_cases {a b : Ty} {d : GDiagram} (h : mkCup a b true = .ok d) :
    (a = [] ∧ b = [] ∧ d = Diagram.id []) ∨
    (∃ l r, a = [l] ∧ b = [r] ∧ Box.cupAdjoint [l] [r] true = true ∧ d = ofBox (.cup l r true)) := by
  have hadj : a = Ty.r b := by
    unfold mkCup at h
    split at h
    · rename_i l r
      unfold Box.atomicCup at h
      split at h
      · rename_i hadj; simpa [Box.cupAdjoint] using hadj
      · simp [Except.map] at h
    · split at h
      · simp at h
      · rename_i hadj; simpa [Box.cupAdjoint] using hadj
  have hl : a.length = b.length := by rw [hadj]; simp
  by_cases h2 : 2 ≤ a.length
  · rw [(C13_reversed_compound_refuted a b h2).1] at h; simp at h
  rcases a with _ | ⟨x, _ | ⟨x', a⟩⟩
  · have hb : b = [] := List.eq_nil_of_length_eq_zero (by simpa using hl.symm)
    subst hb
    refine Or.inl ⟨rfl, rfl, ?_⟩
    have : (Except.ok (Diagram.id []) : Except PyErr GDiagram) = .ok d := by rw [← h]; rfl
    injection this with this; exact this.symm
  · obtain ⟨y, rfl⟩ := List.length_eq_one_iff.1 hl.symm
    have hc : Box.cupAdjoint [x] [y] true = true := by simpa [Box.cupAdjoint] using hadj
    refine Or.inr ⟨x, y, rfl, rfl, hc, ?_⟩
    simp [mkCup, Box.atomicCup, hc, Except.map] at h
    exact h.symm
  · simp at h2

theorem mkCup_wf {a b : Ty} {rev : Bool} {d : GDiagram} (h : mkCup a b rev = .ok d) : d.WT ∧ d.Valid := by
  cases rev with
  | false =>
    by_cases hab : a = Ty.l b
    · obtain ⟨d', h1, _, _, h4, _, _, h7⟩ := (C13_cups a b).2 hab
      rw [h1] at h; injection h with h; subst h
      refine ⟨h4, ?_⟩
      intro l hl
      obtain ⟨x, y, hb, hxy⟩ := h7 l hl
      rw [hb]; simp [Box.Valid, Box.cupAdjoint, hxy]
    · rw [(C13_cups a b).1 hab] at h; simp at h
  | true =>
    rcases mkCup_true_cases h with ⟨rfl, rfl, rfl⟩ | ⟨l, r, rfl, rfl, hc, rfl⟩
    · exact ⟨WT.id _, by intro l hl; simp [Diagram.id] at hl⟩
    · refine ⟨WT.ofBox _, ?_⟩
      intro l' hl
      have : l' = ⟨[], .cup l r true, []⟩ := by simpa [ofBox] using hl
      subst this; exact hc

theorem mkCap_true_cases {a b : Ty} {d : GDiagram} (h : mkCap a b true = .ok d) :
    (a = [] ∧ b = [] ∧ d = Diagram.id []) ∨
    (∃ l r, a = [l] ∧ b = [r] ∧ Box.capAdjoint [l] [r] true = true ∧ d = ofBox (.cap l r true)) := by
  have hadj : a = Ty.l b := by
    unfold mkCap at h
    split at h
    · rename_i l r
      unfold Box.atomicCap at h
      split at h
      · rename_i hadj; simpa [Box.capAdjoint] using hadj
      · simp [Except.map] at h
    · split at h
      · simp at h
      · rename_i hadj; simpa [Box.capAdjoint] using hadj
  have hl : a.length = b.length := by rw [hadj]; simp
  by_cases h2 : 2 ≤ a.length
  · rw [(C13_reversed_compound_refuted a b h2).2] at h; simp at h
  rcases a with _ | ⟨x, _ | ⟨x', a⟩⟩
  · have hb : b = [] := List.eq_nil_of_length_eq_zero (by simpa using hl.symm)
    subst hb
    refine Or.inl ⟨rfl, rfl, ?_⟩
    have : (Except.ok (Diagram.id []) : Except PyErr GDiagram) = .ok d := by rw [← h]; rfl
    injection this with this; exact this.symm
  · obtain ⟨y, rfl⟩ := List.length_eq_one_iff.1 hl.symm
    have hc : Box.capAdjoint [x] [y] true = true := by simpa [Box.capAdjoint] using hadj
    refine Or.inr ⟨x, y, rfl, rfl, hc, ?_⟩
    simp [mkCap, Box.atomicCap, hc, Except.map] at h
    exact h.symm
  · simp at h2

theorem mkCap_wf {a b : Ty} {rev : Bool} {d : GDiagram} (h : mkCap a b rev = .ok d) : d.WT ∧ d.Valid := by
  cases rev with
  | false =>
    by_cases hab : a = Ty.r b
    · obtain ⟨d', h1, _, _, h4, _, _, h7⟩ := (C13_caps a b).2 hab
      rw [h1] at h; injection h with h; subst h
      refine ⟨h4, ?_⟩
      intro l hl
      obtain ⟨x, y, hb, hxy⟩ := h7 l hl
      rw [hb]; simp [Box.Valid, Box.capAdjoint, hxy]
    · rw [(C13_caps a b).1 hab] at h; simp at h
  | true =>
    rcases mkCap_true_cases h with ⟨rfl, rfl, rfl⟩ | ⟨l, r, rfl, rfl, hc, rfl⟩
    · exact ⟨WT.id _, by intro l hl; simp [Diagram.id] at hl⟩
    · refine ⟨WT.ofBox _, ?_⟩
      intro l' hl
      have : l' = ⟨[], .cap l r true, []⟩ := by simpa [ofBox] using hl
      subst this; exact hc

theorem valid_of_onlySwaps {d : GDiagram} (h : OnlySwaps d.layers) : d.Valid := by
  intro l hl
  obtain ⟨x, y, hb⟩ := h l hl
  rw [hb]; trivial

theorem mkSwap_wf {a b : Ty} {d : GDiagram} (h : mkSwap a b = .ok d) : d.WT ∧ d.Valid := by
  obtain ⟨d', h1, _, _, h4, h5, _⟩ := C12_swap a b
  rw [h1] at h; injection h with h; subst h
  exact ⟨h4, valid_of_onlySwaps h5⟩

theorem mkSpider_wf {t : Ty} {m n : Nat} {d : GDiagram} (h : mkSpider t m n = .ok d) : d.WT ∧ d.Valid := by
  obtain ⟨d', P, S, Q, h1, h2, _, _, h5, h6, h7, h8, h9, _, _⟩ := C14_spider t m n
  rw [h1] at h; injection h with h; subst h
  refine ⟨h2, ?_⟩
  intro l hl
  rw [h5] at hl
  rcases List.mem_append.1 hl with hl | hl
  · rcases List.mem_append.1 hl with hl | hl
    · obtain ⟨x, y, hb⟩ := h6 l hl; rw [hb]; trivial
    · obtain ⟨i, hi, hli⟩ := List.getElem_of_mem hl
      have hit : i < t.length := by omega
      have := h9 i hit
      rw [List.getElem?_eq_getElem hi, hli] at this
      injection this with this
      rw [this]; trivial
  · obtain ⟨x, y, hb⟩ := h7 l hl; rw [hb]; trivial

end GDiagram

namespace Functor
variable (F : Functor)

theorem onBox0_ok {b : Box} {r : GDiagram} (h : F.onBox0 b = .ok r) :
    F.ar b = .ok r ∧ r.dom = F.onTy b.dom ∧ r.cod = F.onTy b.cod := by
  simp only [onBox0, bind_ok_iff] at h
  obtain ⟨a, h1, h2⟩ := h
  obtain ⟨rfl, h3⟩ := F.check_ok_iff.1 h2
  exact ⟨h1, h3⟩

/-- Images of boxes are well formed. -/
theorem onBox_wf (hF : F.ArWF) {b : Box} {r : GDiagram} (h : F.onBox b = .ok r) : r.WT ∧ r.Valid := by
  induction b generalizing r with
  | gen n d c z =>
    simp only [onBox, bind_ok_iff] at h
    obtain ⟨a, h1, h2⟩ := h
    obtain ⟨rfl, _⟩ := F.check_ok_iff.1 h2
    split at h1
    · obtain ⟨r0, h3, h4⟩ := bind_ok_iff.1 h1
      obtain ⟨w, v⟩ := hF _ _ (F.onBox0_ok h3).1 trivial
      have := (C08_rotate r0 r0 w z z).2.2.2.2.2.2.2.2.2 v
      rw [this.1] at h4; injection h4 with h4; subst h4
      exact ⟨GDiagram.wt_rotate z w, this.2⟩
    · exact hF _ _ h1 trivial
  | word n c z =>
    simp only [onBox, bind_ok_iff] at h
    obtain ⟨a, h1, h2⟩ := h
    obtain ⟨rfl, _⟩ := F.check_ok_iff.1 h2
    split at h1
    · obtain ⟨r0, h3, h4⟩ := bind_ok_iff.1 h1
      obtain ⟨w, v⟩ := hF _ _ (F.onBox0_ok h3).1 trivial
      have := (C08_rotate r0 r0 w z z).2.2.2.2.2.2.2.2.2 v
      rw [this.1] at h4; injection h4 with h4; subst h4
      exact ⟨GDiagram.wt_rotate z w, this.2⟩
    · exact hF _ _ h1 trivial
  | cup l r' rev =>
    simp only [onBox, bind_ok_iff] at h
    obtain ⟨a, h1, h2⟩ := h
    obtain ⟨rfl, _⟩ := F.check_ok_iff.1 h2
    exact GDiagram.mkCup_wf h1
  | cap l r' rev =>
    simp only [onBox, bind_ok_iff] at h
    obtain ⟨a, h1, h2⟩ := h
    obtain ⟨rfl, _⟩ := F.check_ok_iff.1 h2
    exact GDiagram.mkCap_wf h1
  | swap l r' =>
    simp only [onBox, bind_ok_iff] at h
    obtain ⟨a, h1, h2⟩ := h
    obtain ⟨rfl, _⟩ := F.check_ok_iff.1 h2
    exact GDiagram.mkSwap_wf h1
  | spider t i o =>
    simp only [onBox, bind_ok_iff] at h
    obtain ⟨a, h1, h2⟩ := h
    obtain ⟨rfl, _⟩ := F.check_ok_iff.1 h2
    exact GDiagram.mkSpider_wf h1
  | daggered b ih =>
    simp only [onBox, bind_ok_iff] at h
    obtain ⟨a, h1, a', h2, h3⟩ := h
    obtain ⟨rfl, _⟩ := F.check_ok_iff.1 h3
    obtain ⟨w, v⟩ := ih h1
    obtain ⟨e1, e2, e3⟩ := GDiagram.daggerPy_ok w v
    rw [e1] at h2; injection h2 with h2; subst h2
    exact ⟨e3, e2⟩

/-! ### Diagrams -/

/-- The image of one layer, as a list of layers. -/
def layerImage (l : GLayer) : Except PyErr (List GLayer) :=
  (F.onBox l.box).map (fun r => r.layers.map (Layer.extend (F.onTy l.left) (F.onTy l.right)))

/-- The images of all layers, concatenated; the first failing box decides the exception. -/
def layersImage : List GLayer → Except PyErr (List GLayer)
  | [] => .ok []
  | l :: ls => do
    let a ← F.layerImage l
    let b ← layersImage ls
    .ok (a ++ b)

theorem fold_eq {a c : Ty} {ls : List GLayer} (h : Chain a ls c) (acc : GDiagram)
    (hacc : acc.cod = F.onTy a) :
    ls.foldlM F.layerStep acc =
      (F.layersImage ls).map (fun out => ⟨acc.dom, F.onTy c, acc.layers ++ out⟩) := by
  induction ls generalizing a acc with
  | nil =>
    cases h
    rcases acc with ⟨d, cc, l⟩
    simp only at hacc; subst hacc
    simp [layersImage, Except.map]; rfl
  | cons l ls ih =>
    rw [List.foldlM_cons]
    cases hb : F.onBox l.box with
    | error e => simp [layerStep, hb, layersImage, layerImage, Except.map, err_bind]
    | ok r =>
      obtain ⟨t1, t2⟩ := F.onBox_type hb
      have hstep : F.layerStep acc l = .ok ⟨acc.dom, F.onTy l.cod,
          acc.layers ++ r.layers.map (Layer.extend (F.onTy l.left) (F.onTy l.right))⟩ := by
        simp only [layerStep, hb, ok_bind]
        rw [andThen_eq_ok]
        · simp only [tensor_eq, Diagram.id, List.map_nil, List.append_nil, List.nil_append,
            List.map_append, map_extend_extend, t2]
          simp [Layer.cod, F.onTy_append]
        · rw [hacc, ← h.1]
          simp [tensor_dom, Diagram.id, t1, Layer.dom, F.onTy_append]
      rw [hstep, ok_bind, ih h.2 _ rfl]
      simp only [layersImage, layerImage, hb, Except.map, ok_bind]
      cases F.layersImage ls with
      | ok out => simp [Except.map, ok_bind]
      | error e => simp [Except.map, err_bind]

/-- Closed form of functor application on well-typed diagrams. -/
theorem onDiagram_eq {d : GDiagram} (h : d.WT) :
    F.onDiagram d = (F.layersImage d.layers).map (fun out => ⟨F.onTy d.dom, F.onTy d.cod, out⟩) := by
  have hfold : (if d.layers.isEmpty then Except.ok (Diagram.id (F.onTy d.dom))
      else d.layers.foldlM F.layerStep (Diagram.id (F.onTy d.dom))) =
        d.layers.foldlM F.layerStep (Diagram.id (F.onTy d.dom)) := by
    split
    · rename_i he
      have : d.layers = [] := by simpa using he
      rw [this]; rfl
    · rfl
  unfold onDiagram
  rw [hfold, F.fold_eq h (Diagram.id (F.onTy d.dom)) rfl]
  cases F.layersImage d.layers with
  | error e => simp [Except.map, err_bind]
  | ok out =>
    simp only [Except.map, ok_bind]
    rw [check_ok_iff]
    simp [Diagram.id]

theorem layersImage_append (l1 l2 : List GLayer) :
    F.layersImage (l1 ++ l2) = (do
      let a ← F.layersImage l1
      let b ← F.layersImage l2
      .ok (a ++ b)) := by
  induction l1 with
  | nil =>
    simp only [List.nil_append, layersImage, ok_bind]
    cases F.layersImage l2 <;> simp [ok_bind, err_bind]
  | cons l ls ih =>
    simp only [List.cons_append, layersImage, ih]
    cases F.layerImage l with
    | error e => rfl
    | ok a =>
      simp only [ok_bind]
      cases F.layersImage ls with
      | error e => rfl
      | ok b =>
        simp only [ok_bind]
        cases F.layersImage l2 with
        | error e => rfl
        | ok c => simp [ok_bind]

theorem layersImage_extend (x y : Ty) (ls : List GLayer) :
    F.layersImage (ls.map (Layer.extend x y)) =
      (F.layersImage ls).map (fun out => out.map (Layer.extend (F.onTy x) (F.onTy y))) := by
  induction ls with
  | nil => rfl
  | cons l ls ih =>
    simp only [List.map_cons, layersImage, ih, layerImage]
    have : (Layer.extend x y l).box = l.box := rfl
    rw [this]
    cases hb : F.onBox l.box with
    | error e => rfl
    | ok r =>
      simp only [Except.map, ok_bind]
      cases F.layersImage ls with
      | error e => rfl
      | ok b =>
        simp only [ok_bind, List.map_append, map_extend_extend]
        simp [Layer.extend, F.onTy_append]

theorem layersImage_wt (hF : F.ArWF) {a c : Ty} {ls : List GLayer} (h : Chain a ls c) {out : List GLayer}
    (ho : F.layersImage ls = .ok out) :
    Chain (F.onTy a) out (F.onTy c) ∧ ∀ l ∈ out, l.box.Valid := by
  induction ls generalizing a out with
  | nil =>
    cases h
    have : out = [] := by simpa [layersImage] using ho.symm
    subst this; exact ⟨rfl, by simp⟩
  | cons l ls ih =>
    simp only [layersImage, bind_ok_iff] at ho
    obtain ⟨x, h1, y, h2, h3⟩ := ho
    injection h3 with h3; subst h3
    obtain ⟨c1, c2⟩ := ih h.2 h2
    unfold layerImage at h1
    cases hb : F.onBox l.box with
    | error e => rw [hb] at h1; simp [Except.map] at h1
    | ok r =>
      rw [hb] at h1
      have h1 : r.layers.map (Layer.extend (F.onTy l.left) (F.onTy l.right)) = x := by
        simpa [Except.map] using h1
      subst h1
      obtain ⟨w, v⟩ := F.onBox_wf hF hb
      obtain ⟨t1, t2⟩ := F.onBox_type hb
      refine ⟨Chain.append (b := F.onTy l.cod) ?_ c1, ?_⟩
      · have := Chain.extend (F.onTy l.left) (F.onTy l.right) w
        rw [t1, t2] at this
        rw [← h.1]
        simpa [Layer.dom, Layer.cod, F.onTy_append] using this
      · intro l' hl'
        rcases List.mem_append.1 hl' with hl' | hl'
        · obtain ⟨l0, h0, rfl⟩ := List.mem_map.1 hl'
          exact v l0 h0
        · exact c2 l' hl'

/-- **C17 (types).** A functor is a monoid homomorphism on types and commutes with adjoints. -/
theorem C17_types (a b : Ty) (z : Int) :
    F.onTy [] = [] ∧ F.onTy (a ++ b) = F.onTy a ++ F.onTy b
    ∧ F.onTy (Ty.rotate z a) = Ty.rotate z (F.onTy a)
    ∧ F.onTy (Ty.l a) = Ty.l (F.onTy a) ∧ F.onTy (Ty.r a) = Ty.r (F.onTy a) :=
  ⟨rfl, F.onTy_append a b, F.onTy_rotate z a, F.onTy_rotate (-1) a, F.onTy_rotate 1 a⟩

/-- **C17 (arrows).** If `F(d)` returns `r`, then `r` goes from `F(d.dom)` to `F(d.cod)`; if moreover `d`
is well typed and the user's `ar` returns well-formed diagrams, `r` is well typed (and all its cups and
caps are valid). -/
theorem C17_arrows (d r : GDiagram) (h : F.onDiagram d = .ok r) :
    r.dom = F.onTy d.dom ∧ r.cod = F.onTy d.cod ∧ (d.WT → F.ArWF → r.WT ∧ r.Valid) := by
  have h' := h
  unfold onDiagram at h
  rw [bind_ok_iff] at h
  obtain ⟨a, _, h2⟩ := h
  obtain ⟨rfl, h3, h4⟩ := F.check_ok_iff.1 h2
  refine ⟨h3, h4, fun hd hF => ?_⟩
  rw [F.onDiagram_eq hd] at h'
  cases ho : F.layersImage d.layers with
  | error e => rw [ho] at h'; simp [Except.map] at h'
  | ok out =>
    rw [ho] at h'
    have h' : (⟨F.onTy d.dom, F.onTy d.cod, out⟩ : GDiagram) = a := by simpa [Except.map] using h'
    subst h'
    obtain ⟨c1, c2⟩ := F.layersImage_wt hF hd ho
    exact ⟨c1, c2⟩

/-- **C17 (boxes).** The same for boxes. -/
theorem C17_boxes (b : Box) (r : GDiagram) (h : F.onBox b = .ok r) :
    r.dom = F.onTy b.dom ∧ r.cod = F.onTy b.cod ∧ (F.ArWF → r.WT ∧ r.Valid) :=
  ⟨(F.onBox_type h).1, (F.onBox_type h).2, fun hF => F.onBox_wf hF h⟩

/-- **C18.** Functors preserve identities, sequential composition and tensor, including which
applications raise and with which exception: both sides are compared as results-or-exceptions. -/
theorem C18_functorial (f g : GDiagram) (hf : f.WT) (hg : g.WT) (t : Ty) :
    F.onDiagram (Diagram.id t) = .ok (Diagram.id (F.onTy t))
    ∧ (∀ h : GDiagram, andThen f g = .ok h →
        F.onDiagram h = (do let a ← F.onDiagram f; let b ← F.onDiagram g; andThen a b))
    ∧ F.onDiagram (tensor f g) = (do let a ← F.onDiagram f; let b ← F.onDiagram g; .ok (tensor a b)) := by
  refine ⟨?_, ?_, ?_⟩
  · rw [F.onDiagram_eq (WT.id t)]; rfl
  · intro h hh
    have hw := WT.andThen hf hg hh
    obtain ⟨hc, rfl⟩ := andThen_ok_iff.1 hh
    rw [F.onDiagram_eq hw, F.onDiagram_eq hf, F.onDiagram_eq hg]
    simp only [F.layersImage_append]
    cases F.layersImage f.layers with
    | error e => rfl
    | ok a =>
      simp only [ok_bind, Except.map]
      cases F.layersImage g.layers with
      | error e => rfl
      | ok b =>
        simp only [ok_bind]
        rw [andThen_eq_ok (by simp [hc])]
  · rw [F.onDiagram_eq (hf.tensor hg), F.onDiagram_eq hf, F.onDiagram_eq hg]
    simp only [tensor_layers, F.layersImage_append, F.layersImage_extend]
    cases F.layersImage f.layers with
    | error e => rfl
    | ok a =>
      simp only [ok_bind, Except.map]
      cases F.layersImage g.layers with
      | error e => rfl
      | ok b =>
        simp only [ok_bind, tensor_eq, F.onTy_append]
        simp

/-- The boxes of `f` and their images occur in order: `F` of a one-box diagram is `F` of the box. -/
theorem C18_generator (b : Box) : F.onDiagram (ofBox b) = F.onBox b := by
  rw [F.onDiagram_eq (WT.ofBox b)]
  simp only [ofBox, layersImage, layerImage]
  cases hb : F.onBox b with
  | error e => rfl
  | ok r =>
    obtain ⟨t1, t2⟩ := F.onBox_type hb
    rcases r with ⟨d, c, l⟩
    simp only [Except.map, ok_bind, List.append_nil, onTy_nil, map_extend_nil] at *
    subst t1; subst t2; rfl

/-- Non-vacuity for C17/C18: doubling wires maps the snake diagram to a well-typed one. -/
def doubling : Functor := ⟨fun n => [⟨n, 0⟩, ⟨n, 0⟩], fun b => match b with
  | .word n c z => .ok (ofBox (.word (n ++ "'") ((c.map (fun o => [o, o])).flatten) z))
  | _ => .error .keyError⟩

example : ∃ r, doubling.onDiagram snakeExample = .ok r ∧ r.WT ∧ r.layers.length = 4 := by
  refine ⟨_, rfl, by decide, by decide⟩

end Functor
end Lambeq
