import Verif.Rewrite.Rewriter
import Verif.Grammar.Built

/-!
# Properties of box-level rewriting (C35)
-/

set_option linter.unusedSimpArgs false
set_option linter.unusedVariables false

namespace Lambeq
open Diagram

namespace Rewrite

/-! ## Specification -/

/-- The first rule of the list that applies to `b` answers `d`. -/
def FirstMatch (rules : List BoxRule) (b : Box) (d : GDiagram) : Prop :=
  ∃ (i : Nat) (h : i < rules.length), rules[i] b = .ok (some d) ∧
    ∀ (j : Nat) (hj : j < i), rules[j] b = .ok none

/-- No rule of the list applies to `b`. -/
def NoMatch (rules : List BoxRule) (b : Box) : Prop := ∀ r ∈ rules, r b = .ok none

/-- `b` becomes `d`: the first matching rule decides, otherwise the box stays. -/
def Becomes (rules : List BoxRule) (b : Box) (d : GDiagram) : Prop :=
  FirstMatch rules b d ∨ (NoMatch rules b ∧ d = ofBox b)

/-- The box that is shown to the rules: daggers stripped, winding number undone; `none` for cups, caps,
swaps and spiders, which rules never see. -/
def seen : Box → Option Box
  | .gen n d c z => some (.gen n (Ty.rotate (-z) d) (Ty.rotate (-z) c) 0)
  | .word n c z => some (.word n (Ty.rotate (-z) c) 0)
  | .daggered b => seen b
  | _ => none

/-- What a box of a diagram is replaced by: rules act on the unrotated, undaggered box, and the result is
rotated and daggered back; structural boxes stay. -/
inductive Replaced (rules : List BoxRule) : Box → GDiagram → Prop
  | gen (n : String) (d c : Ty) (z : Int) (p : GDiagram)
      (h : Becomes rules (.gen n (Ty.rotate (-z) d) (Ty.rotate (-z) c) 0) p) :
      Replaced rules (.gen n d c z) (p.rotate z)
  | word (n : String) (c : Ty) (z : Int) (p : GDiagram)
      (h : Becomes rules (.word n (Ty.rotate (-z) c) 0) p) : Replaced rules (.word n c z) (p.rotate z)
  | cup (l r : Ob) (rev : Bool) : Replaced rules (.cup l r rev) (ofBox (.cup l r rev))
  | cap (l r : Ob) (rev : Bool) : Replaced rules (.cap l r rev) (ofBox (.cap l r rev))
  | swap (l r : Ob) : Replaced rules (.swap l r) (ofBox (.swap l r))
  | spider (t : Ob) (n m : Nat) : Replaced rules (.spider t n m) (ofBox (.spider t n m))
  | daggered (b : Box) (p : GDiagram) (h : Replaced rules b p) : Replaced rules (.daggered b) p.dagger

/-- The rules behave on `b`: none raises, and answers have the type of `b` and are well typed. -/
def GoodOn (rules : List BoxRule) (b : Box) : Prop :=
  ∀ rule ∈ rules, ∃ o, rule b = .ok o ∧
    ∀ r, o = some r → r.dom = b.dom ∧ r.cod = b.cod ∧ r.WT ∧ r.Valid

/-! ## Functors that keep atoms -/

theorem rotate_zero_d (d : GDiagram) : d.rotate 0 = d := by
  have h : ∀ l : GLayer, GLayer.rotate 0 l = l := by
    intro l
    simp [GLayer.rotate, Box.rotate_zero, Ty.rotate_zero]
  rcases d with ⟨a, c, ls⟩
  simp only [GDiagram.rotate, Ty.rotate_zero]
  congr 1
  exact (List.map_congr_left (fun l _ => h l)).trans (List.map_id _)

theorem rotatePy_ok {d : GDiagram} (z : Int) (hv : d.Valid) : d.rotatePy z = .ok (d.rotate z) := by
  unfold GDiagram.rotatePy
  rw [GDiagram.mapM_ok _ (GLayer.rotate z)]
  · rfl
  · intro l hl
    rw [Box.rotatePy_eq z (hv l hl)]
    simp only [Except.map, GLayer.rotate]

theorem onTy_id {F : Functor} (h : ∀ n, F.ob n = [⟨n, 0⟩]) (t : Ty) : F.onTy t = t := by
  induction t with
  | nil => rfl
  | cons o t ih =>
    rw [F.onTy_cons, ih, F.obAtom_eq, h]
    rcases o with ⟨n, z⟩
    simp [Ty.rotate, Ty.rotOb]

theorem check_id {F : Functor} (h : ∀ n, F.ob n = [⟨n, 0⟩]) {dom cod : Ty} {d : GDiagram}
    (h1 : d.dom = dom) (h2 : d.cod = cod) : F.check dom cod d = .ok d := by
  rw [F.check_ok_iff]
  exact ⟨rfl, by rw [h1, onTy_id h], by rw [h2, onTy_id h]⟩

/-- The result of an atom-preserving functor on a box, given what its `ar` answers. -/
inductive Img (F : Functor) : Box → GDiagram → Prop
  | gen (n : String) (d c : Ty) (z : Int) (p : GDiagram)
      (h : F.ar (.gen n (Ty.rotate (-z) d) (Ty.rotate (-z) c) 0) = .ok p) : Img F (.gen n d c z) (p.rotate z)
  | word (n : String) (c : Ty) (z : Int) (p : GDiagram)
      (h : F.ar (.word n (Ty.rotate (-z) c) 0) = .ok p) : Img F (.word n c z) (p.rotate z)
  | cup (l r : Ob) (rev : Bool) : Img F (.cup l r rev) (ofBox (.cup l r rev))
  | cap (l r : Ob) (rev : Bool) : Img F (.cap l r rev) (ofBox (.cap l r rev))
  | swap (l r : Ob) : Img F (.swap l r) (ofBox (.swap l r))
  | spider (t : Ob) (n m : Nat) : Img F (.spider t n m) (ofBox (.spider t n m))
  | daggered (b : Box) (p : GDiagram) (h : Img F b p) : Img F (.daggered b) p.dagger

/-- `ar` behaves on the box shown to it. -/
def ArGood (F : Functor) (b : Box) : Prop :=
  ∃ r, F.ar b = .ok r ∧ r.dom = b.dom ∧ r.cod = b.cod ∧ r.WT ∧ r.Valid

theorem onBox_total {F : Functor} (hI : ∀ n, F.ob n = [⟨n, 0⟩]) (b : Box) (hv : b.Valid)
    (hg : ∀ b0, seen b = some b0 → ArGood F b0) :
    ∃ r, F.onBox b = .ok r ∧ Img F b r ∧ r.dom = b.dom ∧ r.cod = b.cod ∧ r.WT ∧ r.Valid := by
  have hrot : ∀ (z : Int) (t : Ty), Ty.rotate z (Ty.rotate (-z) t) = t := by
    intro z t
    rw [Ty.rotate_rotate]
    have : -z + z = 0 := by omega
    rw [this, Ty.rotate_zero]
  induction b with
  | gen n d c z =>
    obtain ⟨r, h1, h2, h3, h4, h5⟩ := hg _ rfl
    refine ⟨r.rotate z, ?_, .gen n d c z r h1, ?_, ?_, GDiagram.wt_rotate z h4, ?_⟩
    · have ht1 : (r.rotate z).dom = d := by
        show Ty.rotate z r.dom = d
        rw [h2]; exact hrot z d
      have ht2 : (r.rotate z).cod = c := by
        show Ty.rotate z r.cod = c
        rw [h3]; exact hrot z c
      unfold Functor.onBox
      by_cases hz : z = 0
      · subst hz
        simp only [ne_eq, not_true_eq_false, if_false]
        have h1' : F.ar (.gen n d c 0) = .ok r := by simpa [Ty.rotate_zero] using h1
        rw [rotate_zero_d] at ht1 ht2 ⊢
        rw [h1', ok_bind]
        exact check_id hI ht1 ht2
      · simp only [ne_eq, hz, not_false_eq_true, if_true]
        have hzz : z + -z = 0 := by omega
        rw [hzz]
        unfold Functor.onBox0
        rw [h1, ok_bind, check_id hI h2 h3, ok_bind, rotatePy_ok z h5, ok_bind]
        exact check_id hI ht1 ht2
    · show Ty.rotate z r.dom = d
      rw [h2]; exact hrot z d
    · show Ty.rotate z r.cod = c
      rw [h3]; exact hrot z c
    · intro l hl
      simp only [GDiagram.rotate, List.mem_map] at hl
      obtain ⟨l', hl', rfl⟩ := hl
      have := (h5 l' hl').rotate z
      unfold GLayer.rotate
      split <;> exact this
  | word n c z =>
    obtain ⟨r, h1, h2, h3, h4, h5⟩ := hg _ rfl
    have h2 : r.dom = [] := h2
    have hd : (r.rotate z).dom = [] := by
      show Ty.rotate z r.dom = []
      rw [h2]; simp [Ty.rotate]
    have ht2 : (r.rotate z).cod = c := by
      show Ty.rotate z r.cod = c
      rw [h3]; exact hrot z c
    refine ⟨r.rotate z, ?_, .word n c z r h1, hd, ht2, GDiagram.wt_rotate z h4, ?_⟩
    · unfold Functor.onBox
      by_cases hz : z = 0
      · subst hz
        simp only [ne_eq, not_true_eq_false, if_false]
        have h1' : F.ar (.word n c 0) = .ok r := by simpa [Ty.rotate_zero] using h1
        rw [rotate_zero_d] at hd ht2 ⊢
        rw [h1', ok_bind]
        exact check_id hI hd ht2
      · simp only [ne_eq, hz, not_false_eq_true, if_true]
        have hzz : z + -z = 0 := by omega
        rw [hzz]
        unfold Functor.onBox0
        rw [h1, ok_bind]
        have : F.check (Box.word n (Ty.rotate (-z) c) 0).dom (Box.word n (Ty.rotate (-z) c) 0).cod r = .ok r :=
          check_id hI h2 h3
        rw [this, ok_bind, rotatePy_ok z h5, ok_bind]
        exact check_id hI hd ht2
    · intro l hl
      simp only [GDiagram.rotate, List.mem_map] at hl
      obtain ⟨l', hl', rfl⟩ := hl
      have := (h5 l' hl').rotate z
      unfold GLayer.rotate
      split <;> exact this
  | cup l r rev =>
    refine ⟨_, ?_, .cup l r rev, rfl, rfl, WT.ofBox _, ?_⟩
    · unfold Functor.onBox
      rw [onTy_id hI, onTy_id hI]
      have : GDiagram.mkCup [l] [r] rev = .ok (ofBox (.cup l r rev)) := by
        have hv : Box.cupAdjoint [l] [r] rev = true := hv
        simp [GDiagram.mkCup, Box.atomicCup, hv, Except.map]
      rw [this, ok_bind]
      exact check_id hI rfl rfl
    · intro x hx
      have hx : x = ⟨[], .cup l r rev, []⟩ := by simpa [ofBox] using hx
      subst hx; exact hv
  | cap l r rev =>
    refine ⟨_, ?_, .cap l r rev, rfl, rfl, WT.ofBox _, ?_⟩
    · unfold Functor.onBox
      rw [onTy_id hI, onTy_id hI]
      have : GDiagram.mkCap [l] [r] rev = .ok (ofBox (.cap l r rev)) := by
        have hv : Box.capAdjoint [l] [r] rev = true := hv
        simp [GDiagram.mkCap, Box.atomicCap, hv, Except.map]
      rw [this, ok_bind]
      exact check_id hI rfl rfl
    · intro x hx
      have hx : x = ⟨[], .cap l r rev, []⟩ := by simpa [ofBox] using hx
      subst hx; exact hv
  | swap l r =>
    refine ⟨_, ?_, .swap l r, rfl, rfl, WT.ofBox _, ?_⟩
    · unfold Functor.onBox
      rw [onTy_id hI, onTy_id hI]
      have : GDiagram.mkSwap [l] [r] = .ok (ofBox (.swap l r)) := by simp [GDiagram.mkSwap]
      rw [this, ok_bind]
      exact check_id hI rfl rfl
    · intro x hx
      have hx : x = ⟨[], .swap l r, []⟩ := by simpa [ofBox] using hx
      subst hx; exact hv
  | spider t n m =>
    refine ⟨_, ?_, .spider t n m, rfl, rfl, WT.ofBox _, ?_⟩
    · unfold Functor.onBox
      rw [onTy_id hI]
      have : GDiagram.mkSpider [t] n m = .ok (ofBox (.spider t n m)) := by simp [GDiagram.mkSpider]
      rw [this, ok_bind]
      exact check_id hI rfl rfl
    · intro x hx
      have hx : x = ⟨[], .spider t n m, []⟩ := by simpa [ofBox] using hx
      subst hx; exact hv
  | daggered b ih =>
    obtain ⟨r, h1, h2, h3, h4, h5, h6⟩ := ih hv hg
    have hD := (GDiagram.daggerPy_ok h5 h6).1
    have ht := Diagram.daggerWith_dom_cod Box.dagger r h5
    refine ⟨r.dagger, ?_, .daggered b r h2, ?_, ?_, GDiagram.wt_dagger h5, ?_⟩
    · unfold Functor.onBox
      rw [h1, ok_bind, hD, ok_bind]
      exact check_id hI (ht.1.trans h4) (ht.2.1.trans h3)
    · exact ht.1.trans h4
    · exact ht.2.1.trans h3
    · exact (GDiagram.daggerPy_ok h5 h6).2.1

/-- The result of an atom-preserving functor on a diagram, box by box. -/
theorem onDiagram_total {F : Functor} (hI : ∀ n, F.ob n = [⟨n, 0⟩]) (d : GDiagram) (hd : d.WT) (hv : d.Valid)
    (hg : ∀ l ∈ d.layers, ∀ b0, seen l.box = some b0 → ArGood F b0) :
    ∃ (r : GDiagram) (parts : List GDiagram), F.onDiagram d = .ok r ∧ r.dom = d.dom ∧ r.cod = d.cod ∧ r.WT ∧ r.Valid
      ∧ List.Forall₂ (fun (l : GLayer) p => Img F l.box p ∧ p.dom = l.box.dom ∧ p.cod = l.box.cod) d.layers parts
      ∧ r.layers = (List.zipWith (fun (l : GLayer) (p : GDiagram) =>
          p.layers.map (Layer.extend l.left l.right)) d.layers parts).flatten := by
  have key : ∀ ls : List GLayer, (∀ l ∈ ls, l.box.Valid) →
      (∀ l ∈ ls, ∀ b0, seen l.box = some b0 → ArGood F b0) → ∃ (out : List GLayer) (parts : List GDiagram),
        F.layersImage ls = .ok out ∧
        List.Forall₂ (fun (l : GLayer) p => Img F l.box p ∧ p.dom = l.box.dom ∧ p.cod = l.box.cod
          ∧ p.WT ∧ p.Valid) ls parts
        ∧ out = (List.zipWith (fun (l : GLayer) (p : GDiagram) =>
          p.layers.map (Layer.extend l.left l.right)) ls parts).flatten := by
    intro ls
    induction ls with
    | nil => intro _ _; exact ⟨[], [], rfl, .nil, rfl⟩
    | cons l ls ih =>
      intro hv hg
      obtain ⟨p, h1, h2, h3, h4, h5, h6⟩ := onBox_total hI l.box (hv l (by simp)) (hg l (by simp))
      obtain ⟨out, parts, i1, i2, i3⟩ := ih (fun x hx => hv x (by simp [hx])) (fun x hx => hg x (by simp [hx]))
      refine ⟨p.layers.map (Layer.extend l.left l.right) ++ out, p :: parts, ?_, .cons ⟨h2, h3, h4, h5, h6⟩ i2, ?_⟩
      · simp only [Functor.layersImage, Functor.layerImage, h1, Except.map, ok_bind, i1, onTy_id hI]
      · simp [i3]
  obtain ⟨out, parts, h1, h2, h3⟩ := key d.layers hv hg
  have hr : F.onDiagram d = .ok ⟨d.dom, d.cod, out⟩ := by
    rw [F.onDiagram_eq hd, h1]
    simp [Except.map, onTy_id hI]
  refine ⟨⟨d.dom, d.cod, out⟩, parts, hr, rfl, rfl, ?_, ?_, ?_, h3⟩
  · have : ∀ (ls : List GLayer) (parts : List GDiagram) (a c : Ty), Chain a ls c →
      List.Forall₂ (fun (l : GLayer) p => Img F l.box p ∧ p.dom = l.box.dom ∧ p.cod = l.box.cod
          ∧ p.WT ∧ p.Valid) ls parts →
      Chain a (List.zipWith (fun (l : GLayer) (p : GDiagram) =>
          p.layers.map (Layer.extend l.left l.right)) ls parts).flatten c := by
      intro ls
      induction ls with
      | nil => intro parts a c hc h; cases h; exact hc
      | cons l ls ih =>
        intro parts a c hc h
        cases h with
        | cons hp hrest =>
          rename_i p parts'
          obtain ⟨_, hpd, hpc, hpw, _⟩ := hp
          simp only [List.zipWith_cons_cons, List.flatten_cons]
          have hw : Chain p.dom p.layers p.cod := hpw
          have := hw.extend l.left l.right
          rw [hpd, hpc] at this
          obtain ⟨ha, hc'⟩ := hc
          subst ha
          exact Chain.append this (ih _ _ _ hc' hrest)
    rw [h3]
    exact this _ _ _ _ hd h2
  · rw [h3]
    have : ∀ (ls : List GLayer) (parts : List GDiagram),
      List.Forall₂ (fun (l : GLayer) p => Img F l.box p ∧ p.dom = l.box.dom ∧ p.cod = l.box.cod
          ∧ p.WT ∧ p.Valid) ls parts →
      ∀ x ∈ (List.zipWith (fun (l : GLayer) (p : GDiagram) =>
          p.layers.map (Layer.extend l.left l.right)) ls parts).flatten, x.box.Valid := by
      intro ls parts h
      induction h with
      | nil => simp
      | cons hp _ ih =>
        simp only [List.zipWith_cons_cons, List.flatten_cons, List.mem_append]
        rintro x (hx | hx)
        · obtain ⟨y, hy, rfl⟩ := List.mem_map.1 hx
          exact hp.2.2.2.2 y hy
        · exact ih x hx
    exact this _ _ h2
  · exact h2.imp (fun _ _ h => ⟨h.1, h.2.1, h.2.2.1⟩)

/-! ## The rewriter -/

theorem rewriterAr_good {rules : List BoxRule} {b : Box} (h : GoodOn rules b) :
    ∃ r, rewriterAr rules b = .ok r ∧ r.dom = b.dom ∧ r.cod = b.cod ∧ (b.Valid → r.WT ∧ r.Valid)
      ∧ Becomes rules b r := by
  induction rules with
  | nil =>
    refine ⟨_, rfl, rfl, rfl, fun hv => ⟨WT.ofBox b, ?_⟩, .inr ⟨by intro r hr; simp at hr, rfl⟩⟩
    intro x hx
    have hx : x = ⟨[], b, []⟩ := by simpa [ofBox] using hx
    subst hx; exact hv
  | cons ru rules ih =>
    obtain ⟨o, h1, h2⟩ := h ru (by simp)
    cases o with
    | some d =>
      refine ⟨d, ?_, (h2 d rfl).1, (h2 d rfl).2.1, fun _ => (h2 d rfl).2.2, .inl ⟨0, by simp, h1, ?_⟩⟩
      · simp [rewriterAr, h1, ok_bind]
      · intro j hj; omega
    | none =>
      obtain ⟨r, i1, i2, i3, i4, i5⟩ := ih (fun x hx => h x (by simp [hx]))
      refine ⟨r, ?_, i2, i3, i4, ?_⟩
      · simp [rewriterAr, h1, ok_bind, i1]
      · rcases i5 with ⟨i, hi, j1, j2⟩ | ⟨j1, j2⟩
        · refine .inl ⟨i + 1, by simpa using hi, by simpa using j1, ?_⟩
          intro j hj
          cases j with
          | zero => exact h1
          | succ j => simpa using j2 j (by omega)
        · refine .inr ⟨?_, j2⟩
          intro x hx
          rcases List.mem_cons.1 hx with rfl | hx
          · exact h1
          · exact j1 x hx

theorem seen_valid {b b0 : Box} (h : seen b = some b0) : b0.Valid := by
  induction b with
  | gen => simp [seen] at h; subst h; trivial
  | word => simp [seen] at h; subst h; trivial
  | daggered b ih => exact ih h
  | _ => simp [seen] at h

theorem img_replaced {rules : List BoxRule} {b : Box} {p : GDiagram} (hg : ∀ b0, seen b = some b0 → GoodOn rules b0)
    (h : Img (rewriterFunctor rules) b p) : Replaced rules b p := by
  induction h with
  | gen n d c z p h =>
    obtain ⟨r, i1, _, _, _, i5⟩ := rewriterAr_good (hg _ rfl)
    have h : rewriterAr rules _ = _ := h
    rw [i1] at h
    cases h
    exact .gen n d c z _ i5
  | word n c z p h =>
    obtain ⟨r, i1, _, _, _, i5⟩ := rewriterAr_good (hg _ rfl)
    have h : rewriterAr rules _ = _ := h
    rw [i1] at h
    cases h
    exact .word n c z _ i5
  | cup => exact .cup _ _ _
  | cap => exact .cap _ _ _
  | swap => exact .swap _ _
  | spider => exact .spider _ _ _
  | daggered b p _ ih => exact .daggered b p (ih hg)

/-- **C35.** For every well-typed diagram and every list of rules that behave on its boxes, rewriting
succeeds, keeps domain and codomain, is well typed, and acts box by box: each box is replaced, in place,
by the answer of the first matching rule, or stays when none matches; structural boxes stay. -/
theorem C35_rewriter (rules : List BoxRule) (d : GDiagram) (hd : d.WT) (hv : d.Valid)
    (hg : ∀ l ∈ d.layers, ∀ b0, seen l.box = some b0 → GoodOn rules b0) :
    ∃ (r : GDiagram) (parts : List GDiagram), rewriter rules d = .ok r
      ∧ r.dom = d.dom ∧ r.cod = d.cod ∧ r.WT ∧ r.Valid
      ∧ List.Forall₂ (fun (l : GLayer) p => Replaced rules l.box p ∧ p.dom = l.box.dom ∧ p.cod = l.box.cod)
          d.layers parts
      ∧ r.layers = (List.zipWith (fun (l : GLayer) (p : GDiagram) =>
          p.layers.map (fun x => (⟨l.left ++ x.left, x.box, x.right ++ l.right⟩ : GLayer))) d.layers parts).flatten := by
  obtain ⟨r, parts, h1, h2, h3, h4, h5, h6, h7⟩ := onDiagram_total (F := rewriterFunctor rules) (fun _ => rfl) d hd hv
    (fun l hl b0 hb => by
      obtain ⟨r, i1, i2, i3, i4, _⟩ := rewriterAr_good (hg l hl b0 hb)
      have hb0 : b0.Valid := seen_valid hb
      exact ⟨r, i1, i2, i3, (i4 hb0).1, (i4 hb0).2⟩)
  refine ⟨r, parts, h1, h2, h3, h4, h5, ?_, h7⟩
  have : ∀ (ls : List GLayer) (parts : List GDiagram),
      (∀ l ∈ ls, ∀ b0, seen l.box = some b0 → GoodOn rules b0) →
      List.Forall₂ (fun (l : GLayer) p => Img (rewriterFunctor rules) l.box p ∧ p.dom = l.box.dom ∧ p.cod = l.box.cod)
        ls parts →
      List.Forall₂ (fun (l : GLayer) p => Replaced rules l.box p ∧ p.dom = l.box.dom ∧ p.cod = l.box.cod)
          ls parts := by
    intro ls parts hg h
    induction h with
    | nil => exact .nil
    | cons hp _ ih =>
      exact .cons ⟨img_replaced (hg _ (by simp)) hp.1, hp.2⟩ (ih (fun l hl => hg l (by simp [hl])))
  exact this _ _ hg h6

/-- **C35, any rules.** Whatever the rules do, an answer of the rewriter has the domain and codomain of its
argument (a rule that changes the type makes the call raise). -/
theorem C35_types_always (rules : List BoxRule) (d r : GDiagram) (h : rewriter rules d = .ok r) :
    r.dom = d.dom ∧ r.cod = d.cod := by
  have := (rewriterFunctor rules).C17_arrows d r h
  exact ⟨by rw [this.1]; exact onTy_id (fun _ => rfl) _, by rw [this.2.1]; exact onTy_id (fun _ => rfl) _⟩

theorem replaced_self {rules : List BoxRule} {b : Box} (hs : b.Simple) (hn : ∀ b0, seen b = some b0 → NoMatch rules b0)
    {p : GDiagram} (h : Replaced rules b p) : p = ofBox b := by
  have hrot : ∀ (z : Int) (t : Ty), Ty.rotate z (Ty.rotate (-z) t) = t := by
    intro z t
    rw [Ty.rotate_rotate]
    have : -z + z = 0 := by omega
    rw [this, Ty.rotate_zero]
  have noFirst : ∀ b0 q, NoMatch rules b0 → ¬ FirstMatch rules b0 q := by
    rintro b0 q h ⟨i, hi, h1, _⟩
    have := h _ (List.getElem_mem hi)
    rw [h1] at this; cases this
  have genCase : ∀ n d c z q, NoMatch rules (.gen n (Ty.rotate (-z) d) (Ty.rotate (-z) c) 0) →
      Becomes rules (.gen n (Ty.rotate (-z) d) (Ty.rotate (-z) c) 0) q → q.rotate z = ofBox (.gen n d c z) := by
    intro n d c z q hn hb
    rcases hb with hb | ⟨_, rfl⟩
    · exact absurd hb (noFirst _ _ hn)
    · simp [GDiagram.rotate, ofBox, GLayer.rotate, Box.rotate, hrot, BoxSig.dom, BoxSig.cod, Box.dom, Box.cod, Ty.rotate_nil]
  have wordCase : ∀ n c z q, NoMatch rules (.word n (Ty.rotate (-z) c) 0) →
      Becomes rules (.word n (Ty.rotate (-z) c) 0) q → q.rotate z = ofBox (.word n c z) := by
    intro n c z q hn hb
    rcases hb with hb | ⟨_, rfl⟩
    · exact absurd hb (noFirst _ _ hn)
    · simp [GDiagram.rotate, ofBox, GLayer.rotate, Box.rotate, hrot, BoxSig.dom, BoxSig.cod, Box.dom, Box.cod, Ty.rotate_nil]
  cases h with
  | gen n d c z p h => exact genCase _ _ _ _ _ (hn _ rfl) h
  | word n c z p h => exact wordCase _ _ _ _ (hn _ rfl) h
  | cup => rfl
  | cap => rfl
  | swap => rfl
  | spider => rfl
  | daggered b p h =>
    cases h with
    | gen n d c z p h =>
      rw [genCase _ _ _ _ _ (hn _ rfl) h]; rfl
    | word n c z p h =>
      rw [wordCase _ _ _ _ (hn _ rfl) h]; rfl
    | _ => exact absurd hs (by simp [Box.Simple])

/-- **C35 (nothing to do).** If no rule applies to any box, the diagram comes back unchanged. -/
theorem C35_unmatched (rules : List BoxRule) (d : GDiagram) (hd : d.WT) (hv : d.Valid)
    (hs : ∀ l ∈ d.layers, l.box.Simple)
    (hn : ∀ l ∈ d.layers, ∀ b0, seen l.box = some b0 → NoMatch rules b0) :
    rewriter rules d = .ok d := by
  obtain ⟨r, parts, h1, h2, h3, _, _, h6, h7⟩ := C35_rewriter rules d hd hv (fun l hl b0 hb rule hr =>
    ⟨none, hn l hl b0 hb rule hr, by intro r hr; cases hr⟩)
  rw [h1]
  have : ∀ (ls : List GLayer) (parts : List GDiagram), (∀ l ∈ ls, l.box.Simple) →
      (∀ l ∈ ls, ∀ b0, seen l.box = some b0 → NoMatch rules b0) →
      List.Forall₂ (fun (l : GLayer) p => Replaced rules l.box p ∧ p.dom = l.box.dom ∧ p.cod = l.box.cod)
        ls parts →
      (List.zipWith (fun (l : GLayer) (p : GDiagram) =>
          p.layers.map (fun x => (⟨l.left ++ x.left, x.box, x.right ++ l.right⟩ : GLayer))) ls parts).flatten = ls := by
    intro ls parts hs hn h
    induction h with
    | nil => rfl
    | cons hp _ ih =>
      rw [List.zipWith_cons_cons, List.flatten_cons, ih (fun l hl => hs l (by simp [hl])) (fun l hl => hn l (by simp [hl])),
        replaced_self (hs _ (by simp)) (hn _ (by simp)) hp.1]
      simp [ofBox]
  rw [this _ _ hs hn h6] at h7
  rcases r with ⟨a, b, c⟩
  rcases d with ⟨a', b', c'⟩
  simp only at h2 h3 h7
  subst h2 h3 h7
  rfl

end Rewrite
end Lambeq
