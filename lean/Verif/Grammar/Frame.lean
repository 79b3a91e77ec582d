import Verif.Grammar.BoxProps

/-!
# Frames: C23

Models `lambeq/backend/grammar.py`: `Frame` (2108-2235), `DaggeredFrame` (2238-2293), and the `rotate`
and `dagger` methods of layers and diagrams (622-638, 1050-1071) with frames among the boxes.
-/

namespace Lambeq
set_option linter.unusedSimpArgs false

mutual
/-- Boxes including frames. `base` are the classes of `Verif.Grammar.Box`. -/
inductive FBox
  | base (b : Box)
  | frame (name : String) (dom cod : Ty) (components : List Comp) (z : Int)
  | daggeredFrame (frame : FBox)
/-- grammar.py:577-592 -/
inductive FLayer
  | mk (left : Ty) (box : FBox) (right : Ty)
/-- A component of a frame (`Diagrammable`): a box or a diagram. -/
inductive Comp
  | box (b : FBox)
  | diag (dom cod : Ty) (layers : List FLayer)
end

namespace FBox

mutual
/-- grammar.py:2138, 2258 -/
def dom : FBox → Ty
  | base b => b.dom
  | frame _ d _ _ _ => d
  | daggeredFrame f => cod f
/-- grammar.py:2139, 2259 -/
def cod : FBox → Ty
  | base b => b.cod
  | frame _ _ c _ _ => c
  | daggeredFrame f => dom f
end

/-- grammar.py:2160-2161, 2267-2268, and `Box.dagger` for the other classes. -/
def dagger : FBox → FBox
  | base b => base b.dagger
  | frame n d c cs z => daggeredFrame (frame n d c cs z)
  | daggeredFrame f => f

mutual
/-- The `rotate` methods. With `rev = true` this is the code: `Frame.rotate` (grammar.py:2151-2158) reverses
the components, `DaggeredFrame.rotate` (2263-2265) rotates the inner frame. With `rev = false` the
components are rotated but stay in place; this is only used in specifications. The adjointness checks of
cups and caps are left out (they never fail on constructed boxes, C08). -/
def rotWith (rev : Bool) (z : Int) : FBox → FBox
  | base b => base (b.rotate z)
  | frame n d c cs z0 =>
    frame n (Ty.rotate z d) (Ty.rotate z c)
      (if rev then (rotCs rev z cs).reverse else rotCs rev z cs) (z0 + z)
  | daggeredFrame f => daggeredFrame (rotWith rev z f)
/-- grammar.py:622-632 -/
def rotLayer (rev : Bool) (z : Int) : FLayer → FLayer
  | .mk l b r =>
    if z % 2 = 1 then .mk (Ty.rotate z r) (rotWith rev z b) (Ty.rotate z l)
    else .mk (Ty.rotate z l) (rotWith rev z b) (Ty.rotate z r)
/-- `Box.rotate` or `Diagram.rotate` (grammar.py:1050-1054) of a component. -/
def rotC (rev : Bool) (z : Int) : Comp → Comp
  | .box b => .box (rotWith rev z b)
  | .diag d c ls => .diag (Ty.rotate z d) (Ty.rotate z c) (rotLs rev z ls)
/-- The list comprehension of grammar.py:2157-2158, before the reversal. -/
def rotCs (rev : Bool) (z : Int) : List Comp → List Comp
  | [] => []
  | c :: cs => rotC rev z c :: rotCs rev z cs
/-- The list comprehension of grammar.py:1054. -/
def rotLs (rev : Bool) (z : Int) : List FLayer → List FLayer
  | [] => []
  | l :: ls => rotLayer rev z l :: rotLs rev z ls
end

/-- `box.rotate(z)` -/
def rotate (z : Int) (b : FBox) : FBox := rotWith true z b

/-- `component.rotate(z)` -/
def rotateComp (z : Int) (c : Comp) : Comp := rotC true z c

/-- The components of a frame (empty for other boxes); grammar.py:2140, 2261. -/
def components : FBox → List Comp
  | frame _ _ _ cs _ => cs
  | _ => []

theorem rotCs_eq (rev : Bool) (z : Int) (cs : List Comp) : rotCs rev z cs = cs.map (rotC rev z) := by
  induction cs with
  | nil => simp [rotCs]
  | cons c cs ih => simp [rotCs, ih]

theorem rotLs_eq (rev : Bool) (z : Int) (ls : List FLayer) : rotLs rev z ls = ls.map (rotLayer rev z) := by
  induction ls with
  | nil => simp [rotLs]
  | cons c cs ih => simp [rotLs, ih]

/-- The specification: rotation that never reorders components. -/
def straight (z : Int) (b : FBox) : FBox := rotWith false z b

mutual
theorem rot_rot (r1 r2 : Bool) (m n : Int) (b : FBox) :
    rotWith r2 n (rotWith r1 m b) = rotWith (r1 != r2) (m + n) b := by
  match b with
  | base b => simp [rotWith, Box.rotate_rotate]
  | frame nm d c cs z0 =>
    have h := rotCs_rot r1 r2 m n cs
    have h' : rotCs r2 n (rotCs r1 m cs).reverse = (rotCs (r1 != r2) (m + n) cs).reverse := by
      rw [rotCs_eq r2 n, List.map_reverse, ← rotCs_eq, h]
    cases r1 <;> cases r2 <;>
      simp [rotWith, Ty.rotate_rotate, Int.add_assoc, h, h'] <;> simpa using h
  | daggeredFrame f => simp [rotWith, rot_rot r1 r2 m n f]
theorem rotLayer_rot (r1 r2 : Bool) (m n : Int) (l : FLayer) :
    rotLayer r2 n (rotLayer r1 m l) = rotLayer (r1 != r2) (m + n) l := by
  match l with
  | .mk l b r =>
    have := rot_rot r1 r2 m n b
    rcases Ty.odd_or_even m with hm | hm <;> rcases Ty.odd_or_even n with hn | hn
    · have h : ¬ ((m + n) % 2 = 1) := by omega
      simp [rotLayer, hm, hn, h, Ty.rotate_rotate, this]
    · have h : ((m + n) % 2 = 1) := by omega
      simp [rotLayer, hm, hn, h, Ty.rotate_rotate, this]
    · have h : ((m + n) % 2 = 1) := by omega
      simp [rotLayer, hm, hn, h, Ty.rotate_rotate, this]
    · have h : ¬ ((m + n) % 2 = 1) := by omega
      simp [rotLayer, hm, hn, h, Ty.rotate_rotate, this]
theorem rotC_rot (r1 r2 : Bool) (m n : Int) (c : Comp) :
    rotC r2 n (rotC r1 m c) = rotC (r1 != r2) (m + n) c := by
  match c with
  | .box b => simp [rotC, rot_rot r1 r2 m n b]
  | .diag d c ls => simp [rotC, Ty.rotate_rotate, rotLs_rot r1 r2 m n ls]
theorem rotCs_rot (r1 r2 : Bool) (m n : Int) (cs : List Comp) :
    rotCs r2 n (rotCs r1 m cs) = rotCs (r1 != r2) (m + n) cs := by
  match cs with
  | [] => simp [rotCs]
  | c :: cs => simp [rotCs, rotC_rot r1 r2 m n c, rotCs_rot r1 r2 m n cs]
theorem rotLs_rot (r1 r2 : Bool) (m n : Int) (ls : List FLayer) :
    rotLs r2 n (rotLs r1 m ls) = rotLs (r1 != r2) (m + n) ls := by
  match ls with
  | [] => simp [rotLs]
  | l :: ls => simp [rotLs, rotLayer_rot r1 r2 m n l, rotLs_rot r1 r2 m n ls]
end

mutual
theorem straight_zero (b : FBox) : rotWith false 0 b = b := by
  match b with
  | base b => simp [rotWith, Box.rotate_zero]
  | frame nm d c cs z0 => simp [rotWith, straightCs_zero cs]
  | daggeredFrame f => simp [rotWith, straight_zero f]
theorem straightL_zero (l : FLayer) : rotLayer false 0 l = l := by
  match l with
  | .mk l b r => simp [rotLayer, straight_zero b]
theorem straightC_zero (c : Comp) : rotC false 0 c = c := by
  match c with
  | .box b => simp [rotC, straight_zero b]
  | .diag d c ls => simp [rotC, straightLs_zero ls]
theorem straightCs_zero (cs : List Comp) : rotCs false 0 cs = cs := by
  match cs with
  | [] => simp [rotCs]
  | c :: cs => simp [rotCs, straightC_zero c, straightCs_zero cs]
theorem straightLs_zero (ls : List FLayer) : rotLs false 0 ls = ls := by
  match ls with
  | [] => simp [rotLs]
  | l :: ls => simp [rotLs, straightL_zero l, straightLs_zero ls]
end

mutual
/-- Every frame in the box, at any depth, has at most one component. -/
def Thin : FBox → Prop
  | base _ => True
  | frame _ _ _ cs _ => cs.length ≤ 1 ∧ ThinCs cs
  | daggeredFrame f => Thin f
def ThinL : FLayer → Prop
  | .mk _ b _ => Thin b
def ThinC : Comp → Prop
  | .box b => Thin b
  | .diag _ _ ls => ThinLs ls
def ThinCs : List Comp → Prop
  | [] => True
  | c :: cs => ThinC c ∧ ThinCs cs
def ThinLs : List FLayer → Prop
  | [] => True
  | l :: ls => ThinL l ∧ ThinLs ls
end

mutual
theorem thin_rot (z : Int) (b : FBox) (h : Thin b) : rotWith true z b = rotWith false z b := by
  match b with
  | base b => rfl
  | frame nm d c cs z0 =>
    obtain ⟨h1, h2⟩ := h
    have := thinCs_rot z cs h2
    simp only [rotWith, this, if_true, Bool.false_eq_true, if_false]
    rcases cs with _ | ⟨c, _ | _⟩
    · simp [rotCs]
    · simp [rotCs]
    · simp at h1
  | daggeredFrame f => simp [rotWith, thin_rot z f h]
theorem thinL_rot (z : Int) (l : FLayer) (h : ThinL l) : rotLayer true z l = rotLayer false z l := by
  match l with
  | .mk l b r => simp [rotLayer, thin_rot z b h]
theorem thinC_rot (z : Int) (c : Comp) (h : ThinC c) : rotC true z c = rotC false z c := by
  match c with
  | .box b => simp [rotC, thin_rot z b h]
  | .diag d c ls => simp [rotC, thinLs_rot z ls h]
theorem thinCs_rot (z : Int) (cs : List Comp) (h : ThinCs cs) : rotCs true z cs = rotCs false z cs := by
  match cs with
  | [] => simp [rotCs]
  | c :: cs => simp [rotCs, thinC_rot z c h.1, thinCs_rot z cs h.2]
theorem thinLs_rot (z : Int) (ls : List FLayer) (h : ThinLs ls) : rotLs true z ls = rotLs false z ls := by
  match ls with
  | [] => simp [rotLs]
  | l :: ls => simp [rotLs, thinL_rot z l h.1, thinLs_rot z ls h.2]
end

theorem rotate_typing (z : Int) (b : FBox) :
    (b.rotate z).dom = Ty.rotate z b.dom ∧ (b.rotate z).cod = Ty.rotate z b.cod := by
  have key : ∀ b : FBox, (rotWith true z b).dom = Ty.rotate z b.dom ∧ (rotWith true z b).cod = Ty.rotate z b.cod := by
    intro b
    induction b using FBox.rec (motive_2 := fun _ => True) (motive_3 := fun _ => True)
      (motive_4 := fun _ => True) (motive_5 := fun _ => True) with
    | base b => simpa [rotWith, dom, cod] using Box.rotate_dom_cod z b
    | frame n d c cs z0 => simp [rotWith, dom, cod]
    | daggeredFrame f ih => exact ⟨ih.2, ih.1⟩
    | _ => trivial
  exact key b

/-- **C23 (what holds).** For every box, including frames nested to any depth, and all integers:
rotating twice rotates types and components by the sum and leaves the components in their original
places; hence `.l.r` and `.r.l` are the identity; `dom` and `cod` rotate; rotation commutes with `dagger`;
the components of a rotated frame are a permutation of the rotated components. If every frame has at most
one component, rotation is an action of the integers. -/
theorem C23_frame_rotate_partial (b : FBox) (m n : Int) :
    (b.rotate m).rotate n = straight (m + n) b
    ∧ (b.rotate (-1)).rotate 1 = b ∧ (b.rotate 1).rotate (-1) = b
    ∧ (b.rotate n).dom = Ty.rotate n b.dom ∧ (b.rotate n).cod = Ty.rotate n b.cod
    ∧ (∀ nm d c cs z, b = frame nm d c cs z → (b.rotate n).dagger = b.dagger.rotate n)
    ∧ (b.rotate n).components.Perm (b.components.map (rotateComp n))
    ∧ (Thin b → b.rotate 0 = b ∧ (b.rotate m).rotate n = b.rotate (m + n)) := by
  refine ⟨rot_rot true true m n b, ?_, ?_, (rotate_typing n b).1, (rotate_typing n b).2, ?_, ?_, ?_⟩
  · have := rot_rot true true (-1) 1 b
    simpa [rotate, straight_zero] using this
  · have := rot_rot true true 1 (-1) b
    simpa [rotate, straight_zero] using this
  · rintro nm d c cs z rfl
    simp [rotate, rotWith, dagger]
  · cases b with
    | base b => simp [rotate, rotWith, components]
    | frame nm d c cs z =>
      simp only [rotate, rotWith, components, if_true]
      rw [rotCs_eq]
      exact List.reverse_perm _
    | daggeredFrame f => simp [rotate, rotWith, components]
  · intro h
    refine ⟨?_, ?_⟩
    · rw [rotate, thin_rot 0 b h, straight_zero]
    · have := rot_rot true true m n b
      simp only [bne_self_eq_false] at this
      rw [rotate, rotate, this, rotate, thin_rot (m + n) b h]

/-- A frame with two components. -/
def twoHoles : FBox := frame "f" [] [⟨"s", 0⟩]
  [.box (.base (.word "a" [⟨"n", 0⟩] 0)), .box (.base (.word "b" [⟨"n", 0⟩] 0))] 0

/-- **C23, refuted part.** `frame.rotate(0)` is not the frame, and `frame.rotate(1).rotate(1)` is not
`frame.rotate(2)`: every call reverses the components, whatever the parity of `z`. -/
theorem C23_rotate_action_refuted :
    twoHoles.rotate 0 ≠ twoHoles ∧ (twoHoles.rotate 1).rotate 1 ≠ twoHoles.rotate 2 := by
  constructor
  · intro h
    simp [twoHoles, rotate, rotWith, rotCs, rotC, Box.rotate] at h
  · intro h
    simp [twoHoles, rotate, rotWith, rotCs, rotC, Box.rotate] at h

/-- Non-vacuity: a thin frame nested in a frame. -/
example : Thin (frame "f" [] [] [.diag [] [] [.mk [] (frame "g" [] [] [.box (.base (.word "a" [] 0))] 0) []]] 0) := by
  simp [Thin, ThinCs, ThinC, ThinLs, ThinL]

end FBox
end Lambeq
