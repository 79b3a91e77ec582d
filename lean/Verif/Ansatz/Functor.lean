import Verif.Rewrite.Substitution

/-!
# Functors from the grammar category to another category

Models `lambeq/backend/grammar.py`: `Functor` (1976-2105) with `target_category` another category than the grammar category, and the methods
`apply_functor` of `Ty` (347-356), `Box` (527-531), `Diagram` (1319-1327), `Cap` (1501-1506), `Cup` (1630-1635), `Daggered` (1691-1692), `Spider`
(1790-1795), `Swap` (1884-1888).

Simplifications, as in `Grammar/Functor.lean`: `ob` is called on names, `ar` on plain boxes and words of winding number 0; both may raise. The caches
are left out. Results on boxes are diagrams (`to_diagram` applied). No frames.
-/

namespace Lambeq
open Diagram
set_option linter.unusedSectionVars false

/-- A functor with what it uses of the target category: rotation of types and diagrams, daggers, and the special boxes. -/
structure TFunctor (O B : Type) where
  ob : String → Except PyErr (List O)
  ar : Box → Except PyErr (Diagram O B)
  rotTy : Int → List O → List O
  rotate : Int → Diagram O B → Except PyErr (Diagram O B)
  dagger : Diagram O B → Except PyErr (Diagram O B)
  cup : List O → List O → Bool → Except PyErr (Diagram O B)
  cap : List O → List O → Bool → Except PyErr (Diagram O B)
  swap : List O → List O → Except PyErr (Diagram O B)
  spider : List O → Nat → Nat → Except PyErr (Diagram O B)

namespace TFunctor
variable {O B : Type} [BoxSig B O] [DecidableEq O] (F : TFunctor O B)

/-- grammar.py:353-356: an atomic type. -/
def onOb (o : Ob) : Except PyErr (List O) := match F.ob o.name with
  | .error e => .error e
  | .ok t => .ok (if o.z ≠ 0 then F.rotTy o.z t else t)

/-- grammar.py:2048-2064 with 347-352. -/
def onTy : Ty → Except PyErr (List O)
  | [] => .ok []
  | o :: t => match F.onOb o with
    | .error e => .error e
    | .ok a => match onTy t with
      | .error e => .error e
      | .ok b => .ok (a ++ b)

/-- grammar.py:2083-2090: the check at the end of `ar_with_cache`. -/
def check (dom cod : Ty) (d : Diagram O B) : Except PyErr (Diagram O B) := do
  let c ← F.onTy cod
  let a ← F.onTy dom
  if d.cod ≠ c ∨ d.dom ≠ a then .error .typeError else .ok d

/-- `functor(box)`: 527-531 for plain boxes and words, and the overrides of the other classes, each followed by the check. -/
def onBox : Box → Except PyErr (Diagram O B)
  | .gen n d c z => do
      let r ← (if z ≠ 0 then do
          let r0 ← F.ar (.gen n (Ty.rotate (-z) d) (Ty.rotate (-z) c) (z + -z))
          let r0 ← F.check (Ty.rotate (-z) d) (Ty.rotate (-z) c) r0
          F.rotate z r0
        else F.ar (.gen n d c z))
      F.check d c r
  | .word n c z => do
      let r ← (if z ≠ 0 then do
          let r0 ← F.ar (.word n (Ty.rotate (-z) c) (z + -z))
          let r0 ← F.check [] (Ty.rotate (-z) c) r0
          F.rotate z r0
        else F.ar (.word n c z))
      F.check [] c r
  | .cup l r rev => do
      let a ← F.onTy [l]
      let b ← F.onTy [r]
      let d ← F.cup a b rev
      F.check [l, r] [] d
  | .cap l r rev => do
      let a ← F.onTy [l]
      let b ← F.onTy [r]
      let d ← F.cap a b rev
      F.check [] [l, r] d
  | .swap l r => do
      let a ← F.onTy [l]
      let b ← F.onTy [r]
      let d ← F.swap a b
      F.check [l, r] [r, l] d
  | .spider t n m => do
      let a ← F.onTy [t]
      let d ← F.spider a n m
      F.check (List.replicate n t) (List.replicate m t) d
  | .daggered b => do
      let r ← onBox b
      let d ← F.dagger r
      F.check b.cod b.dom d

/-- One step of the loop of `Diagram.apply_functor`, grammar.py:1322-1326. -/
def layerStep (acc : Diagram O B) (l : GLayer) : Except PyErr (Diagram O B) := do
  let a ← F.onTy l.left
  let b ← F.onBox l.box
  let c ← F.onTy l.right
  andThen acc (tensor (tensor (Diagram.id a) b) (Diagram.id c))

/-- `functor(diagram)`: grammar.py:2076-2090 with 1319-1327. -/
def onDiagram (d : GDiagram) : Except PyErr (Diagram O B) := do
  let a ← F.onTy d.dom
  let r ← (if d.layers.isEmpty then .ok (Diagram.id a) else d.layers.foldlM F.layerStep (Diagram.id a))
  F.check d.dom d.cod r

end TFunctor

/-! ## Specification: when a functor preserves the meaning

`J` gives meaning to grammar diagrams and `I` to diagrams of the target. Every atomic type `o` goes to the type `T o` of the target, and a basis index
of `o` is written as a list of basis indices of `T o` by `enc o`. -/

section
variable {O B R : Type} [BoxSig B O] [DecidableEq O] [CommSemiring R]

/-- The image of a type. -/
def imageTy (T : Ob → List O) (t : Ty) : List O := (t.map T).flatten

/-- The index of the target that corresponds to an index of the source. -/
def encTy (enc : Ob → Nat → List Nat) : Ty → List Nat → List Nat
  | o :: t, n :: x => enc o n ++ encTy enc t x
  | _, _ => []

/-- The functor maps the atomic types with the property `S` as `T` says, and `enc` numbers their bases. -/
structure Encodes (F : TFunctor O B) (I : Interp O B R) (J : Interp Ob Box R) (T : Ob → List O) (enc : Ob → Nat → List Nat) (S : Ob → Prop) : Prop where
  ob : ∀ o, S o → F.onOb o = .ok (T o)
  maps : ∀ o, S o → ∀ n < J.dim o, enc o n ∈ I.idx (T o)
  inj : ∀ o, S o → ∀ n < J.dim o, ∀ m < J.dim o, enc o n = enc o m → n = m
  surj : ∀ o, S o → ∀ y ∈ I.idx (T o), ∃ n < J.dim o, enc o n = y

/-- The functor maps the box `b` to a diagram with the meaning of `b`, all of whose boxes have the property `P`. -/
def BoxOK (F : TFunctor O B) (I : Interp O B R) (J : Interp Ob Box R) (T : Ob → List O) (enc : Ob → Nat → List Nat) (P : B → Prop) (b : Box) : Prop :=
  ∃ p, F.onBox b = .ok p ∧ p.WT ∧ p.dom = imageTy T b.dom ∧ p.cod = imageTy T b.cod ∧ (∀ l ∈ p.layers, P l.box) ∧
    ∀ x ∈ J.idx b.dom, ∀ y ∈ J.idx b.cod, I.mat p (encTy enc b.dom x) (encTy enc b.cod y) = J.ten b x y

variable {F : TFunctor O B} {I : Interp O B R} {J : Interp Ob Box R} {T : Ob → List O} {enc : Ob → Nat → List Nat} {S : Ob → Prop} {P : B → Prop}

theorem imageTy_append (T : Ob → List O) (t u : Ty) : imageTy T (t ++ u) = imageTy T t ++ imageTy T u := by simp [imageTy]

theorem encTy_append (enc : Ob → Nat → List Nat) : ∀ (t u : Ty) (x y : List Nat), x.length = t.length → encTy enc (t ++ u) (x ++ y) = encTy enc t x ++ encTy enc u y
  | [], u, [], y, _ => rfl
  | o :: t, u, n :: x, y, h => by
      rw [List.cons_append, List.cons_append, encTy, encTy, encTy_append enc t u x y (by simpa using h), List.append_assoc]

theorem Encodes.onTy (h : Encodes F I J T enc S) : ∀ {t : Ty}, (∀ o ∈ t, S o) → F.onTy t = .ok (imageTy T t)
  | [], _ => rfl
  | o :: t, hs => by
      rw [TFunctor.onTy, h.ob o (hs o (by simp)), h.onTy (fun p hp => hs p (List.mem_cons_of_mem _ hp))]
      rfl

theorem Encodes.mem (h : Encodes F I J T enc S) : ∀ {t : Ty} {x : List Nat}, (∀ o ∈ t, S o) → x ∈ J.idx t → encTy enc t x ∈ I.idx (imageTy T t)
  | [], x, _, hx => by
      have := J.length_of_mem hx
      obtain rfl : x = [] := List.length_eq_zero_iff.1 this
      simp [encTy, imageTy, Interp.idx]
  | o :: t, x, hs, hx => by
      rw [Interp.mem_idx] at hx
      cases hx with
      | cons h1 h2 =>
        exact I.append_mem (h.maps o (hs o (by simp)) _ h1) (h.mem (fun p hp => hs p (List.mem_cons_of_mem _ hp)) ((J.mem_idx _ _).2 h2))

theorem Encodes.inj_ty (h : Encodes F I J T enc S) : ∀ {t : Ty} {x y : List Nat}, (∀ o ∈ t, S o) → x ∈ J.idx t → y ∈ J.idx t →
    encTy enc t x = encTy enc t y → x = y
  | [], x, y, _, hx, hy, _ => by
      rw [List.length_eq_zero_iff.1 (J.length_of_mem hx), List.length_eq_zero_iff.1 (J.length_of_mem hy)]
  | o :: t, x, y, hs, hx, hy, e => by
      rw [Interp.mem_idx] at hx hy
      cases hx with
      | @cons _ n _ x h1 h2 =>
        cases hy with
        | @cons _ m _ y k1 k2 =>
          have hso := hs o (by simp)
          have l1 := I.length_of_mem (h.maps o hso _ h1)
          have l2 := I.length_of_mem (h.maps o hso _ k1)
          obtain ⟨e1, e2⟩ := List.append_inj e (by rw [l1, l2])
          rw [h.inj o hso _ h1 _ k1 e1, h.inj_ty (fun p hp => hs p (List.mem_cons_of_mem _ hp)) ((J.mem_idx _ _).2 h2) ((J.mem_idx _ _).2 k2) e2]

theorem Encodes.surj_ty (h : Encodes F I J T enc S) : ∀ {t : Ty} {y : List Nat}, (∀ o ∈ t, S o) → y ∈ I.idx (imageTy T t) →
    ∃ x ∈ J.idx t, encTy enc t x = y
  | [], y, _, hy => by
      have := I.length_of_mem hy
      obtain rfl : y = [] := List.length_eq_zero_iff.1 this
      exact ⟨[], by simp [Interp.idx], rfl⟩
  | o :: t, y, hs, hy => by
      obtain ⟨u, v, rfl, hu, hv⟩ := I.mem_append (a := T o) (b := imageTy T t) hy
      obtain ⟨n, hn, rfl⟩ := h.surj o (hs o (by simp)) u hu
      obtain ⟨x, hx, rfl⟩ := h.surj_ty (fun p hp => hs p (List.mem_cons_of_mem _ hp)) hv
      exact ⟨n :: x, (J.mem_idx _ _).2 (.cons hn ((J.mem_idx _ _).1 hx)), rfl⟩

/-- A sum over the basis of the image is a sum over the basis of the type. -/
theorem Encodes.sum (h : Encodes F I J T enc S) {t : Ty} (hs : ∀ o ∈ t, S o) (f : List Nat → R) :
    ∑ k ∈ I.idx (imageTy T t), f k = ∑ x ∈ J.idx t, f (encTy enc t x) :=
  (Finset.sum_bij (fun x _ => encTy enc t x) (fun _ hx => h.mem hs hx) (fun _ ha _ hb e => h.inj_ty hs ha hb e)
    (fun y hy => let ⟨x, hx, e⟩ := h.surj_ty hs hy; ⟨x, hx, e⟩) (fun _ _ => rfl)).symm

theorem tensor3_layers (a c : List O) (p : Diagram O B) :
    (tensor (tensor (Diagram.id a) p) (Diagram.id c)).layers = p.layers.map (Layer.extend a c) := by
  rw [tensor_layers, tensor_layers]
  simp only [Diagram.id, List.map_nil, List.nil_append, List.append_nil, List.map_map]
  exact List.map_congr_left (fun l _ => by simp [Layer.extend])

/-- The loop of the functor. -/
theorem loop_ok (h : Encodes F I J T enc S) (ls : List GLayer) : ∀ {a c : Ty} (acc : Diagram O B), Chain a ls c → (∀ o ∈ a, S o) →
    (∀ l ∈ ls, (∀ o ∈ l.dom, S o) ∧ (∀ o ∈ l.cod, S o) ∧ BoxOK F I J T enc P l.box) → acc.WT → acc.cod = imageTy T a → (∀ l ∈ acc.layers, P l.box) →
    (∀ o ∈ c, S o) ∧ ∃ r, ls.foldlM F.layerStep acc = .ok r ∧ r.WT ∧ r.dom = acc.dom ∧ r.cod = imageTy T c ∧ (∀ l ∈ r.layers, P l.box) ∧
      ∀ v, ∀ y ∈ J.idx c, I.run r.layers v (encTy enc c y) = J.run ls (fun z => I.run acc.layers v (encTy enc a z)) y := by
  induction ls with
  | nil =>
    intro a c acc hc ha _ hw hcod hP
    cases hc
    exact ⟨ha, acc, rfl, hw, rfl, hcod, hP, fun v y _ => rfl⟩
  | cons l ls ih =>
    intro a c acc hc ha hl hw hcod hP
    obtain ⟨e, hc'⟩ := hc
    subst e
    obtain ⟨hd, hcd, p, ep, wp, dp, cp, hPp, hm⟩ := hl l (by simp)
    have hleft : ∀ o ∈ l.left, S o := fun o ho => hd o (by simp [Layer.dom, ho])
    have hright : ∀ o ∈ l.right, S o := fun o ho => hd o (by simp [Layer.dom, ho])
    have hbd : ∀ o ∈ l.box.dom, S o := fun o ho => hd o (List.mem_append_left _ (List.mem_append_right _ ho))
    have hbc : ∀ o ∈ l.box.cod, S o := fun o ho => hcd o (List.mem_append_left _ (List.mem_append_right _ ho))
    let g := tensor (tensor (Diagram.id (imageTy T l.left)) p) (Diagram.id (imageTy T l.right))
    have gw : g.WT := ((WT.id _).tensor wp).tensor (WT.id _)
    have gd : g.dom = imageTy T l.dom := by
      have : l.dom = l.left ++ l.box.dom ++ l.right := rfl
      simp only [g, tensor_dom, Diagram.id, dp, this, imageTy_append]
    have gc : g.cod = imageTy T l.cod := by
      have : l.cod = l.left ++ l.box.cod ++ l.right := rfl
      simp only [g, tensor_cod, Diagram.id, cp, this, imageTy_append]
    have hst : F.layerStep acc l = .ok ⟨acc.dom, g.cod, acc.layers ++ g.layers⟩ := by
      rw [TFunctor.layerStep, h.onTy hleft, h.onTy hright, ep]
      exact andThen_ok_iff.2 ⟨hcod.trans gd.symm, rfl⟩
    have gl : g.layers = p.layers.map (Layer.extend (imageTy T l.left) (imageTy T l.right)) := tensor3_layers _ _ _
    obtain ⟨hS, r, er, wr, dr, cr, Pr, hr⟩ := ih (a := l.cod) (c := c) ⟨acc.dom, g.cod, acc.layers ++ g.layers⟩ hc' hcd
      (fun l' hl' => hl l' (List.mem_cons_of_mem _ hl')) (by
        show Chain acc.dom (acc.layers ++ g.layers) g.cod
        have hg : Chain g.dom g.layers g.cod := gw
        rw [gd, ← hcod] at hg
        exact Chain.append hw hg) gc (by
        intro l' hl'
        rcases List.mem_append.1 hl' with hl' | hl'
        · exact hP l' hl'
        · rw [gl] at hl'
          obtain ⟨l0, h0, rfl⟩ := List.mem_map.1 hl'
          exact hPp l0 h0)
    refine ⟨hS, r, ?_, wr, dr, cr, Pr, fun v y hy => ?_⟩
    · rw [List.foldlM_cons, hst]
      exact er
    · rw [hr v y hy, Interp.run]
      refine J.run_congr hc' (fun z hz => ?_) y hy
      rw [Layer.cod, List.append_assoc] at hz
      obtain ⟨z1, z2, rfl, hz1, hz2⟩ := J.mem_append hz
      obtain ⟨z3, z4, rfl, hz3, hz4⟩ := J.mem_append hz2
      have ecod : encTy enc l.cod (z1 ++ (z3 ++ z4)) = encTy enc l.left z1 ++ (encTy enc l.box.cod z3 ++ encTy enc l.right z4) := by
        have : l.cod = l.left ++ (l.box.cod ++ l.right) := List.append_assoc _ _ _
        rw [this, encTy_append _ _ _ _ _ (J.length_of_mem hz1), encTy_append _ l.box.cod _ _ _ (J.length_of_mem hz3)]
      have hz3' : z3 ∈ J.idx l.box.cod := hz3
      simp only [Interp.run_append]
      rw [ecod, gl, I.run_extend_both _ _ wp _ (I.length_of_mem (h.mem hleft hz1)) (by rw [cp]; exact h.mem hbc hz3') (h.mem hright hz4),
        J.act_split l _ z4 (J.length_of_mem hz1) (J.length_of_mem hz3), dp, h.sum hbd]
      refine Finset.sum_congr rfl (fun k hk => ?_)
      have hk' : k ∈ J.idx l.box.dom := hk
      have edom : encTy enc l.dom (z1 ++ (k ++ z4)) = encTy enc l.left z1 ++ (encTy enc l.box.dom k ++ encTy enc l.right z4) := by
        have : l.dom = l.left ++ (l.box.dom ++ l.right) := List.append_assoc _ _ _
        rw [this, encTy_append _ _ _ _ _ (J.length_of_mem hz1), encTy_append _ _ _ _ _ (J.length_of_mem hk')]
      rw [edom, hm k hk' z3 hz3']

/-- If the functor preserves the meaning of every box of a well-typed diagram, then it preserves the meaning of the diagram. -/
theorem onDiagram_ok (h : Encodes F I J T enc S) {d : GDiagram} (hd : d.WT) (ha : ∀ o ∈ d.dom, S o)
    (hl : ∀ l ∈ d.layers, (∀ o ∈ l.dom, S o) ∧ (∀ o ∈ l.cod, S o) ∧ BoxOK F I J T enc P l.box) :
    (∀ o ∈ d.cod, S o) ∧ ∃ r, F.onDiagram d = .ok r ∧ r.WT ∧ r.dom = imageTy T d.dom ∧ r.cod = imageTy T d.cod ∧ (∀ l ∈ r.layers, P l.box) ∧
      ∀ x ∈ J.idx d.dom, ∀ y ∈ J.idx d.cod, I.mat r (encTy enc d.dom x) (encTy enc d.cod y) = J.mat d x y := by
  obtain ⟨hS, r, er, wr, dr, cr, Pr, hr⟩ := loop_ok h d.layers (Diagram.id (imageTy T d.dom)) hd ha hl (WT.id _) rfl (by simp [Diagram.id])
  refine ⟨hS, r, ?_, wr, dr, cr, Pr, fun x hx y hy => ?_⟩
  · have e : (if d.layers.isEmpty then .ok (Diagram.id (imageTy T d.dom)) else d.layers.foldlM F.layerStep (Diagram.id (imageTy T d.dom))) = .ok r := by
      split
      · rename_i h0
        rw [List.isEmpty_iff.1 h0] at er
        exact er
      · exact er
    rw [TFunctor.onDiagram, h.onTy ha]
    show ((if d.layers.isEmpty then .ok (Diagram.id (imageTy T d.dom)) else d.layers.foldlM F.layerStep (Diagram.id (imageTy T d.dom))) >>= _) = _
    rw [e]
    show F.check d.dom d.cod r = _
    rw [TFunctor.check, h.onTy ha, h.onTy hS]
    show (if r.cod ≠ imageTy T d.cod ∨ r.dom ≠ imageTy T d.dom then _ else _) = _
    rw [if_neg (by rw [cr, dr]; simp [Diagram.id])]
  · rw [Interp.mat, hr _ y hy, Interp.mat]
    refine J.run_congr hd (fun z hz => ?_) y hy
    show (if encTy enc d.dom z = encTy enc d.dom x then (1 : R) else 0) = _
    by_cases e : z = x
    · rw [if_pos e, if_pos (by rw [e])]
    · rw [if_neg e, if_neg (fun e' => e (h.inj_ty ha hz hx e'))]

end
end Lambeq
