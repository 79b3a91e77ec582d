import Verif.Ccg.Rule
import Verif.Ccg.CatTy
import Verif.Grammar.ConstructProps
import Verif.Grammar.FunctorProps

/-!
# C29, C30, C31: CCG rules
-/

namespace Lambeq
open Diagram GDiagram
set_option linter.unusedSimpArgs false
set_option linter.unusedVariables false

namespace Rule
open Cat (plug Ctx slash Admits NoEmpty ctxL ctxR)

/-! ## Specification: the combinatory rules of CCG -/

/-- The textbook rule schemata.  `plug k (Y/Z)` is `Y/Z` under further arguments `k`. -/
inductive Licensed : Rule → List Cat → Cat → Prop
  /-- `X ⟹ X` -/
  | unary (x : Cat) : Licensed .unary [x] x
  /-- `X ⟹ T/(T\X)` -/
  | ftr (x t : Cat) : Licensed .ftr [x] (.over t (.under t x))
  /-- `X ⟹ T\(T/X)` -/
  | btr (x t : Cat) : Licensed .btr [x] (.under t (.over t x))
  /-- `X/Y  Y ⟹ X` -/
  | fa (x y : Cat) : Licensed .fa [.over x y, y] x
  /-- `Y  X\Y ⟹ X` -/
  | ba (x y : Cat) : Licensed .ba [y, .under x y] x
  /-- `X/Y  Y/Z ⟹ X/Z` -/
  | fc (x y z : Cat) : Licensed .fc [.over x y, .over y z] (.over x z)
  /-- `Y\Z  X\Y ⟹ X\Z` -/
  | bc (x y z : Cat) : Licensed .bc [.under y z, .under x y] (.under x z)
  /-- `X/Y  Y\Z ⟹ X\Z` -/
  | fx (x y z : Cat) : Licensed .fx [.over x y, .under y z] (.under x z)
  /-- `Y/Z  X\Y ⟹ X/Z` -/
  | bx (x y z : Cat) : Licensed .bx [.over y z, .under x y] (.over x z)
  /-- `X/Y  (Y/Z)/… ⟹ (X/Z)/…` -/
  | gfc (x y z : Cat) (k : Ctx) (h : ∀ e ∈ k, e.1 = true) :
      Licensed .gfc [.over x y, plug k (.over y z)] (plug k (.over x z))
  /-- `(Y\Z)\…  X\Y ⟹ (X\Z)\…` -/
  | gbc (x y z : Cat) (k : Ctx) (h : ∀ e ∈ k, e.1 = false) :
      Licensed .gbc [plug k (.under y z), .under x y] (plug k (.under x z))
  /-- `X/Y  (Y\Z)|… ⟹ (X\Z)|…` -/
  | gfx (x y z : Cat) (k : Ctx) : Licensed .gfx [.over x y, plug k (.under y z)] (plug k (.under x z))
  /-- `(Y/Z)|…  X\Y ⟹ (X/Z)|…` -/
  | gbx (x y z : Cat) (k : Ctx) : Licensed .gbx [plug k (.over y z), .under x y] (plug k (.over x z))
  /-- `punc  X ⟹ X` -/
  | lp (x : Cat) : Licensed .lp [Cat.PUNC, x] x
  /-- `X  punc ⟹ X` -/
  | rp (x : Cat) : Licensed .rp [x, Cat.PUNC] x

/-- The wires entering a rule: those of its premises side by side; removed punctuation has none. -/
def wires : Rule → List Cat → Ty
  | .lp, [_, x] => x.toTy
  | .rp, [x, _] => x.toTy
  | _, dom => (dom.map Cat.toTy).flatten

/-- A wire box: a cup or cap between adjacent adjoints, or a swap. -/
def WireBox (b : Box) : Prop :=
  (∃ x y, b = .cup x y false ∧ [x] = Ty.l [y]) ∨ (∃ x y, b = .cap x y false ∧ [x] = Ty.r [y]) ∨
  ∃ x y, b = .swap x y

/-! ## Proofs -/

/-- Well typed and made of wire boxes only. -/
def Good (d : GDiagram) : Prop := d.WT ∧ ∀ b ∈ d.boxes, WireBox b

theorem Good.id (t : Ty) : Good (Diagram.id t) := ⟨WT.id t, by simp [boxes_id]⟩

theorem Good.tensor {f g : GDiagram} (hf : Good f) (hg : Good g) : Good (Diagram.tensor f g) :=
  ⟨hf.1.tensor hg.1, by
    rw [boxes_tensor]; intro b hb
    rcases List.mem_append.1 hb with h | h
    · exact hf.2 b h
    · exact hg.2 b h⟩

theorem Good.andThen {f g r : GDiagram} (hf : Good f) (hg : Good g) (h : Diagram.andThen f g = .ok r) : Good r := by
  refine ⟨hf.1.andThen hg.1 h, ?_⟩
  obtain ⟨_, rfl⟩ := andThen_ok_iff.1 h
  intro b hb
  simp only [Diagram.boxes, List.map_append, List.mem_append] at hb
  rcases hb with h | h
  · exact hf.2 b h
  · exact hg.2 b h

theorem Good.cup {a b : Ty} {d : GDiagram} (h : mkCup a b false = .ok d) : Good d ∧ d.dom = a ++ b ∧ d.cod = [] := by
  by_cases hab : a = Ty.l b
  · obtain ⟨d', e, h1, h2, h3, _, _, h4⟩ := (C13_cups a b).2 hab
    rw [e] at h
    simp only [Except.ok.injEq] at h
    subst h
    refine ⟨⟨h3, ?_⟩, h1, h2⟩
    intro x hx
    obtain ⟨l, hl, rfl⟩ := List.mem_map.1 hx
    exact .inl (h4 l hl)
  · rw [(C13_cups a b).1 hab] at h; simp at h

theorem Good.cap {a b : Ty} {d : GDiagram} (h : mkCap a b false = .ok d) : Good d ∧ d.dom = [] ∧ d.cod = a ++ b := by
  by_cases hab : a = Ty.r b
  · obtain ⟨d', e, h1, h2, h3, _, _, h4⟩ := (C13_caps a b).2 hab
    rw [e] at h
    simp only [Except.ok.injEq] at h
    subst h
    refine ⟨⟨h3, ?_⟩, h1, h2⟩
    intro x hx
    obtain ⟨l, hl, rfl⟩ := List.mem_map.1 hx
    exact .inr (.inl (h4 l hl))
  · rw [(C13_caps a b).1 hab] at h; simp at h

theorem Good.swap {a b : Ty} {d : GDiagram} (h : mkSwap a b = .ok d) : Good d ∧ d.dom = a ++ b ∧ d.cod = b ++ a := by
  obtain ⟨d', e, h1, h2, h3, h4, _⟩ := C12_swap a b
  rw [e] at h
  simp only [Except.ok.injEq] at h
  subst h
  refine ⟨⟨h3, ?_⟩, h1, h2⟩
  intro x hx
  obtain ⟨l, hl, rfl⟩ := List.mem_map.1 hx
  exact .inr (.inr (h4 l hl))

theorem map_ok {α β : Type} {x : Except PyErr α} {f : α → β} {r : β} (h : x.map f = .ok r) :
    ∃ a, x = .ok a ∧ r = f a := by
  cases x with
  | ok a => simp only [Except.map, Except.ok.injEq] at h; exact ⟨a, rfl, h.symm⟩
  | error e => simp [Except.map] at h

theorem good_fa {x y : Ty} {d : GDiagram} (h : GDiagram.fa x y = .ok d) :
    Good d ∧ d.dom = x ++ Ty.l y ++ y ∧ d.cod = x := by
  obtain ⟨c, hc, rfl⟩ := map_ok h
  obtain ⟨g, h1, h2⟩ := Good.cup hc
  exact ⟨(Good.id _).tensor g, by simp [tensor_dom, Diagram.id, h1], by simp [tensor_cod, Diagram.id, h2]⟩

theorem good_ba {y x : Ty} {d : GDiagram} (h : GDiagram.ba y x = .ok d) :
    Good d ∧ d.dom = y ++ Ty.r y ++ x ∧ d.cod = x := by
  obtain ⟨c, hc, rfl⟩ := map_ok h
  obtain ⟨g, h1, h2⟩ := Good.cup hc
  rw [tensorN_eq_foldr]
  exact ⟨(Good.id _).tensor (g.tensor ((Good.id _).tensor (Good.id _))),
    by simp [tensor_dom, Diagram.id, h1], by simp [tensor_cod, Diagram.id, h2]⟩

theorem good_fc {x y z : Ty} {d : GDiagram} (h : GDiagram.fc x y z = .ok d) :
    Good d ∧ d.dom = x ++ Ty.l y ++ y ++ Ty.l z ∧ d.cod = x ++ Ty.l z := by
  obtain ⟨c, hc, rfl⟩ := map_ok h
  obtain ⟨g, h1, h2⟩ := Good.cup hc
  exact ⟨((Good.id _).tensor g).tensor (Good.id _), by simp [tensor_dom, Diagram.id, h1],
    by simp [tensor_cod, Diagram.id, h2]⟩

theorem good_bc {x y z : Ty} {d : GDiagram} (h : GDiagram.bc z y x = .ok d) :
    Good d ∧ d.dom = Ty.r z ++ y ++ Ty.r y ++ x ∧ d.cod = Ty.r z ++ x := by
  obtain ⟨c, hc, rfl⟩ := map_ok h
  obtain ⟨g, h1, h2⟩ := Good.cup hc
  exact ⟨((Good.id _).tensor g).tensor (Good.id _), by simp [tensor_dom, Diagram.id, h1],
    by simp [tensor_cod, Diagram.id, h2]⟩

theorem good_fx {x y z : Ty} {d : GDiagram} (h : GDiagram.fx x y z = .ok d) :
    Good d ∧ d.dom = x ++ Ty.l y ++ Ty.r z ++ y ∧ d.cod = Ty.r z ++ x := by
  obtain ⟨s1, hs1, h⟩ := Functor.bind_ok_iff.1 h
  obtain ⟨s2, hs2, h⟩ := Functor.bind_ok_iff.1 h
  obtain ⟨c, hc, h⟩ := Functor.bind_ok_iff.1 h
  obtain ⟨g1, a1, a2⟩ := Good.swap hs1
  obtain ⟨g2, b1, b2⟩ := Good.swap hs2
  obtain ⟨g3, c1, c2⟩ := Good.cup hc
  refine ⟨(((Good.id _).tensor g1).tensor (Good.id _)).andThen (g2.tensor g3) h, ?_⟩
  obtain ⟨_, rfl⟩ := andThen_ok_iff.1 h
  simp [tensor_dom, tensor_cod, Diagram.id, a1, b2, c2]

theorem good_bx {x y z : Ty} {d : GDiagram} (h : GDiagram.bx z y x = .ok d) :
    Good d ∧ d.dom = y ++ Ty.l z ++ Ty.r y ++ x ∧ d.cod = x ++ Ty.l z := by
  obtain ⟨s1, hs1, h⟩ := Functor.bind_ok_iff.1 h
  obtain ⟨c, hc, h⟩ := Functor.bind_ok_iff.1 h
  obtain ⟨s2, hs2, h⟩ := Functor.bind_ok_iff.1 h
  obtain ⟨g1, a1, a2⟩ := Good.swap hs1
  obtain ⟨g2, b1, b2⟩ := Good.swap hs2
  obtain ⟨g3, c1, c2⟩ := Good.cup hc
  refine ⟨(((Good.id _).tensor g1).tensor (Good.id _)).andThen (g3.tensor g2) h, ?_⟩
  obtain ⟨_, rfl⟩ := andThen_ok_iff.1 h
  simp [tensor_dom, tensor_cod, Diagram.id, a1, b2, c2]

/-- **C29**, whatever the premises (licensed or not): any diagram returned by `apply` is well typed and
contains only cups, caps and swaps. -/
theorem C29_wellTyped (rule : Rule) (dom : List Cat) (cod : Option Cat) (d : GDiagram)
    (h : apply rule dom cod = .ok d) : d.WT ∧ ∀ b ∈ d.boxes, WireBox b := by
  have hun : ∀ r, applyUn r dom cod = .ok d → Good d := by
    intro r h
    unfold applyUn at h
    split at h
    · split at h
      · simp only [Except.ok.injEq] at h; subst h; exact Good.id _
      · split at h
        · simp at h
        · obtain ⟨res, _, h⟩ := Functor.bind_ok_iff.1 h
          dsimp only at h
          split at h
          · obtain ⟨k, hk, h⟩ := Functor.bind_ok_iff.1 h
            simp only [Except.ok.injEq] at h; subst h
            exact (Good.id _).tensor (Good.cap hk).1
          · obtain ⟨k, hk, h⟩ := Functor.bind_ok_iff.1 h
            simp only [Except.ok.injEq] at h; subst h
            exact (Good.cap hk).1.tensor (Good.id _)
    · simp at h
  have hbin : ∀ r left right, applyBin r left right = .ok d → Good d := by
    intro r left right h
    unfold applyBin at h
    split at h
    · obtain ⟨_, _, h⟩ := Functor.bind_ok_iff.1 h; exact (good_fa h).1
    · obtain ⟨_, _, h⟩ := Functor.bind_ok_iff.1 h; exact (good_ba h).1
    · obtain ⟨_, _, h⟩ := Functor.bind_ok_iff.1 h
      obtain ⟨_, _, h⟩ := Functor.bind_ok_iff.1 h
      obtain ⟨_, _, h⟩ := Functor.bind_ok_iff.1 h; exact (good_fc h).1
    · obtain ⟨_, _, h⟩ := Functor.bind_ok_iff.1 h
      obtain ⟨_, _, h⟩ := Functor.bind_ok_iff.1 h
      obtain ⟨_, _, h⟩ := Functor.bind_ok_iff.1 h; exact (good_bc h).1
    · obtain ⟨_, _, h⟩ := Functor.bind_ok_iff.1 h
      obtain ⟨_, _, h⟩ := Functor.bind_ok_iff.1 h
      obtain ⟨_, _, h⟩ := Functor.bind_ok_iff.1 h; exact (good_fx h).1
    · obtain ⟨_, _, h⟩ := Functor.bind_ok_iff.1 h
      obtain ⟨_, _, h⟩ := Functor.bind_ok_iff.1 h
      obtain ⟨_, _, h⟩ := Functor.bind_ok_iff.1 h; exact (good_bx h).1
    · obtain ⟨_, _, h⟩ := Functor.bind_ok_iff.1 h
      obtain ⟨_, _, h⟩ := Functor.bind_ok_iff.1 h
      obtain ⟨c, hc, h⟩ := Functor.bind_ok_iff.1 h
      simp only [Except.ok.injEq] at h; subst h
      exact ((Good.id _).tensor (Good.cup hc).1).tensor (Good.id _)
    · obtain ⟨_, _, h⟩ := Functor.bind_ok_iff.1 h
      obtain ⟨c, hc, h⟩ := Functor.bind_ok_iff.1 h
      obtain ⟨_, _, h⟩ := Functor.bind_ok_iff.1 h
      simp only [Except.ok.injEq] at h; subst h
      exact ((Good.id _).tensor (Good.cup hc).1).tensor (Good.id _)
    · obtain ⟨_, _, h⟩ := Functor.bind_ok_iff.1 h
      obtain ⟨_, _, h⟩ := Functor.bind_ok_iff.1 h
      obtain ⟨⟨l, j, r⟩, _, h⟩ := Functor.bind_ok_iff.1 h
      obtain ⟨s, hs, h⟩ := Functor.bind_ok_iff.1 h
      obtain ⟨c, hc, h⟩ := Functor.bind_ok_iff.1 h
      obtain ⟨e, he, h⟩ := Functor.bind_ok_iff.1 h
      simp only [Except.ok.injEq] at h; subst h
      exact (((Good.swap hs).1.tensor (Good.id _)).andThen ((Good.id _).tensor (Good.cup hc).1) he).tensor (Good.id _)
    · obtain ⟨_, _, h⟩ := Functor.bind_ok_iff.1 h
      obtain ⟨_, _, h⟩ := Functor.bind_ok_iff.1 h
      obtain ⟨⟨l, j, r⟩, _, h⟩ := Functor.bind_ok_iff.1 h
      obtain ⟨s, hs, h⟩ := Functor.bind_ok_iff.1 h
      obtain ⟨c, hc, h⟩ := Functor.bind_ok_iff.1 h
      obtain ⟨e, he, h⟩ := Functor.bind_ok_iff.1 h
      simp only [Except.ok.injEq] at h; subst h
      exact (Good.id _).tensor (((Good.id _).tensor (Good.swap hs).1).andThen ((Good.cup hc).1.tensor (Good.id _)) he)
    · simp only [Except.ok.injEq] at h; subst h; exact Good.id _
    · simp only [Except.ok.injEq] at h; subst h; exact Good.id _
    · simp at h
  unfold apply at h
  split at h
  · simp at h
  · simp at h
  · simp at h
  · exact hun _ h
  · exact hun _ h
  · exact hun _ h
  · split at h
    · exact hbin _ _ _ h
    · simp at h

theorem toTy_ne_nil {c : Cat} (h : c.NoEmpty) : c.toTy ≠ [] := by
  induction c with
  | empty => exact h.elim
  | atom n => simp [Cat.toTy]
  | over x y ihx _ => simp [Cat.toTy, ihx h.1]
  | under x y ihx _ => simp [Cat.toTy, ihx h.1]

theorem noEmpty_plug {k : Ctx} {x : Cat} (h : (plug k x).NoEmpty) : x.NoEmpty := by
  induction k with
  | nil => exact h
  | cons e k ih =>
    obtain ⟨d, a⟩ := e
    cases d
    · exact ih h.1
    · exact ih h.1

theorem ctxL_fwd {k : Ctx} (h : ∀ e ∈ k, e.1 = true) : ctxL k = [] := by
  induction k with
  | nil => rfl
  | cons e k ih =>
    obtain ⟨d, a⟩ := e
    have : d = true := h (d, a) (by simp)
    subst this
    exact ih (fun e he => h e (List.mem_cons_of_mem _ he))

theorem ctxR_bwd {k : Ctx} (h : ∀ e ∈ k, e.1 = false) : ctxR k = [] := by
  induction k with
  | nil => rfl
  | cons e k ih =>
    obtain ⟨d, a⟩ := e
    have : d = false := h (d, a) (by simp)
    subst this
    exact ih (fun e he => h e (List.mem_cons_of_mem _ he))

/-- **C29**: for every instance of every rule schema, `apply` returns a diagram; its domain is the
premises' wires side by side, its codomain is the conclusion's pregroup type.  (For `GBC`, `X\Y` must have a non-empty argument type,
see `C29_refuted_gbc_empty`; categories without empty parts always do, `toTy_ne_nil`.) -/
theorem C29_apply (rule : Rule) (dom : List Cat) (cod : Cat) (h : Licensed rule dom cod)
    (hne : rule = .gbc → ∀ l x y, dom = [l, .under x y] → y.toTy ≠ []) :
    ∃ d, apply rule dom (some cod) = .ok d ∧ d.WT ∧ d.dom = wires rule dom ∧ d.cod = cod.toTy := by
  suffices hs : ∃ d, apply rule dom (some cod) = .ok d ∧ d.dom = wires rule dom ∧ d.cod = cod.toTy by
    obtain ⟨d, h1, h2⟩ := hs
    exact ⟨d, h1, (C29_wellTyped _ _ _ _ h1).1, h2⟩
  cases h with
  | unary x => exact ⟨_, rfl, by simp [wires, Diagram.id], by simp [Diagram.id]⟩
  | ftr x t =>
    obtain ⟨k, hk, _, h1, h2, _⟩ := (cap_spec t.toTy).1
    refine ⟨tensor k (Diagram.id x.toTy), ?_, ?_, ?_⟩
    · simp [apply, applyUn, Cat.result, hk, ok_bind]
    · simp [tensor_dom, h1, Diagram.id, wires]
    · simp [tensor_cod, h2, Diagram.id, Cat.toTy, Ty.l_append]
  | btr x t =>
    obtain ⟨k, hk, _, h1, h2, _⟩ := (cap_spec t.toTy).2
    refine ⟨tensor (Diagram.id x.toTy) k, ?_, ?_, ?_⟩
    · simp [apply, applyUn, Cat.result, hk, ok_bind]
    · simp [tensor_dom, h1, Diagram.id, wires]
    · simp [tensor_cod, h2, Diagram.id, Cat.toTy, Ty.r_append]
  | fa x y =>
    obtain ⟨d, h1, _, h2, h3⟩ := (C29_combinators cod.toTy y.toTy []).1
    exact ⟨d, by simp [apply, applyBin, Cat.result, ok_bind, h1], by simp [h2, wires, Cat.toTy], h3⟩
  | ba x y =>
    obtain ⟨d, h1, _, h2, h3⟩ := (C29_combinators cod.toTy y.toTy []).2.1
    exact ⟨d, by simp [apply, applyBin, Cat.result, ok_bind, h1], by simp [h2, wires, Cat.toTy], h3⟩
  | fc x y z =>
    obtain ⟨d, h1, _, h2, h3⟩ := (C29_combinators x.toTy y.toTy z.toTy).2.2.1
    exact ⟨d, by simp [apply, applyBin, Cat.left, Cat.right, ok_bind, h1], by simp [h2, wires, Cat.toTy],
      by simp [h3, Cat.toTy]⟩
  | bc x y z =>
    obtain ⟨d, h1, _, h2, h3⟩ := (C29_combinators x.toTy y.toTy z.toTy).2.2.2.1
    exact ⟨d, by simp [apply, applyBin, Cat.left, Cat.right, ok_bind, h1], by simp [h2, wires, Cat.toTy],
      by simp [h3, Cat.toTy]⟩
  | fx x y z =>
    obtain ⟨d, h1, _, h2, h3⟩ := (C29_combinators x.toTy y.toTy z.toTy).2.2.2.2.1
    exact ⟨d, by simp [apply, applyBin, Cat.left, Cat.right, ok_bind, h1], by simp [h2, wires, Cat.toTy],
      by simp [h3, Cat.toTy]⟩
  | bx x y z =>
    obtain ⟨d, h1, _, h2, h3⟩ := (C29_combinators x.toTy y.toTy z.toTy).2.2.2.2.2
    exact ⟨d, by simp [apply, applyBin, Cat.left, Cat.right, ok_bind, h1], by simp [h2, wires, Cat.toTy],
      by simp [h3, Cat.toTy]⟩
  | gfc x y z k hk =>
    obtain ⟨c, hc, _, h1, h2, _⟩ := (cup_spec y.toTy).2
    have hR : (plug k (y.over z)).toTy = y.toTy ++ (Ty.l z.toTy ++ ctxR k) := by
      rw [Cat.toTy_plug, ctxL_fwd hk]; simp [Cat.toTy]
    refine ⟨tensor (tensor (Diagram.id x.toTy) c) (Diagram.id (Ty.l z.toTy ++ ctxR k)), ?_, ?_, ?_⟩
    · simp only [apply, applyBin, Cat.argument, Cat.result, ok_bind, hc, hR, pySlice_nat_from,
        List.drop_left]
    · simp [tensor_dom, h1, Diagram.id, wires, hR, Cat.toTy]
    · rw [Cat.toTy_plug, ctxL_fwd hk]
      simp [tensor_cod, h2, Diagram.id, Cat.toTy]
  | gbc x y z k hk =>
    obtain ⟨c, hc, _, h1, h2, _⟩ := (cup_spec y.toTy).1
    have hy : y.toTy ≠ [] := hne rfl _ _ _ rfl
    have hL : (plug k (y.under z)).toTy = (ctxL k ++ Ty.r z.toTy) ++ y.toTy := by
      rw [Cat.toTy_plug, ctxR_bwd hk]; simp [Cat.toTy]
    refine ⟨tensor (tensor (Diagram.id (ctxL k ++ Ty.r z.toTy)) c) (Diagram.id x.toTy), ?_, ?_, ?_⟩
    · simp only [apply, applyBin, Cat.argument, Cat.result, ok_bind, hc, hL]
      rw [pySlice_none_neg _ _ (List.length_pos_iff.2 hy), List.length_append, Nat.add_sub_cancel,
        List.take_left]
    · simp [tensor_dom, h1, Diagram.id, wires, hL, Cat.toTy]
    · rw [Cat.toTy_plug, ctxR_bwd hk]
      simp [tensor_cod, h2, Diagram.id, Cat.toTy]
  | gfx x y z k =>
    have e : plug k (y.under z) = plug (k ++ [(false, z)]) y := by rw [Cat.plug_append]; rfl
    have e' : plug k (x.under z) = plug (k ++ [(false, z)]) x := by rw [Cat.plug_append]; rfl
    rw [e, e']
    generalize k ++ [(false, z)] = K
    have hsp := (Cat.C28_split (plug K y) y).1 K rfl
    obtain ⟨s, hs, s1, s2, _⟩ := C12_swap (x.toTy ++ Ty.l y.toTy) (ctxL K)
    obtain ⟨c, hc, _, c1, c2, _⟩ := (cup_spec y.toTy).2
    have hcomp : (tensor s (Diagram.id y.toTy)).cod = (tensor (Diagram.id (ctxL K ++ x.toTy)) c).dom := by
      simp [tensor_cod, tensor_dom, s2, c1, Diagram.id]
    have hok := andThen_eq_ok hcomp
    generalize hD : (Diagram.mk _ _ _ : GDiagram) = D at hok
    refine ⟨tensor D (Diagram.id (ctxR K)), ?_, ?_, ?_⟩
    · simp only [apply, applyBin, Cat.left, Cat.right, ok_bind, hsp, hs, hc]
      rw [hok, ok_bind]
    · subst hD; simp [tensor_dom, s1, Diagram.id, wires, Cat.toTy, Cat.toTy_plug]
    · subst hD; simp [tensor_cod, c2, Diagram.id, Cat.toTy, Cat.toTy_plug]
  | gbx x y z k =>
    have e : plug k (y.over z) = plug (k ++ [(true, z)]) y := by rw [Cat.plug_append]; rfl
    have e' : plug k (x.over z) = plug (k ++ [(true, z)]) x := by rw [Cat.plug_append]; rfl
    rw [e, e']
    generalize k ++ [(true, z)] = K
    have hsp := (Cat.C28_split (plug K y) y).1 K rfl
    obtain ⟨s, hs, s1, s2, _⟩ := C12_swap (ctxR K) (Ty.r y.toTy ++ x.toTy)
    obtain ⟨c, hc, _, c1, c2, _⟩ := (cup_spec y.toTy).1
    have hcomp : (tensor (Diagram.id y.toTy) s).cod = (tensor c (Diagram.id (x.toTy ++ ctxR K))).dom := by
      simp [tensor_cod, tensor_dom, s2, c1, Diagram.id]
    have hok := andThen_eq_ok hcomp
    generalize hD : (Diagram.mk _ _ _ : GDiagram) = D at hok
    refine ⟨tensor (Diagram.id (ctxL K)) D, ?_, ?_, ?_⟩
    · simp only [apply, applyBin, Cat.left, Cat.right, ok_bind, hsp, hs, hc]
      rw [hok, ok_bind]
    · subst hD; simp [tensor_dom, s1, Diagram.id, wires, Cat.toTy, Cat.toTy_plug]
    · subst hD; simp [tensor_cod, c2, Diagram.id, Cat.toTy, Cat.toTy_plug]
  | lp x => exact ⟨_, rfl, rfl, rfl⟩
  | rp x => exact ⟨_, rfl, rfl, rfl⟩


/-- Full C29 (any premises for which `apply` returns) is refuted: `apply` never checks that the
argument matches, so forward application of `s/n` to `s` returns a diagram with domain `s @ s.l @ s`. -/
theorem C29_refuted_unlicensed :
    ∃ d, apply .fa [.over (.atom "s") (.atom "n"), .atom "s"] (some (.atom "s")) = .ok d ∧
      d.dom ≠ wires .fa [.over (.atom "s") (.atom "n"), .atom "s"] := by
  obtain ⟨d, h1, _, h2, h3⟩ := (C29_combinators (Cat.atom "s").toTy (Cat.atom "s").toTy []).1
  refine ⟨d, by simp [apply, applyBin, Cat.result, ok_bind, h1], ?_⟩
  rw [h2]; decide

/-- `GBC` at the empty category: `left[:-0]` drops all wires of the left premise. -/
theorem C29_refuted_gbc_empty :
    ∃ d, apply .gbc [.under .empty (.atom "z"), .under (.atom "x") .empty] none = .ok d ∧
      Licensed .gbc [.under .empty (.atom "z"), .under (.atom "x") .empty] (.under (.atom "x") (.atom "z")) ∧
      d.dom = [⟨"x", 0⟩] ∧ wires .gbc [.under .empty (.atom "z"), .under (.atom "x") .empty] = [⟨"z", 1⟩, ⟨"x", 0⟩] := by
  refine ⟨_, rfl, ?_, rfl, rfl⟩
  exact Licensed.gbc (.atom "x") .empty (.atom "z") [] (by simp)

/-- Non-vacuity: a generalised crossed composition with a two-argument context. -/
example : Licensed .gfx
    [.over (.atom "s") (.atom "n"), .over (.over (.under (.atom "n") (.atom "p")) (.atom "a")) (.atom "b")]
    (.over (.over (.under (.atom "s") (.atom "p")) (.atom "a")) (.atom "b")) :=
  Licensed.gfx (.atom "s") (.atom "n") (.atom "p") [(true, .atom "b"), (true, .atom "a")]

/-! ## C30: rule inference -/

theorem dirSpec1 (c : Char) (h : c = '\\' ∨ c = '|' ∨ c = '/') : Cat.DirSpec [c] c c := ⟨.inl ⟨rfl, rfl⟩, h, h⟩
theorem dirSpec2 (c : Char) (h : c = '\\' ∨ c = '|' ∨ c = '/') : Cat.DirSpec [c, '|'] c '|' :=
  ⟨.inr rfl, h, by simp⟩

theorem admits_fwd {d : Bool} : Admits '/' d ↔ d = true := by cases d <;> simp [Admits]
theorem admits_bwd {d : Bool} : Admits '\\' d ↔ d = false := by cases d <;> simp [Admits]

/-- What `replace_result` with a found `old` says, for the four direction strings of the rules. -/
theorem rr_sound {self o r new x : Cat} {dirs : List Char} {d0 d1 : Char} (hd : Cat.DirSpec dirs d0 d1)
    (h : self.replaceResult o r dirs = .ok (new, some x)) :
    ∃ d a k, self = plug k (slash x d a) ∧ new = plug k (slash r d a) ∧ Admits d0 d ∧ ∀ e ∈ k, Admits d1 e.1 := by
  rcases Cat.C28_replace_result_sound self o r new _ dirs d0 d1 hd h with ⟨h, _⟩ | ⟨x', d, a, k, e1, e2, e3, e4, e5, _⟩
  · simp at h
  · simp only [Option.some.injEq] at e1
    subst e1
    exact ⟨d, a, k, e2, e3, e4, e5⟩

theorem inferBack_sound {left x y cod ll lr : Cat} {r : Rule}
    (hll : left.left = .ok ll) (hlr : left.right = .ok lr)
    (h : inferBack left (.under x y) cod ll lr y x = .ok (some r)) :
    Licensed r [left, .under x y] cod := by
  simp only [inferBack, Cat.isUnder, if_true] at h
  split at h
  · next hc =>
    simp only [Except.ok.injEq, Option.some.injEq] at h
    subst h
    obtain ⟨h1, h2, h3⟩ := hc
    cases left with
    | over p q =>
      simp only [Cat.left, Cat.right, Except.ok.injEq] at hll hlr
      subst hll; subst hlr; subst h2; subst h3
      exact .bx _ _ _
    | _ => simp [Cat.isOver] at h1
  · obtain ⟨p, hp, h⟩ := Functor.bind_ok_iff.1 h
    split at h
    · next hc =>
      simp only [Except.ok.injEq, Option.some.injEq] at h
      subst h; subst hc
      obtain ⟨d, a, k, e1, e2, e3, e4⟩ := rr_sound (dirSpec1 '\\' (by simp)) hp
      rw [admits_bwd] at e3; subst e3
      rw [e1, e2]
      exact .gbc _ _ _ k (fun e he => admits_bwd.1 (e4 e he))
    · obtain ⟨q, hq, h⟩ := Functor.bind_ok_iff.1 h
      split at h
      · next hc =>
        simp only [Except.ok.injEq, Option.some.injEq] at h
        subst h; subst hc
        obtain ⟨d, a, k, e1, e2, e3, e4⟩ := rr_sound (dirSpec2 '/' (by simp)) hq
        rw [admits_fwd] at e3; subst e3
        rw [e1, e2]
        exact .gbx _ _ _ k
      · simp at h

theorem inferFwd_sound {right x y cod rl rr : Cat} {r : Rule}
    (hrl : right.left = .ok rl) (hrr : right.right = .ok rr)
    (h : inferFwd (.over x y) right cod x y rl rr = .ok (some r)) :
    Licensed r [.over x y, right] cod := by
  simp only [inferFwd, Cat.isOver, if_true] at h
  split at h
  · next hc =>
    simp only [Except.ok.injEq, Option.some.injEq] at h
    subst h
    obtain ⟨h1, h2, h3⟩ := hc
    cases right with
    | under p q =>
      simp only [Cat.left, Cat.right, Except.ok.injEq] at hrl hrr
      subst hrl; subst hrr; subst h2; subst h3
      exact .fx _ _ _
    | _ => simp [Cat.isUnder] at h1
  · obtain ⟨p, hp, h⟩ := Functor.bind_ok_iff.1 h
    split at h
    · next hc =>
      simp only [Except.ok.injEq, Option.some.injEq] at h
      subst h; subst hc
      obtain ⟨d, a, k, e1, e2, e3, e4⟩ := rr_sound (dirSpec1 '/' (by simp)) hp
      rw [admits_fwd] at e3; subst e3
      rw [e1, e2]
      exact .gfc _ _ _ k (fun e he => admits_fwd.1 (e4 e he))
    · obtain ⟨q, hq, h⟩ := Functor.bind_ok_iff.1 h
      split at h
      · next hc =>
        simp only [Except.ok.injEq, Option.some.injEq] at h
        subst h; subst hc
        obtain ⟨d, a, k, e1, e2, e3, e4⟩ := rr_sound (dirSpec2 '\\' (by simp)) hq
        rw [admits_bwd] at e3; subst e3
        rw [e1, e2]
        exact .gfx _ _ _ k
      · simp at h

theorem inferComp_sound {left right cod : Cat} {r : Rule} (h : inferComp left right cod = .ok r)
    (hr : r ≠ .unknown) : Licensed r [left, right] cod := by
  unfold inferComp at h
  split at h
  · next hc =>
    obtain ⟨ll, hll, h⟩ := Functor.bind_ok_iff.1 h
    obtain ⟨lr, hlr, h⟩ := Functor.bind_ok_iff.1 h
    obtain ⟨rl, hrl, h⟩ := Functor.bind_ok_iff.1 h
    obtain ⟨rr, hrr, h⟩ := Functor.bind_ok_iff.1 h
    obtain ⟨cl, hcl, h⟩ := Functor.bind_ok_iff.1 h
    obtain ⟨cr, hcr, h⟩ := Functor.bind_ok_iff.1 h
    split at h
    · next hf =>
      simp only [Except.ok.injEq] at h
      subst h
      obtain ⟨h1, h2, h3, h4, h5, h6⟩ := hf
      cases cod <;> simp_all [Cat.isOver]
      cases left <;> simp_all [Cat.isOver]
      cases right <;> simp_all [Cat.isOver]
      simp only [Cat.left, Cat.right, Except.ok.injEq] at *
      subst_vars
      exact .fc _ _ _
    · split at h
      · next hf =>
        simp only [Except.ok.injEq] at h
        subst h
        obtain ⟨h1, h2, h3, h4, h5, h6⟩ := hf
        cases cod <;> simp_all [Cat.isUnder]
        cases left <;> simp_all [Cat.isUnder]
        cases right <;> simp_all [Cat.isUnder]
        simp only [Cat.left, Cat.right, Except.ok.injEq] at *
        subst_vars
        exact .bc _ _ _
      · obtain ⟨o, ho, h⟩ := Functor.bind_ok_iff.1 h
        cases o with
        | some r' =>
          simp only [Except.ok.injEq] at h
          subst h
          cases right with
          | under x y =>
            simp only [Cat.left, Cat.right, Except.ok.injEq] at hrl hrr
            subst hrl; subst hrr
            exact inferBack_sound hll hlr ho
          | _ => simp [inferBack, Cat.isUnder] at ho
        | none =>
          obtain ⟨o', ho', h⟩ := Functor.bind_ok_iff.1 h
          cases o' with
          | some r' =>
            simp only [Except.ok.injEq] at h
            subst h
            cases left with
            | over x y =>
              simp only [Cat.left, Cat.right, Except.ok.injEq] at hll hlr
              subst hll; subst hlr
              exact inferFwd_sound hrl hrr ho'
            | _ => simp [inferFwd, Cat.isOver] at ho'
          | none =>
            simp only [Except.ok.injEq] at h
            exact absurd h.symm hr
  · simp only [Except.ok.injEq] at h
    exact absurd h.symm hr

/-- What an inferred rule means, for every possible answer. -/
def Inferred : Rule → List Cat → Cat → Prop
  | .unknown, _, _ => True
  | .lexical, dom, _ => dom = []
  | .unary, dom, _ => ∃ x, dom = [x]
  | .conj, dom, cod => ∃ l r, dom = [l, r] ∧
      ((l = Cat.PUNC ∧ cod = .under r r) ∨ (r = Cat.PUNC ∧ cod = .over l l) ∨ l = Cat.CONJ ∨ r = Cat.CONJ)
  | .lp, dom, _ => ∃ r, dom = [Cat.PUNC, r]
  | .rp, dom, _ => ∃ l, dom = [l, Cat.PUNC]
  | rule, dom, cod => Licensed rule dom cod

/-- **C30**, soundness: a combinatory rule (application, composition in all its forms, type raising) is
only ever inferred for an instance of its schema.  For unary rules and punctuation the premises have the
right shape, but the conclusion is not checked (`C30_refuted_punctuation`). -/
theorem C30_infer_sound (dom : List Cat) (cod : Cat) (r : Rule) (h : inferRule dom cod = .ok r) :
    Inferred r dom cod := by
  unfold inferRule at h
  split at h
  · simp only [Except.ok.injEq] at h; subst h; rfl
  · next x =>
    unfold inferUn at h
    split at h
    · obtain ⟨res, hres, h⟩ := Functor.bind_ok_iff.1 h
      split at h
      · next hc =>
        simp only [Except.ok.injEq] at h; subst h
        show Licensed _ _ _
        rw [hc]; exact .ftr x res
      · split at h
        · next hc =>
          simp only [Except.ok.injEq] at h; subst h
          show Licensed _ _ _
          rw [hc]; exact .btr x res
        · simp only [Except.ok.injEq] at h; subst h; exact ⟨x, rfl⟩
    · simp only [Except.ok.injEq] at h; subst h; exact ⟨x, rfl⟩
  · next left right =>
    unfold inferBin at h
    split at h
    · next hl =>
      split at h
      · next hc =>
        simp only [Except.ok.injEq] at h; subst h
        exact ⟨left, right, rfl, .inl ⟨hl, hc⟩⟩
      · simp only [Except.ok.injEq] at h; subst h
        exact ⟨right, by rw [hl]⟩
    · split at h
      · next hl =>
        split at h
        · next hc =>
          simp only [Except.ok.injEq] at h; subst h
          exact ⟨left, right, rfl, .inr (.inl ⟨hl, hc⟩)⟩
        · simp only [Except.ok.injEq] at h; subst h
          exact ⟨left, by rw [hl]⟩
      · split at h
        · next hc =>
          simp only [Except.ok.injEq] at h; subst h
          show Licensed _ _ _
          rw [hc]; exact .fa _ _
        · split at h
          · next hc =>
            simp only [Except.ok.injEq] at h; subst h
            show Licensed _ _ _
            rw [hc]; exact .ba _ _
          · split at h
            · next hc =>
              simp only [Except.ok.injEq] at h; subst h
              exact ⟨left, right, rfl, .inr (.inr hc)⟩
            · by_cases hr : r = .unknown
              · subst hr; trivial
              · have hL := inferComp_sound h hr
                cases hL with
                | lp x => exact ⟨_, rfl⟩
                | rp x => exact ⟨_, rfl⟩
                | fa x y => exact Licensed.fa _ _
                | ba x y => exact Licensed.ba _ _
                | fc x y z => exact Licensed.fc _ _ _
                | bc x y z => exact Licensed.bc _ _ _
                | fx x y z => exact Licensed.fx _ _ _
                | bx x y z => exact Licensed.bx _ _ _
                | gfc x y z k hk => exact Licensed.gfc _ _ _ k hk
                | gbc x y z k hk => exact Licensed.gbc _ _ _ k hk
                | gfx x y z k => exact Licensed.gfx _ _ _ k
                | gbx x y z k => exact Licensed.gbx _ _ _ k
  · simp only [Except.ok.injEq] at h; subst h; trivial

/-- Consequence of C29 and C30 in terms of the API: the diagram of an inferred combinatory rule exists
and has the type of the inference. -/
theorem C30_infer_apply (dom : List Cat) (cod : Cat) (r : Rule) (h : inferRule dom cod = .ok r)
    (hr : r ∉ [Rule.unknown, .lexical, .unary, .conj, .lp, .rp])
    (hne : ∀ c ∈ dom, c.NoEmpty) :
    ∃ d, apply r dom (some cod) = .ok d ∧ d.WT ∧ d.dom = wires r dom ∧ d.cod = cod.toTy := by
  have hs := C30_infer_sound dom cod r h
  have hL : Licensed r dom cod := by
    cases r <;> first | exact hs | (exfalso; simp at hr)
  exact C29_apply r dom cod hL (fun _ l x y h => toTy_ne_nil (hne (.under x y) (by simp [h])).2)

theorem inferComp_complete {left right cod : Cat} (hl : left.NoEmpty) (hr : right.NoEmpty)
    (hc : cod.isComplex = true) (hlc : left.isComplex = true) (hrc : right.isComplex = true)
    (h : ∃ r, Licensed r [left, right] cod ∧ r ≠ .lp ∧ r ≠ .rp ∧ r ≠ .fa ∧ r ≠ .ba) :
    ∃ r', inferComp left right cod = .ok r' ∧ r' ≠ .unknown := by
  have accL : ∀ c : Cat, c.isComplex = true → (∃ x, c.left = .ok x) ∧ ∃ x, c.right = .ok x := by
    intro c hc; cases c <;> simp_all [Cat.isComplex, Cat.left, Cat.right]
  obtain ⟨⟨ll, hll⟩, lr, hlr⟩ := accL left hlc
  obtain ⟨⟨rl, hrl⟩, rr, hrr⟩ := accL right hrc
  obtain ⟨⟨cl, hcl⟩, cr, hcr⟩ := accL cod hc
  obtain ⟨p1, hp1⟩ := (Cat.C28_replace_result_lenient left rl rr hl ['\\'] _ _ (dirSpec1 '\\' (by simp))).1
  obtain ⟨p2, hp2⟩ := (Cat.C28_replace_result_lenient left rl rr hl ['/', '|'] _ _ (dirSpec2 '/' (by simp))).1
  obtain ⟨p3, hp3⟩ := (Cat.C28_replace_result_lenient right lr ll hr ['/'] _ _ (dirSpec1 '/' (by simp))).1
  obtain ⟨p4, hp4⟩ := (Cat.C28_replace_result_lenient right lr ll hr ['\\', '|'] _ _ (dirSpec2 '\\' (by simp))).1
  obtain ⟨b, hb⟩ : ∃ b, inferBack left right cod ll lr rl rr = .ok b := by
    unfold inferBack
    split
    · split
      · exact ⟨_, rfl⟩
      · rw [hp1, ok_bind]; split
        · exact ⟨_, rfl⟩
        · rw [hp2, ok_bind]; split <;> exact ⟨_, rfl⟩
    · exact ⟨_, rfl⟩
  obtain ⟨f, hf⟩ : ∃ f, inferFwd left right cod ll lr rl rr = .ok f := by
    unfold inferFwd
    split
    · split
      · exact ⟨_, rfl⟩
      · rw [hp3, ok_bind]; split
        · exact ⟨_, rfl⟩
        · rw [hp4, ok_bind]; split <;> exact ⟨_, rfl⟩
    · exact ⟨_, rfl⟩
  have hsome : ∀ r, inferBack left right cod ll lr rl rr = .ok (some r) → r ≠ .unknown := by
    intro r h hh
    subst hh
    unfold inferBack at h
    split at h
    · split at h
      · simp at h
      · rw [hp1, ok_bind] at h; split at h
        · simp at h
        · rw [hp2, ok_bind] at h; split at h <;> simp at h
    · simp at h
  have hsome' : ∀ r, inferFwd left right cod ll lr rl rr = .ok (some r) → r ≠ .unknown := by
    intro r h hh
    subst hh
    unfold inferFwd at h
    split at h
    · split at h
      · simp at h
      · rw [hp3, ok_bind] at h; split at h
        · simp at h
        · rw [hp4, ok_bind] at h; split at h <;> simp at h
    · simp at h
  unfold inferComp
  rw [if_pos ⟨hc, hlc, hrc⟩, hll, hlr, hrl, hrr, hcl, hcr]
  simp only [ok_bind]
  by_cases hfc : lr = rl ∧ cl = ll ∧ cr = rr ∧ cod.isOver = true ∧ left.isOver = true ∧ right.isOver = true
  · rw [if_pos hfc]; exact ⟨_, rfl, by simp⟩
  · rw [if_neg hfc]
    by_cases hbc : lr = rl ∧ cl = ll ∧ cr = rr ∧ cod.isUnder = true ∧ left.isUnder = true ∧ right.isUnder = true
    · rw [if_pos hbc]; exact ⟨_, rfl, by simp⟩
    · rw [if_neg hbc, hb, ok_bind]
      cases b with
      | some r => exact ⟨r, rfl, hsome r hb⟩
      | none =>
        simp only [hf, ok_bind]
        cases f with
        | some r => exact ⟨r, rfl, hsome' r hf⟩
        | none =>
          exfalso
          have backNone : right.isUnder = true → ¬ (left.isOver = true ∧ ll = rl ∧ cod = .over rr lr) ∧
              left.replaceResult rl rr ['\\'] ≠ .ok (cod, some rl) ∧
              left.replaceResult rl rr ['/', '|'] ≠ .ok (cod, some rl) := by
            intro hu
            unfold inferBack at hb
            rw [if_pos hu] at hb
            split at hb
            · simp at hb
            · next hn =>
              refine ⟨hn, ?_⟩
              rw [hp1, ok_bind] at hb
              split at hb
              · simp at hb
              · next h1 =>
                rw [hp2, ok_bind] at hb
                split at hb
                · simp at hb
                · next h2 => rw [hp1, hp2]; simp [h1, h2]
          have fwdNone : left.isOver = true → ¬ (right.isUnder = true ∧ lr = rr ∧ cod = .under ll rl) ∧
              right.replaceResult lr ll ['/'] ≠ .ok (cod, some lr) ∧
              right.replaceResult lr ll ['\\', '|'] ≠ .ok (cod, some lr) := by
            intro hu
            unfold inferFwd at hf
            rw [if_pos hu] at hf
            split at hf
            · simp at hf
            · next hn =>
              refine ⟨hn, ?_⟩
              rw [hp3, ok_bind] at hf
              split at hf
              · simp at hf
              · next h1 =>
                rw [hp4, ok_bind] at hf
                split at hf
                · simp at hf
                · next h2 => rw [hp3, hp4]; simp [h1, h2]
          obtain ⟨r, hL, n1, n2, n3, n4⟩ := h
          cases hL with
          | fa x y => exact n3 rfl
          | ba x y => exact n4 rfl
          | lp x => exact n1 rfl
          | rp x => exact n2 rfl
          | fc x y z =>
            simp only [Cat.left, Cat.right, Except.ok.injEq] at *
            apply hfc; subst_vars; simp [Cat.isOver]
          | bc x y z =>
            simp only [Cat.left, Cat.right, Except.ok.injEq] at *
            apply hbc; subst_vars; simp [Cat.isUnder]
          | fx x y z =>
            simp only [Cat.left, Cat.right, Except.ok.injEq] at *
            subst_vars
            exact (fwdNone rfl).1 ⟨rfl, rfl, rfl⟩
          | bx x y z =>
            simp only [Cat.left, Cat.right, Except.ok.injEq] at *
            subst_vars
            exact (backNone rfl).1 ⟨rfl, rfl, rfl⟩
          | gfc x y z k hk =>
            simp only [Cat.left, Cat.right, Except.ok.injEq] at hll hlr
            subst_vars
            exact (fwdNone rfl).2.1 (Cat.C28_replace_result_found _ _ k true z _ _ _ (dirSpec1 '/' (by simp))
              (admits_fwd.2 rfl) (fun e he => admits_fwd.2 (hk e he)))
          | gbc x y z k hk =>
            simp only [Cat.left, Cat.right, Except.ok.injEq] at hrl hrr
            subst_vars
            exact (backNone rfl).2.1 (Cat.C28_replace_result_found _ _ k false z _ _ _ (dirSpec1 '\\' (by simp))
              (admits_bwd.2 rfl) (fun e he => admits_bwd.2 (hk e he)))
          | gfx x y z k =>
            simp only [Cat.left, Cat.right, Except.ok.injEq] at hll hlr
            subst_vars
            exact (fwdNone rfl).2.2 (Cat.C28_replace_result_found _ _ k false z _ _ _ (dirSpec2 '\\' (by simp))
              (admits_bwd.2 rfl) (fun e he => .inl rfl))
          | gbx x y z k =>
            simp only [Cat.left, Cat.right, Except.ok.injEq] at hrl hrr
            subst_vars
            exact (backNone rfl).2.2 (Cat.C28_replace_result_found _ _ k true z _ _ _ (dirSpec2 '/' (by simp))
              (admits_fwd.2 rfl) (fun e he => .inl rfl))

theorem plug_isComplex (k : Ctx) (x : Cat) (h : x.isComplex = true) : (plug k x).isComplex = true := by
  cases k with
  | nil => exact h
  | cons e k => obtain ⟨d, a⟩ := e; cases d <;> rfl

/-- **C30**, completeness: whenever some schema licenses the step (premises without empty parts), a rule
is inferred, never `UNKNOWN`. -/
theorem C30_infer_complete (dom : List Cat) (cod : Cat) (r : Rule) (h : Licensed r dom cod)
    (hne : ∀ c ∈ dom, c.NoEmpty) : ∃ r', inferRule dom cod = .ok r' ∧ r' ≠ .unknown := by
  have hun : ∀ x, ∃ r', inferRule [x] cod = .ok r' ∧ r' ≠ .unknown := by
    intro x
    simp only [inferRule, inferUn]
    split
    · next hc =>
      obtain ⟨res, hres⟩ : ∃ res, cod.result = .ok res := by
        cases cod <;> simp_all [Cat.isComplex, Cat.result]
      rw [hres, ok_bind]
      split
      · exact ⟨_, rfl, by simp⟩
      · split <;> exact ⟨_, rfl, by simp⟩
    · exact ⟨_, rfl, by simp⟩
  have hbin : ∀ (l r : Cat), ((left : l ≠ Cat.PUNC) → r ≠ Cat.PUNC → l ≠ .over cod r → r ≠ .under cod l →
      ∃ r', inferComp l r cod = .ok r' ∧ r' ≠ .unknown) → ∃ r', inferRule [l, r] cod = .ok r' ∧ r' ≠ .unknown := by
    intro l r hcomp
    simp only [inferRule, inferBin]
    split
    · split <;> exact ⟨_, rfl, by simp⟩
    · next h1 =>
      split
      · split <;> exact ⟨_, rfl, by simp⟩
      · next h2 =>
        split
        · exact ⟨_, rfl, by simp⟩
        · next h3 =>
          split
          · exact ⟨_, rfl, by simp⟩
          · next h4 =>
            split
            · exact ⟨_, rfl, by simp⟩
            · exact hcomp h1 h2 h3 h4
  have hL := h
  cases h with
  | unary x => exact hun _
  | ftr x t => exact hun _
  | btr x t => exact hun _
  | fa x y => exact hbin _ _ (fun _ _ h _ => (h rfl).elim)
  | ba x y => exact hbin _ _ (fun _ _ _ h => (h rfl).elim)
  | lp x => exact hbin _ _ (fun h _ _ _ => (h rfl).elim)
  | rp x => exact hbin _ _ (fun _ h _ _ => (h rfl).elim)
  | fc x y z =>
    exact hbin _ _ (fun _ _ _ _ => inferComp_complete (hne _ (by simp)) (hne _ (by simp)) rfl rfl rfl ⟨_, hL, by simp, by simp, by simp, by simp⟩)
  | bc x y z =>
    exact hbin _ _ (fun _ _ _ _ => inferComp_complete (hne _ (by simp)) (hne _ (by simp)) rfl rfl rfl ⟨_, hL, by simp, by simp, by simp, by simp⟩)
  | fx x y z =>
    exact hbin _ _ (fun _ _ _ _ => inferComp_complete (hne _ (by simp)) (hne _ (by simp)) rfl rfl rfl ⟨_, hL, by simp, by simp, by simp, by simp⟩)
  | bx x y z =>
    exact hbin _ _ (fun _ _ _ _ => inferComp_complete (hne _ (by simp)) (hne _ (by simp)) rfl rfl rfl ⟨_, hL, by simp, by simp, by simp, by simp⟩)
  | gfc x y z k hk =>
    exact hbin _ _ (fun _ _ _ _ => inferComp_complete (hne _ (by simp)) (hne _ (by simp)) (plug_isComplex k _ rfl) rfl (plug_isComplex k _ rfl) ⟨_, hL, by simp, by simp, by simp, by simp⟩)
  | gbc x y z k hk =>
    exact hbin _ _ (fun _ _ _ _ => inferComp_complete (hne _ (by simp)) (hne _ (by simp)) (plug_isComplex k _ rfl) (plug_isComplex k _ rfl) rfl ⟨_, hL, by simp, by simp, by simp, by simp⟩)
  | gfx x y z k =>
    exact hbin _ _ (fun _ _ _ _ => inferComp_complete (hne _ (by simp)) (hne _ (by simp)) (plug_isComplex k _ rfl) rfl (plug_isComplex k _ rfl) ⟨_, hL, by simp, by simp, by simp, by simp⟩)
  | gbx x y z k =>
    exact hbin _ _ (fun _ _ _ _ => inferComp_complete (hne _ (by simp)) (hne _ (by simp)) (plug_isComplex k _ rfl) (plug_isComplex k _ rfl) rfl ⟨_, hL, by simp, by simp, by simp, by simp⟩)

/-- Full C30 is refuted for punctuation removal: the conclusion is not looked at. -/
theorem C30_refuted_punctuation :
    inferRule [Cat.PUNC, .atom "n"] (.atom "s") = .ok .lp ∧
    ∃ d, apply .lp [Cat.PUNC, .atom "n"] (some (.atom "s")) = .ok d ∧ d.cod ≠ (Cat.atom "s").toTy :=
  ⟨by decide +kernel, _, rfl, by decide⟩

/-! ## C31: type resolution -/

/-- The rule that a resolved node uses: conjunctions become applications (ccg_tree.py:416-420). -/
def resolvedRule : Rule → List Cat → Rule
  | .conj, l :: _ => if l.isConjoinable then .fa else .ba
  | r, _ => r

/-- The requirement on the (rewritten) conclusion, and for punctuation on the premise, under which
resolution is sound: composition conclusions keep their slash, raised types keep their form. -/
def Shape : Rule → List Cat → Cat → Prop
  | .fc, _, cod => cod.isOver = true
  | .bx, _, cod => cod.isOver = true
  | .bc, _, cod => cod.isUnder = true
  | .fx, _, cod => cod.isUnder = true
  | .ftr, _, cod => ∃ t x, cod = .over t (.under t x)
  | .btr, _, cod => ∃ t x, cod = .under t (.over t x)
  | .lp, dom, _ => dom.head? = some Cat.PUNC
  | .rp, dom, _ => dom.getLast? = some Cat.PUNC
  | .lexical, _, _ => False
  | _, _, _ => True

theorem assertSome_ok {o : Option Cat} {c : Cat} (h : assertSome o = .ok c) : o = some c := by
  cases o <;> simp_all [assertSome]

theorem checkMatch_ok {a b : Cat} {u : Unit} (h : checkMatch a b = .ok u) : a = b := by
  unfold checkMatch at h
  split at h
  · assumption
  · simp at h

theorem resolveBin_sound {rule : Rule} {l r cod : Cat} {dom' : List Cat}
    (h : resolveBin rule l r cod = .ok dom') (hs : Shape rule [l, r] cod) :
    Licensed (resolvedRule rule [l, r]) dom' cod := by
  unfold resolveBin at h
  split at h
  · simp only [Except.ok.injEq] at h; subst h; exact .fa _ _
  · simp only [Except.ok.injEq] at h; subst h; exact .ba _ _
  · obtain ⟨lr, _, h⟩ := Functor.bind_ok_iff.1 h
    obtain ⟨rl, _, h⟩ := Functor.bind_ok_iff.1 h
    obtain ⟨_, hm, h⟩ := Functor.bind_ok_iff.1 h
    obtain ⟨a, ha, h⟩ := Functor.bind_ok_iff.1 h
    obtain ⟨b, hb, h⟩ := Functor.bind_ok_iff.1 h
    simp only [Except.ok.injEq] at h; subst h
    have := checkMatch_ok hm; subst this
    cases cod <;> simp_all [Shape, Cat.isOver, Cat.result, Cat.argument]
    exact .fc _ _ _
  · obtain ⟨lr, _, h⟩ := Functor.bind_ok_iff.1 h
    obtain ⟨rl, _, h⟩ := Functor.bind_ok_iff.1 h
    obtain ⟨_, hm, h⟩ := Functor.bind_ok_iff.1 h
    obtain ⟨a, ha, h⟩ := Functor.bind_ok_iff.1 h
    obtain ⟨b, hb, h⟩ := Functor.bind_ok_iff.1 h
    simp only [Except.ok.injEq] at h; subst h
    have := checkMatch_ok hm; subst this
    cases cod <;> simp_all [Shape, Cat.isUnder, Cat.result, Cat.argument]
    exact .bc _ _ _
  · obtain ⟨lr, _, h⟩ := Functor.bind_ok_iff.1 h
    obtain ⟨rl, _, h⟩ := Functor.bind_ok_iff.1 h
    obtain ⟨_, hm, h⟩ := Functor.bind_ok_iff.1 h
    obtain ⟨a, ha, h⟩ := Functor.bind_ok_iff.1 h
    obtain ⟨b, hb, h⟩ := Functor.bind_ok_iff.1 h
    simp only [Except.ok.injEq] at h; subst h
    have := checkMatch_ok hm; subst this
    cases cod <;> simp_all [Shape, Cat.isUnder, Cat.left, Cat.right]
    exact .fx _ _ _
  · obtain ⟨lr, _, h⟩ := Functor.bind_ok_iff.1 h
    obtain ⟨rl, _, h⟩ := Functor.bind_ok_iff.1 h
    obtain ⟨_, hm, h⟩ := Functor.bind_ok_iff.1 h
    obtain ⟨a, ha, h⟩ := Functor.bind_ok_iff.1 h
    obtain ⟨b, hb, h⟩ := Functor.bind_ok_iff.1 h
    simp only [Except.ok.injEq] at h; subst h
    have := checkMatch_ok hm; subst this
    cases cod <;> simp_all [Shape, Cat.isOver, Cat.left, Cat.right]
    exact .bx _ _ _
  · obtain ⟨ll, _, h⟩ := Functor.bind_ok_iff.1 h
    obtain ⟨lr, _, h⟩ := Functor.bind_ok_iff.1 h
    obtain ⟨⟨new, old⟩, hp, h⟩ := Functor.bind_ok_iff.1 h
    obtain ⟨nl, hn, h⟩ := Functor.bind_ok_iff.1 h
    simp only [Except.ok.injEq] at h; subst h
    have hn := assertSome_ok hn
    dsimp only at hn; subst hn
    obtain ⟨d, a, k, e1, e2, e3, e4⟩ := rr_sound (dirSpec1 '/' (by simp)) hp
    rw [admits_fwd] at e3; subst e3
    rw [e1, e2]
    exact .gfc _ _ _ k (fun e he => admits_fwd.1 (e4 e he))
  · obtain ⟨ll, _, h⟩ := Functor.bind_ok_iff.1 h
    obtain ⟨lr, _, h⟩ := Functor.bind_ok_iff.1 h
    obtain ⟨⟨new, old⟩, hp, h⟩ := Functor.bind_ok_iff.1 h
    obtain ⟨nl, hn, h⟩ := Functor.bind_ok_iff.1 h
    simp only [Except.ok.injEq] at h; subst h
    have hn := assertSome_ok hn
    dsimp only at hn; subst hn
    obtain ⟨d, a, k, e1, e2, e3, e4⟩ := rr_sound (dirSpec1 '\\' (by simp)) hp
    rw [admits_bwd] at e3; subst e3
    rw [e1, e2]
    exact .gbc _ _ _ k (fun e he => admits_bwd.1 (e4 e he))
  · obtain ⟨ll, _, h⟩ := Functor.bind_ok_iff.1 h
    obtain ⟨lr, _, h⟩ := Functor.bind_ok_iff.1 h
    obtain ⟨⟨new, old⟩, hp, h⟩ := Functor.bind_ok_iff.1 h
    obtain ⟨nl, hn, h⟩ := Functor.bind_ok_iff.1 h
    simp only [Except.ok.injEq] at h; subst h
    have hn := assertSome_ok hn
    dsimp only at hn; subst hn
    obtain ⟨d, a, k, e1, e2, e3, e4⟩ := rr_sound (dirSpec2 '\\' (by simp)) hp
    rw [admits_bwd] at e3; subst e3
    rw [e1, e2]
    exact .gfx _ _ _ k
  · obtain ⟨ll, _, h⟩ := Functor.bind_ok_iff.1 h
    obtain ⟨lr, _, h⟩ := Functor.bind_ok_iff.1 h
    obtain ⟨⟨new, old⟩, hp, h⟩ := Functor.bind_ok_iff.1 h
    obtain ⟨nl, hn, h⟩ := Functor.bind_ok_iff.1 h
    simp only [Except.ok.injEq] at h; subst h
    have hn := assertSome_ok hn
    dsimp only at hn; subst hn
    obtain ⟨d, a, k, e1, e2, e3, e4⟩ := rr_sound (dirSpec2 '/' (by simp)) hp
    rw [admits_fwd] at e3; subst e3
    rw [e1, e2]
    exact .gbx _ _ _ k
  · simp only [Except.ok.injEq] at h; subst h
    simp only [Shape, List.head?_cons, Option.some.injEq] at hs
    subst hs; exact .lp _
  · simp only [Except.ok.injEq] at h; subst h
    simp only [Shape] at hs
    have : r = Cat.PUNC := by simpa using hs
    subst this; exact .rp _
  · split at h
    · next hl =>
      simp only [Except.ok.injEq] at h; subst h
      simp only [resolvedRule, hl, if_true]; exact .fa _ _
    · next hl =>
      split at h
      · simp only [Except.ok.injEq] at h; subst h
        simp only [resolvedRule, hl, if_false]; exact .ba _ _
      · simp at h
  · simp at h

/-- **C31** soundness: the rewritten premises together with the required conclusion form an instance of
the (resolved) rule — for every rule, whatever the original premises were, provided the conclusion keeps
the slash/raised shape the rule produces. -/
theorem C31_resolve_sound (rule : Rule) (dom dom' : List Cat) (cod : Cat)
    (h : resolve rule dom cod = .ok dom') (hs : Shape rule dom cod) :
    Licensed (resolvedRule rule dom) dom' cod := by
  have hb : ∀ r, (match dom with
      | [left, right] => resolveBin r left right cod
      | _ => .error .valueError) = .ok dom' → Shape r dom cod → Licensed (resolvedRule r dom) dom' cod := by
    intro r h hs
    split at h
    · exact resolveBin_sound h hs
    · simp at h
  unfold resolve at h
  split at h
  · simp at h
  · exact hs.elim
  · simp only [Except.ok.injEq] at h; subst h
    cases dom <;> exact .unary _
  · obtain ⟨t, x, rfl⟩ := hs
    simp only [Cat.argument, ok_bind, Except.ok.injEq] at h; subst h
    cases dom <;> exact .btr _ _
  · obtain ⟨t, x, rfl⟩ := hs
    simp only [Cat.argument, ok_bind, Except.ok.injEq] at h; subst h
    cases dom <;> exact .ftr _ _
  · exact hb _ h hs

/-- **C31** stability: a step that is already an instance of its rule is left exactly as it is. -/
theorem C31_resolve_stable (rule : Rule) (dom : List Cat) (cod : Cat) (h : Licensed rule dom cod) :
    resolve rule dom cod = .ok dom := by
  cases h with
  | gfc x y z k hk =>
    have := Cat.C28_replace_result_found x y k true z ['/'] _ _ (dirSpec1 '/' (by simp))
              (admits_fwd.2 rfl) (fun e he => admits_fwd.2 (hk e he))
    simp only [slash, if_true] at this
    simp [resolve, resolveBin, Cat.left, Cat.right, ok_bind, this, assertSome]
  | gbc x y z k hk =>
    have := Cat.C28_replace_result_found x y k false z ['\\'] _ _ (dirSpec1 '\\' (by simp))
              (admits_bwd.2 rfl) (fun e he => admits_bwd.2 (hk e he))
    simp only [slash, Bool.false_eq_true, if_false] at this
    simp [resolve, resolveBin, Cat.left, Cat.right, ok_bind, this, assertSome]
  | gfx x y z k =>
    have := Cat.C28_replace_result_found x y k false z ['\\', '|'] _ _ (dirSpec2 '\\' (by simp))
              (admits_bwd.2 rfl) (fun e he => .inl rfl)
    simp only [slash, Bool.false_eq_true, if_false] at this
    simp [resolve, resolveBin, Cat.left, Cat.right, ok_bind, this, assertSome]
  | gbx x y z k =>
    have := Cat.C28_replace_result_found x y k true z ['/', '|'] _ _ (dirSpec2 '/' (by simp))
              (admits_fwd.2 rfl) (fun e he => .inl rfl)
    simp only [slash, if_true] at this
    simp [resolve, resolveBin, Cat.left, Cat.right, ok_bind, this, assertSome]
  | _ => simp [resolve, resolveBin, Cat.left, Cat.right, Cat.result, Cat.argument, ok_bind, checkMatch]

/-- Without the shape condition C31 is refuted: forward composition resolved against a backward
conclusion gives premises whose composition is `a/c`, not `a\c`. -/
theorem C31_refuted_shape :
    resolve .fc [.over (.atom "x") (.atom "y"), .over (.atom "y") (.atom "z")] (.under (.atom "a") (.atom "c"))
      = .ok [.over (.atom "a") (.atom "y"), .over (.atom "y") (.atom "c")] ∧
    ∃ d, apply .fc [.over (.atom "a") (.atom "y"), .over (.atom "y") (.atom "c")]
        (some (.under (.atom "a") (.atom "c"))) = .ok d ∧ d.cod ≠ (Cat.under (.atom "a") (.atom "c")).toTy :=
  ⟨by decide +kernel, _, rfl, by decide⟩

/-- … and for type raising whose conclusion was rewritten to `a/(b\c)` with `a ≠ b`. -/
theorem C31_refuted_raising :
    resolve .ftr [.atom "c"] (.over (.atom "a") (.under (.atom "b") (.atom "c"))) = .ok [.atom "c"] ∧
    ∃ d, apply .ftr [.atom "c"] (some (.over (.atom "a") (.under (.atom "b") (.atom "c")))) = .ok d ∧
      d.cod ≠ (Cat.over (.atom "a") (.under (.atom "b") (.atom "c"))).toTy :=
  ⟨by decide +kernel, _, rfl, by decide⟩

/-- Non-vacuity of C31: a conjunction resolved to forward application. -/
example : resolve .conj [Cat.CONJ, .atom "n"] (.under (.atom "n") (.atom "n")) =
      .ok [.over (.under (.atom "n") (.atom "n")) (.atom "n"), .atom "n"] ∧
    Shape .conj [Cat.CONJ, .atom "n"] (.under (.atom "n") (.atom "n")) := ⟨by decide +kernel, trivial⟩

end Rule
end Lambeq
