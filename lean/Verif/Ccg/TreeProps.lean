import Verif.Ccg.Tree
import Verif.Ccg.RuleProps

/-!
# C32: from derivation trees to sentence diagrams
-/

namespace Lambeq
open Diagram GDiagram
set_option linter.unusedSimpArgs false
set_option linter.unusedVariables false

namespace Tree
open Rule (Licensed WireBox Good resolve)

/-! ## Specification -/

/-- The words of the sentence: the leaf texts from left to right, leaving out the punctuation marks
that a punctuation rule removes. -/
def spoken : Tree → List String
  | leaf w _ => [w]
  | un _ _ c => c.spoken
  | bin .lp _ _ r => r.spoken
  | bin .rp _ l _ => l.spoken
  | bin _ _ l r => l.spoken ++ r.spoken

/-- The leaf texts from left to right. -/
def leaves : Tree → List String
  | leaf w _ => [w]
  | un _ _ c => c.leaves
  | bin _ _ l r => l.leaves ++ r.leaves

/-- A word box with empty domain and winding 0. -/
def IsWord (b : Box) : Prop := ∃ w c, b = .word w c 0

/-- The names of the word boxes of a diagram, from top to bottom. -/
def wordNames (d : GDiagram) : List String :=
  d.boxes.filterMap (fun b => match b with | .word w _ _ => some w | _ => none)

/-- Derivation trees: every step is an instance of its rule, except that conjunction words and
single-word unary rules may change the type of that word.  Punctuation occurs only under the
punctuation and conjunction rules. -/
inductive Proper : Tree → Prop
  | leaf (w : String) (t : Cat) (h : t ≠ Cat.PUNC) : Proper (leaf w t)
  /-- type raising -/
  | raise (r : Rule) (t : Cat) (c : Tree) (hr : r ≠ .unary) (h : Licensed r [c.ty] t) (hc : Proper c) :
      Proper (un r t c)
  /-- a unary rule that changes nothing -/
  | same (c : Tree) (hc : Proper c) : Proper (un .unary c.ty c)
  /-- a unary rule changing the type of a word (without exchanging `/` and `\`) -/
  | relabel (w : String) (x t : Cat) (h : t ≠ Cat.PUNC)
      (hd : ¬ ((∃ a b c d, t = .over a b ∧ x = .under c d) ∨ (∃ a b c d, t = .under a b ∧ x = .over c d))) :
      Proper (un .unary t (.leaf w x))
  /-- removal of punctuation on the left, on the right -/
  | lp (w : String) (r : Tree) (hr : Proper r) : Proper (bin .lp r.ty (.leaf w Cat.PUNC) r)
  | rp (w : String) (l : Tree) (hl : Proper l) : Proper (bin .rp l.ty l (.leaf w Cat.PUNC))
  /-- conjunction, the connective on the left or on the right -/
  | conjL (w : String) (x t : Cat) (r : Tree) (hx : x = Cat.CONJ ∨ x = Cat.PUNC) (hr : Proper r) :
      Proper (bin .conj t (.leaf w x) r)
  | conjR (w : String) (x t : Cat) (l : Tree) (hx : x = Cat.CONJ ∨ x = Cat.PUNC)
      (hn : l.ty ≠ Cat.CONJ ∧ l.ty ≠ Cat.PUNC) (hl : Proper l) : Proper (bin .conj t l (.leaf w x))
  /-- all binary combinators -/
  | bin (rule : Rule) (t : Cat) (l r : Tree) (h : Licensed rule [l.ty, r.ty] t)
      (hr : rule ≠ .lp ∧ rule ≠ .rp) (hne : r.ty.NoEmpty) (hl : Proper l) (hr' : Proper r) :
      Proper (bin rule t l r)

/-! ## Resolution -/

/-- `t` can be rewritten to have type `out`. -/
inductive Deriv : Tree → Cat → Prop
  | leaf (w : String) (t out : Cat) (h : out ≠ Cat.PUNC) : Deriv (leaf w t) out
  | un (rule : Rule) (t : Cat) (c : Tree) (out x : Cat) (hr : rule ≠ .unary)
      (hx : rule.resolve [c.ty] out = .ok [x]) (hL : Licensed rule [x] out) (hc : Deriv c x) :
      Deriv (un rule t c) out
  | keep (t : Cat) (c : Tree) (out : Cat) (hs : dirSwap out c.ty = false) (hc : Deriv c out) :
      Deriv (un .unary t c) out
  | swap (t : Cat) (c : Tree) (out : Cat) (hs : dirSwap out c.ty = true)
      (hx : ∃ x, out = .over x x ∨ out = .under x x) (hc : Deriv c (swapDom out)) : Deriv (un .unary t c) out
  | lp (w : String) (t : Cat) (r : Tree) (out : Cat) (hr : Deriv r out) :
      Deriv (bin .lp t (.leaf w Cat.PUNC) r) out
  | rp (w : String) (t : Cat) (l : Tree) (out : Cat) (hl : Deriv l out) :
      Deriv (bin .rp t l (.leaf w Cat.PUNC)) out
  | bin (rule : Rule) (t : Cat) (l r : Tree) (out a b : Cat) (h1 : rule ≠ .lp) (h2 : rule ≠ .rp)
      (hd : binDom rule l r out = .ok [a, b]) (hL : Licensed (binRule rule l) [a, b] out)
      (hg : rule = .gbc → ∀ x y, b = .under x y → y.toTy ≠ []) (hl : Deriv l a) (hr : Deriv r b) :
      Deriv (bin rule t l r) out

theorem ty_leaf (w : String) (t : Cat) : (leaf w t).ty = t := rfl
theorem ty_un (r : Rule) (t : Cat) (c : Tree) : (un r t c).ty = t := rfl
theorem ty_bin (r : Rule) (t : Cat) (a b : Tree) : (bin r t a b).ty = t := rfl

theorem pyGet_zero {α : Type} (a : α) (t : List α) : pyGet (a :: t) 0 = .ok a := rfl
theorem pyGet_one {α : Type} (a b : α) (t : List α) : pyGet (a :: b :: t) 1 = .ok b := rfl

theorem resolved_ty : ∀ (t : Tree) (out : Cat) (t' : Tree), resolved t out = .ok t' → t'.ty = out
  | leaf w x, out, t', h => by
      rw [resolved] at h
      split at h
      · next he => simp only [Except.ok.injEq] at h; subst h; exact he.symm
      · simp only [Except.ok.injEq] at h; subst h; rfl
  | un rule x c, out, t', h => by
      rw [resolved] at h
      split at h
      · split at h
        · obtain ⟨c', hc, h⟩ := Functor.bind_ok_iff.1 h
          split at h
          · next he => simp only [Except.ok.injEq] at h; subst h; exact he.2.symm
          · simp only [Except.ok.injEq] at h; subst h; rfl
        · exact resolved_ty c out t' h
      · obtain ⟨_, _, h⟩ := Functor.bind_ok_iff.1 h
        obtain ⟨_, _, h⟩ := Functor.bind_ok_iff.1 h
        obtain ⟨c', hc, h⟩ := Functor.bind_ok_iff.1 h
        split at h
        · next he => simp only [Except.ok.injEq] at h; subst h; exact he.2.symm
        · simp only [Except.ok.injEq] at h; subst h; rfl
  | bin rule x l r, out, t', h => by
      rw [resolved] at h
      obtain ⟨_, _, h⟩ := Functor.bind_ok_iff.1 h
      obtain ⟨_, _, h⟩ := Functor.bind_ok_iff.1 h
      obtain ⟨_, _, h⟩ := Functor.bind_ok_iff.1 h
      obtain ⟨_, _, h⟩ := Functor.bind_ok_iff.1 h
      obtain ⟨_, _, h⟩ := Functor.bind_ok_iff.1 h
      split at h
      · next he => simp only [Except.ok.injEq] at h; subst h; exact he.2.2.symm
      · simp only [Except.ok.injEq] at h; subst h; rfl

theorem conj_atomic {c : Cat} (h : c.isConjoinable = true) (x y : Cat) : c ≠ .over x y ∧ c ≠ .under x y := by
  simp only [Cat.isConjoinable, Bool.or_eq_true, beq_iff_eq] at h
  rcases h with rfl | rfl <;> simp [Cat.CONJ, Cat.PUNC]

/-- The rebuilt binary node (whether or not Python returns `self`). -/
theorem resolved_bin {rule : Rule} {t : Cat} {l r l' r' : Tree} {out a b : Cat}
    (hd : binDom rule l r out = .ok [a, b]) (hl : resolved l a = .ok l') (hr : resolved r b = .ok r') :
    resolved (bin rule t l r) out = .ok (bin (binRule rule l) out l' r') := by
  rw [resolved, hd, ok_bind]
  dsimp only
  rw [pyGet_zero, ok_bind, hl, ok_bind, pyGet_one, ok_bind, hr, ok_bind]
  split
  · next he =>
    obtain ⟨rfl, rfl, rfl⟩ := he
    suffices h : binRule rule l' = rule by rw [h]
    unfold binRule
    split
    · next hc =>
      exfalso
      subst hc
      have e1 := resolved_ty _ _ _ hl
      have e2 := resolved_ty _ _ _ hr
      simp only [binDom, reduceCtorEq, false_and, if_false, resolve, Rule.resolveBin] at hd
      split at hd
      · next hj =>
        simp only [Except.ok.injEq, List.cons.injEq] at hd
        exact (conj_atomic hj _ _).1 (e1.trans hd.1.symm)
      · split at hd
        · next hj =>
          simp only [Except.ok.injEq, List.cons.injEq] at hd
          exact (conj_atomic hj _ _).2 (e2.trans hd.2.1.symm)
        · simp at hd
    · rfl
  · rfl

theorem resolved_un {rule : Rule} {t : Cat} {c c' : Tree} {out x : Cat} (hr : rule ≠ .unary)
    (hx : rule.resolve [c.ty] out = .ok [x]) (hc : resolved c x = .ok c') :
    resolved (un rule t c) out = .ok (un rule out c') := by
  rw [resolved, if_neg hr, hx, ok_bind, pyGet_zero, ok_bind, hc, ok_bind]
  split
  · next he => obtain ⟨rfl, rfl⟩ := he; rfl
  · rfl

theorem resolved_swap {t : Cat} {c c' : Tree} {out : Cat} (hs : dirSwap out c.ty = true)
    (hc : resolved c (swapDom out) = .ok c') : resolved (un .unary t c) out = .ok (un .unary out c') := by
  rw [resolved, if_pos rfl, if_pos hs, hc, ok_bind]
  split
  · next he => obtain ⟨rfl, rfl⟩ := he; rfl
  · rfl

/-! ## Diagrams of the children put together -/

theorem join1 (w d layer : GDiagram) : joinChildren [(w, d)] layer = (andThen d layer).map (fun x => (w, x)) := by
  simp only [joinChildren, List.map_cons, List.map_nil, tensorN_eq_foldr, List.foldr_cons, List.foldr_nil,
    tensor_id_nil_left, tensor_id_nil_right]
  cases andThen d layer <;> rfl

theorem join2 (w d w' d' layer : GDiagram) : joinChildren [(w, d), (w', d')] layer =
    (andThen (tensor d d') layer).map (fun x => (tensor w w', x)) := by
  simp only [joinChildren, List.map_cons, List.map_nil, tensorN_eq_foldr, List.foldr_cons, List.foldr_nil,
    tensor_id_nil_left, tensor_id_nil_right]
  cases andThen (tensor d d') layer <;> rfl

theorem wordNames_tensor (f g : GDiagram) : wordNames (tensor f g) = wordNames f ++ wordNames g := by
  simp [wordNames, boxes_tensor]

/-- What the pair (words, grammar) of a subtree must satisfy. -/
structure Parts (names : List String) (out : Ty) (w g : GDiagram) : Prop where
  wWT : w.WT
  wdom : w.dom = []
  wcod : w.cod = g.dom
  wbox : ∀ b ∈ w.boxes, IsWord b
  wname : wordNames w = names
  good : Good g
  gcod : g.cod = out

theorem Parts.tensor {n n' : List String} {o o' : Ty} {w g w' g' : GDiagram} (h : Parts n o w g)
    (h' : Parts n' o' w' g') : Parts (n ++ n') (o ++ o') (Diagram.tensor w w') (Diagram.tensor g g') where
  wWT := h.wWT.tensor h'.wWT
  wdom := by simp [tensor_dom, h.wdom, h'.wdom]
  wcod := by rw [tensor_cod, tensor_dom, h.wcod, h'.wcod]
  wbox := by
    intro b hb
    rw [boxes_tensor] at hb
    rcases List.mem_append.1 hb with hb | hb
    · exact h.wbox b hb
    · exact h'.wbox b hb
  wname := by rw [wordNames_tensor, h.wname, h'.wname]
  good := h.good.tensor h'.good
  gcod := by rw [tensor_cod, h.gcod, h'.gcod]

theorem Parts.layer {n : List String} {o o' : Ty} {w g layer : GDiagram} (h : Parts n o w g)
    (hl : Good layer) (hd : layer.dom = o) (hc : layer.cod = o') :
    ∃ g', andThen g layer = .ok g' ∧ Parts n o' w g' := by
  have e : g.cod = layer.dom := by rw [h.gcod, hd]
  have hok := andThen_eq_ok e
  refine ⟨_, hok, h.wWT, h.wdom, h.wcod, h.wbox, h.wname, h.good.andThen hl hok, hc⟩

theorem Parts.empty : Parts [] [] (Diagram.id []) (Diagram.id []) :=
  ⟨WT.id _, rfl, rfl, by simp [boxes_id], rfl, Good.id _, rfl⟩

theorem swapLayer_spec (out x : Cat) (h : out = .over x x ∨ out = .under x x) :
    ∃ layer, swapLayer out = .ok layer ∧ Good layer ∧ layer.dom = (swapDom out).toTy ∧ layer.cod = out.toTy := by
  have hl : Ty.r (Ty.l (Ty.l x.toTy)) = Ty.l x.toTy := by simp
  have hr : Ty.l (Ty.r (Ty.r x.toTy)) = Ty.r x.toTy := by simp
  rcases h with rfl | rfl
  · obtain ⟨d, hd, _⟩ := C12_swap (Ty.l x.toTy) x.toTy
    obtain ⟨g, h1, h2⟩ := Good.swap hd
    refine ⟨d, by simp [swapLayer, Cat.isOver, Cat.left, Cat.right, ok_bind, hd], g, ?_, ?_⟩
    · rw [h1]; simp [swapDom, Cat.toTy, hl]
    · rw [h2]; simp [Cat.toTy]
  · obtain ⟨d, hd, _⟩ := C12_swap x.toTy (Ty.r x.toTy)
    obtain ⟨g, h1, h2⟩ := Good.swap hd
    refine ⟨d, by simp [swapLayer, Cat.isOver, Cat.left, Cat.right, ok_bind, hd], g, ?_, ?_⟩
    · rw [h1]; simp [swapDom, Cat.toTy, hr]
    · rw [h2]; simp [Cat.toTy]

theorem binRule_ne {rule : Rule} {l : Tree} (h1 : rule ≠ .lp) (h2 : rule ≠ .rp) :
    binRule rule l ≠ .lp ∧ binRule rule l ≠ .rp := by
  unfold binRule
  split
  · split <;> simp
  · exact ⟨h1, h2⟩

theorem wires_two {rule : Rule} {a b : Cat} (h1 : rule ≠ .lp) (h2 : rule ≠ .rp) :
    Rule.wires rule [a, b] = a.toTy ++ b.toTy := by
  cases rule <;> simp_all [Rule.wires]

theorem wires_one {rule : Rule} {a : Cat} : Rule.wires rule [a] = a.toTy := by
  cases rule <;> simp [Rule.wires]

/-- Everything about a subtree at once. -/
theorem deriv_spec {t : Tree} {out : Cat} (h : Deriv t out) :
    ∃ t' w g, resolved t out = .ok t' ∧ toDiagramAux false t' = .ok (w, g) ∧
      Parts t.spoken out.toTy w g := by
  induction h with
  | leaf w t out hne =>
    refine ⟨.leaf w out, ofBox (.word w out.toTy 0), Diagram.id out.toTy, ?_, ?_, ?_⟩
    · rw [resolved]; split
      · next he => rw [he]
      · rfl
    · rw [toDiagramAux, if_neg hne]
    · refine ⟨WT.ofBox _, rfl, rfl, ?_, rfl, Good.id _, rfl⟩
      intro b hb
      simp only [Diagram.boxes, ofBox, List.map_cons, List.map_nil, List.mem_singleton] at hb
      exact ⟨w, out.toTy, hb⟩
  | un rule t c out x hr hx hL hc ih =>
    obtain ⟨c', w, g, h1, h2, h3⟩ := ih
    have hty := resolved_ty _ _ _ h1
    obtain ⟨layer, l1, l2, l3, l4⟩ := Rule.C29_apply rule [x] out hL (by simp)
    obtain ⟨g', g1, g2⟩ := h3.layer (Rule.C29_wellTyped _ _ _ _ l1) (by rw [l3, wires_one]) l4
    refine ⟨_, w, g', resolved_un hr hx h1, ?_, g2⟩
    rw [toDiagramAux, if_neg hr, hty, l1, ok_bind, h2, ok_bind, join1, g1]
    rfl
  | keep t c out hs hc ih =>
    obtain ⟨c', w, g, h1, h2, h3⟩ := ih
    refine ⟨c', w, g, ?_, h2, h3⟩
    rw [resolved, if_pos rfl, hs]
    simpa using h1
  | swap t c out hs hx hc ih =>
    obtain ⟨c', w, g, h1, h2, h3⟩ := ih
    obtain ⟨x, hx⟩ := hx
    obtain ⟨layer, l1, l2, l3, l4⟩ := swapLayer_spec out x hx
    obtain ⟨g', g1, g2⟩ := h3.layer l2 l3 l4
    refine ⟨_, w, g', resolved_swap hs h1, ?_, g2⟩
    rw [toDiagramAux, if_pos rfl]
    simp only [Bool.false_eq_true, if_false, l1, ok_bind, h2, join1, g1]
    rfl
  | lp w t r out hr ih =>
    obtain ⟨r', w', g, h1, h2, h3⟩ := ih
    have hty := resolved_ty _ _ _ h1
    have hP := Parts.empty.tensor h3
    obtain ⟨g', g1, g2⟩ := hP.layer (Good.id out.toTy) rfl rfl
    refine ⟨.bin .lp out (.leaf w Cat.PUNC) r', _, g', resolved_bin (a := Cat.PUNC) (b := out) rfl ?_ h1, ?_, g2⟩
    · rw [resolved]; simp
    · rw [toDiagramAux]
      simp only [Rule.apply, Rule.applyBin, ty_leaf, hty, ok_bind, toDiagramAux, if_true, h2, isCrossed,
        Bool.false_and, Bool.false_eq_true, if_false, join2, g1]
      rfl
  | rp w t l out hl ih =>
    obtain ⟨l', w', g, h1, h2, h3⟩ := ih
    have hty := resolved_ty _ _ _ h1
    have hP := h3.tensor Parts.empty
    simp only [List.append_nil] at hP
    obtain ⟨g', g1, g2⟩ := hP.layer (Good.id out.toTy) rfl rfl
    refine ⟨.bin .rp out l' (.leaf w Cat.PUNC), _, g', resolved_bin (a := out) (b := Cat.PUNC) rfl h1 ?_, ?_, g2⟩
    · rw [resolved]; simp
    · rw [toDiagramAux]
      simp only [Rule.apply, Rule.applyBin, ty_leaf, hty, ok_bind, toDiagramAux, if_true, h2, isCrossed,
        Bool.false_and, Bool.false_eq_true, if_false, join2, g1]
      rfl
  | bin rule t l r out a b n1 n2 hd hL hg hl hr ihl ihr =>
    obtain ⟨l', wl, gl, a1, a2, a3⟩ := ihl
    obtain ⟨r', wr, gr, b1, b2, b3⟩ := ihr
    have hta := resolved_ty _ _ _ a1
    have htb := resolved_ty _ _ _ b1
    obtain ⟨m1, m2⟩ := binRule_ne (l := l) n1 n2
    obtain ⟨layer, l1, l2, l3, l4⟩ := Rule.C29_apply (binRule rule l) [a, b] out hL (by
      intro hgb l0 x y he
      simp only [List.cons.injEq] at he
      refine hg ?_ x y he.2.1
      unfold binRule at hgb
      split at hgb
      · split at hgb <;> simp at hgb
      · exact hgb)
    have hP := a3.tensor b3
    obtain ⟨g', g1, g2⟩ := hP.layer (Rule.C29_wellTyped _ _ _ _ l1) (by rw [l3, wires_two m1 m2]) l4
    refine ⟨_, tensor wl wr, g', resolved_bin hd a1 b1, ?_, ?_⟩
    · rw [toDiagramAux, hta, htb, l1, ok_bind, a2, ok_bind, b2, ok_bind]
      simp only [Bool.false_and, Bool.false_eq_true, if_false, join2, g1]
      rfl
    · have hsp : (Tree.bin rule t l r).spoken = l.spoken ++ r.spoken := by
        cases rule <;> first | rfl | (exact absurd rfl n1) | (exact absurd rfl n2)
      rw [hsp]; exact g2

theorem conjoinable_iff (c : Cat) : c.isConjoinable = true ↔ c = Cat.CONJ ∨ c = Cat.PUNC := by
  simp [Cat.isConjoinable]

theorem proper_bin {rule : Rule} {t : Cat} {l r : Tree} (h : Licensed rule [l.ty, r.ty] t)
    (hne : r.ty.NoEmpty) (hl : Proper l) :
    binRule rule l = rule ∧ binDom rule l r t = .ok [l.ty, r.ty] ∧
      (rule = .gbc → ∀ x y, r.ty = .under x y → y.toTy ≠ []) := by
  have hstable := Rule.C31_resolve_stable rule _ _ h
  have hrule : binRule rule l = rule := by
    unfold binRule
    split
    · next hc => subst hc; cases h
    · rfl
  refine ⟨hrule, ?_, ?_⟩
  · unfold binDom
    split
    · next hc =>
      obtain ⟨rfl, hftr⟩ := hc
      have hl2 : ∃ t0 c0, l = .un .ftr t0 c0 ∧ Licensed .ftr [c0.ty] t0 := by
        cases hl with
        | raise r0 t0 c0 hr0 h0 hc0 => simp only [Tree.rule] at hftr; subst hftr; exact ⟨t0, c0, rfl, h0⟩
        | bin rule0 t0 l0 r0 h0 _ _ _ _ =>
          simp only [Tree.rule] at hftr; subst hftr
          generalize l0.ty = x at h0; generalize r0.ty = y at h0; cases h0
        | _ => simp [Tree.rule] at hftr
      obtain ⟨t0, c0, rfl, hlic⟩ := hl2
      simp only [ty_un] at h hstable ⊢
      generalize hrt : r.ty = rt at *
      cases h with
      | fc x y z =>
        cases hlic with
        | ftr x0 t1 =>
          simp only [Cat.left, Cat.right, ok_bind]
          exact Rule.C31_resolve_stable .fc _ _ (.fc _ _ _)
    · exact hstable
  · rintro rfl x y hb
    rw [hb] at hne
    exact Rule.toTy_ne_nil hne.2

theorem proper_deriv {t : Tree} (h : Proper t) : Deriv t t.ty := by
  induction h with
  | leaf w t hne => exact .leaf w t t hne
  | raise r t c hr h hc ih =>
    have hs := Rule.C31_resolve_stable r _ _ h
    exact .un r t c t c.ty hr hs h ih
  | same c hc ih =>
    refine .keep _ c _ ?_ ih
    show dirSwap c.ty c.ty = false
    cases c.ty <;> rfl
  | relabel w x t hne hd =>
    refine .keep _ _ _ ?_ (.leaf w x t hne)
    show dirSwap t x = false
    cases t <;> cases x <;> simp_all [dirSwap, Cat.isOver, Cat.isUnder]
  | lp w r hr ih => exact .lp w _ r _ ih
  | rp w l hl ih => exact .rp w _ l _ ih
  | conjL w x t r hx hr ih =>
    have hj := (conjoinable_iff x).2 hx
    refine .bin .conj t _ r t (.over t r.ty) r.ty (by simp) (by simp) ?_ ?_ (by simp) (.leaf _ _ _ (by simp [Cat.PUNC])) ih
    · simp [binDom, resolve, Rule.resolveBin, ty_leaf, hj]
    · simp only [binRule, ty_leaf, hj, if_true]; exact .fa _ _
  | conjR w x t l hx hn hl ih =>
    have hj := (conjoinable_iff x).2 hx
    have hj' : l.ty.isConjoinable = false := by
      cases hh : l.ty.isConjoinable with
      | false => rfl
      | true => rcases (conjoinable_iff _).1 hh with h | h
                · exact absurd h hn.1
                · exact absurd h hn.2
    refine .bin .conj t l _ t l.ty (.under t l.ty) (by simp) (by simp) ?_ ?_ (by simp) ih (.leaf _ _ _ (by simp [Cat.PUNC]))
    · simp [binDom, resolve, Rule.resolveBin, ty_leaf, hj, hj']
    · simp only [binRule, hj', if_true, Bool.false_eq_true, if_false]; exact .ba _ _
  | bin rule t l r h hr hne hl hr' ihl ihr =>
    obtain ⟨hrule, hdom, hgb⟩ := proper_bin h hne hl
    exact .bin rule t l r t l.ty r.ty hr.1 hr.2 hdom (by rw [hrule]; exact h) hgb ihl ihr

/-- **C32**, total correctness (non-planar): every derivation tree of whatever size is turned, without
error, into a well-typed diagram with no inputs whose output is the root category, that first puts down
the words of the sentence in order and then only cups, caps and swaps. -/
theorem C32_toDiagram (t : Tree) (h : Proper t) :
    ∃ d w g, toDiagram t false false = .ok d ∧ d.WT ∧ d.dom = [] ∧ d.cod = t.ty.toTy ∧
      wordNames d = t.spoken ∧
      d.boxes = w ++ g ∧ (∀ b ∈ w, IsWord b) ∧ (∀ b ∈ g, WireBox b) := by
  obtain ⟨t', w, g, h1, h2, h3⟩ := deriv_spec (proper_deriv h)
  have hok := andThen_eq_ok h3.wcod
  refine ⟨_, w.boxes, g.boxes, ?_, h3.wWT.andThen h3.good.1 hok, h3.wdom, h3.gcod, ?_, ?_, h3.wbox, h3.good.2⟩
  · simp only [toDiagram, Bool.false_eq_true, if_false, ok_bind, h1, h2, hok]
  · have hg : g.boxes.filterMap (fun b => match b with | .word w _ _ => some w | _ => none) = ([] : List String) := by
      rw [List.filterMap_eq_nil_iff]
      intro b hb
      rcases h3.good.2 b hb with ⟨x, y, rfl, _⟩ | ⟨x, y, rfl, _⟩ | ⟨x, y, rfl⟩ <;> rfl
    rw [← h3.wname]
    simp only [wordNames, Diagram.boxes, List.map_append, List.filterMap_append] at hg ⊢
    rw [hg, List.append_nil]
  · simp [Diagram.boxes]

end Tree
end Lambeq
