import Verif.Rewrite.RewriterProps

/-!
# The built-in rewrite rules (C36) and the rewriter object (C35)
-/

set_option linter.unusedSimpArgs false
set_option linter.unusedVariables false

namespace Lambeq
open Diagram

namespace Rewrite

/-- A rule is *good on* `b` if it does not raise and its answer has the type of `b`. -/
def RuleGood (rule : BoxRule) (b : Box) : Prop :=
  ∃ o, rule b = .ok o ∧ ∀ r, o = some r → r.dom = b.dom ∧ r.cod = b.cod ∧ r.WT ∧ r.Valid

theorem ruleOf_good {m : Box → Bool} {f : Box → Except PyErr GDiagram} {b : Box}
    (h : m b = true → ∃ r, f b = .ok r ∧ r.dom = b.dom ∧ r.cod = b.cod ∧ r.WT ∧ r.Valid) : RuleGood (ruleOf m f) b := by
  unfold ruleOf RuleGood
  cases hm : m b with
  | false => exact ⟨none, by simp [hm], by intro r hr; cases hr⟩
  | true =>
    obtain ⟨r, h1, h2⟩ := h hm
    refine ⟨some r, by simp [hm, h1, Except.map], ?_⟩
    intro r' hr'
    cases hr'; exact h2

theorem ofBox_valid {b : Box} (h : b.Valid) : GDiagram.Valid (ofBox b) := by
  intro x hx
  have hx : x = ⟨[], b, []⟩ := by simpa [ofBox] using hx
  subst hx; exact h

/-! ## Simple rules -/

/-- The placeholder boxes of a template are words. -/
def PlaceholdersAreWords (t : GDiagram) : Prop :=
  ∀ l ∈ t.layers, ∀ b0, seen l.box = some b0 → boxName b0 = placeholderWord → b0.dom = []

/-- Replace placeholders by the word `name`. -/
def fillBox (name : String) : Box → Box
  | .gen n d c z => if n = placeholderWord then .word name c z else .gen n d c z
  | .word n c z => if n = placeholderWord then .word name c z else .word n c z
  | .daggered b => .daggered (fillBox name b)
  | b => b

theorem img_fill {name : String} {b : Box} (hs : b.Simple) {p : GDiagram}
    (hp : ∀ b0, seen b = some b0 → boxName b0 = placeholderWord → b0.dom = [])
    (h : Img (placeholderFunctor name) b p) :
    p = ofBox (fillBox name b) := by
  have hrot : ∀ (z : Int) (t : Ty), Ty.rotate z (Ty.rotate (-z) t) = t := by
    intro z t
    rw [Ty.rotate_rotate]
    have : -z + z = 0 := by omega
    rw [this, Ty.rotate_zero]
  have gc : ∀ n d c z q, (n = placeholderWord → d = []) →
      (placeholderFunctor name).ar (.gen n (Ty.rotate (-z) d) (Ty.rotate (-z) c) 0) = .ok q →
      q.rotate z = ofBox (fillBox name (.gen n d c z)) := by
    intro n d c z q hd hq
    have hq : (if n = placeholderWord then Except.ok (ofBox (.word name (Ty.rotate (-z) c) 0))
      else Except.ok (ofBox (.gen n (Ty.rotate (-z) d) (Ty.rotate (-z) c) 0))) = Except.ok q := hq
    by_cases hn : n = placeholderWord
    · rw [if_pos hn] at hq
      cases hq
      simp [GDiagram.rotate, ofBox, GLayer.rotate, Box.rotate, hrot, BoxSig.dom, BoxSig.cod, Box.dom, Box.cod,
        Ty.rotate_nil, fillBox, hn, hd]
    · rw [if_neg hn] at hq
      cases hq
      simp [GDiagram.rotate, ofBox, GLayer.rotate, Box.rotate, hrot, BoxSig.dom, BoxSig.cod, Box.dom, Box.cod,
        Ty.rotate_nil, fillBox, hn]
  have wc : ∀ n c z q, (placeholderFunctor name).ar (.word n (Ty.rotate (-z) c) 0) = .ok q →
      q.rotate z = ofBox (fillBox name (.word n c z)) := by
    intro n c z q hq
    have hq : (if n = placeholderWord then Except.ok (ofBox (.word name (Ty.rotate (-z) c) 0))
      else Except.ok (ofBox (.word n (Ty.rotate (-z) c) 0))) = Except.ok q := hq
    by_cases hn : n = placeholderWord
    · rw [if_pos hn] at hq
      cases hq
      simp [GDiagram.rotate, ofBox, GLayer.rotate, Box.rotate, hrot, BoxSig.dom, BoxSig.cod, Box.dom, Box.cod,
        Ty.rotate_nil, fillBox, hn]
    · rw [if_neg hn] at hq
      cases hq
      simp [GDiagram.rotate, ofBox, GLayer.rotate, Box.rotate, hrot, BoxSig.dom, BoxSig.cod, Box.dom, Box.cod,
        Ty.rotate_nil, fillBox, hn]
  have dn : ∀ (z : Int) (d : Ty), Ty.rotate (-z) d = [] → d = [] := by
    intro z d h
    have := hrot z d
    rw [h] at this
    simpa [Ty.rotate] using this.symm
  cases h with
  | gen n d c z p h => exact gc n d c z p (fun hn => dn z d (hp _ rfl hn)) h
  | word n c z p h => exact wc n c z p h
  | cup => rfl
  | cap => rfl
  | swap => rfl
  | spider => rfl
  | daggered b p h =>
    cases h with
    | gen n d c z p h =>
      rw [gc n d c z p (fun hn => dn z d (hp _ rfl hn)) h]
      show GDiagram.dagger (ofBox (fillBox name (.gen n d c z))) = ofBox (.daggered (fillBox name (.gen n d c z)))
      unfold fillBox
      split <;> rfl
    | word n c z p h =>
      rw [wc n c z p h]
      show GDiagram.dagger (ofBox (fillBox name (.word n c z))) = ofBox (.daggered (fillBox name (.word n c z)))
      unfold fillBox
      split <;> rfl
    | _ => exact absurd hs (by simp [Box.Simple])

/-- **C36 (simple rules).** A simple rule whose template is a well-typed diagram of type `I → cod` rewrites
every matching box without inputs to the template with the word put at the placeholders; the result is well
typed and has the type of the box. -/
theorem C36_simple (lower : String → String) (s : Simple) (hw : s.template.WT) (hv : s.template.Valid)
    (hs : ∀ l ∈ s.template.layers, l.box.Simple)
    (hp : PlaceholdersAreWords s.template) (hd : s.template.dom = []) (hc : s.template.cod = s.cod)
    (b : Box) (hb : b.dom = []) :
    (s.matches lower b = false → s.rule lower b = .ok none) ∧
    (s.matches lower b = true → ∃ r : GDiagram, s.rule lower b = .ok (some r)
      ∧ r.dom = b.dom ∧ r.cod = b.cod ∧ r.WT ∧ r.Valid
      ∧ r.layers = s.template.layers.map (fun l => ⟨l.left, fillBox (boxName b) l.box, l.right⟩)) := by
  refine ⟨fun h => by simp [Simple.rule, ruleOf, h], fun h => ?_⟩
  obtain ⟨r, parts, h1, h2, h3, h4, h5, h6, h7⟩ := onDiagram_total (F := placeholderFunctor (boxName b)) (fun _ => rfl)
    s.template hw hv (fun l hl b0 hb0 => by
      unfold ArGood
      simp only [placeholderFunctor]
      by_cases hn : boxName b0 = placeholderWord
      · rw [if_pos hn]
        exact ⟨_, rfl, (hp l hl b0 hb0 hn).symm, rfl, WT.ofBox _, ofBox_valid trivial⟩
      · rw [if_neg hn]
        exact ⟨_, rfl, rfl, rfl, WT.ofBox _, ofBox_valid (seen_valid hb0)⟩)
  have hcod : b.cod = s.cod := by
    unfold Simple.matches at h
    simp only [Bool.and_eq_true, decide_eq_true_eq] at h
    exact h.1
  refine ⟨r, ?_, by rw [h2, hd, hb], by rw [h3, hc, hcod], h4, h5, ?_⟩
  · simp only [Simple.rule, ruleOf, h, if_true]
    unfold Simple.rewrite
    rw [h1]; rfl
  · rw [h7]
    have : ∀ (ls : List GLayer) (parts : List GDiagram), (∀ l ∈ ls, l.box.Simple) →
      (∀ l ∈ ls, ∀ b0, seen l.box = some b0 → boxName b0 = placeholderWord → b0.dom = []) →
      List.Forall₂ (fun (l : GLayer) p => Img (placeholderFunctor (boxName b)) l.box p ∧ p.dom = l.box.dom
        ∧ p.cod = l.box.cod) ls parts →
      (List.zipWith (fun (l : GLayer) (p : GDiagram) =>
          p.layers.map (Layer.extend l.left l.right)) ls parts).flatten
        = ls.map (fun l => ⟨l.left, fillBox (boxName b) l.box, l.right⟩) := by
      intro ls parts hs hn h
      induction h with
      | nil => rfl
      | cons hp _ ih =>
        rw [List.zipWith_cons_cons, List.flatten_cons, ih (fun l hl => hs l (by simp [hl])) (fun l hl => hn l (by simp [hl])),
          img_fill (hs _ (by simp)) (hn _ (by simp)) hp.1]
        simp [ofBox, Layer.extend]
    exact this _ _ hs hp h6

/-- What `C36_simple` needs of a module-level simple rule. -/
def TemplateOK (s : Simple) : Prop :=
  s.template.WT ∧ s.template.Valid ∧ (∀ l ∈ s.template.layers, l.box.Simple)
    ∧ PlaceholdersAreWords s.template ∧ s.template.dom = [] ∧ s.template.cod = s.cod

instance decValid : (b : Box) → Decidable b.Valid
  | .cup _ _ _ => inferInstanceAs (Decidable (_ = true))
  | .cap _ _ _ => inferInstanceAs (Decidable (_ = true))
  | .daggered b => decValid b
  | .gen _ _ _ _ => .isTrue trivial
  | .word _ _ _ => .isTrue trivial
  | .swap _ _ => .isTrue trivial
  | .spider _ _ _ => .isTrue trivial

/-- All built-in simple rules, with the codomain they match, as written in base.py:205-247. -/
def builtinSimple : List (Except PyErr Simple) :=
  [connectorRule, determinerRule, postadverbRule, preadverbRule, auxiliaryRule, prepositionalPhraseRule,
   objectRelPronounRule, subjectRelPronounRule]

/-- Look a template up as a concrete diagram. -/
theorem builtin_templates : ∀ s ∈ builtinSimple, ∃ r, s = .ok r ∧ TemplateOK r := by
  have key : ∀ s ∈ builtinSimple, ∃ r, s = .ok r ∧ r.template.WT
      ∧ (∀ l ∈ r.template.layers, l.box.Valid ∧ ((match l.box with | .daggered _ => false | _ => true) = true)
        ∧ (match l.box with | .gen _ _ _ _ => false | _ => true) = true)
      ∧ r.template.dom = [] ∧ r.template.cod = r.cod := by
    intro s hs
    simp only [builtinSimple, List.mem_cons, List.not_mem_nil, or_false] at hs
    rcases hs with rfl | rfl | rfl | rfl | rfl | rfl | rfl | rfl <;>
      exact ⟨_, rfl, by decide +kernel⟩
  intro s hs
  obtain ⟨r, h1, h2, h3, h4, h5⟩ := key s hs
  refine ⟨r, h1, h2, fun l hl => (h3 l hl).1, fun l hl => ?_, fun l hl b0 hb hn => ?_, h4, h5⟩
  · have := (h3 l hl).2.1
    cases hb : l.box <;> simp_all [Box.Simple]
  · have := (h3 l hl).2
    cases hb' : l.box <;> simp_all [seen]
    subst hb; rfl

/-- **C36 (the eight built-in simple rules).** Each of them is defined, and rewrites every matching box
without inputs (in particular every matching word) to a well-typed diagram of the same type; on other boxes
without inputs it answers `None`. -/
theorem C36_builtin_simple (lower : String → String) (s : Except PyErr Simple) (hs : s ∈ builtinSimple)
    (b : Box) (hb : b.dom = []) : RuleGood (builtin lower s) b := by
  obtain ⟨r, rfl, h1, h2, h3, h4, h5, h6⟩ := builtin_templates s hs
  have := C36_simple lower r h1 h2 h3 h4 h5 h6 b hb
  unfold RuleGood builtin
  rw [ok_bind]
  cases hm : r.matches lower b with
  | false => exact ⟨none, this.1 hm, by intro r hr; cases hr⟩
  | true =>
    obtain ⟨d, e1, e2, e3, e4, e5, _⟩ := this.2 hm
    refine ⟨some d, e1, ?_⟩
    intro d' hd'; cases hd'; exact ⟨e2, e3, e4, e5⟩

/-! ## Coordination -/

theorem thirds_eq (c : Ty) : (thirds c).1 ++ (thirds c).2.1 ++ (thirds c).2.2 = c := by
  simp only [thirds, pySlice_nat_to, pySlice_nat_from, pySlice_nat_nat]
  have h1 : 2 * (c.length / 3) - c.length / 3 = c.length / 3 := by omega
  rw [h1]
  have h2 : c.drop (2 * (c.length / 3)) = (c.drop (c.length / 3)).drop (c.length / 3) := by
    rw [List.drop_drop]; congr 1; omega
  rw [h2, List.append_assoc, List.take_append_drop, List.take_append_drop]

theorem rl (t : Ty) : Ty.r (Ty.l t) = t := by
  simp only [Ty.r, Ty.l, Ty.rotate_rotate]
  exact Ty.rotate_zero t

theorem lr (t : Ty) : Ty.l (Ty.r t) = t := by
  simp only [Ty.r, Ty.l, Ty.rotate_rotate]
  exact Ty.rotate_zero t

/-- **C36 (coordination).** `CoordinationRewriteRule` matches exactly the listed words of type
`a.r @ a @ a.l`, and rewrites a match without inputs to two nested families of caps followed by one (generalised)
spider `a @ a → a` on the middle wires. -/
theorem C36_coordination (words : Option (List String)) (b : Box) :
    (coordMatches (words.getD ["and"]) b = true ↔
      boxName b ∈ words.getD ["and"] ∧ ∃ a, b.cod = Ty.r a ++ a ++ Ty.l a) ∧
    (b.dom = [] → RuleGood (coordRule words) b) ∧
    (∀ a, b.cod = Ty.r a ++ a ++ Ty.l a → ∃ r c1 c2 sp : GDiagram, coordRewrite b = .ok r ∧
      GDiagram.mkCap (Ty.r a) a false = .ok c1 ∧ GDiagram.mkCap a (Ty.l a) false = .ok c2 ∧
      GDiagram.mkSpider a 2 1 = .ok sp ∧
      r.boxes = c1.boxes ++ c2.boxes ++ sp.boxes ∧ r.dom = [] ∧ r.cod = b.cod ∧ r.WT ∧ r.Valid) := by
  have th : ∀ a : Ty, thirds (Ty.r a ++ a ++ Ty.l a) = (Ty.r a, a, Ty.l a) := by
    intro a
    have hl : (Ty.l a).length = a.length := by simp [Ty.l, Ty.rotate]
    have hr : (Ty.r a).length = a.length := by simp [Ty.r, Ty.rotate]
    have hn : (Ty.r a ++ a ++ Ty.l a).length / 3 = a.length := by
      simp [hl, hr]; omega
    simp only [thirds, hn, pySlice_nat_to, pySlice_nat_from, pySlice_nat_nat]
    have h1 : 2 * a.length - a.length = a.length := by omega
    rw [h1]
    refine Prod.ext ?_ (Prod.ext ?_ ?_)
    · simp [List.append_assoc, List.take_append, hr]
    · simp [List.append_assoc, List.drop_append, hr]
    · simp only
      rw [List.drop_append_of_le_length (by simp [hr]; omega)]
      simp [hr]; omega
  have shape : ∀ c : Ty, Ty.r (thirds c).2.2 = (thirds c).2.1 → (thirds c).2.1 = Ty.l (thirds c).1 →
      c = Ty.r (thirds c).2.1 ++ (thirds c).2.1 ++ Ty.l (thirds c).2.1 := by
    intro c h1 h2
    have e1 : (thirds c).1 = Ty.r (thirds c).2.1 := by rw [h2, rl]
    have e2 : (thirds c).2.2 = Ty.l (thirds c).2.1 := by rw [← h1, lr]
    rw [← e1, ← e2, thirds_eq]
  have rew : ∀ a, b.cod = Ty.r a ++ a ++ Ty.l a → ∃ r c1 c2 sp : GDiagram, coordRewrite b = .ok r ∧
      GDiagram.mkCap (Ty.r a) a false = .ok c1 ∧ GDiagram.mkCap a (Ty.l a) false = .ok c2 ∧
      GDiagram.mkSpider a 2 1 = .ok sp ∧
      r.boxes = c1.boxes ++ c2.boxes ++ sp.boxes ∧ r.dom = [] ∧ r.cod = b.cod ∧ r.WT ∧ r.Valid := by
    intro a ha
    obtain ⟨c1, p1, p2, p3, p4, _⟩ := (GDiagram.C13_caps (Ty.r a) a).2 rfl
    obtain ⟨c2, q1, q2, q3, q4, _⟩ := (GDiagram.C13_caps a (Ty.l a)).2 (rl a).symm
    obtain ⟨sp, _, _, _, s1, s2, s3, s4, _⟩ := GDiagram.C14_spider a 2 1
    have hcod : (tensor c1 c2).cod = (tensor (tensor (Diagram.id (Ty.r a)) sp) (Diagram.id (Ty.l a))).dom := by
      simp [tensor_cod, tensor_dom, p3, q3, s3, Diagram.id, Ty.rep, List.append_assoc]
    have hok := andThen_eq_ok hcod
    generalize hR : (Diagram.mk _ _ _ : GDiagram) = R at hok
    refine ⟨R, c1, c2, sp, ?_, p1, q1, s1, ?_⟩
    · unfold coordRewrite
      simp only [ha, th, p1, q1, s1, ok_bind, rl, lr, and_self, not_true_eq_false, if_false]
      exact hok
    subst hR
    refine ⟨?_, ?_, ?_, ?_, ?_⟩
    · simp [boxes, tensor_layers, Diagram.id, List.map_map, Function.comp_def, Layer.extend]
    · simp [tensor_dom, p2, q2]
    · simp [tensor_cod, s4, Diagram.id, Ty.rep, ha, List.append_assoc]
    · exact WT.andThen (WT.tensor p4 q4) (WT.tensor (WT.tensor (WT.id _) s2) (WT.id _)) (andThen_eq_ok hcod)
    · exact (GDiagram.wf_andThen (GDiagram.wf_tensor ⟨p4, (GDiagram.mkCap_wf p1).2⟩ ⟨q4, (GDiagram.mkCap_wf q1).2⟩)
        (GDiagram.wf_tensor (GDiagram.wf_tensor (GDiagram.wf_id _) (GDiagram.mkSpider_wf s1)) (GDiagram.wf_id _))
        (andThen_eq_ok hcod)).2
  have mat : coordMatches (words.getD ["and"]) b = true ↔
      boxName b ∈ words.getD ["and"] ∧ ∃ a, b.cod = Ty.r a ++ a ++ Ty.l a := by
    unfold coordMatches
    constructor
    · intro h
      split at h
      · rename_i hc
        simp only [Bool.and_eq_true, decide_eq_true_eq] at hc h
        exact ⟨hc.1, _, shape _ h.1 h.2⟩
      · cases h
    · rintro ⟨h1, a, ha⟩
      have hl : (Ty.l a).length = a.length := by simp [Ty.l, Ty.rotate]
      have hr : (Ty.r a).length = a.length := by simp [Ty.r, Ty.rotate]
      have hm : b.cod.length % 3 = 0 := by rw [ha]; simp [hl, hr]; omega
      rw [if_pos (by simp [h1, hm]), ha, th]
      simp [rl, lr]
  refine ⟨mat, fun hb => ruleOf_good (fun hm => ?_), rew⟩
  obtain ⟨_, a, ha⟩ := mat.1 hm
  obtain ⟨r, _, _, _, h1, _, _, _, _, h2, h3, h4, h5⟩ := rew a ha
  exact ⟨r, h1, by rw [h2, hb], h3, h4, h5⟩

/-! ## Curry -/

theorem curryI_spec (c : Ty) : (∀ o ∈ c.take (curryI c), o.z > 0) ∧ curryI c ≤ c.length ∧
    (∀ o, (c.drop (curryI c)).head? = some o → ¬ o.z > 0) := by
  induction c with
  | nil => simp [curryI]
  | cons o t ih =>
    unfold curryI
    by_cases h : o.z > 0
    · rw [if_pos h]
      refine ⟨?_, by simpa using ih.2.1, by simpa using ih.2.2⟩
      intro x hx
      rw [List.take_succ_cons] at hx
      rcases List.mem_cons.1 hx with rfl | hx
      · exact h
      · exact ih.1 x hx
    · rw [if_neg h]
      refine ⟨by simp, by simp, ?_⟩
      intro x hx
      simp at hx; subst hx; exact h

theorem curryJ1_spec (c : Ty) : (∀ o ∈ c.drop (curryJ1 c), o.z < 0) ∧ curryJ1 c ≤ c.length ∧
    (∀ o, (c.take (curryJ1 c)).getLast? = some o → ¬ o.z < 0) := by
  have hpre : c.reverse.takeWhile (fun o => decide (o.z < 0)) <+: c.reverse := List.takeWhile_prefix _
  have hlen := hpre.length_le
  rw [List.length_reverse] at hlen
  have hd : c.drop (curryJ1 c) = (c.reverse.takeWhile (fun o => decide (o.z < 0))).reverse := by
    have h1 := List.prefix_iff_eq_take.1 hpre
    conv_rhs => rw [h1]
    unfold curryJ1
    rw [List.reverse_take, List.reverse_reverse, List.length_reverse]
  have ht : c.take (curryJ1 c) = (c.reverse.dropWhile (fun o => decide (o.z < 0))).reverse := by
    have e1 : c.take (curryJ1 c) ++ c.drop (curryJ1 c) = c := List.take_append_drop _ _
    have e2 : (c.reverse.dropWhile (fun o => decide (o.z < 0))).reverse ++
        (c.reverse.takeWhile (fun o => decide (o.z < 0))).reverse = c := by
      rw [← List.reverse_append, List.takeWhile_append_dropWhile, List.reverse_reverse]
    rw [hd] at e1
    exact List.append_cancel_right (e1.trans e2.symm)
  refine ⟨?_, by unfold curryJ1; omega, ?_⟩
  · intro o ho
    rw [hd, List.mem_reverse] at ho
    have := List.all_takeWhile (p := fun o : Ob => decide (o.z < 0)) (l := c.reverse)
    simpa using List.all_eq_true.1 this o ho
  · intro o ho
    rw [ht, List.getLast?_reverse] at ho
    have := List.head?_dropWhile_not (fun o : Ob => decide (o.z < 0)) c.reverse
    rw [ho] at this
    simpa using this

/-- The parts of a codomain that the curry rule distinguishes fit together. -/
theorem curry_split (c : Ty) : curryI c ≤ curryJ1 c := by
  by_contra h
  have h1 := curryI_spec c
  have h2 := curryJ1_spec c
  have hlt : curryJ1 c < c.length := by omega
  have a1 : c[curryJ1 c] ∈ c.take (curryI c) := by
    rw [List.mem_take_iff_getElem]
    exact ⟨curryJ1 c, by omega, rfl⟩
  have a2 : c[curryJ1 c] ∈ c.drop (curryJ1 c) := by
    rw [List.mem_drop_iff_getElem]
    exact ⟨0, by omega, by simp⟩
  have := h1.1 _ a1
  have := h2.1 _ a2
  omega

open GDiagram in
/-- **C36 (curry).** `CurryRewriteRule` splits the codomain of *any* box (with or without inputs) into the
maximal prefix of right adjoints, the rest, and the maximal suffix of left adjoints, and rewrites the box to
caps followed by one box whose codomain is the middle part; type and well-typedness are preserved. -/
theorem C36_curry (b : Box) : ∃ (r : GDiagram) (left mid right : Ty) (caps : List Box),
    curryRewrite b = .ok r ∧ r.dom = b.dom ∧ r.cod = b.cod ∧ r.WT ∧ r.Valid
    ∧ b.cod = left ++ mid ++ right ∧ (∀ o ∈ left, o.z > 0) ∧ (∀ o ∈ right, o.z < 0)
    ∧ (∀ o, mid.head? = some o → ¬ o.z > 0) ∧ (∀ o, mid.getLast? = some o → ¬ o.z < 0)
    ∧ r.boxes = caps ++ [.gen (boxName b) (Ty.l left ++ b.dom ++ Ty.r right) mid 0]
    ∧ OnlyCaps caps ∧ caps.length = left.length + right.length := by
  have hi := curryI_spec b.cod
  have hj := curryJ1_spec b.cod
  have hij := curry_split b.cod
  generalize hI : curryI b.cod = i at hi hij
  generalize hJ : curryJ1 b.cod = j at hj hij
  have hsplit : b.cod = b.cod.take i ++ (b.cod.drop i).take (j - i) ++ b.cod.drop j := by
    have : b.cod.drop j = (b.cod.drop i).drop (j - i) := by rw [List.drop_drop]; congr 1; omega
    rw [this, List.append_assoc, List.take_append_drop, List.take_append_drop]
  have htake : b.cod.take j = b.cod.take i ++ (b.cod.drop i).take (j - i) := by
    conv_lhs => rw [hsplit]
    rw [List.take_append_of_le_length (by simp; omega)]
    apply List.take_of_length_le
    simp; omega
  generalize hL : b.cod.take i = left at *
  generalize hM : (b.cod.drop i).take (j - i) = mid at *
  generalize hR : b.cod.drop j = right at *
  have hdropi : b.cod.drop i = mid ++ right := by
    have : b.cod.drop i = (b.cod.drop i).take (j - i) ++ (b.cod.drop i).drop (j - i) := (List.take_append_drop _ _).symm
    rw [this, hM, List.drop_drop, ← hR]; congr 2; omega
  set nb : Box := .gen (boxName b) (Ty.l left ++ b.dom ++ Ty.r right) mid 0 with hnb
  have hcr : curryRewrite b = ((if left ≠ [] then GDiagram.curry (ofBox nb) (left.length : Int) false else .ok (ofBox nb)) >>=
      fun nb => if right ≠ [] then GDiagram.curry nb (right.length : Int) true else .ok nb) := by
    unfold curryRewrite
    simp only [hI, hJ, pySlice_nat_to, pySlice_nat_from, pySlice_nat_nat, hL, hM, hR]
    split <;> rfl
  have hmidh : ∀ o, mid.head? = some o → ¬ o.z > 0 := by
    intro o ho
    apply hi.2.2 o
    rw [hdropi, List.head?_append, ho]; rfl
  have hmidl : ∀ o, mid.getLast? = some o → ¬ o.z < 0 := by
    intro o ho
    apply hj.2.2 o
    rw [htake, List.getLast?_append, ho]; rfl
  -- first curry
  obtain ⟨d1, e1, w1, v1, t1, t2, caps1, b1, c1, l1⟩ : ∃ d1 : GDiagram,
      (if left ≠ [] then GDiagram.curry (ofBox nb) (left.length : Int) false else .ok (ofBox nb)) = .ok d1 ∧ d1.WT ∧ d1.Valid
      ∧ d1.dom = b.dom ++ Ty.r right ∧ d1.cod = left ++ mid
      ∧ ∃ caps, d1.boxes = caps ++ [nb] ∧ OnlyCaps caps ∧ caps.length = left.length := by
    by_cases hl : left = []
    · subst hl
      refine ⟨ofBox nb, by simp, WT.ofBox _, ofBox_valid trivial, ?_, ?_, [], rfl, by intro x hx; simp at hx, rfl⟩
      · show Ty.l [] ++ b.dom ++ Ty.r right = _
        simp [Ty.l, Ty.rotate]
      · rfl
    · have hlen : (Ty.l left).length = left.length := by simp [Ty.l, Ty.rotate]
      obtain ⟨r, p1, p2, p3, p4, caps, p5, p6, p7⟩ := (C15_curry (ofBox nb) (WT.ofBox nb) (b.dom ++ Ty.r right) (Ty.l left)).2
        (by show Ty.l left ++ b.dom ++ Ty.r right = _; rw [List.append_assoc])
      rw [hlen] at p1 p7
      refine ⟨r, by simp [hl, p1], p2, (wf_curry (wf_ofBox (b := nb) trivial) p1).2, p3, ?_, caps, p5, p6, p7⟩
      rw [p4, rl]; rfl
  obtain ⟨d2, e2, w2, v2, u1, u2, caps2, b2, c2, l2⟩ : ∃ d2 : GDiagram,
      (if right ≠ [] then GDiagram.curry d1 (right.length : Int) true else .ok d1) = .ok d2 ∧ d2.WT ∧ d2.Valid
      ∧ d2.dom = b.dom ∧ d2.cod = left ++ mid ++ right
      ∧ ∃ caps, d2.boxes = caps ++ d1.boxes ∧ OnlyCaps caps ∧ caps.length = right.length := by
    by_cases hr : right = []
    · subst hr
      refine ⟨d1, by simp, w1, v1, ?_, by simpa using t2, [], rfl, by intro x hx; simp at hx, rfl⟩
      rw [t1]; simp [Ty.r, Ty.rotate]
    · have hlen : (Ty.r right).length = right.length := by simp [Ty.r, Ty.rotate]
      obtain ⟨r, p1, p2, p3, p4, caps, p5, p6, p7⟩ := (C15_curry d1 w1 b.dom (Ty.r right)).1 t1
        (by intro h; apply hr; rw [h] at hlen; simpa using hlen.symm)
      rw [hlen] at p1 p7
      refine ⟨r, by simp [hr, p1], p2, (wf_curry ⟨w1, v1⟩ p1).2, p3, ?_, caps, p5, p6, p7⟩
      rw [p4, lr, t2]
  refine ⟨d2, left, mid, right, caps2 ++ caps1, ?_, u1, u2.trans hsplit.symm, w2, v2, hsplit, hi.1, hj.1, hmidh, hmidl, ?_, ?_, ?_⟩
  · rw [hcr, e1, ok_bind, e2]
  · rw [b2, b1, List.append_assoc]
  · intro x hx
    rcases List.mem_append.1 hx with hx | hx
    · exact c2 x hx
    · exact c1 x hx
  · simp [l1, l2]; omega

theorem curryRule_good (b : Box) : RuleGood curryRule b := by
  refine ruleOf_good (fun _ => ?_)
  obtain ⟨r, _, _, _, _, h1, h2, h3, h4, h5, _⟩ := C36_curry b
  exact ⟨r, h1, h2, h3, h4, h5⟩

/-! ## Collapsing domains -/

open GDiagram in
/-- **C36 (collapse domain).** `CollapseDomainRewriteRule` rewrites every box with inputs to a diagram of the
same type consisting of one box without inputs, followed by cups. -/
theorem C36_collapse (left : Bool) (b : Box) :
    (b.dom = [] → collapseRule left b = .ok none) ∧
    (b.dom ≠ [] → ∃ (r : GDiagram) (c : Ty) (cups : List Box), collapseRule left b = .ok (some r) ∧ r.dom = b.dom ∧ r.cod = b.cod ∧ r.WT ∧ r.Valid
      ∧ r.boxes = .gen (boxName b) [] c 0 :: cups ∧ cups.length = b.dom.length
      ∧ ∀ x ∈ cups, ∃ l r, x = .cup l r false) := by
  constructor
  · intro h; simp [collapseRule, ruleOf, h]
  · intro h
    have hm : (!b.dom.isEmpty) = true := by simp [h]
    have hfin : ∀ (d c1 nbx : GDiagram) (cod : Ty), c1.layers.length = b.dom.length →
        (∀ l ∈ c1.layers, ∃ x y, l.box = .cup x y false ∧ [x] = Ty.l [y]) →
        ∀ x ∈ c1.boxes, ∃ l r, x = .cup l r false := by
      intro d c1 nbx cod _ hc x hx
      obtain ⟨l, hl, rfl⟩ := List.mem_map.1 hx
      obtain ⟨p, q, hpq, _⟩ := hc l hl
      exact ⟨p, q, hpq⟩
    cases left with
    | true =>
      obtain ⟨c, p1, p2, p3, p4, p5, p6, p7⟩ := (C13_cups b.dom (Ty.r b.dom)).2 (lr _).symm
      set nb : Box := .gen (boxName b) [] (Ty.r b.dom ++ b.cod) 0
      have hcod : (tensor (Diagram.id b.dom) (ofBox nb)).cod = (tensor c (Diagram.id b.cod)).dom := by
        simp [tensor_cod, tensor_dom, p2, Diagram.id, List.append_assoc]
        rfl
      have hok := andThen_eq_ok hcod
      have hwf := wf_andThen (wf_tensor (wf_id _) (wf_ofBox (b := nb) trivial)) (wf_tensor ⟨p4, (mkCup_wf p1).2⟩ (wf_id _)) hok
      generalize hR : (Diagram.mk _ _ _ : GDiagram) = R at hok hwf
      refine ⟨R, Ty.r b.dom ++ b.cod, c.boxes, ?_, ?_, ?_, hwf.1, hwf.2, ?_, ?_, ?_⟩
      · simp only [collapseRule, ruleOf, hm, if_true, collapseRewrite]
        rw [p1, ok_bind]
        exact congrArg (Except.map some) hok
      · subst hR; simp [tensor_dom, Diagram.id]; rfl
      · subst hR; simp [tensor_cod, Diagram.id, p3]
      · subst hR; simp [boxes, tensor_layers, Diagram.id, ofBox, Function.comp_def, Layer.extend, nb]
      · simp [boxes, p6, Ty.r, Ty.rotate]
      · exact hfin c c c [] (by rw [p6]; simp [Ty.r, Ty.rotate]) p7
    | false =>
      obtain ⟨c, p1, p2, p3, p4, p5, p6, p7⟩ := (C13_cups (Ty.l b.dom) b.dom).2 rfl
      set nb : Box := .gen (boxName b) [] (b.cod ++ Ty.l b.dom) 0
      have hcod : (tensor (ofBox nb) (Diagram.id b.dom)).cod = (tensor (Diagram.id b.cod) c).dom := by
        simp [tensor_cod, tensor_dom, p2, Diagram.id]
        show b.cod ++ Ty.l b.dom ++ b.dom = _
        simp
      have hok := andThen_eq_ok hcod
      have hwf := wf_andThen (wf_tensor (wf_ofBox (b := nb) trivial) (wf_id _)) (wf_tensor (wf_id _) ⟨p4, (mkCup_wf p1).2⟩) hok
      generalize hR : (Diagram.mk _ _ _ : GDiagram) = R at hok hwf
      refine ⟨R, b.cod ++ Ty.l b.dom, c.boxes, ?_, ?_, ?_, hwf.1, hwf.2, ?_, ?_, ?_⟩
      · simp only [collapseRule, ruleOf, hm, if_true, collapseRewrite]
        rw [p1, ok_bind]
        exact congrArg (Except.map some) hok
      · subst hR; simp [tensor_dom, Diagram.id]; rfl
      · subst hR; simp [tensor_cod, Diagram.id, p3]
      · subst hR; simp [boxes, tensor_layers, Diagram.id, ofBox, Function.comp_def, Layer.extend, nb]
      · simp [boxes, p6]
      · exact hfin c c c [] p6 p7

end Rewrite
end Lambeq
