import Verif.Rewrite.RulesProps
import Mathlib.Data.List.Induction

/-!
# The rewriter object (C35, C36) and unknown words (C55)
-/

set_option linter.unusedSimpArgs false
set_option linter.unusedVariables false

namespace Lambeq
open Diagram

namespace Rewrite

/-! ## Named rules -/

/-- Boxes without inputs: the case of words. -/
def OnlyStates (d : GDiagram) : Prop := ∀ l ∈ d.layers, ∀ b0, seen l.box = some b0 → b0.dom = []

theorem unkRule_good (vocab : List Entry) (unk : String) (b : Box) : RuleGood (unkRule vocab unk) b := by
  refine ruleOf_good (fun h => ?_)
  cases b with
  | word n c z => exact ⟨_, rfl, rfl, rfl, WT.ofBox _, ofBox_valid trivial⟩
  | _ => simp [unkMatches] at h

theorem available_good (lower : String → String) {p : String × BoxRule} (hp : p ∈ availableRules lower) (b : Box)
    (hb : b.dom = []) : RuleGood p.2 b := by
  simp only [availableRules, List.mem_cons, List.not_mem_nil, or_false] at hp
  rcases hp with rfl | rfl | rfl | rfl | rfl | rfl | rfl | rfl | rfl | rfl
  · exact C36_builtin_simple lower _ (by simp [builtinSimple]) b hb
  · exact C36_builtin_simple lower _ (by simp [builtinSimple]) b hb
  · exact C36_builtin_simple lower _ (by simp [builtinSimple]) b hb
  · exact C36_builtin_simple lower _ (by simp [builtinSimple]) b hb
  · exact C36_builtin_simple lower _ (by simp [builtinSimple]) b hb
  · exact C36_builtin_simple lower _ (by simp [builtinSimple]) b hb
  · exact (C36_coordination none b).2.1 hb
  · exact curryRule_good b
  · exact C36_builtin_simple lower _ (by simp [builtinSimple]) b hb
  · exact C36_builtin_simple lower _ (by simp [builtinSimple]) b hb

theorem addRules_spec (lower : String → String) (rs : List (String ⊕ BoxRule)) (cur : List BoxRule) :
    ((∃ n, .inl n ∈ rs ∧ ∀ p ∈ availableRules lower, p.1 ≠ n) → addRules lower rs cur = .error .valueError) ∧
    ((∀ n, .inl n ∈ rs → ∃ p ∈ availableRules lower, p.1 = n) →
      ∃ new, addRules lower rs cur = .ok (cur ++ new) ∧
        List.Forall₂ (fun (a : String ⊕ BoxRule) (r : BoxRule) => match a with
          | .inl n => (n, r) ∈ availableRules lower
          | .inr r' => r = r') rs new) := by
  induction rs generalizing cur with
  | nil => exact ⟨by rintro ⟨n, h, _⟩; simp at h, fun _ => ⟨[], by simp [addRules], .nil⟩⟩
  | cons a rs ih =>
    cases a with
    | inr r =>
      simp only [addRules]
      refine ⟨?_, ?_⟩
      · rintro ⟨n, h, hn⟩
        exact (ih _).1 ⟨n, by simpa using h, hn⟩
      · intro h
        obtain ⟨new, h1, h2⟩ := (ih (cur ++ [r])).2 (fun n hn => h n (by simp [hn]))
        exact ⟨r :: new, by rw [h1]; simp, .cons rfl h2⟩
    | inl m =>
      simp only [addRules]
      cases hf : (availableRules lower).find? (fun p => p.1 == m) with
      | none =>
        rw [List.find?_eq_none] at hf
        refine ⟨fun _ => rfl, fun h => ?_⟩
        obtain ⟨p, hp, hpm⟩ := h m (by simp)
        exact absurd hpm (by simpa using hf p hp)
      | some p =>
        have hp1 := List.mem_of_find?_eq_some hf
        have hp2 : p.1 = m := by simpa using List.find?_some hf
        refine ⟨?_, ?_⟩
        · rintro ⟨n, h, hn⟩
          rcases List.mem_cons.1 h with h | h
          · cases h
            exact absurd hp2 (hn p hp1)
          · exact (ih _).1 ⟨n, h, hn⟩
        · intro h
          obtain ⟨new, h1, h2⟩ := (ih (cur ++ [p.2])).2 (fun n hn => h n (by simp [hn]))
          refine ⟨p.2 :: new, by simp only [h1]; simp, .cons ?_ h2⟩
          show (m, p.2) ∈ _
          rw [← hp2]; exact hp1

/-- **C36 (named rules).** `Rewriter(names)` for any list of available rule names is defined, and rewrites
every well-typed diagram whose boxes have no inputs (all sentences: words, cups, swaps, ...) to a well-typed
diagram of the same domain and codomain. An unknown name raises `ValueError`. -/
theorem C36_rewriter (lower : String → String) (names : List String) :
    ((∃ n ∈ names, n ∉ (availableRules lower).map (·.1)) → initRules lower (some (names.map .inl)) = .error .valueError) ∧
    ((∀ n ∈ names, n ∈ (availableRules lower).map (·.1)) →
      ∃ rules, initRules lower (some (names.map .inl)) = .ok rules ∧ rules.length = names.length
        ∧ ∀ d : GDiagram, d.WT → d.Valid → OnlyStates d →
          ∃ r, rewriter rules d = .ok r ∧ r.dom = d.dom ∧ r.cod = d.cod ∧ r.WT ∧ r.Valid) := by
  have hspec := addRules_spec lower (names.map .inl) []
  constructor
  · rintro ⟨n, hn, hx⟩
    exact hspec.1 ⟨n, by simpa using hn, fun p hp hpn => hx (List.mem_map.2 ⟨p, hp, hpn⟩)⟩
  · intro h
    obtain ⟨new, h1, h2⟩ := hspec.2 (fun n hn => by
      have hn : n ∈ names := by simpa using hn
      obtain ⟨p, hp, hpn⟩ := List.mem_map.1 (h n hn)
      exact ⟨p, hp, hpn⟩)
    refine ⟨new, by simpa [initRules] using h1, by simpa using h2.length_eq.symm, ?_⟩
    intro d hd hv hs
    have hall : ∀ r ∈ new, ∃ n, (n, r) ∈ availableRules lower := by
      clear h1
      intro r hr
      obtain ⟨i, hi, rfl⟩ := List.getElem_of_mem hr
      have hlen := h2.length_eq
      have := (List.forall₂_iff_get.1 h2).2 i (by omega) hi
      simp only [List.get_eq_getElem, List.getElem_map] at this
      exact ⟨_, this⟩
    obtain ⟨r, _, e1, e2, e3, e4, e5, _⟩ := C35_rewriter new d hd hv (fun l hl b0 hb rule hr => by
      obtain ⟨n, hn⟩ := hall rule hr
      exact available_good lower hn b0 (hs l hl b0 hb))
    exact ⟨r, e1, e2, e3, e4, e5⟩

/-- **C36 (default rewriter).** `Rewriter()` uses six rules, and the same holds of it. -/
theorem C36_default (lower : String → String) (d : GDiagram) (hd : d.WT) (hv : d.Valid) (hs : OnlyStates d) :
    ∃ rules r, initRules lower none = .ok rules ∧ rules.length = 6 ∧ rewriter rules d = .ok r
      ∧ r.dom = d.dom ∧ r.cod = d.cod ∧ r.WT ∧ r.Valid := by
  refine ⟨defaultRules lower, ?_⟩
  obtain ⟨r, _, e1, e2, e3, e4, e5, _⟩ := C35_rewriter (defaultRules lower) d hd hv (fun l hl b0 hb rule hr => by
    obtain ⟨p, hp, rfl⟩ := List.mem_map.1 hr
    exact available_good lower (List.mem_of_mem_take hp) b0 (hs l hl b0 hb))
  exact ⟨r, rfl, rfl, e1, e2, e3, e4, e5⟩

/-- A sentence used in the examples: `the dog runs`. -/
def theDogRuns : GDiagram :=
  ⟨[], S, [⟨[], .word "the" (N ++ Ty.l N) 0, []⟩, ⟨N ++ Ty.l N, .word "dog" N 0, []⟩,
    ⟨N ++ Ty.l N ++ N, .word "runs" (Ty.r N ++ S) 0, []⟩,
    ⟨N, .cup ⟨"n", -1⟩ ⟨"n", 0⟩ false, Ty.r N ++ S⟩, ⟨[], .cup ⟨"n", 0⟩ ⟨"n", 1⟩ false, S⟩]⟩

example : theDogRuns.WT ∧ theDogRuns.Valid ∧ OnlyStates theDogRuns := by
  refine ⟨by decide +kernel, ?_, ?_⟩
  · intro l hl
    simp only [theDogRuns, List.mem_cons, List.not_mem_nil, or_false] at hl
    rcases hl with rfl | rfl | rfl | rfl | rfl <;> decide
  · intro l hl b0 hb
    simp only [theDogRuns, List.mem_cons, List.not_mem_nil, or_false] at hl
    rcases hl with rfl | rfl | rfl | rfl | rfl <;> simp [seen] at hb <;> subst hb <;> rfl

/-- The default rewriter turns the determiner into a cap. -/
example : (rewriter (defaultRules _root_.id) theDogRuns).map (·.boxes) =
    .ok [.cap ⟨"n", 0⟩ ⟨"n", -1⟩ false, .word "dog" N 0, .word "runs" (Ty.r N ++ S) 0,
      .cup ⟨"n", -1⟩ ⟨"n", 0⟩ false, .cup ⟨"n", 0⟩ ⟨"n", 1⟩ false] := by decide +kernel

/-- Currying the verb. -/
example : (rewriter [curryRule] theDogRuns).map (·.boxes.length) = .ok 7 := by decide +kernel

/-- **C36, refuted part.** The rules compare only the codomain, so a box *with* inputs whose name and
codomain match is rewritten to a state; the rewriter then raises `TypeError` instead of leaving the box
alone. -/
theorem C36_refuted_box_with_inputs :
    (defaultRules _root_.id).map (fun r => (r (.gen "the" N (N ++ Ty.l N) 0)).map Option.isSome)
      = [.ok false, .ok false, .ok true, .ok false, .ok false, .ok false]
    ∧ rewriter (defaultRules _root_.id) (ofBox (.gen "the" N (N ++ Ty.l N) 0)) = .error .typeError
    ∧ rewriter [coordRule none] (ofBox (.gen "and" N (Ty.r N ++ N ++ Ty.l N) 0)) = .error .typeError := by
  refine ⟨by decide +kernel, by decide +kernel, by decide +kernel⟩

/-! ## The rewriter object and its cache -/

/-- The answers of a rewriter object to a sequence of diagrams. -/
def State.run : List GDiagram → State → List (Except PyErr GDiagram)
  | [], _ => []
  | d :: ds, s => (s.call d).1 :: State.run ds (s.call d).2

/-- **C35 (repeated use).** If the rules are type preserving, one rewriter object answers every sequence of
well-typed diagrams exactly as fresh rewriters would. -/
theorem C35_repeated (rules : List BoxRule) (hg : ∀ b, GoodOn rules b) (ds : List GDiagram) (hd : ∀ d ∈ ds, d.WT) :
    (State.mk rules []).run ds = ds.map (rewriter rules) := by
  have hwf : (rewriterFunctor rules).ArWF := by
    intro b r hr hv
    obtain ⟨r', h1, _, _, h4, _⟩ := rewriterAr_good (hg b)
    have hr : rewriterAr rules b = .ok r := hr
    rw [h1] at hr; cases hr
    exact h4 hv
  have hty : (rewriterFunctor rules).ArTyped := by
    intro b r hr
    obtain ⟨r', h1, h2, h3, _, _⟩ := rewriterAr_good (hg b)
    have hr : rewriterAr rules b = .ok r := hr
    rw [h1] at hr; cases hr
    rw [onTy_id (fun _ => rfl), onTy_id (fun _ => rfl)]
    exact ⟨h2, h3⟩
  suffices h : ∀ c, (rewriterFunctor rules).Sound c → (State.mk rules c).run ds = ds.map (rewriter rules) from
    h [] (Functor.sound_nil _)
  induction ds with
  | nil => intro c _; rfl
  | cons d ds ih =>
    intro c hc
    have := (rewriterFunctor rules).callDiagram_spec hwf hty d (hd d (by simp)) c hc
    have h1 : ((State.mk rules c).call d).1 = rewriter rules d := this.1
    have h2 : ((State.mk rules c).call d).2 = State.mk rules ((rewriterFunctor rules).callDiagram d c).2 := rfl
    simp only [State.run, List.map_cons]
    rw [h1, h2, ih (fun x hx => hd x (by simp [hx])) _ this.2]

/-- Rules satisfying the hypothesis of `C35_repeated` on every box. -/
example (vocab : List Entry) (unk : String) : ∀ b, GoodOn [curryRule, unkRule vocab unk] b := by
  intro b rule hr
  simp only [List.mem_cons, List.not_mem_nil, or_false] at hr
  rcases hr with rfl | rfl
  · exact curryRule_good b
  · exact unkRule_good vocab unk b

/-- **C35, refuted part.** `add_rules` after the first use has no effect on diagrams (and boxes) already
seen: the functor's cache is not cleared. A rewriter that has answered the word `the`, extended by the
determiner rule, still returns the word; a rewriter with the same rules that has not been used before
rewrites it to a cap. -/
theorem C35_refuted_add_rules_after_use :
    let d : GDiagram := ofBox (.word "the" (N ++ Ty.l N) 0)
    let det := builtin _root_.id determinerRule
    let s := ((State.mk [] []).call d).2
    ({ s with rules := s.rules ++ [det] }.call d).1 = .ok d ∧
    rewriter [det] d = .ok (ofBox (.cap ⟨"n", 0⟩ ⟨"n", -1⟩ false)) := by
  refine ⟨by decide +kernel, by decide +kernel⟩

/-! ## Unknown words -/

/-- The word is in the vocabulary, by itself or with its type. -/
def InVocab (vocab : List Entry) (n : String) (c : Ty) : Prop := Entry.typed n c ∈ vocab ∨ Entry.name n ∈ vocab

instance (vocab : List Entry) (n : String) (c : Ty) : Decidable (InVocab vocab n c) :=
  inferInstanceAs (Decidable (_ ∨ _))

/-- Replace a word that is not in the vocabulary by `unk`, keeping type and winding number. -/
def unkBox (vocab : List Entry) (unk : String) : Box → Box
  | .word n c z => if InVocab vocab n (Ty.rotate (-z) c) then .word n c z else .word unk c z
  | .daggered b => .daggered (unkBox vocab unk b)
  | b => b

theorem replaced_unk {vocab : List Entry} {unk : String} {b : Box} (hs : b.Simple) {p : GDiagram}
    (h : Replaced [unkRule vocab unk] b p) : p = ofBox (unkBox vocab unk b) := by
  have hrot : ∀ (z : Int) (t : Ty), Ty.rotate z (Ty.rotate (-z) t) = t := by
    intro z t
    rw [Ty.rotate_rotate]
    have : -z + z = 0 := by omega
    rw [this, Ty.rotate_zero]
  have becomes_iff : ∀ b q, Becomes [unkRule vocab unk] b q →
      q = ofBox (match b with
        | .word n c z => if InVocab vocab n c then .word n c z else .word unk c 0
        | b => b) := by
    intro b q hq
    have hr : unkRule vocab unk b = .ok (match b with
      | .word n c _ => if InVocab vocab n c then none else some (ofBox (.word unk c 0))
      | _ => none) := by
      cases b with
      | word n c z =>
        by_cases hv : InVocab vocab n c
        · have : unkMatches vocab (.word n c z) = false := by
            simp only [unkMatches, Bool.and_eq_false_iff, decide_eq_false_iff_not, Classical.not_not]
            exact hv
          simp [unkRule, ruleOf, this, hv]
        · have : unkMatches vocab (.word n c z) = true := by
            simp only [unkMatches, Bool.and_eq_true, decide_eq_true_eq]
            exact not_or.1 hv
          simp [unkRule, ruleOf, this, hv, unkRewrite, Except.map, Box.cod]
      | _ => simp [unkRule, ruleOf, unkMatches]
    rcases hq with ⟨i, hi, h1, _⟩ | ⟨h1, rfl⟩
    · have : i = 0 := by simpa using hi
      subst this
      rw [List.getElem_cons_zero, hr] at h1
      cases b with
      | word n c z =>
        by_cases hv : InVocab vocab n c
        · simp [hv] at h1
        · simp [hv] at h1; simp [hv, h1]
      | _ => simp at h1
    · have := h1 _ (List.mem_singleton.2 rfl)
      rw [hr] at this
      cases b with
      | word n c z =>
        by_cases hv : InVocab vocab n c
        · simp [hv]
        · simp [hv] at this
      | _ => rfl
  have genCase : ∀ n d c z q, Becomes [unkRule vocab unk] (.gen n (Ty.rotate (-z) d) (Ty.rotate (-z) c) 0) q →
      q.rotate z = ofBox (.gen n d c z) := by
    intro n d c z q hb
    rw [becomes_iff _ _ hb]
    simp [GDiagram.rotate, ofBox, GLayer.rotate, Box.rotate, hrot, BoxSig.dom, BoxSig.cod, Box.dom, Box.cod, Ty.rotate_nil]
  have wordCase : ∀ n c z q, Becomes [unkRule vocab unk] (.word n (Ty.rotate (-z) c) 0) q →
      q.rotate z = ofBox (unkBox vocab unk (.word n c z)) := by
    intro n c z q hb
    rw [becomes_iff _ _ hb]
    unfold unkBox
    by_cases hv : InVocab vocab n (Ty.rotate (-z) c)
    · simp [hv, GDiagram.rotate, ofBox, GLayer.rotate, Box.rotate, hrot, BoxSig.dom, BoxSig.cod, Box.dom, Box.cod, Ty.rotate_nil]
    · simp [hv, GDiagram.rotate, ofBox, GLayer.rotate, Box.rotate, hrot, BoxSig.dom, BoxSig.cod, Box.dom, Box.cod, Ty.rotate_nil]
  cases h with
  | gen n d c z p h => exact genCase n d c z p h
  | word n c z p h => exact wordCase n c z p h
  | cup => rfl
  | cap => rfl
  | swap => rfl
  | spider => rfl
  | daggered b p h =>
    cases h with
    | gen n d c z p h => rw [genCase n d c z p h]; rfl
    | word n c z p h =>
      rw [wordCase n c z p h]
      show GDiagram.dagger (ofBox (unkBox vocab unk (.word n c z))) = ofBox (.daggered (unkBox vocab unk (.word n c z)))
      unfold unkBox
      split <;> rfl
    | _ => exact absurd hs (by simp [Box.Simple])

/-- **C55 (rewriting).** Rewriting with `UnknownWordsRewriteRule(vocabulary, unk)` replaces exactly the
words (up to winding number and dagger) that are not in the vocabulary, in place, and nothing else changes:
same domain, codomain, wires and other boxes. -/
theorem C55_unknown_words (vocab : List Entry) (unk : String) (d : GDiagram) (hd : d.WT) (hv : d.Valid)
    (hs : ∀ l ∈ d.layers, l.box.Simple) :
    rewriter [unkRule vocab unk] d
      = .ok ⟨d.dom, d.cod, d.layers.map (fun l => ⟨l.left, unkBox vocab unk l.box, l.right⟩)⟩ := by
  obtain ⟨r, parts, h1, h2, h3, _, _, h6, h7⟩ := C35_rewriter [unkRule vocab unk] d hd hv (fun l hl b0 hb rule hr => by
    rw [List.mem_singleton.1 hr]; exact unkRule_good vocab unk b0)
  rw [h1]
  have : ∀ (ls : List GLayer) (parts : List GDiagram), (∀ l ∈ ls, l.box.Simple) →
      List.Forall₂ (fun (l : GLayer) p => Replaced [unkRule vocab unk] l.box p ∧ p.dom = l.box.dom ∧ p.cod = l.box.cod)
        ls parts →
      (List.zipWith (fun (l : GLayer) (p : GDiagram) =>
          p.layers.map (fun x => (⟨l.left ++ x.left, x.box, x.right ++ l.right⟩ : GLayer))) ls parts).flatten
        = ls.map (fun l => ⟨l.left, unkBox vocab unk l.box, l.right⟩) := by
    intro ls parts hs h
    induction h with
    | nil => rfl
    | cons hp _ ih =>
      rw [List.zipWith_cons_cons, List.flatten_cons, ih (fun l hl => hs l (by simp [hl])),
        replaced_unk (hs _ (by simp)) hp.1]
      simp [ofBox]
  rw [this _ _ hs h6] at h7
  rcases r with ⟨a, b, c⟩
  simp only at h2 h3 h7
  subst h2 h3 h7
  rfl

/-- The word of a box, if it is a word or a daggered word: name and type with the winding number undone. -/
def wordOf : Box → Option (String × Ty)
  | .word n c z => some (n, Ty.rotate (-z) c)
  | .daggered b => wordOf b
  | _ => none

/-- **C55 (result).** After rewriting, every word is the unknown token or in the vocabulary. -/
theorem C55_all_known (vocab : List Entry) (unk : String) (d r : GDiagram) (hd : d.WT) (hv : d.Valid)
    (hs : ∀ l ∈ d.layers, l.box.Simple) (h : rewriter [unkRule vocab unk] d = .ok r) :
    ∀ b ∈ r.boxes, ∀ n c, wordOf b = some (n, c) → n = unk ∨ InVocab vocab n c := by
  rw [C55_unknown_words vocab unk d hd hv hs] at h
  cases h
  intro b hb n c hw
  simp only [boxes, List.map_map, List.mem_map, Function.comp] at hb
  obtain ⟨l, _, rfl⟩ := hb
  have : ∀ b : Box, wordOf (unkBox vocab unk b) = some (n, c) → n = unk ∨ InVocab vocab n c := by
    intro b
    induction b with
    | word m t z =>
      intro h
      unfold unkBox at h
      split at h
      · rename_i hi
        simp only [wordOf, Option.some.injEq, Prod.mk.injEq] at h
        obtain ⟨rfl, rfl⟩ := h
        exact .inr hi
      · simp only [wordOf, Option.some.injEq, Prod.mk.injEq] at h
        exact .inl h.1.symm
    | daggered b ih => intro h; exact ih h
    | _ => intro h; simp [unkBox, wordOf] at h
  exact this _ hw

theorem counterItems_spec (ks : List Entry) :
    ((counterItems ks).map (·.1)).Nodup ∧ ∀ k n, (k, n) ∈ counterItems ks ↔ (0 < n ∧ n = ks.count k) := by
  induction ks using List.reverseRecOn with
  | nil =>
    refine ⟨by simp [counterItems], fun k n => ?_⟩
    simp [counterItems]; omega
  | append_singleton ks x ih =>
    obtain ⟨ih1, ih2⟩ := ih
    have hstep : counterItems (ks ++ [x]) =
        if (counterItems ks).any (fun p => decide (p.1 = x)) then
          (counterItems ks).map (fun p => if p.1 = x then (p.1, p.2 + 1) else p)
        else counterItems ks ++ [(x, 1)] := by
      unfold counterItems
      rw [List.foldl_append]
      rfl
    rw [hstep]
    by_cases ha : (counterItems ks).any (fun p => decide (p.1 = x)) = true
    · rw [if_pos ha]
      refine ⟨?_, fun k n => ?_⟩
      · rw [List.map_map]
        have : ((fun p : Entry × Nat => p.1) ∘ fun p => if p.1 = x then (p.1, p.2 + 1) else p) = (·.1) := by
          funext p; simp only [Function.comp]; split <;> rfl
        rw [this]; exact ih1
      · obtain ⟨⟨k0, n0⟩, hp, hx⟩ := List.any_eq_true.1 ha
        have hx : k0 = x := by simpa using hx
        subst hx
        rw [List.mem_map]
        constructor
        · rintro ⟨⟨k', n'⟩, hmem, heq⟩
          have h' := (ih2 k' n').1 hmem
          by_cases hk : k' = k0
          · subst hk
            simp at heq
            obtain ⟨rfl, rfl⟩ := heq
            rw [List.count_append]
            simp; omega
          · simp [hk] at heq
            obtain ⟨rfl, rfl⟩ := heq
            rw [List.count_append]
            have : List.count k' [k0] = 0 := by
              rw [List.count_eq_zero]; simpa using hk
            omega
        · rintro ⟨hn, rfl⟩
          rw [List.count_append] at *
          by_cases hk : k = k0
          · subst hk
            refine ⟨(k, ks.count k), (ih2 _ _).2 ⟨?_, rfl⟩, by simp⟩
            have := (ih2 _ _).1 hp
            omega
          · have : List.count k [k0] = 0 := by
              rw [List.count_eq_zero]; simpa using hk
            refine ⟨(k, ks.count k), (ih2 _ _).2 ⟨by omega, rfl⟩, ?_⟩
            simp [hk]; omega
    · rw [if_neg ha]
      have hno : ∀ n, (x, n) ∉ counterItems ks := by
        intro n hn
        apply ha
        rw [List.any_eq_true]
        exact ⟨(x, n), hn, by simp⟩
      have hc : ks.count x = 0 := by
        by_contra h
        exact hno _ ((ih2 x (ks.count x)).2 ⟨by omega, rfl⟩)
      refine ⟨?_, fun k n => ?_⟩
      · rw [List.map_append, List.nodup_append]
        refine ⟨ih1, by simp, ?_⟩
        intro a ha b hb
        obtain ⟨⟨k', n'⟩, hp, rfl⟩ := List.mem_map.1 ha
        simp at hb; subst hb
        intro h
        simp only at h
        subst h
        exact hno _ hp
      · rw [List.mem_append, ih2 k n, List.count_append]
        by_cases hk : k = x
        · subst hk
          simp [hc]
          omega
        · have : List.count k [x] = 0 := by
            rw [List.count_eq_zero]; simpa using hk
          simp [hk, this]

/-- How many boxes of the diagrams satisfy `q`. -/
def occurrences (q : Box → Bool) (ds : List GDiagram) : Nat := (ds.map (fun d => d.boxes.countP q)).sum

/-- **C55 (vocabulary).** The vocabulary built by `from_diagrams(diagrams, min_freq, ignore_types)` contains
exactly the keys (word with type, or just the word when types are ignored) that occur, as `Word` boxes, at
least once and at least `min_freq` times in the diagrams together. -/
theorem C55_vocabulary (ds : List GDiagram) (minFreq : Int) (n : String) (c : Ty) :
    (Entry.typed n c ∈ fromDiagramsVocab ds minFreq false ↔
      ∃ k : Nat, k = occurrences (fun b => match b with
        | .word n' c' _ => decide (n' = n ∧ c' = c) | _ => false) ds ∧ 0 < k ∧ minFreq ≤ k) ∧
    (Entry.name n ∈ fromDiagramsVocab ds minFreq true ↔
      ∃ k : Nat, k = occurrences (fun b => match b with
        | .word n' _ _ => decide (n' = n) | _ => false) ds ∧ 0 < k ∧ minFreq ≤ k) := by
  have hmem : ∀ it e, e ∈ fromDiagramsVocab ds minFreq it ↔
      (0 < (wordKeys it ds).count e ∧ minFreq ≤ ((wordKeys it ds).count e : Nat)) := by
    intro it e
    unfold fromDiagramsVocab
    rw [List.mem_map]
    constructor
    · rintro ⟨⟨k, m⟩, h, rfl⟩
      rw [List.mem_filter] at h
      obtain ⟨h1, h2⟩ := h
      obtain ⟨h3, rfl⟩ := ((counterItems_spec _).2 k m).1 h1
      exact ⟨h3, by simpa using h2⟩
    · rintro ⟨h1, h2⟩
      refine ⟨(e, (wordKeys it ds).count e), List.mem_filter.2 ⟨((counterItems_spec _).2 _ _).2 ⟨h1, rfl⟩, by simpa using h2⟩, rfl⟩
  have hcount : ∀ it e (q : Box → Bool), (∀ b, q b = ((match b with
      | .word n c _ => some (if it then Entry.name n else Entry.typed n c) | _ => none) == some e)) →
      (wordKeys it ds).count e = occurrences q ds := by
    intro it e q hq
    clear hmem
    induction ds with
    | nil => rfl
    | cons d ds ih =>
      have : wordKeys it (d :: ds) = wordKeys it [d] ++ wordKeys it ds := by simp [wordKeys]
      rw [this, List.count_append, ih]
      simp only [occurrences, List.map_cons, List.sum_cons]
      congr 1
      simp only [wordKeys, List.flatMap_cons, List.flatMap_nil, List.append_nil]
      rw [List.count_filterMap]
      congr 1
      funext b
      rw [hq, Bool.eq_iff_iff, beq_iff_eq, beq_iff_eq]
      cases b <;> rfl
  constructor
  · rw [hmem, hcount false (Entry.typed n c) (fun b => match b with
        | .word n' c' _ => decide (n' = n ∧ c' = c) | _ => false)]
    · exact ⟨fun h => ⟨_, rfl, h⟩, fun ⟨k, hk, h⟩ => hk ▸ h⟩
    · intro b
      cases b <;> simp
      rw [Bool.eq_iff_iff]; simp
  · rw [hmem, hcount true (Entry.name n) (fun b => match b with
        | .word n' _ _ => decide (n' = n) | _ => false)]
    · exact ⟨fun h => ⟨_, rfl, h⟩, fun ⟨k, hk, h⟩ => hk ▸ h⟩
    · intro b
      cases b <;> simp
      rw [Bool.eq_iff_iff]; simp

/-- **C55, refuted part.** A word that occurs rotated is counted with its rotated type but looked up with the
rotation undone: rewriting a diagram with the vocabulary built from that very diagram replaces the word. -/
theorem C55_refuted_rotated_word :
    let d : GDiagram := ofBox (.word "dog" (Ty.r N) 1)
    rewriter [fromDiagrams [d] 1 "<UNK>" false] d = .ok (ofBox (.word "<UNK>" (Ty.r N) 1)) := by
  decide +kernel

/-- For unrotated words the vocabulary of a diagram covers the diagram (non-vacuity of the C55 theorems). -/
example : rewriter [fromDiagrams [theDogRuns] 1 "<UNK>" false] theDogRuns = .ok theDogRuns ∧
    (rewriter [fromDiagrams [theDogRuns] 2 "<UNK>" true] theDogRuns).map (fun d => (d.boxes.take 3).map boxName)
      = .ok ["<UNK>", "<UNK>", "<UNK>"] := by
  decide +kernel

end Rewrite
end Lambeq
