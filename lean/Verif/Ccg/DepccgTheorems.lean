import Verif.Ccg.Depccg
import Verif.Ccg.RuleProps
import Verif.Ccg.JsonTreeProps

/-! # Trees from depccg: specification and proofs (C110) -/

namespace Lambeq
namespace Depccg

/-! ## Categories -/

/-- The bases of punctuation: brackets, and the contiguous parts of `,.:;`, the empty one among them. -/
def puncts : List String := ["LRB", "RRB", "", ",", ".", ":", ";", ",.", ".:", ":;", ",.:", ".:;", ",.:;"]

/-- Equal but for features and the kind of punctuation. -/
inductive SameCat : DCat → DCat → Prop
  | atomic (b f g : String) : SameCat (.atomic b f) (.atomic b g)
  | punct (b c f g : String) : b ∈ puncts → c ∈ puncts → SameCat (.atomic b f) (.atomic c g)
  | functor (l l' r r' : DCat) (s : Char) : SameCat l l' → SameCat r r' → SameCat (.functor l s r) (.functor l' s r')

/-- All atoms are known and all slashes have a direction. -/
inductive Known : DCat → Prop
  | atomic (b f : String) : b ∈ ["N", "NP", "S", "PP", "conj"] ++ puncts → Known (.atomic b f)
  | functor (l r : DCat) (s : Char) : Known l → Known r → s = '/' ∨ s = '\\' → Known (.functor l s r)

/-- What a type stands for: categories with the same atoms and slashes. -/
inductive Denotes : DCat → Cat → Prop
  | noun (f : String) : Denotes (.atomic "N" f) (.atom "n")
  | np (f : String) : Denotes (.atomic "NP" f) (.atom "np")
  | sentence (f : String) : Denotes (.atomic "S" f) (.atom "s")
  | pp (f : String) : Denotes (.atomic "PP" f) (.atom "p")
  | conj (f : String) : Denotes (.atomic "conj" f) (.atom "conj")
  | punct (b f : String) : b ∈ puncts → Denotes (.atomic b f) (.atom "punc")
  | over (l r : DCat) (x y : Cat) : Denotes l x → Denotes r y → Denotes (.functor l '/' r) (.over x y)
  | under (l r : DCat) (x y : Cat) : Denotes l x → Denotes r y → Denotes (.functor l '\\' r) (.under x y)

theorem prefix_cases (w : List Char) (s : List Char) (h : w.isPrefixOf s = true) : ∃ n, n ≤ s.length ∧ w = s.take n := by
  have := List.isPrefixOf_iff_prefix.1 h
  exact ⟨w.length, this.length_le, (List.prefix_iff_eq_take.1 this)⟩

theorem inStr_puncts (b : String) : (b = "LRB" ∨ b = "RRB" ∨ inStr b.toList [',', '.', ':', ';'] = true) ↔ b ∈ puncts := by
  have hin : inStr b.toList [',', '.', ':', ';'] = true ↔ b ∈ ["", ",", ".", ":", ";", ",.", ".:", ":;", ",.:", ".:;", ",.:;"] := by
    constructor
    · intro h
      have hb : b = String.ofList b.toList := by simp
      generalize b.toList = w at h hb
      subst hb
      simp only [inStr, Bool.or_eq_true] at h
      have fin : ∀ s : List Char, (∀ n, n ≤ s.length → String.ofList (s.take n) ∈ ["", ",", ".", ":", ";", ",.", ".:", ":;", ",.:", ".:;", ",.:;"]) →
          w.isPrefixOf s = true → String.ofList w ∈ ["", ",", ".", ":", ";", ",.", ".:", ":;", ",.:", ".:;", ",.:;"] := by
        intro s hs hp
        obtain ⟨n, hn, rfl⟩ := prefix_cases w s hp
        exact hs n hn
      rcases h with h | h | h | h | h
      · exact fin _ (by decide +kernel) h
      · exact fin _ (by decide +kernel) h
      · exact fin _ (by decide +kernel) h
      · exact fin _ (by decide +kernel) h
      · have : w = [] := by simpa using h
        subst this; decide +kernel
    · intro h
      have : ∀ b ∈ ["", ",", ".", ":", ";", ",.", ".:", ":;", ",.:", ".:;", ",.:;"], inStr b.toList [',', '.', ':', ';'] = true := by decide +kernel
      exact this b h
  rw [hin]
  simp [puncts]

theorem atomType_iff (b : String) (t : Cat) (f : String) : atomType b = .ok t ↔ Denotes (.atomic b f) t := by
  have hp := inStr_puncts b
  constructor
  · intro h
    simp only [atomType] at h
    split at h
    · rename_i e; cases h; subst e; exact .noun f
    split at h
    · rename_i e; cases h; subst e; exact .np f
    split at h
    · rename_i e; cases h; subst e; exact .sentence f
    split at h
    · rename_i e; cases h; subst e; exact .pp f
    split at h
    · rename_i e; cases h; subst e; exact .conj f
    split at h
    · rename_i e; cases h; exact .punct b f (hp.1 e)
    · cases h
  · intro h
    cases h with
    | noun => decide +kernel
    | np => decide +kernel
    | sentence => decide +kernel
    | pp => decide +kernel
    | conj => decide +kernel
    | punct _ _ hb =>
      have : ∀ b ∈ puncts, atomType b = .ok (.atom "punc") := by decide +kernel
      exact this b hb

/-- The type of a category has its atoms and slashes, without features; nothing else has. -/
theorem C110_types (c : DCat) (t : Cat) : toBiclosed c = .ok t ↔ Denotes c t := by
  induction c generalizing t with
  | atomic b f => rw [toBiclosed]; exact atomType_iff b t f
  | functor l s r ihl ihr =>
    rw [toBiclosed]
    constructor
    · intro h
      cases hl : toBiclosed l with
      | error e => rw [hl] at h; cases h
      | ok x =>
        cases hr : toBiclosed r with
        | error e => rw [hl, hr] at h; cases h
        | ok y =>
          rw [hl, hr] at h
          simp only at h
          split at h
          · rename_i e; cases h; subst e; exact .over _ _ _ _ ((ihl x).1 hl) ((ihr y).1 hr)
          · split at h
            · rename_i e; cases h; subst e; exact .under _ _ _ _ ((ihl x).1 hl) ((ihr y).1 hr)
            · cases h
    · intro h
      cases h with
      | over _ _ x y hl hr => rw [(ihl x).2 hl, (ihr y).2 hr]; simp
      | under _ _ x y hl hr => rw [(ihl x).2 hl, (ihr y).2 hr]; simp

/-- Categories can be converted iff all atoms are known and all slashes are `/` or `\`. -/
theorem C110_types_total (c : DCat) : (∃ t, toBiclosed c = .ok t) ↔ Known c := by
  simp only [C110_types]
  constructor
  · rintro ⟨t, h⟩
    induction h with
    | punct b f hb => exact .atomic _ _ (List.mem_append_right _ hb)
    | over l r x y _ _ ihl ihr => exact .functor _ _ _ ihl ihr (.inl rfl)
    | under l r x y _ _ ihl ihr => exact .functor _ _ _ ihl ihr (.inr rfl)
    | _ => exact .atomic _ _ (by decide)
  · intro h
    induction h with
    | atomic b f hb =>
      rcases List.mem_append.1 hb with h | h
      · simp only [List.mem_cons, List.not_mem_nil, or_false] at h
        rcases h with rfl | rfl | rfl | rfl | rfl
        · exact ⟨_, .noun f⟩
        · exact ⟨_, .np f⟩
        · exact ⟨_, .sentence f⟩
        · exact ⟨_, .pp f⟩
        · exact ⟨_, .conj f⟩
      · exact ⟨_, .punct b f h⟩
    | functor l r s _ _ hs ihl ihr =>
      obtain ⟨x, hx⟩ := ihl
      obtain ⟨y, hy⟩ := ihr
      rcases hs with rfl | rfl
      · exact ⟨_, .over _ _ _ _ hx hy⟩
      · exact ⟨_, .under _ _ _ _ hx hy⟩

theorem denotes_atom (d : DCat) (t : Cat) (h : Denotes d t) (s : String) (hs : t = .atom s) :
    ∃ b f, d = .atomic b f ∧ ((b, s) ∈ [("N", "n"), ("NP", "np"), ("S", "s"), ("PP", "p"), ("conj", "conj")] ∨ b ∈ puncts ∧ s = "punc") := by
  cases h with
  | punct b f hb => cases hs; exact ⟨b, f, rfl, .inr ⟨hb, rfl⟩⟩
  | over => cases hs
  | under => cases hs
  | _ => cases hs; exact ⟨_, _, rfl, .inl (by decide)⟩

/-- Two categories get the same type iff they differ in features and kinds of punctuation only. -/
theorem C110_types_same (c d : DCat) (t u : Cat) (hc : toBiclosed c = .ok t) (hd : toBiclosed d = .ok u) : t = u ↔ SameCat c d := by
  rw [C110_types] at hc hd
  constructor
  · rintro rfl
    induction hc generalizing d with
    | noun f =>
      obtain ⟨b, g, rfl, h | h⟩ := denotes_atom d _ hd _ rfl
      · simp at h; subst h; exact .atomic _ _ _
      · exact absurd h.2 (by decide)
    | np f =>
      obtain ⟨b, g, rfl, h | h⟩ := denotes_atom d _ hd _ rfl
      · simp at h; subst h; exact .atomic _ _ _
      · exact absurd h.2 (by decide)
    | sentence f =>
      obtain ⟨b, g, rfl, h | h⟩ := denotes_atom d _ hd _ rfl
      · simp at h; subst h; exact .atomic _ _ _
      · exact absurd h.2 (by decide)
    | pp f =>
      obtain ⟨b, g, rfl, h | h⟩ := denotes_atom d _ hd _ rfl
      · simp at h; subst h; exact .atomic _ _ _
      · exact absurd h.2 (by decide)
    | conj f =>
      obtain ⟨b, g, rfl, h | h⟩ := denotes_atom d _ hd _ rfl
      · simp at h; subst h; exact .atomic _ _ _
      · exact absurd h.2 (by decide)
    | punct b f hb =>
      obtain ⟨c, g, rfl, h | h⟩ := denotes_atom d _ hd _ rfl
      · simp at h
      · exact .punct _ _ _ _ hb h.1
    | over l r x y _ _ ihl ihr => cases hd with | over l' r' _ _ h1 h2 => exact .functor _ _ _ _ _ (ihl _ h1) (ihr _ h2)
    | under l r x y _ _ ihl ihr => cases hd with | under l' r' _ _ h1 h2 => exact .functor _ _ _ _ _ (ihl _ h1) (ihr _ h2)
  · intro h
    induction h generalizing t u with
    | atomic b f g =>
      have h1 := (atomType_iff b t f).2 hc
      have h2 := (atomType_iff b u g).2 hd
      rw [h1] at h2; cases h2; rfl
    | punct b c f g hb hc' =>
      have key : ∀ b ∈ puncts, ∀ f t, Denotes (.atomic b f) t → t = .atom "punc" := by
        intro b hb f t h
        have := (atomType_iff b t f).2 h
        rw [(atomType_iff b _ f).2 (.punct b f hb)] at this
        cases this; rfl
      rw [key b hb f t hc, key c hc' g u hd]
    | functor l l' r r' s _ _ ihl ihr =>
      cases hc with
      | over _ _ x y h1 h2 => cases hd with | over _ _ x' y' h3 h4 => rw [ihl x x' h1 h3, ihr y y' h2 h4]
      | under _ _ x y h1 h2 => cases hd with | under _ _ x' y' h3 h4 => rw [ihl x x' h1 h3, ihr y y' h2 h4]

theorem denotes_noEmpty (c : DCat) (t : Cat) (h : Denotes c t) : t.NoEmpty := by
  induction h with
  | over l r x y _ _ ihl ihr => exact ⟨ihl, ihr⟩
  | under l r x y _ _ ihl ihr => exact ⟨ihl, ihr⟩
  | _ => exact trivial

/-! ## Trees -/

/-- The conversion of a tree, node by node: the same shape, types and words. -/
inductive Converted : DTree → CTree → Prop
  | leaf (c : DCat) (w : String) (ty : Cat) : Denotes c ty → Converted (.leaf c w) (.node (some w) .lexical ty 0 [])
  | node (c : DCat) (op sym : String) (cs : List DTree) (ts : List CTree) (r : Rule) (ty : Cat) (h : Nat) : Denotes c ty → cs.length = ts.length →
      (∀ i (h1 : i < cs.length) (h2 : i < ts.length), Converted cs[i] ts[i]) → Converted (.node c op sym cs) (.node (some (word (.node c op sym cs))) r ty h ts)

/-- What the operation of depccg says about a step: the rule is named, or `tr`, or unary, or one of the two names for generalised rules. -/
inductive Says (upper : String → String) (op sym : String) (dom : List Cat) (cod : Cat) : Rule → Prop
  | raising (r : Rule) : op = "tr" → (cod.isOver = true ∧ r = .ftr ∨ cod.isUnder = true ∧ r = .btr) → Says upper op sym dom cod r
  | unary : op ≠ "tr" → sym = "<un>" → Says upper op sym dom cod .unary
  | general (r : Rule) : op ≠ "tr" → sym ≠ "<un>" → op = "gbx" ∨ op = "gfc" → Rule.inferRule dom cod = .ok r → Says upper op sym dom cod r
  | named (r : Rule) : op ≠ "tr" → sym ≠ "<un>" → op ≠ "gbx" → op ≠ "gfc" → r.value = upper op → Says upper op sym dom cod r
  | unknown : op ≠ "tr" → sym ≠ "<un>" → op ≠ "gbx" → op ≠ "gfc" → (∀ r : Rule, r.value ≠ upper op) → Says upper op sym dom cod .unknown

theorem ofValue_value (r : Rule) : Rule.ofValue r.value = r := by cases r <;> decide +kernel

theorem ofValue_unknown (s : String) (h : ∀ r : Rule, r.value ≠ s) : Rule.ofValue s = .unknown := by
  have : Rule.all.find? (fun r => r.value == s) = none := by
    rw [List.find?_eq_none]
    intro r _; simpa using h r
  rw [Rule.ofValue, this]; rfl

/-- The rule of a node is the one its operation names. -/
theorem ruleOf_iff (upper : String → String) (op sym : String) (dom : List Cat) (cod : Cat) (r : Rule) : ruleOf upper op sym cod dom = .ok r ↔ Says upper op sym dom cod r := by
  constructor
  · intro h
    simp only [ruleOf] at h
    split at h
    · rename_i ho
      cases cod with
      | over x y => simp [Cat.dir?] at h; subst h; exact .raising _ ho (.inl ⟨rfl, rfl⟩)
      | under x y => simp [Cat.dir?] at h; subst h; exact .raising _ ho (.inr ⟨rfl, rfl⟩)
      | _ => simp [Cat.dir?] at h
    · rename_i ho
      split at h
      · rename_i hs; cases h; exact .unary ho hs
      · rename_i hs
        split at h
        · rename_i hg; exact .general _ ho hs hg h
        · rename_i hg
          simp only [not_or] at hg
          by_cases hr : ∃ r : Rule, r.value = upper op
          · obtain ⟨r', hr'⟩ := hr
            rw [← hr', ofValue_value] at h; cases h
            exact .named _ ho hs hg.1 hg.2 hr'
          · have hr' : ∀ r : Rule, r.value ≠ upper op := fun r e => hr ⟨r, e⟩
            rw [ofValue_unknown _ hr'] at h; cases h
            exact .unknown ho hs hg.1 hg.2 hr'
  · intro h
    cases h with
    | raising r ho hr =>
      rcases hr with ⟨h1, rfl⟩ | ⟨h1, rfl⟩ <;> cases cod <;> simp_all [ruleOf, Cat.dir?, Cat.isOver, Cat.isUnder]
    | unary ho hs => simp [ruleOf, ho, hs]
    | general r ho hs hg hi => simp [ruleOf, ho, hs, hg, hi]
    | named r ho hs h1 h2 hr => simp [ruleOf, ho, hs, h1, h2, ← hr, ofValue_value]
    | unknown ho hs h1 h2 hr => simp [ruleOf, ho, hs, h1, h2, ofValue_unknown _ hr]

/-- How many premises a rule has. -/
def arity : Rule → Nat → Prop
  | .unknown, _ => True
  | .lexical, n => n = 0
  | .unary, n => n = 1
  | .ftr, n => n = 1
  | .btr, n => n = 1
  | _, n => n = 2

theorem mk_iff (tx : Option String) (r : Rule) (ty : Cat) (cs : List CTree) (t : CTree) :
    CTree.mk tx r ty cs = .ok t ↔ arity r cs.length ∧ t = .node tx (if (CTree.truthy tx && cs.isEmpty) = true then .lexical else r) ty (CTree.heightOf cs) cs := by
  have ha : arity r cs.length ↔ ¬ (r ≠ .unknown ∧ cs.length ≠ CTree.required r) := by
    cases r <;> simp [arity, CTree.required]
  rw [ha]
  simp only [CTree.mk]
  by_cases h : r ≠ .unknown ∧ cs.length ≠ CTree.required r
  · rw [if_pos h]; simp [h]
  · rw [if_neg h]; simp only [Except.ok.injEq, h, not_false_eq_true, true_and]; exact eq_comm

def catOf (d : DTree) : DCat := match d with | .leaf c _ => c | .node c _ _ _ => c

theorem builds_iff (upper : String → String) (cs : List DTree) (ts : List CTree) : builds upper cs = .ok ts ↔ List.Forall₂ (fun d t => build upper d = .ok t) cs ts := by
  induction cs generalizing ts with
  | nil => rw [builds]; simp [eq_comm]
  | cons c cs ih =>
    rw [builds]
    cases hc : build upper c with
    | error e => simp [List.forall₂_cons_left_iff, hc]
    | ok t =>
      cases hs : builds upper cs with
      | error e =>
        simp only [reduceCtorEq, List.forall₂_cons_left_iff, false_iff, not_exists, not_and]
        intro a b _ h2
        rw [← ih b, hs] at h2; cases h2
      | ok us =>
        simp only [Except.ok.injEq, List.forall₂_cons_left_iff]
        constructor
        · rintro rfl; exact ⟨t, us, hc, (ih us).1 hs, rfl⟩
        · rintro ⟨a, b, h1, h2, rfl⟩
          rw [hc] at h1; cases h1
          rw [← ih b, hs] at h2; cases h2; rfl

theorem build_node (upper : String → String) (c : DCat) (op sym : String) (cs : List DTree) (t : CTree) : build upper (.node c op sym cs) = .ok t ↔
    ∃ ty ts r, Denotes c ty ∧ List.Forall₂ (fun d t => build upper d = .ok t) cs ts ∧ Says upper op sym (ts.map CTree.ty) ty r ∧ arity r ts.length ∧
      t = .node (some (word (.node c op sym cs))) (if (CTree.truthy (some (word (.node c op sym cs))) && ts.isEmpty) = true then .lexical else r) ty (CTree.heightOf ts) ts := by
  rw [build]
  constructor
  · intro h
    cases hc : toBiclosed c with
    | error e => rw [hc] at h; cases h
    | ok ty =>
      rw [hc] at h; simp only at h
      cases hs : builds upper cs with
      | error e => rw [hs] at h; cases h
      | ok ts =>
        rw [hs] at h; simp only at h
        cases hr : ruleOf upper op sym ty (ts.map CTree.ty) with
        | error e => rw [hr] at h; cases h
        | ok r =>
          rw [hr] at h; simp only at h
          obtain ⟨h1, h2⟩ := (mk_iff _ _ _ _ _).1 h
          exact ⟨ty, ts, r, (C110_types c ty).1 hc, (builds_iff upper cs ts).1 hs, (ruleOf_iff ..).1 hr, h1, h2⟩
  · rintro ⟨ty, ts, r, h1, h2, h3, h4, h5⟩
    rw [(C110_types c ty).2 h1, (builds_iff upper cs ts).2 h2]
    simp only
    rw [(ruleOf_iff ..).2 h3]
    exact (mk_iff _ _ _ _ _).2 ⟨h4, h5⟩

theorem build_leaf (upper : String → String) (c : DCat) (w : String) (t : CTree) : build upper (.leaf c w) = .ok t ↔ ∃ ty, Denotes c ty ∧ t = .node (some w) .lexical ty 0 [] := by
  rw [build]
  constructor
  · intro h
    cases hc : toBiclosed c with
    | error e => rw [hc] at h; cases h
    | ok ty =>
      rw [hc] at h; simp only at h
      obtain ⟨_, h2⟩ := (mk_iff _ _ _ _ _).1 h
      exact ⟨ty, (C110_types c ty).1 hc, by rw [h2]; simp [CTree.heightOf]⟩
  · rintro ⟨ty, h1, h2⟩
    rw [(C110_types c ty).2 h1]
    simp only
    exact (mk_iff _ _ _ _ _).2 ⟨rfl, by rw [h2]; simp [CTree.heightOf]⟩

mutual
theorem converted_main (upper : String → String) : (d : DTree) → ∀ t, build upper d = .ok t → Converted d t ∧ Denotes (catOf d) t.ty
  | .leaf c w => by
    intro t h
    obtain ⟨ty, h1, rfl⟩ := (build_leaf upper c w t).1 h
    exact ⟨.leaf _ _ _ h1, h1⟩
  | .node c op sym cs => by
    have hc := converteds_main upper cs
    intro t h
    obtain ⟨ty, ts, r, h1, h2, h3, h4, rfl⟩ := (build_node upper c op sym cs t).1 h
    refine ⟨.node _ _ _ _ _ _ _ _ h1 h2.length_eq ?_, h1⟩
    intro i hi hj
    exact (hc cs[i] (List.getElem_mem hi) _ ((List.forall₂_iff_get.1 h2).2 i hi hj)).1
theorem converteds_main (upper : String → String) : (cs : List DTree) → ∀ d ∈ cs, ∀ t, build upper d = .ok t → Converted d t ∧ Denotes (catOf d) t.ty
  | [] => by simp
  | c :: cs => by
    have h1 := converted_main upper c
    have h2 := converteds_main upper cs
    intro d hd
    rcases List.mem_cons.1 hd with rfl | hd
    · exact h1
    · exact h2 d hd
end

/-- The tree that is built has the shape, the types and the words of depccg's tree. -/
theorem C110_converted (upper : String → String) (d : DTree) (t : CTree) (h : build upper d = .ok t) : Converted d t := (converted_main upper d t h).1

/-- All nodes of the tree satisfy a predicate of rule, types of the children, and type. -/
inductive AllSteps (P : String → String → List Cat → Cat → Rule → Prop) : DTree → CTree → Prop
  | leaf (c : DCat) (w : String) (ty : Cat) : AllSteps P (.leaf c w) (.node (some w) .lexical ty 0 [])
  | node (c : DCat) (op sym : String) (cs : List DTree) (ts : List CTree) (tx : Option String) (r : Rule) (ty : Cat) (h : Nat) :
      P op sym (ts.map CTree.ty) ty r → List.Forall₂ (AllSteps P) cs ts → AllSteps P (.node c op sym cs) (.node tx r ty h ts)

mutual
/-- Every node has children. -/
def Inner : DTree → Prop
  | .leaf _ _ => True
  | .node _ _ _ cs => cs ≠ [] ∧ Inners cs
def Inners : List DTree → Prop
  | [] => True
  | c :: cs => Inner c ∧ Inners cs
end

mutual
theorem steps_main (upper : String → String) : (d : DTree) → Inner d → ∀ t, build upper d = .ok t → AllSteps (fun op sym dom cod r => Says upper op sym dom cod r ∧ arity r dom.length ∧ ∀ c ∈ dom, c.NoEmpty) d t
  | .leaf c w => by
    intro _ t h
    obtain ⟨ty, h1, rfl⟩ := (build_leaf upper c w t).1 h
    exact .leaf _ _ _
  | .node c op sym cs => by
    have hc := stepss_main upper cs
    intro hi t h
    rw [Inner] at hi
    obtain ⟨ty, ts, r, h1, h2, h3, h4, rfl⟩ := (build_node upper c op sym cs t).1 h
    have hne : ts.isEmpty = false := by
      cases ts with
      | nil => have := h2.length_eq; simp at this; exact absurd this hi.1
      | cons _ _ => rfl
    rw [hne, Bool.and_false]
    refine .node _ _ _ _ _ _ _ _ _ ⟨h3, by simpa using h4, ?_⟩ (hc hi.2 ts h2)
    intro x hx
    obtain ⟨t', ht', rfl⟩ := List.mem_map.1 hx
    obtain ⟨i, hi', rfl⟩ := List.mem_iff_getElem.1 ht'
    have hl := h2.length_eq
    have hb := (List.forall₂_iff_get.1 h2).2 i (by omega) hi'
    exact denotes_noEmpty _ _ (converted_main upper _ _ hb).2
theorem stepss_main (upper : String → String) : (cs : List DTree) → Inners cs → ∀ ts, List.Forall₂ (fun d t => build upper d = .ok t) cs ts →
    List.Forall₂ (AllSteps (fun op sym dom cod r => Says upper op sym dom cod r ∧ arity r dom.length ∧ ∀ c ∈ dom, c.NoEmpty)) cs ts
  | [] => by intro _ ts h; cases h; exact .nil
  | c :: cs => by
    have h1 := steps_main upper c
    have h2 := stepss_main upper cs
    intro hi ts h
    rw [Inners] at hi
    cases h with
    | cons ha hb => exact .cons (h1 hi.1 _ ha) (h2 hi.2 _ hb)
end

/-- At each node the rule is the one the operation of depccg says, and it has as many premises as there are children. -/
theorem C110_rules (upper : String → String) (d : DTree) (hd : Inner d) (t : CTree) (h : build upper d = .ok t) :
    AllSteps (fun op sym dom cod r => Says upper op sym dom cod r ∧ arity r dom.length) d t := by
  have key : ∀ d t, AllSteps (fun op sym dom cod r => Says upper op sym dom cod r ∧ arity r dom.length ∧ ∀ c ∈ dom, c.NoEmpty) d t →
      AllSteps (fun op sym dom cod r => Says upper op sym dom cod r ∧ arity r dom.length) d t := by
    intro d t h
    refine AllSteps.rec (motive_1 := fun d t _ => AllSteps (fun op sym dom cod r => Says upper op sym dom cod r ∧ arity r dom.length) d t)
      (motive_2 := fun cs ts _ => List.Forall₂ (AllSteps (fun op sym dom cod r => Says upper op sym dom cod r ∧ arity r dom.length)) cs ts) ?_ ?_ ?_ ?_ h
    · intro c w ty; exact .leaf _ _ _
    · intro c op sym cs ts tx r ty h hp _ ih; exact .node _ _ _ _ _ _ _ _ _ ⟨hp.1, hp.2.1⟩ ih
    · exact .nil
    · intro a b l l' _ _ h1 h2; exact .cons h1 h2
  exact key d t (steps_main upper d hd t h)

/-- A step of depccg by the book: a named rule whose schema holds, type raising, a unary rule, coordination, or one of the generalised rules under either name. -/
inductive ByTheBook (upper : String → String) (op sym : String) (dom : List Cat) (cod : Cat) : Prop
  | named (r : Rule) : Rule.Licensed r dom cod → dom.length = 2 → op ≠ "tr" → sym ≠ "<un>" → op ≠ "gbx" → op ≠ "gfc" → upper op = r.value → ByTheBook upper op sym dom cod
  | raising (r : Rule) : r = .ftr ∨ r = .btr → Rule.Licensed r dom cod → op = "tr" → ByTheBook upper op sym dom cod
  | unary (x : Cat) : dom = [x] → op ≠ "tr" → sym = "<un>" → ByTheBook upper op sym dom cod
  | conj (l r : Cat) : dom = [l, r] → sym ≠ "<un>" → op = "conj" → upper op = "CONJ" → ByTheBook upper op sym dom cod
  | general (r : Rule) : Rule.Licensed r dom cod → dom.length = 2 → sym ≠ "<un>" → op = "gbx" ∨ op = "gfc" → ByTheBook upper op sym dom cod

/-- A step of the tree that is built: its rule allows it. -/
def Allowed (dom : List Cat) (cod : Cat) : Rule → Prop
  | .unknown => False
  | .lexical => False
  | .unary => ∃ x, dom = [x]
  | .conj => ∃ l r, dom = [l, r]
  | .lp => ∃ x, dom = [Cat.PUNC, x]
  | .rp => ∃ x, dom = [x, Cat.PUNC]
  | r => Rule.Licensed r dom cod

theorem licensed_allowed (r : Rule) (dom : List Cat) (cod : Cat) (h : Rule.Licensed r dom cod) : Allowed dom cod r := by
  cases h with
  | unary => exact ⟨_, rfl⟩
  | lp => exact ⟨_, rfl⟩
  | rp => exact ⟨_, rfl⟩
  | ftr => exact .ftr _ _
  | btr => exact .btr _ _
  | fa => exact .fa _ _
  | ba => exact .ba _ _
  | fc => exact .fc _ _ _
  | bc => exact .bc _ _ _
  | fx => exact .fx _ _ _
  | bx => exact .bx _ _ _
  | gfc x y z k hk => exact .gfc x y z k hk
  | gbc x y z k hk => exact .gbc x y z k hk
  | gfx x y z k => exact .gfx x y z k
  | gbx x y z k => exact .gbx x y z k

theorem inferred_allowed (r : Rule) (dom : List Cat) (cod : Cat) (h : Rule.Inferred r dom cod) (hr : r ≠ .unknown) (hn : dom ≠ []) : Allowed dom cod r := by
  cases r with
  | unknown => exact absurd rfl hr
  | lexical => exact absurd h hn
  | conj => obtain ⟨l, r, h1, _⟩ := h; exact ⟨l, r, h1⟩
  | _ => exact h

/-- What a step by the book becomes. -/
theorem book_says (upper : String → String) (op sym : String) (dom : List Cat) (cod : Cat) (hb : ByTheBook upper op sym dom cod) (hne : ∀ c ∈ dom, c.NoEmpty) :
    ∃ r, Says upper op sym dom cod r ∧ arity r dom.length ∧ Allowed dom cod r := by
  cases hb with
  | named r hl h2 ho hs h3 h4 hv =>
    refine ⟨r, .named r ho hs h3 h4 hv.symm, ?_, licensed_allowed r dom cod hl⟩
    cases hl <;> simp_all [arity]
  | raising r hr hl ho =>
    refine ⟨r, ?_, ?_, licensed_allowed r dom cod hl⟩
    · cases hl <;> simp at hr
      · exact .raising _ ho (.inl ⟨rfl, rfl⟩)
      · exact .raising _ ho (.inr ⟨rfl, rfl⟩)
    · cases hl <;> simp at hr <;> rfl
  | unary x hd ho hs => exact ⟨.unary, .unary ho hs, by rw [hd]; rfl, x, hd⟩
  | conj l r hd hs ho hu => exact ⟨.conj, .named _ (by rw [ho]; decide) hs (by rw [ho]; decide) (by rw [ho]; decide) hu.symm, by rw [hd]; rfl, l, r, hd⟩
  | general r hl h2 hs ho =>
    obtain ⟨r', h1, h3⟩ := Rule.C30_infer_complete dom cod r hl hne
    have h4 := Rule.C30_infer_sound dom cod r' h1
    have hot : op ≠ "tr" := by rcases ho with e | e <;> (rw [e]; decide)
    have ha := inferred_allowed r' dom cod h4 h3 (by intro e; rw [e] at h2; simp at h2)
    refine ⟨r', .general r' hot hs ho h1, ?_, ha⟩
    cases r' with
    | unknown => trivial
    | lexical => exact ha.elim
    | unary => obtain ⟨x, e⟩ := ha; rw [e] at h2; simp at h2
    | ftr => cases ha; simp at h2
    | btr => cases ha; simp at h2
    | _ => exact h2

/-- The operation determines the rule. -/
theorem says_unique (upper : String → String) (op sym : String) (dom : List Cat) (cod : Cat) (r r' : Rule) (h : Says upper op sym dom cod r) (h' : Says upper op sym dom cod r') : r = r' := by
  have h1 := (ruleOf_iff ..).2 h
  rw [(ruleOf_iff ..).2 h'] at h1
  cases h1; rfl

mutual
/-- Each step is by the book, up to features. -/
def Book (upper : String → String) : DTree → Prop
  | .leaf c _ => Known c
  | .node c op sym cs => Known c ∧ cs ≠ [] ∧ Books upper cs ∧ ∀ dom cod, List.Forall₂ Denotes (cs.map catOf) dom → Denotes c cod → ByTheBook upper op sym dom cod
def Books (upper : String → String) : List DTree → Prop
  | [] => True
  | c :: cs => Book upper c ∧ Books upper cs
end

theorem known_denotes (c : DCat) (h : Known c) : ∃ t, Denotes c t := by
  obtain ⟨t, ht⟩ := (C110_types_total c).2 h
  exact ⟨t, (C110_types c t).1 ht⟩

theorem types_denote (upper : String → String) (cs : List DTree) (ts : List CTree) (h : List.Forall₂ (fun d t => build upper d = .ok t) cs ts) :
    List.Forall₂ Denotes (cs.map catOf) (ts.map CTree.ty) := by
  induction h with
  | nil => exact .nil
  | cons h _ ih => exact .cons (converted_main upper _ _ h).2 ih

theorem denote_noEmpty (cs : List DCat) (dom : List Cat) (h : List.Forall₂ Denotes cs dom) : ∀ c ∈ dom, c.NoEmpty := by
  induction h with
  | nil => simp
  | cons h _ ih =>
    intro x hx
    rcases List.mem_cons.1 hx with rfl | hx
    · exact denotes_noEmpty _ _ h
    · exact ih x hx

mutual
theorem book_main (upper : String → String) : (d : DTree) → Book upper d → ∃ t, build upper d = .ok t ∧ AllSteps (fun _ _ dom cod r => Allowed dom cod r) d t
  | .leaf c w => by
    intro h
    rw [Book] at h
    obtain ⟨ty, hty⟩ := known_denotes c h
    exact ⟨_, (build_leaf upper c w _).2 ⟨ty, hty, rfl⟩, .leaf _ _ _⟩
  | .node c op sym cs => by
    have hc := books_main upper cs
    intro h
    rw [Book] at h
    obtain ⟨hk, hn, hbs, hstep⟩ := h
    obtain ⟨ts, h2, hall⟩ := hc hbs
    obtain ⟨ty, hty⟩ := known_denotes c hk
    have hden := types_denote upper cs ts h2
    obtain ⟨r, hs, ha, hal⟩ := book_says upper op sym _ ty (hstep _ _ hden hty) (denote_noEmpty _ _ hden)
    have hne : ts.isEmpty = false := by
      cases ts with
      | nil => have := h2.length_eq; simp at this; exact absurd this hn
      | cons _ _ => rfl
    refine ⟨_, (build_node upper c op sym cs _).2 ⟨ty, ts, r, hty, h2, hs, by simpa using ha, rfl⟩, ?_⟩
    rw [hne, Bool.and_false]
    exact .node _ _ _ _ _ _ _ _ _ hal hall
theorem books_main (upper : String → String) : (cs : List DTree) → Books upper cs →
    ∃ ts, List.Forall₂ (fun d t => build upper d = .ok t) cs ts ∧ List.Forall₂ (AllSteps (fun _ _ dom cod r => Allowed dom cod r)) cs ts
  | [] => fun _ => ⟨[], .nil, .nil⟩
  | c :: cs => by
    have h1 := book_main upper c
    have h2 := books_main upper cs
    intro h
    rw [Books] at h
    obtain ⟨t, ha, hb⟩ := h1 h.1
    obtain ⟨ts, hc, hd⟩ := h2 h.2
    exact ⟨t :: ts, .cons ha hc, .cons hb hd⟩
end

/-- A derivation by the book, up to features, is converted, and each step of the tree is allowed by its rule. -/
theorem C110_sound (upper : String → String) (d : DTree) (h : Book upper d) : ∃ t, build upper d = .ok t ∧ AllSteps (fun _ _ dom cod r => Allowed dom cod r) d t :=
  book_main upper d h

/-! ## Examples and refutations -/

def nCat : DCat := .atomic "N" ""
def npCat (f : String) : DCat := .atomic "NP" f
def sCat (f : String) : DCat := .atomic "S" f

/-- `dogs bark`: a unary rule for the noun, then application; the features do not agree. -/
def exDep : DTree := .node (sCat "dcl") "ba" "<" [.node (npCat "nb") "lex" "<un>" [.leaf nCat "dogs"], .leaf (.functor (sCat "dcl") '\\' (npCat "")) "bark"]
/-- `str.upper` on the strings of the examples. -/
def upper' (s : String) : String := if s = "ba" then "BA" else if s = "fa" then "FA" else if s = "conj" then "CONJ" else s

example : build upper' exDep = .ok (.node (some "dogs bark") .ba (.atom "s") 2 [.node (some "dogs") .unary (.atom "np") 1 [.node (some "dogs") .lexical (.atom "n") 0 []],
    .node (some "bark") .lexical (.under (.atom "s") (.atom "np")) 0 []]) := by rfl
example : Book upper' exDep ∧ Inner exDep := by
  have hn : ∀ t, Denotes nCat t → t = .atom "n" := fun t h => by have := (C110_types _ _).2 h; cases this; rfl
  have hnp : ∀ f t, Denotes (npCat f) t → t = .atom "np" := fun f t h => by have := (C110_types _ _).2 h; cases this; rfl
  have hs : ∀ f t, Denotes (sCat f) t → t = .atom "s" := fun f t h => by have := (C110_types _ _).2 h; cases this; rfl
  have kn : Known nCat := .atomic _ _ (by decide)
  have knp : ∀ f, Known (npCat f) := fun f => .atomic _ _ (by decide)
  have ks : ∀ f, Known (sCat f) := fun f => .atomic _ _ (by decide)
  have hv : ∀ t, Denotes (.functor (sCat "dcl") '\\' (npCat "")) t → t = .under (.atom "s") (.atom "np") := fun t h => by have := (C110_types _ _).2 h; cases this; rfl
  constructor
  · simp only [exDep, Book, Books, and_true]
    refine ⟨ks _, by simp, ⟨⟨knp _, by simp, kn, ?_⟩, .functor _ _ _ (ks _) (knp _) (.inr rfl)⟩, ?_⟩
    · intro dom cod h _
      obtain ⟨x, dom, h1, h2, rfl⟩ := List.forall₂_cons_left_iff.1 h
      cases h2
      exact .unary x rfl (by decide) rfl
    · intro dom cod h hc
      obtain ⟨x, dom, h1, h2, rfl⟩ := List.forall₂_cons_left_iff.1 h
      obtain ⟨y, dom, h3, h4, rfl⟩ := List.forall₂_cons_left_iff.1 h2
      cases h4
      rw [hnp _ x h1, hv y h3, hs _ cod hc]
      exact .named .ba (.ba _ _) rfl (by decide) (by decide) (by decide) (by decide) rfl
  · simp [exDep, Inner, Inners]

/-- Refuted: not only punctuation marks are punctuation: the base is looked for as a substring of `,.:;`, so the empty one and pairs of marks are found as well. -/
theorem C110_refuted_punctuation (f : String) : toBiclosed (.atomic "" f) = .ok (.atom "punc") ∧ toBiclosed (.atomic ",." f) = .ok (.atom "punc") ∧ toBiclosed (.atomic ",:" f) = .error .runtimeError := by
  simp only [toBiclosed]
  decide +kernel

/-- Type raising to an atomic category raises AttributeError; an operation that names no rule becomes UNKNOWN, whatever the number of children. -/
theorem C110_refuted_operations (upper : String → String) (w : String) : build upper (.node nCat "tr" "<un>" [.leaf nCat w]) = .error .attributeError ∧
    ∀ op sym, op ≠ "tr" → sym ≠ "<un>" → op ≠ "gbx" → op ≠ "gfc" → (∀ r : Rule, r.value ≠ upper op) →
      ∃ t, build upper (.node nCat op sym [.leaf nCat w, .leaf nCat w, .leaf nCat w]) = .ok t ∧ t.rule = .unknown := by
  refine ⟨by rfl, ?_⟩
  intro op sym h1 h2 h3 h4 h5
  have hn : Denotes nCat (.atom "n") := .noun _
  have hl : build upper (.leaf nCat w) = .ok (.node (some w) .lexical (.atom "n") 0 []) := (build_leaf _ _ _ _).2 ⟨_, hn, rfl⟩
  refine ⟨_, (build_node upper nCat op sym _ _).2 ⟨_, [_, _, _], .unknown, hn, .cons hl (.cons hl (.cons hl .nil)), .unknown h1 h2 h3 h4 h5, trivial, rfl⟩, ?_⟩
  simp [CTree.rule]

end Depccg
end Lambeq
