import Verif.Bobcat.DepsTheorems
import Verif.Bobcat.LexiconTheorems

/-!
# C111: tags, and what each rule does to the open dependencies
-/

set_option linter.unusedVariables false
set_option linter.unusedSimpArgs false

namespace Lambeq
namespace Bobcat
namespace DTree

/-! ## Tags -/

/-- The category with `S` instead of `S[X]`. -/
def noX : BCat → BCat
  | .atomic a f v r => .atomic a (if f = .x then .none else f) v r
  | .slash d r a v l t => .slash d (noX r) (noX a) v l t

theorem noX_clean : ∀ c : BCat, c.Clean → (noX c).Clean
  | .atomic a f v r, h => by
    obtain ⟨h1, h2, h3⟩ := h
    refine ⟨h1, ?_, h3⟩
    split
    · exact .inl rfl
    · exact h2
  | .slash d r a v l t, ⟨h1, h2, h3, h4⟩ => ⟨h1, noX_clean r h2, noX_clean a h3, h4⟩

theorem noX_complex (c : BCat) : (noX c).isComplex = c.isComplex := by cases c <;> rfl

theorem toStr_last (c : BCat) (k : Nat) (h : c.Clean) :
    (c.toStr false k).1.getLast? ≠ some '}' ∧ (c.toStr false k).1.getLast? ≠ some '>' := by
  rw [BCat.toStr_bare]; exact BCat.bare_last c k h

theorem toStr_count (c : BCat) (k : Nat) : (c.toStr false k).2 = k := by
  induction c generalizing k with
  | atomic a f v r => simp [BCat.toStr]
  | slash d r a v l t ih1 ih2 => simp [BCat.toStr, ih1, ih2]

theorem wrap_eq (c : BCat) (k : Nat) (h : c.Clean) :
    c.wrap (c.toStr false k).1 = if c.isComplex then ['('] ++ (c.toStr false k).1 ++ [')'] else (c.toStr false k).1 := by
  split
  · rename_i hc; exact BCat.wrap_complex c _ hc (toStr_last c k h)
  · rename_i hc; simp [BCat.wrap, hc]

theorem dropX_cons {c : Char} (h : c ≠ '[') (s : List Char) : dropX (c :: s) = c :: dropX s := by
  rw [dropX]
  intro s' e1
  exact absurd e1 h

theorem dropX_append {s : List Char} (h : '[' ∉ s) (t : List Char) : dropX (s ++ t) = s ++ dropX t := by
  induction s with
  | nil => rfl
  | cons c s ih =>
    simp only [List.mem_cons, not_or] at h
    rw [List.cons_append, dropX_cons (fun e => h.1 e.symm), ih h.2, List.cons_append]

theorem dropX_feature {n : List Char} (hn : n.head? ≠ some 'X') (hb : '[' ∉ n) (t : List Char) :
    dropX ('[' :: (n ++ ']' :: t)) = '[' :: (n ++ ']' :: dropX t) := by
  have h1 : dropX ('[' :: (n ++ ']' :: t)) = '[' :: dropX (n ++ ']' :: t) := by
    rw [dropX]
    intro s' _ e
    cases n with
    | nil => simp at e
    | cons c n => simp only [List.cons_append, List.cons.injEq] at e; exact hn (by simp [e.1])
  rw [h1, dropX_append hb, dropX_cons (by decide)]

theorem atom_no_bracket (a : Atom) : '[' ∉ a.chars := by cases a <;> decide

theorem feature_no_bracket : ∀ n ∈ featureNames, n.toList.head? ≠ some 'X' ∧ '[' ∉ n.toList := by decide

theorem dropX_toStr (c : BCat) (hc : c.Clean) (k : Nat) (t : List Char) :
    dropX ((c.toStr false k).1 ++ t) = ((noX c).toStr false k).1 ++ dropX t := by
  induction c generalizing k t with
  | atomic a f v r =>
    obtain ⟨_, h2, _⟩ := hc
    simp only [BCat.toStr, noX, Bool.false_and, Bool.false_eq_true, if_false]
    have key : dropX ((if f ≠ .none then ['['] ++ f.chars ++ [']'] else []) ++ t) =
        (if (if f = .x then Feature.none else f) ≠ .none then ['['] ++ (if f = .x then Feature.none else f).chars ++ [']'] else []) ++ dropX t := by
      rcases h2 with rfl | rfl | ⟨n, hn, rfl⟩
      · simp
      · simp [Feature.chars, dropX]
      · obtain ⟨h3, h4⟩ := feature_no_bracket n hn
        have := dropX_feature h3 h4 t
        simpa [Feature.chars] using this
    rw [List.append_assoc, dropX_append (atom_no_bracket a), key, ← List.append_assoc]
  | slash d r a v l tr ih1 ih2 =>
    obtain ⟨h1, h2, h3, h4⟩ := hc
    have hd : d ≠ '[' := by rcases h1 with rfl | rfl <;> decide
    have part : ∀ (c : BCat), c.Clean → (∀ k t, dropX ((c.toStr false k).1 ++ t) = ((noX c).toStr false k).1 ++ dropX t) → ∀ k t,
        dropX (c.wrap (c.toStr false k).1 ++ t) = (noX c).wrap ((noX c).toStr false k).1 ++ dropX t := by
      intro c hc ih k t
      rw [wrap_eq c k hc, wrap_eq (noX c) k (noX_clean c hc), noX_complex]
      split
      · simp only [List.append_assoc, List.singleton_append, List.cons_append, List.nil_append]
        rw [dropX_cons (by decide), ih, dropX_cons (by decide)]
      · exact ih k t
    simp only [BCat.toStr, noX, Bool.false_and, Bool.false_eq_true, if_false, toStr_count]
    simp only [List.append_assoc, List.singleton_append, List.cons_append, List.nil_append]
    rw [part r h2 (fun k t => ih1 h2 k t), dropX_cons hd, part a h3 (fun k t => ih2 h3 k t)]

/-- **C111 (tags).** The tag of a word is its category as a string, with `S` for `S[X]`. -/
theorem C111_tags (t : DTree) (h : Built t) (hc : ∀ l ∈ t.leaves, l.2.2.Clean) :
    ∃ ds, t.depsAndTags = .ok (ds, t.leaves.map (fun l => (noX l.2.2).str)) := by
  obtain ⟨ds, tags, e, _, rfl, _⟩ := C111_deps t h
  refine ⟨ds, ?_⟩
  rw [e]
  congr 2
  refine List.map_congr_left ?_
  intro l hl
  have := dropX_toStr l.2.2 (hc l hl) 0 []
  simpa [BCat.str, dropX] using this

/-- The hypotheses hold of `sleeps deeply`, whose second tag has no `[X]`. -/
example : demoAdv.Clean ∧ demoVerb.Clean ∧ noX demoAdv ≠ demoAdv ∧
    demoShow demoPhrase = some ([(.slot 9, 3, some 2)], [String.ofList (noX demoVerb).str, String.ofList (noX demoAdv).str]) := by
  refine ⟨?_, ?_, by decide, by decide +kernel⟩
  · simp [demoAdv, BCat.Clean]
  · simp [demoVerb, BCat.Clean, featureNames]

/-! ## Open dependencies -/

/-- **C111 (combination).** Combining two phrases, an open dependency of either whose variable the unifier renames to `v` is filled with all
the words of `v`, if `v` has a head, and stays open under the name `v` otherwise; and nothing else is filled or open. -/
theorem C111_open (rule : Rule) (cat : BCat) (left right : DTree) (st : UState) :
    let t := combining rule cat left right st
    (∀ d, d ∈ t.unfilled ↔ ∃ d' v, ((d' ∈ left.unfilled ∧ st.transL d'.var = some v) ∨ (d' ∈ right.unfilled ∧ st.transR d'.var = some v)) ∧
      (∀ x, t.root.varMap v = some x → x.filled = false) ∧ d = ⟨d'.rel, d'.head, v, d'.uid, d'.filler⟩) ∧
    (∀ d, d ∈ t.filled ↔ ∃ d' v x f, ((d' ∈ left.unfilled ∧ st.transL d'.var = some v) ∨ (d' ∈ right.unfilled ∧ st.transR d'.var = some v)) ∧
      t.root.varMap v = some x ∧ x.filled = true ∧ f ∈ x.fillers ∧ d = ⟨d'.rel, d'.head, 0, d'.uid, some f⟩) := by
  intro t
  have hmem : ∀ p : Dep × Nat, p ∈ translated st.transL left.unfilled ++ translated st.transR right.unfilled ↔
      ((p.1 ∈ left.unfilled ∧ st.transL p.1.var = some p.2) ∨ (p.1 ∈ right.unfilled ∧ st.transR p.1.var = some p.2)) := by
    intro p; simp only [List.mem_append, mem_translated]
  have hopen : ∀ (vars : Nat → Option Variable) (ds : List (Dep × Nat)) (p : Dep × Nat), p ∈ ds →
      (∀ x, vars p.2 = some x → x.filled = false) → p.1.move p.2 p.1.uid ∈ (settle vars ds).1 := by
    intro vars ds p hp hv
    induction ds with
    | nil => cases hp
    | cons q ds ih =>
      obtain ⟨d0, v0⟩ := q
      rcases List.mem_cons.1 hp with rfl | hp'
      · simp only [settle]
        cases hx : vars v0 with
        | none => simp
        | some x => simp [hv x hx]
      · have := ih hp'
        simp only [settle]
        split
        · split
          · exact this
          · simp [this]
        · simp [this]
  obtain ⟨s1, s2⟩ := mem_settle t.root.varMap (translated st.transL left.unfilled ++ translated st.transR right.unfilled)
  refine ⟨fun d => ⟨?_, ?_⟩, fun d => ⟨?_, ?_⟩⟩
  · intro hd
    obtain ⟨p, h1, h2, h3⟩ := s1 d hd
    exact ⟨p.1, p.2, (hmem p).1 h1, h3, h2⟩
  · rintro ⟨d', v, h1, h2, rfl⟩
    exact hopen _ _ (d', v) ((hmem (d', v)).2 h1) h2
  · intro hd
    obtain ⟨p, h1, x, h2, h3, h4⟩ := s2 d hd
    simp only [Dep.fill, List.mem_map] at h4
    obtain ⟨f, h5, h6⟩ := h4
    exact ⟨p.1, p.2, x, f, (hmem p).1 h1, h2, h3, h5, h6.symm⟩
  · rintro ⟨d', v, x, f, h1, h2, h3, h4, rfl⟩
    exact mem_settle_filled ((hmem (d', v)).2 h1) h2 h3 _ (List.mem_map.2 ⟨f, h4, rfl⟩)

/-- **C111 (punctuation).** A phrase keeps its category, its head and its open dependencies when a punctuation mark, or the conjunction of
an adjective, is added to it. -/
theorem C111_punctuation (rule : Rule) (phrase mark : DTree) :
    (∃ t, passing rule mark phrase true = t ∧ t.root.cat = phrase.root.cat ∧ t.root.varMap = phrase.root.varMap ∧ t.unfilled = phrase.unfilled ∧
      t.filled = [] ∧ t.root.rule = rule) ∧
    (∃ t, passing rule phrase mark false = t ∧ t.root.cat = phrase.root.cat ∧ t.root.varMap = phrase.root.varMap ∧
      t.unfilled = phrase.unfilled ∧ t.filled = [] ∧ t.root.rule = rule) :=
  ⟨⟨_, rfl, rfl, rfl, rfl, rfl, rfl⟩, ⟨_, rfl, rfl, rfl, rfl, rfl, rfl⟩⟩

/-- **C111 (coordination).** In a coordination the second conjunct keeps its open dependencies and the heads of all its variables, which
count as open; if it has a head, one dependency of the conjunction word is added, open for the first conjunct. -/
theorem C111_coordination (cat : BCat) (left right t : DTree) (h : coordination cat left right = .ok t) :
    t.root.cat = cat ∧ t.filled = [] ∧ (∀ k, t.root.varMap k = (right.root.varMap k).map (fun v => ⟨v.fillers, false⟩)) ∧
    ((∃ v, right.root.headVar = some v ∧ v.filled = true) →
      ∃ w x a, left.root.headVar = some w ∧ w.fillers.head? = some x ∧ cat.argument = some a ∧
        t.unfilled = right.unfilled ++ [⟨.conj, x, a.var, 0, none⟩]) ∧
    ((∀ v, right.root.headVar = some v → v.filled = false) → t.unfilled = right.unfilled) := by
  unfold coordination at h
  simp only at h
  split at h
  · rename_i hr
    cases h
    exact ⟨rfl, rfl, fun _ => rfl, fun ⟨v, hv, _⟩ => by simp [hr] at hv, fun _ => rfl⟩
  · rename_i v hr
    split at h
    · rename_i hf
      split at h
      · cases h
      · rename_i w hw
        split at h
        · cases h
        · rename_i x xs hx
          split at h
          · cases h
          · rename_i a ha
            cases h
            refine ⟨rfl, rfl, fun _ => rfl, fun _ => ⟨w, x, a, hw, by simp [hx], ha, rfl⟩, fun hn => ?_⟩
            simp [hn v hr] at hf
    · rename_i hf
      cases h
      refine ⟨rfl, rfl, fun _ => rfl, fun ⟨v', hv, hf'⟩ => ?_, fun _ => rfl⟩
      rw [hr] at hv; cases hv; exact absurd hf' hf

/-- The template `(S\NP)\(S\NP)` of a changed verb phrase. -/
def verbModifier : BCat := .slash '\\' (.slash '\\' (.atomic .s .none 0 none) (.atomic .np .none 0 none) 0 none 0)
  (.slash '\\' (.atomic .s .none 0 none) (.atomic .np .none 0 none) 0 none 0) 0 none 0

/-- **C111 (type changing).** A type changing rule that replaces gives the open dependencies of the phrase's argument, and no others, to the
argument of the new category (for verb phrase modifiers: to the subject of its argument), with the number of the rule; one that does not
replace opens the dependencies of the new category for every head of the phrase. The phrase is the right child for punctuation on the
left. -/
theorem C111_type_changing (rule : Rule) (cat : BCat) (left : DTree) (right : Option DTree) (uid : Nat) (t : DTree) (phrase : DTree)
    (hp : (rule = .lp ∧ right = some phrase) ∨ (rule ≠ .lp ∧ left = phrase)) :
    (changing rule cat left right uid true = .ok t → t.root.cat = cat ∧ t.filled = [] ∧
      ∃ a n, cat.argument = some a ∧ (if verbModifier.doesMatch cat then a.argument.map BCat.var else some a.var) = some n ∧
        (∀ d, d ∈ t.unfilled ↔ ∃ d' b, d' ∈ phrase.unfilled ∧ phrase.root.cat.argument = some b ∧ d'.var = b.var ∧
          d = ⟨d'.rel, d'.head, n, uid, d'.filler⟩)) ∧
    (changing rule cat left right uid false = .ok t → t.root.cat = cat ∧ t.filled = [] ∧
      t.unfilled = generate uid ((phrase.root.headVar.map Variable.fillers).getD []) cat) := by
  have shape : ∀ rep, changing rule cat left right uid rep = .ok t → ∃ ds, changedDeps cat phrase uid rep = .ok ds ∧ t.root.cat = cat ∧
      t.filled = [] ∧ t.unfilled = ds := by
    intro rep h
    have key : changing rule cat left right uid rep = (match changedDeps cat phrase uid rep with
        | .error e => .error e
        | .ok ds => match right with
          | none => .ok (.un (typeChanging rule cat left.root none) left ds)
          | some r => .ok (.bin (typeChanging rule cat left.root (some r.root)) left r ds [])) := by
      rcases hp with ⟨rfl, rfl⟩ | ⟨h1, rfl⟩
      · rfl
      · cases rule <;> cases right <;> first | rfl | exact absurd rfl h1
    rw [key] at h
    split at h
    · cases h
    · rename_i ds hds
      split at h <;> cases h <;> exact ⟨ds, hds, rfl, rfl, rfl⟩
  have gen0 : ∀ c : BCat, generate uid [] c = [] := by
    intro c
    induction c with
    | atomic a f v r => cases r <;> rfl
    | slash d x y v r tr ih1 ih2 => cases r <;> simp [generate, ih1, ih2]
  refine ⟨fun h => ?_, fun h => ?_⟩
  · obtain ⟨ds, hds, h1, h2, rfl⟩ := shape true h
    refine ⟨h1, h2, ?_⟩
    unfold changedDeps at hds
    simp only [if_true] at hds
    split at hds
    · cases hds
    · rename_i a ha
      split at hds
      · cases hds
      · rename_i n hn
        refine ⟨a, n, ha, hn, ?_⟩
        split at hds
        · rename_i he
          have hds := (Except.ok.inj hds).symm
          intro d; rw [hds, he]; simp
        · split at hds
          · cases hds
          · rename_i b hb
            have hds := (Except.ok.inj hds).symm
            intro d
            rw [hds, hb]
            simp only [List.mem_map, List.mem_filter, decide_eq_true_eq, Option.some.injEq]
            constructor
            · rintro ⟨d', ⟨h3, h4⟩, rfl⟩; exact ⟨d', b, h3, rfl, h4, rfl⟩
            · rintro ⟨d', b', h3, rfl, h4, rfl⟩; exact ⟨d', ⟨h3, h4⟩, rfl⟩
  · obtain ⟨ds, hds, h1, h2, rfl⟩ := shape false h
    refine ⟨h1, h2, ?_⟩
    unfold changedDeps at hds
    simp only [Bool.false_eq_true, if_false] at hds
    split at hds
    · rename_i v hv
      rw [hv]; exact (Except.ok.inj hds).symm
    · rename_i hv
      rw [hv]; simp only [Option.map_none, Option.getD_none]; rw [gen0]; exact (Except.ok.inj hds).symm

/-- **C111 (type raising).** A type raised phrase gives its open dependencies to the variable that the rule names, if it names one; its
heads are kept under variable 1. -/
theorem C111_type_raising (d : Char) (res arg : BCat) (v : Nat) (k : Option Nat) (tr : Nat) (phrase : DTree) :
    let t := raising (.slash d res arg v k tr) phrase
    (tr ≠ 0 → t.unfilled = phrase.unfilled.map (fun x => ⟨x.rel, x.head, tr, x.uid, x.filler⟩)) ∧ (tr = 0 → t.unfilled = []) ∧
    t.filled = [] ∧ t.root.varMap 1 = phrase.root.headVar ∧ ∀ i ≠ 1, t.root.varMap i = none := by
  intro t
  have hv : ∀ i, t.root.varMap i = if i = 1 then phrase.root.headVar else none := by
    intro i
    show (typeRaising _ phrase.root).varMap i = _
    unfold typeRaising
    cases h : phrase.root.headVar with
    | none => simp
    | some w => by_cases hi : i = 1 <;> simp [put, hi]
  refine ⟨fun h => ?_, fun h => ?_, rfl, by rw [hv]; simp, fun i hi => by rw [hv, if_neg hi]⟩
  · show (if tr ≠ 0 then _ else []) = _
    rw [if_pos h]; rfl
  · show (if tr ≠ 0 then _ else []) = _
    rw [if_neg (by simpa using h)]

/-- The relations of the parts of a category, with the variables of the parts. -/
def parts : BCat → List (Nat × Nat)
  | .atomic _ _ v r => r.toList.map (fun k => (k, v))
  | .slash _ res arg v r _ => r.toList.map (fun k => (k, v)) ++ parts res ++ parts arg

/-- **C111 (words).** A word opens, for every part of its category with a relation, one dependency on the variable of that part. -/
theorem C111_lexical (cat : BCat) (w : String) (i : Nat) :
    (cat.var = 0 → (match lexical cat w i with | .error .assertionError => true | _ => false) = true) ∧
    (cat.var ≠ 0 → ∃ t, lexical cat w i = .ok t ∧ t.leaves = [(w, i, cat)] ∧ t.filled = [] ∧ t.root.headVar = some ⟨[i], true⟩ ∧
      (∀ j ≠ cat.var, t.root.varMap j = none) ∧ t.unfilled.map (fun d => (d.rel, d.var)) = (parts cat).map (fun p => (.slot p.1, p.2)) ∧
      ∀ d ∈ t.unfilled, d.head = i ∧ d.uid = 0 ∧ d.filler = none) := by
  refine ⟨fun h => by simp [lexical, h], fun h => ?_⟩
  refine ⟨_, if_neg h, rfl, rfl, by simp [root, Tree.headVar, put], fun j hj => by simp [root, put, hj], ?_, ?_⟩
  · show (generate 0 [i] cat).map _ = _
    have : ∀ c : BCat, (generate 0 [i] c).map (fun d => (d.rel, d.var)) = (parts c).map (fun p => (.slot p.1, p.2)) := by
      intro c
      induction c with
      | atomic a f v r => cases r <;> rfl
      | slash d x y v r tr ih1 ih2 => cases r <;> simp [generate, parts, ih1, ih2]
    exact this cat
  · intro d hd
    have : ∀ c : BCat, ∀ d ∈ generate 0 [i] c, d.head = i ∧ d.uid = 0 ∧ d.filler = none := by
      intro c
      induction c with
      | atomic a f v r => cases r <;> simp [generate]
      | slash d x y v r tr ih1 ih2 =>
        intro d hd
        simp only [generate, List.mem_append] at hd
        rcases hd with (hd | hd) | hd
        · cases r with
          | none => simp at hd
          | some k => simp only [List.map_cons, List.map_nil, List.mem_singleton] at hd; subst hd; exact ⟨rfl, rfl, rfl⟩
        · exact ih1 d hd
        · exact ih2 d hd
    exact this cat d hd

end DTree
end Bobcat
end Lambeq
