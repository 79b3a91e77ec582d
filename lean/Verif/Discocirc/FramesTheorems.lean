import Verif.Discocirc.SandwichSemantics
import Verif.Discocirc.Theorems

/-!
# DisCoCirc: diagrams of pregroup trees, the theorems (C89)
-/

namespace Lambeq
open Diagram
set_option linter.unusedSimpArgs false
set_option linter.unusedSectionVars false

namespace Disco

/-- "Alice really loves Bob": `loves` has type s and the children Alice, really and Bob; `really` hangs on a phrase. -/
def exTree : PTree :=
  .node "loves" 2 [⟨"s", 0⟩] [.node "Alice" 0 [noun] [], .node "really" 1 [⟨"n", 1⟩, ⟨"s", 0⟩] [], .node "man" 4 [noun] [.node "the" 3 [noun] [], .node "tall" 5 [noun] []]]

/-! ## Frames -/

/-- C89: the diagram of frames of a tree has one noun wire, in and out, for each of its noun leaves that are not pruned, in their order, followed by the
arguments of its root; with it come the boxes and indices of these leaves; and its boxes show the other words of the tree, each node before its children, but for
the subtrees whose root has neither nouns below it nor arguments. -/
theorem C89_frames (p : List Nat) (t : PTree) : (frames p t).1.diag.WT ∧
    (frames p t).1.diag.dom = nouns (nounLeaves p t).length ++ Ty.rotate (-1) (t.typ.filter (fun o => decide (o.z ≠ 0))) ∧ (frames p t).1.diag.cod = (frames p t).1.diag.dom ∧
    (frames p t).2.1 = (nounLeaves p t).map (fun l => nounBox l.2) ∧ (frames p t).2.2 = (nounLeaves p t).map Prod.fst ∧
    (frames p t).1.names = keptWords p t := by
  obtain ⟨w, i, ty, cs⟩ := t
  obtain ⟨h1, h2, h3⟩ := drawn_diag (frames p (.node w i ty cs)).1
  obtain ⟨h4, h5⟩ := frames_type p w i ty cs
  obtain ⟨h6, h7⟩ := frames_nouns p (.node w i ty cs)
  have h8 : args ty = ty.filter (fun o => decide (o.z ≠ 0)) := by
    unfold args
    congr 1
    funext o
    by_cases h : o.z = 0 <;> simp [h]
  refine ⟨h1, ?_, h3.trans (h4.symm.trans h2.symm), h6, h7, frames_names p _⟩
  rw [h2.trans h5, h8]
  rfl

mutual
/-- All words of a tree but noun leaves, a node before its children. -/
def otherWords : PTree → List String
  | .node w _ t cs => if t = [noun] ∧ cs = [] then [] else w :: otherWordss cs
def otherWordss : List PTree → List String
  | [] => []
  | c :: cs => otherWords c ++ otherWordss cs
end

mutual
/-- Every node but the noun leaves has a noun leaf below it that is not pruned, or arguments. -/
def Grounded (p : List Nat) : PTree → Prop
  | .node _ _ t cs => (t = [noun] ∧ cs = []) ∨ ((nounLeavess p cs ≠ [] ∨ args t ≠ []) ∧ Groundeds p cs)
def Groundeds (p : List Nat) : List PTree → Prop
  | [] => True
  | c :: cs => Grounded p c ∧ Groundeds p cs
end

mutual
theorem grounded_words (p : List Nat) : ∀ t : PTree, Grounded p t → keptWords p t = otherWords t
  | .node w i t cs, h => by
      rw [keptWords, otherWords]
      by_cases hl : t = [noun] ∧ cs = []
      · rw [if_pos hl, if_pos hl]
      · rw [if_neg hl, if_neg hl]
        rw [Grounded] at h
        rcases h with h | ⟨h1, h2⟩
        · exact absurd h hl
        · rw [if_neg (fun hh => by rcases h1 with h1 | h1; exacts [h1 hh.1, h1 hh.2]), groundeds_words p cs h2]
theorem groundeds_words (p : List Nat) : ∀ cs : List PTree, Groundeds p cs → keptWordss p cs = otherWordss cs
  | [], _ => by rw [keptWordss, otherWordss]
  | c :: cs, h => by
      rw [Groundeds] at h
      rw [keptWordss, otherWordss, grounded_words p c h.1, groundeds_words p cs h.2]
end

/-- C89: no word is lost if every node has a noun below it or arguments. -/
theorem C89_words_partial (p : List Nat) (t : PTree) (h : Grounded p t) : (frames p t).1.names = otherWords t := by
  rw [frames_names, grounded_words p t h]

example : Grounded [] exTree := by
  simp [exTree, Grounded, Groundeds, nounLeavess, nounLeaves, args]

example : (frames [] exTree).1.names = ["loves", "really", "man"] ∧ (frames [] exTree).2.2 = [0, 3, 5] ∧ (frames [] exTree).1.dom = nouns 3 := by
  decide +kernel

/-- C89, refuted in general: "it rains", where the only noun is pruned, gives the empty diagram. -/
theorem C89_refuted_word_lost : (frames [0] (.node "rains" 1 [⟨"s", 0⟩] [.node "it" 0 [noun] []])).1.diag = Diagram.id [] ∧
    otherWords (.node "rains" 1 [⟨"s", 0⟩] [.node "it" 0 [noun] []]) = ["rains"] := ⟨by rfl, by decide +kernel⟩

/-- A child of a node without nouns goes, although it has arguments of its own. -/
theorem C89_refuted_subtree_lost : let t : PTree := .node "so" 0 [⟨"s", 0⟩] [.node "runs" 1 [⟨"n", 1⟩, ⟨"s", 0⟩] []]
    (frames [] t).1.diag = Diagram.id [] ∧ (frames [] (.node "runs" 1 [⟨"n", 1⟩, ⟨"s", 0⟩] [])).1.names = ["runs"] := ⟨by rfl, by decide +kernel⟩

/-! ## The root -/

/-- C89: the corrected root has type s or n, and trees whose root has one of them are left alone. -/
theorem C89_root (n : Nat) (t : PTree) : ((fixRoot n t).typ = [⟨"s", 0⟩] ∨ (fixRoot n t).typ = [noun]) ∧
    ((t.typ = [⟨"s", 0⟩] ∨ t.typ = [noun]) → fixRoot n t = t) := by
  obtain ⟨w, i, ty, cs⟩ := t
  simp only [fixRoot]
  by_cases h : ty = [⟨"s", 0⟩] ∨ ty = [noun]
  · rw [if_pos h]; exact ⟨h, fun _ => rfl⟩
  · rw [if_neg h]; exact ⟨.inl rfl, fun hh => absurd hh h⟩

/-- C89, refuted: the noun added for a free wire gets the index of the last word, so that it can coincide with another noun: the phrase "to see Bob" has its
two nouns on the same wire. -/
theorem C89_refuted_added_noun : let t : PTree := .node "see" 1 [⟨"n", 1⟩, ⟨"s", 0⟩] [.node "Bob" 2 [noun] []]
    (frames [] (fixRoot 3 t)).2.2 = [2, 2] := by
  decide +kernel

/-! ## Texts of frames -/

/-- A sentence of the text: the diagram of a tree and its nouns with their identities. -/
def frameSentence {α : Type} (f : Nat → α) (p : List Nat) (t : PTree) : Sentence α :=
  ((frames p t).1.diag, ((frames p t).2.2.map f).zip (frames p t).2.1)

theorem frameSentence_ok {α : Type} (f : Nat → α) (p : List Nat) (t : PTree) (ht : t.typ = [⟨"s", 0⟩] ∨ t.typ = [noun]) :
    (frameSentence f p t).Ok ∧ (frameSentence f p t).2.length = (nounLeaves p t).length ∧
      (frameSentence f p t).2.map Prod.fst = (nounLeaves p t).map (fun l => f l.1) := by
  obtain ⟨w, i, ty, cs⟩ := t
  obtain ⟨h6, h7⟩ := frames_nouns p (.node w i ty cs)
  obtain ⟨h4, h5⟩ := frames_type p w i ty cs
  obtain ⟨h1, h2, h3⟩ := drawn_diag (frames p (.node w i ty cs)).1
  have ha : Ty.rotate (-1) (args ty) = [] := by
    rcases ht with ht | ht <;> (have ht' : ty = _ := ht; rw [ht']; rfl)
  rw [ha, List.append_nil] at h5
  have hl : (frameSentence f p (.node w i ty cs)).2.length = (nounLeaves p (.node w i ty cs)).length := by
    unfold frameSentence; rw [h6, h7]; simp
  refine ⟨⟨h1, ?_, ?_, ?_⟩, hl, ?_⟩
  · rw [hl]; exact h2.trans h5
  · rw [hl]; exact h3.trans (h4.symm.trans h5)
  · intro q hq
    have := (List.of_mem_zip hq).2
    rw [h6] at this
    obtain ⟨l, _, e⟩ := List.mem_map.1 this
    rw [← e]; exact ⟨rfl, rfl⟩
  · unfold frameSentence
    rw [List.map_fst_zip (by rw [h6, h7]; simp), h7, List.map_map]; rfl

/-- C89: a text of trees whose roots have type s or n, the first with a noun that is not pruned, has a circuit of frames: a state on one noun wire for each
distinct identity of the unpruned noun leaves of its trees. -/
theorem C89_frames_text {α : Type} [DecidableEq α] (ts : List (PTree × List Nat × (Nat → α)))
    (ht : ∀ t ∈ ts, t.1.typ = [⟨"s", 0⟩] ∨ t.1.typ = [noun]) (h0 : ∀ t ∈ ts.head?, nounLeaves t.2.1 t.1 ≠ []) :
    ∃ c : FD, assemble (ts.map (fun t => frameSentence t.2.2 t.2.1 t.1)) = .ok c ∧ c.WT ∧ c.dom = [] ∧
      c.cod = nouns (ts.flatMap (fun t => (nounLeaves t.2.1 t.1).map (fun l => t.2.2 l.1))).toFinset.card := by
  obtain ⟨c, c1, c2, c3, c4, _⟩ := C88_text exI exI_swaps exI_spiders (ts.map (fun t => frameSentence t.2.2 t.2.1 t.1)) (by
    intro s hs
    obtain ⟨t, h, rfl⟩ := List.mem_map.1 hs
    exact (frameSentence_ok t.2.2 t.2.1 t.1 (ht t h)).1) (by
    intro s hs
    rw [List.head?_map] at hs
    obtain ⟨t, h, rfl⟩ := Option.map_eq_some_iff.1 hs
    have hm : t ∈ ts := List.mem_of_head? h
    have hl := (frameSentence_ok t.2.2 t.2.1 t.1 (ht t hm)).2.1
    intro e
    rw [e] at hl
    exact h0 t h (List.length_eq_zero_iff.1 hl.symm))
  refine ⟨c, c1, c2, c3, ?_⟩
  rw [c4]
  have e : (ts.map (fun t => frameSentence t.2.2 t.2.1 t.1)).flatMap (fun s => s.2.map Prod.fst) =
      ts.flatMap (fun t => (nounLeaves t.2.1 t.1).map (fun l => t.2.2 l.1)) := by
    rw [List.flatMap_map]
    refine List.flatMap_congr (fun t h => ?_)
    exact (frameSentence_ok t.2.2 t.2.1 t.1 (ht t h)).2.2
  rw [e]
  congr 1
  have hn := entities_nodup ([] : List α) (ts.flatMap (fun t => (nounLeaves t.2.1 t.1).map (fun l => t.2.2 l.1))) List.nodup_nil
  rw [← List.toFinset_card_of_nodup hn]
  congr 1
  ext a
  rw [List.mem_toFinset, List.mem_toFinset, mem_entities]
  simp

example : ∃ c : FD, assemble ([(exTree, [], fun i => (0, i)), (exTree, [0], fun i => (1, i))].map (fun t => frameSentence t.2.2 t.2.1 t.1)) = .ok c ∧ c.cod = nouns 5 := by
  obtain ⟨c, h1, _, _, h4⟩ := C89_frames_text (α := Nat × Nat) [(exTree, [], fun i => (0, i)), (exTree, [0], fun i => (1, i))]
    (by intro t ht; simp only [List.mem_cons, List.not_mem_nil, or_false] at ht; rcases ht with rfl | rfl <;> exact .inl rfl)
    (by simp [exTree, nounLeaves, nounLeavess])
  exact ⟨c, h1, h4.trans (by decide +kernel)⟩

/-! ## Sandwiches -/

/-- C89: every tree has a diagram of sandwiches, with one noun wire, in and out, for each of its distinct keys. -/
theorem C89_sandwich (p : List Nat) (lab : Bool) (prev : Option Nat) (t : PTree) : ∃ d boxes keys cursor, sandwich p lab prev t = .ok (d, boxes, keys, cursor) ∧
    d.WT ∧ d.dom = nouns keys.length ∧ d.cod = nouns keys.length ∧ boxes.length = keys.length ∧ keys.Nodup ∧ ∀ b ∈ boxes, b.dom = [] ∧ b.cod = [noun] := by
  obtain ⟨r, h, h1, h2, h3, h4, h5, h6⟩ := sandwich_ok p lab t prev
  exact ⟨r.1, r.2.1, r.2.2.1, r.2.2.2, h, h1, h2, h3, h4, h6, h5⟩

/-- C89: the keys of a whole tree are the indices of its unpruned noun leaves, each with the box of a leaf of that index, and possibly `None` with an anonymous box. -/
theorem C89_sandwich_nouns (p : List Nat) (lab : Bool) (t : PTree) (d : FD) (boxes : List FBox) (keys : List (Option Nat)) (cursor : Option Nat)
    (h : sandwich p lab none t = .ok (d, boxes, keys, cursor)) : (∀ l ∈ nounLeaves p t, some l.1 ∈ keys) ∧
      ∀ e ∈ keys.zip boxes, (e.1 = none ∧ e.2 = nounBox "") ∨ ∃ l ∈ nounLeaves p t, e.1 = some l.1 ∧ e.2 = nounBox l.2 := by
  have := sandwich_nouns p lab t none _ h
  exact ⟨this.all, this.only⟩

theorem sandwichKids_prefix (p : List Nat) (lab : Bool) : ∀ (cs : List PTree) (s s' : Kids), KOk s → sandwichKids p lab s cs = .ok s' → s.n2w <+: s'.n2w
  | [], s, s', _, h => by
      rw [sandwichKids] at h
      obtain rfl : s = s' := by simpa using h
      exact List.prefix_rfl
  | c :: cs, s, s', hs, h => by
      obtain ⟨r, r1, r2⟩ := sandwich_ok p lab c s.cursor
      obtain ⟨s1, e1, e2, e3, _⟩ := addKid_ok c.typ hs r2
      rw [sandwichKids, r1] at h
      dsimp only at h
      rw [e1] at h
      obtain ⟨new, hn⟩ := entities_prefix s.n2w r.2.2.1
      have h1 : s.n2w <+: s1.n2w := ⟨new, (e3.trans hn).symm⟩
      exact h1.trans (sandwichKids_prefix p lab cs s1 s' e2 h)

/-- C89: the box of a word that takes a noun as an argument has as its first wire that of the noun seen before it (an anonymous noun, if there is none and no noun is
pruned). -/
theorem C89_free_wire (p : List Nat) (lab : Bool) (prev : Option Nat) (w : String) (i : Nat) (t : Ty) (cs : List PTree)
    (ht : (⟨"n", -1⟩ : Ob) ∈ t ∨ (⟨"n", 1⟩ : Ob) ∈ t) (hp : prev ≠ none ∨ p = []) (d : FD) (boxes : List FBox) (keys : List (Option Nat)) (cursor : Option Nat)
    (h : sandwich p lab prev (.node w i t cs) = .ok (d, boxes, keys, cursor)) : keys.head? = some prev := by
  have hl : ¬ (t = [noun] ∧ cs = []) := by
    rintro ⟨rfl, _⟩
    rcases ht with ht | ht <;> exact absurd ht (by decide)
  rw [sandwich, if_neg hl] at h
  obtain ⟨s, s1, s2⟩ := sandwichKids_ok p lab cs _ (startKids_ok p prev t)
  have hpre := sandwichKids_prefix p lab cs _ s (startKids_ok p prev t) s1
  rw [s1] at h
  dsimp only at h
  have hst : (startKids p prev t).n2w = [prev] := by unfold startKids; rw [if_pos ⟨ht, hp⟩]
  obtain ⟨rest, hr⟩ := hpre
  rw [hst] at hr
  have hk : keys = s.n2w := by
    unfold closeNode at h
    dsimp only at h
    rw [if_neg (by rw [← hr]; simp)] at h
    split at h
    · simp at h
    · simp only [Except.ok.injEq, Prod.mk.injEq] at h
      exact h.2.2.1.symm
  rw [hk, ← hr]
  rfl

example : (sandwich [] true none (.node "runs" 0 [⟨"n", 1⟩, ⟨"s", 0⟩] [])).toOption.map (fun r => r.2.2.1) = some [none] := by decide +kernel

/-- C89, refuted in general: with a pruned noun and none seen before, a word that takes a noun goes altogether. -/
theorem C89_refuted_free_word : (sandwich [5] true none (.node "runs" 0 [⟨"n", 1⟩, ⟨"s", 0⟩] [])).toOption.map (fun r => (r.2.2.1, r.1.layers.length)) = some ([], 0) := by
  decide +kernel

/-- C89: whenever swaps exchange wires, the map of the sandwich of a node is that of its box, then for the children in order the map of the child on the wires of its
keys, the other wires untouched, followed by a box of the node; children are left out only if their map on these wires is the identity. -/
theorem C89_sandwich_map {R : Type} [CommSemiring R] (I : Interp Ob FBox R) (hS : I.Swaps) (p : List Nat) (lab : Bool) (prev : Option Nat) (w : String) (i : Nat)
    (t : Ty) (cs : List PTree) (hn : ¬ (t = [noun] ∧ cs = [])) (d : FD) (boxes : List FBox) (keys : List (Option Nat)) (cursor : Option Nat)
    (h : sandwich p lab prev (.node w i t cs) = .ok (d, boxes, keys, cursor)) (hk : keys ≠ []) :
    ∃ kids shown : List (List (Option Nat) × FD),
      List.Forall₂ (fun t kid => ∃ prev boxes cursor, sandwich p lab prev t = .ok (kid.2, boxes, kid.1, cursor)) cs kids ∧
      shown.Sublist kids ∧
      (∀ kid ∈ kids, (∀ a ∈ kid.1, a ∈ keys) ∧ (kid ∈ shown ∨ ∀ z ∈ I.idx (nouns keys.length), ∀ y ∈ I.idx (nouns keys.length),
        onlyOn keys.length (kid.1.map (fun a => wireOf keys a)) (I.mat kid.2) z y = if y = z then 1 else 0)) ∧
      ∀ x ∈ I.idx (nouns keys.length), ∀ y ∈ I.idx (nouns keys.length), I.mat d x y = sliceMap I w lab keys.length 0
        (fun x y => I.ten (.base (.gen (w ++ (if lab && !shown.isEmpty then "$_{top}$" else "")) (nouns keys.length) (nouns keys.length) 0)) x y)
        (shown.map (fun kid => (kid.1.map (fun a => wireOf keys a), kid.2))) x y :=
  sandwich_map hS p lab prev w i t cs hn h hk

example : (sandwich [] true none exTree).toOption.map (fun r => (r.2.2.1, r.1.layers.map (fun l => FBox.names l.box))) =
    some ([some 0, some 3, some 5], [["loves$_{top}$"], ["really"], ["loves$_{1}$"], ["man"], ["loves$_{bottom}$"]]) := by
  decide +kernel

/-- A sentence of the text made of a sandwich. -/
def sandwichSentence {α : Type} (f : Option Nat → α) (p : List Nat) (lab : Bool) (t : PTree) : Except PyErr (Sentence α) :=
  match sandwich p lab none t with
  | .error e => .error e
  | .ok r => .ok (r.1, (r.2.2.1.map f).zip r.2.1)

/-- C89: the diagram of sandwiches of any tree can be used in a circuit: no condition on the type of the root. -/
theorem C89_sandwich_sentence {α : Type} (f : Option Nat → α) (p : List Nat) (lab : Bool) (t : PTree) :
    ∃ s, sandwichSentence f p lab t = .ok s ∧ s.Ok ∧ ∀ l ∈ nounLeaves p t, f (some l.1) ∈ s.2.map Prod.fst := by
  obtain ⟨r, h, h1, h2, h3, h4, h5, h6⟩ := sandwich_ok p lab t none
  have hn := sandwich_nouns p lab t none r h
  have hl : ((r.2.2.1.map f).zip r.2.1).length = r.2.2.1.length := by rw [List.length_zip, List.length_map, h4, Nat.min_self]
  refine ⟨(r.1, (r.2.2.1.map f).zip r.2.1), by rw [sandwichSentence, h], ⟨h1, ?_, ?_, ?_⟩, ?_⟩
  · show r.1.dom = nouns ((r.2.2.1.map f).zip r.2.1).length
    rw [hl]; exact h2
  · show r.1.cod = nouns ((r.2.2.1.map f).zip r.2.1).length
    rw [hl]; exact h3
  · intro q hq
    exact h5 _ (List.of_mem_zip hq).2
  · intro l hl'
    show f (some l.1) ∈ ((r.2.2.1.map f).zip r.2.1).map Prod.fst
    rw [List.map_fst_zip (by rw [List.length_map, h4])]
    exact List.mem_map.2 ⟨_, hn.all l hl', rfl⟩

/-- C89, refuted for frames: a root of another type gives a diagram that does not fit its nouns. -/
theorem C89_refuted_free_wire : let t : PTree := .node "see" 1 [⟨"n", 1⟩, ⟨"s", 0⟩] [.node "Bob" 2 [noun] []]
    assemble [frameSentence (fun i => i) [] t] = .error .valueError := by
  rfl

end Disco
end Lambeq
