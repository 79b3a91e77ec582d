import Verif.Text.DiagramTreeInverse
import Verif.Text.PregroupTreeTheorems

/-!
# `diagram2tree` inverts `tree2diagram` (C102)
-/

namespace Lambeq
namespace DTree
open Diagram GDiagram PTree
set_option linter.unusedSimpArgs false
set_option linter.unusedVariables false

/-! ## The trace of cups -/

theorem joins_perm {live rest : List Nat} {cups : List (Nat × Nat)} {spots : List (List Nat × List Nat)} (h : Joins live cups spots rest) : live.Perm (ends cups ++ rest) := by
  induction h with
  | nil => simp [ends]
  | @cons A B cups spots rest s e h ih =>
    have e1 : ends ((s, e) :: cups) = s :: e :: ends cups := by simp [ends]
    rw [e1]
    refine (List.perm_middle (a := s) (l₁ := A) (l₂ := e :: B)).trans (List.Perm.cons s ?_)
    exact (List.perm_middle (a := e) (l₁ := A) (l₂ := B)).trans (List.Perm.cons e ih)

theorem joins_sublist {live rest : List Nat} {cups : List (Nat × Nat)} {spots : List (List Nat × List Nat)} (h : Joins live cups spots rest) : rest.Sublist live := by
  induction h with
  | nil => exact List.Sublist.refl _
  | @cons A B cups spots rest s e h ih =>
    refine ih.trans (List.Sublist.append (List.Sublist.refl _) ?_)
    exact ((List.Sublist.refl B).cons e).cons s

theorem joins_nil {live rest : List Nat} {spots : List (List Nat × List Nat)} (h : Joins live [] spots rest) : rest = live := by
  cases h; rfl

theorem joins_ne {live rest : List Nat} {cups : List (Nat × Nat)} {spots : List (List Nat × List Nat)} (h : Joins live cups spots rest) (hc : cups ≠ []) : live ≠ [] := by
  cases h
  · exact absurd rfl hc
  · simp

theorem trace_cups {live rest : List Nat} {cups : List (Nat × Nat)} {spots : List (List Nat × List Nat)} (h : Joins live cups spots rest) :
    ∀ (ls : List GLayer) (types : Ty) (li : Nat) (s : Trace), List.Forall₂ (fun (p : (Nat × Nat) × (List Nat × List Nat)) l => cupLayer types p.2 p.1 l) (cups.zip spots) ls → s.wires = live → cups ≠ [] →
      trace li ls s = .ok { s with live := rest, joins := s.joins ++ cups.map (fun c => (true, c)) } := by
  induction h with
  | nil => intro ls types li s hf hw hc; exact absurd rfl hc
  | @cons A B cups spots rest a b h ih =>
    intro ls types li s hf hw _
    rw [List.zip_cons_cons] at hf
    cases hf with
    | @cons _ l _ ls h1 h2 =>
      obtain ⟨x, y, _, _, hb, hl, hr⟩ := h1
      have hl : l.left.length = A.length := by simpa using congrArg List.length hl
      have hr : l.right.length = B.length := by simpa using congrArg List.length hr
      have hs : s.step li l = .ok { s with live := A ++ B, joins := s.joins ++ [(true, a, b)] } := by
        simp [Trace.step, hb, Trace.join, hl, hr, hw, cut_eq]
      simp only [trace, hs]
      by_cases hcn : cups = []
      · subst hcn
        simp only [List.zip_nil_left] at h2
        cases h2
        have := joins_nil h
        simp [trace, this]
      · rw [ih ls types (li + 1) _ h2 (by simp only [Trace.wires]; rw [if_neg (joins_ne h hcn)]) hcn]
        simp

theorem owners_tags {tokens : List String} {W : List (List Comp)} {wl : List GLayer} (h : List.Forall₂ WordLayer ((tokens.zip W).map (fun p => (p.1, compsTy p.2, (0 : Int)))) wl)
    (hl : W.length = tokens.length) (n : Nat) : ((wl.zipIdx n).map (fun x => List.replicate x.1.box.cod.length (name x.1.box, x.2))).flatten = (tags n W).map (fun t => (tokens.getD (t.1 - n) "", t.1)) ∧
      (wl.map (fun l => l.box.cod)).flatten = tyAll W ∧ (∀ l ∈ wl, isWord l.box = true) := by
  induction W generalizing tokens wl n with
  | nil =>
    have : tokens = [] := by simpa using hl.symm
    subst this
    cases h
    simp [tags, tyAll]
  | cons w W ih =>
    obtain _ | ⟨x, tokens⟩ := tokens
    · simp at hl
    · rw [List.zip_cons_cons, List.map_cons] at h
      cases h with
      | @cons _ l _ wl h1 h2 =>
        obtain ⟨i1, i2, i3⟩ := ih h2 (by simpa using hl) (n + 1)
        simp only [WordLayer] at h1
        refine ⟨?_, ?_, ?_⟩
        · rw [List.zipIdx_cons, List.map_cons, List.flatten_cons, i1, tags, List.map_append]
          congr 1
          · rw [h1.1, Box.cod, name, ← length_tagsW n w]
            refine (List.eq_replicate_iff.2 ⟨by simp, ?_⟩).symm
            intro b hb
            obtain ⟨t, ht, rfl⟩ := List.mem_map.1 hb
            obtain ⟨k, hk⟩ := List.getElem?_of_mem ht
            have := (tagsW_get hk).1
            simp [this]
          · refine List.map_congr_left ?_
            intro t ht
            obtain ⟨k, hk⟩ := List.getElem?_of_mem ht
            have := (tags_get hk).1
            rw [show t.1 - n = (t.1 - (n + 1)) + 1 by omega]
            simp
        · rw [List.map_cons, List.flatten_cons, i2, h1.1]
          simp [tyAll, Box.cod]
        · intro l' hl'
          rcases List.mem_cons.1 hl' with rfl | hl'
          · rw [h1.1]; rfl
          · exact i3 l' hl'

/-! ## Blocks of wires -/

theorem block {n : Nat} {W : List (List Comp)} {k : Nat} {w : List Comp} (hk : W[k]? = some w) {o : Int} {ty : Ty} (ho : (o, ty) ∈ w) :
    ∃ a, ∀ j, j < ty.length → (tags n W)[a + j]? = some (n + k, o, j) ∧ (tyAll W)[a + j]? = ty[j]? := by
  induction W generalizing n k with
  | nil => simp at hk
  | cons v W ih =>
    cases k with
    | zero =>
      simp at hk
      subst hk
      have : ∃ a, ∀ j, j < ty.length → (tagsW n v)[a + j]? = some (n, o, j) ∧ (compsTy v)[a + j]? = ty[j]? := by
        clear ih
        induction v with
        | nil => simp at ho
        | cons e v ihv =>
          have hl : (tagC n e).length = e.2.length := by simp [tagC]
          rcases List.mem_cons.1 ho with rfl | ho
          · refine ⟨0, ?_⟩
            intro j hj
            simp only [tagsW, compsTy, List.flatMap_cons, List.map_cons, List.flatten_cons, List.getElem?_append, hl, Nat.zero_add, hj, if_true, and_true]
            exact (tagC_get ..).2 ⟨hj, rfl⟩
          · obtain ⟨a, ha⟩ := ihv ho
            refine ⟨e.2.length + a, ?_⟩
            intro j hj
            have := ha j hj
            simp only [tagsW, compsTy, List.flatMap_cons, List.map_cons, List.flatten_cons, List.getElem?_append, hl] at this ⊢
            rw [if_neg (by omega), if_neg (by omega), show e.2.length + a + j - e.2.length = a + j by omega]
            exact this
      obtain ⟨a, ha⟩ := this
      refine ⟨a, ?_⟩
      intro j hj
      obtain ⟨h1, h2⟩ := ha j hj
      have hlt := (List.getElem?_eq_some_iff.1 h1).1
      have hlt' : a + j < (compsTy v).length := by rw [← length_tagsW n]; exact hlt
      simp only [tags, tyAll, List.map_cons, List.flatten_cons]
      rw [List.getElem?_append_left hlt, List.getElem?_append_left hlt']
      exact ⟨h1, h2⟩
    | succ k =>
      obtain ⟨a, ha⟩ := ih (n := n + 1) (k := k) (by simpa using hk)
      refine ⟨(compsTy v).length + a, ?_⟩
      intro j hj
      obtain ⟨h1, h2⟩ := ha j hj
      simp only [tags, tyAll, List.map_cons, List.flatten_cons, List.getElem?_append, length_tagsW] at h2 ⊢
      rw [if_neg (by omega), if_neg (by omega), show (compsTy v).length + a + j - (compsTy v).length = a + j by omega]
      refine ⟨?_, h2⟩
      rw [h1, show n + (k + 1) = n + 1 + k by omega]

/-- An increasing list with the members `a`, ..., `a + n - 1`. -/
theorem eq_block {l : List Nat} (hs : l.Pairwise (· < ·)) {a n : Nat} (h : ∀ i, i ∈ l ↔ ∃ j, j < n ∧ i = a + j) : l = (List.range n).map (fun j => a + j) := by
  have h2 : ((List.range n).map (fun j => a + j)).Pairwise (· < ·) := by
    rw [List.pairwise_map]
    exact List.pairwise_lt_range.imp (by omega)
  refine List.Perm.eq_of_pairwise (le := (· < ·)) (fun x y _ _ h1 h2 => absurd h1 (by omega)) hs h2 ((List.perm_ext_iff_of_nodup (hs.imp (fun h => by omega)) (h2.imp (fun h => by omega))).2 ?_)
  intro i
  rw [h, List.mem_map]
  simp only [List.mem_range]
  constructor
  · rintro ⟨j, hj, rfl⟩; exact ⟨j, hj, rfl⟩
  · rintro ⟨j, hj, rfl⟩; exact ⟨j, hj, rfl⟩

theorem filterMap_filter_isSome {α β : Type} (f : α → Option β) (l : List α) : l.filterMap f = (l.filter (fun x => (f x).isSome)).filterMap f := by
  induction l with
  | nil => rfl
  | cons x l ih =>
    cases h : f x with
    | none => simp [h, ih]
    | some y => simp [h, ih]

/-- The tree that the cups follow is built. -/
theorem build_follows {w : Wiring} {cups : List (Nat × Nat)} (hg : Good w cups) {t : PTree} (hF : Follows w cups t)
    (hc : ∀ c ∈ cups, w.owner c.1 ∈ keys t ∨ w.owner c.2 ∈ keys t → w.owner c.1 ∈ keys t ∧ w.owner c.2 ∈ keys t) (hne : w.free ≠ []) (hr : ∀ i ∈ w.free, w.owner i = key t)
    (hty : w.free.map w.type = t.typ) : ∃ r, w.build cups = .ok r ∧ SameTree t r.1 := by
  have hroot : w.root = (key t, t.typ) := by
    obtain ⟨a, l, e⟩ := List.exists_cons_of_ne_nil hne
    have h1 : w.owner (w.free.headD 0) = key t := by rw [e]; exact hr a (by rw [e]; simp)
    unfold Wiring.root
    rw [h1, ← hty]
    rw [List.filter_eq_self.2]
    intro i hi
    exact decide_eq_true (hr i hi)
  have hb := grow_built hg t (cups.length + 1) cups hF (List.Sublist.refl _) (by omega) ⟨fun c h _ _ => h, hc⟩
  refine ⟨_, ?_, hb.1⟩
  unfold Wiring.build
  rw [if_neg, hroot]
  rw [hroot]
  simp only [List.any_eq_true, decide_eq_true_eq, not_exists, not_and, not_not]
  exact hr

/-- **C102 (the tree of the cups).** Let `t` be a tree with different words as nodes, such that in the well-typed pregroup diagram `d` every cup at one of its words joins a word with one of its children; for every
child there are cups, all on the same side of the word above, and their wires at the child, from the last to the first wire of the word above, have the type of the child; the outputs are at the root, and
their types are the type of the root. Then `diagram2tree` returns `t`, up to the order of children. -/
theorem C102_follows (d : GDiagram) (wl ls : List GLayer) (s : Trace) (ht : Traced d wl ls s) (hls : ls ≠ []) (t : PTree) (hF : Follows s.wiring s.cups t)
    (hc : ∀ c ∈ s.cups, s.wiring.owner c.1 ∈ keys t ∨ s.wiring.owner c.2 ∈ keys t → s.wiring.owner c.1 ∈ keys t ∧ s.wiring.owner c.2 ∈ keys t) (hne : d.cod ≠ [])
    (hr : ∀ i ∈ s.live, s.wiring.owner i = key t) (hty : t.typ = d.cod) : ∃ t', diagram2tree d = .ok t' ∧ SameTree t t' := by
  have hj : s.joins ≠ [] := by
    intro e
    have := ht.count
    rw [e] at this
    exact hls (List.length_eq_zero_iff.1 this.symm)
  have hlc := (ht.live hls).1
  obtain ⟨r, h1, h2⟩ := build_follows ht.good hF hc (by
    intro e
    have e : s.live = [] := e
    rw [e] at hlc
    simp at hlc
    exact hne hlc) hr (by
    have hd : (d.cod.map some).map (fun o => o.getD ⟨"", 0⟩) = d.cod := by simp
    rw [hty, ← hd, hlc, List.map_map]
    rfl)
  refine ⟨r.1, ?_, h2⟩
  unfold diagram2tree
  simp only [ht.trace, if_neg hj, h1]

/-! ## The round trip -/

theorem tags_owner {tokens : List String} {W : List (List Comp)} {w : Wiring} (ho : w.owners = (tags 0 W).map (fun t => (tokens.getD t.1 "", t.1))) {p : Nat} {t : Tag} (h : (tags 0 W)[p]? = some t) :
    w.owner p = (tokens.getD t.1 "", t.1) := by
  simp [Wiring.owner, ho, List.getD_eq_getElem?_getD, h]

theorem tags_total {W : List (List Comp)} {p : Nat} (h : p < (tyAll W).length) : ∃ t, (tags 0 W)[p]? = some t := by
  rw [← length_tags 0] at h
  exact ⟨_, List.getElem?_eq_getElem h⟩

/-- What C86 says about the cups. -/
def CupsOf (root : PTree) (W : List (List Comp)) (cups : List (Nat × Nat)) : Prop :=
  ∀ c, c ∈ cups ↔ ∃ s ∈ root.subs, ∃ ch ∈ s.children, ∃ j, j < ch.typ.length ∧
        (tags 0 W)[c.1]? = some (min ch.ind s.ind, (max ch.ind s.ind : Int), ch.typ.length - 1 - j) ∧
        (tags 0 W)[c.2]? = some (max ch.ind s.ind, (min ch.ind s.ind : Int), j)

theorem follows_tree {root : PTree} {tokens : List String} {W : List (List Comp)} {w : Wiring} {cups : List (Nat × Nat)} (S : Setup root W) (hg : Good w cups) (hC : CupsOf root W cups)
    (ho : w.owners = (tags 0 W).map (fun t => (tokens.getD t.1 "", t.1))) (ht : w.types = tyAll W) (hword : ∀ s ∈ root.subs, tokens[s.ind]? = some s.word) (hne : ∀ s ∈ root.subs, s.typ ≠ []) :
    Follows w cups root := by
  have hkey : ∀ s ∈ root.subs, (tokens.getD s.ind "", s.ind) = key s := by
    intro s hs
    simp [key, List.getD_eq_getElem?_getD, hword s hs]
  have hchild : ∀ s ∈ root.subs, ∀ ch ∈ s.children, ch ∈ root.subs := by
    intro s hs ch hch
    obtain ⟨p, hp⟩ := withParents_exists root (-1) s hs
    obtain ⟨h1, h2, h3, h4, h5⟩ := withParents_spec root (-1) S.proj (parOutside_root root) _ hp
    have := h5 ch hch
    exact (withParents_spec root (-1) S.proj (parOutside_root root) _ this).2.2.1
  have hind : ∀ s ∈ root.subs, ∀ ch ∈ s.children, ch.ind ≠ s.ind := by
    intro s hs ch hch
    rcases (S.proj s hs).1 ch hch with h | h <;> have := h _ (ind_mem_inds ch) <;> omega
  have hcup : ∀ c ∈ cups, ∃ s ∈ root.subs, ∃ ch ∈ s.children, Between w (key s) (key ch) c := by
    intro c hc
    obtain ⟨s, hs, ch, hch, j, hj, e1, e2⟩ := (hC c).1 hc
    refine ⟨s, hs, ch, hch, ?_⟩
    have o1 := tags_owner ho e1
    have o2 := tags_owner ho e2
    simp only at o1 o2
    unfold Between
    rcases Nat.lt_or_gt_of_ne (hind s hs ch hch) with h | h
    · rw [Nat.min_eq_left (by omega), hkey ch (hchild s hs ch hch)] at o1
      rw [Nat.max_eq_right (by omega), hkey s hs] at o2
      exact .inr ⟨o2, o1⟩
    · rw [Nat.min_eq_right (by omega), hkey s hs] at o1
      rw [Nat.max_eq_left (by omega), hkey ch (hchild s hs ch hch)] at o2
      exact .inl ⟨o1, o2⟩
  have hord : ∀ c ∈ cups, (w.owner c.1).2 < (w.owner c.2).2 := by
    intro c hc
    obtain ⟨s, hs, ch, hch, j, hj, e1, e2⟩ := (hC c).1 hc
    rw [tags_owner ho e1, tags_owner ho e2]
    have := hind s hs ch hch
    simp only
    omega
  refine ⟨?_, fun c hc _ _ => hcup c hc, ?_, ?_⟩
  · have : (keys root).map Prod.snd = root.inds := by simp [keys, inds, List.map_map, Function.comp_def]
    exact List.Nodup.of_map Prod.snd (by rw [this]; exact nodup_inds root S.proj)
  · intro s hs ch hch
    have hne' := hne ch (hchild s hs ch hch)
    refine ⟨?_, hne'⟩
    have hdi := hind s hs ch hch
    obtain ⟨wc, wp, g1, g2, g3, g4⟩ := S.edge hs hch
    obtain ⟨b, hb⟩ := block (n := 0) g1 g2
    obtain ⟨a, ha⟩ := block (n := 0) g3 g4
    have hl : (if ch.ind < s.ind then ch.typ.r else ch.typ.l).length = ch.typ.length := by
      split <;> simp [Ty.r, Ty.l]
    rw [hl] at ha
    simp only [Nat.zero_add] at ha hb
    have hmem : ∀ j, j < ch.typ.length → mate cups (a + j) = some (b + (ch.typ.length - 1 - j)) := by
      intro j hj
      have hj' : ch.typ.length - 1 - j < ch.typ.length := by omega
      by_cases hlt : ch.ind < s.ind
      · have hc : (b + (ch.typ.length - 1 - j), a + j) ∈ cups := (hC _).2 ⟨s, hs, ch, hch, j, hj, by
          rw [Nat.min_eq_left (by omega), max_eq_right (by omega)]; exact (hb _ hj').1, by
          rw [Nat.max_eq_right (by omega), min_eq_left (by omega)]; exact (ha _ hj).1⟩
        exact mate_use hg.nodup (u := ⟨false, _⟩) hc
      · have hc : (a + j, b + (ch.typ.length - 1 - j)) ∈ cups := (hC _).2 ⟨s, hs, ch, hch, ch.typ.length - 1 - j, hj', by
          rw [Nat.min_eq_right (by omega), max_eq_left (by omega), show ch.typ.length - 1 - (ch.typ.length - 1 - j) = j by omega]; exact (ha _ hj).1, by
          rw [Nat.max_eq_left (by omega), min_eq_right (by omega)]; exact (hb _ hj').1⟩
        exact mate_use hg.nodup (u := ⟨true, _⟩) hc
    have hown : ∀ j, j < ch.typ.length → w.owner (b + j) = key ch := by
      intro j hj
      rw [tags_owner ho (hb j hj).1]
      exact hkey ch (hchild s hs ch hch)
    have hpos : ∀ i m, (tags 0 W)[i]? = some (s.ind, (ch.ind : Int), m) → ∃ j, j < ch.typ.length ∧ i = a + j := by
      intro i m hi
      obtain ⟨_, w', t', q1, q2, q3, _⟩ := tags_get hi
      simp only [Nat.sub_zero] at q1 q2 q3
      rw [g3] at q1
      cases q1
      have := comp_unique (S.keys_nodup _ (List.mem_of_getElem? g3)) q2 g4
      rw [this, hl] at q3
      exact ⟨m, q3, tag_inj S.keys_nodup hi (ha m q3).1⟩
    have hfil : (indices w.owners (key s)).filter (fun i => ((mate cups i).filter (fun j => decide (w.owner j = key ch))).isSome) = (List.range ch.typ.length).map (fun j => a + j) := by
      refine eq_block ((List.pairwise_lt_range.filter _).filter _) ?_
      intro i
      have hmi : i ∈ List.filter (fun i => decide (w.owners[i]? = some (key s))) (List.range w.owners.length) ↔ w.owners[i]? = some (key s) := mem_indices
      rw [List.mem_filter, hmi]
      constructor
      · rintro ⟨h1, h2⟩
        obtain ⟨x, hx⟩ := Option.isSome_iff_exists.1 h2
        obtain ⟨h3, h4⟩ := Option.filter_eq_some_iff.1 hx
        simp only [decide_eq_true_eq] at h4
        have h1 : w.owner i = key s := owner_eq h1
        obtain ⟨c, hc, hcc⟩ := mate_some h3
        obtain ⟨s', hs', ch', hch', j, hj, e1, e2⟩ := (hC c).1 hc
        have o1 := tags_owner ho e1
        have o2 := tags_owner ho e2
        have hdi' := hind s' hs' ch' hch'
        have hk : W[s.ind]? = some wp := g3
        rcases hcc with ⟨rfl, rfl⟩ | ⟨rfl, rfl⟩
        · rw [h1] at o1; rw [h4] at o2
          have q1 := congrArg Prod.snd o1; have q2 := congrArg Prod.snd o2
          simp only [key] at q1 q2
          have e1' : (tags 0 W)[c.1]? = some (s.ind, (ch.ind : Int), ch'.typ.length - 1 - j) := by
            rw [e1, q1, q2, show ((max ch'.ind s'.ind : Nat) : Int) = max (ch'.ind : Int) s'.ind by omega]
          exact hpos _ _ e1'
        · rw [h1] at o2; rw [h4] at o1
          have q1 := congrArg Prod.snd o1; have q2 := congrArg Prod.snd o2
          simp only [key] at q1 q2
          have e2' : (tags 0 W)[c.2]? = some (s.ind, (ch.ind : Int), j) := by
            rw [e2, q1, q2, show ((min ch'.ind s'.ind : Nat) : Int) = min (ch'.ind : Int) s'.ind by omega]
          exact hpos _ _ e2'
      · rintro ⟨j, hj, rfl⟩
        refine ⟨?_, ?_⟩
        · rw [ho, List.getElem?_map, (ha j hj).1]
          simp only [Option.map_some]
          rw [hkey s hs]
        · rw [hmem j hj]
          simp [hown _ (show ch.typ.length - 1 - j < ch.typ.length by omega)]
    unfold mates
    rw [List.filter_filterMap, filterMap_filter_isSome, hfil, List.filterMap_map]
    have : (List.range ch.typ.length).filterMap ((fun x => (mate cups x).filter (fun j => decide (w.owner j = key ch))) ∘ (fun j => a + j)) = (List.range ch.typ.length).map (fun j => b + (ch.typ.length - 1 - j)) := by
      rw [← List.filterMap_eq_map]
      refine List.filterMap_congr ?_
      intro j hj
      have hj := List.mem_range.1 hj
      simp only [Function.comp_apply, hmem j hj]
      simp [hown _ (show ch.typ.length - 1 - j < ch.typ.length by omega)]
    rw [this]
    refine List.ext_getElem? ?_
    intro k
    by_cases hk : k < ch.typ.length
    · rw [List.map_map, List.getElem?_map, List.getElem?_range hk, List.getElem?_reverse (by omega)]
      simp only [Option.map_some, Function.comp_apply, Wiring.type, ht]
      rw [List.getD_eq_getElem?_getD, (hb _ (show ch.typ.length - 1 - k < _ by omega)).2, List.getElem?_eq_getElem (by omega)]
      rfl
    · rw [List.getElem?_eq_none (by simp; omega), List.getElem?_eq_none (by simp; omega)]
  · intro s hs ch hch
    have hdi := hind s hs ch hch
    rcases Nat.lt_or_gt_of_ne hdi with h | h
    · right
      intro c hc hb
      have := hord c hc
      rcases hb with ⟨h1, h2⟩ | ⟨h1, h2⟩
      · rw [h1, h2] at this; simp only [key] at this; omega
      · exact h1
    · left
      intro c hc hb
      have := hord c hc
      rcases hb with ⟨h1, h2⟩ | ⟨h1, h2⟩
      · exact h1
      · rw [h1, h2] at this; simp only [key] at this; omega

/-- The wires of a word and of a child for each other are in cups. -/
theorem in_cup {root : PTree} {W : List (List Comp)} {cups : List (Nat × Nat)} (S : Setup root W) (hC : CupsOf root W cups) {s ch : PTree} (hs : s ∈ root.subs) (hch : ch ∈ s.children) {i m : Nat}
    (hi : (tags 0 W)[i]? = some (s.ind, (ch.ind : Int), m) ∨ (tags 0 W)[i]? = some (ch.ind, (s.ind : Int), m)) : i ∈ ends cups := by
  obtain ⟨wc, wp, g1, g2, g3, g4⟩ := S.edge hs hch
  obtain ⟨b, hb⟩ := block (n := 0) g1 g2
  obtain ⟨a, ha⟩ := block (n := 0) g3 g4
  have hl : (if ch.ind < s.ind then ch.typ.r else ch.typ.l).length = ch.typ.length := by
    split <;> simp [Ty.r, Ty.l]
  rw [hl] at ha
  simp only [Nat.zero_add] at ha hb
  have hdi : ch.ind ≠ s.ind := by
    rcases (S.proj s hs).1 ch hch with h | h <;> have := h _ (ind_mem_inds ch) <;> omega
  have hcup : ∀ j, j < ch.typ.length → a + j ∈ ends cups ∧ b + (ch.typ.length - 1 - j) ∈ ends cups := by
    intro j hj
    have hj' : ch.typ.length - 1 - j < ch.typ.length := by omega
    by_cases hlt : ch.ind < s.ind
    · have hc : (b + (ch.typ.length - 1 - j), a + j) ∈ cups := (hC _).2 ⟨s, hs, ch, hch, j, hj, by
        rw [Nat.min_eq_left (by omega), max_eq_right (by omega)]; exact (hb _ hj').1, by
        rw [Nat.max_eq_right (by omega), min_eq_left (by omega)]; exact (ha _ hj).1⟩
      exact ⟨mem_ends.2 ⟨_, hc, .inr rfl⟩, mem_ends.2 ⟨_, hc, .inl rfl⟩⟩
    · have hc : (a + j, b + (ch.typ.length - 1 - j)) ∈ cups := (hC _).2 ⟨s, hs, ch, hch, ch.typ.length - 1 - j, hj', by
        rw [Nat.min_eq_right (by omega), max_eq_left (by omega), show ch.typ.length - 1 - (ch.typ.length - 1 - j) = j by omega]; exact (ha _ hj).1, by
        rw [Nat.max_eq_left (by omega), min_eq_right (by omega)]; exact (hb _ hj').1⟩
      exact ⟨mem_ends.2 ⟨_, hc, .inl rfl⟩, mem_ends.2 ⟨_, hc, .inr rfl⟩⟩
  rcases hi with hi | hi
  · obtain ⟨_, w', t', q1, q2, q3, _⟩ := tags_get hi
    simp only [Nat.sub_zero] at q1 q2 q3
    rw [g3] at q1
    cases q1
    have := comp_unique (S.keys_nodup _ (List.mem_of_getElem? g3)) q2 g4
    rw [this, hl] at q3
    rw [tag_inj S.keys_nodup hi (ha m q3).1]
    exact (hcup m q3).1
  · obtain ⟨_, w', t', q1, q2, q3, _⟩ := tags_get hi
    simp only [Nat.sub_zero] at q1 q2 q3
    rw [g1] at q1
    cases q1
    have := comp_unique (S.keys_nodup _ (List.mem_of_getElem? g1)) q2 g2
    rw [this] at q3
    rw [tag_inj S.keys_nodup hi (hb m q3).1]
    have := (hcup (ch.typ.length - 1 - m) (by omega)).2
    rwa [show ch.typ.length - 1 - (ch.typ.length - 1 - m) = m by omega] at this

/-- **C102 (round trip).** Let the tree be projective, let the words of its nodes be the tokens at their indices, let no node have the empty type or the type of an auxiliary verb that `_fix_auxiliary_types`
looks for, and let the root have a child. Then `diagram2tree` returns the tree, up to the order of children, for the diagram that `tree2diagram` makes from it. Tokens outside of the tree change nothing. -/
theorem C102_round_trip (root : PTree) (tokens : List String) (hp : root.Projective) (hword : ∀ s ∈ root.subs, tokens[s.ind]? = some s.word) (haux : ∀ s ∈ root.subs, s.typ ≠ auxTy)
    (hne : ∀ s ∈ root.subs, s.typ ≠ []) (hch : root.children ≠ []) : ∃ d t, tree2diagram root tokens = .ok d ∧ diagram2tree d = .ok t ∧ SameTree root t := by
  have hlt : ∀ a ∈ root.inds, a < tokens.length := by
    intro a ha
    obtain ⟨s, hs, rfl⟩ := List.mem_map.1 ha
    exact (List.getElem?_eq_some_iff.1 (hword s hs)).1
  obtain ⟨W, d, cups, spots, rest, wl, ls, c1, c2, c3, c4, c5, c6, c7, c8, c9, c10, c11, c12⟩ := C86_tree2diagram_partial root tokens hp hlt haux
  have S : Setup root W := by
    refine ⟨hp, c2, ?_⟩
    intro k hk w hw
    have := c3 k hk (by rw [← c1]; exact (List.getElem?_eq_some_iff.1 hw).1)
    rw [hw] at this
    exact Option.some.inj this
  obtain ⟨o1, o2, o3⟩ := owners_tags c8 c1 0
  have hrs : root ∈ root.subs := by cases root; rw [subs_node]; simp
  have hcn : cups ≠ [] := by
    obtain ⟨ch, cs, e⟩ := List.exists_cons_of_ne_nil hch
    have hch : ch ∈ root.children := by rw [e]; simp
    obtain ⟨wc, wp, g1, g2, g3, g4⟩ := S.edge hrs hch
    have hcs : ch ∈ root.subs := by
      obtain ⟨p, hp'⟩ := withParents_exists root (-1) root hrs
      exact (withParents_spec root (-1) S.proj (parOutside_root root) _ ((withParents_spec root (-1) S.proj (parOutside_root root) _ hp').2.2.2.2 ch hch)).2.2.1
    have hpos : 0 < ch.typ.length := List.length_pos_iff.2 (hne ch hcs)
    obtain ⟨b, hb⟩ := block (n := 0) g1 g2
    obtain ⟨a, ha⟩ := block (n := 0) g3 g4
    have hl : (if ch.ind < root.ind then ch.typ.r else ch.typ.l).length = ch.typ.length := by
      split <;> simp [Ty.r, Ty.l]
    rw [hl] at ha
    simp only [Nat.zero_add] at ha hb
    have hdi : ch.ind ≠ root.ind := by
      rcases (S.proj root hrs).1 ch hch with h | h <;> have := h _ (ind_mem_inds ch) <;> omega
    intro e
    by_cases hlt : ch.ind < root.ind
    · have : (b + (ch.typ.length - 1 - 0), a + 0) ∈ cups := (c12 _).2 ⟨root, hrs, ch, hch, 0, hpos, by
        rw [Nat.min_eq_left (by omega), max_eq_right (by omega)]; exact (hb _ (by omega)).1, by
        rw [Nat.max_eq_right (by omega), min_eq_left (by omega)]; exact (ha _ hpos).1⟩
      rw [e] at this; simp at this
    · have : (a + (ch.typ.length - 1 - 0), b + 0) ∈ cups := (c12 _).2 ⟨root, hrs, ch, hch, 0, hpos, by
        rw [Nat.min_eq_right (by omega), max_eq_left (by omega)]; exact (ha _ (by omega)).1, by
        rw [Nat.max_eq_left (by omega), min_eq_right (by omega)]; exact (hb _ hpos).1⟩
      rw [e] at this; simp at this
  -- the trace
  have htr : trace 0 d.layers ⟨[], [], [], [], []⟩ = .ok ⟨(tags 0 W).map (fun t => (tokens.getD t.1 "", t.1)), tyAll W, rest, cups.map (fun c => (true, c)),
      (wl.zipIdx 0).map (fun x => (name x.1.box, x.1.box.cod, x.2))⟩ := by
    rw [c7, trace_append, trace_words wl o3]
    simp only [List.nil_append, o1, o2, Nat.sub_zero]
    rw [trace_cups c9 ls (tyAll W) _ _ c10 (by simp [Trace.wires]) hcn]
    simp
  generalize hs : (⟨(tags 0 W).map (fun t => (tokens.getD t.1 "", t.1)), tyAll W, rest, cups.map (fun c => (true, c)),
      (wl.zipIdx 0).map (fun x => (name x.1.box, x.1.box.cod, x.2))⟩ : Trace) = s at htr
  have hsc : s.cups = cups := by
    rw [← hs]
    simp only [Trace.cups]
    rw [List.filter_eq_self.2 (by intro x hx; obtain ⟨c, _, rfl⟩ := List.mem_map.1 hx; rfl), List.map_map]
    simp [Function.comp_def]
  have hso : s.wiring.owners = (tags 0 W).map (fun t => (tokens.getD t.1 "", t.1)) := by rw [← hs]; rfl
  have hst : s.wiring.types = tyAll W := by rw [← hs]; rfl
  have hsf : s.wiring.free = rest := by rw [← hs]; rfl
  have hsj : s.joins ≠ [] := by rw [← hs]; simpa using hcn
  have hperm := joins_perm c9
  have hnd : (ends cups ++ rest).Nodup := hperm.nodup_iff.1 List.nodup_range
  have hg : Good s.wiring cups := by
    refine ⟨(List.nodup_append.1 hnd).1, ?_, ?_⟩
    · intro i hi hf
      rw [hsf] at hf
      exact (List.nodup_append.1 hnd).2.2 i hi i hf rfl
    · intro i hi
      rw [hso, List.length_map, length_tags]
      exact List.mem_range.1 (hperm.mem_iff.2 (by simp [hi]))
  have hF := follows_tree S hg c12 hso hst hword hne
  have hkey : ∀ s ∈ root.subs, (tokens.getD s.ind "", s.ind) = key s := by
    intro s hs
    simp [key, List.getD_eq_getElem?_getD, hword s hs]
  -- the outputs
  have hrfull := c2 (-1, root) (by rw [withParents_eq]; simp)
  obtain ⟨a, ha⟩ := block (n := 0) hrfull (o := -1) (ty := root.typ) (by simp [fullComps])
  simp only [Nat.zero_add] at ha
  have hrest : ∀ i, i ∈ rest ↔ ∃ j, j < root.typ.length ∧ i = a + j := by
    intro i
    constructor
    · intro hi
      have hlt : i < (tyAll W).length := List.mem_range.1 (hperm.mem_iff.2 (by simp [hi]))
      have hni : i ∉ ends cups := fun h => (List.nodup_append.1 hnd).2.2 i h i hi rfl
      obtain ⟨t, ht⟩ := tags_total hlt
      obtain ⟨k, o, m⟩ := t
      obtain ⟨_, w', ty', q1, q2, q3, _⟩ := tags_get ht
      simp only [Nat.sub_zero] at q1 q2 q3
      by_cases hk : k ∈ root.inds
      · obtain ⟨n, hn, rfl⟩ := List.mem_map.1 hk
        obtain ⟨p, hp'⟩ := withParents_exists root (-1) n hn
        have hf := c2 _ hp'
        simp only at hf
        rw [hf] at q1
        cases q1
        simp only [fullComps, List.mem_append, List.mem_map, List.mem_reverse, List.mem_cons, Prod.mk.injEq, mem_lefts, mem_rights] at q2
        rcases q2 with ⟨c, ⟨hc, _⟩, rfl, _⟩ | ⟨rfl, rfl⟩ | ⟨c, ⟨hc, _⟩, rfl, _⟩
        · exact absurd (in_cup S c12 hn hc (.inl ht)) hni
        · rcases (withParents_spec root (-1) S.proj (parOutside_root root) _ hp').2.2.2.1 with e | ⟨s', hs', e, hc⟩
          · cases e
            exact ⟨m, q3, tag_inj S.keys_nodup ht (ha m q3).1⟩
          · simp only at e hc
            rw [e] at ht
            exact absurd (in_cup S c12 hs' hc (.inr ht)) hni
        · exact absurd (in_cup S c12 hn hc (.inl ht)) hni
      · have := S.rest k hk w' q1
        rw [this] at q2
        simp at q2
    · rintro ⟨j, hj, rfl⟩
      have hlt : a + j < (tyAll W).length := by
        have := (List.getElem?_eq_some_iff.1 (ha j hj).1).1
        rwa [length_tags] at this
      rcases List.mem_append.1 (hperm.mem_iff.1 (List.mem_range.2 hlt)) with h | h
      · exfalso
        obtain ⟨c, hc, hcc⟩ := mem_ends.1 h
        obtain ⟨s', hs', ch', hch', m, hm, e1, e2⟩ := (c12 c).1 hc
        rcases hcc with e | e
        · rw [e, (ha j hj).1] at e1
          simp only [Option.some.injEq, Prod.mk.injEq] at e1
          omega
        · rw [e, (ha j hj).1] at e2
          simp only [Option.some.injEq, Prod.mk.injEq] at e2
          omega
      · exact h
  have hsorted : rest.Pairwise (· < ·) := List.Pairwise.sublist (joins_sublist c9) List.pairwise_lt_range
  have hreq : rest = (List.range root.typ.length).map (fun j => a + j) := eq_block hsorted hrest
  have hrty := hne root hrs
  obtain ⟨r, h1, h2⟩ := build_follows hg hF (by
    intro c hc _
    obtain ⟨s', hs', ch', hch', m, hm, e1, e2⟩ := (c12 c).1 hc
    have hin : ∀ k, k = s'.ind ∨ k = ch'.ind → (tokens.getD k "", k) ∈ keys root := by
      intro k hk
      have hcs : ch' ∈ root.subs := by
        obtain ⟨p, hp'⟩ := withParents_exists root (-1) s' hs'
        exact (withParents_spec root (-1) S.proj (parOutside_root root) _ ((withParents_spec root (-1) S.proj (parOutside_root root) _ hp').2.2.2.2 ch' hch')).2.2.1
      rcases hk with rfl | rfl
      · rw [hkey s' hs']; exact mem_keys.2 ⟨s', hs', rfl⟩
      · rw [hkey ch' hcs]; exact mem_keys.2 ⟨ch', hcs, rfl⟩
    rw [tags_owner hso e1, tags_owner hso e2]
    exact ⟨hin _ (by simp only; omega), hin _ (by simp only; omega)⟩) (by
      rw [hsf, hreq]; simpa using hrty) (by
      intro i hi
      rw [hsf] at hi
      obtain ⟨j, hj, rfl⟩ := (hrest i).1 hi
      rw [tags_owner hso (ha j hj).1]
      exact hkey root hrs) (by
      rw [hsf, hreq, List.map_map]
      refine List.ext_getElem? ?_
      intro k
      by_cases hk : k < root.typ.length
      · rw [List.getElem?_map, List.getElem?_range hk]
        simp only [Option.map_some, Function.comp_apply, Wiring.type, hst]
        rw [List.getD_eq_getElem?_getD, (ha k hk).2, List.getElem?_eq_getElem hk]
        rfl
      · rw [List.getElem?_eq_none (by simp; omega), List.getElem?_eq_none (by omega)])
  refine ⟨d, r.1, c4, ?_, h2⟩
  unfold diagram2tree
  simp only [htr, if_neg hsj, hsc, h1]



/-- **C102 (round trip, one node).** If the root has no child, the tree comes back when there is no other token, and otherwise there is an `AssertionError`. -/
theorem C102_round_trip_leaf (word : String) (ind : Nat) (typ : Ty) (tokens : List String) (hword : tokens[ind]? = some word) (haux : typ ≠ auxTy) :
    ∃ d, tree2diagram (.node word ind typ []) tokens = .ok d ∧ diagram2tree d = if tokens.length = 1 then .ok (.node word ind typ []) else .error .assertionError := by
  have hsubs : (PTree.node word ind typ []).subs = [.node word ind typ []] := by rw [subs_node]; simp
  have hp : (PTree.node word ind typ []).Projective := by
    intro s hs
    rw [hsubs] at hs
    rw [List.mem_singleton.1 hs]
    simp [PTree.children]
  obtain ⟨W, d, cups, spots, rest, wl, ls, c1, c2, c3, c4, c5, c6, c7, c8, c9, c10, c11, c12⟩ := C86_tree2diagram_partial (.node word ind typ []) tokens hp (by
    intro a ha
    rw [inds, hsubs] at ha
    simp only [List.map_cons, List.map_nil, List.mem_singleton, PTree.ind] at ha
    subst ha
    exact (List.getElem?_eq_some_iff.1 hword).1) (by
    intro s hs
    rw [hsubs] at hs
    rw [List.mem_singleton.1 hs]
    exact haux)
  have hcups : cups = [] := by
    refine List.eq_nil_iff_forall_not_mem.2 ?_
    intro c hc
    obtain ⟨s, hs, ch, hch, _⟩ := (c12 c).1 hc
    rw [hsubs] at hs
    rw [List.mem_singleton.1 hs] at hch
    simp [PTree.children] at hch
  subst hcups
  simp only [List.zip_nil_left] at c10
  cases c10
  obtain ⟨o1, o2, o3⟩ := owners_tags c8 c1 0
  have hfull := c2 (-1, .node word ind typ []) (by rw [withParents_eq]; simp)
  simp only [PTree.ind] at hfull
  have hfc : fullComps (-1) (.node word ind typ []) = [(-1, typ)] := by simp [fullComps, lefts, rights, PTree.children, PTree.typ]
  rw [hfc] at hfull
  refine ⟨d, c4, ?_⟩
  unfold diagram2tree
  rw [c7, List.append_nil, trace_words wl o3]
  simp only [List.nil_append, if_true]
  have hwl : wl.length = tokens.length := by
    have := c8.length_eq
    simp only [List.length_map, List.length_zip] at this
    omega
  by_cases h1 : tokens.length = 1
  · rw [if_pos h1]
    obtain ⟨x, rfl⟩ := List.length_eq_one_iff.1 h1
    obtain ⟨w, rfl⟩ := List.length_eq_one_iff.1 (c1.trans h1)
    have hi : ind = 0 := by
      have := (List.getElem?_eq_some_iff.1 hword).1
      simpa using this
    subst hi
    simp at hfull hword
    subst hfull hword
    simp only [List.zip_cons_cons, List.zip_nil_left, List.map_cons, List.map_nil] at c8
    cases c8 with
    | @cons _ l _ wl h1 h2 =>
      cases h2
      simp [h1.1, name, Box.cod, compsTy]
  · rw [if_neg h1]
    rcases wl with _ | ⟨a, _ | ⟨b, wl⟩⟩
    · rfl
    · exact absurd hwl.symm (by simpa using h1)
    · rfl

end DTree
end Lambeq
