import Verif.Text.PregroupTreeMain

/-!
# Pregroup trees to diagrams: theorems (C86)
-/

namespace Lambeq
namespace PTree
open GDiagram Diagram
set_option linter.unusedSimpArgs false

/-! ## Auxiliary verbs -/

theorem fixAux_id (W : List (List Comp)) (ds : List CDict) (i : Nat) (hl : ds.length = W.length)
    (h : ∀ k w, W[k]? = some w → auxCond (i + k) w W[k + 1]? = false) : fixAux i W ds = .ok (W, ds) := by
  induction W generalizing i ds with
  | nil =>
    have : ds = [] := List.length_eq_zero_iff.1 (by simpa using hl)
    subst this; rfl
  | cons w W ih =>
    match ds, hl with
    | d :: ds, hl =>
      have h0 := h 0 w rfl
      have e : (w :: W)[0 + 1]? = W.head? := by cases W <;> rfl
      rw [e, Nat.add_zero] at h0
      have h1 := ih ds (i + 1) (by simpa using hl) (fun k w' hk => by
        have := h (k + 1) w' (by simpa using hk)
        rw [show i + (k + 1) = i + 1 + k by omega] at this
        simpa using this)
      simp only [fixAux, h0, h1]
      rfl

/-- the type of an auxiliary verb, which `_fix_auxiliary_types` looks for -/
def auxTy : Ty := [⟨"s", 1⟩, ⟨"n", 2⟩]

theorem auxCond_false {root : PTree} {W : List (List Comp)} (S : Setup root W) (haux : ∀ s ∈ root.subs, s.typ ≠ auxTy) (k : Nat) (w : List Comp)
    (hw : W[k]? = some w) : auxCond k w W[k + 1]? = false := by
  by_contra hc
  have hc : auxCond k w W[k + 1]? = true := by simpa using hc
  match w, hn : W[k + 1]? with
  | [], _ => simp [auxCond] at hc
  | [_], _ => simp [auxCond] at hc
  | _ :: _ :: _ :: _, _ => simp [auxCond] at hc
  | [c0, c1], none => rw [hn] at hc; simp [auxCond] at hc
  | [c0, c1], some [] => rw [hn] at hc; simp [auxCond] at hc
  | [c0, c1], some (d0 :: v) =>
    rw [hn] at hc
    simp only [auxCond, Bool.and_eq_true, decide_eq_true_eq] at hc
    obtain ⟨⟨h1, h2⟩, h3⟩ := hc
    obtain ⟨p, t, _, ht, q1, q2, q3, q4, _, q5⟩ := S.node (S.mem_inds hn (e := d0) (by simp))
    rw [hn] at q1
    simp only [Option.some.injEq] at q1
    rcases hL : t.lefts.reverse with _ | ⟨c, ls⟩
    · rw [fullComps, hL] at q1
      simp only [List.map_nil, List.nil_append, List.cons.injEq] at q1
      exact haux t q4 (by rw [auxTy, ← h3, q1.1])
    · rw [fullComps, hL] at q1
      simp only [List.map_cons, List.cons_append, List.cons.injEq] at q1
      have hcm : c ∈ t.lefts := by rw [← List.mem_reverse, hL]; simp
      obtain ⟨hch, _⟩ := mem_lefts.1 hcm
      have hci : c.ind = k := by rw [q1.1] at h2; simp only at h2; omega
      have hcp := q2.child hch
      have hco := parOutside_child q2 hch
      have hcw := S.full _ (q5 c hch)
      simp only at hcw
      rw [hci, hw] at hcw
      simp only [Option.some.injEq] at hcw
      rcases hL' : c.lefts.reverse with _ | ⟨x, xs⟩
      · rw [fullComps, hL'] at hcw
        simp only [List.map_nil, List.nil_append, List.cons.injEq] at hcw
        have hm : c1 ∈ c.rights.reverse.map (fun c => ((c.ind : Int), c.typ.l)) := by rw [← hcw.2]; simp
        obtain ⟨y, hy, rfl⟩ := List.mem_map.1 hm
        rw [List.mem_reverse, mem_rights] at hy
        rcases hco with h | h
        · have := h _ (child_ind_mem hy.1); omega
        · have := h _ (ind_mem_inds c); omega
      · rw [fullComps, hL'] at hcw
        simp only [List.map_cons, List.cons_append, List.cons.injEq] at hcw
        have hx : x ∈ c.lefts := by rw [← List.mem_reverse, hL']; simp
        have := (mem_lefts.1 hx).2
        rw [hcw.1] at h1
        simp only at h1
        omega

/-! ## The free wires -/

theorem getLast?_const {α : Type} {l : List α} {a : α} (h : ∀ x ∈ l, x = a) (hne : l ≠ []) : l.getLast? = some a := by
  rw [List.getLast?_eq_some_getLast hne]
  exact congrArg some (h _ (List.getLast_mem hne))

/-- the wires of the root for no other word -/
theorem freeWires_spec {root : PTree} {W : List (List Comp)} (S : Setup root W) : ∃ c, freeWires (compDicts 0 W) = List.range' c root.typ.length ∧
    ∀ j, j < root.typ.length → (tags 0 W)[c + j]? = some (root.ind, -1, j) := by
  have hroot : W[root.ind]? = some (fullComps (-1) root) := S.full (-1, root) (by rw [withParents_eq]; simp)
  have hmem : ((-1 : Int), root.typ) ∈ fullComps (-1) root := by simp [fullComps]
  have hent : ∀ L, ((-1 : Int), L) ∈ (compDicts 0 W).flatten → ∃ c, L = List.range' c root.typ.length ∧
      ∀ j, j < root.typ.length → (tags 0 W)[c + j]? = some (root.ind, -1, j) := by
    intro L hL
    obtain ⟨d, hd, hL⟩ := List.mem_flatten.1 hL
    obtain ⟨i, hi⟩ := List.getElem?_of_mem hd
    obtain ⟨w, h1, _, h3⟩ := compDicts_get (n := 0) hi
    obtain ⟨t, c, k1, k2, k3⟩ := h3 _ _ hL
    rcases S.nb h1 (List.mem_map_of_mem (f := (·.1)) k1) with ⟨_, rfl⟩ | ⟨m, hm, _⟩
    · rw [hroot] at h1
      cases h1
      have := comp_unique (S.keys_nodup _ (List.mem_of_getElem? hroot)) k1 hmem
      subst this
      exact ⟨c, by rw [k2, Nat.zero_add], by simpa using k3⟩
    · simp only at hm; omega
  have hex : ∃ L, ((-1 : Int), L) ∈ (compDicts 0 W).flatten := by
    have hlt : root.ind < (compDicts 0 W).length := by rw [compDicts_length]; exact (List.getElem?_eq_some_iff.1 hroot).1
    obtain ⟨w, h1, h2, _⟩ := compDicts_get (n := 0) (List.getElem?_eq_getElem hlt)
    rw [hroot] at h1
    cases h1
    have : (-1 : Int) ∈ (compDicts 0 W)[root.ind].map (·.1) := by rw [h2]; exact List.mem_map_of_mem (f := (·.1)) hmem
    obtain ⟨e, he, he2⟩ := List.mem_map.1 this
    exact ⟨e.2, List.mem_flatten.2 ⟨_, List.getElem_mem hlt, by rw [← he2]; exact he⟩⟩
  obtain ⟨L0, hL0⟩ := hex
  obtain ⟨c, hc1, hc2⟩ := hent L0 hL0
  refine ⟨c, ?_, hc2⟩
  unfold freeWires
  rw [getLast?_const (a := List.range' c root.typ.length)]
  · rfl
  · intro L hL
    obtain ⟨e, he, rfl⟩ := List.mem_map.1 hL
    obtain ⟨he1, he2⟩ := List.mem_filter.1 he
    have : e = (-1, e.2) := Prod.ext (by simpa using he2) rfl
    rw [this] at he1
    obtain ⟨c', hc1', hc2'⟩ := hent _ he1
    rw [hc1']
    rcases Nat.eq_zero_or_pos root.typ.length with h0 | h0
    · rw [h0]; rfl
    · have := tag_inj S.keys_nodup (hc2 0 h0) (hc2' 0 h0)
      have : c' = c := by omega
      rw [this]
  · intro h
    have : L0 ∈ ((compDicts 0 W).flatten.filter (fun e => e.1 == -1)).map (·.2) :=
      List.mem_map.2 ⟨(-1, L0), List.mem_filter.2 ⟨hL0, by simp⟩, rfl⟩
    rw [h] at this
    simp at this

/-! ## The drawing -/

/-- no swaps are needed -/
theorem allMors_spec {root : PTree} {W : List (List Comp)} (S : Setup root W) {cs : List (Nat × Nat)}
    (hcs : ∀ c, c ∈ cs ↔ ∃ e, Linked root e.1 e.2 ∧ CupOf W e c) (hnd : cs.Nodup) (hlt : ∀ c ∈ cs, c.1 < c.2) {g n : Nat}
    (hf : ∀ j, j < n → (tags 0 W)[g + j]? = some (root.ind, -1, j)) :
    allMors (cs.map toMor) (List.range' g n) = cs.map toMor ++ (List.range' g n).map (fun (f : Nat) => ((.free, (f : Int), (f : Int)) : Mor)) := by
  unfold allMors
  rw [addSwaps_id]
  · simp
  · rw [List.pairwise_append]
    refine ⟨?_, ?_, ?_⟩
    · rw [List.pairwise_map]
      refine List.Pairwise.imp_of_mem ?_ hnd
      intro c d hc hd hne
      obtain ⟨e, l1, c1⟩ := (hcs c).1 hc
      obtain ⟨e', l2, c2⟩ := (hcs d).1 hd
      have hc' := hlt c hc
      have hd' := hlt d hd
      have key : ∀ {e e' c d : Nat × Nat}, Linked root e.1 e.2 → CupOf W e c → Linked root e'.1 e'.2 → CupOf W e' d → c.1 < d.1 → d.1 < c.2 → d.2 < c.2 := by
        intro e e' c d l1 c1 l2 c2 h1 h2
        obtain ⟨f, x, l3, c3, h3, h4, h5⟩ := S.nest l1 c1 h1 h2
        rcases cups_disj S l2 c2 l3 c3 with rfl | hd
        · exact h5
        · obtain ⟨a1, a2, _, _⟩ := hd
          rcases h3 with h | h
          · exact absurd h a1
          · exact absurd h a2
      refine ⟨?_, ?_, ?_⟩ <;> simp only [toMor] <;> rintro ⟨h1, h2⟩
      · omega
      · have := key l2 c2 l1 c1 (by omega) (by omega); omega
      · have := key l1 c1 l2 c2 (by omega) (by omega); omega
    · rw [List.pairwise_map]
      refine List.Pairwise.imp (R := fun _ _ => True) ?_ (List.pairwise_of_forall (fun _ _ => trivial))
      intro a b _
      refine ⟨?_, ?_, ?_⟩ <;> simp only <;> rintro ⟨h1, h2⟩ <;> omega
    · intro m hm o ho
      obtain ⟨c, hc, rfl⟩ := List.mem_map.1 hm
      obtain ⟨f, hf', rfl⟩ := List.mem_map.1 ho
      obtain ⟨e, l1, c1⟩ := (hcs c).1 hc
      obtain ⟨j, hj, rfl⟩ := List.mem_range'.1 hf'
      have := S.root_free l1 c1 (hf j hj)
      refine ⟨?_, ?_, ?_⟩ <;> simp only [toMor] <;> rintro ⟨h1, h2⟩
      · exact this ⟨by omega, by omega⟩
      · omega
      · omega
  · simp

theorem idxOf_range {n x : Nat} (h : x < n) : (List.range n).idxOf x = x := by
  have := List.Nodup.idxOf_getElem (List.nodup_range (n := n)) x (by simpa using h)
  simpa using this

/-- the wires that are left -/
theorem rest_spec {root : PTree} {W : List (List Comp)} (S : Setup root W) {cs : List (Nat × Nat)}
    (hcs : ∀ c, c ∈ cs ↔ ∃ e, Linked root e.1 e.2 ∧ CupOf W e c) {g : Nat}
    (hf : ∀ j, j < root.typ.length → (tags 0 W)[g + j]? = some (root.ind, -1, j)) :
    (List.range (tyAll W).length).filter (notEnd cs) = List.range' g root.typ.length := by
  have hroot : W[root.ind]? = some (fullComps (-1) root) := S.full (-1, root) (by rw [withParents_eq]; simp)
  have hmem : ((-1 : Int), root.typ) ∈ fullComps (-1) root := by simp [fullComps]
  have hmm : ∀ x, x ∈ (List.range (tyAll W).length).filter (notEnd cs) ↔ x ∈ List.range' g root.typ.length := by
    intro x
    rw [List.mem_filter, List.mem_range, List.mem_range']
    constructor
    · rintro ⟨hx, hne⟩
      rw [← length_tags 0] at hx
      obtain ⟨⟨i, o, k⟩, htag⟩ : ∃ s, (tags 0 W)[x]? = some s := ⟨_, List.getElem?_eq_getElem hx⟩
      obtain ⟨_, w, t, m1, m2, m3, _⟩ := tags_get htag
      simp only [Nat.sub_zero] at m1 m2 m3
      have hno : ∀ c ∈ cs, x ≠ c.1 ∧ x ≠ c.2 := by
        intro c hc
        have := List.all_eq_true.1 hne c hc
        simpa using this
      rcases S.nb m1 (List.mem_map_of_mem (f := (·.1)) m2) with ⟨ho, rfl⟩ | ⟨m, hm, hedge⟩
      · simp only at ho
        subst ho
        rw [hroot] at m1
        cases m1
        have := comp_unique (S.keys_nodup _ (List.mem_of_getElem? hroot)) m2 hmem
        subst this
        exact ⟨k, m3, by simpa using tag_inj S.keys_nodup htag (hf k m3)⟩
      · simp only at hm
        subst hm
        rcases linked_of S.proj hedge with hL | hL
        · obtain ⟨y, hy⟩ := S.partner_right htag hL
          exact absurd rfl (hno _ ((hcs _).2 ⟨_, hL, hy⟩)).1
        · obtain ⟨y, hy⟩ := S.partner_left htag hL
          exact absurd rfl (hno _ ((hcs _).2 ⟨_, hL, hy⟩)).2
    · rintro ⟨j, hj, rfl⟩
      have htag := hf j hj
      simp only [Nat.one_mul]
      refine ⟨?_, ?_⟩
      · rw [← length_tags 0]; exact (List.getElem?_eq_some_iff.1 htag).1
      · rw [notEnd, List.all_eq_true]
        intro c hc
        obtain ⟨e, _, w, t, j', _, _, _, k4, k5⟩ := (hcs c).1 hc
        simp only [Bool.and_eq_true, bne_iff_ne, ne_eq]
        constructor
        · intro h
          rw [← h, htag] at k4
          simp only [Option.some.injEq, Prod.mk.injEq] at k4; omega
        · intro h
          rw [← h, htag] at k5
          simp only [Option.some.injEq, Prod.mk.injEq] at k5; omega
  have s1 : ((List.range (tyAll W).length).filter (notEnd cs)).Pairwise (· < ·) := List.pairwise_lt_range.filter _
  have s2 : (List.range' g root.typ.length).Pairwise (· < ·) := List.pairwise_lt_range'
  have hp : ((List.range (tyAll W).length).filter (notEnd cs)).Perm (List.range' g root.typ.length) :=
    (List.perm_ext_iff_of_nodup (s1.imp (fun h => by omega)) (s2.imp (fun h => by omega))).2 hmm
  exact hp.eq_of_pairwise (fun a b _ _ h1 h2 => by omega) s1 s2

/-- the types at the two ends of a cup are adjoint -/
theorem adjoint_spec {root : PTree} {W : List (List Comp)} (S : Setup root W) {e c : Nat × Nat} (hL : Linked root e.1 e.2) (hc : CupOf W e c) :
    ∃ x y, (tyAll W)[c.1]? = some x ∧ (tyAll W)[c.2]? = some y ∧ [x] = Ty.l [y] := by
  obtain ⟨w, t, j, k1, k2, k3, k4, k5⟩ := hc
  obtain ⟨wa, wb, ta, tb, g1, g2, g3, g4, g5⟩ := S.ends hL
  rw [k1] at g1
  cases g1
  have := comp_unique (S.keys_nodup _ (List.mem_of_getElem? k1)) k2 g3
  subst this
  obtain ⟨_, w1, t1, a1, a2, a3, a4⟩ := tags_get k4
  obtain ⟨_, w2, t2, b1, b2, b3, b4⟩ := tags_get k5
  simp only [Nat.sub_zero] at a1 a2 a3 a4 b1 b2 b3 b4
  rw [k1] at a1
  cases a1
  rw [g2] at b1
  cases b1
  have := comp_unique (S.keys_nodup _ (List.mem_of_getElem? k1)) k2 a2
  subst this
  have := comp_unique (S.keys_nodup _ (List.mem_of_getElem? g2)) g4 b2
  subst this
  refine ⟨t[t.length - 1 - j], tb[j], ?_, ?_, ?_⟩
  · rw [a4]; exact List.getElem?_eq_getElem _
  · rw [b4]; exact List.getElem?_eq_getElem _
  · subst g5
    have hlen : (Ty.l tb).length = tb.length := by simp
    have : (Ty.l tb)[(Ty.l tb).length - 1 - j]? = some (Ty.rotOb (-1) tb[j]) := by
      rw [hlen, Ty.l, Ty.rotate, if_pos (by decide), List.getElem?_reverse (by simp; omega)]
      simp only [List.length_map]
      rw [show tb.length - 1 - (tb.length - 1 - j) = j by omega]
      simp [b3]
    obtain ⟨_, h2⟩ := List.getElem?_eq_some_iff.1 this
    rw [h2]
    simp [Ty.l, Ty.rotate]

/-! ## The theorems -/

theorem words_types (tokens : List String) (W : List (List Comp)) (h : tokens.length = W.length) :
    (((tokens.zip W).map (fun p => (p.1, compsTy p.2, (0 : Int)))).map (·.2.1)).flatten = tyAll W := by
  rw [tyAll, List.map_map]
  congr 1
  induction tokens generalizing W with
  | nil =>
    have : W = [] := List.length_eq_zero_iff.1 (by simpa using h.symm)
    subst this; rfl
  | cons t ts ih =>
    match W, h with
    | w :: W, h =>
      simp only [List.zip_cons_cons, List.map_cons, List.cons.injEq]
      exact ⟨rfl, ih W (by simpa using h)⟩

theorem place_zip (cs : List (Nat × Nat)) (n N : Nat) (F : List Nat) (d : GDiagram) (hcs : ∀ c ∈ cs, c.1 < N ∧ c.2 < N) :
    place n (((cs.map toMor ++ F.map (fun (f : Nat) => ((.free, (f : Int), (f : Int)) : Mor))).filter (fun m => m.1 ≠ .free)).zip
      ((cs.map toMor ++ F.map (fun (f : Nat) => ((.free, (f : Int), (f : Int)) : Mor))).map (fun m => m.2.1))) d
      = place n (cs.map (curMor (List.range N))) d := by
  congr 1
  have h1 : (cs.map toMor ++ F.map (fun (f : Nat) => ((.free, (f : Int), (f : Int)) : Mor))).filter (fun m => m.1 ≠ .free) = cs.map toMor := by
    rw [List.filter_append]
    have a : (cs.map toMor).filter (fun m => m.1 ≠ .free) = cs.map toMor := by
      rw [List.filter_eq_self]; intro m hm; obtain ⟨c, _, rfl⟩ := List.mem_map.1 hm; simp [toMor]
    have b : (F.map (fun (f : Nat) => ((.free, (f : Int), (f : Int)) : Mor))).filter (fun m => m.1 ≠ .free) = [] := by
      rw [List.filter_eq_nil_iff]; intro m hm; obtain ⟨c, _, rfl⟩ := List.mem_map.1 hm; simp
    rw [a, b, List.append_nil]
  rw [h1, List.map_append]
  induction cs with
  | nil => simp
  | cons c cs ih =>
    have hc := hcs c (by simp)
    simp only [List.map_cons, List.cons_append, List.zip_cons_cons, List.cons.injEq]
    refine ⟨?_, ?_⟩
    · simp only [curMor, toMor, idxOf_range hc.1, idxOf_range hc.2]
    · refine ih (fun c h => hcs c (by simp [h])) ?_
      simp only [List.map_cons, List.cons_append, List.filter_cons, toMor] at h1
      simpa using h1

/-- **C86 (projective trees).** Let the words of a tree be among the tokens, let the tree be projective (no branch overlaps another one or the word above it), and
let no node have the type of an auxiliary verb that `_fix_auxiliary_types` looks for. Then `tree2diagram` returns a diagram without inputs whose output is the type of
the root. It consists of one word box for each token, in order, and of cups only (no swaps). The type of a word is: the right adjoints of the types of its children
to the left, the nearest first, its own type, the left adjoints of the types of its children to the right, the nearest last; tokens outside of the tree have the
empty type. The cups are exactly these: for each child, each wire of its own type is joined with the matching wire of its parent. -/
theorem C86_tree2diagram_partial (root : PTree) (tokens : List String) (hp : root.Projective) (hlt : ∀ a ∈ root.inds, a < tokens.length)
    (haux : ∀ s ∈ root.subs, s.typ ≠ auxTy) :
    ∃ (W : List (List Comp)) (d : GDiagram) (cups : List (Nat × Nat)) (spots : List (List Nat × List Nat)) (rest : List Nat) (wl ls : List GLayer),
      W.length = tokens.length ∧ (∀ x ∈ root.withParents (-1), W[x.2.ind]? = some (fullComps x.1 x.2)) ∧
      (∀ k, k ∉ root.inds → k < tokens.length → W[k]? = some []) ∧
      tree2diagram root tokens = .ok d ∧ d.dom = [] ∧ d.cod = root.typ ∧ d.layers = wl ++ ls ∧
      List.Forall₂ WordLayer ((tokens.zip W).map (fun p => (p.1, compsTy p.2, 0))) wl ∧
      Joins (List.range (tyAll W).length) cups spots rest ∧
      List.Forall₂ (fun (p : (Nat × Nat) × (List Nat × List Nat)) l => cupLayer (tyAll W) p.2 p.1 l) (cups.zip spots) ls ∧ cups.Nodup ∧
      (∀ c, c ∈ cups ↔ ∃ s ∈ root.subs, ∃ ch ∈ s.children, ∃ j, j < ch.typ.length ∧
        (tags 0 W)[c.1]? = some (min ch.ind s.ind, (max ch.ind s.ind : Int), ch.typ.length - 1 - j) ∧
        (tags 0 W)[c.2]? = some (max ch.ind s.ind, (min ch.ind s.ind : Int), j)) := by
  have hri : root.ind < tokens.length := hlt _ (ind_mem_inds root)
  obtain ⟨W, es, hb, hl, hfull, hrest, hes⟩ := bfs_spec root.levels [(-1, root)] ((List.replicate tokens.length []).set root.ind [(-1, root.typ)], [])
    (by simp) (by intro x hx; rw [List.mem_singleton.1 hx]; exact ⟨hp, parOutside_root root⟩) (by simpa using nodup_inds root hp)
    (by intro x hx; rw [List.mem_singleton.1 hx]; simp [hri])
    (by
      intro x hx c hc a ha
      rw [List.mem_singleton.1 hx] at hc
      simp only at hc
      have h1 : a ∈ root.inds := child_inds_mem hc ha
      have h2 : a ≠ root.ind := by
        rintro rfl
        rcases hp.oneSide hc with h | h <;> have := h _ ha <;> omega
      have := hlt a h1
      show ((List.replicate tokens.length []).set root.ind [(-1, root.typ)])[a]? = some []
      rw [List.getElem?_set_ne h2.symm, List.getElem?_replicate, if_pos this])
  simp only [List.map_cons, List.map_nil, List.length_set, List.length_replicate, List.nil_append, List.flatMap_cons, List.flatMap_nil, List.append_nil] at hb hl hes
  have hrest' : ∀ k, k ∉ root.inds → k < tokens.length → W[k]? = some [] := by
    intro k hk hkl
    have h2 : k ≠ root.ind := by rintro rfl; exact hk (ind_mem_inds root)
    rw [hrest k (by intro x hx; rw [List.mem_singleton.1 hx]; exact hk)]
    show ((List.replicate tokens.length []).set root.ind [(-1, root.typ)])[k]? = some []
    rw [List.getElem?_set_ne h2.symm, List.getElem?_replicate, if_pos hkl]
  have hfull' : ∀ x ∈ root.withParents (-1), W[x.2.ind]? = some (fullComps x.1 x.2) := hfull (-1, root) (by simp)
  have S : Setup root W := by
    refine ⟨hp, hfull', ?_⟩
    intro k hk w hw
    have hkl : k < tokens.length := by rw [← hl]; exact (List.getElem?_eq_some_iff.1 hw).1
    rw [hrest' k hk hkl] at hw
    exact (Option.some.inj hw).symm
  have hfix := fixAux_id W (compDicts 0 W) 0 (compDicts_length 0 W) (fun k w hw => by rw [Nat.zero_add]; exact auxCond_false S haux k w hw)
  obtain ⟨cs, hcups, hnd, hcs, hclt, hsp⟩ := cupsOf_spec S hes
  obtain ⟨g, hfw, hft⟩ := freeWires_spec S
  have hall := allMors_spec S hcs hnd hclt hft
  have hlen : ∀ c ∈ cs, c.1 < (tyAll W).length ∧ c.2 < (tyAll W).length := by
    intro c hc
    obtain ⟨e, _, _, _, _, _, _, _, k4, k5⟩ := (hcs c).1 hc
    rw [← length_tags 0]
    exact ⟨(List.getElem?_eq_some_iff.1 k4).1, (List.getElem?_eq_some_iff.1 k5).1⟩
  have hdisj : cs.Pairwise Disj := by
    refine List.Pairwise.imp_of_mem ?_ hnd
    intro c c' hc hc' hne
    obtain ⟨e, l1, c1⟩ := (hcs c).1 hc
    obtain ⟨e', l2, c2⟩ := (hcs c').1 hc'
    exact (cups_disj S l1 c1 l2 c2).resolve_left hne
  obtain ⟨spots, hj⟩ := joins_of_nested cs (List.range (tyAll W).length) List.pairwise_lt_range hsp hclt
    (fun c hc => ⟨List.mem_range.2 (hlen c hc).1, List.mem_range.2 (hlen c hc).2⟩) hdisj (by
      intro c hc x _ h1 h2
      obtain ⟨e, l1, c1⟩ := (hcs c).1 hc
      obtain ⟨e', d, l2, c2, h3, h4, h5⟩ := S.nest l1 c1 h1 h2
      exact ⟨d, (hcs d).2 ⟨e', l2, c2⟩, h3, h4, h5⟩)
  rw [rest_spec S hcs hft] at hj
  obtain ⟨d0, wl, w1, _, w3, w4, w5, w6⟩ := place_words ((tokens.zip W).map (fun p => (p.1, compsTy p.2, (0 : Int)))) (Diagram.id []) (WT.id [])
  have hcre : createPregroupDiagram ((tokens.zip W).map (fun p => (p.1, compsTy p.2, (0 : Int)))) [] = .ok d0 := by
    simp only [createPregroupDiagram, morphBoxes, List.append_nil]
    exact w1
  have hcod0 : d0.cod = tyAll W := by rw [w6, words_types tokens W hl.symm]; rfl
  obtain ⟨d, ls, p1, p2, p3, p4, p5⟩ := place_joins (tyAll W) hj (cs.length + (List.range' g root.typ.length).length) d0 (by omega) List.pairwise_lt_range hclt
    (fun c hc => ⟨List.mem_range.2 (hlen c hc).1, List.mem_range.2 (hlen c hc).2⟩) hdisj
    (by
      rw [hcod0]
      apply List.ext_getElem?
      intro i
      rcases Nat.lt_or_ge i (tyAll W).length with h | h
      · simp [h]
      · simp [h])
    (fun c hc => by obtain ⟨e, l1, c1⟩ := (hcs c).1 hc; exact adjoint_spec S l1 c1)
  refine ⟨W, d, cs, spots, List.range' g root.typ.length, wl, ls, hl, hfull', hrest', ?_, ?_, ?_, ?_, w5, hj, p5, hnd, ?_⟩
  · have hwc : wordComps root tokens.length = .ok (W, compDicts 0 W, es, List.range' g root.typ.length) := by
      simp only [wordComps, if_pos hri, hb, hfix, hfw]
    simp only [tree2diagram, hwc, hcups, hcre, hall]
    rw [place_zip cs _ (tyAll W).length _ d0 hlen]
    have : (cs.map toMor ++ (List.range' g root.typ.length).map (fun (f : Nat) => ((.free, (f : Int), (f : Int)) : Mor))).length =
        cs.length + (List.range' g root.typ.length).length := by simp
    rw [this]
    exact p1
  · rw [p2, w3]; rfl
  · have hroot : W[root.ind]? = some (fullComps (-1) root) := hfull' (-1, root) (by rw [withParents_eq]; simp)
    have hmem : ((-1 : Int), root.typ) ∈ fullComps (-1) root := by simp [fullComps]
    have : d.cod.map some = root.typ.map some := by
      rw [p4]
      apply List.ext_getElem?
      intro j
      rcases Nat.lt_or_ge j root.typ.length with h | h
      · have htag := hft j h
        obtain ⟨_, w, t, m1, m2, m3, m4⟩ := tags_get htag
        simp only [Nat.sub_zero] at m1 m2 m3 m4
        rw [hroot] at m1
        cases m1
        have := comp_unique (S.keys_nodup _ (List.mem_of_getElem? hroot)) m2 hmem
        subst this
        have hj : j < root.typ.length := h
        simp [h, m4]
      · have h' : root.typ.length ≤ j := h
        simp [h]
    exact List.map_injective_iff.2 (Option.some_injective _) this
  · rw [p3, w4]; rfl
  · intro c
    rw [hcs c]
    constructor
    · rintro ⟨e, ⟨hlt', hedge⟩, w, t, j, k1, k2, k3, k4, k5⟩
      rcases hedge with h | h
      · obtain ⟨s, hs, ch, hch, h1, h2⟩ := mem_edges.1 h
        obtain ⟨wc, wp, q1, q2, q3, q4⟩ := S.edge hs hch
        rw [h1, k1] at q1
        cases q1
        rw [h2] at q2
        have := comp_unique (S.keys_nodup _ (List.mem_of_getElem? k1)) k2 q2
        subst this
        refine ⟨s, hs, ch, hch, j, k3, ?_, ?_⟩
        · rw [h1, h2, k4, Nat.min_eq_left (by omega)]; simp; omega
        · rw [h1, h2, k5, Nat.max_eq_right (by omega)]; simp; omega
      · obtain ⟨s, hs, ch, hch, h1, h2⟩ := mem_edges.1 h
        obtain ⟨wc, wp, q1, q2, q3, q4⟩ := S.edge hs hch
        rw [h2, k1] at q3
        cases q3
        rw [if_neg (by omega), h1] at q4
        have := comp_unique (S.keys_nodup _ (List.mem_of_getElem? k1)) k2 q4
        subst this
        have hl2 : (Ty.l ch.typ).length = ch.typ.length := by simp
        refine ⟨s, hs, ch, hch, j, by omega, ?_, ?_⟩
        · rw [h1, h2, k4, Nat.min_eq_right (by omega), hl2]; simp; omega
        · rw [h1, h2, k5, Nat.max_eq_left (by omega)]; simp; omega
    · rintro ⟨s, hs, ch, hch, j, hj', k4, k5⟩
      obtain ⟨wc, wp, q1, q2, q3, q4⟩ := S.edge hs hch
      have hne : ch.ind ≠ s.ind := (S.sub hs).choose_spec.2.1.child_ne hch
      rcases Nat.lt_or_gt_of_ne hne with h | h
      · refine ⟨(ch.ind, s.ind), ⟨h, .inl (mem_edges.2 ⟨s, hs, ch, hch, rfl, rfl⟩)⟩, wc, ch.typ, j, q1, q2, hj', ?_, ?_⟩
        · rw [k4, Nat.min_eq_left (by omega)]; simp; omega
        · rw [k5, Nat.max_eq_right (by omega)]; simp; omega
      · rw [if_neg (by omega)] at q4
        refine ⟨(s.ind, ch.ind), ⟨h, .inr (mem_edges.2 ⟨s, hs, ch, hch, rfl, rfl⟩)⟩, wp, ch.typ.l, j, q3, q4, by simpa using hj', ?_, ?_⟩
        · rw [k4, Nat.min_eq_right (by omega)]; simp; omega
        · rw [k5, Nat.max_eq_left (by omega)]; simp; omega

/-! ## All trees -/

theorem place_ok (n : Nat) (ms : List (Mor × Int)) (d r : GDiagram) (hd : d.WT) (h : place n ms d = .ok r) :
    r.WT ∧ r.dom = d.dom ∧ ∃ ls, r.layers = d.layers ++ ls ∧ ∀ l ∈ ls, (∃ x y, l.box = .cup x y false) ∨ (∃ x y, l.box = .swap x y) := by
  induction n generalizing ms d with
  | zero => simp only [place, Except.ok.injEq] at h; subst h; exact ⟨hd, rfl, [], by simp, by simp⟩
  | succ n ih =>
    match ms with
    | [] => simp only [place, Except.ok.injEq] at h; subst h; exact ⟨hd, rfl, [], by simp, by simp⟩
    | ((k, l, r'), off) :: ms =>
      rw [place] at h
      split at h
      · simp at h
      · rename_i b hb
        split at h
        · simp at h
        · rename_i d' hd'
          obtain ⟨b1, b2⟩ := morphBox_ok hb
          have hw := WT.andThen hd (((WT.id (pySlice d.cod none (some off))).tensor b1).tensor (WT.id (pySlice d.cod (some (off + 2)) none))) hd'
          obtain ⟨_, rfl⟩ := andThen_ok_iff.1 hd'
          obtain ⟨c1, c2, ls, c3, c4⟩ := ih _ _ hw h
          refine ⟨c1, c2, _, by rw [c3]; exact List.append_assoc .., ?_⟩
          intro x hx
          rcases List.mem_append.1 hx with hx | hx
          · simp only [tensor_layers, Diagram.id, List.map_nil, List.append_nil, List.nil_append, List.map_append, map_extend_extend] at hx
            obtain ⟨y, hy, rfl⟩ := List.mem_map.1 hx
            exact b2 y.box (List.mem_map_of_mem (f := Layer.box) hy)
          · exact c4 x hx

/-- **C86 (all trees).** For every tree, if `tree2diagram` returns at all, the result is a well-typed pregroup diagram without inputs: it starts with one word box for
each token, in order, and goes on with cups and swaps only. -/
theorem C86_result_is_pregroup (root : PTree) (tokens : List String) (d : GDiagram) (h : tree2diagram root tokens = .ok d) :
    d.WT ∧ d.dom = [] ∧ isPregroup d = true ∧ ∃ (W : List (List Comp)) (wl ls : List GLayer), d.layers = wl ++ ls ∧
      List.Forall₂ WordLayer ((tokens.zip W).map (fun p => (p.1, compsTy p.2, 0))) wl ∧
      ∀ l ∈ ls, (∃ x y, l.box = .cup x y false) ∨ (∃ x y, l.box = .swap x y) := by
  unfold tree2diagram at h
  split at h
  · simp at h
  · rename_i W ds es fr hwc
    split at h
    · simp at h
    · split at h
      · simp at h
      · rename_i d0 hd0
        obtain ⟨a1, a2, _, wl, rest, a3, a4, a5, _⟩ := C16_pregroup _ _ _ hd0
        obtain ⟨b1, b2, ls, b3, b4⟩ := place_ok _ _ _ _ a1 h
        have hall : ∀ l ∈ rest ++ ls, (∃ x y, l.box = .cup x y false) ∨ (∃ x y, l.box = .swap x y) := by
          intro l hl
          rcases List.mem_append.1 hl with hl | hl
          · exact a5 l hl
          · exact b4 l hl
        have hlay : d.layers = wl ++ (rest ++ ls) := by rw [b3, a3, List.append_assoc]
        refine ⟨b1, by rw [b2, a2], ?_, W, wl, rest ++ ls, hlay, a4, hall⟩
        unfold isPregroup
        rw [b2, a2, hlay]
        simp only [List.isEmpty_nil, not_true_eq_false, if_false]
        exact isPregroupLoop_words _ wl _ a4 (fun b => isPregroupLoop_false _ hall b)


theorem mem_nodeChildren {t c : PTree} (h : c ∈ t.nodeChildren) : c ∈ t.children := by
  rw [nodeChildren_eq] at h
  rcases List.mem_append.1 h with h | h
  · exact (mem_lefts.1 h).1
  · exact (mem_rights.1 (List.mem_reverse.1 h)).1

theorem levels_pos (t : PTree) : 0 < t.levels := by cases t; simp [levels]

/-- More rounds than levels change nothing: the loop of the code ends after `levels` rounds. -/
theorem levels_enough (n : Nat) (L : List PTree) (st : St) (h : ∀ t ∈ L, t.levels ≤ n) : bfs (n + 1) L st = bfs n L st := by
  induction n generalizing L st with
  | zero =>
    have : L = [] := by
      cases L with
      | nil => rfl
      | cons t L => have := h t (by simp); have := levels_pos t; omega
    subst this; rfl
  | succ n ih =>
    rw [bfs]
    conv_rhs => rw [bfs]
    rcases L.foldlM visit st with e | st'
    · rfl
    · refine ih _ _ ?_
      intro c hc
      obtain ⟨t, ht, hc⟩ := List.mem_flatMap.1 hc
      have := levels_child (mem_nodeChildren hc)
      have := h t ht
      omega

/-! ## Examples -/

/-- "John likes Mary today", where "today" belongs to "likes" -/
def exTree : PTree := .node "likes" 1 [⟨"s", 0⟩] [.node "Mary" 2 [⟨"n", 0⟩] [], .node "John" 0 [⟨"n", 0⟩] [], .node "today" 4 [⟨"s", 1⟩, ⟨"s", 0⟩] []]

example : exTree.Projective ∧ (∀ a ∈ exTree.inds, a < 5) ∧ ∀ s ∈ exTree.subs, s.typ ≠ auxTy := by
  refine ⟨?_, ?_, ?_⟩
  · unfold exTree
    rw [projective_node]
    simp [OneSide, Apart, Projective, inds, subs, subss, ind, children]
  · simp [exTree, inds, subs, subss, ind]
  · simp [exTree, subs, subss, typ, auxTy]

/-- **C86, refuted in general.** A tree of five words, each with its own index, all of type `n` but the root, for which `tree2diagram` raises `ValueError` (the
cups it tries to draw do not fit). The tree is not projective. -/
theorem C86_refuted_nonprojective : ∃ (root : PTree) (tokens : List String), root.inds.Nodup ∧ (∀ a ∈ root.inds, a < tokens.length) ∧
    (∀ s ∈ root.subs, s.typ ≠ auxTy) ∧ tree2diagram root tokens = .error .valueError := by
  refine ⟨.node "c" 2 [⟨"s", 0⟩] [.node "a" 0 [⟨"n", 0⟩] [.node "d" 3 [⟨"n", 0⟩] [.node "b" 1 [⟨"n", 0⟩] [.node "e" 4 [⟨"n", 0⟩] []]]]], ["a", "b", "c", "d", "e"],
    by decide +kernel, by decide +kernel, by decide +kernel, by decide +kernel⟩

end PTree
end Lambeq
