import Verif.Text.RemoveCyclesGrow
import Verif.Text.DiagramTreeInverse

/-!
# Breaking cycles: nodes and paths (C103)
-/

namespace Lambeq
namespace DTree
open PTree
set_option linter.unusedSimpArgs false
set_option linter.unusedVariables false

mutual
/-- The nodes under the node at `p`, a node before its children. -/
def pre (p : Path) : PTree → List (Path × PTree)
  | .node w i t cs => (p, .node w i t cs) :: pres p 0 cs
def pres (p : Path) (k : Nat) : List PTree → List (Path × PTree)
  | [] => []
  | c :: cs => pre (p ++ [k]) c ++ pres p (k + 1) cs
end

/-! ## Sorting -/

abbrev byInd : Path × PTree → Path × PTree → Prop := fun a b => a.2.ind ≤ b.2.ind

theorem insert_filter (i : Nat) (x : Path × PTree) (l : List (Path × PTree)) (hs : l.Pairwise byInd) :
    (l.orderedInsert byInd x).filter (fun y => y.2.ind == i) = (x :: l).filter (fun y => y.2.ind == i) := by
  induction l with
  | nil => rfl
  | cons b l ih =>
    rw [List.orderedInsert]
    by_cases h : byInd x b
    · rw [if_pos h]
    · rw [if_neg h]
      have h : b.2.ind < x.2.ind := by simpa [byInd] using h
      rw [List.filter_cons, ih (List.pairwise_cons.1 hs).2]
      by_cases hx : x.2.ind = i
      · have hb : (b.2.ind == i) = false := by simp; omega
        have hx' : (x.2.ind == i) = true := by simp [hx]
        simp [List.filter_cons, hb, hx']
      · have hx' : (x.2.ind == i) = false := by simp [hx]
        simp [List.filter_cons, hx']

theorem sort_filter (i : Nat) (l : List (Path × PTree)) : (l.insertionSort byInd).filter (fun y => y.2.ind == i) = l.filter (fun y => y.2.ind == i) := by
  induction l with
  | nil => rfl
  | cons x l ih =>
    have hs : (l.insertionSort byInd).Pairwise byInd := by
      have : Std.Total byInd := ⟨fun a b => by simp only [byInd]; omega⟩
      have : IsTrans _ byInd := ⟨fun a b c h1 h2 => by simp only [byInd] at *; omega⟩
      exact List.pairwise_insertionSort _ _
    rw [List.insertionSort_cons, insert_filter i x _ hs, List.filter_cons, List.filter_cons, ih]

theorem flat_pre (t : PTree) : ∀ p, (∀ i, (flatP p t).filter (fun y => y.2.ind == i) = (pre p t).filter (fun y => y.2.ind == i)) ∧ (flatP p t).Perm (pre p t) := by
  induction t using ind' with
  | H w i ty cs ih =>
    intro p
    have hl : ∀ (cs : List PTree), (∀ c ∈ cs, ∀ p, (∀ i, (flatP p c).filter (fun y => y.2.ind == i) = (pre p c).filter (fun y => y.2.ind == i)) ∧ (flatP p c).Perm (pre p c)) → ∀ k,
        (∀ i, (flatsP p k cs).filter (fun y => y.2.ind == i) = (pres p k cs).filter (fun y => y.2.ind == i)) ∧ (flatsP p k cs).Perm (pres p k cs) := by
      intro cs
      induction cs with
      | nil => intro _ k; simp [flatsP, pres]
      | cons c cs ihc =>
        intro h k
        obtain ⟨h1, h2⟩ := h c (by simp) (p ++ [k])
        obtain ⟨h3, h4⟩ := ihc (fun d hd => h d (by simp [hd])) (k + 1)
        simp only [flatsP, pres, List.filter_append]
        exact ⟨fun i => by rw [h1, h3], h2.append h4⟩
    obtain ⟨h1, h2⟩ := hl cs ih 0
    simp only [flatP, pre]
    refine ⟨fun j => ?_, (List.perm_insertionSort _ _).trans (h2.cons _)⟩
    rw [sort_filter, List.filter_cons, List.filter_cons, h1]

theorem flat_sortedP (t : PTree) (p : Path) : (flatP p t).Pairwise byInd := by
  have : Std.Total byInd := ⟨fun a b => by simp only [byInd]; omega⟩
  have : IsTrans _ byInd := ⟨fun a b c h1 h2 => by simp only [byInd] at *; omega⟩
  cases t
  simp only [flatP]
  exact List.pairwise_insertionSort _ _

theorem last_maxP {l : List (Path × PTree)} (h : l.Pairwise byInd) (x : Path × PTree) (hx : x ∈ l) : x.2.ind < (l.getLast?.map (fun x => x.2.ind + 1)).getD 0 := by
  induction l generalizing x with
  | nil => simp at hx
  | cons a l ih =>
    rw [List.pairwise_cons] at h
    cases l with
    | nil => simp at hx; subst hx; simp
    | cons b l =>
      rw [List.getLast?_cons_cons]
      rcases List.mem_cons.1 hx with rfl | hx
      · have h1 := h.1 b (by simp)
        have h2 := ih h.2 b (List.mem_cons_self ..)
        simp only [byInd] at h1
        omega
      · exact ih h.2 x hx

/-- The nodes of a word. -/
def copies (t : PTree) (i : Nat) : List (Path × PTree) := (pre [] t).filter (fun y => y.2.ind == i)

theorem groups_eq (t : PTree) : ∃ n, (∀ x ∈ pre [] t, x.2.ind < n) ∧ groups t = ((List.range n).map (copies t)).filter (fun g => !g.isEmpty) := by
  refine ⟨((flatP [] t).getLast?.map (fun x => x.2.ind + 1)).getD 0, ?_, ?_⟩
  · intro x hx
    exact last_maxP (flat_sortedP t []) x ((flat_pre t []).2.mem_iff.2 hx)
  · simp only [groups, (flat_pre t []).1]
    rfl

/-! ## Paths -/

theorem mem_pres {p : Path} {cs : List PTree} : ∀ {k : Nat} {x : Path × PTree}, x ∈ pres p k cs ↔ ∃ j c, cs[j]? = some c ∧ x ∈ pre (p ++ [k + j]) c := by
  induction cs with
  | nil => intro k x; simp [pres]
  | cons c cs ih =>
    intro k x
    simp only [pres, List.mem_append, ih]
    constructor
    · rintro (h | ⟨j, d, h1, h2⟩)
      · exact ⟨0, c, by simp, by simpa using h⟩
      · exact ⟨j + 1, d, by simpa using h1, by rw [show k + (j + 1) = k + 1 + j by omega]; exact h2⟩
    · rintro ⟨j, d, h1, h2⟩
      cases j with
      | zero => simp at h1; subst h1; exact .inl (by simpa using h2)
      | succ j => exact .inr ⟨j, d, by simpa using h1, by rw [show k + 1 + j = k + (j + 1) by omega]; exact h2⟩

theorem pre_prefix {t : PTree} : ∀ {p : Path} {x : Path × PTree}, x ∈ pre p t → p <+: x.1 := by
  induction t using ind' with
  | H w i ty cs ih =>
    intro p x hx
    simp only [pre, List.mem_cons, mem_pres] at hx
    rcases hx with rfl | ⟨j, c, h1, h2⟩
    · exact List.prefix_rfl
    · exact (List.prefix_append p _).trans (ih c (List.mem_of_getElem? h1) h2)

theorem prefix_snoc_inj {p q : Path} {a b : Nat} (h1 : p ++ [a] <+: q) (h2 : p ++ [b] <+: q) : a = b := by
  obtain ⟨r, rfl⟩ := h1
  rw [List.append_assoc, List.prefix_append_right_inj] at h2
  obtain ⟨r', h⟩ := h2
  simp at h
  exact h.1.symm

/-- A path belongs to one node. -/
theorem pre_inj {t : PTree} : ∀ {p : Path} {x y : Path × PTree}, x ∈ pre p t → y ∈ pre p t → x.1 = y.1 → x = y := by
  induction t using ind' with
  | H w i ty cs ih =>
    intro p x y hx hy e
    simp only [pre, List.mem_cons, mem_pres] at hx hy
    have hne : ∀ {j : Nat} {c : PTree} {z : Path × PTree}, z ∈ pre (p ++ [0 + j]) c → z.1 ≠ p := by
      intro j c z hz e
      have := (pre_prefix hz).length_le
      rw [e] at this
      simp at this
      omega
    rcases hx with rfl | ⟨j, c, h1, h2⟩ <;> rcases hy with rfl | ⟨j', c', h1', h2'⟩
    · rfl
    · exact absurd e.symm (hne h2')
    · exact absurd e (hne h2)
    · have := prefix_snoc_inj (pre_prefix h2) (e ▸ pre_prefix h2')
      obtain rfl : j = j' := by omega
      rw [h1] at h1'
      cases h1'
      exact ih c (List.mem_of_getElem? h1) h2 h2' e

theorem pre_nodup {t : PTree} : ∀ {p : Path}, (pre p t).Nodup := by
  induction t using ind' with
  | H w i ty cs ih =>
    intro p
    have hl : ∀ (cs : List PTree), (∀ c ∈ cs, ∀ {p : Path}, (pre p c).Nodup) → ∀ k, (pres p k cs).Nodup := by
      intro cs
      induction cs with
      | nil => intro _ k; simp [pres]
      | cons c cs ihc =>
        intro h k
        simp only [pres]
        refine List.nodup_append.2 ⟨h c (by simp), ihc (fun d hd => h d (by simp [hd])) (k + 1), ?_⟩
        intro x hx y hy e
        subst e
        obtain ⟨j, d, h1, h2⟩ := mem_pres.1 hy
        have := prefix_snoc_inj (pre_prefix hx) (pre_prefix h2)
        omega
    simp only [pre]
    refine List.nodup_cons.2 ⟨?_, hl cs (fun c hc => ih c hc) 0⟩
    intro h
    obtain ⟨j, c, h1, h2⟩ := mem_pres.1 h
    have := (pre_prefix h2).length_le
    simp at this
    omega

/-- There is nothing under a node without children. -/
theorem pre_leaf {t : PTree} : ∀ {p : Path} {x y : Path × PTree}, x ∈ pre p t → y ∈ pre p t → x.2.children = [] → x.1 <+: y.1 → y = x := by
  induction t using ind' with
  | H w i ty cs ih =>
    intro p x y hx hy hc hp
    have hx0 := hx; have hy0 := hy
    simp only [pre, List.mem_cons, mem_pres] at hx hy
    rcases hx with rfl | ⟨j, c, h1, h2⟩
    · simp only [PTree.children] at hc
      subst hc
      rcases hy with rfl | ⟨j, c, h1, h2⟩
      · rfl
      · simp at h1
    · rcases hy with rfl | ⟨j', c', h1', h2'⟩
      · have h3 := hp.length_le
        have h4 := (pre_prefix h2).length_le
        simp at h3 h4
        omega
      · have := prefix_snoc_inj ((pre_prefix h2).trans hp) (pre_prefix h2')
        obtain rfl : j = j' := by omega
        rw [h1] at h1'
        cases h1'
        exact ih c (List.mem_of_getElem? h1) h2 h2' hc hp

/-- The children of a node are nodes. -/
theorem pre_child {t : PTree} : ∀ {p : Path} {x : Path × PTree} {j : Nat} {c : PTree}, x ∈ pre p t → x.2.children[j]? = some c → (x.1 ++ [j], c) ∈ pre p t := by
  induction t using ind' with
  | H w i ty cs ih =>
    intro p x j c hx hc
    have hself : ∀ (q : Path) (u : PTree), (q, u) ∈ pre q u := by intro q u; cases u; simp [pre]
    simp only [pre, List.mem_cons, mem_pres] at hx ⊢
    rcases hx with rfl | ⟨j', c', h1, h2⟩
    · exact .inr ⟨j, c, hc, by simpa using hself _ _⟩
    · exact .inr ⟨j', c', h1, ih c' (List.mem_of_getElem? h1) h2 hc⟩

theorem pre_subs {t : PTree} : ∀ {p : Path}, (pre p t).map Prod.snd = t.subs := by
  induction t using ind' with
  | H w i ty cs ih =>
    intro p
    have hl : ∀ (cs : List PTree), (∀ c ∈ cs, ∀ {p : Path}, (pre p c).map Prod.snd = c.subs) → ∀ k, (pres p k cs).map Prod.snd = cs.flatMap subs := by
      intro cs
      induction cs with
      | nil => intro _ k; simp [pres]
      | cons c cs ihc =>
        intro h k
        simp only [pres, List.map_append, h c (by simp), ihc (fun d hd => h d (by simp [hd])) (k + 1), List.flatMap_cons]
    rw [subs_node]
    simp only [pre, List.map_cons, hl cs (fun c hc => ih c hc) 0]

/-! ## Later copies -/

/-- What is known about a copy `y` of a word that is met after the copy `x`. -/
def Later (S : List Path) (x y : Path × PTree) : Prop := key x.2 = key y.2 → y.2.children = [] ∧ (y.1 ∈ S ∨ y.1.length ≤ x.1.length)

/-- The list has the children that are copies of their parent. -/
def HasSelfs (S : List Path) (l : List (Path × PTree)) : Prop := ∀ x ∈ l, ∀ (j : Nat) (c : PTree), x.2.children[j]? = some c → key c = key x.2 → x.1 ++ [j] ∈ S

theorem key_mem_pre {t : PTree} {p : Path} {x : Path × PTree} (h : x ∈ pre p t) : key x.2 ∈ keys t := by
  refine mem_keys.2 ⟨x.2, ?_, rfl⟩
  rw [← pre_subs (p := p)]
  exact List.mem_map_of_mem h

theorem pre_of_leaf {c : PTree} {p : Path} (h : c.children = []) : pre p c = [(p, c)] := by
  cases c
  simp only [PTree.children] at h
  subst h
  simp [pre, pres]

theorem pre_dup (S : List Path) {t : PTree} : ∀ {p : Path}, Dup t → HasSelfs S (pre p t) → (pre p t).Pairwise (Later S) := by
  induction t using ind' with
  | H w i ty cs ih =>
    intro p hd hS
    have hl : ∀ (cs : List PTree), (∀ c ∈ cs, ∀ {p : Path}, Dup c → HasSelfs S (pre p c) → (pre p c).Pairwise (Later S)) → ∀ (k : Nat) (seen : List Key), Dups seen cs → HasSelfs S (pres p k cs) →
        (pres p k cs).Pairwise (Later S) ∧ ∀ y ∈ pres p k cs, key y.2 ∈ seen → y.2.children = [] ∧ ∃ j c, cs[j]? = some c ∧ y = (p ++ [k + j], c) := by
      intro cs
      induction cs with
      | nil => intro _ k seen _ _; simp [pres]
      | cons c cs ihc =>
        intro h k seen hds hS
        simp only [Dups] at hds
        obtain ⟨d1, d2, d3⟩ := hds
        have hS1 : HasSelfs S (pre (p ++ [k]) c) := fun x hx => hS x (by simp only [pres, List.mem_append]; exact .inl hx)
        have hS2 : HasSelfs S (pres p (k + 1) cs) := fun x hx => hS x (by simp only [pres, List.mem_append]; exact .inr hx)
        obtain ⟨i1, i2⟩ := ihc (fun d hd => h d (by simp [hd])) (k + 1) _ d3 hS2
        have hshift : ∀ y, (∃ j c', cs[j]? = some c' ∧ y = (p ++ [k + 1 + j], c')) → ∃ j c', (c :: cs)[j]? = some c' ∧ y = (p ++ [k + j], c') := by
          rintro y ⟨j, c', h1, h2⟩
          exact ⟨j + 1, c', by simpa using h1, by rw [show k + (j + 1) = k + 1 + j by omega]; exact h2⟩
        simp only [pres]
        refine ⟨List.pairwise_append.2 ⟨h c (by simp) d1 hS1, i1, ?_⟩, ?_⟩
        · intro x hx y hy e
          obtain ⟨e1, j, c', _, e2⟩ := i2 y hy (by rw [← e]; exact List.mem_append_right _ (key_mem_pre hx))
          refine ⟨e1, .inr ?_⟩
          have := (pre_prefix hx).length_le
          rw [e2]
          simpa using this
        · intro y hy hk
          rcases List.mem_append.1 hy with hy | hy
          · obtain ⟨e1, e2⟩ := d2 _ hk (key_mem_pre hy)
            rw [pre_of_leaf e2] at hy
            simp at hy
            subst hy
            exact ⟨e2, 0, c, by simp, by simp⟩
          · obtain ⟨e1, e2⟩ := i2 y hy (by simp [hk])
            exact ⟨e1, hshift y e2⟩
    simp only [Dup] at hd
    have hS' : HasSelfs S (pres p 0 cs) := fun x hx => hS x (by simp only [pre, List.mem_cons]; exact .inr hx)
    obtain ⟨h1, h2⟩ := hl cs (fun c hc => ih c hc) 0 _ hd hS'
    simp only [pre]
    refine List.pairwise_cons.2 ⟨?_, h1⟩
    intro y hy e
    obtain ⟨e1, j, c, e2, e3⟩ := h2 y hy (by rw [← e]; simp [key, PTree.word, PTree.ind])
    refine ⟨e1, .inl ?_⟩
    rw [e3]
    have := hS (p, .node w i ty cs) (by simp [pre]) j c e2 (by rw [e3] at e; exact e.symm)
    simpa using this

/-! ## Pruning -/

theorem prune_keys (R : List Path) {t : PTree} : ∀ {p : Path}, p ∉ R → (∀ x ∈ pre p t, x.1 ∈ R → x.2.children = []) → keys (prune R p t) = ((pre p t).filter (fun x => decide (x.1 ∉ R))).map (fun x => key x.2) := by
  induction t using ind' with
  | H w i ty cs ih =>
    intro p hp hR
    have hl : ∀ (cs : List PTree), (∀ c ∈ cs, ∀ {p : Path}, p ∉ R → (∀ x ∈ pre p c, x.1 ∈ R → x.2.children = []) → keys (prune R p c) = ((pre p c).filter (fun x => decide (x.1 ∉ R))).map (fun x => key x.2)) →
        ∀ k, (∀ x ∈ pres p k cs, x.1 ∈ R → x.2.children = []) → (prunes R p k cs).flatMap keys = ((pres p k cs).filter (fun x => decide (x.1 ∉ R))).map (fun x => key x.2) := by
      intro cs
      induction cs with
      | nil => intro _ k _; simp [prunes, pres]
      | cons c cs ihc =>
        intro h k hR
        have hR2 : ∀ x ∈ pres p (k + 1) cs, x.1 ∈ R → x.2.children = [] := fun x hx => hR x (by simp only [pres, List.mem_append]; exact .inr hx)
        have i2 := ihc (fun d hd => h d (by simp [hd])) (k + 1) hR2
        have hR1 : ∀ x ∈ pre (p ++ [k]) c, x.1 ∈ R → x.2.children = [] := fun x hx => hR x (by simp only [pres, List.mem_append]; exact .inl hx)
        simp only [prunes, pres, List.filter_append, List.map_append]
        split
        · rename_i hk
          have hself : (p ++ [k], c) ∈ pre (p ++ [k]) c := by cases c; simp [pre]
          rw [pre_of_leaf (hR1 _ hself hk), i2]
          simp [hk]
        · rename_i hk
          rw [List.flatMap_cons, i2, h c (by simp) hk hR1]
    simp only [prune, keys_node, pre]
    rw [hl cs (fun c hc => ih c hc) 0 (fun x hx => hR x (by simp only [pre, List.mem_cons]; exact .inr hx))]
    simp [hp, key, PTree.word, PTree.ind]

theorem prune_root (R : List Path) (p : Path) (t : PTree) : (prune R p t).word = t.word ∧ (prune R p t).ind = t.ind ∧ (prune R p t).typ = t.typ := by
  cases t; simp [prune, PTree.word, PTree.ind, PTree.typ]

/-- Pruning adds no edges. -/
theorem prune_edges (R : List Path) {t : PTree} : ∀ {p : Path}, (edges (prune R p t)).Sublist (edges t) := by
  induction t using ind' with
  | H w i ty cs ih =>
    intro p
    have hl : ∀ (cs : List PTree), (∀ c ∈ cs, ∀ {p : Path}, (edges (prune R p c)).Sublist (edges c)) → ∀ k, ((prunes R p k cs).flatMap edges).Sublist (cs.flatMap edges) ∧
        ((prunes R p k cs).flatMap (fun c => c.typ.map (fun o => (((w, i) : Key), ((c.word, c.ind) : Key), o)))).Sublist (cs.flatMap (fun c => c.typ.map (fun o => (((w, i) : Key), ((c.word, c.ind) : Key), o)))) := by
      intro cs
      induction cs with
      | nil => intro _ k; simp [prunes]
      | cons c cs ihc =>
        intro h k
        obtain ⟨i1, i2⟩ := ihc (fun d hd => h d (by simp [hd])) (k + 1)
        simp only [prunes]
        split
        · exact ⟨i1.trans (by rw [List.flatMap_cons]; exact List.sublist_append_right _ _), i2.trans (by rw [List.flatMap_cons]; exact List.sublist_append_right _ _)⟩
        · simp only [List.flatMap_cons]
          obtain ⟨e1, e2, e3⟩ := prune_root R (p ++ [k]) c
          refine ⟨(h c (by simp)).append i1, ?_⟩
          rw [e1, e2, e3]
          exact (List.Sublist.refl _).append i2
    obtain ⟨h1, h2⟩ := hl cs (fun c hc => ih c hc) 0
    simp only [prune, edges_node]
    exact h2.append h1

end DTree
end Lambeq
