import Verif.Text.TreeNodesSpec

/-!
# Trees from lists: proofs (C87)
-/

namespace Lambeq
namespace PTree
set_option linter.unusedSimpArgs false
set_option linter.unusedVariables false

/-! ## Children in the graph -/

theorem lastIdx {ps : List Int} {p : Int} (h : p ∈ ps) : ps[ps.length - 1 - ps.reverse.idxOf p]? = some p := by
  have h1 : p ∈ ps.reverse := by simpa using h
  have h2 := List.idxOf_lt_length_iff.2 h1
  rw [List.length_reverse] at h2
  have h3 : ps.reverse[ps.reverse.idxOf p]? = some p := by
    rw [List.getElem?_eq_getElem (by simpa using h2)]
    simp
  rw [List.getElem?_reverse h2] at h3
  exact h3

theorem mem_kids {parents : List (List Int)} {p : Int} {c k : Nat} : (c, k) ∈ kids parents p ↔
    ∃ ps, parents[c]? = some ps ∧ p ∈ ps ∧ k = ps.length - 1 - ps.reverse.idxOf p := by
  rw [kids]
  simp only [List.mem_flatten, List.mem_mapIdx]
  constructor
  · rintro ⟨l, ⟨i, hi, rfl⟩, h⟩
    split at h
    · rename_i hc
      simp at h
      obtain ⟨rfl, rfl⟩ := h
      exact ⟨_, List.getElem?_eq_getElem hi, by simpa using hc, by simp⟩
    · simp at h
  · rintro ⟨ps, h1, h2, rfl⟩
    obtain ⟨hc, h1⟩ := List.getElem?_eq_some_iff.1 h1
    refine ⟨_, ⟨c, hc, rfl⟩, ?_⟩
    rw [h1, if_pos (by simpa using h2)]
    simp

theorem kids_pairwise (parents : List (List Int)) (p : Int) : (kids parents p).Pairwise (fun a b => a.1 < b.1) := by
  rw [kids, List.pairwise_flatten]
  constructor
  · intro l hl
    obtain ⟨i, hi, rfl⟩ := List.mem_mapIdx.1 hl
    split <;> simp
  · rw [List.pairwise_iff_getElem]
    intro i j hi hj hij x hx y hy
    rw [List.getElem_mapIdx] at hx hy
    split at hx
    · split at hy
      · simp at hx hy; rw [hx, hy]; exact hij
      · simp at hy
    · simp at hx

/-! ## Ways up -/

theorem upOk_mono {parents : List (List Int)} {m n i : Nat} (h : m ≤ n) (hu : upOk parents m i = true) : upOk parents n i = true := by
  induction m generalizing n i with
  | zero => simp [upOk] at hu
  | succ m ih =>
    cases n with
    | zero => omega
    | succ n =>
      rw [upOk] at hu ⊢
      cases hp : parents[i]? with
      | none => simp [hp] at hu
      | some ps =>
        simp only [hp, List.all_eq_true, Bool.or_eq_true] at hu ⊢
        intro p hpm
        rcases hu p hpm with h1 | h1
        · exact .inl h1
        · exact .inr (ih (by omega) h1)

theorem upOk_step {parents : List (List Int)} {m c : Nat} {ps : List Int} {p : Nat} (h : upOk parents (m + 1) c = true) (hp : parents[c]? = some ps)
    (hm : (p : Int) ∈ ps) : upOk parents m p = true := by
  rw [upOk, hp] at h
  simp only [List.all_eq_true, Bool.or_eq_true] at h
  rcases h _ hm with h1 | h1
  · simp at h1
  · simpa using h1

/-! ## What the result consists of -/

/-- The checks of `generate_tree` passed. -/
structure Checked (tokens : List String) (types : List (List (List Char))) (parents : List (List Int)) : Prop where
  bounds : ∀ ps ∈ parents, ∀ p ∈ ps, -1 ≤ p ∧ p < parents.length
  noself : ∀ (i : Nat) (ps : List Int), parents[i]? = some ps → (i : Int) ∉ ps
  ltok : tokens.length = parents.length
  ltyp : types.length = parents.length
  lens : ∀ (i : Nat) (tys : List (List Char)) (ps : List Int), types[i]? = some tys → parents[i]? = some ps → ps.length ≤ tys.length
  nonempty : ∀ ps ∈ parents, ps ≠ []
  up : ∀ i < parents.length, upOk parents parents.length i = true

theorem generateTree_ok {tokens types parents R} (h : generateTree tokens types parents = .ok R) :
    Checked tokens types parents ∧ R = (kids parents (-1)).flatMap (fun c => (List.range (types.getD c.1 []).length).map
      (fun k => unfold tokens types parents (parents.length + 1) c.1 k)) := by
  rw [generateTree] at h
  split at h
  · simp at h
  · rename_i h1
    split at h
    · simp at h
    · rename_i h2
      split at h
      · simp at h
      · rename_i h3
        simp only [Bool.not_eq_true, Bool.or_eq_false_iff] at h1 h3
        push Not at h2
        obtain ⟨h21, h22, h23⟩ := h2
        refine ⟨⟨?_, ?_, h21, h22, ?_, ?_, ?_⟩, by simpa using h.symm⟩
        · intro ps hps p hp
          have := h1.1
          rw [outOfBounds, List.any_eq_false] at this
          have := this ps hps
          rw [Bool.not_eq_true, List.any_eq_false] at this
          have := this p hp
          simp at this
          omega
        · intro i ps hi hm
          have := h1.2
          rw [selfParent, List.any_eq_false] at this
          obtain ⟨hl, hi⟩ := List.getElem?_eq_some_iff.1 hi
          have := this _ (List.mem_mapIdx.2 ⟨i, hl, rfl⟩)
          simp only [hi] at this
          simp at this
          exact this hm
        · intro i tys ps ht hp
          obtain ⟨hl, ht⟩ := List.getElem?_eq_some_iff.1 ht
          obtain ⟨hl', hp⟩ := List.getElem?_eq_some_iff.1 hp
          rw [ne_eq, Bool.not_eq_true, List.any_eq_false] at h23
          have := h23 (tys, ps) (by
            rw [← ht, ← hp, ← List.getElem_zip (h := by simp; omega)]
            exact List.getElem_mem _)
          simpa using this
        · intro ps hps e
          have := h3.1
          rw [List.any_eq_false] at this
          exact this ps hps (by simp [e])
        · intro i hi
          have := h3.2
          rw [List.any_eq_false] at this
          have := this i (by simpa using hi)
          simpa using this

theorem checked_ok {tokens types parents} (h : Checked tokens types parents) :
    generateTree tokens types parents = .ok ((kids parents (-1)).flatMap (fun c => (List.range (types.getD c.1 []).length).map
      (fun k => unfold tokens types parents (parents.length + 1) c.1 k))) := by
  rw [generateTree, if_neg, if_neg, if_neg]
  · simp only [Bool.not_eq_true, Bool.or_eq_false_iff]
    constructor
    · rw [List.any_eq_false]
      intro ps hps
      simpa using h.nonempty ps hps
    · rw [List.any_eq_false]
      intro i hi
      simpa using h.up i (by simpa using hi)
  · push Not
    refine ⟨h.ltok, h.ltyp, ?_⟩
    rw [ne_eq, Bool.not_eq_true, List.any_eq_false]
    intro x hx
    obtain ⟨i, hi, rfl⟩ := List.getElem_of_mem hx
    rw [List.length_zip] at hi
    rw [List.getElem_zip]
    have := h.lens i _ _ (List.getElem?_eq_getElem (by omega)) (List.getElem?_eq_getElem (by omega))
    simpa using this
  · simp only [Bool.not_eq_true, Bool.or_eq_false_iff]
    constructor
    · rw [outOfBounds, List.any_eq_false]
      intro ps hps
      rw [Bool.not_eq_true, List.any_eq_false]
      intro p hp
      have := h.bounds ps hps p hp
      simp; omega
    · rw [selfParent, List.any_eq_false]
      intro b hb
      obtain ⟨i, hi, rfl⟩ := List.mem_mapIdx.1 hb
      have := h.noself i _ (List.getElem?_eq_getElem hi)
      simpa using this

variable {tokens : List String} {types : List (List (List Char))} {parents : List (List Int)}

theorem unfold_ind (f i k : Nat) : (unfold tokens types parents f i k).ind = i := by cases f <;> rfl

/-- the nodes of the unfolded tree -/
theorem unfold_nodes (H : Checked tokens types parents) (f d i k : Nat) (par : Int) (hf : f + d = parents.length + 1) (hd : ∀ m, upOk parents m i = true → d < m)
    (hi : i < parents.length) (x : Int × PTree) (hx : x ∈ (unfold tokens types parents f i k).withParents par) :
    x.2.ind < parents.length ∧ x.2.word = tokens.getD x.2.ind "" ∧
      ((x.1 = par ∧ x.2.ind = i ∧ x.2.typ = strToTy ((types.getD i []).getD k [])) ∨
        ∃ j, (parents.getD x.2.ind [])[j]? = some x.1 ∧ x.2.typ = strToTy ((types.getD x.2.ind []).getD j [])) := by
  induction f generalizing d i k par with
  | zero =>
    have := hd _ (H.up i hi)
    omega
  | succ f ih =>
    rw [unfold, withParents_node] at hx
    rcases List.mem_cons.1 hx with hx | hx
    · subst hx
      exact ⟨hi, rfl, .inl ⟨rfl, rfl, rfl⟩⟩
    · obtain ⟨c, hc, hx⟩ := List.mem_flatMap.1 hx
      split at hc
      · obtain ⟨⟨c, k'⟩, hk, rfl⟩ := List.mem_map.1 hc
        obtain ⟨ps, hps, hm, hk'⟩ := mem_kids.1 hk
        have hcl : c < parents.length := (List.getElem?_eq_some_iff.1 hps).1
        have := ih (d + 1) c k' i (by omega) (by
          intro m hm'
          cases m with
          | zero => simp [upOk] at hm'
          | succ m => have := hd m (upOk_step hm' hps hm); omega) hcl hx
        refine ⟨this.1, this.2.1, .inr ?_⟩
        rcases this.2.2 with ⟨e1, e2, e3⟩ | h
        · refine ⟨k', ?_, by rw [e2]; exact e3⟩
          rw [e1, e2, List.getD_eq_getElem?_getD, hps]
          subst hk'
          exact lastIdx hm
        · exact h
      · simp at hc

theorem subs_trans {a b c : PTree} (h1 : a ∈ b.subs) (h2 : b ∈ c.subs) : a ∈ c.subs := by
  induction c using ind' with
  | H w i t cs ih =>
    rw [subs_node] at h2 ⊢
    rcases List.mem_cons.1 h2 with h2 | h2
    · subst h2; rwa [subs_node] at h1
    · obtain ⟨c, hc, h2⟩ := List.mem_flatMap.1 h2
      exact List.mem_cons_of_mem _ (List.mem_flatMap.2 ⟨c, hc, ih c hc h2⟩)

theorem self_mem_subs (t : PTree) : t ∈ t.subs := by
  obtain ⟨w, i, ty, cs⟩ := t; rw [subs_node]; simp

theorem lastIdx_nodup {ps : List Int} {p : Int} {k : Nat} (hn : ps.Nodup) (h : ps[k]? = some p) : ps.length - 1 - ps.reverse.idxOf p = k := by
  have h1 := lastIdx (List.mem_of_getElem? h)
  obtain ⟨hk, h⟩ := List.getElem?_eq_some_iff.1 h
  obtain ⟨hk', h1⟩ := List.getElem?_eq_some_iff.1 h1
  exact (List.Nodup.getElem_inj_iff hn).1 (h1.trans h.symm)

/-- every copy of every token is somewhere in the result -/
theorem occurs (H : Checked tokens types parents) (hn : ∀ ps ∈ parents, ps.Nodup) (m i k : Nat) (hu : upOk parents m i = true) (ps : List Int)
    (hps : parents[i]? = some ps) (hk : k < ps.length) :
    ∃ r ∈ (kids parents (-1)).flatMap (fun c => (List.range (types.getD c.1 []).length).map (fun k => unfold tokens types parents (parents.length + 1) c.1 k)),
      ∃ f d, f + d = parents.length + 1 ∧ (∀ m, upOk parents m i = true → d < m) ∧ unfold tokens types parents f i k ∈ r.subs := by
  induction m generalizing i k ps with
  | zero => simp [upOk] at hu
  | succ m ih =>
    have hil : i < parents.length := (List.getElem?_eq_some_iff.1 hps).1
    have hmem : ps ∈ parents := List.mem_of_getElem? hps
    have hp : ps[k]? = some ps[k] := List.getElem?_eq_getElem hk
    generalize ps[k] = p at hp
    have hpm : p ∈ ps := List.mem_of_getElem? hp
    have hkid : (i, k) ∈ kids parents p := mem_kids.2 ⟨ps, hps, hpm, (lastIdx_nodup (hn ps hmem) hp).symm⟩
    have hb := H.bounds ps hmem p hpm
    by_cases h1 : p = -1
    · subst h1
      refine ⟨_, List.mem_flatMap.2 ⟨_, hkid, List.mem_map.2 ⟨k, ?_, rfl⟩⟩, parents.length + 1, 0, rfl, ?_, self_mem_subs _⟩
      · have ht : types[i]? = some (types[i]'(by have := H.ltyp; omega)) := List.getElem?_eq_getElem _
        have := H.lens i _ ps ht hps
        rw [List.mem_range, List.getD_eq_getElem?_getD, ht, Option.getD_some]
        omega
      · intro m hm
        cases m with
        | zero => simp [upOk] at hm
        | succ m => omega
    · obtain ⟨q, rfl⟩ : ∃ q : Nat, p = q := ⟨p.toNat, by omega⟩
      have hq : q < parents.length := by omega
      have hqs : parents[q]? = some parents[q] := List.getElem?_eq_getElem hq
      obtain ⟨r, hr, f, d, hfd, hd, hs⟩ := ih q 0 (upOk_step hu hps hpm) _ hqs
        (by have := H.nonempty _ (List.mem_of_getElem? hqs); exact List.length_pos_iff.2 this)
      have hd' := hd _ (H.up q hq)
      obtain ⟨f, rfl⟩ : ∃ f', f = f' + 1 := ⟨f - 1, by omega⟩
      refine ⟨r, hr, f, d + 1, by omega, ?_, ?_⟩
      · intro m hm
        cases m with
        | zero => simp [upOk] at hm
        | succ m => have := hd m (upOk_step hm hps hpm); omega
      · refine subs_trans ?_ hs
        rw [unfold, if_pos rfl, subs_node]
        refine List.mem_cons_of_mem _ (List.mem_flatMap.2 ⟨_, List.mem_map.2 ⟨_, hkid, rfl⟩, self_mem_subs _⟩)

/-! ## One parent for each token -/

/-- the token above, `d` times -/
def anc (par : Nat → Int) : Nat → Nat → Int
  | 0, i => i
  | d + 1, i => if par i = -1 then -1 else anc par d (par i).toNat

theorem anc_neg (par : Nat → Int) (e k i : Nat) (h : anc par e i = -1) : anc par (e + k) i = -1 := by
  induction e generalizing i with
  | zero => simp [anc] at h
  | succ e ih =>
    rw [Nat.add_right_comm, anc]
    rw [anc] at h
    by_cases h1 : par i = -1
    · rw [if_pos h1]
    · rw [if_neg h1] at h ⊢
      exact ih _ h

theorem anc_add (par : Nat → Int) (e k j i : Nat) (h : anc par e j = i) : anc par (e + k) j = anc par k i := by
  induction e generalizing j with
  | zero =>
    have : j = i := by rw [anc] at h; omega
    rw [this, Nat.zero_add]
  | succ e ih =>
    rw [Nat.add_right_comm, anc]
    rw [anc] at h
    by_cases h1 : par j = -1
    · rw [if_pos h1] at h; omega
    · rw [if_neg h1] at h ⊢
      exact ih _ h

/-- `d` steps up from `i` are possible, not more -/
def Dep (par : Nat → Int) (i d : Nat) : Prop := anc par (d + 1) i = -1 ∧ ∀ e ≤ d, anc par e i ≠ -1

theorem Dep.unique {par : Nat → Int} {i d d' : Nat} (h : Dep par i d) (h' : Dep par i d') : d = d' := by
  rcases lt_trichotomy d d' with h1 | h1 | h1
  · exact absurd h.1 (h'.2 _ h1)
  · exact h1
  · exact absurd h'.1 (h.2 _ h1)

theorem Dep.down {par : Nat → Int} {i j d e : Nat} (h : Dep par i d) (he : anc par e j = i) : Dep par j (e + d) := by
  refine ⟨by rw [Nat.add_assoc, anc_add par e (d + 1) j i he]; exact h.1, ?_⟩
  intro e' he'
  rcases Nat.lt_or_ge e' e with h1 | h1
  · intro h2
    have := anc_neg par e' (e - e') j h2
    rw [Nat.add_sub_cancel' h1.le, he] at this
    omega
  · obtain ⟨x, rfl⟩ := Nat.exists_eq_add_of_le h1
    rw [anc_add par e x j i he]
    exact h.2 x (by omega)

theorem anc_one {par : Nat → Int} {c i : Nat} (h : par c = i) : anc par 1 c = i := by
  rw [anc, if_neg (by omega), anc, h]; simp

section single
variable {par : Nat → Int} (h1 : ∀ i (h : i < parents.length), parents[i] = [par i])
include h1

theorem mem_kids_single {p : Int} {c k : Nat} : (c, k) ∈ kids parents p ↔ c < parents.length ∧ par c = p ∧ k = 0 := by
  rw [mem_kids]
  constructor
  · rintro ⟨ps, h2, h3, rfl⟩
    obtain ⟨hc, h2⟩ := List.getElem?_eq_some_iff.1 h2
    rw [h1 c hc] at h2
    subst h2
    simp at h3
    exact ⟨hc, h3.symm, by simp⟩
  · rintro ⟨hc, rfl, rfl⟩
    exact ⟨[par c], by rw [List.getElem?_eq_getElem hc, h1 c hc], by simp, by simp⟩

/-- every node in a tree is below its root -/
theorem unfold_below (f i j : Nat) (hj : j ∈ (unfold tokens types parents f i 0).inds) : ∃ e, anc par e j = i := by
  induction f generalizing i with
  | zero =>
    rw [unfold, inds_node] at hj
    simp at hj
    exact ⟨0, by simp [anc, hj]⟩
  | succ f ih =>
    rw [unfold, if_pos rfl, mem_inds_node] at hj
    rcases hj with rfl | ⟨c, hc, hj⟩
    · exact ⟨0, by simp [anc]⟩
    · obtain ⟨⟨c, k⟩, hk, rfl⟩ := List.mem_map.1 hc
      obtain ⟨_, hp, rfl⟩ := (mem_kids_single h1).1 hk
      obtain ⟨e, he⟩ := ih c hj
      exact ⟨e + 1, by rw [anc_add par e 1 j c he]; exact anc_one hp⟩

theorem disjoint_below {f f' c c' d : Nat} (hc : Dep par c d) (hc' : Dep par c' d) {j : Nat} (hj : j ∈ (unfold tokens types parents f c 0).inds)
    (hj' : j ∈ (unfold tokens types parents f' c' 0).inds) : c = c' := by
  obtain ⟨e, he⟩ := unfold_below h1 f c j hj
  obtain ⟨e', he'⟩ := unfold_below h1 f' c' j hj'
  have := (hc.down he).unique (hc'.down he')
  have : e = e' := by omega
  subst this
  omega

theorem unfold_nodup (f i d : Nat) (hd : Dep par i d) : (unfold tokens types parents f i 0).inds.Nodup := by
  induction f generalizing i d with
  | zero => rw [unfold, inds_node]; simp
  | succ f ih =>
    rw [unfold, if_pos rfl, inds_node, List.nodup_cons, List.flatMap_map]
    have hdc : ∀ c ∈ kids parents i, c.2 = 0 ∧ par c.1 = i ∧ Dep par c.1 (1 + d) := by
      rintro ⟨c, k⟩ hk
      obtain ⟨_, hp, rfl⟩ := (mem_kids_single h1).1 hk
      exact ⟨rfl, hp, hd.down (anc_one hp)⟩
    constructor
    · intro hm
      obtain ⟨⟨c, k⟩, hk, hm⟩ := List.mem_flatMap.1 hm
      obtain ⟨rfl, hp, hdc⟩ := hdc _ hk
      obtain ⟨e, he⟩ := unfold_below h1 f c i hm
      have := (hdc.down he).unique hd
      omega
    · rw [List.nodup_flatMap]
      constructor
      · rintro ⟨c, k⟩ hk
        obtain ⟨rfl, hp, hdc⟩ := hdc _ hk
        exact ih c _ hdc
      · refine List.Pairwise.imp_of_mem ?_ (kids_pairwise parents i)
        rintro ⟨c, k⟩ ⟨c', k'⟩ hk hk' hlt j hj hj'
        obtain ⟨rfl, _, h2⟩ := hdc _ hk
        obtain ⟨rfl, _, h2'⟩ := hdc _ hk'
        have := disjoint_below h1 h2 h2' hj hj'
        simp only at hlt
        omega

theorem dep_root {c : Nat} (h : par c = -1) : Dep par c 0 := by
  refine ⟨by rw [anc, if_pos h], ?_⟩
  intro e he
  obtain rfl : e = 0 := by omega
  simp [anc]

theorem all_inds (H : Checked tokens types parents) (h2 : ∀ tys ∈ types, tys.length = 1) :
    (((kids parents (-1)).flatMap (fun c => (List.range (types.getD c.1 []).length).map (fun k => unfold tokens types parents (parents.length + 1) c.1 k))).flatMap
      inds).Perm (List.range parents.length) := by
  have hk0 : ∀ c ∈ kids parents (-1), c.2 = 0 ∧ c.1 < parents.length ∧ par c.1 = -1 := by
    rintro ⟨c, k⟩ hk
    obtain ⟨h, hp, rfl⟩ := (mem_kids_single h1).1 hk
    exact ⟨rfl, h, hp⟩
  have hlen : ∀ c ∈ kids parents (-1), (types.getD c.1 []).length = 1 := by
    intro c hc
    have h3 : c.1 < types.length := by rw [H.ltyp]; exact (hk0 c hc).2.1
    rw [List.getD_eq_getElem?_getD, List.getElem?_eq_getElem h3]
    exact h2 _ (List.getElem_mem h3)
  have e : (kids parents (-1)).flatMap (fun c => (List.range (types.getD c.1 []).length).map (fun k => unfold tokens types parents (parents.length + 1) c.1 k)) =
      (kids parents (-1)).flatMap (fun c => [unfold tokens types parents (parents.length + 1) c.1 0]) :=
    List.flatMap_congr (fun c hc => by rw [hlen c hc]; rfl)
  have hnd : (((kids parents (-1)).flatMap (fun c => (List.range (types.getD c.1 []).length).map
      (fun k => unfold tokens types parents (parents.length + 1) c.1 k))).flatMap inds).Nodup := by
    rw [e, List.flatMap_assoc]
    simp only [List.flatMap_cons, List.flatMap_nil, List.append_nil]
    rw [List.nodup_flatMap]
    constructor
    · intro c hc
      exact unfold_nodup h1 _ _ 0 (dep_root h1 (hk0 c hc).2.2)
    · refine List.Pairwise.imp_of_mem ?_ (kids_pairwise parents (-1))
      intro c c' hc hc' hlt j hj hj'
      have := disjoint_below h1 (dep_root h1 (hk0 c hc).2.2) (dep_root h1 (hk0 c' hc').2.2) hj hj'
      omega
  rw [List.perm_ext_iff_of_nodup hnd List.nodup_range]
  intro j
  rw [List.mem_range]
  constructor
  · intro hj
    obtain ⟨r, hr, hj⟩ := List.mem_flatMap.1 hj
    obtain ⟨c, hc, hr⟩ := List.mem_flatMap.1 hr
    obtain ⟨k, _, rfl⟩ := List.mem_map.1 hr
    rw [inds, ← withParents_map _ (-1), List.map_map] at hj
    obtain ⟨x, hx, rfl⟩ := List.mem_map.1 hj
    refine (unfold_nodes H _ 0 c.1 k (-1) rfl ?_ (hk0 c hc).2.1 x hx).1
    intro m hm
    cases m with
    | zero => simp [upOk] at hm
    | succ m => omega
  · intro hj
    obtain ⟨r, hr, f, d, _, _, hs⟩ := occurs H (by
      intro ps hps
      obtain ⟨i, hi, rfl⟩ := List.getElem_of_mem hps
      rw [h1 i hi]; simp) _ j 0 (H.up j hj) _ (List.getElem?_eq_getElem hj) (by rw [h1 j hj]; simp)
    refine List.mem_flatMap.2 ⟨r, hr, ?_⟩
    exact List.mem_map.2 ⟨_, hs, unfold_ind _ _ _⟩

end single

end PTree
end Lambeq
