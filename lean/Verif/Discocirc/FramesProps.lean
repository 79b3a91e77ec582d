import Verif.Discocirc.Frames

/-!
# DisCoCirc: properties of the diagrams of frames and of sandwiches (C89)
-/

namespace Lambeq
open Diagram
set_option linter.unusedSimpArgs false

namespace Disco

mutual
theorem frames_nouns (p : List Nat) : ∀ t : PTree, (frames p t).2.1 = (nounLeaves p t).map (fun l => nounBox l.2) ∧ (frames p t).2.2 = (nounLeaves p t).map Prod.fst
  | .node w i t cs => by
      obtain ⟨h1, h2⟩ := framesKids_nouns p cs
      rw [frames, nounLeaves]
      by_cases h : t = [noun] ∧ cs = []
      · rw [if_pos h, if_pos h]
        by_cases hi : i ∈ p
        · rw [if_pos hi, if_pos hi]; exact ⟨rfl, rfl⟩
        · rw [if_neg hi, if_neg hi]; exact ⟨rfl, rfl⟩
      · rw [if_neg h, if_neg h]
        dsimp only
        by_cases h3 : (framesKids p cs).2.1 = [] ∧ args t = []
        · rw [if_pos h3]
          have : nounLeavess p cs = [] := by simpa [h1] using h3.1
          rw [this]; exact ⟨rfl, rfl⟩
        · rw [if_neg h3]; exact ⟨h1, h2⟩
theorem framesKids_nouns (p : List Nat) : ∀ cs : List PTree,
    (framesKids p cs).2.1 = (nounLeavess p cs).map (fun l => nounBox l.2) ∧ (framesKids p cs).2.2 = (nounLeavess p cs).map Prod.fst
  | [] => ⟨rfl, rfl⟩
  | c :: cs => by
      obtain ⟨h1, h2⟩ := framesKids_nouns p cs
      obtain ⟨h3, h4⟩ := frames_nouns p c
      rw [framesKids, nounLeavess]
      simp only [h1, h2, h3, h4, List.map_append]
      exact ⟨trivial, trivial⟩
end

theorem drawn_diag (d : Drawn) : d.diag.WT ∧ d.diag.dom = d.dom ∧ d.diag.cod = d.cod := by
  cases d with
  | idn t => exact ⟨WT.id _, rfl, rfl⟩
  | bx b => exact ⟨WT.ofBox _, rfl, rfl⟩

/-- The type of the diagram of a tree. -/
theorem frames_type (p : List Nat) (w : String) (i : Nat) (t : Ty) (cs : List PTree) :
    (frames p (.node w i t cs)).1.dom = (frames p (.node w i t cs)).1.cod ∧ ((frames p (.node w i t cs)).1.dom =
      nouns (nounLeaves p (.node w i t cs)).length ++ Ty.rotate (-1) (args t)) := by
  obtain ⟨h1, h2⟩ := framesKids_nouns p cs
  rw [frames, nounLeaves]
  by_cases h : t = [noun] ∧ cs = []
  · rw [if_pos h, if_pos h]
    obtain ⟨rfl, rfl⟩ := h
    by_cases hi : i ∈ p
    · rw [if_pos hi, if_pos hi]; exact ⟨rfl, rfl⟩
    · rw [if_neg hi, if_neg hi]; exact ⟨rfl, rfl⟩
  · rw [if_neg h, if_neg h]
    dsimp only
    by_cases h3 : (framesKids p cs).2.1 = [] ∧ args t = []
    · rw [if_pos h3]
      have : nounLeavess p cs = [] := by simpa [h1] using h3.1
      rw [this, h3.2]; exact ⟨rfl, rfl⟩
    · rw [if_neg h3]
      have e : (framesKids p cs).2.1.length = (nounLeavess p cs).length := by rw [h1, List.length_map]
      refine ⟨?_, ?_⟩
      · by_cases h4 : (framesKids p cs).1 = []
        · rw [if_pos h4]; rfl
        · rw [if_neg h4]; simp only [Drawn.dom, Drawn.cod, FBox.dom, FBox.cod]
      · rw [← e]
        by_cases h4 : (framesKids p cs).1 = []
        · rw [if_pos h4]; rfl
        · rw [if_neg h4]; simp only [Drawn.dom, Drawn.cod, FBox.dom, FBox.cod]

/-- The names in the diagram of a tree. -/
def Drawn.names : Drawn → List String
  | .idn _ => []
  | .bx b => FBox.names b

theorem namesCs_append (a b : List Comp) : namesCs (a ++ b) = namesCs a ++ namesCs b := by
  induction a with
  | nil => simp [namesCs]
  | cons c a ih => simp [namesCs, ih]

mutual
theorem frames_names (p : List Nat) : ∀ t : PTree, (frames p t).1.names = keptWords p t
  | .node w i t cs => by
      have hk := framesKids_names p cs
      obtain ⟨h1, h2⟩ := framesKids_nouns p cs
      rw [frames, keptWords]
      by_cases h : t = [noun] ∧ cs = []
      · rw [if_pos h, if_pos h]
        by_cases hi : i ∈ p
        · rw [if_pos hi]; rfl
        · rw [if_neg hi]; rfl
      · rw [if_neg h, if_neg h]
        dsimp only
        have e : (framesKids p cs).2.1 = [] ↔ nounLeavess p cs = [] := by rw [h1]; simp
        by_cases h3 : (framesKids p cs).2.1 = [] ∧ args t = []
        · rw [if_pos h3, if_pos ⟨e.1 h3.1, h3.2⟩]; rfl
        · have h5 : ¬ (nounLeavess p cs = [] ∧ args t = []) := fun hh => h3 ⟨e.2 hh.1, hh.2⟩
          rw [if_neg h3, if_neg h5]
          show FBox.names (if (framesKids p cs).1 = [] then _ else _) = _
          by_cases h4 : (framesKids p cs).1 = []
          · rw [if_pos h4, ← hk, h4]; simp [Drawn.names, FBox.names, namesCs]
          · rw [if_neg h4, ← hk]; simp [Drawn.names, FBox.names]
theorem framesKids_names (p : List Nat) : ∀ cs : List PTree, namesCs (framesKids p cs).1 = keptWordss p cs
  | [] => by simp [framesKids, namesCs, keptWordss]
  | c :: cs => by
      have h1 := framesKids_names p cs
      have h2 := frames_names p c
      rw [framesKids, keptWordss]
      dsimp only
      rw [namesCs_append, h1, ← h2]
      congr 1
      cases (frames p c).1 with
      | idn t => simp [Drawn.comp?, namesCs, Drawn.names]
      | bx b => simp [Drawn.comp?, namesCs, namesC, Drawn.names]
end

/-! ## Sandwiches -/

/-- The result for a tree: noun wires in and out, one for each of its distinct keys. -/
structure SOk (r : FD × List FBox × List (Option Nat) × Option Nat) : Prop where
  wt : r.1.WT
  dom : r.1.dom = nouns r.2.2.1.length
  cod : r.1.cod = nouns r.2.2.1.length
  boxes : r.2.1.length = r.2.2.1.length
  states : ∀ b ∈ r.2.1, b.dom = [] ∧ b.cod = [noun]
  keys : r.2.2.1.Nodup

/-- The state of the loop over the children. -/
structure KOk (s : Kids) : Prop where
  subs : ∀ d ∈ s.subs, d.WT ∧ ∃ j ≤ s.n2w.length, d.dom = nouns j ∧ d.cod = nouns j
  boxes : s.boxes.length = s.n2w.length
  states : ∀ b ∈ s.boxes, b.dom = [] ∧ b.cod = [noun]
  keys : s.n2w.Nodup

theorem startKids_ok (p : List Nat) (prev : Option Nat) (t : Ty) : KOk (startKids p prev t) := by
  unfold startKids
  split
  · exact ⟨by simp, rfl, by intro b hb; rw [List.mem_singleton.1 hb]; exact ⟨rfl, rfl⟩, by simp⟩
  · exact ⟨by simp, rfl, by simp, by simp⟩

theorem perm_nouns (ws : List Nat) : ∃ q : FD, permutation (B := FBox) (nouns ws.length) (permList ws) = .ok q ∧ q.WT ∧ q.dom = nouns ws.length ∧
    q.cod = nouns ws.length ∧ OnlySwaps q.layers ∧ (∀ {γ : Type} (f : Nat → γ), routeWires q.layers ((ws.insertionSort (· ≤ ·)).map f) = ws.map f) := by
  have hv' : validPerm (nouns ws.length).length (permList ws) = true := by rw [nouns_length]; exact permList_valid ws
  obtain ⟨q, q1, q2, q3, q4, q5⟩ := permutation_spec (B := FBox) (nouns ws.length) (permList ws) hv'
  rw [nouns_length] at q5
  have hsl : (ws.insertionSort (· ≤ ·)).length = ws.length := (List.perm_insertionSort (· ≤ ·) ws).length_eq
  have route : ∀ {γ : Type} (f : Nat → γ), routeWires q.layers ((ws.insertionSort (· ≤ ·)).map f) = ws.map f := by
    intro γ f
    have h1 := routeWires_of_range q.layers ((ws.insertionSort (· ≤ ·)).map f) ((permList ws).map Int.toNat) (by rw [List.length_map, hsl]; exact q5)
    rw [permList_labels] at h1
    exact List.map_injective_iff.2 (Option.some_injective _) h1
  refine ⟨q, q1, q3, q2, ?_, q4, route⟩
  have h1 := chain_onlySwaps q3 q4
  rw [q2] at h1
  have h2 := route (fun _ => noun)
  have e1 : (ws.insertionSort (· ≤ ·)).map (fun _ => noun) = nouns ws.length := by rw [List.map_const', hsl]; rfl
  rw [e1] at h2
  rw [← h1, h2, List.map_const']; rfl

theorem onWires_ok (c : FD) (anc W : List Nat) (hc : c.WT) (hd : c.dom = nouns W.length) (hcod : c.cod = nouns W.length) :
    ∃ q d : FD, permutation (B := FBox) (nouns (anc ++ W).length) (permList (anc ++ W)) = .ok q ∧ onWires c (anc ++ W) anc.length = .ok d ∧
      d = comp (comp q (tensor (Diagram.id (nouns anc.length)) c)) (fdagger q) ∧ d.WT ∧ d.dom = nouns (anc ++ W).length ∧ d.cod = nouns (anc ++ W).length := by
  obtain ⟨q, q1, q2, q3, q4, q5, q6⟩ := perm_nouns (anc ++ W)
  have hB : (tensor (Diagram.id (nouns anc.length)) c).WT := WT.tensor (WT.id _) hc
  have hBd : (tensor (Diagram.id (nouns anc.length)) c).dom = nouns (anc ++ W).length := by
    rw [tensor_dom, hd, List.length_append, ← nouns_add]; rfl
  have hBc : (tensor (Diagram.id (nouns anc.length)) c).cod = nouns (anc ++ W).length := by
    rw [tensor_cod, hcod, List.length_append, ← nouns_add]; rfl
  have hdag := daggerWith_dom_cod FBox.dagger _ q2
  have c1 : q.cod = (tensor (Diagram.id (nouns anc.length)) c).dom := by rw [hBd, q4]
  have c2 : (comp q (tensor (Diagram.id (nouns anc.length)) c)).cod = (fdagger q).dom := by
    show (tensor (Diagram.id (nouns anc.length)) c).cod = _
    rw [hBc]; exact (hdag.1.trans q4).symm
  refine ⟨q, _, q1, ?_, rfl, comp_wt (comp_wt q2 hB c1) (WT.daggerWith FBox.dagger fdagger_sig q2) c2, q3, hdag.2.1.trans q3⟩
  unfold onWires
  rw [q1]
  dsimp only
  rw [andThen_eq_ok c1]
  exact andThen_eq_ok c2

/-- The wires of a child among those of the node. -/
theorem kid_wires {α β : Type} [DecidableEq α] (n0 : List α) (b0 : List β) (ps : List (α × β)) (hps : (ps.map Prod.fst).Nodup) :
    let c := collect n0 b0 ps
    wireIds c = c.anc ++ c.ids ∧ c.n2w = entities n0 (ps.map Prod.fst) ∧ c.ids = ps.map (fun p => c.n2w.idxOf p.1) ∧ c.ids.Nodup ∧
      (∀ w, w ∈ c.anc ↔ w < c.n2w.length ∧ w ∉ c.ids) ∧ (wireIds c).length = c.n2w.length ∧ (∀ w ∈ wireIds c, w < c.n2w.length) := by
  intro c
  obtain ⟨i1, i2, i3, i4, i5, i6, i7⟩ := collect_inv n0 b0 ps
  change c.n2w = _ at i1
  have hsort : c.anc.insertionSort (· ≤ ·) = c.anc := by
    refine List.Pairwise.insertionSort_eq ?_
    rw [show c.anc = _ from i6]
    exact (List.pairwise_lt_range.imp (fun h => le_of_lt h)).filter _
  have hws : wireIds c = c.anc ++ c.ids := by rw [wireIds, hsort]
  have hle : n0.length ≤ c.n2w.length := by
    have : (collect n0 b0 ps).pre + n0.length = c.n2w.length := i2
    omega
  have hmem : ∀ p ∈ ps, p.1 ∈ c.n2w := fun p hp => by rw [i1, mem_entities]; exact .inr (List.mem_map.2 ⟨p, hp, rfl⟩)
  have i5' : c.ids = ps.map (fun p => c.n2w.idxOf p.1) := i5
  have hids : ∀ w ∈ c.ids, w < c.n2w.length := by
    intro w hw
    rw [i5'] at hw
    obtain ⟨p, hp, rfl⟩ := List.mem_map.1 hw
    exact List.idxOf_lt_length_of_mem (hmem p hp)
  have hanc : ∀ w, w ∈ c.anc ↔ w < c.n2w.length ∧ w ∉ c.ids := by
    intro w
    rw [show c.anc = _ from i6]
    simp only [List.mem_filter, List.mem_range, decide_eq_true_eq]
    constructor
    · rintro ⟨a, b⟩; exact ⟨by omega, b⟩
    · rintro ⟨a, b⟩
      refine ⟨?_, b⟩
      by_contra hcon
      exact b (i7 w (by omega) a)
  have hnd : c.ids.Nodup := by
    rw [i5', show (fun p : α × β => c.n2w.idxOf p.1) = (fun a => c.n2w.idxOf a) ∘ Prod.fst from rfl, ← List.map_map]
    refine List.Nodup.map_on ?_ hps
    intro a ha b hb hab
    obtain ⟨p, hp, rfl⟩ := List.mem_map.1 ha
    exact (List.idxOf_inj (hmem p hp)).1 hab
  have hanc_nd : c.anc.Nodup := by
    rw [show c.anc = _ from i6]; exact List.nodup_range.filter _
  have hall : (c.anc ++ c.ids).Nodup := by
    rw [List.nodup_append]
    refine ⟨hanc_nd, hnd, ?_⟩
    intro a ha b hb hab
    subst hab
    exact ((hanc a).1 ha).2 hb
  refine ⟨hws, i1, i5', hnd, hanc, ?_, ?_⟩
  · rw [hws]
    have hp : (c.anc ++ c.ids).Perm (List.range c.n2w.length) := by
      rw [List.perm_ext_iff_of_nodup hall List.nodup_range]
      intro a
      rw [List.mem_range, List.mem_append]
      constructor
      · rintro (h | h)
        · exact ((hanc a).1 h).1
        · exact hids a h
      · intro h
        by_cases hh : a ∈ c.ids
        · exact .inr hh
        · exact .inl ((hanc a).2 ⟨h, hh⟩)
    rw [hp.length_eq, List.length_range]
  · rw [hws]
    intro w hw
    rcases List.mem_append.1 hw with h | h
    · exact ((hanc w).1 h).1
    · exact hids w h

theorem addKid_ok (t : Ty) {s : Kids} (hs : KOk s) {r : FD × List FBox × List (Option Nat) × Option Nat} (hr : SOk r) :
    ∃ s', addKid t s r = .ok s' ∧ KOk s' ∧ s'.n2w = entities s.n2w r.2.2.1 ∧ s'.cursor = (if t = [noun] then r.2.2.2 else s.cursor) := by
  have hz : (r.2.2.1.zip r.2.1).map Prod.fst = r.2.2.1 := List.map_fst_zip (by rw [hr.boxes])
  have hzl : (r.2.2.1.zip r.2.1).length = r.2.2.1.length := by rw [List.length_zip, hr.boxes, Nat.min_self]
  obtain ⟨k1, k2, k3, k4, k5, k6, k7⟩ := kid_wires s.n2w s.boxes (r.2.2.1.zip r.2.1) (by rw [hz]; exact hr.keys)
  obtain ⟨i1, i2, i3, i4, i5, i6, i7⟩ := collect_inv s.n2w s.boxes (r.2.2.1.zip r.2.1)
  generalize hc : collect s.n2w s.boxes (r.2.2.1.zip r.2.1) = c at *
  have hl : c.ids.length = r.2.2.1.length := by rw [k3, List.length_map, hzl]
  obtain ⟨q, d, q1, d1, d2, d3, d4, d5⟩ := onWires_ok r.1 c.anc c.ids hr.wt (by rw [hl]; exact hr.dom) (by rw [hl]; exact hr.cod)
  rw [← k1, k6] at d4 d5
  refine ⟨⟨s.subs ++ [d], c.n2w, c.boxes, if t = [noun] then r.2.2.2 else s.cursor⟩, ?_, ⟨?_, ?_, ?_, ?_⟩, ?_, rfl⟩
  · unfold addKid
    simp only [hc]
    rw [k1, d1]
  · intro e he
    rcases List.mem_append.1 he with he | he
    · obtain ⟨h1, j, h2, h3⟩ := hs.subs e he
      exact ⟨h1, j, by show j ≤ c.n2w.length; omega, h3⟩
    · rw [List.mem_singleton.1 he]
      exact ⟨d3, c.n2w.length, le_refl _, d4, d5⟩
  · show c.boxes.length = c.n2w.length
    have := hs.boxes; omega
  · intro b hb
    have hb' : b ∈ c.boxes := hb
    rw [i4] at hb'
    rcases List.mem_append.1 hb' with hb | hb
    · exact hs.states b hb
    · obtain ⟨p, hp, rfl⟩ := firstBoxes_sub _ _ b hb
      exact hr.states _ (List.of_mem_zip hp).2
  · show c.n2w.Nodup
    rw [k2]; exact entities_nodup _ _ hs.keys
  · show c.n2w = _
    rw [k2, hz]

theorem slices_ok (w : String) (lab : Bool) (k : Nat) (subs : List FD) : ∀ (i : Nat) (big : FD), big.WT → big.dom = nouns k → big.cod = nouns k →
    (∀ d ∈ subs, d.WT ∧ ∃ j ≤ k, d.dom = nouns j ∧ d.cod = nouns j) →
    ∃ d, slices w lab k i big subs = .ok d ∧ d.WT ∧ d.dom = nouns k ∧ d.cod = nouns k := by
  induction subs with
  | nil => intro i big h1 h2 h3 _; exact ⟨big, rfl, h1, h2, h3⟩
  | cons sd rest ih =>
    intro i big h1 h2 h3 hs
    obtain ⟨s1, j, hj, s2, s3⟩ := hs sd (by simp)
    have e : k - sd.cod.length = k - j := by rw [s3, nouns_length]
    have td : (tensor sd (Diagram.id (nouns (k - sd.cod.length)))).dom = nouns k := by
      rw [tensor_dom, s2, e]
      show nouns j ++ nouns (k - j) = _
      rw [nouns_add]; congr 1; omega
    have tc : (tensor sd (Diagram.id (nouns (k - sd.cod.length)))).cod = nouns k := by
      rw [tensor_cod, s3]
      show nouns j ++ nouns (k - (nouns j).length) = _
      rw [nouns_length, nouns_add]; congr 1; omega
    have tw : (tensor sd (Diagram.id (nouns (k - sd.cod.length)))).WT := WT.tensor s1 (WT.id _)
    have c1 : big.cod = (tensor sd (Diagram.id (nouns (k - sd.cod.length)))).dom := by rw [h3, td]
    rw [slices, andThen_eq_ok c1]
    dsimp only
    generalize (if lab then (if rest = [] then "$_{bottom}$" else "$_{" ++ toString (i + 1) ++ "}$") else "") = suf
    rw [andThen_eq_ok (by rfl)]
    dsimp only
    have w1 : (comp big (tensor sd (Diagram.id (nouns (k - sd.cod.length))))).WT := comp_wt h1 tw c1
    exact ih (i + 1) _ (comp_wt w1 (WT.ofBox (FBox.base (.gen (w ++ suf) _ _ 0))) rfl) h2 tc (fun d hd => hs d (List.mem_cons_of_mem _ hd))

theorem closeNode_ok (w : String) (lab : Bool) {s : Kids} (hs : KOk s) : ∃ r, closeNode w lab s = .ok r ∧ SOk r ∧ r.2.2.1 = s.n2w ∧ r.2.2.2 = s.cursor := by
  unfold closeNode
  dsimp only
  by_cases h : s.n2w = []
  · rw [if_pos h]
    exact ⟨_, rfl, ⟨WT.id _, rfl, rfl, rfl, by simp, by simp⟩, h.symm, rfl⟩
  · rw [if_neg h]
    obtain ⟨d, d1, d2, d3, d4⟩ := slices_ok w lab s.n2w.length (s.subs.filter (fun d => !d.layers.isEmpty)) 0
      (ofBox (.base (.gen (w ++ (if lab && !(s.subs.filter (fun d => !d.layers.isEmpty)).isEmpty then "$_{top}$" else "")) (nouns s.n2w.length) (nouns s.n2w.length) 0)))
      (WT.ofBox _) rfl rfl (fun d hd => hs.subs d (List.mem_of_mem_filter hd))
    rw [d1]
    exact ⟨_, rfl, ⟨d2, d3, d4, hs.boxes, hs.states, hs.keys⟩, rfl, rfl⟩

mutual
theorem sandwich_ok (p : List Nat) (lab : Bool) : ∀ (t : PTree) (prev : Option Nat), ∃ r, sandwich p lab prev t = .ok r ∧ SOk r
  | .node w i t cs, prev => by
      rw [sandwich]
      by_cases h : t = [noun] ∧ cs = []
      · rw [if_pos h]
        by_cases hi : i ∈ p
        · rw [if_pos hi]; exact ⟨_, rfl, ⟨WT.id _, rfl, rfl, rfl, by simp, by simp⟩⟩
        · rw [if_neg hi]
          exact ⟨_, rfl, ⟨WT.id _, rfl, rfl, rfl, by intro b hb; rw [List.mem_singleton.1 hb]; exact ⟨rfl, rfl⟩, by simp⟩⟩
      · rw [if_neg h]
        obtain ⟨s, s1, s2⟩ := sandwichKids_ok p lab cs _ (startKids_ok p prev t)
        rw [s1]
        obtain ⟨r, r1, r2, _⟩ := closeNode_ok w lab s2
        exact ⟨r, r1, r2⟩
theorem sandwichKids_ok (p : List Nat) (lab : Bool) : ∀ (cs : List PTree) (s : Kids), KOk s → ∃ s', sandwichKids p lab s cs = .ok s' ∧ KOk s'
  | [], s, h => ⟨s, by rw [sandwichKids], h⟩
  | c :: cs, s, h => by
      obtain ⟨r, r1, r2⟩ := sandwich_ok p lab c s.cursor
      obtain ⟨s', s1, s2, _⟩ := addKid_ok c.typ h r2
      rw [sandwichKids, r1]
      dsimp only
      rw [s1]
      exact sandwichKids_ok p lab cs s' s2
end

end Disco
end Lambeq
