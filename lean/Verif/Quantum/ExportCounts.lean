import Verif.Quantum.ExportTail

/-!
# Counts of a backend (C56)
-/

namespace Lambeq
open Diagram
set_option linter.unusedSectionVars false
set_option linter.unusedSimpArgs false

namespace QBox
noncomputable section

/-- The bitstring has the post-selected values. -/
def Selected (post : List (Nat × Nat)) (s : List Nat) : Prop := ∀ p ∈ post, s.getD p.1 0 = p.2

theorem agrees_spec (s : List Nat) (post : List (Nat × Nat)) (h : ∀ p ∈ post, p.1 < s.length) :
    (Selected post s → agrees s post = .ok true) ∧ (¬ Selected post s → agrees s post = .ok false) := by
  induction post with
  | nil => exact ⟨fun _ => rfl, fun hn => absurd (fun p hp => by cases hp) hn⟩
  | cons p post ih =>
    obtain ⟨i, v⟩ := p
    have hi : i < s.length := h (i, v) (by simp)
    obtain ⟨h1, h2⟩ := ih (fun p hp => h p (List.mem_cons_of_mem _ hp))
    have hg : s.getD i 0 = s[i] := by simp [List.getD_eq_getElem?_getD, hi]
    simp only [agrees, List.getElem?_eq_getElem hi]
    constructor
    · intro hs
      have := hs (i, v) (by simp)
      rw [hg] at this
      rw [if_pos this]
      exact h1 (fun p hp => hs p (List.mem_cons_of_mem _ hp))
    · intro hs
      by_cases e : s[i] = v
      · rw [if_pos e]
        refine h2 (fun hs' => hs (fun p hp => ?_))
        rcases List.mem_cons.1 hp with rfl | hp
        · rw [hg]; exact e
        · exact hs' p hp
      · rw [if_neg e]

theorem Counts.get_set (c : Counts) (s t : List Nat) (x : ℝ) : (c.set s x).get t = if s = t then x else c.get t := by
  induction c with
  | nil => by_cases h : s = t <;> simp [Counts.set, Counts.get, h]
  | cons e c ih =>
    obtain ⟨s', x'⟩ := e
    by_cases hs : s' = s
    · subst hs
      by_cases h : s' = t <;> simp [Counts.set, Counts.get, h]
    · simp only [Counts.set, hs, if_false]
      by_cases h : s' = t
      · subst h
        rw [if_neg (Ne.symm hs)]
        simp [Counts.get]
      · simp only [Counts.get, List.find?_cons, h, decide_false] at ih ⊢
        exact ih

theorem Counts.mem_set (c : Counts) (s : List Nat) (x : ℝ) : ∀ e ∈ c.set s x, e.1 = s ∨ e ∈ c := by
  induction c with
  | nil => intro e he; simp [Counts.set] at he; exact .inl (by rw [he])
  | cons a c ih =>
    obtain ⟨s', x'⟩ := a
    intro e he
    by_cases hs : s' = s
    · simp only [Counts.set, hs, if_true, List.mem_cons] at he
      rcases he with rfl | he
      · exact .inl rfl
      · exact .inr (List.mem_cons_of_mem _ he)
    · simp only [Counts.set, hs, if_false, List.mem_cons] at he
      rcases he with rfl | he
      · exact .inr (by simp)
      · exact (ih e he).imp id (fun h => List.mem_cons_of_mem _ h)

theorem project_inj {n : Nat} {post : List (Nat × Nat)} {s s' : List Nat} (hs : s.length = n) (hs' : s'.length = n) (h : Selected post s) (h' : Selected post s')
    (e : project s post = project s' post) : s = s' := by
  refine eq_of_getD hs hs' (fun k hk => ?_)
  by_cases hm : k ∈ post.map Prod.fst
  · obtain ⟨p, hp, rfl⟩ := List.mem_map.1 hm
    rw [h p hp, h' p hp]
  · unfold project at e
    rw [hs, hs'] at e
    exact List.map_inj_left.1 e k (List.mem_filter.2 ⟨List.mem_range.2 hk, by simpa using hm⟩)

theorem Counts.get_cons_ne (c : Counts) {s t : List Nat} (x : ℝ) (h : s ≠ t) : Counts.get ((s, x) :: c) t = c.get t := by
  simp [Counts.get, List.find?_cons, h]

theorem Counts.get_cons_self (c : Counts) (s : List Nat) (x : ℝ) : Counts.get ((s, x) :: c) s = x := by
  simp [Counts.get]

theorem Counts.get_not_mem (c : Counts) (s : List Nat) (h : s ∉ c.map Prod.fst) : c.get s = 0 := by
  induction c with
  | nil => rfl
  | cons a c ih =>
    obtain ⟨t, x⟩ := a
    simp only [List.map_cons, List.mem_cons, not_or] at h
    rw [Counts.get_cons_ne _ _ (Ne.symm h.1), ih h.2]

theorem postSelect_spec {n : Nat} {post : List (Nat × Nat)} (hp : ∀ p ∈ post, p.1 < n) (counts : Counts) (hl : ∀ e ∈ counts, e.1.length = n)
    (hk : (counts.map Prod.fst).Nodup) (acc : Counts) : ∃ r, postSelect post acc counts = .ok r ∧
      (∀ s, s.length = n → Selected post s → r.get (project s post) = if s ∈ counts.map Prod.fst then counts.get s else acc.get (project s post)) ∧
      (∀ key, (∀ s ∈ counts.map Prod.fst, Selected post s → project s post ≠ key) → r.get key = acc.get key) ∧
      (∀ e ∈ r, (∃ a ∈ acc, a.1 = e.1) ∨ ∃ s, s.length = n ∧ Selected post s ∧ e.1 = project s post) := by
  classical
  induction counts generalizing acc with
  | nil => exact ⟨acc, rfl, by simp, by simp, fun e he => .inl ⟨e, he, rfl⟩⟩
  | cons a counts ih =>
    obtain ⟨s0, x⟩ := a
    have hs0 : s0.length = n := hl (s0, x) (by simp)
    have hnd := hk
    rw [List.map_cons, List.nodup_cons] at hnd
    have hl' : ∀ e ∈ counts, e.1.length = n := fun e he => hl e (List.mem_cons_of_mem _ he)
    obtain ⟨g1, g2⟩ := agrees_spec s0 post (by rw [hs0]; exact hp)
    by_cases hsel : Selected post s0
    · obtain ⟨r, r1, r2, r3, r4⟩ := ih hl' hnd.2 (acc.set (project s0 post) x)
      refine ⟨r, by rw [postSelect, g1 hsel]; exact r1, ?_, ?_, ?_⟩
      · intro s hs hss
        rw [r2 s hs hss]
        by_cases e : s0 = s
        · subst e
          rw [if_neg hnd.1, Counts.get_set, if_pos rfl, if_pos (by simp), Counts.get_cons_self]
        · have hne : project s0 post ≠ project s post := fun h => e (project_inj hs0 hs hsel hss h)
          rw [Counts.get_set, if_neg hne, Counts.get_cons_ne _ _ e]
          refine if_congr ?_ rfl rfl
          simp [Ne.symm e]
      · intro key hkey
        rw [r3 key (fun s hs => hkey s (by rw [List.map_cons]; exact List.mem_cons_of_mem _ hs)), Counts.get_set, if_neg (hkey s0 (by simp) hsel)]
      · intro e he
        rcases r4 e he with ⟨b, hb, hbe⟩ | h
        · rcases Counts.mem_set acc _ _ b hb with h | h
          · exact .inr ⟨s0, hs0, hsel, by rw [← hbe, h]⟩
          · exact .inl ⟨b, h, hbe⟩
        · exact .inr h
    · obtain ⟨r, r1, r2, r3, r4⟩ := ih hl' hnd.2 acc
      refine ⟨r, by rw [postSelect, g2 hsel]; exact r1, ?_, ?_, r4⟩
      · intro s hs hss
        have e : s0 ≠ s := fun h => hsel (h ▸ hss)
        rw [r2 s hs hss, Counts.get_cons_ne _ _ e]
        refine if_congr ?_ rfl rfl
        simp [Ne.symm e]
      · intro key hkey
        exact r3 key (fun s hs => hkey s (by rw [List.map_cons]; exact List.mem_cons_of_mem _ hs))

theorem Counts.get_scale (c : Counts) (x : ℝ) (s : List Nat) : Counts.get (c.map (fun e => (e.1, e.2 * x))) s = c.get s * x := by
  induction c with
  | nil => simp [Counts.get]
  | cons a c ih =>
    obtain ⟨t, y⟩ := a
    by_cases h : t = s
    · subst h; simp [Counts.get]
    · rw [List.map_cons, Counts.get_cons_ne _ _ h, ih, Counts.get_cons_ne _ _ h]

theorem project_length {post : List (Nat × Nat)} {s : List Nat} (hp : ∀ p ∈ post, p.1 < s.length) (hnd : (post.map Prod.fst).Nodup) :
    (project s post).length = s.length - post.length := by
  have h1 : ((List.range s.length).filter (fun (i : Nat) => (post.map Prod.fst).contains i)).length = post.length := by
    rw [← List.length_map (f := Prod.fst) (as := post)]
    refine List.Perm.length_eq ((List.perm_ext_iff_of_nodup (List.nodup_range.filter _) hnd).2 (fun q => ?_))
    simp only [List.mem_filter, List.mem_range, List.contains_iff_mem]
    refine ⟨fun h => h.2, fun h => ⟨?_, h⟩⟩
    obtain ⟨p, hpm, rfl⟩ := List.mem_map.1 h
    exact hp p hpm
  have h2 := List.length_eq_length_filter_add (l := List.range s.length) (fun (i : Nat) => (post.map Prod.fst).contains i)
  rw [h1, List.length_range] at h2
  rw [project, List.length_map]
  omega

/-- **C56.** `get_counts` followed by the construction of the result: for every circuit whose post-selection refers to existing bits, and for all counts,
the number for a bitstring `s` that has the post-selected values is found, scaled, at the bits of `s` that are not post-selected; all other entries are 0. -/
theorem C56_counts (c : TkCircuit) (hp : ∀ p ∈ c.postSelection, p.1 < c.nBits) (hnd : (c.postSelection.map Prod.fst).Nodup) (counts : Counts)
    (hl : ∀ e ∈ counts, e.1.length = c.nBits) (hk : (counts.map Prod.fst).Nodup) :
    ∃ r result, getCounts c counts = .ok r ∧ resultOf c r = .ok (c.nBits - c.postSelection.length, result) ∧
      (∀ s, s.length = c.nBits → Selected c.postSelection s → result (project s c.postSelection) = counts.get s * c.scalar) ∧
      (∀ β, (∀ s, s.length = c.nBits → Selected c.postSelection s → project s c.postSelection ≠ β) → result β = 0) := by
  classical
  obtain ⟨r, r1, r2, r3, r4⟩ := postSelect_spec hp counts hl hk []
  refine ⟨r.map (fun e => (e.1, e.2 * c.scalar)), fun β => Counts.get (r.map (fun e => (e.1, e.2 * c.scalar))) β, by rw [getCounts, r1], ?_, ?_, ?_⟩
  · rw [resultOf, if_pos]
    rw [List.all_eq_true]
    intro e he
    obtain ⟨e', he', rfl⟩ := List.mem_map.1 he
    rcases r4 e' he' with ⟨a, ha, _⟩ | ⟨s, hs, _, e2⟩
    · cases ha
    · simp only [decide_eq_true_eq]
      rw [e2, project_length (by rw [hs]; exact hp) hnd, hs]
  · intro s hs hss
    beta_reduce
    rw [Counts.get_scale, r2 s hs hss]
    by_cases hm : s ∈ counts.map Prod.fst
    · rw [if_pos hm]
    · rw [if_neg hm, Counts.get_not_mem counts s hm]; rfl
  · intro β hβ
    beta_reduce
    rw [Counts.get_scale, r3 β (fun s hs hss => hβ s (by
      obtain ⟨e, he, rfl⟩ := List.mem_map.1 hs
      exact hl e he) hss)]
    simp [Counts.get]

/-- Three bits, the middle one post-selected on 1. -/
example : ∃ r result, getCounts ⟨3, 3, [], [(0, 0), (1, 1), (2, 2)], [(1, 1)], 2⟩ [([0, 1, 1], 1 / 4), ([0, 0, 1], 3 / 4)] = .ok r ∧
    resultOf ⟨3, 3, [], [(0, 0), (1, 1), (2, 2)], [(1, 1)], 2⟩ r = .ok (2, result) ∧ result [0, 1] = 1 / 2 := by
  obtain ⟨r, result, h1, h2, h3, _⟩ := C56_counts ⟨3, 3, [], [(0, 0), (1, 1), (2, 2)], [(1, 1)], 2⟩ (by simp) (by simp) [([0, 1, 1], 1 / 4), ([0, 0, 1], 3 / 4)]
    (by simp) (by simp)
  refine ⟨r, result, h1, h2, ?_⟩
  have := h3 [0, 1, 1] rfl (by simp [Selected])
  have e : project [0, 1, 1] [(1, 1)] = [0, 1] := by decide
  rw [e] at this
  rw [this]
  simp [Counts.get]; norm_num

/-- **C56 (every open bitstring is reached).** -/
theorem C56_entries (post : List (Nat × Nat)) (n : Nat) (hp : ∀ p ∈ post, p.1 < n) (hnd : (post.map Prod.fst).Nodup) (β : List Nat) (hβ : β.length = n - post.length) :
    ∃ s, s.length = n ∧ Selected post s ∧ project s post = β := by
  have hlen : ((List.range n).filter (fun (i : Nat) => !(post.map Prod.fst).contains i)).length = β.length := by
    have := project_length (s := List.replicate n 0) (post := post) (by simpa using hp) hnd
    rw [project, List.length_map, List.length_replicate] at this
    rw [this, hβ]
  let val : Nat → Nat := fun i => match post.find? (fun p => p.1 = i) with
    | some p => p.2
    | none => β.getD (((List.range n).filter (fun (i : Nat) => !(post.map Prod.fst).contains i)).idxOf i) 0
  have hg : ∀ i, i < n → ((List.range n).map val).getD i 0 = val i := by
    intro i hi
    simp [List.getD_eq_getElem?_getD, List.getElem?_range hi]
  refine ⟨(List.range n).map val, by simp, ?_, ?_⟩
  · intro p hpm
    rw [hg _ (hp p hpm)]
    have hfind : post.find? (fun q => q.1 = p.1) = some p := by
      clear hlen hg hβ val
      induction post with
      | nil => cases hpm
      | cons a post ih =>
        rw [List.map_cons, List.nodup_cons] at hnd
        rcases List.mem_cons.1 hpm with rfl | hpm
        · simp
        · have hne : a.1 ≠ p.1 := fun h => hnd.1 (h ▸ List.mem_map.2 ⟨p, hpm, rfl⟩)
          simp only [List.find?_cons, hne, decide_false]
          exact ih (fun q hq => hp q (List.mem_cons_of_mem _ hq)) hnd.2 hpm
    simp only [val, hfind]
  · have hl : (project ((List.range n).map val) post).length = β.length := by
      rw [project_length (by simpa using hp) hnd, hβ]; simp
    refine List.ext_getElem hl (fun k h1 h2 => ?_)
    simp only [project, List.length_map, List.length_range] at h1 ⊢
    rw [List.getElem_map]
    set l := (List.range n).filter (fun (i : Nat) => !(post.map Prod.fst).contains i) with hdef
    have hm : l[k] ∈ l := List.getElem_mem _
    have hm2 := List.mem_filter.1 hm
    rw [hg _ (List.mem_range.1 hm2.1)]
    have hnone : post.find? (fun p => p.1 = l[k]) = none := by
      rw [List.find?_eq_none]
      intro p hpm e
      have := hm2.2
      simp only [Bool.not_eq_true', List.contains_eq_mem, decide_eq_false_iff_not] at this
      exact this (List.mem_map.2 ⟨p, hpm, by simpa using e⟩)
    have hidx : l.idxOf l[k] = k := List.Nodup.idxOf_getElem (List.nodup_range.filter _) k _
    simp only [val, hnone]
    rw [← hdef, hidx]
    simp [List.getD_eq_getElem?_getD, h2]

end
end QBox
end Lambeq
