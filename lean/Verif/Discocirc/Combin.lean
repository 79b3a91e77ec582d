import Verif.Discocirc.Circuit

/-!
# DisCoCirc circuits: the numbering of wires (C88)
-/

namespace Lambeq
open Diagram
set_option linter.unusedSimpArgs false
set_option linter.unusedVariables false
namespace Disco

/-! ## Which wires a sentence uses -/

theorem entities_append {α : Type} [DecidableEq α] (es as bs : List α) : entities es (as ++ bs) = entities (entities es as) bs := by
  induction as generalizing es with
  | nil => rfl
  | cons a as ih => simp [entities, ih]

theorem entities_prefix {α : Type} [DecidableEq α] (es as : List α) : ∃ new, entities es as = es ++ new := by
  induction as generalizing es with
  | nil => exact ⟨[], by simp [entities]⟩
  | cons a as ih =>
    rw [entities]
    by_cases h : a ∈ es
    · rw [if_pos h]; exact ih es
    · rw [if_neg h]
      obtain ⟨new, e⟩ := ih (es ++ [a])
      exact ⟨a :: new, by rw [e]; simp⟩

theorem entities_nodup {α : Type} [DecidableEq α] (es as : List α) (h : es.Nodup) : (entities es as).Nodup := by
  induction as generalizing es with
  | nil => exact h
  | cons a as ih =>
    rw [entities]
    by_cases ha : a ∈ es
    · rw [if_pos ha]; exact ih es h
    · rw [if_neg ha]
      refine ih _ ?_
      rw [List.nodup_append]
      refine ⟨h, by simp, ?_⟩
      intro x hx y hy
      simp at hy; subst hy
      rintro rfl; exact ha hx

theorem mem_entities {α : Type} [DecidableEq α] (es as : List α) (x : α) : x ∈ entities es as ↔ x ∈ es ∨ x ∈ as := by
  induction as generalizing es with
  | nil => simp [entities]
  | cons a as ih =>
    rw [entities, ih]
    by_cases ha : a ∈ es
    · rw [if_pos ha]
      simp only [List.mem_cons]
      constructor
      · rintro (h | h)
        · exact .inl h
        · exact .inr (.inr h)
      · rintro (h | rfl | h)
        · exact .inl h
        · exact .inl ha
        · exact .inr h
    · rw [if_neg ha]
      simp only [List.mem_append, List.mem_cons, List.not_mem_nil, or_false]
      tauto

/-- The state of the loop after the nouns `done`. -/
structure Inv {α β : Type} [DecidableEq α] (n0 : List α) (b0 : List β) (done : List (α × β)) (s : Wires α β) : Prop where
  n2w : s.n2w = entities n0 (done.map Prod.fst)
  pre : s.pre + n0.length = s.n2w.length
  boxes : s.boxes.length + n0.length = b0.length + s.n2w.length
  pref : s.boxes = b0 ++ firstBoxes n0 done
  ids : s.ids = done.map (fun p => s.n2w.idxOf p.1)
  anc : s.anc = (List.range n0.length).filter (fun w => decide (w ∉ s.ids))
  used : ∀ w, n0.length ≤ w → w < s.n2w.length → w ∈ s.ids

theorem idxOf_append_of_mem {α : Type} [DecidableEq α] {l : List α} {a : α} (m : List α) (h : a ∈ l) : (l ++ m).idxOf a = l.idxOf a := by
  rw [List.idxOf_append, if_pos h]

theorem firstBoxes_snoc {α β : Type} [DecidableEq α] (es : List α) (ps : List (α × β)) (p : α × β) :
    firstBoxes es (ps ++ [p]) = firstBoxes es ps ++ (if p.1 ∈ entities es (ps.map Prod.fst) then [] else [p.2]) := by
  induction ps generalizing es with
  | nil => simp only [List.nil_append, firstBoxes, List.map_nil, entities]
  | cons q ps ih =>
    rw [List.cons_append, firstBoxes, firstBoxes, List.map_cons, entities]
    by_cases h : q.1 ∈ es
    · rw [if_pos h, if_pos h, if_pos h, ih]
    · rw [if_neg h, if_neg h, if_neg h, ih, List.cons_append]

theorem Inv.step {α β : Type} [DecidableEq α] {n0 : List α} {b0 : List β} {done : List (α × β)} {s : Wires α β} (h : Inv n0 b0 done s) (p : α × β) :
    Inv n0 b0 (done ++ [p]) (nounStep s p) := by
  have hmem : ∀ q ∈ done, q.1 ∈ s.n2w := by
    intro q hq
    rw [h.n2w, mem_entities]; exact .inr (List.mem_map.2 ⟨q, hq, rfl⟩)
  have hanc : ∀ (ids : List Nat) (w : Nat), (((List.range n0.length).filter (fun w => decide (w ∉ ids))).filter (fun a => a != w)) =
      (List.range n0.length).filter (fun a => decide (a ∉ ids ++ [w])) := by
    intro ids w
    rw [List.filter_filter]
    refine List.filter_congr (fun a _ => ?_)
    rw [Bool.eq_iff_iff]
    simp [and_comm]
  by_cases hp : p.1 ∈ s.n2w
  · have e : nounStep s p = { s with anc := s.anc.filter (fun a => a != s.n2w.idxOf p.1), ids := s.ids ++ [s.n2w.idxOf p.1] } := by
      simp only [nounStep, if_pos hp]
    rw [e]
    refine ⟨?_, h.pre, h.boxes, ?_, ?_, ?_, ?_⟩
    · simp only [List.map_append, List.map_cons, List.map_nil]
      rw [entities_append, ← h.n2w, entities, if_pos hp]; rfl
    · rw [firstBoxes_snoc, ← h.n2w, if_pos hp, List.append_nil]; exact h.pref
    · simp only [List.map_append, List.map_cons, List.map_nil]; rw [h.ids]
    · simp only; rw [h.anc]; exact hanc _ _
    · intro w h1 h2
      exact List.mem_append_left _ (h.used w h1 h2)
  · have e : nounStep s p = ⟨s.n2w ++ [p.1], s.pre + 1, s.boxes ++ [p.2], s.anc.filter (fun a => a != (s.n2w ++ [p.1]).idxOf p.1),
        s.ids ++ [(s.n2w ++ [p.1]).idxOf p.1]⟩ := by
      simp only [nounStep, if_neg hp]
    have hix : (s.n2w ++ [p.1]).idxOf p.1 = s.n2w.length := by
      rw [List.idxOf_append, if_neg hp]; simp
    rw [e]
    refine ⟨?_, ?_, ?_, ?_, ?_, ?_, ?_⟩
    · simp only [List.map_append, List.map_cons, List.map_nil]
      rw [entities_append, ← h.n2w, entities, if_neg hp]; rfl
    · have := h.pre; simp; omega
    · have := h.boxes; simp; omega
    · rw [firstBoxes_snoc, ← h.n2w, if_neg hp, ← List.append_assoc, ← h.pref]
    · simp only [List.map_append, List.map_cons, List.map_nil]
      rw [h.ids]
      congr 1
      refine List.map_congr_left (fun q hq => ?_)
      rw [idxOf_append_of_mem _ (hmem q hq)]
    · simp only; rw [h.anc]; exact hanc _ _
    · intro w h1 h2
      simp only [List.length_append, List.length_singleton] at h2
      rcases Nat.lt_or_ge w s.n2w.length with h3 | h3
      · exact List.mem_append_left _ (h.used w h1 h3)
      · rw [List.mem_append, hix]; right; simp; omega

theorem collect_inv {α β : Type} [DecidableEq α] (n0 : List α) (b0 : List β) (ps : List (α × β)) : Inv n0 b0 ps (collect n0 b0 ps) := by
  have key : ∀ (ps done : List (α × β)) (s : Wires α β), Inv n0 b0 done s → Inv n0 b0 (done ++ ps) (ps.foldl nounStep s) := by
    intro ps
    induction ps with
    | nil => intro done s h; simpa using h
    | cons p ps ih =>
      intro done s h
      have := ih (done ++ [p]) _ (h.step p)
      simpa using this
  refine key ps [] _ ⟨rfl, by simp, by simp, by simp [firstBoxes], rfl, ?_, ?_⟩
  · simp
  · intro w h1 h2; simp only at h2; omega

/-! ## The permutation -/

theorem lookup_aux (S : List Nat) (off L : Nat) (h : off + S.length = L) (f0 : Nat → Nat) (w : Nat) (hw : w ∈ S) :
    (S.reverse.zipIdx).foldl (fun (f : Nat → Nat) (p : Nat × Nat) (w : Nat) => if w = p.1 then L - p.2 - 1 else f w) f0 w = off + S.idxOf w := by
  induction S generalizing off with
  | nil => simp at hw
  | cons a S ih =>
    simp only [List.length_cons] at h
    rw [List.reverse_cons, List.zipIdx_append, List.foldl_append]
    simp only [List.zipIdx_cons, List.zipIdx_nil, List.foldl_cons, List.foldl_nil, List.length_reverse, Nat.zero_add]
    by_cases e : w = a
    · subst e
      simp; omega
    · rw [if_neg e]
      have hw' : w ∈ S := by simpa [e] using hw
      rw [ih (off + 1) (by omega) hw', List.idxOf_cons_ne _ (fun h => e h.symm)]
      omega

theorem lookup_eq (ws : List Nat) (w : Nat) (hw : w ∈ ws) : lookup ws w = (ws.insertionSort (· ≤ ·)).idxOf w := by
  have hp := List.perm_insertionSort (· ≤ · : Nat → Nat → Prop) ws
  have := lookup_aux (ws.insertionSort (· ≤ ·)) 0 ws.length (by rw [hp.length_eq]; simp) (fun _ => 0) w (hp.mem_iff.2 hw)
  rw [lookup, this, Nat.zero_add]

theorem permAux_get (f : Nat → Nat) (ws : List Nat) (j : Nat) (hj : j < ws.length) :
    (permAux f ws)[j]? = some ((f ws[j] + (ws.take j).count ws[j] : Nat) : Int) := by
  induction ws generalizing f j with
  | nil => simp at hj
  | cons w ws ih =>
    cases j with
    | zero => simp [permAux]
    | succ j =>
      simp only [List.length_cons] at hj
      rw [permAux, List.getElem?_cons_succ, ih _ j (by omega)]
      simp only [List.getElem_cons_succ, List.take_succ_cons, List.count_cons]
      congr 2
      by_cases e : ws[j] = w
      · simp [e]; omega
      · simp [e, Ne.symm e]

theorem permAux_length (f : Nat → Nat) (ws : List Nat) : (permAux f ws).length = ws.length := by
  induction ws generalizing f with
  | nil => rfl
  | cons w ws ih => simp [permAux, ih]

/-- In a sorted list equal elements follow each other. -/
theorem sorted_block (S : List Nat) (hs : S.Pairwise (· ≤ ·)) (w c : Nat) (hc : c < S.count w) : S[S.idxOf w + c]? = some w := by
  induction S generalizing c with
  | nil => simp at hc
  | cons a S ih =>
    rw [List.pairwise_cons] at hs
    by_cases e : a = w
    · subst e
      rw [List.idxOf_cons_self, Nat.zero_add]
      cases c with
      | zero => rfl
      | succ c =>
        simp only [List.count_cons_self] at hc
        have hm : a ∈ S := List.count_pos_iff.1 (by omega)
        have h0 : S.idxOf a = 0 := by
          cases S with
          | nil => simp at hm
          | cons b S =>
            have h1 := hs.1 b (by simp)
            rcases List.mem_cons.1 hm with rfl | hm
            · simp
            · have := (List.pairwise_cons.1 hs.2).1 a hm
              have : a = b := by omega
              subst this; simp
        have := ih hs.2 c (by omega)
        rw [h0, Nat.zero_add] at this
        rw [List.getElem?_cons_succ]; exact this
    · rw [List.idxOf_cons_ne _ e, Nat.succ_add, List.getElem?_cons_succ]
      rw [List.count_cons_of_ne e] at hc
      exact ih hs.2 c hc

theorem permList_length (ws : List Nat) : (permList ws).length = ws.length := permAux_length _ _

theorem count_take_lt (ws : List Nat) (j : Nat) (hj : j < ws.length) : (ws.take j).count ws[j] < ws.count ws[j] := by
  have e : ws.count ws[j] = (ws.take j).count ws[j] + (ws.drop j).count ws[j] := by
    rw [← List.count_append, List.take_append_drop]
  have h2 : 0 < (ws.drop j).count ws[j] := by
    rw [List.count_pos_iff, List.drop_eq_getElem_cons hj]; exact List.mem_cons_self
  omega

/-- The values of the permutation. -/
theorem permList_get (ws : List Nat) (j : Nat) (hj : j < ws.length) : ∃ p : Nat, (permList ws)[j]? = some (p : Int) ∧
    p = (ws.insertionSort (· ≤ ·)).idxOf ws[j] + (ws.take j).count ws[j] ∧ (ws.insertionSort (· ≤ ·))[p]? = some ws[j] := by
  have hp := List.perm_insertionSort (· ≤ · : Nat → Nat → Prop) ws
  refine ⟨_, permAux_get _ ws j hj, by rw [lookup_eq _ _ (List.getElem_mem hj)], ?_⟩
  rw [lookup_eq _ _ (List.getElem_mem hj)]
  refine sorted_block _ (List.pairwise_insertionSort _ _) _ _ ?_
  rw [hp.count_eq]
  exact count_take_lt ws j hj

theorem permList_nodup (ws : List Nat) (j k : Nat) (hj : j < ws.length) (hk : k < ws.length) (h : (permList ws)[j]? = (permList ws)[k]?) : j = k := by
  wlog hjk : j ≤ k generalizing j k
  · exact (this k j hk hj h.symm (by omega)).symm
  by_contra hne
  obtain ⟨p, h1, h2, h3⟩ := permList_get ws j hj
  obtain ⟨q, h4, h5, h6⟩ := permList_get ws k hk
  have e : p = q := by
    rw [h1, h4] at h; simpa using h
  subst e
  have ew : ws[j] = ws[k] := by rw [h3] at h6; simpa using h6
  rw [ew] at h2
  have : (ws.take j).count ws[k] = (ws.take k).count ws[k] := by omega
  have hlt : (ws.take j).count ws[k] < (ws.take k).count ws[k] := by
    have e2 : ws.take k = ws.take j ++ (ws.take k).drop j := by
      conv_lhs => rw [← List.take_append_drop j (ws.take k), List.take_take, Nat.min_eq_left hjk]
    rw [e2, List.count_append]
    have : 0 < ((ws.take k).drop j).count ws[k] := by
      rw [List.count_pos_iff, ← ew]
      have e3 : ws[j] = (ws.take k)[j]'(by simp; omega) := by simp
      rw [e3, List.drop_eq_getElem_cons (by simp; omega)]
      exact List.mem_cons_self
    omega
  omega

theorem permList_valid (ws : List Nat) : validPerm ws.length (permList ws) = true := by
  rw [validPerm_iff]
  have hp := List.perm_insertionSort (· ≤ · : Nat → Nat → Prop) ws
  have hmem : ∀ x ∈ permList ws, 0 ≤ x ∧ x < ws.length := by
    intro x hx
    obtain ⟨j, hj, e⟩ := List.getElem_of_mem hx
    rw [permList_length] at hj
    obtain ⟨p, h1, h2, h3⟩ := permList_get ws j hj
    rw [List.getElem?_eq_getElem (by rw [permList_length]; exact hj), e] at h1
    have := (List.getElem?_eq_some_iff.1 h3).1
    rw [hp.length_eq] at this
    simp at h1
    omega
  refine ⟨permList_length ws, hmem, ?_⟩
  have hnd : (permList ws).Nodup := by
    rw [List.nodup_iff_injective_getElem]
    rintro ⟨j, hj⟩ ⟨k, hk⟩ h
    have hj' := hj; have hk' := hk
    rw [permList_length] at hj' hk'
    have := permList_nodup ws j k hj' hk' (by rw [List.getElem?_eq_getElem hj, List.getElem?_eq_getElem hk]; exact congrArg some h)
    exact Fin.ext this
  have hsub : (permList ws) ⊆ (List.range ws.length).map Int.ofNat := by
    intro x hx
    have := hmem x hx
    exact List.mem_map.2 ⟨x.toNat, by simp; omega, by simp; omega⟩
  have hperm : (permList ws).Perm ((List.range ws.length).map Int.ofNat) :=
    (hnd.subperm hsub).perm_of_length_le (by simp [permList_length])
  intro i hi
  exact hperm.mem_iff.2 (List.mem_map.2 ⟨i, by simpa using hi, rfl⟩)

/-- Labels on the sorted wires arrive in the order of `ws`. -/
theorem permList_labels {γ : Type} (ws : List Nat) (x : Nat → γ) :
    ((permList ws).map Int.toNat).map (fun i => ((ws.insertionSort (· ≤ ·)).map x)[i]?) = (ws.map x).map some := by
  refine List.ext_getElem? (fun j => ?_)
  rcases Nat.lt_or_ge j ws.length with hj | hj
  · obtain ⟨p, h1, h2, h3⟩ := permList_get ws j hj
    rw [List.getElem?_map, List.getElem?_map, h1, List.getElem?_map, List.getElem?_map, List.getElem?_eq_getElem hj]
    simp only [Option.map_some, Int.toNat_natCast, List.getElem?_map, h3]
  · rw [List.getElem?_eq_none (by simp [permList_length]; exact hj), List.getElem?_eq_none (by simpa using hj)]

/-! ## Sorting by counting -/

theorem count_blocks (ws : List Nat) (K a : Nat) :
    (((List.range K).map (fun w => List.replicate (ws.count w) w)).flatten).count a = if a < K then ws.count a else 0 := by
  induction K with
  | zero => simp
  | succ K ih =>
    rw [List.range_succ, List.map_append, List.flatten_append, List.count_append, ih]
    simp only [List.map_cons, List.map_nil, List.flatten_cons, List.flatten_nil, List.append_nil, List.count_replicate]
    by_cases h : a < K
    · have : K ≠ a := by omega
      simp [h, this]; omega
    · by_cases h2 : a = K
      · subst h2; simp
      · have h3 : ¬ a < K + 1 := by omega
        have : K ≠ a := fun e => h2 e.symm
        simp [h, h3, this]

theorem sorted_blocks (ws : List Nat) (K : Nat) (h : ∀ w ∈ ws, w < K) :
    ws.insertionSort (· ≤ ·) = ((List.range K).map (fun w => List.replicate (ws.count w) w)).flatten := by
  refine List.Perm.eq_of_pairwise (le := (· ≤ ·)) (fun a b _ _ h1 h2 => by omega) (List.pairwise_insertionSort _ _) ?_ ?_
  · rw [List.pairwise_flatten]
    constructor
    · intro l hl
      obtain ⟨w, _, rfl⟩ := List.mem_map.1 hl
      rw [List.pairwise_replicate]; right; exact le_refl _
    · rw [List.pairwise_map]
      refine List.Pairwise.imp ?_ List.pairwise_lt_range
      intro a b hab x hx y hy
      rw [List.eq_of_mem_replicate hx, List.eq_of_mem_replicate hy]; omega
  · refine (List.perm_insertionSort _ _).trans ?_
    rw [List.perm_iff_count]
    intro a
    rw [count_blocks]
    by_cases ha : a < K
    · rw [if_pos ha]
    · rw [if_neg ha, List.count_eq_zero]
      exact fun hm => ha (h a hm)

theorem foldr_max (ws : List Nat) (K : Nat) (h : ∀ w ∈ ws, w < K + 1) (hK : K ∈ ws) : ws.foldr max 0 = K := by
  apply le_antisymm
  · have : ∀ l : List Nat, (∀ w ∈ l, w < K + 1) → l.foldr max 0 ≤ K := by
      intro l hl
      induction l with
      | nil => simp
      | cons a l ih =>
        rw [List.foldr_cons]
        exact max_le (by have := hl a (by simp); omega) (ih (fun w hw => hl w (List.mem_cons_of_mem _ hw)))
    exact this ws h
  · have : ∀ l : List Nat, K ∈ l → K ≤ l.foldr max 0 := by
      intro l hl
      induction l with
      | nil => simp at hl
      | cons a l ih =>
        rw [List.foldr_cons]
        rcases List.mem_cons.1 hl with rfl | hl
        · exact le_max_left _ _
        · exact le_trans (ih hl) (le_max_right _ _)
    exact this ws hK

end Disco
end Lambeq
